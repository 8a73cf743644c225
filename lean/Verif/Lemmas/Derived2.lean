/-
More lemmas on derived contexts: intents of subcontexts, row codes modulo 2^64,
deletion loops and counters.
-/
import Verif.Lemmas.Reduce
import Verif.Lemmas.DGContext
import Mathlib.Data.List.Count

set_option linter.unusedSectionVars false

open Spec

namespace Ctx

variable {α β : Type} [DecidableEq α] [DecidableEq β]

/-- A context with fewer objects, whose rows generate the others by intersection, has the same
intents. -/
theorem intents_of_sub {c d : Ctx α β} (hM : d.attributes = c.attributes)
    (hobj : ∀ o ∈ d.objects, o ∈ c.objects) (hinc : ∀ o ∈ d.objects, ∀ a, d.Inc o a ↔ c.Inc o a)
    (hdense : ∀ g ∈ c.objects, ∀ m ∈ c.attributes,
      (∀ g' ∈ d.objects, (∀ b ∈ c.attributes, c.Inc g b → c.Inc g' b) → c.Inc g' m) → c.Inc g m) (B : Finset β) :
    IsIntent d.G d.M d.Inc B ↔ IsIntent c.G c.M c.Inc B := by
  have hsub : d.G ⊆ c.G := by
    intro o ho
    simp only [G, List.mem_toFinset] at ho ⊢
    exact hobj o ho
  have hM : d.M = c.M := by simp only [M, hM]
  have hcl := (same_closure (I := c.Inc) (M := c.M) hsub (by
    intro g hg m hm hall
    simp only [G, M, List.mem_toFinset] at hg hm hall
    exact hdense g hg m hm hall)).2
  rw [hcl, hM]
  unfold IsIntent IsConcept
  constructor
  · rintro ⟨A, h5, h6⟩
    have hA : ∀ g ∈ A, g ∈ d.objects := fun g hg => by
      have := ((h6 g).1 hg).1; simpa [G] using this
    refine ⟨A, fun m => ?_, fun g => ?_⟩
    · rw [h5]; exact and_congr_right fun _ => forall₂_congr fun g hg => hinc g (hA g hg) m
    · rw [h6]; exact and_congr_right fun hg => forall₂_congr fun m _ => hinc g (by simpa [G] using hg) m
  · rintro ⟨A, h5, h6⟩
    have hA : ∀ g ∈ A, g ∈ d.objects := fun g hg => by
      have := ((h6 g).1 hg).1; simpa [G] using this
    refine ⟨A, fun m => ?_, fun g => ?_⟩
    · rw [h5]; exact and_congr_right fun _ => forall₂_congr fun g hg => (hinc g (hA g hg) m).symm
    · rw [h6]; exact and_congr_right fun hg => forall₂_congr fun m _ => (hinc g (by simpa [G] using hg) m).symm

/-- Transposition exchanges intents and extents. -/
theorem extent_transpose {c : Ctx α β} {d : Ctx β α} (h1 : d.objects = c.attributes)
    (h2 : d.attributes = c.objects) (h3 : ∀ a o, d.Inc a o ↔ c.Inc o a) (A : Finset α) :
    IsIntent d.G d.M d.Inc A ↔ IsExtent c.G c.M c.Inc A := by
  unfold IsIntent IsExtent IsConcept G M
  simp only [h1, h2, h3]
  exact exists_congr fun _ => and_comm

/-! ### Codes modulo `2^64` -/

theorem list2int64_eq (l : List Bool) : list2int64 l = BitVec.ofNat 64 (list2int l) := by
  induction l with
  | nil => rfl
  | cons b l ih =>
    have h1 : list2int64 (b :: l) = (list2int64 l <<< 1) + (if b then 1 else 0) := rfl
    have h2 : list2int (b :: l) = 2 * list2int l + b.toNat := rfl
    rw [h1, h2, ih]
    apply BitVec.eq_of_toNat_eq
    simp only [BitVec.toNat_add, BitVec.toNat_shiftLeft, BitVec.toNat_ofNat, Nat.shiftLeft_eq]
    cases b <;> simp <;> omega

/-! ### Deletion loop -/

variable [PyName α] [PyName β]

theorem Stores.deleteObjects {c : Ctx α β} {t : Table α β} (h : Stores c t) (names : List α)
    (hn : names.Nodup) (hmem : ∀ o ∈ names, o ∈ t.objs) :
    ∃ c', c.deleteObjects names = (c', none) ∧
      Stores c' ⟨t.objs.filter (· ∉ names), t.atts, t.rel⟩ := by
  induction names generalizing c t with
  | nil =>
    refine ⟨c, rfl, ?_⟩
    have : (t.objs.filter fun o => decide (o ∉ ([] : List α))) = t.objs := by simp
    rw [this]
    exact h
  | cons o os ih =>
    have hne : t.objs ≠ [] := List.ne_nil_of_mem (hmem o (by simp))
    obtain ⟨c1, h1⟩ := h.returns hne (op := .deleteObject o) (hmem o (by simp))
    have h1' : c.deleteObject o = (c1, none) := h1
    have h2 := h.deleteObject h1'
    obtain ⟨ho, hos⟩ := List.nodup_cons.1 hn
    obtain ⟨c2, h3, h4⟩ := ih h2 hos (by
      intro x hx
      simp only [Table.apply, List.mem_filter]
      refine ⟨hmem x (by simp [hx]), ?_⟩
      simp only [ne_eq, decide_not, Bool.not_eq_eq_eq_not, Bool.not_true, decide_eq_false_iff_not]
      rintro rfl
      exact ho hx)
    refine ⟨c2, ?_, ?_⟩
    · simp only [Ctx.deleteObjects, h1', h3]
    · have : (t.objs.filter (fun x => decide (x ≠ o))).filter (fun x => decide (x ∉ os)) =
          t.objs.filter fun x => decide (x ∉ o :: os) := by
        rw [List.filter_filter]
        refine List.filter_congr fun x _ => ?_
        rw [← Bool.decide_and]
        simp only [List.mem_cons, not_or, decide_eq_decide]
        exact and_comm
      rw [← this]
      exact h4

/-! ### Counters -/

theorem mem_counter {l : List ℕ} {x k : ℕ} : (x, k) ∈ counter l ↔ x ∈ l ∧ k = l.count x := by
  have hk : x ∈ (dictOf (l.map fun x => (x, ()))).map Prod.fst ↔ x ∈ l := by
    rw [mem_dictOf_keys, List.map_map]; simp
  unfold counter
  rw [List.mem_map]
  constructor
  · rintro ⟨⟨y, u⟩, hy, he⟩
    simp only [Prod.mk.injEq] at he
    obtain ⟨rfl, rfl⟩ := he
    exact ⟨hk.1 (List.mem_map_of_mem (f := Prod.fst) hy), rfl⟩
  · rintro ⟨h1, rfl⟩
    obtain ⟨⟨y, u⟩, hy, he⟩ := List.mem_map.1 (hk.2 h1)
    simp only at he
    subst he
    exact ⟨(y, u), hy, rfl⟩

theorem counter_keys_nodup (l : List ℕ) : ((counter l).map Prod.fst).Nodup := by
  unfold counter
  rw [List.map_map]
  exact dictOf_keys_nodup _

theorem count_nonzero (r : List Bool) (j : ℕ) : (nonzero r).count j = if r[j]? = some true then 1 else 0 := by
  by_cases h : r[j]? = some true
  · rw [if_pos h]
    exact List.count_eq_one_of_mem (nonzero_nodup r) (mem_nonzero.2 h)
  · rw [if_neg h]
    exact List.count_eq_zero_of_not_mem fun hm => h (mem_nonzero.1 hm)

theorem count_flatMap_nonzero (rows : List (List Bool)) (j : ℕ) :
    (rows.flatMap nonzero).count j = rows.countP fun r => r[j]? = some true := by
  induction rows with
  | nil => rfl
  | cons r rows ih =>
    rw [List.flatMap_cons, List.count_append, ih, List.countP_cons, count_nonzero]
    simp only [decide_eq_true_eq]
    omega

/-- `d.get(m, 0)` for a dict given by its items. -/
def dget {κ : Type} [DecidableEq κ] (d : List (κ × ℕ)) (m : κ) : ℕ :=
  ((d.find? fun p => p.1 = m).map Prod.snd).getD 0

theorem dget_mem {κ : Type} [DecidableEq κ] {d : List (κ × ℕ)} (hd : (d.map Prod.fst).Nodup) {m : κ} {k : ℕ}
    (h : (m, k) ∈ d) : dget d m = k := by
  unfold dget
  cases hf : d.find? fun p => decide (p.1 = m) with
  | none =>
    rw [List.find?_eq_none] at hf
    exact absurd (by simp) (hf _ h)
  | some p =>
    have h1 := List.mem_of_find?_eq_some hf
    have h2 := List.find?_some hf
    simp only [decide_eq_true_eq] at h2
    have : p = (m, k) := List.inj_on_of_nodup_map hd h1 h h2
    rw [this]; rfl

theorem dget_not_mem {κ : Type} [DecidableEq κ] {d : List (κ × ℕ)} {m : κ} (h : m ∉ d.map Prod.fst) :
    dget d m = 0 := by
  unfold dget
  cases hf : d.find? fun p => decide (p.1 = m) with
  | none => rfl
  | some p =>
    have h1 := List.mem_of_find?_eq_some hf
    have h2 := List.find?_some hf
    simp only [decide_eq_true_eq] at h2
    exact absurd (h2 ▸ List.mem_map_of_mem (f := Prod.fst) h1) h

/-- Counting positions is counting names. -/
theorem countP_idx {γ : Type} [DecidableEq γ] {l : List γ} (hl : l.Nodup) {is : List ℕ} (his : is.Nodup)
    (hlt : ∀ i ∈ is, i < l.length) {p : ℕ → Bool} {q : γ → Bool}
    (hpq : ∀ i x, i ∈ is → l[i]? = some x → p i = q x) :
    is.countP p = (l.toFinset.filter fun x => (∃ i ∈ is, l[i]? = some x) ∧ q x = true).card := by
  induction is with
  | nil => simp
  | cons i is ih =>
    obtain ⟨hi, his⟩ := List.nodup_cons.1 his
    have ih := ih his (fun k hk => hlt k (by simp [hk])) (fun k x hk => hpq k x (by simp [hk]))
    have hil := hlt i (by simp)
    have hget : l[i]? = some l[i] := List.getElem?_eq_getElem hil
    rw [List.countP_cons, ih, hpq i l[i] (by simp) hget]
    have hnot : ¬ ∃ k ∈ is, l[k]? = some l[i] := by
      rintro ⟨k, hk, hk'⟩
      exact hi (nodup_idx hl hget hk' ▸ hk)
    cases hq : q l[i] with
    | false =>
      simp only [Bool.false_eq_true, if_false, add_zero]
      congr 1
      ext x
      simp only [Finset.mem_filter, List.mem_cons, exists_eq_or_imp]
      refine and_congr_right fun _ => and_congr_left fun hx => ⟨Or.inr, ?_⟩
      rintro (h | h)
      · rw [hget] at h; cases h; rw [hq] at hx; cases hx
      · exact h
    | true =>
      simp only [if_true]
      have : (l.toFinset.filter fun x => (∃ k ∈ i :: is, l[k]? = some x) ∧ q x = true) =
          insert l[i] (l.toFinset.filter fun x => (∃ k ∈ is, l[k]? = some x) ∧ q x = true) := by
        ext x
        simp only [Finset.mem_filter, Finset.mem_insert, List.mem_cons, exists_eq_or_imp, hget,
          Option.some.injEq]
        constructor
        · rintro ⟨h1, h2 | h2, h3⟩
          · exact Or.inl h2.symm
          · exact Or.inr ⟨h1, h2, h3⟩
        · rintro (rfl | ⟨h1, h2, h3⟩)
          · exact ⟨by simp, Or.inl rfl, hq⟩
          · exact ⟨h1, Or.inr h2, h3⟩
      rw [this, Finset.card_insert_of_notMem]
      simp only [Finset.mem_filter, not_and]
      exact fun _ h => absurd h hnot

/-- The items `(names[ind], count)` of a dict keyed by positions. -/
theorem items_ok {γ : Type} [DecidableEq γ] {l : List γ} (hl : l.Nodup) {d : List (ℕ × ℕ)}
    (hd : (d.map Prod.fst).Nodup) (hlt : ∀ p ∈ d, p.1 < l.length) :
    ∃ items, (d.mapM fun p => do
        let a ← pyGet l p.1
        .ok (a, p.2)) = (.ok items : Py (List (γ × ℕ))) ∧ dictOf items = items ∧
      (items.map Prod.fst).Nodup ∧
      ∀ x k, (x, k) ∈ items ↔ ∃ i, (i, k) ∈ d ∧ l[i]? = some x := by
  obtain ⟨items, h1, h2⟩ := mapM_ok' (l := d) (f := fun p => do
        let a ← pyGet l p.1
        (.ok (a, p.2) : Py (γ × ℕ))) (R := fun p q => l[p.1]? = some q.1 ∧ q.2 = p.2) (by
    rintro ⟨i, k⟩ hp
    have := hlt _ hp
    refine ⟨(l[i], k), ?_, List.getElem?_eq_getElem this, rfl⟩
    simp only [pyGet_ok (List.getElem?_eq_getElem this), py_ok_bind])
  have hnd : (items.map Prod.fst).Nodup := by
    clear h1
    induction h2 with
    | nil => simp
    | @cons p q ps qs hpq hf ih =>
      rw [List.map_cons, List.nodup_cons] at hd ⊢
      refine ⟨?_, ih hd.2 fun r hr => hlt r (by simp [hr])⟩
      intro hm
      obtain ⟨q', hq', he⟩ := List.mem_map.1 hm
      obtain ⟨p', hp', h3, _⟩ := forall₂_mem_right hf q' hq'
      rw [he] at h3
      have := nodup_idx hl h3 hpq.1
      exact hd.1 (this ▸ List.mem_map_of_mem hp')
  refine ⟨items, h1, dictOf_nodup hnd, hnd, ?_⟩
  intro x k
  constructor
  · intro hx
    obtain ⟨⟨i, k'⟩, hp, h3, h4⟩ := forall₂_mem_right h2 _ hx
    simp only at h3 h4
    exact ⟨i, h4 ▸ hp, h3⟩
  · rintro ⟨i, hi, hx⟩
    obtain ⟨⟨x', k'⟩, hq, h3, h4⟩ := forall₂_mem_left h2 _ hi
    simp only at h3 h4
    rw [hx] at h3
    cases h3
    subst h4
    exact hq

theorem dget_items {γ : Type} [DecidableEq γ] {l : List γ} (hl : l.Nodup) {d : List (ℕ × ℕ)}
    (hd : (d.map Prod.fst).Nodup) {items : List (γ × ℕ)} (hi : (items.map Prod.fst).Nodup)
    (h : ∀ x k, (x, k) ∈ items ↔ ∃ i, (i, k) ∈ d ∧ l[i]? = some x) {j : ℕ} {a : γ}
    (hj : l[j]? = some a) : dget items a = dget d j := by
  by_cases hk : j ∈ d.map Prod.fst
  · obtain ⟨⟨j', k⟩, hp, he⟩ := List.mem_map.1 hk
    simp only at he
    subst he
    rw [dget_mem hd hp, dget_mem hi ((h a k).2 ⟨_, hp, hj⟩)]
  · rw [dget_not_mem hk, dget_not_mem]
    intro hm
    obtain ⟨⟨x, k⟩, hp, he⟩ := List.mem_map.1 hm
    simp only at he
    subst he
    obtain ⟨i, hi1, hi2⟩ := (h _ _).1 hp
    rw [nodup_idx hl hi2 hj] at hi1
    exact hk (List.mem_map_of_mem (f := Prod.fst) hi1)

theorem dget_counter (l : List ℕ) (j : ℕ) : dget (counter l) j = l.count j := by
  by_cases h : j ∈ l
  · exact dget_mem (counter_keys_nodup l) (mem_counter.2 ⟨h, rfl⟩)
  · rw [List.count_eq_zero_of_not_mem h]
    apply dget_not_mem
    intro hm
    obtain ⟨⟨x, k⟩, hp, he⟩ := List.mem_map.1 hm
    simp only at he
    subst he
    exact h (mem_counter.1 hp).1

theorem dget_zero {γ : Type} [DecidableEq γ] {d : List (γ × ℕ)} (h : ∀ p ∈ d, p.2 = 0) (m : γ) : dget d m = 0 := by
  unfold dget
  cases hf : d.find? fun p => decide (p.1 = m) with
  | none => rfl
  | some p => exact h p (List.mem_of_find?_eq_some hf)

/-- Counting over rows (or columns) selected by position. -/
theorem dget_associative {get : ℕ → Py (List Bool)} {g : ℕ → List Bool} {w : ℕ} {is : List ℕ}
    (hget : ∀ i ∈ is, get i = .ok (g i)) (hw : ∀ i ∈ is, (g i).length = w) :
    ∃ d, (if is.length = 0 then (.ok ((List.range w).map fun j => (j, 0)) : Py (List (ℕ × ℕ)))
      else do
        let rows ← is.mapM get
        .ok (counter (rows.flatMap nonzero))) = .ok d ∧ (d.map Prod.fst).Nodup ∧
      (∀ p ∈ d, p.1 < w) ∧ ∀ j, dget d j = is.countP fun i => (g i)[j]? = some true := by
  by_cases his : is.length = 0
  · rw [if_pos his]
    refine ⟨_, rfl, ?_, ?_, ?_⟩
    · rw [List.map_map]
      simpa [Function.comp_def] using List.nodup_range
    · simp
    · intro j
      rw [dget_zero (by simp), List.length_eq_zero_iff.1 his]; rfl
  · rw [if_neg his, mapM_ok hget]
    refine ⟨_, rfl, counter_keys_nodup _, ?_, ?_⟩
    · rintro ⟨j, k⟩ hp
      obtain ⟨h1, _⟩ := mem_counter.1 hp
      obtain ⟨r, hr, hj⟩ := List.mem_flatMap.1 h1
      obtain ⟨i, hi, rfl⟩ := List.mem_map.1 hr
      rw [← hw i hi]
      exact lt_of_getElem? (mem_nonzero.1 hj)
    · intro j
      rw [dget_counter, count_flatMap_nonzero, List.countP_map]
      rfl

end Ctx
