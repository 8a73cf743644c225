/-
C21: the value of `lin_closure` for every list of implications, repeated ones included.
-/
import Verif.Props.Closures

variable {α : Type*} [DecidableEq α]

open Spec

/-! ### Specification -/

/-- The implications of the list that compare equal to `i`, in their order. -/
def copies (imps : List (Imp α)) (i : Imp α) : List (Imp α) := imps.filter fun j => j.pyEq i

/-- Sets closed under the implications, where an implication with `n` attributes in the premise that occurs `m` times
is applied as soon as `n / m` of them (rounded up) are there; then the conclusion of the copy with number
`(n - 1) % m` is added. -/
def EarlyClosed (imps : List (Imp α)) (d : Finset α) : Prop :=
  ∀ i ∈ imps, ∀ j, (copies imps i)[(i.premise.card - 1) % (copies imps i).length]? = some j →
    i.premise.card ≤ (copies imps i).length * (i.premise ∩ d).card → j.conclusion ⊆ d

/-! ### Proof -/

/-- The copies of an implication with a given key. -/
def keyed (l : List (Imp α)) (k : Finset α × Finset α) : List (Imp α) := l.filter fun j => decide (j.key = k)

theorem copies_eq (imps : List (Imp α)) (i : Imp α) : copies imps i = keyed imps i.key := by
  unfold copies keyed
  congr 1
  funext j
  rw [Bool.eq_iff_iff, Imp.pyEq_iff, decide_eq_true_eq]

theorem keyed_cons (i : Imp α) (l : List (Imp α)) (k : Finset α × Finset α) :
    keyed (i :: l) k = if i.key = k then i :: keyed l k else keyed l k := by
  unfold keyed
  rw [List.filter_cons]
  simp

theorem linBody_set (st : (Finset α × Finset α → ℕ) × Finset α) (i : Imp α) :
    (linBody st i).2 = if st.1 i.key = 1 then st.2 ∪ i.conclusion else st.2 := by
  unfold linBody
  by_cases h : st.1 i.key = 0
  · simp [h]
  · rw [if_neg h]
    simp only [Function.update_self]
    by_cases h1 : st.1 i.key = 1
    · simp [h1]
    · rw [if_neg (by omega), if_neg h1]

theorem linFold_exact (cur : List (Imp α)) (st : (Finset α × Finset α → ℕ) × Finset α) :
    let r := cur.foldl linBody st
    (∀ k, r.1 k = st.1 k - (keyed cur k).length) ∧
    (st.2 ⊆ r.2) ∧
    (∀ k j, 0 < st.1 k → (keyed cur k)[st.1 k - 1]? = some j → j.conclusion ⊆ r.2) ∧
    (∀ x ∈ r.2, x ∈ st.2 ∨ ∃ k j, 0 < st.1 k ∧ (keyed cur k)[st.1 k - 1]? = some j ∧ x ∈ j.conclusion) := by
  induction cur generalizing st with
  | nil => simp [keyed]
  | cons i rest ih =>
    obtain ⟨h1, h2, h3, h4⟩ := ih (linBody st i)
    have hc := linBody_count st i
    have hs := linBody_set st i
    have hsub : st.2 ⊆ (linBody st i).2 := by
      rw [hs]
      split
      · exact Finset.subset_union_left
      · exact Finset.Subset.refl _
    simp only [List.foldl_cons]
    refine ⟨?_, hsub.trans h2, ?_, ?_⟩
    · intro k
      rw [h1 k, hc, keyed_cons]
      by_cases hk : i.key = k
      · subst hk
        rw [Function.update_self, if_pos rfl, List.length_cons]
        omega
      · rw [Function.update_of_ne (Ne.symm hk), if_neg hk]
    · intro k j hp hj
      rw [keyed_cons] at hj
      by_cases hk : i.key = k
      · subst hk
        rw [if_pos rfl] at hj
        by_cases h1' : st.1 i.key = 1
        · rw [h1'] at hj
          simp only [Nat.sub_self, List.getElem?_cons_zero, Option.some.injEq] at hj
          subst hj
          refine Finset.Subset.trans ?_ h2
          rw [hs, if_pos h1']
          exact Finset.subset_union_right
        · apply h3 i.key j
          · rw [hc, Function.update_self]; omega
          · rw [hc, Function.update_self]
            obtain ⟨n, hn⟩ : ∃ n, st.1 i.key = n + 2 := ⟨_, (Nat.sub_add_cancel (by omega)).symm⟩
            rw [hn] at hj ⊢
            simpa using hj
      · rw [if_neg hk] at hj
        have hu : (linBody st i).1 k = st.1 k := by rw [hc, Function.update_of_ne (Ne.symm hk)]
        exact h3 k j (by rw [hu]; exact hp) (by rw [hu]; exact hj)
    · intro x hx
      rcases h4 x hx with hx | ⟨k, j, hp, hj, hxj⟩
      · rw [hs] at hx
        split at hx
        · rename_i h1'
          rcases Finset.mem_union.1 hx with hx | hx
          · exact .inl hx
          · refine .inr ⟨i.key, i, by omega, ?_, hx⟩
            rw [keyed_cons, if_pos rfl, h1']
            rfl
        · exact .inl hx
      · refine .inr ⟨k, j, ?_, ?_, hxj⟩
        · rw [hc] at hp
          by_cases hk : i.key = k
          · subst hk
            rw [Function.update_self] at hp
            omega
          · rwa [Function.update_of_ne (Ne.symm hk)] at hp
        · rw [hc] at hp hj
          rw [keyed_cons]
          by_cases hk : i.key = k
          · subst hk
            rw [Function.update_self] at hp hj
            rw [if_pos rfl]
            obtain ⟨n, hn⟩ : ∃ n, st.1 i.key = n + 2 := ⟨_, (Nat.sub_add_cancel (by omega)).symm⟩
            rw [hn] at hj ⊢
            simpa using hj
          · rw [Function.update_of_ne (Ne.symm hk)] at hj
            rwa [if_neg hk]

theorem mem_keyed {l : List (Imp α)} {k : Finset α × Finset α} {j : Imp α} : j ∈ keyed l k ↔ j ∈ l ∧ j.key = k := by
  simp [keyed]

theorem keyed_filter {imps : List (Imp α)} {m : α} {k : Finset α × Finset α} (h : m ∈ k.1) :
    keyed (imps.filter fun imp => decide (m ∈ imp.premise)) k = keyed imps k := by
  unfold keyed
  rw [List.filter_filter]
  apply List.filter_congr
  intro j _
  by_cases hk : j.key = k
  · have : m ∈ j.premise := by rw [← hk] at h; exact h
    simp [hk, this]
  · simp [hk]

theorem keyed_filter_not {imps : List (Imp α)} {m : α} {k : Finset α × Finset α} (h : m ∉ k.1) :
    keyed (imps.filter fun imp => decide (m ∈ imp.premise)) k = [] := by
  apply List.eq_nil_iff_forall_not_mem.2
  intro j hj
  obtain ⟨hj', rfl⟩ := mem_keyed.1 hj
  exact h (of_decide_eq_true (List.mem_filter.1 hj').2)

/-- The copy whose conclusion is added. -/
theorem early_index {n m a : ℕ} (h1 : 0 < n - m * a) (h2 : n - m * a ≤ m) : (n - 1) % m = n - m * a - 1 := by
  have : n - 1 = n - m * a - 1 + m * a := by omega
  rw [this, Nat.add_mul_mod_self_left, Nat.mod_eq_of_lt (by omega)]

theorem linLoop_exact (imps : List (Imp α)) (s : Finset α) (ord : ℕ → SetOrder α) (fuel : ℕ) :
    ∀ (upd : List α) (count : Finset α × Finset α → ℕ) (cl : Finset α),
      upd.Nodup → (∀ x ∈ upd, x ∈ cl) → s ⊆ cl → cl ⊆ linUniv s imps →
      upd.length + (linUniv s imps \ cl).card < fuel →
      (∀ d, s ⊆ d → EarlyClosed imps d → cl ⊆ d) →
      (∀ k, count k = k.1.card - (keyed imps k).length * (k.1 ∩ (cl \ upd.toFinset)).card) →
      (∀ i ∈ imps, ∀ j, (keyed imps i.key)[(i.premise.card - 1) % (keyed imps i.key).length]? = some j →
        count i.key = 0 → j.conclusion ⊆ cl) →
      ∃ c, linLoop imps ord fuel upd count cl = some c ∧ s ⊆ c ∧ EarlyClosed imps c ∧
        ∀ d, s ⊆ d → EarlyClosed imps d → c ⊆ d := by
  induction fuel with
  | zero => intro upd count cl _ _ _ _ h; omega
  | succ fuel ih =>
    intro upd count cl hup hucl hs huniv hfuel hmin hcount hconcl
    match upd with
    | [] =>
      refine ⟨cl, rfl, hs, ?_, hmin⟩
      intro i hi j hj hle
      rw [copies_eq] at hj hle
      refine hconcl i hi j hj ?_
      rw [hcount]
      simp only [List.toFinset_nil, Finset.sdiff_empty, Imp.key] at hle ⊢
      omega
    | m :: upd =>
      unfold linLoop
      simp only
      have hm : m ∈ cl := hucl m (by simp)
      have hmn : m ∉ upd := (List.nodup_cons.1 hup).1
      set cur := imps.filter fun imp => decide (m ∈ imp.premise) with hcur
      obtain ⟨f1, f2, f3, f4⟩ := linFold_exact cur (count, ∅)
      rw [← linCounts_eq] at f1 f2 f3 f4
      simp only at f1 f2 f3 f4
      set r := linCounts cur count with hr
      set add := r.2 \ cl with hadd
      set o := ord fuel
      have hD : (cl ∪ add) \ ((o.enum add).reverse ++ upd).toFinset
          = insert m (cl \ (m :: upd).toFinset) := by
        ext x
        simp only [Finset.mem_sdiff, Finset.mem_union, List.toFinset_append, List.mem_toFinset,
          List.mem_reverse, Finset.mem_insert, List.mem_cons, o.mem]
        constructor
        · rintro ⟨h1 | h1, h2⟩
          · by_cases hx : x = m
            · exact Or.inl hx
            · right; exact ⟨h1, by tauto⟩
          · exact absurd (Or.inl h1) h2
        · rintro (rfl | ⟨h1, h2⟩)
          · refine ⟨Or.inl hm, ?_⟩
            rintro (h | h)
            · exact (Finset.mem_sdiff.1 h).2 hm
            · exact hmn h
          · refine ⟨Or.inl h1, ?_⟩
            rintro (h | h)
            · exact (Finset.mem_sdiff.1 h).2 h1
            · exact h2 (Or.inr h)
      have hmD : m ∉ cl \ (m :: upd).toFinset := by simp
      -- the number of processed attributes of a premise
      have hcard : ∀ k : Finset α × Finset α, m ∈ k.1 → (k.1 ∩ insert m (cl \ (m :: upd).toFinset)).card =
          (k.1 ∩ (cl \ (m :: upd).toFinset)).card + 1 := by
        intro k hk
        rw [Finset.inter_insert_of_mem hk, Finset.card_insert_of_notMem]
        exact fun h => hmD (Finset.mem_inter.1 h).2
      have hcard' : ∀ k : Finset α × Finset α, m ∉ k.1 → (k.1 ∩ insert m (cl \ (m :: upd).toFinset)).card =
          (k.1 ∩ (cl \ (m :: upd).toFinset)).card := by
        intro k hk
        rw [Finset.inter_insert_of_notMem hk]
      -- what is added
      have hadded : ∀ k j, 0 < count k → (keyed cur k)[count k - 1]? = some j →
          j ∈ imps ∧ j.key = k ∧ m ∈ k.1 ∧ count k ≤ (keyed imps k).length ∧
          (keyed imps k)[(k.1.card - 1) % (keyed imps k).length]? = some j := by
        intro k j hp hj
        have hjm := mem_keyed.1 (List.mem_of_getElem? hj)
        have hmk : m ∈ k.1 := by
          by_contra h
          rw [hcur, keyed_filter_not h] at hj
          simp at hj
        rw [hcur, keyed_filter hmk] at hj
        have hlt := (List.getElem?_eq_some_iff.1 hj).1
        have hle : count k ≤ (keyed imps k).length := by omega
        refine ⟨List.mem_of_mem_filter hjm.1, hjm.2, hmk, hle, ?_⟩
        have hk := hcount k
        rw [early_index (a := (k.1 ∩ (cl \ (m :: upd).toFinset)).card) (by omega) (by omega), ← hk]
        exact hj
      have addsub : add ⊆ linUniv s imps := by
        intro x hx
        rcases f4 x (Finset.mem_sdiff.1 hx).1 with h | ⟨k, j, hp, hj, hxj⟩
        · simp at h
        · exact Finset.mem_union_right _ ((mem_foldr_conclusion imps x).2 ⟨j, (hadded k j hp hj).1, hxj⟩)
      have raddsub : r.2 ⊆ cl ∪ add := by
        intro x hx
        by_cases hxc : x ∈ cl
        · exact Finset.mem_union_left _ hxc
        · exact Finset.mem_union_right _ (Finset.mem_sdiff.2 ⟨hx, hxc⟩)
      apply ih
      · rw [List.nodup_append]
        refine ⟨List.nodup_reverse.2 (o.nodup add), (List.nodup_cons.1 hup).2, ?_⟩
        intro a ha b hb hab
        subst hab
        have : a ∈ add := (o.mem add a).1 (List.mem_reverse.1 ha)
        exact (Finset.mem_sdiff.1 this).2 (hucl a (by simp [hb]))
      · intro x hx
        rcases List.mem_append.1 hx with hx | hx
        · exact Finset.mem_union_right _ ((o.mem add x).1 (List.mem_reverse.1 hx))
        · exact Finset.mem_union_left _ (hucl x (by simp [hx]))
      · exact hs.trans Finset.subset_union_left
      · exact Finset.union_subset huniv addsub
      · have e1 : ((o.enum add).reverse ++ upd).length = add.card + upd.length := by
          rw [List.length_append, List.length_reverse, o.length]
        have e2 : (linUniv s imps \ (cl ∪ add)).card + add.card = (linUniv s imps \ cl).card := by
          rw [← Finset.sup_eq_union, ← sdiff_sdiff_left, Finset.card_sdiff_add_card_eq_card]
          exact fun x hx => Finset.mem_sdiff.2 ⟨addsub hx, (Finset.mem_sdiff.1 hx).2⟩
        simp only [List.length_cons] at hfuel
        omega
      · intro d hsd hd
        have hcd := hmin d hsd hd
        refine Finset.union_subset hcd ?_
        intro x hx
        rcases f4 x (Finset.mem_sdiff.1 hx).1 with h | ⟨k, j, hp, hj, hxj⟩
        · simp at h
        · obtain ⟨hji, hjk, hmk, hle, hget⟩ := hadded k j hp hj
          subst hjk
          refine hd j hji j (by rw [copies_eq]; exact hget) ?_ hxj
          rw [copies_eq]
          have h1 := hcount j.key
          have h2 := hcard j.key hmk
          have h3 : (j.premise ∩ insert m (cl \ (m :: upd).toFinset)).card ≤ (j.premise ∩ d).card := by
            apply Finset.card_le_card
            apply Finset.inter_subset_inter_left
            intro y hy
            rcases Finset.mem_insert.1 hy with rfl | hy
            · exact hcd hm
            · exact hcd (Finset.mem_sdiff.1 hy).1
          have h4 : (keyed imps j.key).length * ((j.premise ∩ (cl \ (m :: upd).toFinset)).card + 1) ≤
              (keyed imps j.key).length * (j.premise ∩ d).card := by
            apply Nat.mul_le_mul_left
            have : (j.key).1 = j.premise := rfl
            rw [this] at h2
            omega
          have h5 : (j.key).1 = j.premise := rfl
          rw [h5] at h1
          rw [Nat.mul_add, Nat.mul_one] at h4
          omega
      · intro k
        rw [hD, f1 k, hcount k]
        by_cases hk : m ∈ k.1
        · rw [hcard k hk, hcur, keyed_filter hk, Nat.mul_add, Nat.mul_one]
          omega
        · rw [hcard' k hk, hcur, keyed_filter_not hk]
          simp
      · intro i hi j hj h0
        by_cases hc0 : count i.key = 0
        · exact (hconcl i hi j hj hc0).trans Finset.subset_union_left
        · have hmk : m ∈ i.key.1 := by
            by_contra h
            rw [f1, hcur, keyed_filter_not h] at h0
            simp at h0
            exact hc0 h0
          have h1 := f1 i.key
          rw [h0, hcur, keyed_filter hmk] at h1
          have hk := hcount i.key
          have hget : (keyed cur i.key)[count i.key - 1]? = some j := by
            rw [hcur, keyed_filter hmk]
            have h5 : i.key.1.card = i.premise.card := rfl
            rw [← h5, early_index (a := (i.key.1 ∩ (cl \ (m :: upd).toFinset)).card) (by omega) (by omega), ← hk] at hj
            exact hj
          exact (f3 i.key j (by omega) hget).trans raddsub

/-- The value of `lin_closure` for every list of implications and all iteration orders: the least set that contains `s`
and is closed in the early sense. -/
theorem C21_exact (ord₀ : SetOrder α) (ord : ℕ → SetOrder α) (s : Finset α) (imps : List (Imp α)) :
    IsLeast {d | s ⊆ d ∧ EarlyClosed imps d} (linClosure ord₀ ord s imps) := by
  suffices h : s ⊆ linClosure ord₀ ord s imps ∧ EarlyClosed imps (linClosure ord₀ ord s imps) ∧
      ∀ d, s ⊆ d → EarlyClosed imps d → linClosure ord₀ ord s imps ⊆ d from
    ⟨⟨h.1, h.2.1⟩, fun d hd => h.2.2 d hd.1 hd.2⟩
  unfold linClosure
  split
  · rename_i he
    subst he
    exact ⟨Finset.Subset.refl _, fun i hi => by simp at hi, fun d hd _ => hd⟩
  · have hz : linStart s imps \ (ord₀.enum (linStart s imps)).reverse.toFinset = ∅ := by
      rw [Finset.sdiff_eq_empty_iff_subset]
      intro x hx
      simpa [ord₀.mem] using hx
    have hsu : linStart s imps ⊆ linUniv s imps := by
      intro x hx
      rcases (mem_linStart s imps x).1 hx with h | ⟨i, hi, _, h⟩
      · exact Finset.mem_union_left _ h
      · exact Finset.mem_union_right _ ((mem_foldr_conclusion imps x).2 ⟨i, hi, h⟩)
    obtain ⟨c, hc, h⟩ := linLoop_exact imps s ord (linFuel s imps) (ord₀.enum (linStart s imps)).reverse
      (fun k => k.1.card) (linStart s imps) (List.nodup_reverse.2 (ord₀.nodup _))
      (fun x hx => (ord₀.mem _ x).1 (List.mem_reverse.1 hx)) (fun x hx => (mem_linStart s imps x).2 (Or.inl hx)) hsu
      (by
        rw [List.length_reverse, ord₀.length]
        unfold linFuel
        have := Finset.card_sdiff_add_card_eq_card hsu
        unfold linUniv at this ⊢
        omega)
      (by
        intro d hsd hd x hx
        rcases (mem_linStart s imps x).1 hx with h | ⟨i, hi, hp, h⟩
        · exact hsd h
        · have hmem : i ∈ keyed imps i.key := mem_keyed.2 ⟨hi, rfl⟩
          have hpos : 0 < (keyed imps i.key).length := List.length_pos_of_mem hmem
          have hget := List.getElem?_eq_getElem (l := keyed imps i.key) (Nat.mod_lt (i.premise.card - 1) hpos)
          have hsub := hd i hi _ (by rw [copies_eq]; exact hget) (by simp [hp])
          have hk := (mem_keyed.1 (List.mem_of_getElem? hget)).2
          exact Imp.conclusion_subset_of_key hk 
            ((congrArg Prod.fst hk).le.trans (by show i.premise ⊆ d; rw [hp]; simp)) hsub h)
      (by intro k; rw [hz]; simp)
      (by
        intro i hi j hj h0 x hx
        have hp : i.premise = ∅ := by simpa [Imp.key] using h0
        have hk := mem_keyed.1 (List.mem_of_getElem? hj)
        have hjp : j.premise = ∅ := by rw [← hp]; exact congrArg Prod.fst hk.2
        exact (mem_linStart s imps x).2 (Or.inr ⟨j, hk.1, hjp, hx⟩))
    simp only [hc, Option.getD_some]
    exact h

/-- Consequently the iteration orders do not matter. -/
theorem C21_order_independent (ord₀ ord₀' : SetOrder α) (ord ord' : ℕ → SetOrder α) (s : Finset α)
    (imps : List (Imp α)) : linClosure ord₀ ord s imps = linClosure ord₀' ord' s imps :=
  (C21_exact ord₀ ord s imps).unique (C21_exact ord₀' ord' s imps)

/-- `lin_closure` is the least closed superset for all sets exactly if the early application of repeated implications
makes no difference. -/
theorem C21_iff (ord₀ : SetOrder α) (ord : ℕ → SetOrder α) (imps : List (Imp α)) :
    (∀ s, linClosure ord₀ ord s imps = simpleClosure s imps) ↔
      ∀ d, Closed (specImps imps) d → EarlyClosed imps d := by
  constructor
  · intro h d hd
    have h1 := (simpleClosure_isLeast d imps)
    have h2 : simpleClosure d imps = d :=
      Finset.Subset.antisymm (h1.2.2 d (Finset.Subset.refl _) hd) h1.1
    have := (C21_exact ord₀ ord d imps).1.2
    rwa [h d, h2] at this
  · intro h s
    refine Finset.Subset.antisymm ?_ (C21_lin_closure_upper ord₀ ord s imps)
    have h1 := simpleClosure_isLeast s imps
    exact (C21_exact ord₀ ord s imps).2 ⟨h1.1, h _ h1.2.1⟩

/-! ### Cases -/

example : linClosure (SetOrder.fin 4) (fun _ => SetOrder.finRev 4) {0}
    [(⟨{0, 1}, {1, 2}⟩ : Imp (Fin 4)), ⟨{0, 1}, {2}⟩, ⟨{1, 2, 3}, {0}⟩] = {0, 2} := by decide

example : linClosure (SetOrder.fin 4) (fun _ => SetOrder.finRev 4) {0}
    [(⟨{0, 1}, {2}⟩ : Imp (Fin 4)), ⟨{0, 1}, {1, 2}⟩, ⟨{1, 2, 3}, {0}⟩] = {0, 1, 2} := by decide
