/-
Results of the methods of `Context` that build a new context.
-/
import Verif.Lemmas.ContextOps
import Verif.SpecContext

set_option linter.unusedSectionVars false

open Spec

/-! ### Lists by index -/

section lists
variable {γ δ : Type}

theorem mapM_append {f : γ → Py δ} {l l' : List γ} {r r' : List δ} (h : l.mapM f = .ok r)
    (h' : l'.mapM f = .ok r') : (l ++ l').mapM f = .ok (r ++ r') := by
  rw [List.mapM_append, h, py_ok_bind, h']; rfl

theorem mapM_range_filter {l : List γ} {q : ℕ → Bool} {q' : γ → Bool} {f : ℕ → Py δ} {g : γ → δ}
    (hq : ∀ i x, l[i]? = some x → q i = q' x) (hf : ∀ i x, l[i]? = some x → f i = .ok (g x)) :
    ((List.range l.length).filter q).mapM f = .ok ((l.filter q').map g) := by
  induction l using List.reverseRecOn with
  | nil => rfl
  | append_singleton l x ih =>
    have hlt : ∀ (i : ℕ) (y : γ), l[i]? = some y → (l ++ [x])[i]? = some y := by
      intro i y hi
      rw [List.getElem?_append_left (List.getElem?_eq_some_iff.1 hi).1, hi]
    have hx : (l ++ [x])[l.length]? = some x := by simp
    rw [List.length_append, List.length_singleton, List.range_succ, List.filter_append,
      List.filter_append, List.map_append]
    apply mapM_append
    · exact ih (fun i y hi => hq i y (hlt i y hi)) (fun i y hi => hf i y (hlt i y hi))
    · simp only [List.filter_singleton, hq _ _ hx]
      cases q' x
      · rfl
      · simp only [cond_true, List.mapM_cons, hf _ _ hx]; rfl

theorem mapM_range {l : List γ} {f : ℕ → Py δ} {g : γ → δ}
    (hf : ∀ i x, l[i]? = some x → f i = .ok (g x)) :
    (List.range l.length).mapM f = .ok (l.map g) := by
  have := mapM_range_filter (q := fun _ => true) (q' := fun _ => true) (fun _ _ _ => rfl) hf
  simpa using this

theorem filterPy_ok {p : γ → Py Bool} {q : γ → Bool} {l : List γ} (h : ∀ x ∈ l, p x = .ok (q x)) :
    filterPy p l = .ok (l.filter q) := by
  induction l with
  | nil => rfl
  | cons x l ih =>
    simp only [filterPy, h x (by simp), ih (fun y hy => h y (by simp [hy])), py_ok_bind, List.filter_cons]

theorem filterPy_range {l : List γ} {p : ℕ → Py Bool} {q' : γ → Bool}
    (h : ∀ i x, l[i]? = some x → p i = .ok (q' x)) :
    ∃ q : ℕ → Bool, filterPy p (List.range l.length) = .ok ((List.range l.length).filter q) ∧
      ∀ i x, l[i]? = some x → q i = q' x := by
  refine ⟨fun i => match l[i]? with | some x => q' x | none => false, ?_, ?_⟩
  · apply filterPy_ok
    intro i hi
    rw [List.mem_range] at hi
    simp only [List.getElem?_eq_getElem hi]
    exact h i _ (List.getElem?_eq_getElem hi)
  · intro i x hx; simp only [hx]

end lists

/-! ### Dicts -/

section dict
variable {κ ν : Type} [DecidableEq κ]

theorem dictSet_keys (d : List (κ × ν)) (k : κ) (v : ν) :
    (dictSet d k v).map Prod.fst = if k ∈ d.map Prod.fst then d.map Prod.fst else d.map Prod.fst ++ [k] := by
  unfold dictSet
  by_cases h : k ∈ d.map Prod.fst
  · rw [if_pos h, if_pos, List.map_map]
    · apply List.map_congr_left
      intro p hp
      simp only [Function.comp_apply]
      split
      · rename_i he; exact he.symm
      · rfl
    · obtain ⟨p, hp, rfl⟩ := List.mem_map.1 h
      rw [List.any_eq_true]
      exact ⟨p, hp, by simp⟩
  · rw [if_neg h, if_neg]
    · simp
    · rw [List.any_eq_true]
      rintro ⟨p, hp, he⟩
      exact h (List.mem_map.2 ⟨p, hp, by simpa using he⟩)

theorem mem_dictSet {d : List (κ × ν)} {k : κ} {v : ν} {p : κ × ν} :
    p ∈ dictSet d k v ↔ (p.1 = k ∧ p.2 = v) ∨ (p.1 ≠ k ∧ p ∈ d) := by
  unfold dictSet
  split
  · rename_i h
    rw [List.any_eq_true] at h
    obtain ⟨q, hq, hqk⟩ := h
    simp only [decide_eq_true_eq] at hqk
    rw [List.mem_map]
    constructor
    · rintro ⟨r, hr, he⟩
      split at he
      · left; rw [← he]; exact ⟨rfl, rfl⟩
      · rename_i hne; right; rw [← he]; exact ⟨hne, hr⟩
    · rintro (⟨h1, h2⟩ | ⟨h1, h2⟩)
      · exact ⟨q, hq, by rw [if_pos hqk]; ext <;> simp [h1, h2]⟩
      · exact ⟨p, h2, by rw [if_neg h1]⟩
  · rename_i h
    rw [List.mem_append, List.mem_singleton]
    constructor
    · rintro (h1 | h1)
      · right
        refine ⟨?_, h1⟩
        intro he
        apply h
        rw [List.any_eq_true]
        exact ⟨p, h1, by simpa using he⟩
      · left; rw [h1]; exact ⟨rfl, rfl⟩
    · rintro (⟨h1, h2⟩ | ⟨h1, h2⟩)
      · right; ext <;> simp [h1, h2]
      · left; exact h2

theorem dictOf_append (l : List (κ × ν)) (p : κ × ν) : dictOf (l ++ [p]) = dictSet (dictOf l) p.1 p.2 := by
  unfold dictOf; rw [List.foldl_append]; rfl

theorem dictOf_keys_nodup (l : List (κ × ν)) : ((dictOf l).map Prod.fst).Nodup := by
  induction l using List.reverseRecOn with
  | nil => simp [dictOf]
  | append_singleton l p ih =>
    rw [dictOf_append, dictSet_keys]
    split
    · exact ih
    · rename_i h
      exact List.nodup_append.2 ⟨ih, by simp, by rintro x hx y hy rfl; simp at hy; exact h (hy ▸ hx)⟩

theorem mem_dictOf_keys (l : List (κ × ν)) (k : κ) : k ∈ (dictOf l).map Prod.fst ↔ k ∈ l.map Prod.fst := by
  induction l using List.reverseRecOn with
  | nil => simp [dictOf]
  | append_singleton l p ih =>
    rw [dictOf_append, dictSet_keys, List.map_append, List.mem_append, ← ih]
    simp only [List.map_cons, List.map_nil, List.mem_singleton]
    split
    · rename_i h
      constructor
      · exact Or.inl
      · rintro (h' | rfl)
        · exact h'
        · exact h
    · rw [List.mem_append, List.mem_singleton]

/-- The value of a key is the last one given for it. -/
theorem mem_dictOf (l : List (κ × ν)) (k : κ) (v : ν) :
    (k, v) ∈ dictOf l ↔ ∃ i : ℕ, l[i]? = some (k, v) ∧ ∀ (j : ℕ) w, i < j → l[j]? ≠ some (k, w) := by
  induction l using List.reverseRecOn with
  | nil => simp [dictOf]
  | append_singleton l p ih =>
    rw [dictOf_append, mem_dictSet, ih]
    constructor
    · rintro (⟨h1, h2⟩ | ⟨h1, i, h2, h3⟩)
      · refine ⟨l.length, ?_, ?_⟩
        · have : p = (k, v) := by ext <;> simp_all
          simp [this]
        · intro j w hj
          rw [List.getElem?_eq_none (by simp; omega)]
          simp
      · have hi := (List.getElem?_eq_some_iff.1 h2).1
        refine ⟨i, by rw [List.getElem?_append_left hi, h2], ?_⟩
        intro j w hj
        by_cases hjl : j < l.length
        · rw [List.getElem?_append_left hjl]; exact h3 j w hj
        · rw [List.getElem?_append_right (by omega)]
          intro he
          have : j - l.length = 0 := by
            have := (List.getElem?_eq_some_iff.1 he).1
            simpa using this
          rw [this] at he
          simp at he
          exact h1 (by rw [he])
    · rintro ⟨i, h2, h3⟩
      by_cases hil : i < l.length
      · right
        rw [List.getElem?_append_left hil] at h2
        refine ⟨?_, i, h2, ?_⟩
        · intro he
          refine h3 l.length p.2 hil ?_
          simp only [List.getElem?_concat_length, Option.some.injEq]
          ext <;> simp [← he]
        · intro j w hj he
          have hjl := (List.getElem?_eq_some_iff.1 he).1
          exact h3 j w hj (by rw [List.getElem?_append_left hjl, he])
      · left
        rw [List.getElem?_append_right (by omega)] at h2
        have : i - l.length = 0 := by
          have := (List.getElem?_eq_some_iff.1 h2).1
          simpa using this
        rw [this] at h2
        simp at h2
        rw [h2]; exact ⟨rfl, rfl⟩

theorem dictOf_value_unique {l : List (κ × ν)} {k : κ} {v w : ν} (h : (k, v) ∈ dictOf l)
    (h' : (k, w) ∈ dictOf l) : v = w := by
  rw [mem_dictOf] at h h'
  obtain ⟨i, h1, h2⟩ := h
  obtain ⟨j, h3, h4⟩ := h'
  rcases Nat.lt_trichotomy i j with hij | rfl | hij
  · exact absurd h3 (h2 j w hij)
  · rw [h1] at h3; simp at h3; exact h3
  · exact absurd h1 (h4 i v hij)

theorem dictOf_mem {l : List (κ × ν)} {p : κ × ν} (h : p ∈ dictOf l) : p ∈ l := by
  obtain ⟨i, h1, _⟩ := (mem_dictOf l p.1 p.2).1 h
  exact List.mem_of_getElem? h1

/-- Pairs with distinct keys are kept as they are. -/
theorem dictOf_nodup {l : List (κ × ν)} (h : (l.map Prod.fst).Nodup) : dictOf l = l := by
  induction l using List.reverseRecOn with
  | nil => rfl
  | append_singleton l p ih =>
    rw [List.map_append, List.nodup_append] at h
    rw [dictOf_append, ih h.1]
    unfold dictSet
    rw [if_neg]
    rw [List.any_eq_true]
    rintro ⟨q, hq, he⟩
    exact h.2.2 q.1 (List.mem_map.2 ⟨q, hq, rfl⟩) p.1 (by simp) (by simpa using he)

end dict

namespace Ctx

variable {α β : Type} [DecidableEq α] [DecidableEq β]

/-! ### Tables by name -/

theorem WFw.cell_name {c : Ctx α β} (h : c.WFw) {i j : ℕ} {o : α} {a : β} (hi : c.objects[i]? = some o)
    (hj : c.attributes[j]? = some a) : c.nd.cell i j = .ok (c.incB o a) := by
  obtain ⟨r, hr, hb⟩ := h.stores.val i j o a hi hj
  unfold Nd.cell
  rw [pyGet_ok hr, py_ok_bind, pyGet_ok hb]

theorem WFw.row_name {c : Ctx α β} (h : c.WFw) {i : ℕ} {o : α} (hi : c.objects[i]? = some o) :
    c.nd.rows[i]? = some (c.attributes.map (c.incB o)) := by
  obtain ⟨r, hr, _, hl⟩ := h.row (lt_of_getElem? hi)
  rw [hr, Option.some.injEq]
  apply List.ext_getElem?
  intro j
  rw [List.getElem?_map]
  cases hj : c.attributes[j]? with
  | none =>
    rw [List.getElem?_eq_none_iff] at hj
    rw [List.getElem?_eq_none (by omega)]; rfl
  | some a =>
    obtain ⟨r', hr', hb⟩ := h.stores.val i j o a hi hj
    rw [hr] at hr'; cases hr'
    rw [hb]; rfl

theorem WFw.rows_eq {c : Ctx α β} (h : c.WFw) :
    c.nd.rows = c.objects.map fun o => c.attributes.map (c.incB o) := by
  apply List.ext_getElem?
  intro i
  rw [List.getElem?_map]
  cases hi : c.objects[i]? with
  | none =>
    rw [List.getElem?_eq_none_iff] at hi
    rw [List.getElem?_eq_none (by rw [h.nrows]; exact hi)]; rfl
  | some o => rw [h.row_name hi]; rfl

/-- A table given by a relation on distinct names. -/
theorem make_rel [PyName α] [PyName β] {objs : List α} {atts : List β} (rel : α → β → Bool)
    (ho : objs.Nodup) (ha : atts.Nodup) :
    ∃ c : Ctx α β, make (objs.map fun o => atts.map (rel o)) objs atts = .ok c ∧ c.WF ∧
      c.nd.rows = (objs.map fun o => atts.map (rel o)) ∧ Stores c ⟨objs, atts, rel⟩ := by
  have h1 : (objs.map fun o => atts.map (rel o)).length = objs.length := by simp
  have h2 : ∀ r ∈ objs.map (fun o => atts.map (rel o)), r.length = atts.length := by
    intro r hr
    obtain ⟨o, _, rfl⟩ := List.mem_map.1 hr
    simp
  refine ⟨_, make_nodup h1 h2 ho ha, wf_mk' h1 h2 ho ha, rfl, ⟨(wf_mk' h1 h2 ho ha).toWFw, rfl, rfl, ?_⟩⟩
  intro i j o a hi hj
  simp only [mk'] at hi hj ⊢
  refine ⟨atts.map (rel o), ?_, ?_⟩
  · rw [List.getElem?_map, hi]; rfl
  · rw [List.getElem?_map, hj]; rfl

theorem Stores.incB {c : Ctx α β} {t : Table α β} (h : Stores c t) {o : α} {a : β} (ho : o ∈ t.objs)
    (ha : a ∈ t.atts) : c.incB o a = t.rel o a := by
  unfold Ctx.incB
  rw [h.getValue ho ha]

/-! ### transpose -/

section
variable [PyName α] [PyName β]

theorem WFw.transpose {c : Ctx α β} (h : c.WFw) :
    ∃ d, c.transpose = .ok d ∧ d.WF ∧ Stores d ⟨c.attributes, c.objects, fun a o => c.incB o a⟩ := by
  have h1 : (List.range c.attributes.length).mapM (fun j =>
      (List.range c.objects.length).mapM fun i => c.nd.cell i j) =
      .ok (c.attributes.map fun a => c.objects.map fun o => c.incB o a) := by
    apply mapM_range
    intro j a hj
    apply mapM_range
    intro i o hi
    exact h.cell_name hi hj
  obtain ⟨d, h2, h3, _, h4⟩ := make_rel (fun a o => c.incB o a) h.anodup h.onodup
  refine ⟨d, ?_, h3, h4⟩
  unfold Ctx.transpose
  rw [h1, py_ok_bind, h2]

theorem WFw.transpose_inc {c : Ctx α β} (h : c.WFw) {d : Ctx β α} (hd : c.transpose = .ok d) :
    d.WF ∧ d.objects = c.attributes ∧ d.attributes = c.objects ∧ ∀ a o, d.Inc a o ↔ c.Inc o a := by
  obtain ⟨d', h1, h2, h3⟩ := h.transpose
  rw [hd] at h1; cases h1
  refine ⟨h2, h3.objs, h3.atts, ?_⟩
  intro a o
  rw [h3.inc, h.incB]
  constructor
  · exact fun h => h.2.2
  · intro hi; exact ⟨hi.mem.2, hi.mem.1, hi⟩

/-! ### extraction -/

theorem checkNames_ok {c : Ctx α β} {names : List β} :
    c.checkNames names = if ∀ a ∈ names, a ∈ c.attributes then .ok () else .error .valueError := by
  unfold Ctx.checkNames
  have : (names.toFinset ⊆ c.attributes.toFinset) ↔ ∀ a ∈ names, a ∈ c.attributes := by
    constructor
    · intro h a ha; exact List.mem_toFinset.1 (h (List.mem_toFinset.2 ha))
    · intro h a ha; exact List.mem_toFinset.2 (h a (List.mem_toFinset.1 ha))
  simp only [this]

theorem mapM_forall₂ {γ δ ε : Type} {R : γ → δ → Prop} {xs : List γ} {ys : List δ} (h : List.Forall₂ R xs ys)
    {f : δ → Py ε} {g : γ → ε} (hf : ∀ x y, R x y → f y = .ok (g x)) : ys.mapM f = .ok (xs.map g) := by
  induction h with
  | nil => rfl
  | cons hR _ ih => rw [List.mapM_cons, hf _ _ hR, ih]; rfl

theorem mapM_firstIdx {γ : Type} [DecidableEq γ] {l xs : List γ} (h : ∀ x ∈ xs, x ∈ l) :
    ∃ is, xs.mapM (firstIdx l) = .ok is ∧ List.Forall₂ (fun x i => l[i]? = some x) xs is :=
  mapM_ok' fun x hx => by
    obtain ⟨i, hi⟩ := firstIdx_mem (h x hx)
    exact ⟨i, hi, firstIdx_ok hi⟩

theorem WFw.extractSubtable {c : Ctx α β} (h : c.WFw) {names : List β}
    (hn : ∀ a ∈ names, a ∈ c.attributes) :
    c.extractSubtable names = .ok (c.objects.map fun o => names.map (c.incB o)) := by
  obtain ⟨js, h1, h2⟩ := mapM_firstIdx hn
  unfold Ctx.extractSubtable
  rw [checkNames_ok, if_pos hn, py_ok_bind, h1, py_ok_bind, h.nrows]
  apply mapM_range
  intro i o hi
  exact mapM_forall₂ h2 fun a j hj => h.cell_name hi hj

theorem hasValues_ok {c : Ctx α β} (h : c.WFw) {i : ℕ} {o : α} (hi : c.objects[i]? = some o)
    {keys : List β} (hk : ∀ a ∈ keys, a ∈ c.attributes) :
    c.hasValues i keys = .ok (keys.all (c.incB o)) := by
  induction keys with
  | nil => rfl
  | cons a keys ih =>
    obtain ⟨j, hj⟩ := firstIdx_mem (hk a (by simp))
    simp only [Ctx.hasValues, hj, h.cell_name hi (firstIdx_ok hj), py_ok_bind, List.all_cons]
    cases c.incB o a
    · rfl
    · simpa using ih (fun b hb => hk b (by simp [hb]))

theorem hasOneValue_ok {c : Ctx α β} (h : c.WFw) {i : ℕ} {o : α} (hi : c.objects[i]? = some o)
    {keys : List β} (hk : ∀ a ∈ keys, a ∈ c.attributes) :
    c.hasOneValue i keys = .ok (keys.any (c.incB o)) := by
  induction keys with
  | nil => rfl
  | cons a keys ih =>
    obtain ⟨j, hj⟩ := firstIdx_mem (hk a (by simp))
    simp only [Ctx.hasOneValue, hj, h.cell_name hi (firstIdx_ok hj), py_ok_bind, List.any_cons]
    cases c.incB o a
    · simpa using ih (fun b hb => hk b (by simp [hb]))
    · rfl

/-- The predicate selecting rows. -/
def keep (c : Ctx α β) (names : List β) : Mode → α → Bool
  | .and, o => names.all (c.incB o)
  | .or, o => names.any (c.incB o)
  | .other, _ => false

omit [PyName α] [PyName β] in
theorem rows_nil {c : Ctx α β} (h : c.WFw) : c.nd.rows = [] ↔ c.objects = [] := by
  rw [← List.length_eq_zero_iff, h.nrows, List.length_eq_zero_iff]

theorem WFw.extractFiltered {c : Ctx α β} (h : c.WFw) {names : List β} {mode : Mode}
    (hn : ∀ a ∈ names, a ∈ c.attributes) (hm : mode ≠ .other) :
    ∃ d, c.extractFiltered names mode = .ok d ∧ d.WF ∧
      Stores d ⟨c.objects.filter (c.keep names mode), c.attributes, c.incB⟩ := by
  have hkeys : ∀ a, a ∈ (dictOf (names.map fun a => (a, ()))).map Prod.fst ↔ a ∈ names := by
    intro a
    rw [mem_dictOf_keys, List.map_map]
    simp
  obtain ⟨keys, hke⟩ : ∃ keys, keys = (dictOf (names.map fun a => (a, ()))).map Prod.fst := ⟨_, rfl⟩
  rw [← hke] at hkeys
  have hk : ∀ a ∈ keys, a ∈ c.attributes := fun a ha => hn a ((hkeys a).1 ha)
  have hkeep : c.keep keys mode = c.keep names mode := by
    funext o
    rw [Bool.eq_iff_iff]
    cases mode <;> simp [Ctx.keep, hkeys]
  have hin : ∃ q : ℕ → Bool, c.filteredInds keys mode = .ok ((List.range c.objects.length).filter q) ∧
      ∀ i x, c.objects[i]? = some x → q i = c.keep names mode x := by
    rw [← hkeep]
    cases mode with
    | other => exact absurd rfl hm
    | and =>
      unfold Ctx.filteredInds
      rw [h.nrows]
      exact filterPy_range fun i o hi => hasValues_ok h hi hk
    | or =>
      unfold Ctx.filteredInds
      rw [h.nrows]
      exact filterPy_range fun i o hi => hasOneValue_ok h hi hk
  obtain ⟨q, h1, h2⟩ := hin
  have h3 := mapM_range_filter (f := pyGet c.objects) (g := fun x => x) h2 (fun i x hx => pyGet_ok hx)
  have h4 := mapM_range_filter (f := pyGet c.nd.rows) (g := fun o => c.attributes.map (c.incB o)) h2
    (fun i x hx => pyGet_ok (h.row_name hx))
  rw [List.map_id'] at h3
  obtain ⟨d, h5, h6, _, h7⟩ := make_rel c.incB (h.onodup.filter (c.keep names mode)) h.anodup
  refine ⟨d, ?_, h6, h7⟩
  unfold Ctx.extractFiltered
  simp only [← hke, checkNames_ok, if_pos hk, py_ok_bind, h1, h3, h4, h5]

/-! ### multiplication -/

theorem boolMul_eq {γ : Type} {l : List (List Bool)} {objs : List α} {mid : List β} {atts : List γ}
    {p : α → β → Bool} {q : β → γ → Bool} (hl : l = objs.map fun o => mid.map (p o)) :
    boolMul l (mid.map fun f => atts.map (q f)) atts.length =
      objs.map fun o => atts.map fun a => mid.any fun f => p o f && q f a := by
  subst hl
  unfold boolMul
  rw [List.map_map]
  apply List.map_congr_left
  intro o _
  simp only [Function.comp_apply]
  apply List.ext_getElem?
  intro k
  rw [List.getElem?_map, List.getElem?_map]
  by_cases hk : k < atts.length
  · rw [List.getElem?_range hk, List.getElem?_eq_getElem hk]
    simp only [Option.map_some, Option.some.injEq]
    rw [Bool.eq_iff_iff, List.any_eq_true, List.any_eq_true]
    constructor
    · rintro ⟨b, hb, hbt⟩
      obtain ⟨i, hi⟩ := List.mem_iff_getElem?.1 hb
      rw [List.getElem?_zipWith_eq_some] at hi
      obtain ⟨x, r, h1, h2, h3⟩ := hi
      rw [List.getElem?_map] at h1 h2
      cases hm : mid[i]? with
      | none => rw [hm] at h1; simp at h1
      | some f =>
        rw [hm] at h1 h2
        simp only [Option.map_some, Option.some.injEq] at h1 h2
        refine ⟨f, List.mem_of_getElem? hm, ?_⟩
        rw [h1]
        simp only [id_eq] at hbt
        rw [hbt, ← h2] at h3
        rw [← h3]
        simp [List.getD_eq_getElem?_getD, List.getElem?_eq_getElem hk]
    · rintro ⟨f, hf, hb⟩
      obtain ⟨i, hi⟩ := List.mem_iff_getElem?.1 hf
      refine ⟨true, ?_, rfl⟩
      apply List.mem_of_getElem? (i := i)
      rw [List.getElem?_zipWith_eq_some]
      refine ⟨p o f, atts.map (q f), by rw [List.getElem?_map, hi]; rfl, by rw [List.getElem?_map, hi]; rfl, ?_⟩
      rw [← hb]
      simp [List.getD_eq_getElem?_getD, List.getElem?_eq_getElem hk]
  · rw [List.getElem?_eq_none (by simpa using hk), List.getElem?_eq_none (by simpa using hk)]
    rfl

/-! ### complementary, compound -/

theorem WFw.complementary {c : Ctx α β} (h : c.WFw) {neg : β → β} (hneg : Function.Injective neg) :
    ∃ d, c.complementary neg = .ok d ∧ d.WF ∧
      d.nd.rows = (c.objects.map fun o => c.attributes.map fun a => !c.incB o a) ∧
      Stores d ⟨c.objects, c.attributes.map neg,
        fun o b => c.attributes.any fun a => neg a = b && !c.incB o a⟩ := by
  have h1 : (List.range c.objects.length).mapM (fun i =>
      (List.range c.attributes.length).mapM fun j => do
        let b ← c.nd.cell i j
        .ok (!b)) = .ok (c.objects.map fun o => c.attributes.map fun a => !c.incB o a) := by
    apply mapM_range
    intro i o hi
    apply mapM_range
    intro j a hj
    rw [h.cell_name hi hj]; rfl
  have h2 : (c.objects.map fun o => c.attributes.map fun a => !c.incB o a) =
      c.objects.map fun o => (c.attributes.map neg).map fun b =>
        c.attributes.any fun a => neg a = b && !c.incB o a := by
    apply List.map_congr_left
    intro o _
    rw [List.map_map]
    apply List.map_congr_left
    intro a ha
    rw [Bool.eq_iff_iff, Function.comp_apply, List.any_eq_true]
    constructor
    · intro hb; exact ⟨a, ha, by simpa using hb⟩
    · rintro ⟨a', _, hb⟩
      simp only [Bool.and_eq_true, decide_eq_true_eq] at hb
      rw [hneg hb.1] at hb
      exact hb.2
  obtain ⟨d, h3, h4, h5, h6⟩ := make_rel (fun o b => c.attributes.any fun a => neg a = b && !c.incB o a)
    h.onodup (h.anodup.map hneg)
  refine ⟨d, ?_, h4, by rw [h5, h2], h6⟩
  unfold Ctx.complementary
  rw [h1, py_ok_bind, h2, h3]

end

/-! ### Fewer objects, same intents -/

theorem isIntent_iff {G : Finset α} {M : Finset β} {I : α → β → Prop} {B : Finset β} :
    IsIntent G M I B ↔ B ⊆ M ∧ attrClosure G M I B = B := by
  classical
  constructor
  · rintro ⟨A, hB, hA⟩
    refine ⟨fun m hm => ((hB m).1 hm).1, ?_⟩
    ext m
    simp only [attrClosure, Finset.mem_filter]
    rw [hB]
    constructor
    · rintro ⟨h1, h2⟩
      exact ⟨h1, fun g hg => h2 g ((hA g).1 hg).1 ((hA g).1 hg).2⟩
    · rintro ⟨h1, h2⟩
      exact ⟨h1, fun g hg hgB => h2 g ((hA g).2 ⟨hg, hgB⟩)⟩
  · rintro ⟨hB, he⟩
    refine ⟨G.filter fun g => ∀ m ∈ B, I g m, ?_, by simp⟩
    have hm : ∀ m, m ∈ B ↔ m ∈ M ∧ ∀ g ∈ G, (∀ b ∈ B, I g b) → I g m := by
      intro m
      have := congrArg (m ∈ ·) he
      simp only [attrClosure, Finset.mem_filter, eq_iff_iff] at this
      exact this.symm
    intro m
    rw [hm m]
    simp only [Finset.mem_filter, and_imp]

/-- If every object row is an intersection of rows of `G' ⊆ G`, closures and intents are the same. -/
theorem same_closure {G G' : Finset α} {M : Finset β} {I : α → β → Prop} (hG : G' ⊆ G)
    (hr : ∀ g ∈ G, ∀ m ∈ M, (∀ g' ∈ G', (∀ b ∈ M, I g b → I g' b) → I g' m) → I g m) :
    (∀ B ⊆ M, attrClosure G M I B = attrClosure G' M I B) ∧
      ∀ B, IsIntent G M I B ↔ IsIntent G' M I B := by
  have h1 : ∀ B ⊆ M, attrClosure G M I B = attrClosure G' M I B := by
    intro B hB
    ext m
    simp only [attrClosure, Finset.mem_filter]
    constructor
    · rintro ⟨h1, h2⟩; exact ⟨h1, fun g hg => h2 g (hG hg)⟩
    · rintro ⟨h1, h2⟩
      refine ⟨h1, fun g hg hgB => hr g hg m h1 ?_⟩
      intro g' hg' hsub
      exact h2 g' hg' fun b hb => hsub b (hB hb) (hgB b hb)
  refine ⟨h1, fun B => ?_⟩
  rw [isIntent_iff, isIntent_iff]
  constructor
  · rintro ⟨h2, h3⟩; exact ⟨h2, by rw [← h1 B h2, h3]⟩
  · rintro ⟨h2, h3⟩; exact ⟨h2, by rw [h1 B h2, h3]⟩

end Ctx
