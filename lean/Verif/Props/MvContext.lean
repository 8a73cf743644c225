/-
Properties C98, C99: mutators, copies and subcontexts of many-valued contexts (fca/mvcontext.py).
-/
import Verif.Model.MvContext
import Verif.Props.Reduce

set_option linter.unusedSectionVars false

open Spec

namespace Mv

variable {α β V : Type} [DecidableEq α] [DecidableEq β] [PyName α] [PyName β]

open Ctx

/-! ### C98 -/

/-- C98 fails for adding objects: `add_object` and `add_object_with_intent` raise AttributeError for every context and all
arguments, also the legal ones. -/
theorem C98_add_object_violated (c : Ctx α β) (row : List Bool) (B : Finset β) (n : α) :
    exec c (.addObject row n) = (c, some .attributeError) ∧
      exec c (.addObjectWithIntent B n) = (c, some .attributeError) := ⟨rfl, rfl⟩

/-- Two contexts that agree except for the shape of an empty array. -/
def Same (c d : Ctx α β) : Prop := d.objects = c.objects ∧ d.attributes = c.attributes ∧ d.nd.rows = c.nd.rows

theorem stores_same {c d : Ctx α β} {t : Table α β} (h : Stores d t) (hs : Same c d)
    (hc : c.nd.rows ≠ [] → c.nd.cols = some c.attributes.length) : Stores c t := by
  obtain ⟨h1, h2, h3⟩ := hs
  refine ⟨⟨h1 ▸ h.wf.onodup, h2 ▸ h.wf.anodup, ?_, ?_, hc⟩, h1 ▸ h.objs, h2 ▸ h.atts, ?_⟩
  · rw [← h3, ← h1]; exact h.wf.nrows
  · rw [← h3, ← h2]; exact h.wf.width
  · rw [← h1, ← h2, ← h3]; exact h.val

/-- Building from the list gives what building from the array gives. -/
theorem make_same {c : Ctx α β} {nd : Nd} {objs : List α} {atts : List β} (h : Ctx.make nd.rows objs atts = .ok c) :
    (∃ d, Ctx.ofNd nd objs atts = .ok d ∧ Same c d) ∧ (c.nd.rows ≠ [] → c.nd.cols = some atts.length) ∧
      c.attributes = renameAll atts := by
  rcases make_cases nd.rows objs atts with ⟨h1, h2, h3⟩ | ⟨_, h2⟩
  · rw [h3] at h
    cases h
    refine ⟨⟨_, ofNd_dims h1 h2, rfl, rfl, rfl⟩, ?_, rfl⟩
    intro hne
    simp only at hne ⊢
    rw [if_neg hne]
  · rw [h2] at h; cases h

theorem reinit_of {c d : Ctx α β} {x : Py (Ctx α β)} (h : x = .ok d) : c.reinit x = (d, none) := by rw [h]; rfl

/-- One mutator that returns has the effect of the update of the table. -/
theorem stores_exec {c c' : Ctx α β} {t : Table α β} (h : Stores c t) {op : TOp α β} (hf : op.Fresh t)
    (he : exec c op = (c', none)) : Stores c' (t.apply op) := by
  cases op with
  | addObject row n => simp [exec, addObject] at he
  | addObjectWithIntent B n => simp [exec, addObjectWithIntent, addObject] at he
  | addAttribute col n => exact h.exec hf he
  | addAttributeWithExtent A n => exact h.exec hf he
  | setAttributeExtent A n => exact h.exec hf he
  | deleteObject n => exact h.exec hf he
  | deleteAttribute n => exact h.exec hf he
  | setObjectIntent B n =>
    have he' := reinit_ok he
    obtain ⟨js, h1, he'⟩ := bind_ok he'
    obtain ⟨i, h2, he'⟩ := bind_ok he'
    obtain ⟨r0, h3, he'⟩ := bind_ok he'
    obtain ⟨⟨d, h5, h6⟩, h7, h8⟩ := make_same (nd := ⟨c.nd.cols, c.nd.rows.set i (flags c.attributes.length js)⟩) he'
    rw [renameAll_nodup h.wf.anodup] at h8
    have hrow : c.nd.row i = .ok r0 := by
      have hne : c.nd.rows ≠ [] := by
        intro h0; rw [h0] at h3; simp [pyGet] at h3
      unfold Nd.row
      rw [h.wf.shape hne]
      exact h3
    refine stores_same (h.exec (op := .setObjectIntent B n) hf (c' := d) (reinit_of ?_)) h6 (h8 ▸ h7)
    simp only [h1, h2, hrow, py_ok_bind]
    exact h5
  | renameObject old new =>
    have he' := reinit_ok he
    obtain ⟨i, h2, he'⟩ := bind_ok he'
    obtain ⟨⟨d, h5, h6⟩, h7, h8⟩ := make_same he'
    rw [renameAll_nodup h.wf.anodup] at h8
    refine stores_same (h.exec (op := .renameObject old new) hf (c' := d) (reinit_of ?_)) h6 (h8 ▸ h7)
    simp only [h2, py_ok_bind]
    exact h5
  | renameAttribute old new =>
    have he' := reinit_ok he
    obtain ⟨i, h2, he'⟩ := bind_ok he'
    obtain ⟨⟨d, h5, h6⟩, h7, h8⟩ := make_same he'
    have hst := h.exec (op := .renameAttribute old new) hf (c' := d) (reinit_of (by simp only [h2, py_ok_bind]; exact h5))
    refine stores_same hst h6 ?_
    have : c'.attributes.length = (c.attributes.set i new).length := by rw [h8, renameAll_length]
    rw [this]
    exact h7

/-- After any sequence of mutators that use fresh names and return, a many-valued context stores the table (of truth
values) obtained by the updates. Missing from C98: histories that add objects; they raise (see above). -/
theorem C98_histories_partial {c : Ctx α β} {t : Table α β} (h : Stores c t) (ops : List (TOp α β))
    (hf : FreshAll t ops) (c' : Ctx α β) (hc : execAll c ops = (c', none)) :
    let t' := ops.foldl Table.apply t
    c'.WFw ∧ c'.objects = t'.objs ∧ c'.attributes = t'.atts ∧
      c'.nd.rows.length = t'.objs.length ∧ (∀ r ∈ c'.nd.rows, r.length = t'.atts.length) ∧
      ∀ o ∈ t'.objs, ∀ a ∈ t'.atts, c'.getValue o a = .ok (t'.rel o a) := by
  have h' : Stores c' (ops.foldl Table.apply t) := by
    induction ops generalizing c t with
    | nil => cases hc; exact h
    | cons op ops ih =>
      unfold execAll at hc
      split at hc
      · rename_i c1 hc1
        exact ih (stores_exec h hf.1 hc1) hf.2 hc
      · cases hc
  refine ⟨h'.wf, h'.objs, h'.atts, ?_, ?_, fun o ho a ha => h'.getValue ho ha⟩
  · rw [← h'.objs]; exact h'.wf.nrows
  · rw [← h'.atts]; exact h'.wf.width

/-- A legal operation other than adding an object succeeds if there is an object. -/
theorem C98_legal_returns {c : Ctx α β} {t : Table α β} (h : Stores c t) (hne : t.objs ≠ []) (op : TOp α β)
    (hl : op.Legal t) (h1 : ∀ row n, op ≠ .addObject row n) (h2 : ∀ B n, op ≠ .addObjectWithIntent B n) :
    ∃ c', exec c op = (c', none) := by
  obtain ⟨d, hd⟩ := h.returns hne hl
  cases op with
  | addObject row n => exact absurd rfl (h1 row n)
  | addObjectWithIntent B n => exact absurd rfl (h2 B n)
  | addAttribute col n => exact ⟨d, hd⟩
  | addAttributeWithExtent A n => exact ⟨d, hd⟩
  | setAttributeExtent A n => exact ⟨d, hd⟩
  | deleteObject n => exact ⟨d, hd⟩
  | deleteAttribute n => exact ⟨d, hd⟩
  | setObjectIntent B n =>
    have he := reinit_ok hd
    obtain ⟨js, k1, he⟩ := bind_ok he
    obtain ⟨i, k2, he⟩ := bind_ok he
    obtain ⟨r0, k3, he⟩ := bind_ok he
    have hr : pyGet c.nd.rows i = .ok r0 := by
      unfold Nd.row at k3
      split at k3
      · cases k3
      · exact k3
    have hm := make_ok (table := c.nd.rows.set i (flags c.attributes.length js)) (objs := c.objects)
      (atts := c.attributes) (by rw [List.length_set]; exact h.wf.nrows) (by
        intro r hr
        rcases List.mem_or_eq_of_mem_set hr with hr | rfl
        · exact h.wf.width r hr
        · exact flags_length _ _)
    refine ⟨_, reinit_of (d := _) (by
      simp only [k1, k2, hr, py_ok_bind]
      exact hm)⟩
  | renameObject old new =>
    obtain ⟨i, k2, _⟩ := bind_ok (reinit_ok hd)
    refine ⟨_, reinit_of (d := _) (by
      simp only [k2, py_ok_bind]
      exact make_ok (by rw [List.length_set]; exact h.wf.nrows) h.wf.width)⟩
  | renameAttribute old new =>
    obtain ⟨i, k2, _⟩ := bind_ok (reinit_ok hd)
    refine ⟨_, reinit_of (d := _) (by
      simp only [k2, py_ok_bind]
      exact make_ok h.wf.nrows (by rw [List.length_set]; exact h.wf.width))⟩

/-- An operation that raises leaves the context as it was. -/
theorem C98_failed_unchanged {c c' : Ctx α β} {op : TOp α β} {e : PyErr} (he : exec c op = (c', some e)) : c' = c := by
  cases op with
  | addObject row n => exact (congrArg Prod.fst he).symm
  | addObjectWithIntent B n => exact (congrArg Prod.fst he).symm
  | _ => exact reinit_err he

/-- A deep copy has the same names and truth values. -/
theorem C98_deepcopy {c : Ctx α β} (h : c.WFw) :
    ∃ d, deepcopy c = .ok d ∧ d.WF ∧ d.objects = c.objects ∧ d.attributes = c.attributes ∧ d.nd.rows = c.nd.rows :=
  ⟨_, make_nodup h.nrows h.width h.onodup h.anodup, wf_mk' h.nrows h.width h.onodup h.anodup, rfl, rfl, rfl⟩

/-- A history on a small context. -/
def opsMv : List (TOp (List Char) (List Char)) :=
  [.addAttribute [true, false] "o".toList, .addAttributeWithExtent {"g".toList} "p".toList,
    .setObjectIntent ["n".toList, "p".toList] "g".toList, .setAttributeExtent ["h".toList] "m".toList,
    .deleteAttribute "o".toList, .renameObject "g".toList "gg".toList, .deleteObject "h".toList,
    .renameAttribute "n".toList "nn".toList]

example : Stores cxtS ⟨cxtS.objects, cxtS.attributes, cxtS.incB⟩ ∧
    FreshAll ⟨cxtS.objects, cxtS.attributes, cxtS.incB⟩ opsMv ∧ (execAll cxtS opsMv).2 = none ∧
    (execAll cxtS opsMv).1 = ⟨["gg".toList], ["m".toList, "nn".toList, "p".toList], ⟨some 3, [[false, true, true]]⟩⟩ := by
  refine ⟨cxtS_wf.stores, ?_, ?_, ?_⟩ <;> decide +kernel

/-! ### C99 -/

theorem mvMake_id (table : List (List Bool)) (objs : List α) (atts : List β) :
    mvMake id table objs atts = Ctx.make table objs atts := by
  unfold mvMake
  congr 1
  simp

/-- `extract_subcontext(names)` raises ValueError exactly for unknown names and restricts the relation to the names. -/
theorem C99_subcontext {c : Ctx α β} (h : c.WFw) (names : List β) :
    ((∃ a ∈ names, a ∉ c.attributes) → extractSubcontext c names = .error .valueError) ∧
    ((∀ a ∈ names, a ∈ c.attributes) → ∃ d, extractSubcontext c names = .ok d ∧
      d.nd.rows = (c.objects.map fun o => names.map (c.incB o)) ∧ d.objects = c.objects ∧
      (names.Nodup → d.WF ∧ d.attributes = names ∧ ∀ o a, d.Inc o a ↔ a ∈ names ∧ c.Inc o a)) := by
  have : extractSubcontext c names = c.extractSubcontext names := by
    unfold extractSubcontext Ctx.extractSubcontext
    simp only [mvMake_id]
  rw [this]
  exact C16_subcontext h names

/-- The rows at the positions where `q` holds. -/
theorem select_ok {c : Ctx α β} (h : c.WFw) {p : ℕ → Py Bool} {q : ℕ → Bool}
    (hp : ∀ i < c.objects.length, p i = .ok (q i)) :
    ∃ d, (do
        let is ← filterPy p (List.range c.nd.rows.length)
        let objs ← is.mapM (pyGet c.objects)
        let table ← is.mapM (pyGet c.nd.rows)
        mvMake id table objs c.attributes) = .ok d ∧ d.WF ∧ d.attributes = c.attributes ∧
      d.objects.Sublist c.objects ∧ (∀ (i : ℕ) o, c.objects[i]? = some o → (o ∈ d.objects ↔ q i = true)) ∧
      ∀ o ∈ d.objects, ∀ a, d.Inc o a ↔ c.Inc o a := by
  have hq : ∀ (i : ℕ) o, c.objects[i]? = some o → q i = q (c.objects.idxOf o) := by
    intro i o hi
    have hlt := lt_of_getElem? hi
    have : c.objects.idxOf o = i := by
      have e : c.objects[i] = o := by
        rw [List.getElem?_eq_getElem hlt] at hi; exact Option.some.inj hi
      rw [← e]
      exact h.onodup.idxOf_getElem i hlt
    rw [this]
  set q' : α → Bool := fun o => q (c.objects.idxOf o) with hq'
  have h1 : filterPy p (List.range c.nd.rows.length) = .ok ((List.range c.objects.length).filter q) := by
    rw [h.nrows]
    exact filterPy_ok fun i hi => hp i (List.mem_range.1 hi)
  have h3 := mapM_range_filter (f := pyGet c.objects) (g := fun x => x) (q' := q') hq (fun i x hx => pyGet_ok hx)
  have h4 := mapM_range_filter (f := pyGet c.nd.rows) (g := fun o => c.attributes.map (c.incB o)) (q' := q') hq
    (fun i x hx => pyGet_ok (h.row_name hx))
  rw [List.map_id'] at h3
  obtain ⟨d, h5, h6, _, h7⟩ := make_rel c.incB (h.onodup.filter q') h.anodup
  refine ⟨d, ?_, h6, h7.atts, ?_, ?_, ?_⟩
  · simp only [h1, h3, h4, py_ok_bind, mvMake_id, h5]
  · rw [h7.objs]; exact List.filter_sublist
  · intro i o hi
    rw [h7.objs, List.mem_filter, hq i o hi]
    exact ⟨fun h => h.2, fun h => ⟨List.mem_of_getElem? hi, h⟩⟩
  · intro o ho a
    rw [h7.inc, ← h.incB]
    rw [h7.objs] at ho
    exact ⟨fun h => h.2.2, fun h5 => ⟨ho, ((h.incB o a).1 h5).mem.2, h5⟩⟩

theorem filterPy_err {γ : Type} {p : γ → Py Bool} {e : PyErr} {l₁ l₂ : List γ} {x : γ}
    (h : ∀ y ∈ l₁, ∃ b, p y = .ok b) (hx : p x = .error e) : filterPy p (l₁ ++ x :: l₂) = .error e := by
  induction l₁ with
  | nil => simp only [List.nil_append, filterPy, hx, py_err_bind]
  | cons y l₁ ih =>
    obtain ⟨b, hb⟩ := h y (by simp)
    simp only [List.cons_append, filterPy, hb, py_ok_bind, ih (fun z hz => h z (by simp [hz])), py_err_bind]

/-- `extract_subcontext_by_condition(condition)` keeps exactly the objects whose position satisfies the condition, in the
original order and with their rows; an exception of the condition is passed on. -/
theorem C99_condition {c : Ctx α β} (h : c.WFw) (cond : ℕ → Py Bool) :
    (∀ q : ℕ → Bool, (∀ i < c.objects.length, cond i = .ok (q i)) →
      ∃ d, extractByCondition c cond = .ok d ∧ d.WF ∧ d.attributes = c.attributes ∧ d.objects.Sublist c.objects ∧
        (∀ (i : ℕ) o, c.objects[i]? = some o → (o ∈ d.objects ↔ q i = true)) ∧
        ∀ o ∈ d.objects, ∀ a, d.Inc o a ↔ c.Inc o a) ∧
    ∀ i e, i < c.objects.length → cond i = .error e → (∀ j < i, ∃ b, cond j = .ok b) →
      extractByCondition c cond = .error e := by
  refine ⟨fun q hq => select_ok h hq, fun i e hi he hj => ?_⟩
  have hs : List.range c.nd.rows.length = List.range i ++ i :: (List.range' (i + 1) (c.nd.rows.length - (i + 1))) := by
    rw [h.nrows, List.range_eq_range', List.range_eq_range']
    have h1 : c.objects.length = i + (1 + (c.objects.length - (i + 1))) := by omega
    conv_lhs => rw [h1, ← List.range'_append, ← List.range'_append]
    simp [List.range'_one]
  unfold extractByCondition
  rw [hs, filterPy_err (fun y hy => hj y (List.mem_range.1 hy)) he]
  rfl

theorem mvHasValues_ok (eqv : V → Bool → Bool) {c : Ctx α β} (h : c.WFw) {i : ℕ} {o : α} (hi : c.objects[i]? = some o)
    {vs : List (β × V)} (hk : ∀ p ∈ vs, p.1 ∈ c.attributes) :
    hasValues eqv c i vs = .ok (vs.all fun p => eqv p.2 (c.incB o p.1)) := by
  induction vs with
  | nil => rfl
  | cons p vs ih =>
    obtain ⟨a, v⟩ := p
    obtain ⟨j, hj⟩ := firstIdx_mem (hk (a, v) (by simp))
    simp only [hasValues, hj, h.cell_name hi (firstIdx_ok hj), py_ok_bind, List.all_cons]
    cases eqv v (c.incB o a)
    · rfl
    · simpa using ih (fun b hb => hk b (by simp [hb]))

/-- `extract_subcontext_by_attribute_values(values)` raises ValueError exactly for unknown names and keeps exactly the
objects whose *truth values* equal the values asked for. Missing from C99: the values the context was made of
(see below). -/
theorem C99_values_partial (eqv : V → Bool → Bool) {c : Ctx α β} (h : c.WFw) (values : List (β × V)) :
    ((∃ p ∈ values, p.1 ∉ c.attributes) → extractByValues eqv c values = .error .valueError) ∧
    ((∀ p ∈ values, p.1 ∈ c.attributes) → ∃ d, extractByValues eqv c values = .ok d ∧ d.WF ∧
      d.attributes = c.attributes ∧ d.objects.Sublist c.objects ∧
      (∀ o, o ∈ d.objects ↔ o ∈ c.objects ∧ ∀ p ∈ values, ∃ b, c.getValue o p.1 = .ok b ∧ eqv p.2 b = true) ∧
      ∀ o ∈ d.objects, ∀ a, d.Inc o a ↔ c.Inc o a) := by
  constructor
  · rintro ⟨p, hp, hn⟩
    have hck : c.checkNames (values.map Prod.fst) = .error .valueError := by
      rw [checkNames_ok, if_neg]
      push Not
      exact ⟨p.1, List.mem_map_of_mem hp, hn⟩
    simp only [extractByValues, hck, py_err_bind]
  · intro hk
    have hck : c.checkNames (values.map Prod.fst) = .ok () := by
      rw [checkNames_ok, if_pos]
      intro a ha
      obtain ⟨p, hp, rfl⟩ := List.mem_map.1 ha
      exact hk p hp
    obtain ⟨d, h1, h2, h3, h4, h5, h6⟩ := select_ok h (p := fun i => hasValues eqv c i values)
      (q := fun i => match c.objects[i]? with | some o => values.all fun p => eqv p.2 (c.incB o p.1) | none => false) (by
        intro i hi
        simp only [List.getElem?_eq_getElem hi]
        exact mvHasValues_ok eqv h (List.getElem?_eq_getElem hi) hk)
    refine ⟨d, ?_, h2, h3, h4, ?_, h6⟩
    · simp only [extractByValues, hck, py_ok_bind]
      exact h1
    · intro o
      constructor
      · intro ho
        have hoc := h4.subset ho
        obtain ⟨i, hi⟩ := List.mem_iff_getElem?.1 hoc
        have := (h5 i o hi).1 ho
        simp only [hi, List.all_eq_true] at this
        exact ⟨hoc, fun p hp => ⟨_, h.stores.getValue hoc (hk p hp), this p hp⟩⟩
      · rintro ⟨hoc, hall⟩
        obtain ⟨i, hi⟩ := List.mem_iff_getElem?.1 hoc
        refine (h5 i o hi).2 ?_
        simp only [hi, List.all_eq_true]
        intro p hp
        obtain ⟨b, hb, hb'⟩ := hall p hp
        rw [h.stores.getValue hoc (hk p hp)] at hb
        cases hb
        exact hb'

/-- C99 fails for values that are not truth values: asked for an integer other than 0 and 1, the method returns a context
without objects, whatever values the objects were given (`True == 1` and `False == 0`). -/
theorem C99_values_violated {c : Ctx α β} (h : c.WFw) (a : β) (v : ℤ) (hv : v ≠ 0 ∧ v ≠ 1) (values : List (β × ℤ)) (hk : ∀ p ∈ values, p.1 ∈ c.attributes) (hav : (a, v) ∈ values) :
    ∃ d, extractByValues (fun (v : ℤ) b => decide (v = if b then 1 else 0)) c values = .ok d ∧ d.objects = [] := by
  obtain ⟨d, h1, _, _, _, h5, _⟩ :=
    (C99_values_partial (fun (v : ℤ) b => decide (v = if b then 1 else 0)) h values).2 hk
  refine ⟨d, h1, List.eq_nil_iff_forall_not_mem.2 fun o ho => ?_⟩
  obtain ⟨_, h7⟩ := (h5 o).1 ho
  obtain ⟨b, _, hb⟩ := h7 _ hav
  cases b
  · simp [hv.1] at hb
  · simp [hv.2] at hb

/-- All objects were given the value 7; asking for 7 yields nothing, asking for 1 yields everything. -/
example : ∃ c : Ctx (Fin 2) (Fin 2), mvMake (fun v : ℤ => decide (v ≠ 0)) [[7, 0], [7, 3]] [0, 1] [0, 1] = .ok c ∧ c.WFw ∧
    (extractByValues (fun (v : ℤ) b => decide (v = if b then 1 else 0)) c [(0, 7)]).map (fun d => d.objects) = .ok [] ∧
    (extractByValues (fun (v : ℤ) b => decide (v = if b then 1 else 0)) c [(0, 1)]).map (fun d => d.objects) = .ok [0, 1] ∧
    (extractByCondition c fun i => .ok (decide (i = 1))).map (fun d => (d.objects, d.nd.rows)) = .ok ([1], [[true, true]]) ∧
    (extractByCondition c fun i => if i = 1 then .error .keyError else .ok true) = .error .keyError ∧
    (extractSubcontext c [1]).map (fun d => (d.objects, d.nd.rows)) = .ok ([0, 1], [[false], [true]]) := by
  refine ⟨⟨[0, 1], [0, 1], ⟨some 2, [[true, false], [true, true]]⟩⟩, ?_, by constructor <;> decide +kernel, ?_⟩ <;>
    decide +kernel

end Mv
