/-
Properties C11 - C18: reduction, row codes, complementary and compound contexts, subcontexts,
removal of empty objects and associative closures (fca/context.py:491-801).
-/
import Verif.Props.Derived
import Verif.Lemmas.Derived2

set_option linter.unusedSectionVars false

open Spec

namespace Ctx

variable {α β : Type} [DecidableEq α] [DecidableEq β] [PyName α] [PyName β]

/-! ### C11

The model computes with unbounded row codes; `C13_code_exact` shows that they are the `int64` values
of the code for rows of at most 63 cells, which is the range C11 speaks about. -/

/-- `reduce_objects` returns some of the rows, with their labels and in the original order, and
keeps all intents. -/
theorem C11_reduce_objects {c : Ctx α β} (h : c.WFw) :
    ∃ d, c.reduceObjects = .ok d ∧ d.WF ∧ d.objects.Sublist c.objects ∧
      d.attributes = c.attributes ∧
      (∀ o ∈ d.objects, ∀ a, d.Inc o a ↔ c.Inc o a) ∧
      (∀ o ∈ d.objects, d.objectIntent o = c.objectIntent o) ∧
      ∀ B, IsIntent d.G d.M d.Inc B ↔ IsIntent c.G c.M c.Inc B := by
  obtain ⟨d, h1, h2, h3⟩ := h.reduceObjects
  have hobj : ∀ o, o ∈ d.objects ↔ o ∈ c.objects ∧
      c.kept (reduceOuter (2 ^ c.attributes.length - 1) c.rowKeys) o := by
    intro o
    rw [h3.objs]; simp
  have hinc : ∀ o ∈ d.objects, ∀ a, d.Inc o a ↔ c.Inc o a := by
    intro o ho a
    rw [h3.inc, ← h.incB]
    constructor
    · exact fun h => h.2.2
    · intro h5
      exact ⟨by rw [h3.objs] at ho; exact ho, ((h.incB o a).1 h5).mem.2, h5⟩
  refine ⟨d, h1, h2, by rw [h3.objs]; exact List.filter_sublist, h3.atts, hinc, ?_, ?_⟩
  · intro o ho
    rw [h2.objectIntent ho, h.objectIntent ((hobj o).1 ho).1]
    congr 1
    ext a
    rw [h2.mem_upF, h.mem_upF, h3.atts]
    simp only [Finset.mem_singleton, forall_eq]
    exact and_congr_right fun _ => hinc o ho a
  · apply intents_of_sub h3.atts (fun o ho => ((hobj o).1 ho).1) hinc
    intro g hg m hm hall
    rw [← h.incB]
    apply h.kept_rows hg hm
    intro g' hg' hk hb
    rw [h.incB]
    exact hall g' ((hobj g').2 ⟨hg', hk⟩) fun b hbm hgb => (h.incB g' b).1 (hb b hbm ((h.incB g b).2 hgb))

/-- `reduce_attributes` returns some of the columns, with their labels and in the original order,
and keeps all extents. -/
theorem C11_reduce_attributes {c : Ctx α β} (h : c.WFw) :
    ∃ d, c.reduceAttributes = .ok d ∧ d.WF ∧ d.attributes.Sublist c.attributes ∧
      d.objects = c.objects ∧
      (∀ o, ∀ a ∈ d.attributes, d.Inc o a ↔ c.Inc o a) ∧
      ∀ A, IsExtent d.G d.M d.Inc A ↔ IsExtent c.G c.M c.Inc A := by
  obtain ⟨t, ht, htw, hto, hta, hti⟩ : ∃ t, c.transpose = .ok t ∧ t.WF ∧ t.objects = c.attributes ∧
      t.attributes = c.objects ∧ ∀ a o, t.Inc a o ↔ c.Inc o a := by
    obtain ⟨t, ht, _⟩ := h.transpose
    exact ⟨t, ht, h.transpose_inc ht⟩
  obtain ⟨r, hr, hrw, h1, h2, h3, _, h5⟩ := C11_reduce_objects htw.toWFw
  obtain ⟨d, hd, hdw, hdo, hda, hdi⟩ : ∃ d, r.transpose = .ok d ∧ d.WF ∧ d.objects = r.attributes ∧
      d.attributes = r.objects ∧ ∀ a o, d.Inc a o ↔ r.Inc o a := by
    obtain ⟨t, ht, _⟩ := hrw.toWFw.transpose
    exact ⟨t, ht, hrw.toWFw.transpose_inc ht⟩
  refine ⟨d, ?_, hdw, by rw [hda, ← hto]; exact h1, by rw [hdo, h2, hta], ?_, ?_⟩
  · simp only [reduceAttributes, ht, py_ok_bind, hr, hd]
  · intro o a ha
    rw [hdi, h3 a (hda ▸ ha), hti]
  · intro A
    rw [← extent_transpose hto hta hti, ← h5]
    exact (extent_transpose (c := d) (d := r) hda.symm hdo.symm (fun a o => (hdi o a).symm) A).symm

example : cxtD.WFw ∧ (cxtD.reduceObjects.map fun d => d.objects) = .ok ["h".toList, "i".toList] ∧
    (cxtD.reduceAttributes.map fun d => d.attributes) = .ok ["m".toList, "n".toList, "o".toList] := by
  refine ⟨cxtD_wf, ?_⟩; decide +kernel

/-! ### C12 -/

/-- Some row of the result is the intersection of other rows of the result. -/
def HasReducible (d : Ctx α β) : Prop :=
  ∃ g ∈ d.objects, (∃ m ∈ d.attributes, ¬ d.Inc g m) ∧
    ∀ m ∈ d.attributes, ¬ d.Inc g m →
      ∃ g' ∈ d.objects, g' ≠ g ∧ (∀ b, d.Inc g b → d.Inc g' b) ∧ ¬ d.Inc g' m

/-- The context with rows 100, 010, 110, 101, 011. -/
def cxtC12 : Ctx (Fin 5) (Fin 3) :=
  ⟨[0, 1, 2, 3, 4], [0, 1, 2],
    ⟨some 3, [[true, false, false], [false, true, false], [true, true, false], [true, false, true],
      [false, true, true]]⟩⟩

instance (n : ℕ) : PyName (Fin n) := ⟨fun x _ => x⟩

theorem cxtC12_wf : cxtC12.WFw := by constructor <;> decide +kernel

/-- C12 fails: the loop compares a *position* with the set of removed *codes* (line 735) and
therefore skips row 010, which is the intersection of 110 and 011. -/
theorem C12_complete_violated :
    ∃ d, cxtC12.reduceObjects = .ok d ∧ HasReducible d := by
  refine ⟨⟨[1, 2, 3, 4], [0, 1, 2], ⟨some 3, [[false, true, false], [true, true, false], [true, false, true],
      [false, true, true]]⟩⟩, by decide +kernel, ?_⟩
  have hwf : (⟨[1, 2, 3, 4], [0, 1, 2], ⟨some 3, [[false, true, false], [true, true, false],
      [true, false, true], [false, true, true]]⟩⟩ : Ctx (Fin 5) (Fin 3)).WFw := by
    constructor <;> decide +kernel
  unfold HasReducible
  simp only [← hwf.incB]
  decide +kernel

/-- If every row code is 0 or at least the number of objects (so that no code can be mistaken for a
position), no row of the result is an intersection of other rows of the result, except for full
rows. -/
theorem C12_complete_partial {c d : Ctx α β} (h : c.WFw) (hd : c.reduceObjects = .ok d)
    (hcode : ∀ r ∈ c.nd.rows, list2int r = 0 ∨ c.objects.length ≤ list2int r) :
    ¬ HasReducible d := by
  obtain ⟨d', h1, h2, h3⟩ := h.reduceObjects
  rw [hd] at h1
  cases h1
  have hobj : ∀ o, o ∈ d.objects ↔ o ∈ c.objects ∧
      c.kept (reduceOuter (2 ^ c.attributes.length - 1) c.rowKeys) o := by
    intro o
    rw [h3.objs]; simp
  have hinc : ∀ o ∈ d.objects, ∀ a ∈ c.attributes, c.incB o a = true ↔ d.Inc o a := by
    intro o ho a ha
    rw [h3.inc, h3.objs.symm]
    simp [ho, ha]
  rintro ⟨g, hg, ⟨m0, hm0, hf⟩, hall⟩
  rw [h3.atts] at hm0 hall
  obtain ⟨m, hm, hgm, hx⟩ := h.kept_irreducible (by
    intro o ho
    obtain ⟨i, hi⟩ := List.mem_iff_getElem?.1 ho
    exact hcode _ (List.mem_of_getElem? (h.row_name hi))) ((hobj g).1 hg).1 ((hobj g).1 hg).2
    ⟨m0, hm0, by rw [← hinc g hg m0 hm0] at hf; simpa using hf⟩
  obtain ⟨g', hg', hne, hb, hn⟩ := hall m hm (by rw [← hinc g hg m hm, hgm]; simp)
  apply hn
  rw [← hinc g' hg' m hm]
  refine hx g' ((hobj g').1 hg').1 hne ((hobj g').1 hg').2 ?_
  intro b hbm hgb
  rw [hinc g' hg' b hbm]
  exact hb b ((hinc g hg b hbm).1 hgb)

/-- A context satisfying the hypotheses of `C12_complete_partial`, with a row that is removed. -/
def cxtC12' : Ctx (Fin 3) (Fin 3) :=
  ⟨[0, 1, 2], [0, 1, 2], ⟨some 3, [[true, false, true], [false, true, true], [false, false, true]]⟩⟩

example : cxtC12'.WFw ∧ (∀ r ∈ cxtC12'.nd.rows, list2int r = 0 ∨ cxtC12'.objects.length ≤ list2int r) ∧
    (cxtC12'.reduceObjects.map fun d => d.objects) = .ok [0, 1] := by
  refine ⟨by constructor <;> decide +kernel, ?_⟩; decide +kernel

/-! ### C13 -/

/-- Rows of equal length up to 64 have different codes. -/
theorem C13_codes_partial (l l' : List Bool) (h : l.length = l'.length) (h64 : l.length ≤ 64)
    (he : list2int64 l = list2int64 l') : l = l' := by
  apply list2int_inj h
  rw [list2int64_eq, list2int64_eq] at he
  have h1 := list2int_lt l
  have h2 := list2int_lt l'
  rw [← h] at h2
  have h3 : (2 : ℕ) ^ l.length ≤ 2 ^ 64 := Nat.pow_le_pow_right (by norm_num) h64
  have := congrArg BitVec.toNat he
  simp only [BitVec.toNat_ofNat] at this
  rwa [Nat.mod_eq_of_lt (by omega), Nat.mod_eq_of_lt (by omega)] at this

/-- Up to 63 cells the 64-bit code is the unbounded code, as a non-negative integer. -/
theorem C13_code_exact (l : List Bool) (h63 : l.length ≤ 63) : (list2int64 l).toInt = list2int l := by
  have h1 := list2int_lt l
  have h3 : (2 : ℕ) ^ l.length ≤ 2 ^ 63 := Nat.pow_le_pow_right (by norm_num) h63
  rw [list2int64_eq, BitVec.toInt_eq_toNat_cond, BitVec.toNat_ofNat, Nat.mod_eq_of_lt (by omega), if_pos (by omega)]

/-- C13 fails from 65 attributes on: the 64-bit code drops the last cell, so two different rows get
the same code and one of the objects is lost. -/
theorem C13_codes_violated (n : ℕ) (hn : 65 ≤ n) :
    ∃ l l' : List Bool, l.length = n ∧ l'.length = n ∧ l ≠ l' ∧ list2int64 l = list2int64 l' := by
  have key : ∀ (k : ℕ) (m : List Bool), list2int (List.replicate k false ++ m) = 2 ^ k * list2int m := by
    intro k m
    induction k with
    | zero => simp
    | succ k ih =>
      rw [List.replicate_succ, List.cons_append, list2int_cons, ih, pow_succ]
      simp; ring
  refine ⟨List.replicate (n - 1) false ++ [true], List.replicate (n - 1) false ++ [false], ?_, ?_, ?_, ?_⟩
  · simp; omega
  · simp; omega
  · simp
  · rw [list2int64_eq, list2int64_eq, key, key]
    apply BitVec.eq_of_toNat_eq
    simp only [BitVec.toNat_ofNat, list2int, List.foldr]
    obtain ⟨k, hk⟩ : ∃ k, n - 1 = 64 + k := ⟨n - 65, by omega⟩
    rw [hk, pow_add]
    simp

example : ∃ l l' : List Bool, l.length = l'.length ∧ l.length ≤ 64 ∧ l ≠ l' :=
  ⟨[true, false], [false, true], by decide⟩

/-! ### C14 -/

/-- `complementary` keeps the objects, renames the attributes and negates every cell; applied twice
it restores the table. -/
theorem C14_complementary {c : Ctx α β} (h : c.WFw) (neg : β → β) (hneg : Function.Injective neg) :
    ∃ d e, c.complementary neg = .ok d ∧ d.WF ∧ d.objects = c.objects ∧
      d.attributes = c.attributes.map neg ∧
      (∀ g ∈ c.objects, ∀ m ∈ c.attributes, d.Inc g (neg m) ↔ ¬ c.Inc g m) ∧
      d.complementary neg = .ok e ∧ e.nd.rows = c.nd.rows ∧ e.objects = c.objects ∧
      e.attributes = c.attributes.map (neg ∘ neg) := by
  obtain ⟨d, h1, h2, h3, h4⟩ := h.complementary hneg
  obtain ⟨e, k1, k2, k3, k4⟩ := h2.toWFw.complementary hneg
  have hval : ∀ g ∈ c.objects, ∀ m ∈ c.attributes, d.incB g (neg m) = !c.incB g m := by
    intro g hg m hm
    rw [h4.incB hg (List.mem_map_of_mem hm), Bool.eq_iff_iff]
    simp only [List.any_eq_true, Bool.and_eq_true, decide_eq_true_eq]
    constructor
    · rintro ⟨a, _, ha, hb⟩
      rw [← hneg ha]; exact hb
    · intro hb; exact ⟨m, hm, rfl, hb⟩
  refine ⟨d, e, h1, h2, h4.objs, h4.atts, ?_, k1, ?_, k4.objs.trans h4.objs, ?_⟩
  · intro g hg m hm
    rw [← h2.incB, hval g hg m hm, ← h.incB]
    simp
  · rw [k3, h4.objs, h4.atts, h.rows_eq]
    refine List.map_congr_left fun g hg => ?_
    rw [List.map_map]
    refine List.map_congr_left fun m hm => ?_
    simp [hval g hg m hm]
  · rw [k4.atts]
    simp only [h4.atts, List.map_map]

/-- `'not ' + m` on character lists. -/
def notName (m : List Char) : List Char := "not ".toList ++ m

theorem notName_inj : Function.Injective notName := fun _ _ h => List.append_cancel_left h

example : cxtS.WFw ∧ Function.Injective notName ∧
    cxtS.complementary notName = .ok ⟨cxtS.objects, ["not m".toList, "not n".toList],
      ⟨some 2, [[false, true], [true, false]]⟩⟩ := by
  refine ⟨cxtS_wf, notName_inj, ?_⟩; decide +kernel

/-! ### C15 -/

/-- C15 fails for every context with an object and an attribute: the two boolean rows are added
elementwise, the table has too few columns, and ValueError is raised. -/
theorem C15_compound_violated {c : Ctx α β} (h : c.WFw) (neg : β → β) (hneg : Function.Injective neg)
    (ho : c.objects ≠ []) (ha : c.attributes ≠ []) : c.compound neg = .error .valueError := by
  obtain ⟨d, h1, h2, h3, h4⟩ := h.complementary hneg
  have hrow : (List.range c.objects.length).mapM (fun i => do
      let r ← pyGet c.nd.rows i
      let s ← pyGet d.nd.rows i
      (.ok (List.zipWith (· || ·) r s) : Py (List Bool))) =
      .ok (c.objects.map fun o => c.attributes.map fun _ => true) := by
    apply mapM_range
    intro i o hi
    have hs : d.nd.rows[i]? = some (c.attributes.map fun a => !c.incB o a) := by
      rw [h3, List.getElem?_map, hi]; rfl
    simp only [pyGet_ok (h.row_name hi), pyGet_ok hs, py_ok_bind]
    congr 1
    generalize c.attributes = l
    induction l with
    | nil => rfl
    | cons x l ih => simp_all
  simp only [compound, h1, py_ok_bind, hrow]
  apply make_err
  right
  obtain ⟨o, os, hos⟩ := List.exists_cons_of_ne_nil ho
  refine ⟨c.attributes.map fun _ => true, by rw [hos]; simp, ?_⟩
  rw [List.length_map, List.length_append, h4.atts, List.length_map]
  have : c.attributes.length ≠ 0 := fun hx => ha (List.length_eq_zero_iff.1 hx)
  omega

/-- Without objects (or attributes) the result has the attributes followed by their negations; then
the statement on the cells is empty. -/
theorem C15_compound_partial {c : Ctx α β} (h : c.WFw) (neg : β → β) (hneg : Function.Injective neg)
    (hdisj : ∀ m ∈ c.attributes, neg m ∉ c.attributes)
    (hne : c.objects = [] ∨ c.attributes = []) :
    ∃ d, c.compound neg = .ok d ∧ d.WF ∧ d.objects = c.objects ∧
      d.attributes = c.attributes ++ c.attributes.map neg := by
  obtain ⟨d, h1, h2, h3, h4⟩ := h.complementary hneg
  have hnd : (c.attributes ++ c.attributes.map neg).Nodup := by
    rw [List.nodup_append]
    refine ⟨h.anodup, h.anodup.map hneg, ?_⟩
    intro a ha b hb
    obtain ⟨m, hm, rfl⟩ := List.mem_map.1 hb
    rintro rfl
    exact hdisj m hm ha
  obtain ⟨e, k1, k2, _, k4⟩ := make_rel (objs := c.objects) (atts := c.attributes ++ c.attributes.map neg)
    (fun _ _ => true) h.onodup hnd
  refine ⟨e, ?_, k2, k4.objs, k4.atts⟩
  rw [← k1]
  have hrow : (List.range c.objects.length).mapM (fun i => do
      let r ← pyGet c.nd.rows i
      let s ← pyGet d.nd.rows i
      (.ok (List.zipWith (· || ·) r s) : Py (List Bool))) =
      .ok (c.objects.map fun o => (c.attributes ++ c.attributes.map neg).map fun _ => true) := by
    apply mapM_range
    intro i o hi
    rcases hne with hne | hne
    · rw [hne] at hi; simp at hi
    · have hs : d.nd.rows[i]? = some (c.attributes.map fun a => !c.incB o a) := by
        rw [h3, List.getElem?_map, hi]; rfl
      simp only [pyGet_ok (h.row_name hi), pyGet_ok hs, py_ok_bind, hne]
      rfl
  have ha : c.attributes ++ d.attributes = c.attributes ++ c.attributes.map neg := by rw [h4.atts]
  simp only [compound, h1, py_ok_bind, hrow, ha]

example : cxtS.WFw ∧ Function.Injective notName ∧ cxtS.objects ≠ [] ∧ cxtS.attributes ≠ [] := by
  refine ⟨cxtS_wf, notName_inj, ?_⟩; decide +kernel

/-- An object-free context for `C15_compound_partial`. -/
def cxtE : Ctx (List Char) (List Char) := ⟨[], ["m".toList], ⟨none, []⟩⟩

example : cxtE.WFw ∧ Function.Injective notName ∧ (∀ m ∈ cxtE.attributes, notName m ∉ cxtE.attributes) ∧
    (cxtE.objects = [] ∨ cxtE.attributes = []) := by
  refine ⟨by constructor <;> decide +kernel, notName_inj, ?_⟩; decide +kernel

/-! ### C16 -/

/-- `extract_subcontext(names)` raises (ValueError) exactly for unknown names, and restricts the
relation to the names given. -/
theorem C16_subcontext {c : Ctx α β} (h : c.WFw) (names : List β) :
    ((∃ a ∈ names, a ∉ c.attributes) → c.extractSubcontext names = .error .valueError) ∧
    ((∀ a ∈ names, a ∈ c.attributes) → ∃ d, c.extractSubcontext names = .ok d ∧
      d.nd.rows = (c.objects.map fun o => names.map (c.incB o)) ∧ d.objects = c.objects ∧
      (names.Nodup → d.WF ∧ d.attributes = names ∧ ∀ o a, d.Inc o a ↔ a ∈ names ∧ c.Inc o a)) := by
  constructor
  · rintro ⟨a, ha, hn⟩
    have hck : c.checkNames names = .error .valueError := by
      rw [checkNames_ok, if_neg]
      push Not
      exact ⟨a, ha, hn⟩
    simp only [extractSubcontext, extractSubtable, hck, py_err_bind]
  · intro hk
    have he : c.extractSubcontext names = make (c.objects.map fun o => names.map (c.incB o)) c.objects names := by
      simp only [extractSubcontext, h.extractSubtable hk, py_ok_bind]
    by_cases hn : names.Nodup
    · obtain ⟨d, h1, h2, h3, h4⟩ := make_rel (objs := c.objects) (atts := names) c.incB h.onodup hn
      refine ⟨d, he.trans h1, h3, h4.objs, fun _ => ⟨h2, h4.atts, ?_⟩⟩
      intro o a
      rw [h4.inc, ← h.incB]
      constructor
      · rintro ⟨_, h5, h6⟩; exact ⟨h5, h6⟩
      · rintro ⟨h5, h6⟩; exact ⟨((h.incB o a).1 h6).mem.1, h5, h6⟩
    · refine ⟨_, he.trans (make_ok (by simp) (by simp)), rfl, renameAll_nodup h.onodup, fun hx => absurd hx hn⟩

/-- `extract_subcontext_filtered_by_attributes(names, mode)` keeps exactly the objects with all
(`and`) or at least one (`or`) of the names, with their rows. -/
theorem C16_filtered {c : Ctx α β} (h : c.WFw) (names : List β) (mode : Mode) :
    ((∃ a ∈ names, a ∉ c.attributes) → c.extractFiltered names mode = .error .valueError) ∧
    ((∀ a ∈ names, a ∈ c.attributes) → mode ≠ .other → ∃ d, c.extractFiltered names mode = .ok d ∧
      d.WF ∧ d.attributes = c.attributes ∧ d.objects.Sublist c.objects ∧
      (∀ o, o ∈ d.objects ↔ o ∈ c.objects ∧
        ((mode = .and ∧ ∀ a ∈ names, c.Inc o a) ∨ (mode = .or ∧ ∃ a ∈ names, c.Inc o a))) ∧
      ∀ o ∈ d.objects, ∀ a, d.Inc o a ↔ c.Inc o a) := by
  constructor
  · rintro ⟨a, ha, hn⟩
    have hck : c.checkNames ((dictOf (names.map fun a => (a, ()))).map Prod.fst) = .error .valueError := by
      rw [checkNames_ok, if_neg]
      push Not
      refine ⟨a, ?_, hn⟩
      rw [mem_dictOf_keys, List.map_map]
      simpa using ha
    simp only [extractFiltered, hck, py_err_bind]
  · intro hk hm
    obtain ⟨d, h1, h2, h3⟩ := h.extractFiltered hk hm
    have hobj : ∀ o, o ∈ d.objects ↔ o ∈ c.objects ∧ c.keep names mode o = true := by
      intro o; rw [h3.objs]; simp
    refine ⟨d, h1, h2, h3.atts, by rw [h3.objs]; exact List.filter_sublist, ?_, ?_⟩
    · intro o
      rw [hobj]
      refine and_congr_right fun _ => ?_
      cases mode with
      | and => simp [keep, h.incB]
      | or => simp [keep, h.incB]
      | other => exact absurd rfl hm
    · intro o ho a
      rw [h3.inc, ← h.incB]
      constructor
      · exact fun h => h.2.2
      · intro h5
        exact ⟨by rw [h3.objs] at ho; exact ho, ((h.incB o a).1 h5).mem.2, h5⟩

/-- Any other mode leaves `indices` unbound. -/
theorem C16_mode {c : Ctx α β} (names : List β) (hk : ∀ a ∈ names, a ∈ c.attributes) :
    c.extractFiltered names .other = .error .unboundLocalError := by
  have hck : c.checkNames ((dictOf (names.map fun a => (a, ()))).map Prod.fst) = .ok () := by
    rw [checkNames_ok, if_pos]
    intro a ha
    rw [mem_dictOf_keys, List.map_map] at ha
    exact hk a (by simpa using ha)
  simp only [extractFiltered, hck, py_ok_bind, filteredInds, py_err_bind]

example : cxtD.WFw ∧ (∀ a ∈ ["n".toList, "o".toList], a ∈ cxtD.attributes) ∧
    (cxtD.extractFiltered ["n".toList, "o".toList] .and).map (fun d => d.objects) = .ok ["h".toList] ∧
    (cxtD.extractFiltered ["m".toList, "o".toList] .or).map (fun d => d.objects) =
      .ok ["g".toList, "h".toList, "i".toList] := by
  refine ⟨cxtD_wf, ?_⟩; decide +kernel

/-! ### C17 -/

/-- `remove_empty_objects` keeps exactly the objects with an attribute, in order, with their rows,
and the same pairs. -/
theorem C17_remove_empty {c : Ctx α β} (h : c.WFw) :
    ∃ d, c.removeEmptyObjects = (d, none) ∧ d.WFw ∧ d.attributes = c.attributes ∧
      d.objects.Sublist c.objects ∧ (∀ o, o ∈ d.objects ↔ o ∈ c.objects ∧ ∃ a, c.Inc o a) ∧
      (∀ o a, d.Inc o a ↔ c.Inc o a) ∧
      ∃ ps ps', c.pairs = .ok ps ∧ d.pairs = .ok ps' ∧ ps'.toFinset = ps.toFinset := by
  have hrow : ∀ (i : ℕ) o, c.objects[i]? = some o → (do
      let r ← pyGet c.nd.rows i
      (.ok (!r.any id) : Py Bool)) = .ok (!(c.attributes.any (c.incB o))) := by
    intro i o hi
    simp only [pyGet_ok (h.row_name hi), py_ok_bind, List.any_map]
    rfl
  obtain ⟨q, hq, hq'⟩ := filterPy_range (l := c.objects) (fun i o hi => hrow i o hi)
  have hnames : ((List.range c.objects.length).filter q).mapM (pyGet c.objects) =
      .ok ((c.objects.filter fun o => !(c.attributes.any (c.incB o))).map id) :=
    mapM_range_filter hq' fun i o hi => pyGet_ok hi
  rw [List.map_id] at hnames
  obtain ⟨d, h1, h2⟩ := h.stores.deleteObjects (c.objects.filter fun o => !(c.attributes.any (c.incB o)))
    (h.onodup.filter _) (fun o ho => (List.mem_filter.1 ho).1)
  have hobj : ∀ o, o ∈ d.objects ↔ o ∈ c.objects ∧ ∃ a, c.Inc o a := by
    intro o
    rw [h2.objs]
    simp only [List.mem_filter, decide_eq_true_eq, not_and, Bool.not_eq_eq_eq_not, Bool.not_true,
      Bool.not_eq_false, List.any_eq_true, h.incB]
    refine and_congr_right fun ho => ⟨fun hx => ?_, fun ⟨a, ha⟩ _ => ⟨a, ha.mem.2, ha⟩⟩
    obtain ⟨a, _, ha⟩ := hx ho
    exact ⟨a, ha⟩
  have hinc : ∀ o a, d.Inc o a ↔ c.Inc o a := by
    intro o a
    rw [h2.inc]
    constructor
    · rintro ⟨_, _, h5⟩; exact (h.incB o a).1 h5
    · intro h5
      refine ⟨?_, h5.mem.2, (h.incB o a).2 h5⟩
      have := (hobj o).2 ⟨h5.mem.1, a, h5⟩
      rw [h2.objs] at this
      exact this
  obtain ⟨ps, hps, _, hp⟩ := mem_pairs h
  obtain ⟨ps', hps', _, hp'⟩ := mem_pairs h2.wf
  refine ⟨d, ?_, h2.wf, h2.atts, by rw [h2.objs]; exact List.filter_sublist, hobj, hinc, ps, ps', hps, hps', ?_⟩
  · unfold removeEmptyObjects
    rw [hq, py_ok_bind, hnames]
    exact h1
  · ext ⟨o, a⟩
    rw [List.mem_toFinset, List.mem_toFinset, hp, hp', hinc]

example : (⟨[0, 1, 2], [0, 1], ⟨some 2, [[false, false], [true, false], [false, false]]⟩⟩ :
      Ctx (Fin 3) (Fin 2)).WFw ∧
    (removeEmptyObjects (⟨[0, 1, 2], [0, 1], ⟨some 2, [[false, false], [true, false], [false, false]]⟩⟩ :
      Ctx (Fin 3) (Fin 2))).1.objects = [1] := by
  refine ⟨by constructor <;> decide +kernel, ?_⟩; decide +kernel

/-! ### C18 -/

open Classical in
/-- `associative_aclosure(B)` returns `(d, n)` with `n = |B'|` and `d.get(m, 0)` the number of
objects having `B` and `m`; `m` is in the closure of `B` iff this number is `n`. -/
theorem C18_associative_aclosure {c : Ctx α β} (h : c.WF) (B : List β) (hB : ∀ a ∈ B, a ∈ c.attributes) :
    ∃ d n, c.associativeAclosure B = .ok (d, n) ∧ (d.map Prod.fst).Nodup ∧
      n = (c.G.filter fun g => ∀ b ∈ B, c.Inc g b).card ∧
      (∀ m ∈ d.map Prod.fst, m ∈ c.attributes) ∧
      (∀ m ∈ c.attributes, dget d m = (c.G.filter fun g => (∀ b ∈ B, c.Inc g b) ∧ c.Inc g m).card) ∧
      ∀ m ∈ c.attributes, (m ∈ attrClosure c.G c.M c.Inc B.toFinset ↔ dget d m = n) := by
  obtain ⟨js, hjs, hf⟩ := mapM_lastIdx hB
  obtain ⟨hj1, hj2⟩ := idx_names hf
  obtain ⟨is, his, hnd, hmem⟩ := h.aprimeInds hj2
  have hil : ∀ i ∈ is, i < c.objects.length := fun i hi => ((hmem i).1 hi).1
  have hext : ∀ o, (∃ i ∈ is, c.objects[i]? = some o) ↔ o ∈ c.G ∧ ∀ b ∈ B, c.Inc o b := by
    intro o
    rw [← h.downF_idx hj1 hj2 hmem, h.mem_downF]
    simp [G]
  have hn : is.length = (c.G.filter fun g => ∀ b ∈ B, c.Inc g b).card := by
    have := countP_idx h.onodup hnd hil (p := fun _ => true) (q := fun _ => true) (fun _ _ _ _ => rfl)
    rw [List.countP_true] at this
    rw [this]
    congr 1
    ext o
    simp only [Finset.mem_filter, and_true, hext]
    simp only [G]
    tauto
  have hcount : ∀ (j : ℕ) (a : β), c.attributes[j]? = some a →
      is.countP (fun i => decide ((c.nd.rows.getD i [])[j]? = some true)) =
        (c.G.filter fun g => (∀ b ∈ B, c.Inc g b) ∧ c.Inc g a).card := by
    intro j a hj
    have := countP_idx h.onodup hnd hil (p := fun i => decide ((c.nd.rows.getD i [])[j]? = some true))
      (q := fun o => c.incB o a) (by
        intro i o _ hi
        rw [List.getD_eq_getElem?_getD, h.row_name hi, Option.getD_some, List.getElem?_map, hj]
        simp)
    rw [this]
    congr 1
    ext o
    simp only [Finset.mem_filter, hext, h.incB]
    simp only [G]
    tauto
  have hrow : ∀ i ∈ is, c.nd.row i = .ok (c.nd.rows.getD i []) ∧
      (c.nd.rows.getD i []).length = c.attributes.length := by
    intro i hi
    obtain ⟨r, h1, h2, h3⟩ := h.row (hil i hi)
    rw [List.getD_eq_getElem?_getD, h1, Option.getD_some]
    exact ⟨h2, h3⟩
  obtain ⟨d0, hd0, hk0, hlt0, hc0⟩ := dget_associative (fun i hi => (hrow i hi).1) (fun i hi => (hrow i hi).2)
  obtain ⟨items, hit, hdict, hkeys, hmemi⟩ := items_ok h.anodup hk0 hlt0
  have hget : ∀ m ∈ c.attributes,
      dget items m = (c.G.filter fun g => (∀ b ∈ B, c.Inc g b) ∧ c.Inc g m).card := by
    intro m hm
    obtain ⟨j, hj⟩ := List.mem_iff_getElem?.1 hm
    rw [dget_items h.anodup hk0 hkeys hmemi hj, hc0, hcount j m hj]
  refine ⟨items, is.length, ?_, hkeys, hn, ?_, hget, ?_⟩
  · have hd0' : c.associativeOprimeInds is = .ok d0 := hd0
    simp only [associativeAclosure, hjs, his, hd0', hit, py_ok_bind, hdict]
  · intro m hm
    obtain ⟨⟨x, k⟩, hp, rfl⟩ := List.mem_map.1 hm
    obtain ⟨i, _, hi⟩ := (hmemi _ _).1 hp
    exact List.mem_of_getElem? hi
  · intro m hm
    rw [hget m hm, hn]
    have hsub : (c.G.filter fun g => (∀ b ∈ B, c.Inc g b) ∧ c.Inc g m) ⊆
        c.G.filter fun g => ∀ b ∈ B, c.Inc g b := by
      intro g hg
      simp only [Finset.mem_filter] at hg ⊢
      exact ⟨hg.1, hg.2.1⟩
    constructor
    · intro hcl
      congr 1
      apply Finset.Subset.antisymm hsub
      intro g hg
      simp only [attrClosure, Finset.mem_filter, List.mem_toFinset] at hg hcl ⊢
      exact ⟨hg.1, hg.2, hcl.2 g hg.1 hg.2⟩
    · intro hcard
      have := Finset.eq_of_subset_of_card_le hsub hcard.ge
      simp only [attrClosure, Finset.mem_filter, List.mem_toFinset]
      refine ⟨hm, fun g hg hb => ?_⟩
      have hx : g ∈ c.G.filter fun g => ∀ b ∈ B, c.Inc g b := by simp [hg]; exact hb
      rw [← this] at hx
      simp only [Finset.mem_filter] at hx
      exact hx.2.2

open Classical in
/-- `associative_aprime(B)`, for a context with an object and distinct `B`: `d.get(g, 0)` is the
number of attributes of `B` that `g` has. -/
theorem C18_associative_aprime {c : Ctx α β} (h : c.WFw) (hne : c.objects ≠ []) (B : List β)
    (hB : ∀ a ∈ B, a ∈ c.attributes) (hnd : B.Nodup) :
    ∃ d, c.associativeAprime B = .ok d ∧ (d.map Prod.fst).Nodup ∧
      (∀ g ∈ d.map Prod.fst, g ∈ c.objects) ∧
      ∀ g ∈ c.objects, dget d g = (B.toFinset.filter fun m => c.Inc g m).card := by
  obtain ⟨js, hjs, hf⟩ := mapM_lastIdx hB
  obtain ⟨hj1, hj2⟩ := idx_names hf
  have hcol : ∀ j ∈ js, c.nd.col j = .ok (c.nd.rows.map fun r => r.getD j false) ∧
      (c.nd.rows.map fun r => r.getD j false).length = c.objects.length := by
    intro j hj
    refine ⟨col_ok (C04_shape h hne) (hj2 j hj), ?_⟩
    rw [List.length_map, h.nrows]
  have hjn : js.Nodup := by
    clear hjs hj1 hj2 hcol hB
    induction hf with
    | nil => simp
    | @cons x j xs js hxj hf ih =>
      obtain ⟨hx, hxs⟩ := List.nodup_cons.1 hnd
      refine List.nodup_cons.2 ⟨fun hj => ?_, ih hxs⟩
      obtain ⟨y, hy, hyj⟩ := forall₂_mem_right hf j hj
      rw [hxj] at hyj
      cases hyj
      exact hx hy
  obtain ⟨d0, hd0, hk0, hlt0, hc0⟩ := dget_associative (fun j hj => (hcol j hj).1) (fun j hj => (hcol j hj).2)
  obtain ⟨items, hit, hdict, hkeys, hmemi⟩ := items_ok h.onodup hk0 hlt0
  refine ⟨items, ?_, hkeys, ?_, ?_⟩
  · have hd0' : c.associativeAprimeInds js = .ok d0 := hd0
    simp only [associativeAprime, hjs, hd0', hit, py_ok_bind, hdict]
  · intro m hm
    obtain ⟨⟨x, k⟩, hp, rfl⟩ := List.mem_map.1 hm
    obtain ⟨i, _, hi⟩ := (hmemi _ _).1 hp
    exact List.mem_of_getElem? hi
  · intro g hg
    obtain ⟨i, hi⟩ := List.mem_iff_getElem?.1 hg
    rw [dget_items h.onodup hk0 hkeys hmemi hi, hc0]
    have := countP_idx h.anodup hjn hj2
      (p := fun j => decide ((c.nd.rows.map fun r => r.getD j false)[i]? = some true))
      (q := fun a => c.incB g a) (by
        intro j a _ hj
        rw [List.getElem?_map, h.row_name hi]
        simp [List.getD_eq_getElem?_getD, hj])
    rw [this]
    congr 1
    ext a
    simp only [Finset.mem_filter, ← hj1, h.incB, List.mem_toFinset]
    constructor
    · exact fun hx => hx.2
    · exact fun hx => ⟨hB a hx.1, hx⟩

example : cxtS.WF ∧ cxtS.objects ≠ [] ∧ (∀ a ∈ ["n".toList], a ∈ cxtS.attributes) ∧ ["n".toList].Nodup ∧
    cxtS.associativeAclosure ["n".toList] = .ok ([("n".toList, 1)], 1) := by
  refine ⟨cxtS_wf', ?_⟩; decide +kernel

end Ctx
