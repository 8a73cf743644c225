/-
Property C09: equality of contexts (fca/context.py:663-692).
-/
import Verif.Props.Context

set_option linter.unusedSectionVars false

open Spec

namespace Ctx

variable {α β : Type} [DecidableEq α] [DecidableEq β]

/-! ### Text of a context -/

theorem split_first {x : Char} {h h' r r' : List Char} (hx : x ∉ h) (hx' : x ∉ h')
    (he : h ++ x :: r = h' ++ x :: r') : h = h' ∧ r = r' := by
  induction h generalizing h' with
  | nil =>
    cases h' with
    | nil => simpa using he
    | cons y h' =>
      simp only [List.nil_append, List.cons_append, List.cons.injEq] at he
      exact absurd (by simp [he.1]) hx'
  | cons y h ih =>
    cases h' with
    | nil =>
      simp only [List.nil_append, List.cons_append, List.cons.injEq] at he
      exact absurd (by simp [he.1]) hx
    | cons y' h' =>
      simp only [List.cons_append, List.cons.injEq] at he
      obtain ⟨h1, h2⟩ := ih (fun h => hx (by simp [h])) (fun h => hx' (by simp [h])) he.2
      exact ⟨by rw [he.1, h1], h2⟩

/-- Joining with `", "` is injective on lists of non-empty texts without commas. -/
theorem joinC_inj {xs ys : List (List Char)} (hx : ∀ x ∈ xs, x ≠ [] ∧ ',' ∉ x)
    (hy : ∀ y ∈ ys, y ≠ [] ∧ ',' ∉ y) (h : joinC [',', ' '] xs = joinC [',', ' '] ys) : xs = ys := by
  have hcons : ∀ (x : List Char) (l : List (List Char)), joinC [',', ' '] (x :: l) =
      if l = [] then x else x ++ ',' :: (' ' :: joinC [',', ' '] l) := by
    intro x l
    cases l <;> simp [joinC]
  induction xs generalizing ys with
  | nil =>
    cases ys with
    | nil => rfl
    | cons y ys =>
      rw [hcons] at h
      have := (hy y (by simp)).1
      split at h
      · exact absurd h.symm this
      · simp [joinC] at h
  | cons x xs ih =>
    cases ys with
    | nil =>
      rw [hcons] at h
      have := (hx x (by simp)).1
      split at h
      · exact absurd h this
      · simp [joinC] at h
    | cons y ys =>
      rw [hcons, hcons] at h
      have hx0 := (hx x (by simp)).2
      have hy0 := (hy y (by simp)).2
      by_cases h1 : xs = [] <;> by_cases h2 : ys = []
      · rw [if_pos h1, if_pos h2] at h
        rw [h, h1, h2]
      · rw [if_pos h1, if_neg h2] at h
        rw [h] at hx0
        simp at hx0
      · rw [if_neg h1, if_pos h2] at h
        rw [← h] at hy0
        simp at hy0
      · rw [if_neg h1, if_neg h2] at h
        obtain ⟨h3, h4⟩ := split_first hx0 hy0 h
        rw [h3, ih (fun x hx' => hx x (by simp [hx'])) (fun y hy' => hy y (by simp [hy'])) (List.cons.inj h4).2]

theorem joinC_no_newline {xs : List (List Char)} (hx : ∀ x ∈ xs, '\n' ∉ x) : '\n' ∉ joinC [',', ' '] xs := by
  induction xs with
  | nil => simp [joinC]
  | cons x xs ih =>
    cases xs with
    | nil => simpa [joinC] using hx x (by simp)
    | cons y ys =>
      have h1 := ih fun z hz => hx z (by simp [hz])
      have h2 := hx x (by simp)
      simp only [joinC, List.mem_append, not_or]
      refine ⟨⟨h2, by decide⟩, h1⟩

/-- One line of the text. -/
def line (s : List Char) (r : List Bool) : List Char :=
  s ++ ['\t'] ++ r.map (fun b => if b then 'X' else '.') ++ ['\n']

theorem WFw.repr {c : Ctx α β} (h : c.WFw) (strO : α → List Char) (strA : β → List Char) :
    c.repr strO strA = .ok (joinC [',', ' '] (c.attributes.map strA) ++ ['\n'] ++
      (c.objects.map fun o => line (strO o) (c.attributes.map (c.incB o))).flatten) := by
  have : (List.range c.objects.length).mapM (fun i => do
      let o ← pyGet c.objects i
      let r ← pyGet c.nd.rows i
      (.ok (strO o ++ ['\t'] ++ r.map (fun b : Bool => if b then 'X' else '.') ++ ['\n']) : Py (List Char))) =
      .ok (c.objects.map fun o => line (strO o) (c.attributes.map (c.incB o))) := by
    apply mapM_range
    intro i o hi
    simp only [pyGet_ok hi, pyGet_ok (h.row_name hi), py_ok_bind]
    rfl
  simp only [Ctx.repr, this, py_ok_bind]

theorem cells_no_newline (r : List Bool) : '\n' ∉ r.map (fun b => if b then 'X' else '.') := by
  simp only [List.mem_map, not_exists, not_and]
  rintro b _
  cases b <;> decide

theorem cells_inj {r r' : List Bool} (h : (r.map fun b => if b then 'X' else '.') = r'.map fun b => if b then 'X' else '.') :
    r = r' := by
  refine List.map_injective_iff.2 ?_ h
  intro a b hab
  cases a <;> cases b <;> first | rfl | (simp at hab)

/-- The lines of the text determine texts and rows. -/
theorem lines_inj {xs ys : List (List Char × List Bool)} (hx : ∀ x ∈ xs, '\t' ∉ x.1 ∧ '\n' ∉ x.1)
    (hy : ∀ y ∈ ys, '\t' ∉ y.1 ∧ '\n' ∉ y.1)
    (h : (xs.map fun x => line x.1 x.2).flatten = (ys.map fun x => line x.1 x.2).flatten) : xs = ys := by
  induction xs generalizing ys with
  | nil =>
    cases ys with
    | nil => rfl
    | cons y ys => simp [line] at h
  | cons x xs ih =>
    cases ys with
    | nil => simp [line] at h
    | cons y ys =>
      simp only [List.map_cons, List.flatten_cons, line, List.append_assoc, List.cons_append,
        List.nil_append] at h
      obtain ⟨h1, h2⟩ := split_first (hx x (by simp)).1 (hy y (by simp)).1 h
      obtain ⟨h3, h4⟩ := split_first (cells_no_newline _) (cells_no_newline _) h2
      have h5 := ih (ys := ys) (fun z hz => hx z (by simp [hz])) (fun z hz => hy z (by simp [hz])) (by
        simpa [line] using h4)
      rw [h5, Prod.ext h1 (cells_inj h3)]

/-! ### C09 -/

/-- `c` and `d` have the same objects, attributes and relation. -/
def Same (c d : Ctx α β) : Prop :=
  (∀ o, o ∈ c.objects ↔ o ∈ d.objects) ∧ (∀ a, a ∈ c.attributes ↔ a ∈ d.attributes) ∧
    ∀ o a, c.Inc o a ↔ d.Inc o a

/-- Contexts that differ only in the order of objects and attributes compare equal. -/
theorem C09_permuted_equal {c d : Ctx α β} (hc : c.WFw) (hd : d.WFw) (strO : α → List Char)
    (strA : β → List Char) (h : Same c d) : c.eq strO strA d = .ok true := by
  obtain ⟨ho, ha, hi⟩ := h
  have hof : c.objects.toFinset = d.objects.toFinset := by ext o; simp [ho]
  have haf : c.attributes.toFinset = d.attributes.toFinset := by ext o; simp [ha]
  have hol : c.objects.length = d.objects.length := by
    rw [← List.toFinset_card_of_nodup hc.onodup, hof, List.toFinset_card_of_nodup hd.onodup]
  have hal : c.attributes.length = d.attributes.length := by
    rw [← List.toFinset_card_of_nodup hc.anodup, haf, List.toFinset_card_of_nodup hd.anodup]
  obtain ⟨is, his, hf⟩ := mapM_firstIdx (fun o h => (ho o).1 h)
  obtain ⟨js, hjs, hg⟩ := mapM_firstIdx (fun a h => (ha a).1 h)
  have htab : (is.mapM fun i => js.mapM fun j => d.nd.cell i j) =
      .ok (c.objects.map fun o => c.attributes.map (d.incB o)) := by
    refine mapM_forall₂ hf fun o i hoi => ?_
    exact mapM_forall₂ hg fun a j haj => hd.cell_name hoi haj
  have hrows : (c.objects.map fun o => c.attributes.map (d.incB o)) = c.nd.rows := by
    rw [hc.rows_eq]
    refine List.map_congr_left fun o _ => List.map_congr_left fun a _ => ?_
    rw [Bool.eq_iff_iff, hc.incB, hd.incB, hi]
  simp only [eq, hc.repr, hd.repr, py_ok_bind]
  split
  · rfl
  · rw [if_neg (by simp [hol, hal]), if_neg (by simp [hof, haf])]
    simp only [his, hjs, htab, py_ok_bind, hrows, decide_true]

/-- Names that are written without ambiguity: injective `str`, no separators, no empty attribute
name. -/
structure LineSafe (strO : α → List Char) (strA : β → List Char) (c d : Ctx α β) : Prop where
  injO : ∀ x ∈ c.objects, ∀ y ∈ d.objects, strO x = strO y → x = y
  injA : ∀ x ∈ c.attributes, ∀ y ∈ d.attributes, strA x = strA y → x = y
  objs : ∀ x, x ∈ c.objects ∨ x ∈ d.objects → '\t' ∉ strO x ∧ '\n' ∉ strO x
  atts : ∀ x, x ∈ c.attributes ∨ x ∈ d.attributes → strA x ≠ [] ∧ ',' ∉ strA x ∧ '\n' ∉ strA x

theorem map_eq_of_inj {γ δ : Type} {f : γ → δ} {l l' : List γ} (hinj : ∀ x ∈ l, ∀ y ∈ l', f x = f y → x = y)
    (h : l.map f = l'.map f) : l = l' := by
  induction l generalizing l' with
  | nil => cases l' with
    | nil => rfl
    | cons => simp at h
  | cons x l ih =>
    cases l' with
    | nil => simp at h
    | cons y l' =>
      simp only [List.map_cons, List.cons.injEq] at h
      rw [hinj x (by simp) y (by simp) h.1, ih (fun a ha b hb => hinj a (by simp [ha]) b (by simp [hb])) h.2]

/-- Contexts that compare equal are the same, when their names are written without ambiguity.
Missing: names containing separators, or different names with the same text. -/
theorem C09_equal_same_partial {c d : Ctx α β} (hc : c.WFw) (hd : d.WFw) (strO : α → List Char)
    (strA : β → List Char) (hs : LineSafe strO strA c d) (he : c.eq strO strA d = .ok true) :
    Same c d := by
  simp only [eq, hc.repr, hd.repr, py_ok_bind] at he
  split at he
  · next hrep =>
    have hrep' : joinC [',', ' '] (c.attributes.map strA) ++ '\n' ::
        ((c.objects.map fun o => line (strO o) (c.attributes.map (c.incB o))).flatten) =
      joinC [',', ' '] (d.attributes.map strA) ++ '\n' ::
        ((d.objects.map fun o => line (strO o) (d.attributes.map (d.incB o))).flatten) := by
      simpa using hrep
    obtain ⟨h1, h2⟩ := split_first
      (joinC_no_newline (by simpa using fun a ha => (hs.atts a (Or.inl ha)).2.2))
      (joinC_no_newline (by simpa using fun a ha => (hs.atts a (Or.inr ha)).2.2)) hrep'
    have ha : c.attributes = d.attributes := by
      refine map_eq_of_inj hs.injA (joinC_inj ?_ ?_ h1)
      · intro x hx
        obtain ⟨a, ha, rfl⟩ := List.mem_map.1 hx
        have := hs.atts a (Or.inl ha)
        exact ⟨this.1, this.2.1⟩
      · intro x hx
        obtain ⟨a, ha, rfl⟩ := List.mem_map.1 hx
        have := hs.atts a (Or.inr ha)
        exact ⟨this.1, this.2.1⟩
    have hl : (c.objects.map fun o => (strO o, c.attributes.map (c.incB o))) =
        d.objects.map fun o => (strO o, d.attributes.map (d.incB o)) := by
      apply lines_inj
      · intro x hx
        obtain ⟨o, ho, rfl⟩ := List.mem_map.1 hx
        exact hs.objs o (Or.inl ho)
      · intro x hx
        obtain ⟨o, ho, rfl⟩ := List.mem_map.1 hx
        exact hs.objs o (Or.inr ho)
      · simpa [List.map_map, Function.comp_def] using h2
    have ho : c.objects = d.objects := by
      refine map_eq_of_inj hs.injO ?_
      have := congrArg (List.map Prod.fst) hl
      simpa [List.map_map, Function.comp_def] using this
    refine ⟨fun o => by rw [ho], fun a => by rw [ha], ?_⟩
    intro o a
    rw [ho, ha, List.map_inj_left] at hl
    constructor
    · intro hi
      have h3 := (Prod.mk.inj (hl o (ho ▸ hi.mem.1))).2
      rw [List.map_inj_left] at h3
      rw [← hd.incB, ← h3 a (ha ▸ hi.mem.2), hc.incB]
      exact hi
    · intro hi
      have h3 := (Prod.mk.inj (hl o hi.mem.1)).2
      rw [List.map_inj_left] at h3
      rw [← hc.incB, h3 a hi.mem.2, hd.incB]
      exact hi
  · split at he
    · cases he
    · split at he
      · cases he
      · next hsets =>
        rw [not_or, not_not, not_not] at hsets
        have ho : ∀ o, o ∈ c.objects ↔ o ∈ d.objects := by
          intro o; rw [← List.mem_toFinset, hsets.1, List.mem_toFinset]
        have ha : ∀ o, o ∈ c.attributes ↔ o ∈ d.attributes := by
          intro o; rw [← List.mem_toFinset, hsets.2, List.mem_toFinset]
        refine ⟨ho, ha, ?_⟩
        obtain ⟨is, his, hf⟩ := mapM_firstIdx (fun o h => (ho o).1 h)
        obtain ⟨js, hjs, hg⟩ := mapM_firstIdx (fun a h => (ha a).1 h)
        have htab : (is.mapM fun i => js.mapM fun j => d.nd.cell i j) =
            .ok (c.objects.map fun o => c.attributes.map (d.incB o)) := by
          refine mapM_forall₂ hf fun o i hoi => ?_
          exact mapM_forall₂ hg fun a j haj => hd.cell_name hoi haj
        simp only [his, hjs, htab, py_ok_bind, Except.ok.injEq, decide_eq_true_eq] at he
        rw [hc.rows_eq, List.map_inj_left] at he
        intro o a
        constructor
        · intro hi
          have h3 := he o hi.mem.1
          rw [List.map_inj_left] at h3
          rw [← hd.incB, h3 a hi.mem.2, hc.incB]
          exact hi
        · intro hi
          have h3 := he o ((ho o).2 hi.mem.1)
          rw [List.map_inj_left] at h3
          rw [← hc.incB, ← h3 a ((ha a).2 hi.mem.2), hd.incB]
          exact hi

/-- C09 fails for attribute names with separators: attributes `['a, b', 'c']` and `['a', 'b, c']`
give the same text, and the comparison of texts comes first. -/
theorem C09_equal_same_violated :
    ∃ c d : Ctx (List Char) (List Char), c.WFw ∧ d.WFw ∧ c.eq id id d = .ok true ∧ ¬ Same c d := by
  refine ⟨⟨["g".toList], ["a, b".toList, "c".toList], ⟨some 2, [[true, false]]⟩⟩,
    ⟨["g".toList], ["a".toList, "b, c".toList], ⟨some 2, [[true, false]]⟩⟩,
    by constructor <;> decide +kernel, by constructor <;> decide +kernel, by decide +kernel, ?_⟩
  rintro ⟨_, h, _⟩
  exact absurd ((h "c".toList).1 (by decide +kernel)) (by decide +kernel)

/-- Two contexts that differ in the order of rows and columns. -/
def cxtP : Ctx (List Char) (List Char) :=
  ⟨["h".toList, "g".toList], ["n".toList, "m".toList], ⟨some 2, [[true, false], [false, true]]⟩⟩

theorem cxtP_wf : cxtP.WFw := by constructor <;> decide +kernel

example : cxtS.WFw ∧ cxtP.WFw ∧ cxtS ≠ cxtP ∧ cxtS.eq id id cxtP = .ok true ∧ LineSafe id id cxtS cxtP := by
  refine ⟨cxtS_wf, cxtP_wf, by decide +kernel, by decide +kernel, ?_⟩
  constructor
  · exact fun _ _ _ _ h => h
  · exact fun _ _ _ _ h => h
  · rintro x (h | h) <;> revert x <;> decide +kernel
  · rintro x (h | h) <;> revert x <;> decide +kernel

end Ctx
