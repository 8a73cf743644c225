/-
Property C127: names that are not strings.
-/
import Verif.Model.TextNames
import Verif.Props.MixedNames
import Verif.Props.ReadWrite
import Verif.Props.DotText
import Verif.Props.CsvFiles
import Verif.Props.Scaling
import Verif.Props.Reduce

set_option linter.unusedSectionVars false

open Spec

/-! ### Writing -/

theorem writeChunks_append (a b : List (Py (List Char))) :
    ((writeChunks a).2 = none → writeChunks (a ++ b) = ((writeChunks a).1 ++ (writeChunks b).1, (writeChunks b).2)) ∧
    ((writeChunks a).2 ≠ none → writeChunks (a ++ b) = writeChunks a) := by
  induction a with
  | nil => exact ⟨fun _ => rfl, fun h => absurd rfl h⟩
  | cons x a ih =>
    cases x with
    | error e => exact ⟨fun h => (by cases h), fun _ => rfl⟩
    | ok t =>
      constructor
      · intro h
        have h' : (writeChunks a).2 = none := h
        simp only [List.cons_append, writeChunks, ih.1 h', List.append_assoc]
      · intro h
        have h' : (writeChunks a).2 ≠ none := h
        simp only [List.cons_append, writeChunks, ih.2 h']

theorem writeChunks_ok (ts : List (List Char)) : writeChunks (ts.map .ok) = (ts.flatten, none) := by
  induction ts with
  | nil => rfl
  | cons t ts ih => simp [writeChunks, ih]

theorem writeChunks_stop (ts : List (List Char)) (e : PyErr) (rest : List (Py (List Char))) :
    writeChunks (ts.map .ok ++ .error e :: rest) = (ts.flatten, some e) := by
  induction ts with
  | nil => rfl
  | cons t ts ih => simp [writeChunks, ih]

/-- If only one exception can occur. -/
theorem writeChunks_err {e : PyErr} {l : List (Py (List Char))} (h : ∀ x ∈ l, x = .error e ∨ ∃ t, x = .ok t) :
    ((writeChunks l).2 = some e ↔ .error e ∈ l) ∧ ((writeChunks l).2 = none ↔ .error e ∉ l) := by
  induction l with
  | nil => simp [writeChunks]
  | cons x l ih =>
    have ih := ih fun y hy => h y (by simp [hy])
    rcases h x (by simp) with rfl | ⟨t, rfl⟩
    · simp [writeChunks]
    · have hne : (Except.error e : Py (List Char)) ≠ .ok t := by intro h; cases h
      simp only [writeChunks, List.mem_cons, hne, false_or]
      exact ih

theorem needStr_cases {γ : Type} (txt : γ → Option (List Char)) (x : γ) :
    (txt x = none ∧ needStr txt x = .error .typeError) ∨ ∃ t, txt x = some t ∧ needStr txt x = .ok t := by
  unfold needStr
  cases txt x with
  | none => exact .inl ⟨rfl, rfl⟩
  | some t => exact .inr ⟨t, rfl, rfl⟩

theorem needStr_total {γ : Type} (txt : γ → Option (List Char)) (x : γ) :
    needStr txt x = .error .typeError ∨ ∃ t, needStr txt x = .ok t := by
  rcases needStr_cases txt x with h | ⟨t, -, h⟩
  · exact .inl h.2
  · exact .inr ⟨t, h⟩

theorem needStr_error {γ : Type} (txt : γ → Option (List Char)) (x : γ) :
    needStr txt x = .error .typeError ↔ txt x = none := by
  rcases needStr_cases txt x with h | ⟨t, h1, h2⟩
  · simp [h.1, h.2]
  · simp [h1, h2]

/-- The strings of a list without other names. -/
theorem strings_of {γ : Type} {txt : γ → Option (List Char)} {l : List γ} (h : ∀ x ∈ l, txt x ≠ none) :
    l.mapM (needStr txt) = .ok (l.map fun x => (txt x).getD []) :=
  mapM_ok fun x hx => by
    rcases needStr_cases txt x with h' | ⟨t, h1, h2⟩
    · exact absurd h'.1 (h x hx)
    · rw [h2, h1]; rfl

/-- `join` raises TypeError exactly if some name is not a string. -/
theorem joinPy_cases {γ : Type} (txt : γ → Option (List Char)) (sep : List Char) (l : List γ) :
    ((∃ x ∈ l, txt x = none) ∧ joinPy txt sep l = .error .typeError) ∨
    ((∀ x ∈ l, txt x ≠ none) ∧ joinPy txt sep l = .ok (Ctx.joinC sep (l.map fun x => (txt x).getD []))) := by
  unfold joinPy
  by_cases h : ∃ x ∈ l, txt x = none
  · left
    refine ⟨h, ?_⟩
    rw [mapM_err (fun x _ => needStr_total txt x)]
    · rfl
    · obtain ⟨x, hx, h⟩ := h
      exact ⟨x, hx, (needStr_error txt x).2 h⟩
  · right
    push Not at h
    refine ⟨h, ?_⟩
    rw [strings_of h]; rfl

section
variable {α β : Type} [DecidableEq α] [DecidableEq β]

/-! ### C127: complementary contexts -/

namespace Ctx

theorem compl_table {c : Ctx α β} (h : c.WFw) :
    ∃ t : List (List Bool), ((List.range c.objects.length).mapM fun i => (List.range c.attributes.length).mapM fun j => do
      let b ← c.nd.cell i j
      .ok (!b)) = (.ok t : Py (List (List Bool))) ∧ t.length = c.objects.length ∧
        ∀ r ∈ t, r.length = c.attributes.length := by
  have hrow : ∀ i ∈ List.range c.objects.length, ∃ r : List Bool, ((List.range c.attributes.length).mapM fun j => do
      let b ← c.nd.cell i j
      .ok (!b)) = (.ok r : Py (List Bool)) ∧ r.length = c.attributes.length := by
    intro i hi
    obtain ⟨r, hr, hf⟩ := mapM_ok' (f := fun j => (do
      let b ← c.nd.cell i j
      .ok (!b) : Py Bool)) (R := fun _ _ => True) (l := List.range c.attributes.length) (by
        intro j hj
        obtain ⟨b, hb, -⟩ := h.cell (List.mem_range.1 hi) (List.mem_range.1 hj)
        rw [hb]
        exact ⟨_, rfl, trivial⟩)
    exact ⟨r, hr, by simpa using hf.length_eq.symm⟩
  obtain ⟨t, ht, hf⟩ := mapM_ok' (R := fun _ (r : List Bool) => r.length = c.attributes.length) hrow
  refine ⟨t, ht, by simpa using hf.length_eq.symm, ?_⟩
  intro r hr
  obtain ⟨i, hi⟩ := List.mem_iff_getElem?.1 hr
  obtain ⟨hi', rfl⟩ := List.getElem?_eq_some_iff.1 hi
  have := hf.get (i := i) (by rw [hf.length_eq]; exact hi') hi'
  simpa using this

variable [PyName α] [PyName β]

/-- `complementary` raises TypeError exactly if some attribute is not a string (objects do not matter), and raises
nothing else; without such attributes it is the function of C14. -/
theorem C127_complementary (txt : β → Option (List Char)) (ofStr : List Char → β) {c : Ctx α β} (h : c.WFw) :
    ((∃ m ∈ c.attributes, txt m = none) → c.complementaryAny txt ofStr = .error .typeError) ∧
    ((∀ m ∈ c.attributes, txt m ≠ none) → ∃ d, c.complementaryAny txt ofStr = .ok d ∧
      ∀ neg : β → β, (∀ m ∈ c.attributes, ∀ t, txt m = some t → neg m = ofStr ("not ".toList ++ t)) →
        c.complementary neg = .ok d) := by
  have hnames : ∀ f : β → Py β, (List.range c.attributes.length).mapM (fun i => do
      let m ← pyGet c.attributes i
      f m) = c.attributes.mapM f := by
    intro f
    have key : ∀ (l : List β) (k : ℕ), c.attributes.drop k = l → (List.range' k l.length).mapM (fun i => do
        let m ← pyGet c.attributes i
        f m) = l.mapM f := by
      intro l
      induction l with
      | nil => intros; rfl
      | cons x l ih =>
        intro k hk
        have hx : c.attributes[k]? = some x := by
          have := congrArg (·[0]?) hk
          simpa using this
        rw [List.length_cons, List.range'_succ, List.mapM_cons, List.mapM_cons, pyGet_ok hx, py_ok_bind,
          ih (k + 1) (by rw [← List.drop_drop, hk]; rfl)]
    have := key c.attributes 0 rfl
    rwa [← List.range_eq_range'] at this
  unfold complementaryAny
  rw [hnames fun m => do let t ← needStr txt m; .ok (ofStr ("not ".toList ++ t))]
  constructor
  · rintro ⟨m, hm, hn⟩
    rw [mapM_err (e := .typeError)]
    · rfl
    · intro x _
      rcases needStr_total txt x with h' | ⟨t, h'⟩ <;> rw [h']
      · exact .inl rfl
      · exact .inr ⟨_, rfl⟩
    · refine ⟨m, hm, ?_⟩
      rw [(needStr_error txt m).2 hn]; rfl
  · intro hs
    rw [mapM_ok (g := fun m => ofStr ("not ".toList ++ (txt m).getD []))]
    · rw [py_ok_bind]
      obtain ⟨t, ht, h1, h2⟩ := compl_table h
      rw [ht, py_ok_bind, make_ok h1 (by simpa using h2)]
      refine ⟨_, rfl, fun neg hneg => ?_⟩
      unfold complementary
      have he : c.attributes.map neg = c.attributes.map fun m => ofStr ("not ".toList ++ (txt m).getD []) := by
        refine List.map_congr_left fun m hm => ?_
        cases hm' : txt m with
        | none => exact absurd hm' (hs m hm)
        | some t => exact hneg m hm t hm'
      rw [ht, py_ok_bind, he, make_ok h1 (by simpa using h2)]
    · intro m hm
      rcases needStr_cases txt m with h' | ⟨t, h1, h2⟩
      · exact absurd h'.1 (hs m hm)
      · rw [h2, h1]; rfl

/-- `compound` raises TypeError if some attribute is not a string; else it behaves as in C15. -/
theorem C127_compound (txt : β → Option (List Char)) (ofStr : List Char → β) {c : Ctx α β} (h : c.WFw) :
    ((∃ m ∈ c.attributes, txt m = none) → c.compoundAny txt ofStr = .error .typeError) ∧
    ((∀ m ∈ c.attributes, txt m ≠ none) →
      ∀ neg : β → β, (∀ m ∈ c.attributes, ∀ t, txt m = some t → neg m = ofStr ("not ".toList ++ t)) →
        c.compoundAny txt ofStr = c.compound neg) := by
  obtain ⟨h1, h2⟩ := C127_complementary txt ofStr h
  unfold compoundAny compound
  refine ⟨fun hm => by rw [h1 hm]; rfl, fun hm neg hneg => ?_⟩
  obtain ⟨d, h3, h4⟩ := h2 hm
  rw [h3, h4 neg hneg]

end Ctx

/-! ### C127: uwrite_cxt and write_mv_txt -/

variable (txtO : α → Option (List Char)) (txtA : β → Option (List Char))

/-- The head of a `.cxt` file. -/
def cxtHead (n m : ℕ) : List Char :=
  ['B', '\n', '\n'] ++ Nat.toDigits 10 n ++ ['\n'] ++ Nat.toDigits 10 m ++ ['\n', '\n']

/-- Strings, each on a line. -/
def textLines (l : List (List Char)) : List Char := (l.map (· ++ ['\n'])).flatten

theorem name_chunks {γ : Type} {txt : γ → Option (List Char)} {l : List γ} (h : ∀ x ∈ l, txt x ≠ none) :
    l.flatMap (fun x => [needStr txt x, .ok ['\n']]) =
      (l.flatMap fun x => [(txt x).getD [], ['\n']]).map .ok := by
  induction l with
  | nil => rfl
  | cons x l ih =>
    simp only [List.flatMap_cons, List.map_append, ih fun y hy => h y (by simp [hy])]
    congr 1
    rcases needStr_cases txt x with h' | ⟨t, h1, h2⟩
    · exact absurd h'.1 (h x (by simp))
    · simp [h1, h2]

theorem textLines_flatMap {γ : Type} (f : γ → List Char) (l : List γ) :
    (l.flatMap fun x => [f x, ['\n']]).flatten = textLines (l.map f) := by
  induction l with
  | nil => rfl
  | cons x l ih =>
    rw [List.flatMap_cons, List.flatten_append, ih]
    simp [textLines]

/-- `uwrite_cxt` returns exactly if all names are strings, and has then written the file of C78; at the first name that is
not a string it raises TypeError and has written the head and the names before. -/
theorem C127_uwrite_cxt {c : Ctx α β} (h : c.WFw) :
    ((∀ o ∈ c.objects, txtO o ≠ none) → (∀ a ∈ c.attributes, txtA a ≠ none) → uwriteCxtAny txtO txtA c =
      (cxtHead c.objects.length c.attributes.length ++ textLines (c.objects.map fun x => (txtO x).getD []) ++
        textLines (c.attributes.map fun x => (txtA x).getD []) ++
        textLines (c.nd.rows.map fun r => r.map fun b => if b then 'X' else '.'), none)) ∧
    (∀ pre x post, c.objects = pre ++ x :: post → (∀ o ∈ pre, txtO o ≠ none) → txtO x = none →
      uwriteCxtAny txtO txtA c = (cxtHead c.objects.length c.attributes.length ++
        textLines (pre.map fun x => (txtO x).getD []), some .typeError)) ∧
    (∀ pre x post, (∀ o ∈ c.objects, txtO o ≠ none) → c.attributes = pre ++ x :: post → (∀ a ∈ pre, txtA a ≠ none) →
      txtA x = none → uwriteCxtAny txtO txtA c = (cxtHead c.objects.length c.attributes.length ++
        textLines (c.objects.map fun x => (txtO x).getD []) ++
        textLines (pre.map fun x => (txtA x).getD []), some .typeError)) := by
  have hhead : ([.ok ['B', '\n', '\n'], .ok (natStr c.objects.length ++ ['\n']),
      .ok (natStr c.attributes.length ++ ['\n', '\n'])] : List (Py (List Char))) =
      [['B', '\n', '\n'], natStr c.objects.length ++ ['\n'], natStr c.attributes.length ++ ['\n', '\n']].map .ok := rfl
  have hheadt : [['B', '\n', '\n'], natStr c.objects.length ++ ['\n'], natStr c.attributes.length ++ ['\n', '\n']].flatten =
      cxtHead c.objects.length c.attributes.length := by
    simp [cxtHead, natStr]
  have hrows : ((List.range c.objects.length).flatMap fun i => [do
      let r ← pyGet c.nd.rows i
      .ok (r.map fun b => if b then 'X' else '.'), .ok ['\n']] : List (Py (List Char))) =
      (c.nd.rows.flatMap fun r => [r.map fun b => if b then 'X' else '.', ['\n']]).map .ok := by
    rw [← h.nrows]
    have : c.nd.rows = (List.range c.nd.rows.length).map fun i => c.nd.rows.getD i [] := by
      apply List.ext_getElem
      · simp
      · intro i h1 h2
        simp [List.getElem?_eq_getElem h1]
    conv_rhs => rw [this]
    rw [List.flatMap_map, List.map_flatMap]
    refine List.flatMap_congr fun i hi => ?_
    have hi' : i < c.nd.rows.length := by simpa using hi
    rw [pyGet_ok (List.getElem?_eq_getElem hi')]
    simp [List.getElem?_eq_getElem hi', py_ok_bind]
  unfold uwriteCxtAny
  rw [hhead, hrows]
  refine ⟨fun ho ha => ?_, fun pre x post hpre hp hx => ?_, fun pre x post ho hpre hp hx => ?_⟩
  · rw [name_chunks ho, name_chunks ha, ← List.map_append, ← List.map_append, ← List.map_append, writeChunks_ok]
    simp only [List.flatten_append, hheadt, textLines_flatMap]
  · have e : c.objects.flatMap (fun x => [needStr txtO x, .ok ['\n']]) =
        (pre.flatMap fun x => [(txtO x).getD [], ['\n']]).map .ok ++
          .error .typeError :: (.ok ['\n'] :: post.flatMap fun x => [needStr txtO x, .ok ['\n']]) := by
      rw [hpre, List.flatMap_append, name_chunks hp, List.flatMap_cons, (needStr_error txtO x).2 hx]
      rfl
    rw [e]
    simp only [List.append_assoc, List.cons_append]
    rw [← List.append_assoc, ← List.map_append, writeChunks_stop]
    simp only [List.flatten_append, hheadt, textLines_flatMap]
  · have e : c.attributes.flatMap (fun x => [needStr txtA x, .ok ['\n']]) =
        (pre.flatMap fun x => [(txtA x).getD [], ['\n']]).map .ok ++
          .error .typeError :: (.ok ['\n'] :: post.flatMap fun x => [needStr txtA x, .ok ['\n']]) := by
      rw [hpre, List.flatMap_append, name_chunks hp, List.flatMap_cons, (needStr_error txtA x).2 hx]
      rfl
    rw [e, name_chunks ho, ← List.map_append, ← List.append_assoc, ← List.map_append, List.append_assoc]
    refine (writeChunks_stop _ _ _).trans ?_
    simp only [List.flatten_append, hheadt, textLines_flatMap, List.append_assoc]

/-- `write_mv_txt` returns exactly if all names are strings, and has then written the file of C101. If some object is not a
string, it raises TypeError and the file is empty; if some attribute is not, the file has the line of the objects. -/
theorem C127_write_mv_txt {c : Ctx α β} (h : c.WFw) :
    ((∃ o ∈ c.objects, txtO o = none) → writeMvTxtAny txtO txtA c = ([], some .typeError)) ∧
    ((∀ o ∈ c.objects, txtO o ≠ none) → (∃ a ∈ c.attributes, txtA a = none) → writeMvTxtAny txtO txtA c =
      (fieldLine '\t' (c.objects.map fun x => (txtO x).getD []) ++ ['\n'], some .typeError)) ∧
    ((∀ o ∈ c.objects, txtO o ≠ none) → (∀ a ∈ c.attributes, txtA a ≠ none) → writeMvTxtAny txtO txtA c =
      (mvFile (c.objects.map fun x => (txtO x).getD []) (c.attributes.map fun x => (txtA x).getD [])
        (c.nd.rows.map fun r => r.map Csv.boolStr), none)) := by
  have hrows : ((List.range c.objects.length).flatMap fun i => [do
      let r ← pyGet c.nd.rows i
      .ok (Ctx.joinC ['\t'] (r.map Csv.boolStr)), .ok ['\n']] : List (Py (List Char))) =
      (c.nd.rows.flatMap fun r => [Ctx.joinC ['\t'] (r.map Csv.boolStr), ['\n']]).map .ok := by
    rw [← h.nrows]
    have : c.nd.rows = (List.range c.nd.rows.length).map fun i => c.nd.rows.getD i [] := by
      apply List.ext_getElem
      · simp
      · intro i h1 h2
        simp [List.getElem?_eq_getElem h1]
    conv_rhs => rw [this]
    rw [List.flatMap_map, List.map_flatMap]
    refine List.flatMap_congr fun i hi => ?_
    have hi' : i < c.nd.rows.length := by simpa using hi
    rw [pyGet_ok (List.getElem?_eq_getElem hi')]
    simp [List.getElem?_eq_getElem hi', py_ok_bind]
  unfold writeMvTxtAny
  rw [hrows]
  rcases joinPy_cases txtO ['\t'] c.objects with ⟨h1, e1⟩ | ⟨h1, e1⟩ <;> rw [e1]
  · refine ⟨fun _ => rfl, fun h2 => ?_, fun h2 => ?_⟩ <;>
    · obtain ⟨x, hx, hn⟩ := h1
      exact absurd hn (h2 x hx)
  · refine ⟨fun ⟨x, hx, hn⟩ => absurd hn (h1 x hx), fun _ => ?_, fun _ => ?_⟩ <;>
    rcases joinPy_cases txtA ['\t'] c.attributes with ⟨h2, e2⟩ | ⟨h2, e2⟩ <;> rw [e2]
    · intro _
      rw [Csv.joinC_fieldLine]
      simp [writeChunks]
    · rintro ⟨x, hx, hn⟩
      exact absurd hn (h2 x hx)
    · intro h3
      obtain ⟨x, hx, hn⟩ := h2
      exact absurd hn (h3 x hx)
    · intro _
      have := writeChunks_ok ([Ctx.joinC ['\t'] (c.objects.map fun x => (txtO x).getD []), ['\n'],
        Ctx.joinC ['\t'] (c.attributes.map fun x => (txtA x).getD []), ['\n', '\n']] ++
        c.nd.rows.flatMap fun r => [Ctx.joinC ['\t'] (r.map Csv.boolStr), ['\n']])
      rw [List.map_append] at this
      refine Eq.trans this ?_
      rw [List.flatten_append, textLines_flatMap]
      simp [mvFile, Csv.joinC_fieldLine, textLines, List.flatMap_def, Function.comp_def]

end

/-! ### C127: diagrams -/

section
variable {α β : Type} [DecidableEq α] [DecidableEq β]

theorem dotLabelAny_cases {γ : Type} (txt : γ → Option (List Char)) (l : List γ) :
    ((l.length < 5 ∧ ∃ x ∈ l, txt x = none) ∧ dotLabelAny txt l = .error .typeError) ∨
    (¬ (l.length < 5 ∧ ∃ x ∈ l, txt x = none) ∧
      dotLabelAny txt l = .ok (Ctx.joinC "\\n ".toList (dotLabel (l.map fun x => (txt x).getD [])))) := by
  unfold dotLabelAny dotLabel
  rw [List.length_map]
  by_cases h5 : 5 ≤ l.length
  · exact .inr ⟨fun h => absurd h.1 (by omega), by rw [if_pos h5, if_pos h5]; rfl⟩
  · rw [if_neg h5, if_neg h5]
    rcases joinPy_cases txt "\\n ".toList l with ⟨h, e⟩ | ⟨h, e⟩
    · exact .inl ⟨⟨by omega, h⟩, e⟩
    · exact .inr ⟨fun ⟨_, x, hx, hn⟩ => h x hx hn, e⟩

theorem udotLabelAny_cases {γ : Type} (txt : γ → Option (List Char)) (full : Bool) (l : List γ) :
    ((full = true ∧ ∃ x ∈ l.take 6, txt x = none) ∧ udotLabelAny txt full l = .error .typeError) ∨
    (¬ (full = true ∧ ∃ x ∈ l.take 6, txt x = none) ∧
      udotLabelAny txt full l = .ok (Ctx.joinC "\\n ".toList (udotLabel full (l.map fun x => (txt x).getD [])))) := by
  unfold udotLabelAny udotLabel
  dsimp only
  rw [List.length_map]
  cases full with
  | false =>
    right
    refine ⟨fun h => absurd h.1 (by simp), ?_⟩
    by_cases h1 : 1 ≤ l.length
    · rw [if_pos ⟨rfl, h1⟩]
      simp [h1, Ctx.joinC]
    · have : l = [] := List.length_eq_zero_iff.1 (by omega)
      subst this
      rfl
  | true =>
    rw [if_neg (by simp)]
    simp only [Bool.not_true, Bool.false_eq_true, if_false, List.length_map, true_and]
    by_cases h6 : 6 < l.length
    · rw [if_pos h6, if_pos h6]
      by_cases hx : ∃ x ∈ l.take 6, txt x = none
      · refine .inl ⟨hx, ?_⟩
        rw [mapM_err (fun x _ => needStr_total txt x)]
        · rfl
        · obtain ⟨x, hx, hn⟩ := hx
          exact ⟨x, hx, (needStr_error txt x).2 hn⟩
      · refine .inr ⟨hx, ?_⟩
        push Not at hx
        rw [strings_of hx, py_ok_bind, List.map_take]
    · rw [if_neg h6, if_neg h6, List.take_of_length_le (by omega)]
      rcases joinPy_cases txt "\\n ".toList l with ⟨h, e⟩ | ⟨h, e⟩
      · exact .inl ⟨h, e⟩
      · exact .inr ⟨fun ⟨x, hx, hn⟩ => h x hx hn, e⟩

theorem labelChunks_err {kind tail : List Char} {i : ℕ} {shown : Bool} {label : Py (List Char)}
    (h : label = .error .typeError ∨ ∃ t, label = .ok t) :
    (∀ x ∈ dotLabelChunks kind tail i shown label, x = .error .typeError ∨ ∃ t, x = .ok t) ∧
    (.error .typeError ∈ dotLabelChunks kind tail i shown label ↔ shown = true ∧ label = .error .typeError) := by
  unfold dotLabelChunks
  cases shown with
  | false => simp
  | true =>
    rw [if_pos rfl]
    rcases h with rfl | ⟨t, rfl⟩
    · refine ⟨?_, ?_⟩
      · intro x hx
        simp only [List.mem_cons, List.not_mem_nil, or_false] at hx
        rcases hx with rfl | rfl | rfl
        · exact .inr ⟨_, rfl⟩
        · exact .inl rfl
        · exact .inr ⟨_, rfl⟩
      · simp only [true_and, iff_true]
        exact List.mem_cons_of_mem _ (List.mem_cons_self ..)
    · refine ⟨?_, ?_⟩
      · intro x hx
        simp only [List.mem_cons, List.not_mem_nil, or_false] at hx
        rcases hx with rfl | rfl | rfl <;> exact .inr ⟨_, rfl⟩
      · simp [py_ok_bind]

variable [Kinded α] [Kinded β] (E : SortEnv α β) (txtO : α → Option (List Char)) (txtA : β → Option (List Char))
  (ordc : SetOrder (Concept α β))

theorem dotHashes_cases (cs : List (Concept α β)) :
    ((∃ x ∈ cs, conceptText E x = .error .typeError) ∧ dotHashes E cs = .error .typeError) ∨
    ((∀ x ∈ cs, conceptText E x ≠ .error .typeError) ∧ dotHashes E cs = .ok []) := by
  unfold dotHashes
  rcases mapM_dichotomy (conceptText_total E) cs with ⟨h1, h2⟩ | ⟨⟨ss, h1⟩, h2⟩
  · exact .inl ⟨h2, by rw [h1]; rfl⟩
  · refine .inr ⟨fun x hx he => ?_, by rw [h1]; rfl⟩
    obtain ⟨s, hs⟩ := h2 x hx
    rw [hs] at he; cases he

theorem zipIdx_exists {γ : Type} {l : List γ} {P : γ → Prop} : (∃ p ∈ l.zipIdx, P p.1) ↔ ∃ x ∈ l, P x := by
  constructor
  · rintro ⟨⟨x, i⟩, hp, h⟩
    exact ⟨x, (List.mem_zipIdx' hp).2 ▸ List.getElem_mem _, h⟩
  · rintro ⟨x, hx, h⟩
    obtain ⟨i, hi, rfl⟩ := List.getElem_of_mem hx
    exact ⟨(l[i], i), List.mk_mem_zipIdx_iff_getElem?.2 (List.getElem?_eq_getElem hi), h⟩

/-- `write_dot` raises TypeError exactly if the text of some concept cannot be sorted (C126) or some concept has at most
four own objects (own attributes), one of which is not a string; for a non-empty path it raises nothing else. -/
theorem C127_write_dot {path : List Char} (hp : path ≠ []) {cs : List (Concept α β)} (hn : cs.Nodup) :
    ((writeDotAny E txtO txtA ordc path cs).2 = some .typeError ↔
      (∃ x ∈ cs, conceptText E x = .error .typeError) ∨
      ∃ con ∈ cs, ((ownObjects E.ordO cs con).length < 5 ∧ ∃ o ∈ ownObjects E.ordO cs con, txtO o = none) ∨
        ((ownAttributes E.ordA cs con).length < 5 ∧ ∃ a ∈ ownAttributes E.ordA cs con, txtA a = none)) ∧
    ((writeDotAny E txtO txtA ordc path cs).2 ≠ some .typeError → (writeDotAny E txtO txtA ordc path cs).2 = none) := by
  obtain ⟨es, hes, -, -⟩ := C79_edges ordc hn
  have hed : dotEdgeChunk ordc cs = .ok (dotEdgeText es) := by unfold dotEdgeChunk; rw [hes]; rfl
  unfold writeDotAny
  rw [if_neg fun e => hp (List.length_eq_zero_iff.1 e), hed]
  have hlo : ∀ con, dotLabelAny txtO (ownObjects E.ordO cs con) = .error .typeError ∨
      ∃ t, dotLabelAny txtO (ownObjects E.ordO cs con) = .ok t := fun con =>
    (dotLabelAny_cases txtO _).imp (fun h => h.2) fun h => ⟨_, h.2⟩
  have hla : ∀ con, dotLabelAny txtA (ownAttributes E.ordA cs con) = .error .typeError ∨
      ∃ t, dotLabelAny txtA (ownAttributes E.ordA cs con) = .ok t := fun con =>
    (dotLabelAny_cases txtA _).imp (fun h => h.2) fun h => ⟨_, h.2⟩
  have hh := dotHashes_cases E cs
  have hall := writeChunks_err (e := .typeError) (l := [.ok dotHead, dotHashes E cs] ++
    cs.zipIdx.flatMap (fun p =>
      .ok (dotNodeText p.2) ::
        (dotLabelChunks "headlabel".toList "labeldistance=1,labelangle=270,color=transparent]\n".toList p.2
          (!(ownObjects E.ordO cs p.1).isEmpty) (dotLabelAny txtO (ownObjects E.ordO cs p.1)) ++
        dotLabelChunks "taillabel".toList "labeldistance=2,labelangle=90,color=transparent]\n".toList p.2
          (!(ownAttributes E.ordA cs p.1).isEmpty) (dotLabelAny txtA (ownAttributes E.ordA cs p.1)))) ++
    [.ok (dotEdgeText es), .ok ['}']]) (by
      intro x hx
      simp only [List.mem_append, List.mem_cons, List.not_mem_nil, or_false, List.mem_flatMap] at hx
      rcases hx with ((rfl | rfl) | ⟨p, -, rfl | hx | hx⟩) | rfl | rfl
      · exact .inr ⟨_, rfl⟩
      · exact hh.imp (fun h => h.2) fun h => ⟨_, h.2⟩
      · exact .inr ⟨_, rfl⟩
      · exact (labelChunks_err (hlo p.1)).1 x hx
      · exact (labelChunks_err (hla p.1)).1 x hx
      · exact .inr ⟨_, rfl⟩
      · exact .inr ⟨_, rfl⟩)
  constructor
  · rw [hall.1]
    simp only [List.mem_append, List.mem_cons, List.not_mem_nil, or_false, List.mem_flatMap, reduceCtorEq, false_or,
      (labelChunks_err (hlo _)).2, (labelChunks_err (hla _)).2]
    rw [zipIdx_exists (l := cs) (P := fun con =>
      ((!(ownObjects E.ordO cs con).isEmpty) = true ∧ dotLabelAny txtO (ownObjects E.ordO cs con) = .error .typeError) ∨
      ((!(ownAttributes E.ordA cs con).isEmpty) = true ∧
        dotLabelAny txtA (ownAttributes E.ordA cs con) = .error .typeError))]
    refine or_congr ?_ (exists_congr fun con => and_congr_right fun _ => or_congr ?_ ?_)
    · rcases hh with ⟨h1, h2⟩ | ⟨h1, h2⟩
      · simp [h2, h1]
      · simp only [h2, reduceCtorEq, false_iff]
        rintro ⟨x, hx, he⟩
        exact h1 x hx he
    · rcases dotLabelAny_cases txtO (ownObjects E.ordO cs con) with ⟨h1, h2⟩ | ⟨h1, h2⟩
      · refine iff_of_true ⟨?_, h2⟩ h1
        obtain ⟨-, x, hx, -⟩ := h1
        cases hl : ownObjects E.ordO cs con with
        | nil => rw [hl] at hx; simp at hx
        | cons => rfl
      · exact iff_of_false (fun h => by rw [h2] at h; exact absurd h.2 (by simp)) h1
    · rcases dotLabelAny_cases txtA (ownAttributes E.ordA cs con) with ⟨h1, h2⟩ | ⟨h1, h2⟩
      · refine iff_of_true ⟨?_, h2⟩ h1
        obtain ⟨-, x, hx, -⟩ := h1
        cases hl : ownAttributes E.ordA cs con with
        | nil => rw [hl] at hx; simp at hx
        | cons => rfl
      · exact iff_of_false (fun h => by rw [h2] at h; exact absurd h.2 (by simp)) h1
  · intro hne
    rw [hall.2]
    rwa [Ne, hall.1] at hne

/-- `uwrite_dot` with `full=False` writes numbers only and raises TypeError exactly if the text of some concept cannot be
sorted; with `full=True` also if one of the first six own objects (own attributes) of some concept, in iteration order, is
not a string. For a non-empty path it raises nothing else. -/
theorem C127_uwrite_dot (dist : ℕ → List Char) {path : List Char} (hp : path ≠ []) {cs : List (Concept α β)}
    (hn : cs.Nodup) (full : Bool) :
    ((uwriteDotAny E txtO txtA ordc dist path cs full).2 = some .typeError ↔
      (∃ x ∈ cs, conceptText E x = .error .typeError) ∨
      ∃ con ∈ cs, (full = true ∧ ∃ o ∈ (ownObjects E.ordO cs con).take 6, txtO o = none) ∨
        (full = true ∧ ∃ a ∈ (ownAttributes E.ordA cs con).take 6, txtA a = none)) ∧
    ((uwriteDotAny E txtO txtA ordc dist path cs full).2 ≠ some .typeError →
      (uwriteDotAny E txtO txtA ordc dist path cs full).2 = none) := by
  obtain ⟨es, hes, -, -⟩ := C79_edges ordc hn
  have hed : dotEdgeChunk ordc cs = .ok (dotEdgeText es) := by unfold dotEdgeChunk; rw [hes]; rfl
  unfold uwriteDotAny
  rw [if_neg fun e => hp (List.length_eq_zero_iff.1 e), hed]
  have hlo : ∀ con, udotLabelAny txtO full (ownObjects E.ordO cs con) = .error .typeError ∨
      ∃ t, udotLabelAny txtO full (ownObjects E.ordO cs con) = .ok t := fun con =>
    (udotLabelAny_cases txtO full _).imp (fun h => h.2) fun h => ⟨_, h.2⟩
  have hla : ∀ con, udotLabelAny txtA full (ownAttributes E.ordA cs con) = .error .typeError ∨
      ∃ t, udotLabelAny txtA full (ownAttributes E.ordA cs con) = .ok t := fun con =>
    (udotLabelAny_cases txtA full _).imp (fun h => h.2) fun h => ⟨_, h.2⟩
  have hh := dotHashes_cases E cs
  have hall := writeChunks_err (e := .typeError) (l := [.ok udotHead, dotHashes E cs] ++
    (List.range cs.length).map (fun i => .ok (dotNodeText i)) ++ [.ok (dotEdgeText es)] ++
    cs.zipIdx.flatMap (fun p =>
      dotLabelChunks "headlabel".toList
        ("labeldistance=".toList ++ dist (udotCount full (ownObjects E.ordO cs p.1).length) ++
          ",labelangle=270,color=transparent]\n".toList) p.2
        (!(ownObjects E.ordO cs p.1).isEmpty) (udotLabelAny txtO full (ownObjects E.ordO cs p.1)) ++
      dotLabelChunks "taillabel".toList
        ("labeldistance=".toList ++ dist (udotCount full (ownAttributes E.ordA cs p.1).length) ++
          ",labelangle=90,color=transparent]\n".toList) p.2
        (!(ownAttributes E.ordA cs p.1).isEmpty) (udotLabelAny txtA full (ownAttributes E.ordA cs p.1))) ++
    [.ok ['}']]) (by
      intro x hx
      simp only [List.mem_append, List.mem_cons, List.not_mem_nil, or_false, List.mem_flatMap, List.mem_map] at hx
      rcases hx with ((((rfl | rfl) | ⟨i, -, rfl⟩) | rfl) | ⟨p, -, hx | hx⟩) | rfl
      · exact .inr ⟨_, rfl⟩
      · exact hh.imp (fun h => h.2) fun h => ⟨_, h.2⟩
      · exact .inr ⟨_, rfl⟩
      · exact .inr ⟨_, rfl⟩
      · exact (labelChunks_err (hlo p.1)).1 x hx
      · exact (labelChunks_err (hla p.1)).1 x hx
      · exact .inr ⟨_, rfl⟩)
  constructor
  · rw [hall.1]
    simp only [List.mem_append, List.mem_cons, List.not_mem_nil, or_false, List.mem_flatMap, reduceCtorEq, false_or,
      List.mem_map, and_false, exists_false, (labelChunks_err (hlo _)).2, (labelChunks_err (hla _)).2]
    rw [zipIdx_exists (l := cs) (P := fun con =>
      ((!(ownObjects E.ordO cs con).isEmpty) = true ∧
        udotLabelAny txtO full (ownObjects E.ordO cs con) = .error .typeError) ∨
      ((!(ownAttributes E.ordA cs con).isEmpty) = true ∧
        udotLabelAny txtA full (ownAttributes E.ordA cs con) = .error .typeError))]
    refine or_congr ?_ (exists_congr fun con => and_congr_right fun _ => or_congr ?_ ?_)
    · rcases hh with ⟨h1, h2⟩ | ⟨h1, h2⟩
      · simp [h2, h1]
      · simp only [h2, reduceCtorEq, false_iff]
        rintro ⟨x, hx, he⟩
        exact h1 x hx he
    · rcases udotLabelAny_cases txtO full (ownObjects E.ordO cs con) with ⟨h1, h2⟩ | ⟨h1, h2⟩
      · refine iff_of_true ⟨?_, h2⟩ h1
        obtain ⟨-, x, hx, -⟩ := h1
        cases hl : ownObjects E.ordO cs con with
        | nil => rw [hl] at hx; simp at hx
        | cons => rfl
      · exact iff_of_false (fun h => by rw [h2] at h; exact absurd h.2 (by simp)) h1
    · rcases udotLabelAny_cases txtA full (ownAttributes E.ordA cs con) with ⟨h1, h2⟩ | ⟨h1, h2⟩
      · refine iff_of_true ⟨?_, h2⟩ h1
        obtain ⟨-, x, hx, -⟩ := h1
        cases hl : ownAttributes E.ordA cs con with
        | nil => rw [hl] at hx; simp at hx
        | cons => rfl
      · exact iff_of_false (fun h => by rw [h2] at h; exact absurd h.2 (by simp)) h1
  · intro hne
    rw [hall.2]
    rwa [Ne, hall.1] at hne

/-- The objects with the same attributes as `o`. -/
def SameRow (c : Ctx α β) (o o' : α) : Prop := ∀ m, c.Inc o m ↔ c.Inc o' m

/-- The attributes with the same objects as `m`. -/
def SameCol (c : Ctx α β) (m m' : β) : Prop := ∀ o, c.Inc o m ↔ c.Inc o m'

/-- The own objects of the concept labelled by `o` are the objects with the same attributes. -/
theorem own_objects_row (ord : SetOrder α) {c : Ctx α β} (h : c.WFw) {cs : List (Concept α β)} (hcs : norris c = .ok cs)
    {con : Concept α β} (hcon : con ∈ cs) {o : α} (ho : o ∈ ownObjects ord cs con) (o' : α) :
    o' ∈ ownObjects ord cs con ↔ o' ∈ c.objects ∧ SameRow c o o' := by
  have hall := norris_all h hcs
  have hobj : ∀ x ∈ ownObjects ord cs con, x ∈ c.objects := (C68_only_names ord (SetOrder.any β) h hcs hcon).1
  have hint : ∀ x ∈ c.objects, ∀ y ∈ cs, x ∈ y.extent → (∀ z ∈ cs, x ∈ z.extent → y.extent ⊆ z.extent) →
      ∀ m, m ∈ y.intent ↔ c.Inc x m := by
    intro x hx y hy hxy hle m
    constructor
    · intro hm; exact (((hall.mem y hy).2 x).1 hxy).2 m hm
    · intro hm
      have hmM := (Ctx.Inc.mem hm).2
      -- the concept of the attribute contains x, hence contains y
      obtain ⟨z, hz, hz1, hz2⟩ := hall.all (c.downF {m}) (c.upF (c.downF {m})) ⟨fun a => by
          rw [h.mem_upF]; simp [Ctx.M], fun g => by
          rw [h.mem_downF]
          simp only [Ctx.G, List.mem_toFinset]
          refine and_congr_right fun hg => ⟨fun hh a ha => ?_, fun hh a ha => ?_⟩
          · exact (h.mem_upF.1 ha).2 g (h.mem_downF.2 ⟨hg, hh⟩)
          · rw [Finset.mem_singleton] at ha
            subst ha
            refine hh a (h.mem_upF.2 ⟨hmM, fun g' hg' => ?_⟩)
            exact (h.mem_downF.1 hg').2 a (by simp)⟩
      have hxz : x ∈ z.extent := by
        rw [hz1, h.mem_downF]
        exact ⟨hx, fun a ha => by rw [Finset.mem_singleton] at ha; subst ha; exact hm⟩
      have hsub := hle z hz hxz
      rw [(hall.mem y hy).1 m]
      refine ⟨List.mem_toFinset.2 hmM, fun g hg => ?_⟩
      have := hsub hg
      rw [hz1, h.mem_downF] at this
      exact this.2 m (by simp)
  obtain ⟨y, hy, h1, h2, h3, -⟩ := C68_objects ord h hcs (hobj o ho)
  obtain rfl := (h3 con hcon).1 ho
  constructor
  · intro ho'
    refine ⟨hobj o' ho', fun m => ?_⟩
    obtain ⟨y', hy', h1', h2', h3', -⟩ := C68_objects ord h hcs (hobj o' ho')
    obtain rfl := (h3' con hcon).1 ho'
    rw [← hint o (hobj o ho) con hcon h1 h2, ← hint o' (hobj o' ho') con hcon h1' h2']
  · rintro ⟨ho', hs⟩
    obtain ⟨y', hy', h1', h2', h3', -⟩ := C68_objects ord h hcs ho'
    rw [h3' con hcon]
    have hi : con.intent = y'.intent := by
      ext m
      rw [hint o (hobj o ho) con hcon h1 h2, hint o' ho' y' hy' h1' h2', hs m]
    refine hall.inj con hcon y' hy' ?_ hi
    ext g
    rw [(hall.mem con hcon).2 g, (hall.mem y' hy').2 g, hi]

/-- The own attributes of the concept labelled by `m` are the attributes with the same objects. -/
theorem own_attributes_col (ord : SetOrder β) {c : Ctx α β} (h : c.WFw) {cs : List (Concept α β)}
    (hcs : norris c = .ok cs) {con : Concept α β} (hcon : con ∈ cs) {m : β} (hm : m ∈ ownAttributes ord cs con) (m' : β) :
    m' ∈ ownAttributes ord cs con ↔ m' ∈ c.attributes ∧ SameCol c m m' := by
  have hall := norris_all h hcs
  have hatt : ∀ x ∈ ownAttributes ord cs con, x ∈ c.attributes := (C68_only_names (SetOrder.any α) ord h hcs hcon).2
  have hext : ∀ x ∈ c.attributes, ∀ y ∈ cs, x ∈ y.intent →
      (∀ z ∈ cs, x ∈ z.intent → y.intent ⊆ z.intent ∧ z.extent ⊆ y.extent) → ∀ g, g ∈ y.extent ↔ c.Inc g x := by
    intro x hx y hy hxy hle g
    constructor
    · intro hg; exact (((hall.mem y hy).1 x).1 hxy).2 g hg
    · intro hg
      have hgG := (Ctx.Inc.mem hg).1
      obtain ⟨z, hz, hz1, hz2⟩ := hall.all (c.downF (c.upF {g})) (c.upF {g}) ⟨fun a => by
          rw [h.mem_upF]
          simp only [Ctx.M, List.mem_toFinset]
          refine and_congr_right fun ha => ⟨fun hh b hb => ?_, fun hh b hb => ?_⟩
          · exact (h.mem_downF.1 hb).2 a (h.mem_upF.2 ⟨ha, hh⟩)
          · rw [Finset.mem_singleton] at hb
            subst hb
            refine hh b (h.mem_downF.2 ⟨hgG, fun a' ha' => ?_⟩)
            exact (h.mem_upF.1 ha').2 b (by simp), fun b => by
          rw [h.mem_downF]; simp [Ctx.G]⟩
      have hxz : x ∈ z.intent := by
        rw [hz2, h.mem_upF]
        exact ⟨hx, fun b hb => by rw [Finset.mem_singleton] at hb; subst hb; exact hg⟩
      refine (hle z hz hxz).2 ?_
      rw [hz1, h.mem_downF]
      exact ⟨hgG, fun a ha => (h.mem_upF.1 ha).2 g (by simp)⟩
  obtain ⟨y, hy, h1, h2, h3, -⟩ := C68_attributes ord h hcs (hatt m hm)
  obtain rfl := (h3 con hcon).1 hm
  constructor
  · intro hm'
    refine ⟨hatt m' hm', fun o => ?_⟩
    obtain ⟨y', hy', h1', h2', h3', -⟩ := C68_attributes ord h hcs (hatt m' hm')
    obtain rfl := (h3' con hcon).1 hm'
    rw [← hext m (hatt m hm) con hcon h1 h2, ← hext m' (hatt m' hm') con hcon h1' h2']
  · rintro ⟨hm', hs⟩
    obtain ⟨y', hy', h1', h2', h3', -⟩ := C68_attributes ord h hcs hm'
    rw [h3' con hcon]
    have he : con.extent = y'.extent := by
      ext o
      rw [hext m (hatt m hm) con hcon h1 h2, hext m' hm' y' hy' h1' h2', hs o]
    refine hall.inj con hcon y' hy' he ?_
    ext a
    rw [(hall.mem con hcon).1 a, (hall.mem y' hy').1 a, he]

open Classical in
/-- `write_dot` of the concept lattice of a context raises TypeError exactly if there is an object that is not a string
and has the attributes of at most three other objects, or such an attribute. -/
theorem C127_lattice_dot {path : List Char} (hp : path ≠ []) {c : Ctx α β} (h : c.WFw) {L : CLattice α β}
    (hL : makeLatticeSorted E c = .ok L) :
    (writeDotAny E txtO txtA ordc path L.concepts).2 = some .typeError ↔
      (∃ o ∈ c.objects, txtO o = none ∧ (c.objects.filter fun o' => SameRow c o o').length < 5) ∨
      (∃ m ∈ c.attributes, txtA m = none ∧ (c.attributes.filter fun m' => SameCol c m m').length < 5) := by
  obtain ⟨L', hL', -, -, hcs, -, -⟩ := makeLattice_ok h
  have hsame := (Ctx.C126_lattice E h).2.2 (by rw [hL]; simp)
  rw [hL, hL'] at hsame
  obtain rfl : L = L' := by injection hsame
  obtain ⟨cs', hcs', hnd, -⟩ := C34_norris h
  rw [hcs] at hcs'
  obtain rfl : L.concepts = cs' := by injection hcs'
  rw [(C127_write_dot E txtO txtA ordc hp hnd).1]
  have hhash : ¬ ∃ x ∈ L.concepts, conceptText E x = .error .typeError := by
    rintro ⟨x, hx, he⟩
    unfold makeLatticeSorted at hL
    rw [hcs, py_ok_bind] at hL
    rcases mapM_dichotomy (conceptText_total E) L.concepts with ⟨h1, -⟩ | ⟨-, h2⟩
    · rw [h1] at hL; cases hL
    · obtain ⟨s, hs⟩ := h2 x hx
      rw [hs] at he; cases he
  have hlenO : ∀ con ∈ L.concepts, ∀ o ∈ ownObjects E.ordO L.concepts con,
      (ownObjects E.ordO L.concepts con).length = (c.objects.filter fun o' => SameRow c o o').length := by
    intro con hcon o ho
    refine List.Perm.length_eq ((List.perm_ext_iff_of_nodup ((E.ordO.nodup _).filter _) (h.onodup.filter _)).2 fun x => ?_)
    have := own_objects_row E.ordO h hcs hcon ho x
    refine this.trans ?_
    simp
  have hlenA : ∀ con ∈ L.concepts, ∀ m ∈ ownAttributes E.ordA L.concepts con,
      (ownAttributes E.ordA L.concepts con).length = (c.attributes.filter fun m' => SameCol c m m').length := by
    intro con hcon m hm
    refine List.Perm.length_eq ((List.perm_ext_iff_of_nodup ((E.ordA.nodup _).filter _) (h.anodup.filter _)).2 fun x => ?_)
    have := own_attributes_col E.ordA h hcs hcon hm x
    refine this.trans ?_
    simp
  rw [or_iff_right hhash]
  constructor
  · rintro ⟨con, hcon, ⟨hl, o, ho, hn⟩ | ⟨hl, m, hm, hn⟩⟩
    · exact .inl ⟨o, (C68_only_names E.ordO E.ordA h hcs hcon).1 o ho, hn, by rw [← hlenO con hcon o ho]; exact hl⟩
    · exact .inr ⟨m, (C68_only_names E.ordO E.ordA h hcs hcon).2 m hm, hn, by rw [← hlenA con hcon m hm]; exact hl⟩
  · rintro (⟨o, ho, hn, hl⟩ | ⟨m, hm, hn, hl⟩)
    · obtain ⟨y, hy, -, -, h3, -⟩ := C68_objects E.ordO h hcs ho
      have hoy := (h3 y hy).2 rfl
      exact ⟨y, hy, .inl ⟨by rw [hlenO y hy o hoy]; exact hl, o, hoy, hn⟩⟩
    · obtain ⟨y, hy, -, -, h3, -⟩ := C68_attributes E.ordA h hcs hm
      have hmy := (h3 y hy).2 rfl
      exact ⟨y, hy, .inr ⟨by rw [hlenA y hy m hmy]; exact hl, m, hmy, hn⟩⟩

/-- For strings the models are those of C78, C101 and C103. -/
theorem C127_strings (F : SortEnv (List Char) (List Char)) (ordd : SetOrder (Concept (List Char) (List Char)))
    (c : Ctx (List Char) (List Char)) (h : c.WFw) (path : List Char) (hp : path ≠ [])
    (cs : List (Concept (List Char) (List Char))) (hn : cs.Nodup) (hk : ∀ x ∈ cs, conceptText F x ≠ .error .typeError) :
    (∃ t, uwriteCxt c = .ok t ∧ uwriteCxtAny some some c = (t, none)) ∧
    (∃ t, Csv.writeMvTxt c = .ok t ∧ writeMvTxtAny some some c = (t, none)) ∧
    (∃ t, writeDot F.ordO F.ordA ordd path cs = .ok t ∧ writeDotAny F some some ordd path cs = (t, none)) := by
  have hid : ∀ l : List (List Char), (l.map fun x => (some x).getD []) = l := fun l => by simp
  refine ⟨?_, ?_, ?_⟩
  · have h1 := (C127_uwrite_cxt some some h).1 (by simp) (by simp)
    refine ⟨_, ?_, h1⟩
    unfold uwriteCxt
    rw [← h.nrows, mapM_range (l := c.nd.rows) (g := fun r => (r.map fun b => if b then 'X' else '.') ++ ['\n'])]
    · rw [py_ok_bind]
      simp only [hid, cxtHead, textLines, natStr, List.flatMap_def, List.append_assoc, List.map_map, List.cons_append,
        List.nil_append, h.nrows, Function.comp_def]
    · intro i r hr
      rw [pyGet_ok hr]; rfl
  · have h1 := (C127_write_mv_txt some some h).2.2 (by simp) (by simp)
    rw [hid, hid] at h1
    exact ⟨_, Csv.C101_content h, h1⟩
  · obtain ⟨es, hes, -, -⟩ := C79_edges ordd hn
    have hed : dotEdgeChunk ordd cs = .ok (dotEdgeText es) := by unfold dotEdgeChunk; rw [hes]; rfl
    have hh : dotHashes F cs = .ok [] := ((dotHashes_cases F cs).resolve_left fun h => by
      obtain ⟨⟨x, hx, he⟩, -⟩ := h
      exact hk x hx he).2
    have hl : ∀ l : List (List Char), dotLabelAny some l = .ok (Ctx.joinC "\\n ".toList (dotLabel l)) := fun l => by
      have := ((dotLabelAny_cases some l).resolve_left fun h => by
        obtain ⟨⟨-, x, -, hx⟩, -⟩ := h
        cases hx).2
      rwa [hid] at this
    -- the chunks of one label
    have hc : ∀ (kind tail : List Char) (i : ℕ) (l : List (List Char)), ∃ ts : List (List Char),
        dotLabelChunks kind tail i (!l.isEmpty) (dotLabelAny some l) = ts.map .ok ∧
          ts.flatten = dotLabelText kind tail i l (dotLabel l) := by
      intro kind tail i l
      unfold dotLabelChunks dotLabelText
      cases l with
      | nil => exact ⟨[], by simp, by simp⟩
      | cons x l =>
        rw [hl]
        refine ⟨[dotArrow i i, '[' :: kind ++ "=\"".toList ++ Ctx.joinC "\\n ".toList (dotLabel (x :: l)) ++ "\", ".toList,
          tail], ?_, ?_⟩
        · simp [py_ok_bind]
        · simp
    choose ts hts1 hts2 using hc
    let node := fun p : Concept (List Char) (List Char) × ℕ => dotNodeText p.2 ::
      (ts "headlabel".toList "labeldistance=1,labelangle=270,color=transparent]\n".toList p.2 (ownObjects F.ordO cs p.1) ++
        ts "taillabel".toList "labeldistance=2,labelangle=90,color=transparent]\n".toList p.2
          (ownAttributes F.ordA cs p.1))
    refine ⟨dotHead ++ ((cs.zipIdx.map fun p => (node p).flatten).flatten) ++ dotEdgeText es ++ ['}'], ?_, ?_⟩
    · unfold writeDot
      rw [if_neg fun e => hp (List.length_eq_zero_iff.1 e), mapM_range_zipIdx (l := cs) (g := fun p => (node p).flatten),
        py_ok_bind, hes, py_ok_bind]
      intro i con hi
      rw [pyGet_ok hi, py_ok_bind]
      simp only [node, List.flatten_cons, List.flatten_append, hts2, List.append_assoc]
    · unfold writeDotAny
      rw [if_neg fun e => hp (List.length_eq_zero_iff.1 e), hed, hh]
      have hw := writeChunks_ok ([dotHead, []] ++ cs.zipIdx.flatMap node ++ [dotEdgeText es, ['}']])
      refine (congrArg writeChunks ?_).trans (hw.trans ?_)
      · rw [List.map_append, List.map_append, List.map_flatMap]
        simp only [node, hts1, List.map_cons, List.map_append, List.map_nil]
      · simp [List.flatMap_def, List.flatten_flatten, List.map_map, Function.comp_def]

/-- The same for `uwrite_dot`. -/
theorem C127_strings_uwrite_dot (F : SortEnv (List Char) (List Char)) (ordd : SetOrder (Concept (List Char) (List Char)))
    (dist : ℕ → List Char) (path : List Char) (hp : path ≠ []) (full : Bool)
    (cs : List (Concept (List Char) (List Char))) (hn : cs.Nodup) (hk : ∀ x ∈ cs, conceptText F x ≠ .error .typeError) :
    ∃ t, uwriteDot F.ordO F.ordA ordd dist path cs full = .ok t ∧
      uwriteDotAny F some some ordd dist path cs full = (t, none) := by
  have hid : ∀ l : List (List Char), (l.map fun x => (some x).getD []) = l := fun l => by simp
  obtain ⟨es, hes, -, -⟩ := C79_edges ordd hn
  have hed : dotEdgeChunk ordd cs = .ok (dotEdgeText es) := by unfold dotEdgeChunk; rw [hes]; rfl
  have hh : dotHashes F cs = .ok [] := ((dotHashes_cases F cs).resolve_left fun h => by
    obtain ⟨⟨x, hx, he⟩, -⟩ := h
    exact hk x hx he).2
  have hl : ∀ l : List (List Char), udotLabelAny some full l = .ok (Ctx.joinC "\\n ".toList (udotLabel full l)) :=
    fun l => by
      have := ((udotLabelAny_cases some full l).resolve_left fun h => by
        obtain ⟨⟨-, x, -, hx⟩, -⟩ := h
        cases hx).2
      rwa [hid] at this
  have hcount : ∀ l : List (List Char), udotCount full l.length = (udotLabel full l).length := by
    intro l
    unfold udotCount udotLabel
    cases full with
    | false =>
      cases l with
      | nil => simp
      | cons x l => simp
    | true =>
      by_cases h6 : 6 < l.length
      · have : min 6 l.length = 6 := by omega
        simp [h6, this]
      · simp [h6]
  have hc : ∀ (kind tail : List Char) (i : ℕ) (l : List (List Char)), ∃ ts : List (List Char),
      dotLabelChunks kind tail i (!l.isEmpty) (udotLabelAny some full l) = ts.map .ok ∧
        ts.flatten = dotLabelText kind tail i l (udotLabel full l) := by
    intro kind tail i l
    unfold dotLabelChunks dotLabelText
    cases l with
    | nil => exact ⟨[], by simp, by simp⟩
    | cons x l =>
      rw [hl]
      refine ⟨[dotArrow i i, '[' :: kind ++ "=\"".toList ++ Ctx.joinC "\\n ".toList (udotLabel full (x :: l)) ++
        "\", ".toList, tail], ?_, ?_⟩
      · simp [py_ok_bind]
      · simp
  choose ts hts1 hts2 using hc
  let node := fun p : Concept (List Char) (List Char) × ℕ =>
    ts "headlabel".toList ("labeldistance=".toList ++ dist (udotLabel full (ownObjects F.ordO cs p.1)).length ++
        ",labelangle=270,color=transparent]\n".toList) p.2 (ownObjects F.ordO cs p.1) ++
      ts "taillabel".toList ("labeldistance=".toList ++ dist (udotLabel full (ownAttributes F.ordA cs p.1)).length ++
        ",labelangle=90,color=transparent]\n".toList) p.2 (ownAttributes F.ordA cs p.1)
  refine ⟨udotHead ++ ((List.range cs.length).flatMap dotNodeText) ++ dotEdgeText es ++
    ((cs.zipIdx.map fun p => (node p).flatten).flatten) ++ ['}'], ?_, ?_⟩
  · unfold uwriteDot
    rw [if_neg fun e => hp (List.length_eq_zero_iff.1 e), hes, py_ok_bind,
      mapM_range_zipIdx (l := cs) (g := fun p => (node p).flatten), py_ok_bind]
    intro i con hi
    rw [pyGet_ok hi, py_ok_bind]
    simp only [node, List.flatten_append, hts2, List.append_assoc]
  · unfold uwriteDotAny
    rw [if_neg fun e => hp (List.length_eq_zero_iff.1 e), hed, hh]
    have hw := writeChunks_ok ([udotHead, []] ++ (List.range cs.length).map dotNodeText ++ [dotEdgeText es] ++
      cs.zipIdx.flatMap node ++ [['}']])
    refine (congrArg writeChunks ?_).trans (hw.trans ?_)
    · simp only [List.map_append, List.map_flatMap, node, hts1, hcount, List.map_cons, List.map_nil, List.map_map,
        Function.comp_def]
    · simp [List.flatMap_def, List.flatten_flatten, List.map_map, Function.comp_def]

end

/-! ### C127: scaling -/

section scaling
variable {α β ω V : Type} [DecidableEq α] [DecidableEq β] [DecidableEq ω] [PyName α] [PyName β]

/-- A loop in which some steps raise instead of going on. -/
theorem foldlM_stop {σ γ : Type} {f g : σ → γ → Py σ} {bad : γ → Prop} {e : PyErr} :
    ∀ {l : List γ} {s t : σ}, (∀ x ∈ l, ∀ s r, f s x = .ok r → (bad x → g s x = .error e) ∧ (¬ bad x → g s x = .ok r)) →
      l.foldlM f s = .ok t →
      ((∃ x ∈ l, bad x) → l.foldlM g s = .error e) ∧ ((∀ x ∈ l, ¬ bad x) → l.foldlM g s = .ok t) := by
  intro l
  induction l with
  | nil =>
    intro s t _ h
    exact ⟨fun ⟨x, hx, _⟩ => absurd hx (by simp), fun _ => h⟩
  | cons x l ih =>
    intro s t hf h
    rw [List.foldlM_cons] at h
    cases hr : f s x with
    | error e' => rw [hr] at h; cases h
    | ok r =>
      rw [hr, py_ok_bind] at h
      obtain ⟨h1, h2⟩ := hf x (by simp) s r hr
      have ih := ih (fun y hy => hf y (by simp [hy])) h
      rw [List.foldlM_cons]
      by_cases hb : bad x
      · refine ⟨fun _ => by rw [h1 hb]; rfl, fun hn => absurd hb (hn x (by simp))⟩
      · rw [h2 hb, py_ok_bind]
        refine ⟨?_, fun hn => ih.2 fun y hy => hn y (by simp [hy])⟩
        rintro ⟨y, hy, hby⟩
        rcases List.mem_cons.1 hy with rfl | hy
        · exact absurd hby hb
        · exact ih.1 ⟨y, hy, hby⟩

/-- `scale_mvcontext` raises TypeError exactly if an attribute that gets a new column, or an attribute of its scale, is not
a string; otherwise it is the function of C63. -/
theorem C127_scaling (txt : β → Option (List Char)) (ofStr : List Char → β) (holds : ω → V → Py Bool) (objs : List α)
    (atts : List β) (rows : List (List V)) (scales : List (Ctx ω β)) (ho : objs.Nodup) (hr : objs.length ≤ rows.length)
    (hw : ∀ r ∈ rows, atts.length ≤ r.length) (hn : atts.length ≤ scales.length) (hs : ∀ s ∈ scales, s.WFw)
    (hv : ∀ s ∈ scales, ∀ w ∈ s.objects, ∀ r ∈ rows, ∀ v ∈ r, ∃ b, holds w v = .ok b) :
    ((∃ (k : ℕ) (m : β) (s : Ctx ω β) (a : β), atts[k]? = some m ∧ scales[k]? = some s ∧ a ∈ s.attributes ∧ (txt m = none ∨ txt a = none)) →
      scaleMvAny txt ofStr holds objs atts rows scales = .error .typeError) ∧
    ((∀ (k : ℕ) (m : β) (s : Ctx ω β) (a : β), atts[k]? = some m → scales[k]? = some s → a ∈ s.attributes → txt m ≠ none ∧ txt a ≠ none) →
      ∃ c, scaleMvAny txt ofStr holds objs atts rows scales = .ok c ∧
        scaleMv (fun m a => ofStr ((txt m).getD [] ++ ':' :: (txt a).getD [])) holds objs atts rows scales = .ok c) := by
  obtain ⟨c, hc⟩ := scaleMv_returns (join := fun m a => ofStr ((txt m).getD [] ++ ':' :: (txt a).getD []))
    (holds := holds) ho hr hw hn hs hv
  have hc' := hc
  unfold scaleMv at hc
  unfold scaleMvAny
  cases h0 : Ctx.make (objs.map fun _ => []) objs ([] : List β) with
  | error e => rw [h0] at hc; cases hc
  | ok c₀ =>
    rw [h0, py_ok_bind] at hc
    rw [py_ok_bind]
    have key := foldlM_stop (e := .typeError) (bad := fun k => ∃ m s a, atts[k]? = some m ∧ scales[k]? = some s ∧
        a ∈ s.attributes ∧ (txt m = none ∨ txt a = none))
      (g := fun c k => do
        let scale ← pyGet scales k
        (List.range scale.attributes.length).foldlM (fun c col => do
          let m ← pyGet atts k
          scaleAttrAny txt ofStr objs.length (fun obj => do let r ← pyGet rows obj; pyGet r k) holds scale m c col) c)
      (fun k hk c r hkr => ?_) hc
    · refine ⟨fun ⟨k, m, s, a, h1, h2, h3⟩ => key.1 ⟨k, ?_, m, s, a, h1, h2, h3⟩, fun hall => ⟨c, key.2 ?_, hc'⟩⟩
      · exact List.mem_range.2 (List.getElem?_eq_some_iff.1 h1).1
      · rintro k - ⟨m, s, a, h1, h2, h3, h4⟩
        obtain ⟨h5, h6⟩ := hall k m s a h1 h2 h3
        exact h4.elim h5 h6
    · have hk' := List.mem_range.1 hk
      have hm : atts[k]? = some atts[k] := List.getElem?_eq_getElem hk'
      have hsc : scales[k]? = some scales[k] := List.getElem?_eq_getElem (by omega)
      rw [pyGet_ok hsc, py_ok_bind] at hkr
      simp only [pyGet_ok hsc, py_ok_bind]
      have inner := foldlM_stop (e := .typeError) (bad := fun col => ∃ a, scales[k].attributes[col]? = some a ∧
          (txt atts[k] = none ∨ txt a = none))
        (g := fun c col => do
          let m ← pyGet atts k
          scaleAttrAny txt ofStr objs.length (fun obj => do let r ← pyGet rows obj; pyGet r k) holds scales[k] m c col)
        (fun col hcol c r hcr => ?_) hkr
      · constructor
        · rintro ⟨m, s, a, h1, h2, h3, h4⟩
          rw [hm] at h1; cases h1
          rw [hsc] at h2; cases h2
          obtain ⟨col, hcol⟩ := List.mem_iff_getElem?.1 h3
          exact inner.1 ⟨col, List.mem_range.2 (List.getElem?_eq_some_iff.1 hcol).1, a, hcol, h4⟩
        · intro hb
          refine inner.2 fun col _ ⟨a, h1, h2⟩ => hb ⟨_, _, a, hm, hsc, List.mem_of_getElem? h1, h2⟩
      · rw [pyGet_ok hm, py_ok_bind] at hcr
        rw [pyGet_ok hm, py_ok_bind]
        unfold scaleAttr at hcr
        unfold scaleAttrAny
        cases hd : scaleCol objs.length (fun obj => do let r ← pyGet rows obj; pyGet r k) holds scales[k] col with
        | error e => rw [hd] at hcr; cases hcr
        | ok d =>
          rw [hd, py_ok_bind] at hcr
          rw [py_ok_bind]
          have ha : scales[k].attributes[col]? = some _ := List.getElem?_eq_getElem (List.mem_range.1 hcol)
          rw [pyGet_ok ha, py_ok_bind] at hcr
          rw [pyGet_ok ha, py_ok_bind]
          rcases joinPy_cases txt [':'] [atts[k], scales[k].attributes[col]'(List.mem_range.1 hcol)] with
            ⟨⟨x, hx, hxn⟩, e⟩ | ⟨h1, e⟩
          · refine ⟨fun _ => by rw [e]; rfl, fun hb => absurd ⟨_, ha, ?_⟩ hb⟩
            simp only [List.mem_cons, List.not_mem_nil, or_false] at hx
            rcases hx with rfl | rfl
            · exact .inl hxn
            · exact .inr hxn
          · constructor
            · rintro ⟨a, ha', hb⟩
              rw [ha] at ha'; cases ha'
              exact hb.elim (fun hb => absurd hb (h1 _ (by simp))) fun hb => absurd hb (h1 _ (by simp))
            · intro _
              rw [e, py_ok_bind]
              have ej : ∀ x y : β, Ctx.joinC [':'] ([x, y].map fun x => (txt x).getD []) =
                  (txt x).getD [] ++ ':' :: (txt y).getD [] := fun x y => by simp [Ctx.joinC]
              rw [ej]
              exact hcr

end scaling

/-! ### C127: integers in .cxt files -/

theorem intText_no {n : ℤ} {c : Char} (hc : c ∈ intText n) : c = '-' ∨ c.isDigit := by
  unfold intText at hc
  rcases List.mem_append.1 hc with hc | hc
  · split at hc
    · exact .inl (by simpa using hc)
    · simp at hc
  · exact .inr (natStr_digits hc)

/-- Integers and strings come back from `read_cxt` after `write_cxt` as what they were, if `eval` evaluates the text of an
integer to it, and the strings have no line breaks or outer white space and evaluating them raises NameError or
SyntaxError. -/
theorem C127_cxt_integers (ev : ℕ → List Char → Eval PName) (c : Ctx PName PName) (h : c.WFw)
    (hint : ∀ k n, ev k (intText n) = .value (.int n))
    (hstr : ∀ s, .str s ∈ c.objects ++ c.attributes → '\n' ∉ s ∧ '\r' ∉ s ∧ pyStrip s = s ∧ ∀ k, ev k s = .unknown) :
    ∃ file d, writeCxt c = .ok file ∧ readCxt ev file = .ok d ∧ d.objects = c.objects ∧ d.attributes = c.attributes ∧
      d.nd.rows = c.nd.rows := by
  have key : ∀ x ∈ c.objects ++ c.attributes, ∀ k, CxtName ev k x := by
    intro x hx k
    cases x with
    | int n =>
      have hno : ∀ ch ∈ intText n, pySpace ch = false := by
        intro ch hch
        rcases intText_no hch with rfl | hd
        · decide
        · exact digit_not_space hd
      have e : pyStrip (intText n) = intText n := strip_id hno
      refine ⟨fun hm => ?_, fun hm => ?_, ?_⟩
      · exact absurd (hno _ hm) (by decide)
      · exact absurd (hno _ hm) (by decide)
      · change readName (ev k (pyStrip (intText n))) (pyStrip (intText n)) = _
        rw [e, hint]; rfl
    | str s =>
      obtain ⟨h1, h2, h3, h4⟩ := hstr s hx
      refine ⟨h1, h2, ?_⟩
      change readName (ev k (pyStrip s)) (pyStrip s) = _
      rw [h3, h4]; rfl
  exact C66_round_trip_partial ev c h (fun i x hx => key x (List.mem_append_left _ (List.mem_of_getElem? hx)) i)
    fun j x hx => key x (List.mem_append_right _ (List.mem_of_getElem? hx)) _

/-! ### Concrete cases -/

/-- Objects 1, 2 and attributes a, b. -/
def intCxt : Ctx PName PName :=
  ⟨[.int 1, .int (-2)], [.str ['a'], .str ['b']], ⟨some 2, [[true, false], [true, true]]⟩⟩

theorem intCxt_wf : intCxt.WFw := by constructor <;> decide +kernel

example : uwriteCxtAny PName.asStr PName.asStr intCxt = ("B\n\n2\n2\n\n".toList, some .typeError) := by decide +kernel

example : writeMvTxtAny PName.asStr PName.asStr intCxt = ([], some .typeError) := by decide +kernel

example : (intCxt.complementaryAny PName.asStr .str).map (fun d => (d.attributes, d.nd.rows)) =
    .ok ([.str "not a".toList, .str "not b".toList], [[false, true], [false, false]]) := by decide +kernel

/-- The transposed context has integers as attributes. -/
example : (⟨intCxt.attributes, intCxt.objects, ⟨some 2, [[true, true], [false, true]]⟩⟩ : Ctx PName PName).complementaryAny
    PName.asStr .str = .error .typeError := by decide +kernel

example : uwriteCxtAny PName.asStr PName.asStr
    (⟨intCxt.attributes, intCxt.objects, ⟨some 2, [[true, true], [false, true]]⟩⟩ : Ctx PName PName) =
    ("B\n\n2\n2\n\na\nb\n".toList, some .typeError) := by decide +kernel

/-- An evaluation as required by `C127_cxt_integers` for this context. -/
example : ∃ ev : ℕ → List Char → Eval PName, (∀ k n, ev k (intText n) = .value (.int n)) ∧
    ∀ s, .str s ∈ intCxt.objects ++ intCxt.attributes →
      '\n' ∉ s ∧ '\r' ∉ s ∧ pyStrip s = s ∧ ∀ k, ev k s = .unknown := by
  classical
  have hinj : ∀ a b : ℤ, intText a = intText b → a = b := by
    intro a b h
    unfold intText at h
    have hd : ∀ n : ℕ, '-' ∉ Nat.toDigits 10 n := fun n hm => by
      have := natStr_digits (n := n) hm
      exact absurd this (by decide)
    by_cases ha : a < 0 <;> by_cases hb : b < 0
    · rw [if_pos ha, if_pos hb, List.append_cancel_left_eq] at h
      have := Csv.natStr_inj h
      omega
    · rw [if_pos ha, if_neg hb] at h
      exact absurd (by rw [List.nil_append] at h; rw [← h]; simp : '-' ∈ Nat.toDigits 10 b.natAbs) (hd _)
    · rw [if_neg ha, if_pos hb] at h
      exact absurd (by rw [List.nil_append] at h; rw [h]; simp : '-' ∈ Nat.toDigits 10 a.natAbs) (hd _)
    · rw [if_neg ha, if_neg hb, List.append_cancel_left_eq] at h
      have := Csv.natStr_inj h
      omega
  refine ⟨fun _ s => if hs : ∃ n, intText n = s then .value (.int hs.choose) else .unknown, fun k n => ?_, ?_⟩
  · have hs : ∃ m, intText m = intText n := ⟨n, rfl⟩
    simp only [dif_pos hs]
    rw [hinj _ _ hs.choose_spec]
  · intro s hs
    have : s = ['a'] ∨ s = ['b'] := by
      simpa [intCxt] using hs
    rcases this with rfl | rfl
    · refine ⟨by decide, by decide, by decide, fun k => dif_neg ?_⟩
      rintro ⟨n, hn⟩
      rcases intText_no (n := n) (c := 'a') (by rw [hn]; simp) with h | h <;> exact absurd h (by decide)
    · refine ⟨by decide, by decide, by decide, fun k => dif_neg ?_⟩
      rintro ⟨n, hn⟩
      rcases intText_no (n := n) (c := 'b') (by rw [hn]; simp) with h | h <;> exact absurd h (by decide)

/-- `write_dot` of the lattice of this context stops inside the label of the first object concept; `uwrite_dot` writes
numbers. -/
example : ∃ (E : SortEnv PName PName) (cs : List (Concept PName PName)), norris intCxt = .ok cs ∧ cs.Nodup ∧
    (∀ ordc, (writeDotAny E PName.asStr PName.asStr ordc ['x'] cs).2 = some .typeError) ∧
    (∀ ordc dist, (uwriteDotAny E PName.asStr PName.asStr ordc dist ['x'] cs false).2 = none) := by
  let E : SortEnv PName PName := ⟨Sorter.insertion, SetOrder.any _, SetOrder.any _, PName.text, PName.text⟩
  obtain ⟨cs, h1, h2, h3⟩ := C34_norris intCxt_wf
  obtain ⟨y, hy, -, -, h4, -⟩ := C68_objects E.ordO intCxt_wf h1 (o := .int 1) (by decide)
  have hlat : makeLatticeSorted E intCxt ≠ .error .typeError := by
    rw [Ne, (Ctx.C126_lattice E intCxt_wf).2.1]
    rintro (⟨o, o', m, ho, ho', hk⟩ | ⟨o, m, m', hm, hm', hk⟩)
    · have a1 := (Ctx.Inc.mem ho).1
      have a2 := (Ctx.Inc.mem ho').1
      simp only [intCxt, List.mem_cons, List.not_mem_nil, or_false] at a1 a2
      rcases a1 with rfl | rfl <;> rcases a2 with rfl | rfl <;> exact hk rfl
    · have a1 := (Ctx.Inc.mem hm).2
      have a2 := (Ctx.Inc.mem hm').2
      simp only [intCxt, List.mem_cons, List.not_mem_nil, or_false] at a1 a2
      rcases a1 with rfl | rfl <;> rcases a2 with rfl | rfl <;> exact hk rfl
  have hhash : ¬ ∃ x ∈ cs, conceptText E x = .error .typeError := by
    rintro ⟨x, hx, he⟩
    apply hlat
    unfold makeLatticeSorted
    rw [h1, py_ok_bind, mapM_err (fun x _ => conceptText_total E x) ⟨x, hx, he⟩]
    rfl
  refine ⟨E, cs, h1, h2, fun ordc => ?_, fun ordc dist => ?_⟩
  · rw [(C127_write_dot E _ _ ordc (by simp) h2).1]
    have hoy := (h4 y hy).2 rfl
    refine .inr ⟨y, hy, .inl ⟨?_, .int 1, hoy, rfl⟩⟩
    have hle : (ownObjects E.ordO cs y).length ≤ intCxt.objects.toFinset.card := by
      have hnd : (ownObjects E.ordO cs y).Nodup := (E.ordO.nodup _).filter _
      rw [← List.toFinset_card_of_nodup hnd]
      refine Finset.card_le_card fun x hx => ?_
      rw [List.mem_toFinset] at hx ⊢
      exact (C68_only_names E.ordO E.ordA intCxt_wf h1 hy).1 x hx
    have h2' : intCxt.objects.toFinset.card = 2 := by decide +kernel
    omega
  · refine (C127_uwrite_dot E _ _ ordc dist (by simp) h2 false).2 ?_
    rw [Ne, (C127_uwrite_dot E _ _ ordc dist (by simp) h2 false).1]
    rintro (h | ⟨_, -, ⟨h, -⟩ | ⟨h, -⟩⟩)
    · exact hhash h
    · cases h
    · cases h

/-- Hypotheses of `C127_scaling` with an integer attribute: TypeError. -/
example : scaleMvAny PName.asStr .str scaleWitHolds (["g".toList] : List (List Char)) [.str ['x'], .int 3] [[7, 1]]
    [⟨[0, 1], [.str ['a']], ⟨some 1, [[true], [false]]⟩⟩, ⟨[0, 1], [.str ['a']], ⟨some 1, [[true], [false]]⟩⟩] =
    (.error .typeError : Py (Ctx (List Char) PName)) := by decide +kernel

example : (scaleMvAny PName.asStr .str scaleWitHolds (["g".toList] : List (List Char)) [.str ['x'], .int 3] [[7, 1]]
    [⟨[0, 1], [.str ['a']], ⟨some 1, [[true], [false]]⟩⟩, ⟨[0, 1], [], ⟨some 0, [[], []]⟩⟩]).map (fun c => c.attributes) =
    .ok [.str "x:a".toList] := by decide +kernel
