/-
Properties of reading and writing: C66 - C69, C78, C79.
-/
import Verif.Model.ReadWrite
import Verif.SpecText
import Verif.Lemmas.ContextOps
import Verif.Props.Lattice
import Mathlib.Data.List.TakeWhile

set_option linter.unusedSectionVars false

open Ctx Spec

/-! ### Text -/

theorem nlTranslate_id {l : List Char} (h : '\r' ∉ l) : nlTranslate l = l := by
  induction l with
  | nil => rfl
  | cons c l ih =>
    have hc : c ≠ '\r' := fun e => h (by simp [e])
    have hl := ih fun e => h (by simp [e])
    cases l with
    | nil => simp [nlTranslate, hc]
    | cons d l => simp [nlTranslate, hc, hl]

theorem readline_append {s rest : List Char} (h : '\n' ∉ s) :
    readline (s ++ '\n' :: rest) = (s ++ ['\n'], rest) := by
  induction s with
  | nil => simp [readline]
  | cons c s ih =>
    have hc : c ≠ '\n' := fun e => h (by simp [e])
    have := ih fun e => h (by simp [e])
    simp [readline, hc, this]

theorem strip_snoc_nl (s : List Char) : pyStrip (s ++ ['\n']) = pyStrip s := by
  have hsp : pySpace '\n' = true := by decide
  unfold pyStrip
  congr 1
  by_cases h : ∀ c ∈ s, pySpace c = true
  · have h1 : s.dropWhile pySpace = [] := by
      rw [List.dropWhile_eq_nil_iff]; exact h
    have h2 : (s ++ ['\n']).dropWhile pySpace = [] := by
      rw [List.dropWhile_eq_nil_iff]
      intro c hc
      rcases List.mem_append.1 hc with hc | hc
      · exact h c hc
      · simp at hc; rw [hc]; exact hsp
    rw [h1, h2]
  · have h1 : s.dropWhile pySpace ≠ [] := by
      rw [Ne, List.dropWhile_eq_nil_iff]; exact h
    rw [List.dropWhile_append, if_neg (by simpa using h1)]
    simp [hsp]

theorem strip_id {s : List Char} (h : ∀ c ∈ s, pySpace c = false) : pyStrip s = s := by
  unfold pyStrip
  have key : ∀ l : List Char, (∀ c ∈ l, pySpace c = false) → l.dropWhile pySpace = l := by
    intro l hl
    cases l with
    | nil => rfl
    | cons c l => rw [List.dropWhile_cons, hl c (by simp)]; rfl
  rw [key s h, key s.reverse (by simpa using h), List.reverse_reverse]

theorem digit_not_space {c : Char} (h : c.isDigit) : pySpace c = false := by
  have h1 : 48 ≤ c.toNat ∧ c.toNat ≤ 57 := by
    simp only [Char.isDigit, Bool.and_eq_true, decide_eq_true_eq] at h
    exact ⟨h.1, h.2⟩
  unfold pySpace
  simp only [Bool.or_eq_false_iff, Bool.and_eq_false_iff, decide_eq_false_iff_not, beq_eq_false_iff_ne]
  omega

theorem natStr_digits {n : ℕ} {c : Char} (h : c ∈ natStr n) : c.isDigit :=
  Nat.isDigit_of_mem_toDigits (by decide) (by decide) h

theorem natStr_safe {n : ℕ} : '\n' ∉ natStr n ∧ '\r' ∉ natStr n :=
  ⟨fun h => absurd (natStr_digits h) (by decide), fun h => absurd (natStr_digits h) (by decide)⟩

theorem strip_natStr (n : ℕ) : pyStrip (natStr n ++ ['\n']) = natStr n := by
  rw [strip_snoc_nl, strip_id fun c hc => digit_not_space (natStr_digits hc)]

theorem splitOn1_of_not_mem {sep : Char} {s : List Char} (h : sep ∉ s) : splitOn1 sep s = [s] := by
  induction s with
  | nil => simp [splitOn1]
  | cons c s ih =>
    have hc : c ≠ sep := fun e => h (by simp [e])
    simp only [splitOn1, if_neg hc, ih fun e => h (by simp [e])]

theorem pyInt_natStr (n : ℕ) : pyInt (natStr n) = .ok n := by
  have hd : ∀ c, c.isDigit = false → c ∉ natStr n := fun c hc h => by rw [natStr_digits h] at hc; simp at hc
  have hg : digitGroups (natStr n) = true := by
    unfold digitGroups
    rw [splitOn1_of_not_mem (hd '_' (by decide))]
    simp only [List.all_cons, List.all_nil, Bool.and_true, Bool.and_eq_true, Bool.not_eq_true', List.isEmpty_eq_false_iff]
    exact ⟨Nat.toDigits_ne_nil, List.all_eq_true.2 fun c hc => natStr_digits hc⟩
  have hf : (natStr n).filter (· ≠ '_') = natStr n := by
    rw [List.filter_eq_self]
    intro c hc
    simp only [decide_eq_true_eq]
    exact fun e => hd '_' (by decide) (e ▸ hc)
  unfold pyInt
  split
  · rename_i d he; exact absurd (by rw [he]; simp) (hd '-' (by decide))
  · rename_i d he; exact absurd (by rw [he]; simp) (hd '+' (by decide))
  · rw [if_pos hg, hf, natStr, Nat.ofDigitChars_ten_toDigits]

/-! ### C66 -/

section cxt

variable {ν : Type} [DecidableEq ν] [PyVal ν]

theorem readNames_ok {ev : ℕ → List Char → Eval ν} {rest : List Char} (l : List ν) (k : ℕ)
    (h : ∀ (i : ℕ) (x : ν), l[i]? = some x → '\n' ∉ PyVal.str x ∧
      readName (ev (k + i) (pyStrip (PyVal.str x))) (pyStrip (PyVal.str x)) = .ok x) :
    readNames ev l.length k (l.flatMap (fun x => PyVal.str x ++ ['\n']) ++ rest) = .ok (l, rest) := by
  induction l generalizing k with
  | nil => rfl
  | cons x l ih =>
    obtain ⟨h1, h2⟩ := h 0 x rfl
    have he : (x :: l).flatMap (fun x => PyVal.str x ++ ['\n']) ++ rest =
        PyVal.str x ++ '\n' :: (l.flatMap (fun x => PyVal.str x ++ ['\n']) ++ rest) := by simp
    simp only [List.length_cons, readNames, he, readline_append h1, strip_snoc_nl]
    rw [Nat.add_zero] at h2
    rw [h2, py_ok_bind, ih (k + 1)]
    · rfl
    · intro i y hy
      have := h (i + 1) y (by simpa using hy)
      rw [show k + 1 + i = k + (i + 1) by omega]
      exact this

theorem readRows_ok (rows : List (List Bool)) :
    readRows rows.length (rows.map fun r => (r.map fun b => if b then 'X' else '.') ++ ['\n']).flatten = rows := by
  induction rows with
  | nil => rfl
  | cons r rows ih =>
    have hns : ∀ c ∈ (r.map fun b => if b then 'X' else '.'), c = 'X' ∨ c = '.' := by
      intro c hc
      obtain ⟨b, -, rfl⟩ := List.mem_map.1 hc
      cases b <;> simp
    have h1 : '\n' ∉ (r.map fun b => if b then 'X' else '.') := by
      intro hc
      rcases hns _ hc with h | h <;> exact absurd h (by decide)
    have h2 : pyStrip (r.map fun b => if b then 'X' else '.') = r.map fun b => if b then 'X' else '.' := by
      apply strip_id
      intro c hc
      rcases hns c hc with rfl | rfl <;> decide
    have he : ((r :: rows).map fun r => (r.map fun b => if b then 'X' else '.') ++ ['\n']).flatten =
        (r.map fun b => if b then 'X' else '.') ++ '\n' ::
          (rows.map fun r => (r.map fun b => if b then 'X' else '.') ++ ['\n']).flatten := by simp
    rw [List.length_cons, readRows, he, readline_append h1, strip_snoc_nl, h2, ih]
    congr 1
    rw [List.map_map]
    conv_rhs => rw [← List.map_id r]
    apply List.map_congr_left
    intro b _
    cases b <;> simp

theorem readHead_ok {n m : ℕ} {rest : List Char} (h : '\r' ∉ rest) :
    readHead ('B' :: '\n' :: '\n' :: (natStr n ++ '\n' :: (natStr m ++ '\n' :: '\n' :: rest))) = .ok (n, m, rest) := by
  have hr : '\r' ∉ ('B' :: '\n' :: '\n' :: (natStr n ++ '\n' :: (natStr m ++ '\n' :: '\n' :: rest))) := by
    simp [natStr_safe.2, h]
  have hB : readline ('B' :: '\n' :: '\n' :: (natStr n ++ '\n' :: (natStr m ++ '\n' :: '\n' :: rest))) =
      (['B', '\n'], '\n' :: (natStr n ++ '\n' :: (natStr m ++ '\n' :: '\n' :: rest))) := by
    simp [readline]
  have he : ∀ l, readline ('\n' :: l) = (['\n'], l) := by intro l; simp [readline]
  have hs : pyStrip ['B', '\n'] = ['B'] := by decide
  unfold readHead
  simp only [nlTranslate_id hr, hB, hs, ne_eq, not_true_eq_false, if_false, he,
    readline_append natStr_safe.1, strip_natStr, pyInt_natStr, py_ok_bind]

theorem writeCxt_eq {c : Ctx ν ν} (h : c.WFw) :
    writeCxt c = .ok ('B' :: '\n' :: '\n' :: (natStr c.objects.length ++ '\n' :: (natStr c.attributes.length ++
      '\n' :: '\n' :: (c.objects.flatMap (fun x => PyVal.str x ++ ['\n']) ++
      (c.attributes.flatMap (fun x => PyVal.str x ++ ['\n']) ++
      (c.nd.rows.map fun r => (r.map fun b => if b then 'X' else '.') ++ ['\n']).flatten))))) := by
  unfold writeCxt
  have : ((List.range c.objects.length).mapM fun i => do
      let r ← pyGet c.nd.rows i
      .ok ((r.map fun b => if b then 'X' else '.') ++ ['\n'])) =
      (.ok (c.nd.rows.map fun r => (r.map fun b => if b then 'X' else '.') ++ ['\n']) : Py (List (List Char))) := by
    rw [mapM_ok (g := fun i => ((c.nd.rows.getD i []).map fun b => if b then 'X' else '.') ++ ['\n'])]
    · congr 1
      rw [← h.nrows]
      apply List.ext_getElem
      · simp
      · intro i h1 h2
        have : i < c.nd.rows.length := by simpa using h1
        simp [List.getElem?_eq_getElem this]
    · intro i hi
      have hi' : i < c.nd.rows.length := by rw [h.nrows]; simpa using hi
      rw [pyGet_ok (List.getElem?_eq_getElem hi'), py_ok_bind]
      simp [List.getElem?_eq_getElem hi']
  rw [this, py_ok_bind]

/-- A name that is read back: no line breaks, and evaluating the stripped text gives the name (or NameError or
SyntaxError, and the stripped text is the name). -/
def CxtName (ev : ℕ → List Char → Eval ν) (k : ℕ) (x : ν) : Prop :=
  '\n' ∉ PyVal.str x ∧ '\r' ∉ PyVal.str x ∧
    readName (ev k (pyStrip (PyVal.str x))) (pyStrip (PyVal.str x)) = .ok x

/-- The part of a `.cxt` file after the head has no carriage return. -/
theorem cxt_no_cr {c : Ctx ν ν} (hno : ∀ x ∈ c.objects, '\r' ∉ PyVal.str x) (hna : ∀ x ∈ c.attributes, '\r' ∉ PyVal.str x) :
    '\r' ∉ c.objects.flatMap (fun x => PyVal.str x ++ ['\n']) ++
      (c.attributes.flatMap (fun x => PyVal.str x ++ ['\n']) ++
      (c.nd.rows.map fun r => (r.map fun b => if b then 'X' else '.') ++ ['\n']).flatten) := by
  intro hc
  rcases List.mem_append.1 hc with hc | hc
  · obtain ⟨x, hx, hc⟩ := List.mem_flatMap.1 hc
    rcases List.mem_append.1 hc with hc | hc
    · exact hno x hx hc
    · simp at hc
  · rcases List.mem_append.1 hc with hc | hc
    · obtain ⟨x, hx, hc⟩ := List.mem_flatMap.1 hc
      rcases List.mem_append.1 hc with hc | hc
      · exact hna x hx hc
      · simp at hc
    · obtain ⟨l, hl, hc⟩ := List.mem_flatten.1 hc
      obtain ⟨r, -, rfl⟩ := List.mem_map.1 hl
      rcases List.mem_append.1 hc with hc | hc
      · obtain ⟨b, -, hb⟩ := List.mem_map.1 hc
        cases b <;> simp at hb
      · simp at hc

theorem cxt_read {ev : ℕ → List Char → Eval ν} {c : Ctx ν ν} (h : c.WFw)
    (hno : ∀ x ∈ c.objects, '\r' ∉ PyVal.str x) (hna : ∀ x ∈ c.attributes, '\r' ∉ PyVal.str x)
    {file : List Char} (hf : writeCxt c = .ok file) :
    readCxt ev file = (do
      let (objs, f) ← readNames ev c.objects.length 0 (c.objects.flatMap (fun x => PyVal.str x ++ ['\n']) ++
        (c.attributes.flatMap (fun x => PyVal.str x ++ ['\n']) ++
        (c.nd.rows.map fun r => (r.map fun b => if b then 'X' else '.') ++ ['\n']).flatten))
      let (atts, f) ← readNames ev c.attributes.length c.objects.length f
      Ctx.make (readRows c.objects.length f) objs atts) := by
  rw [writeCxt_eq h] at hf
  cases hf
  unfold readCxt
  rw [readHead_ok]
  · rfl
  · exact cxt_no_cr hno hna

/-- `read_cxt` after `write_cxt` gives the same objects, attributes and table, if every name is read back. Missing from
C66: names for which `eval` of their text gives something else or raises something else (false, see below). -/
theorem C66_round_trip_partial (ev : ℕ → List Char → Eval ν) (c : Ctx ν ν) (h : c.WFw)
    (ho : ∀ (i : ℕ) (x : ν), c.objects[i]? = some x → CxtName ev i x)
    (ha : ∀ (j : ℕ) (x : ν), c.attributes[j]? = some x → CxtName ev (c.objects.length + j) x) :
    ∃ file d, writeCxt c = .ok file ∧ readCxt ev file = .ok d ∧ d.objects = c.objects ∧ d.attributes = c.attributes ∧
      d.nd.rows = c.nd.rows := by
  have hno : ∀ x ∈ c.objects, '\r' ∉ PyVal.str x := by
    intro x hx
    obtain ⟨i, hi⟩ := List.getElem?_of_mem hx
    exact (ho i x hi).2.1
  have hna : ∀ x ∈ c.attributes, '\r' ∉ PyVal.str x := by
    intro x hx
    obtain ⟨i, hi⟩ := List.getElem?_of_mem hx
    exact (ha i x hi).2.1
  refine ⟨_, ⟨c.objects, c.attributes, ⟨if c.nd.rows = [] then none else some c.attributes.length, c.nd.rows⟩⟩,
    writeCxt_eq h, ?_, rfl, rfl, rfl⟩
  rw [cxt_read h hno hna (writeCxt_eq h), readNames_ok c.objects 0, py_ok_bind]
  · dsimp only
    rw [readNames_ok c.attributes c.objects.length, py_ok_bind]
    · dsimp only
      rw [← h.nrows, readRows_ok, make_ok h.nrows h.width, renameAll_nodup h.onodup, renameAll_nodup h.anodup]
    · intro i x hx
      exact ⟨(ha i x hx).1, (ha i x hx).2.2⟩
  · intro i x hx
    rw [Nat.zero_add]
    exact ⟨(ho i x hx).1, (ho i x hx).2.2⟩

/-- If the evaluation of an object's name raises something else than NameError and SyntaxError, so does `read_cxt`
(here: the first object). -/
theorem C66_eval_raises_violated (ev : ℕ → List Char → Eval ν) (c : Ctx ν ν) (h : c.WFw) (x : ν) (e : PyErr)
    (hx : c.objects.head? = some x) (hn : ∀ x ∈ c.objects ++ c.attributes, '\n' ∉ PyVal.str x ∧ '\r' ∉ PyVal.str x)
    (he : ev 0 (pyStrip (PyVal.str x)) = .raises e) :
    ∃ file, writeCxt c = .ok file ∧ readCxt ev file = .error e := by
  refine ⟨_, writeCxt_eq h, ?_⟩
  rw [cxt_read h (fun x hx => (hn x (by simp [hx])).2) (fun x hx => (hn x (by simp [hx])).2) (writeCxt_eq h)]
  cases hobj : c.objects with
  | nil => rw [hobj] at hx; simp at hx
  | cons y l =>
    rw [hobj] at hx
    simp at hx
    subst hx
    have hy := hn y (by simp [hobj])
    have hfl : ∀ rest, (y :: l).flatMap (fun x => PyVal.str x ++ ['\n']) ++ rest =
        PyVal.str y ++ '\n' :: (l.flatMap (fun x => PyVal.str x ++ ['\n']) ++ rest) := by intro rest; simp
    simp only [hfl, List.length_cons, readNames, readline_append hy.1, strip_snoc_nl, he, readName]
    rfl

end cxt

/-- Names: integers and strings. -/
inductive PyAtom
  | int (k : ℕ)
  | str (s : List Char)
  deriving DecidableEq

/-- `str` of integers and strings. -/
instance : PyVal PyAtom where
  suffix x i := .str ((match x with | .int k => natStr k | .str s => s) ++ '_' :: natStr i)
  str x := match x with | .int k => natStr k | .str s => s
  ofStr := .str

/-- A part of `eval`: decimal literals without leading zeros are integers; other texts considered here are unknown names
or no expressions. -/
def evalAtom (s : List Char) : Eval PyAtom :=
  if s ≠ [] ∧ s.all Char.isDigit ∧ (s.head? ≠ some '0' ∨ s = ['0']) then .value (.int (Nat.ofDigitChars 10 s 0))
  else .unknown

/-- Hypotheses of the theorem: a context with string names (with a blank inside) and an integer name. -/
example : ∃ c : Ctx PyAtom PyAtom, c.WFw ∧
    (∀ (i : ℕ) (x : PyAtom), c.objects[i]? = some x → CxtName (fun _ => evalAtom) i x) ∧
    (∀ (j : ℕ) (x : PyAtom), c.attributes[j]? = some x → CxtName (fun _ => evalAtom) (c.objects.length + j) x) ∧
    c.objects = [.str "Obj 1".toList, .int 7] := by
  refine ⟨⟨[.str "Obj 1".toList, .int 7], [.str "a".toList], ⟨some 1, [[true], [false]]⟩⟩,
    by constructor <;> decide +kernel, ?_, ?_, rfl⟩
  · intro i x hx
    match i, hx with
    | 0, hx => cases hx; exact ⟨by decide +kernel, by decide +kernel, by decide +kernel⟩
    | 1, hx => cases hx; exact ⟨by decide +kernel, by decide +kernel, by decide +kernel⟩
    | n + 2, hx => simp at hx
  · intro i x hx
    match i, hx with
    | 0, hx => cases hx; exact ⟨by decide +kernel, by decide +kernel, by decide +kernel⟩
    | n + 1, hx => simp at hx

/-- A string that looks like a number is read as a number. -/
theorem C66_numeric_name_violated :
    ∃ (c d : Ctx PyAtom PyAtom) (file : List Char), c.WFw ∧ writeCxt c = .ok file ∧
      readCxt (fun _ => evalAtom) file = .ok d ∧ c.objects = [.str ['1']] ∧ d.objects = [.int 1] := by
  exact ⟨⟨[.str ['1']], [.str ['a']], ⟨some 1, [[true]]⟩⟩, ⟨[.int 1], [.str ['a']], ⟨some 1, [[true]]⟩⟩,
    "B\n\n1\n1\n\n1\na\nX\n".toList, by constructor <;> decide +kernel, by decide +kernel, by decide +kernel, rfl, rfl⟩

/-! ### C78 -/

/-- `uread_cxt` raises TypeError for every file written by `uwrite_cxt` from a context with at least one name. -/
theorem C78_uread_violated (c : Ctx (List Char) (List Char)) (h : c.WFw) (hne : c.objects ≠ [] ∨ c.attributes ≠ [])
    (hn : ∀ x ∈ c.objects ++ c.attributes, '\n' ∉ x ∧ '\r' ∉ x) :
    ∃ file, uwriteCxt c = .ok file ∧ ureadCxt file = .error .typeError := by
  let _ : PyVal (List Char) := { (inferInstance : PyName (List Char)) with str := id, ofStr := id }
  have hw := writeCxt_eq (ν := List Char) h
  refine ⟨_, hw, ?_⟩
  unfold ureadCxt
  rw [readHead_ok]
  · rw [py_ok_bind]
    dsimp only
    rcases hne with hne | hne
    · rw [if_pos (List.length_pos_iff.2 hne)]
    · split_ifs with h1 h2
      · rfl
      · rfl
      · exact absurd (List.length_pos_iff.2 hne) h2
  · exact cxt_no_cr (ν := List Char) (fun x hx => (hn x (by simp [hx])).2) (fun x hx => (hn x (by simp [hx])).2)

example : ∃ c : Ctx (List Char) (List Char), c.WFw ∧ c.objects ≠ [] ∧
    ∀ x ∈ c.objects ++ c.attributes, '\n' ∉ x ∧ '\r' ∉ x :=
  ⟨⟨["g".toList], ["a".toList], ⟨some 1, [[true]]⟩⟩, by constructor <;> decide +kernel, by decide, by decide +kernel⟩

/-! ### C67 -/

theorem splitOn1_ne_nil (sep : Char) (s : List Char) : splitOn1 sep s ≠ [] := by
  induction s with
  | nil => simp [splitOn1]
  | cons c s ih =>
    simp only [splitOn1]
    split
    · simp
    · split <;> simp

theorem splitOn1_append {sep : Char} {s rest : List Char} (h : sep ∉ s) :
    splitOn1 sep (s ++ sep :: rest) = s :: splitOn1 sep rest := by
  induction s with
  | nil => simp [splitOn1]
  | cons c s ih =>
    have hc : c ≠ sep := fun e => h (by simp [e])
    have := ih fun e => h (by simp [e])
    simp [splitOn1, hc, this]

theorem splitOn1_single {sep : Char} {s : List Char} (h : sep ∉ s) : splitOn1 sep s = [s] := by
  induction s with
  | nil => simp [splitOn1]
  | cons c s ih =>
    have hc : c ≠ sep := fun e => h (by simp [e])
    have := ih fun e => h (by simp [e])
    simp [splitOn1, hc, this]

theorem splitOn1_tabbed (x : List Char) (l : List (List Char)) (h : ∀ y ∈ x :: l, '\t' ∉ y) :
    splitOn1 '\t' (tabbed (x :: l)) = x :: l := by
  induction l generalizing x with
  | nil => simp only [tabbed, List.flatMap_nil, List.append_nil]; exact splitOn1_single (h x (by simp))
  | cons y l ih =>
    have he : tabbed (x :: y :: l) = x ++ '\t' :: tabbed (y :: l) := by simp [tabbed]
    rw [he, splitOn1_append (h x (by simp)), ih y fun z hz => h z (by simp [List.mem_cons.1 hz])]

theorem fileLines_append {s rest : List Char} (h : '\n' ∉ s) : fileLines (s ++ '\n' :: rest) = s :: fileLines rest := by
  induction s with
  | nil => simp [fileLines]
  | cons c s ih =>
    have hc : c ≠ '\n' := fun e => h (by simp [e])
    have := ih fun e => h (by simp [e])
    simp [fileLines, hc, this]

theorem fileLines_flatMap {γ : Type} (f : γ → List Char) (l : List γ) (h : ∀ x ∈ l, '\n' ∉ f x) :
    fileLines (l.flatMap fun x => f x ++ ['\n']) = l.map f := by
  induction l with
  | nil => rfl
  | cons x l ih =>
    have he : (x :: l).flatMap (fun x => f x ++ ['\n']) = f x ++ '\n' :: l.flatMap fun x => f x ++ ['\n'] := by simp
    rw [he, fileLines_append (h x (by simp)), ih fun y hy => h y (by simp [hy])]
    rfl

/-- Fields that survive: no tabs, line breaks and quotation marks. -/
def TabSafe (s : List Char) : Prop := '\t' ∉ s ∧ '\n' ∉ s ∧ '\r' ∉ s ∧ '"' ∉ s

theorem not_mem_tabbed {c : Char} (hc : c ≠ '\t') {l : List (List Char)} (h : ∀ x ∈ l, c ∉ x) : c ∉ tabbed l := by
  cases l with
  | nil => simp [tabbed]
  | cons x l =>
    simp only [tabbed, List.mem_append, List.mem_flatMap, List.mem_cons, not_or, not_exists, not_and]
    exact ⟨h x (by simp), fun y hy => ⟨hc, h y (by simp [hy])⟩⟩

theorem cells_safe {c : Char} (hc : c ≠ '0' ∧ c ≠ '1') (r : List Bool) :
    ∀ x ∈ r.map (fun b => if b then ['1'] else ['0']), c ∉ x := by
  intro x hx
  obtain ⟨b, -, rfl⟩ := List.mem_map.1 hx
  cases b <;> simp [hc.1, hc.2]

theorem filterMap_cells (r : List Bool) : (r.map fun b => if b then ['1'] else ['0']).filterMap txtCell = r := by
  induction r with
  | nil => rfl
  | cons b r ih =>
    rw [List.map_cons, List.filterMap_cons]
    have : txtCell (if b then ['1'] else ['0']) = some b := by cases b <;> decide
    rw [this]
    simp [ih]

theorem txtRow_tabbed {o : List Char} {r : List Bool} (ho : '\t' ∉ o) (hne : o ≠ [] ∨ r ≠ []) :
    txtRow (tabbed (o :: r.map fun b => if b then ['1'] else ['0'])) = .ok (o, (txtCell o).toList ++ r) := by
  have hs : splitOn1 '\t' (tabbed (o :: r.map fun b => if b then ['1'] else ['0'])) =
      o :: r.map fun b => if b then ['1'] else ['0'] := by
    apply splitOn1_tabbed
    intro y hy
    rcases List.mem_cons.1 hy with rfl | hy
    · exact ho
    · exact cells_safe (by decide) r y hy
  have hne' : tabbed (o :: r.map fun b => if b then ['1'] else ['0']) ≠ [] := by
    cases o with
    | cons c o => simp [tabbed]
    | nil =>
      cases r with
      | nil => simp at hne
      | cons b r => simp [tabbed]
  unfold txtRow csvRecord
  rw [if_neg hne', hs]
  simp only [List.filterMap_cons, filterMap_cells]
  cases txtCell o <;> rfl

section txt

variable (atts : List (List Char)) (table : List (List Char × List Bool))

/-- Files in the documented format: safe names, attributes without blanks around them, rectangular. -/
structure TabOk : Prop where
  one : table ≠ []
  att : ∀ a ∈ atts, TabSafe a ∧ pyStrip a = a ∧ a ≠ []
  obj : ∀ p ∈ table, TabSafe p.1 ∧ p.1 ≠ []
  width : ∀ p ∈ table, p.2.length = atts.length

variable {atts table}

theorem readTxt_eq {p : List Char × List Bool} {t : List (List Char × List Bool)} (h : TabOk atts table)
    (ht : table = p :: t) :
    readTxtWithNames (tabFile atts table) =
      Ctx.make (table.map fun p => (txtCell p.1).toList ++ p.2) (table.map Prod.fst)
        (if (txtCell p.1).isSome then (splitOn1 '\t' (tabbed atts ++ ['\n'])).dropLast else atts) := by
  have hcr : '\r' ∉ tabFile atts table := by
    unfold tabFile
    simp only [List.mem_append, List.mem_cons, List.mem_flatMap, not_or, not_exists, not_and]
    refine ⟨not_mem_tabbed (by decide) fun a ha => (h.att a ha).1.2.2.1, by decide, by decide, ?_⟩
    intro p hp
    refine ⟨not_mem_tabbed (by decide) ?_, by decide, by simp⟩
    intro x hx
    rcases List.mem_cons.1 hx with rfl | hx
    · exact (h.obj p hp).1.2.2.1
    · exact cells_safe (by decide) p.2 x hx
  have hnl : '\n' ∉ tabbed atts := not_mem_tabbed (by decide) fun a ha => (h.att a ha).1.2.1
  have hlines : fileLines (tabFile atts table) = tabbed atts :: [] ::
      table.map fun p => tabbed (p.1 :: p.2.map fun b => if b then ['1'] else ['0']) := by
    unfold tabFile
    rw [fileLines_append hnl]
    show _ :: fileLines ([] ++ '\n' :: _) = _
    rw [fileLines_append (by simp), fileLines_flatMap]
    intro p hp
    refine not_mem_tabbed (by decide) ?_
    intro x hx
    rcases List.mem_cons.1 hx with rfl | hx
    · exact (h.obj p hp).1.2.1
    · exact cells_safe (by decide) p.2 x hx
  have hatts : (csvRecord (tabbed atts)).map pyStrip = atts := by
    cases hatts : atts with
    | nil => rfl
    | cons a l =>
      have ha := h.att a (by simp [hatts])
      have hne : tabbed (a :: l) ≠ [] := by
        simp [tabbed, ha.2.2]
      unfold csvRecord
      rw [if_neg hne, splitOn1_tabbed]
      · rw [← hatts]
        conv_rhs => rw [← List.map_id atts]
        exact List.map_congr_left fun x hx => (h.att x hx).2.1
      · intro y hy
        exact (h.att y (by rw [hatts]; exact hy)).1.1
  have hdata : (table.map fun p => tabbed (p.1 :: p.2.map fun b => if b then ['1'] else ['0'])).mapM txtRow =
      .ok (table.map fun p => (p.1, (txtCell p.1).toList ++ p.2)) := by
    rw [List.mapM_map, mapM_ok]
    intro p hp
    exact txtRow_tabbed (h.obj p hp).1.1 (.inl (h.obj p hp).2)
  have hread : readline (tabFile atts table) = (tabbed atts ++ ['\n'], '\n' :: table.flatMap fun p =>
      tabbed (p.1 :: p.2.map fun b => if b then ['1'] else ['0']) ++ ['\n']) := by
    unfold tabFile
    exact readline_append hnl
  unfold readTxtWithNames
  simp only [nlTranslate_id hcr, hlines, hatts, hdata, py_ok_bind, hread]
  have hw := h.width p (by simp [ht])
  rw [ht]
  simp only [List.map_cons, List.map_map, List.length_append, hw]
  have hif : (atts.length ≠ (txtCell p.1).toList.length + atts.length) = ((txtCell p.1).isSome = true) := by
    cases txtCell p.1 <;> simp
  simp only [hif]
  rfl

/-- A table in the documented format is read back, if no object is named `0` or `1`. -/
theorem C67_read_back_partial (h : TabOk atts table) (hn : ∀ p ∈ table, p.1 ≠ ['0'] ∧ p.1 ≠ ['1'])
    (ho : (table.map Prod.fst).Nodup) (ha : atts.Nodup) :
    readTxtWithNames (tabFile atts table) =
      .ok ⟨table.map Prod.fst, atts, ⟨some atts.length, table.map Prod.snd⟩⟩ := by
  have hcell : ∀ p ∈ table, txtCell p.1 = none := by
    intro p hp
    unfold txtCell
    rw [if_neg (hn p hp).1, if_neg (hn p hp).2]
  have h1 : (table.map fun p => (txtCell p.1).toList ++ p.2) = table.map Prod.snd :=
    List.map_congr_left fun p hp => by rw [hcell p hp]; rfl
  obtain ⟨p, t, ht⟩ := List.exists_cons_of_ne_nil h.one
  rw [readTxt_eq h ht, h1, hcell p (by simp [ht]), if_neg (by simp), make_ok (by simp), renameAll_nodup ho, renameAll_nodup ha]
  · rw [if_neg]
    simpa using h.one
  · intro r hr
    obtain ⟨p, hp, rfl⟩ := List.mem_map.1 hr
    exact h.width p hp

/-- If some object is named `0` or `1`, ValueError is raised. -/
theorem C67_object_named_zero_violated (h : TabOk atts table) (hn : ∃ p ∈ table, p.1 = ['0'] ∨ p.1 = ['1']) :
    readTxtWithNames (tabFile atts table) = .error .valueError := by
  obtain ⟨q, hq, hq'⟩ := hn
  have hcell : (txtCell q.1).toList.length = 1 := by
    rcases hq' with hq' | hq' <;> rw [hq'] <;> decide
  obtain ⟨p, t, ht⟩ := List.exists_cons_of_ne_nil h.one
  · rw [readTxt_eq h ht]
    have hw := h.width p (by simp [ht])
    apply make_err
    right
    by_cases hp : txtCell p.1 = none
    · rw [if_neg (by simp [hp])]
      refine ⟨(txtCell q.1).toList ++ q.2, List.mem_map.2 ⟨q, hq, rfl⟩, ?_⟩
      rw [List.length_append, hcell, h.width q hq]; omega
    · rw [if_pos (Option.isSome_iff_ne_none.2 hp)]
      refine ⟨(txtCell p.1).toList ++ p.2, by simp [ht], ?_⟩
      have hlen : (splitOn1 '\t' (tabbed atts ++ ['\n'])).dropLast.length ≤ atts.length := by
        rw [List.length_dropLast]
        cases hatts : atts with
        | nil => simp [tabbed, splitOn1]
        | cons a l =>
          have : tabbed (a :: l) ++ ['\n'] =
              tabbed ((a :: l).dropLast ++ [(a :: l).getLast (by simp) ++ ['\n']]) := by
            rcases List.eq_nil_or_concat l with rfl | ⟨l', y, rfl⟩
            · simp [tabbed]
            · simp [tabbed, List.dropLast_cons_of_ne_nil]
          rw [this]
          cases hd : (a :: l).dropLast ++ [(a :: l).getLast (by simp) ++ ['\n']] with
          | nil => simp at hd
          | cons x xs =>
            rw [splitOn1_tabbed]
            · have := congrArg List.length hd
              simp at this
              simp; omega
            · intro y hy
              rw [← hd] at hy
              rcases List.mem_append.1 hy with hy | hy
              · exact (h.att y (by rw [hatts]; exact List.mem_of_mem_dropLast hy)).1.1
              · simp only [List.mem_singleton] at hy
                rw [hy]
                have := (h.att ((a :: l).getLast (by simp)) (by rw [hatts]; exact List.getLast_mem _)).1.1
                intro hc
                rcases List.mem_append.1 hc with hc | hc
                · exact this hc
                · simp at hc
      have : (txtCell p.1).toList.length ≠ 0 := by cases hx : txtCell p.1 <;> simp_all
      rw [List.length_append, hw]; omega

end txt

example : TabOk ["big".toList, "red".toList] [("obj 1".toList, [true, false]), ("2".toList, [false, false])] := by
  refine ⟨by simp, ?_, ?_, ?_⟩ <;> simp [TabSafe]
  decide +kernel

example : readTxtWithNames "big\tred\n\nobj 1\t1\t0\n2\t0\t0\n".toList =
    .ok ⟨["obj 1".toList, "2".toList], ["big".toList, "red".toList], ⟨some 2, [[true, false], [false, false]]⟩⟩ := by
  decide +kernel

/-! ### C69 -/

section fimi

variable {α β : Type} [DecidableEq α] [DecidableEq β]

/-- `write_fimi` writes one line per object, in their order, with the names of the attributes of its intent, each once. -/
theorem C69_fimi (str : β → List Char) (ord : SetOrder β) (c : Ctx α β) (h : c.WFw) :
    ∃ (file : List Char) (ls : List (List β)), writeFimi str ord c = .ok file ∧
      file = tokenLines (ls.map fun l => l.map str) ∧ ls.length = c.objects.length ∧
      ∀ (i : ℕ) (o : α) (l : List β), c.objects[i]? = some o → ls[i]? = some l →
        l.Nodup ∧ ∀ a, a ∈ l ↔ a ∈ c.M ∧ c.Inc o a := by
  have hm : (c.objects.mapM fun o => do
      let intent ← c.objectIntent o
      (.ok ((ord.enum intent).flatMap (fun a => str a ++ [' ']) ++ ['\n']) : Py (List Char))) =
      .ok (c.objects.map fun o => (ord.enum (c.upF {o})).flatMap (fun a => str a ++ [' ']) ++ ['\n']) := by
    apply mapM_ok
    intro o ho
    rw [h.objectIntent ho]
    rfl
  refine ⟨_, c.objects.map fun o => ord.enum (c.upF {o}), ?_, rfl, by simp, ?_⟩
  · unfold writeFimi
    rw [hm, py_ok_bind]
    congr 1
    unfold tokenLines
    induction c.objects with
    | nil => rfl
    | cons o os ih => simp [ih, List.flatMap_map]
  · intro i o l ho hl
    rw [List.getElem?_map, ho] at hl
    simp only [Option.map_some, Option.some.injEq] at hl
    subst hl
    refine ⟨ord.nodup _, fun a => ?_⟩
    rw [ord.mem, h.mem_upF]
    simp [Ctx.M]

theorem splitOn1_tokens (l : List (List Char)) (h : ∀ t ∈ l, ' ' ∉ t) :
    splitOn1 ' ' (l.flatMap fun t => t ++ [' ']) = l ++ [[]] := by
  induction l with
  | nil => simp [splitOn1]
  | cons t l ih =>
    have he : (t :: l).flatMap (fun t => t ++ [' ']) = t ++ ' ' :: l.flatMap fun t => t ++ [' '] := by simp
    rw [he, splitOn1_append (h t (by simp)), ih fun y hy => h y (by simp [hy])]
    rfl

/-- Lines of tokens without blanks and line breaks are determined by the text. -/
theorem C69_unambiguous {ls ls' : List (List (List Char))} (h : ∀ l ∈ ls, ∀ t ∈ l, ' ' ∉ t ∧ '\n' ∉ t)
    (h' : ∀ l ∈ ls', ∀ t ∈ l, ' ' ∉ t ∧ '\n' ∉ t) (he : tokenLines ls = tokenLines ls') : ls = ls' := by
  have key : ∀ {ls : List (List (List Char))}, (∀ l ∈ ls, ∀ t ∈ l, ' ' ∉ t ∧ '\n' ∉ t) →
      (fileLines (tokenLines ls)).map (fun s => (splitOn1 ' ' s).dropLast) = ls := by
    intro ls h
    unfold tokenLines
    rw [fileLines_flatMap, List.map_map]
    · conv_rhs => rw [← List.map_id ls]
      refine List.map_congr_left fun l hl => ?_
      simp [splitOn1_tokens l fun t ht => (h l hl t ht).1]
    · intro l hl hc
      obtain ⟨t, ht, hc⟩ := List.mem_flatMap.1 hc
      rcases List.mem_append.1 hc with hc | hc
      · exact (h l hl t ht).2 hc
      · simp at hc
  rw [← key h, he, key h']

/-- So from the file of a context, whose names have no blanks and line breaks, the names in the intent of every object
can be read. -/
theorem C69_intents_determined (str : β → List Char) (ord ord' : SetOrder β) (c c' : Ctx α β) (h : c.WFw) (h' : c'.WFw)
    (hs : ∀ a, ' ' ∉ str a ∧ '\n' ∉ str a) (hinj : Function.Injective str)
    (he : writeFimi str ord c = writeFimi str ord' c') {i : ℕ} {o o' : α} (ho : c.objects[i]? = some o)
    (ho' : c'.objects[i]? = some o') (a : β) : a ∈ c.M ∧ c.Inc o a ↔ a ∈ c'.M ∧ c'.Inc o' a := by
  obtain ⟨f, ls, h1, h2, h3, h4⟩ := C69_fimi str ord c h
  obtain ⟨f', ls', h1', h2', h3', h4'⟩ := C69_fimi str ord' c' h'
  rw [h1, h1'] at he
  have hff : f = f' := by injection he
  rw [h2, h2'] at hff
  have hsafe : ∀ ls : List (List β), ∀ l ∈ ls.map (fun l => l.map str), ∀ t ∈ l, ' ' ∉ t ∧ '\n' ∉ t := by
    intro ls l hl t ht
    obtain ⟨l', -, rfl⟩ := List.mem_map.1 hl
    obtain ⟨a, -, rfl⟩ := List.mem_map.1 ht
    exact hs a
  have hll := C69_unambiguous (hsafe ls) (hsafe ls') hff
  have hls : ls = ls' := (List.map_injective_iff.2 (List.map_injective_iff.2 hinj)) hll
  subst hls
  obtain ⟨hi, -⟩ := List.getElem?_eq_some_iff.1 ho
  have hl : ls[i]? = some ls[i] := List.getElem?_eq_getElem (by omega)
  rw [← (h4 i o _ ho hl).2 a, ← (h4' i o' _ ho' hl).2 a]

example : writeFimi (fun a : Fin 3 => natStr a) (SetOrder.finRev 3)
    (⟨[0, 1], [0, 1, 2], ⟨some 3, [[true, false, true], [false, true, false]]⟩⟩ : Ctx (Fin 2) (Fin 3)) =
      .ok "2 0 \n1 \n".toList := by decide +kernel

example : (⟨[0, 1], [0, 1, 2], ⟨some 3, [[true, false, true], [false, true, false]]⟩⟩ : Ctx (Fin 2) (Fin 3)).WFw := by
  constructor <;> decide +kernel

example : tokenLines [["2".toList, "0".toList], ["1".toList]] = "2 0 \n1 \n".toList := by decide +kernel

end fimi

/-! ### C68 -/

section own

variable {γ δ ε : Type} [DecidableEq δ]

/-- All concepts of a relation, given by two maps. -/
structure AllConcepts (G : Finset δ) (M : Finset ε) (I : δ → ε → Prop) (cs : List γ) (ext : γ → Finset δ)
    (int : γ → Finset ε) : Prop where
  mem : ∀ x ∈ cs, IsConcept G M I (ext x) (int x)
  all : ∀ A B, IsConcept G M I A B → ∃ x ∈ cs, ext x = A ∧ int x = B
  inj : ∀ x ∈ cs, ∀ y ∈ cs, ext x = ext y → int x = int y → x = y

variable {G : Finset δ} {M : Finset ε} {I : δ → ε → Prop} {cs : List γ} {ext : γ → Finset δ} {int : γ → Finset ε}

theorem AllConcepts.swap (h : AllConcepts G M I cs ext int) : AllConcepts M G (fun m g => I g m) cs int ext :=
  ⟨fun x hx => ⟨(h.mem x hx).2, (h.mem x hx).1⟩, fun A B hAB => by
    obtain ⟨x, hx, h1, h2⟩ := h.all B A ⟨hAB.2, hAB.1⟩
    exact ⟨x, hx, h2, h1⟩, fun x hx y hy h1 h2 => h.inj x hx y hy h2 h1⟩

theorem AllConcepts.least (h : AllConcepts G M I cs ext int) {o : δ} (ho : o ∈ G) :
    ∃ y ∈ cs, o ∈ ext y ∧ ∀ z ∈ cs, o ∈ ext z → ext y ⊆ ext z := by
  classical
  obtain ⟨y, hy, h1, h2⟩ := h.all (G.filter fun g => ∀ m ∈ M, I o m → I g m) (M.filter fun m => I o m) (by
    refine ⟨fun m => ?_, fun g => ?_⟩
    · simp only [Finset.mem_filter]
      exact ⟨fun hm => ⟨hm.1, fun g hg => hg.2 m hm.1 hm.2⟩, fun hm => ⟨hm.1, hm.2 o ⟨ho, fun _ _ hx => hx⟩⟩⟩
    · simp only [Finset.mem_filter, and_imp])
  refine ⟨y, hy, by rw [h1]; simp [ho], fun z hz hoz g hg => ?_⟩
  rw [h1, Finset.mem_filter] at hg
  rw [(h.mem z hz).2 g]
  refine ⟨hg.1, fun m hm => ?_⟩
  have := ((h.mem z hz).1 m).1 hm
  exact hg.2 m this.1 (this.2 o hoz)

theorem AllConcepts.own (h : AllConcepts G M I cs ext int) {o : δ} (ho : o ∈ G) :
    ∃ y ∈ cs, o ∈ ext y ∧ (∀ z ∈ cs, o ∈ ext z → ext y ⊆ ext z) ∧
      ∀ con ∈ cs, (o ∈ ext con ∧ ∀ x ∈ cs, ext x ⊂ ext con → o ∉ ext x) ↔ con = y := by
  obtain ⟨y, hy, hoy, hle⟩ := h.least ho
  refine ⟨y, hy, hoy, hle, fun con hcon => ⟨fun ⟨ho', hmin⟩ => ?_, ?_⟩⟩
  · have he : ext con = ext y := by
      by_contra hne
      exact hmin y hy (Finset.ssubset_iff_subset_ne.2 ⟨hle con hcon ho', fun e => hne e.symm⟩) hoy
    refine h.inj con hcon y hy he ?_
    ext m
    rw [(h.mem con hcon).1 m, (h.mem y hy).1 m, he]
  · rintro rfl
    exact ⟨hoy, fun x hx hss hox => hss.2 (hle x hx hox)⟩

end own

section dot

variable {α β : Type} [DecidableEq α] [DecidableEq β]

theorem norris_all {c : Ctx α β} (h : c.WFw) {cs : List (Concept α β)} (hcs : norris c = .ok cs) :
    AllConcepts c.G c.M c.Inc cs Concept.extent Concept.intent := by
  obtain ⟨cs', h1, h2, h3⟩ := C34_norris h
  rw [hcs] at h1
  obtain rfl : cs = cs' := by injection h1
  refine ⟨fun x hx => (h3 x).1 hx, fun A B hAB => ⟨⟨A, B⟩, (h3 _).2 hAB, rfl, rfl⟩, ?_⟩
  rintro ⟨A, B⟩ - ⟨A', B'⟩ - rfl rfl
  rfl

/-- Every object is written at exactly one concept of the lattice, the one with the smallest extent having it. -/
theorem C68_objects (ord : SetOrder α) {c : Ctx α β} (h : c.WFw) {cs : List (Concept α β)} (hcs : norris c = .ok cs)
    {o : α} (ho : o ∈ c.objects) :
    ∃ y ∈ cs, o ∈ y.extent ∧ (∀ z ∈ cs, o ∈ z.extent → y.extent ⊆ z.extent) ∧
      (∀ con ∈ cs, o ∈ ownObjects ord cs con ↔ con = y) ∧ (ownObjects ord cs y).Nodup := by
  obtain ⟨y, hy, h1, h2, h3⟩ := (norris_all h hcs).own (List.mem_toFinset.2 ho)
  refine ⟨y, hy, h1, h2, fun con hcon => ?_, (ord.nodup _).filter _⟩
  rw [← h3 con hcon]
  unfold ownObjects
  rw [List.mem_filter, ord.mem]
  simp

/-- Every attribute is written at exactly one concept of the lattice, the one with the smallest intent having it. -/
theorem C68_attributes (ord : SetOrder β) {c : Ctx α β} (h : c.WFw) {cs : List (Concept α β)} (hcs : norris c = .ok cs)
    {a : β} (ha : a ∈ c.attributes) :
    ∃ y ∈ cs, a ∈ y.intent ∧ (∀ z ∈ cs, a ∈ z.intent → y.intent ⊆ z.intent ∧ z.extent ⊆ y.extent) ∧
      (∀ con ∈ cs, a ∈ ownAttributes ord cs con ↔ con = y) ∧ (ownAttributes ord cs y).Nodup := by
  have hall := norris_all h hcs
  obtain ⟨y, hy, h1, h2, h3⟩ := hall.swap.own (List.mem_toFinset.2 ha)
  refine ⟨y, hy, h1, fun z hz haz => ⟨h2 z hz haz, fun g hg => ?_⟩, fun con hcon => ?_, (ord.nodup _).filter _⟩
  · rw [(hall.mem y hy).2 g]
    have := ((hall.mem z hz).2 g).1 hg
    exact ⟨this.1, fun m hm => this.2 m (h2 z hz haz hm)⟩
  · rw [← h3 con hcon]
    unfold ownAttributes
    rw [List.mem_filter, ord.mem]
    simp

/-- No other names are written. -/
theorem C68_only_names (ordo : SetOrder α) (orda : SetOrder β) {c : Ctx α β} (h : c.WFw) {cs : List (Concept α β)}
    (hcs : norris c = .ok cs) {con : Concept α β} (hcon : con ∈ cs) :
    (∀ o ∈ ownObjects ordo cs con, o ∈ c.objects) ∧ ∀ a ∈ ownAttributes orda cs con, a ∈ c.attributes := by
  have hm := (norris_all h hcs).mem con hcon
  constructor
  · intro o ho
    unfold ownObjects at ho
    rw [List.mem_filter, ordo.mem] at ho
    exact List.mem_toFinset.1 ((hm.2 o).1 ho.1).1
  · intro a ha
    unfold ownAttributes at ha
    rw [List.mem_filter, orda.mem] at ha
    exact List.mem_toFinset.1 ((hm.1 a).1 ha.1).1

/-! ### C79 -/

/-- The edges of the diagram are the covering relation. -/
theorem C79_edges (ord : SetOrder (Concept α β)) {cs : List (Concept α β)} (hn : cs.Nodup) :
    ∃ es, dotEdges ord cs = .ok es ∧ es.Nodup ∧ ∀ k i, (k, i) ∈ es ↔
      ∃ p con, cs[k]? = some p ∧ cs[i]? = some con ∧ Covers Concept.intent cs p con := by
  obtain ⟨P, h1, h2, -⟩ := C36_covering cs
  have hrow : ∀ i ∈ List.range cs.length, ∃ l : List (ℕ × ℕ), (do
      let con ← pyGet cs i
      let ps ← dictGet P con
      (ord.enum ps).mapM fun p => do
        let k ← firstIdx cs p
        (.ok (k, i) : Py (ℕ × ℕ))) = .ok l ∧ l.Nodup ∧ ∀ k j, (k, j) ∈ l ↔ j = i ∧
          ∃ p con, cs[k]? = some p ∧ cs[i]? = some con ∧ Covers Concept.intent cs p con := by
    intro i hi
    have hi' := List.mem_range.1 hi
    have hg : cs[i]? = some cs[i] := List.getElem?_eq_getElem hi'
    obtain ⟨S, hS, hS'⟩ := h2 cs[i] (List.getElem_mem hi')
    rw [pyGet_ok hg, py_ok_bind, hS, py_ok_bind]
    have hm : ((ord.enum S).mapM fun p => do
        let k ← firstIdx cs p
        (.ok (k, i) : Py (ℕ × ℕ))) = .ok ((ord.enum S).map fun p => (cs.idxOf p, i)) := by
      apply mapM_ok
      intro p hp
      have hpc : p ∈ cs := ((hS' p).1 ((ord.mem _ _).1 hp)).1
      rw [firstIdx_eq hn (i := cs.idxOf p) (by rw [List.getElem?_eq_getElem (List.idxOf_lt_length_iff.2 hpc)]; simp)]
      rfl
    refine ⟨_, hm, ?_, fun k j => ?_⟩
    · refine List.Nodup.map_on ?_ (ord.nodup S)
      intro x hx y hy he
      have hxc : x ∈ cs := ((hS' x).1 ((ord.mem _ _).1 hx)).1
      simp only [Prod.mk.injEq, and_true] at he
      exact (List.idxOf_inj hxc).1 he
    · simp only [List.mem_map, ord.mem, Prod.mk.injEq]
      constructor
      · rintro ⟨p, hp, rfl, rfl⟩
        have hpc : p ∈ cs := ((hS' p).1 hp).1
        refine ⟨rfl, p, cs[i], ?_, hg, (hS' p).1 hp⟩
        rw [List.getElem?_eq_getElem (List.idxOf_lt_length_iff.2 hpc)]; simp
      · rintro ⟨rfl, p, con, hk, hc, hcov⟩
        rw [hg] at hc
        obtain rfl : cs[j] = con := by injection hc
        refine ⟨p, (hS' p).2 hcov, ?_, rfl⟩
        obtain ⟨hk', rfl⟩ := List.getElem?_eq_some_iff.1 hk
        exact hn.idxOf_getElem k hk'
  obtain ⟨ls, h3, h4⟩ := mapM_ok' hrow
  refine ⟨ls.flatten, ?_, ?_, ?_⟩
  · unfold dotEdges
    rw [h1, py_ok_bind, h3]
    rfl
  · rw [List.nodup_flatten]
    have hget : ∀ (i : ℕ) l, ls[i]? = some l → l.Nodup ∧ ∀ k j, (k, j) ∈ l → j = i := by
      intro i l hl
      have hlen := h4.length_eq
      obtain ⟨hi, rfl⟩ := List.getElem?_eq_some_iff.1 hl
      have := (List.forall₂_iff_get.1 h4).2 i (by omega) hi
      simp only [List.get_eq_getElem, List.getElem_range] at this
      exact ⟨this.1, fun k j hkj => ((this.2 k j).1 hkj).1⟩
    constructor
    · intro l hl
      obtain ⟨i, hi⟩ := List.mem_iff_getElem?.1 hl
      exact (hget i l hi).1
    · rw [List.pairwise_iff_getElem]
      intro i j hi hj hij
      rintro ⟨k, m⟩ hx hy
      have e1 := (hget i _ (List.getElem?_eq_getElem hi)).2 k m hx
      have e2 := (hget j _ (List.getElem?_eq_getElem hj)).2 k m hy
      omega
  · intro k i
    have hlen := h4.length_eq
    rw [List.mem_flatten]
    constructor
    · rintro ⟨l, hl, hki⟩
      obtain ⟨m, hm, rfl⟩ := List.getElem_of_mem hl
      have := (List.forall₂_iff_get.1 h4).2 m (by omega) hm
      simp only [List.get_eq_getElem, List.getElem_range] at this
      obtain ⟨rfl, h⟩ := (this.2 k i).1 hki
      exact h
    · rintro ⟨p, con, hk, hi, hcov⟩
      obtain ⟨hi', -⟩ := List.getElem?_eq_some_iff.1 hi
      rw [List.length_range] at hlen
      have := (List.forall₂_iff_get.1 h4).2 i (by simpa using hi') (by omega)
      simp only [List.get_eq_getElem, List.getElem_range] at this
      exact ⟨ls[i]'(by omega), List.getElem_mem _, (this.2 k i).2 ⟨rfl, p, con, hk, hi, hcov⟩⟩

end dot

/-- Two objects, two attributes, four concepts. -/
def cxtDot : Ctx (Fin 2) (Fin 2) := ⟨[0, 1], [0, 1], ⟨some 2, [[true, false], [false, true]]⟩⟩

theorem cxtDot_wf : cxtDot.WFw := by constructor <;> decide +kernel

def csDot : List (Concept (Fin 2) (Fin 2)) := [⟨∅, {0, 1}⟩, ⟨{0}, {0}⟩, ⟨{1}, {1}⟩, ⟨{0, 1}, ∅⟩]

example : ∃ cs, norris cxtDot = .ok cs ∧ cs.length = 4 ∧ ⟨{0}, {0}⟩ ∈ cs ∧
    ownObjects (SetOrder.fin 2) cs ⟨{0}, {0}⟩ = [0] ∧ ownObjects (SetOrder.fin 2) cs ⟨{0, 1}, ∅⟩ = [] := by
  refine ⟨csDot, ?_, ?_⟩ <;> decide +kernel

example : csDot.Nodup ∧ dotEdges (SetOrder.any _) csDot ≠ .ok [] := by
  refine ⟨by decide +kernel, fun h => ?_⟩
  obtain ⟨es, h1, -, h2⟩ := C79_edges (SetOrder.any _) (cs := csDot) (by decide +kernel)
  rw [h] at h1
  have he : es = [] := by injection h1 with h1; exact h1.symm
  have := (h2 3 1).2 ⟨⟨{0, 1}, ∅⟩, ⟨{0}, {0}⟩, by decide +kernel, by decide +kernel, by
    unfold Covers; decide +kernel⟩
  rw [he] at this
  simp at this
