/-
Property C66, exactly: what `read_cxt` makes of a file written by `write_cxt` (fca/readwrite/cxt.py).
-/
import Verif.Props.CsvFiles
import Verif.Props.CsvReader

set_option linter.unusedSectionVars false

variable {ν : Type} [DecidableEq ν] [PyVal ν]

/-- What is read for the names `l`, numbered from `k`. -/
def namesBack (ev : ℕ → List Char → Eval ν) (k : ℕ) (l : List ν) : Py (List ν) :=
  (l.zipIdx k).mapM fun p => readName (ev p.2 (pyStrip (PyVal.str p.1))) (pyStrip (PyVal.str p.1))

theorem readNames_back {ev : ℕ → List Char → Eval ν} {rest : List Char} (l : List ν) (k : ℕ)
    (h : ∀ x ∈ l, '\n' ∉ PyVal.str x) :
    readNames ev l.length k (l.flatMap (fun x => PyVal.str x ++ ['\n']) ++ rest) =
      (do let xs ← namesBack ev k l
          .ok (xs, rest)) := by
  induction l generalizing k with
  | nil => rfl
  | cons x l ih =>
    have he : (x :: l).flatMap (fun x => PyVal.str x ++ ['\n']) ++ rest =
        PyVal.str x ++ '\n' :: (l.flatMap (fun x => PyVal.str x ++ ['\n']) ++ rest) := by simp
    simp only [List.length_cons, readNames, he, readline_append (h x (by simp)), strip_snoc_nl]
    rw [ih (k + 1) fun y hy => h y (by simp [hy])]
    unfold namesBack
    rw [List.zipIdx_cons, List.mapM_cons]
    cases readName (ev k (pyStrip (PyVal.str x))) (pyStrip (PyVal.str x)) with
    | error e => rfl
    | ok y =>
      rw [py_ok_bind, py_ok_bind]
      cases (l.zipIdx (k + 1)).mapM fun p => readName (ev p.2 (pyStrip (PyVal.str p.1))) (pyStrip (PyVal.str p.1)) with
      | error e => rfl
      | ok ys => rfl

theorem namesBack_eq {ev : ℕ → List Char → Eval ν} {l : List ν} {k : ℕ} :
    namesBack ev k l = .ok l ↔ ∀ (i : ℕ) (x : ν), l[i]? = some x →
      readName (ev (k + i) (pyStrip (PyVal.str x))) (pyStrip (PyVal.str x)) = .ok x := by
  induction l generalizing k with
  | nil => exact ⟨fun _ i x h => by simp at h, fun _ => rfl⟩
  | cons x l ih =>
    have hun : namesBack ev k (x :: l) = (do
        let y ← readName (ev k (pyStrip (PyVal.str x))) (pyStrip (PyVal.str x))
        let ys ← namesBack ev (k + 1) l
        .ok (y :: ys)) := by
      unfold namesBack
      rw [List.zipIdx_cons, List.mapM_cons]
      rfl
    rw [hun]
    constructor
    · intro h
      cases hy : readName (ev k (pyStrip (PyVal.str x))) (pyStrip (PyVal.str x)) with
      | error e => rw [hy] at h; cases h
      | ok y =>
        rw [hy, py_ok_bind] at h
        cases hys : namesBack ev (k + 1) l with
        | error e => rw [hys] at h; cases h
        | ok ys =>
          rw [hys, py_ok_bind] at h
          injection h with h
          injection h with h1 h2
          subst h1 h2
          intro i z hz
          cases i with
          | zero =>
            simp only [List.getElem?_cons_zero, Option.some.injEq] at hz
            subst hz
            exact hy
          | succ i =>
            have := ih.1 hys i z (by simpa using hz)
            rwa [show k + 1 + i = k + (i + 1) by omega] at this
    · intro h
      have h0 := h 0 x rfl
      rw [Nat.add_zero] at h0
      rw [h0, py_ok_bind, ih.2, py_ok_bind]
      intro i z hz
      have := h (i + 1) z (by simpa using hz)
      rwa [show k + (i + 1) = k + 1 + i by omega] at this

/-- For names without line breaks, whatever they evaluate to: `read_cxt` of the file written by `write_cxt` is
`Context(table, objects, attributes)` with the same table and the values that are read for the names. -/
theorem C66_exact (ev : ℕ → List Char → Eval ν) (c : Ctx ν ν) (h : c.WFw)
    (hn : ∀ x ∈ c.objects ++ c.attributes, '\n' ∉ PyVal.str x ∧ '\r' ∉ PyVal.str x) :
    ∃ file, writeCxt c = .ok file ∧ readCxt ev file = (do
      let objs ← namesBack ev 0 c.objects
      let atts ← namesBack ev c.objects.length c.attributes
      Ctx.make c.nd.rows objs atts) := by
  refine ⟨_, writeCxt_eq h, ?_⟩
  rw [cxt_read h (fun x hx => (hn x (by simp [hx])).2) (fun x hx => (hn x (by simp [hx])).2) (writeCxt_eq h),
    readNames_back c.objects 0 fun x hx => (hn x (by simp [hx])).1]
  cases namesBack ev 0 c.objects with
  | error e => rfl
  | ok objs =>
    simp only [py_ok_bind]
    rw [readNames_back c.attributes c.objects.length fun x hx => (hn x (by simp [hx])).1]
    cases namesBack ev c.objects.length c.attributes with
    | error e => rfl
    | ok atts =>
      simp only [py_ok_bind]
      rw [← h.nrows, readRows_ok]

/-- If the values read are distinct: the same context is read exactly if every name is read back. -/
theorem C66_iff (ev : ℕ → List Char → Eval ν) (c : Ctx ν ν) (h : c.WFw)
    (hn : ∀ x ∈ c.objects ++ c.attributes, '\n' ∉ PyVal.str x ∧ '\r' ∉ PyVal.str x)
    (hdo : ∀ l, namesBack ev 0 c.objects = .ok l → l.Nodup)
    (hda : ∀ l, namesBack ev c.objects.length c.attributes = .ok l → l.Nodup) :
    (∃ file d, writeCxt c = .ok file ∧ readCxt ev file = .ok d ∧ d.objects = c.objects ∧ d.attributes = c.attributes ∧
      d.nd.rows = c.nd.rows) ↔
    (∀ (i : ℕ) (x : ν), c.objects[i]? = some x →
      readName (ev i (pyStrip (PyVal.str x))) (pyStrip (PyVal.str x)) = .ok x) ∧
    ∀ (j : ℕ) (x : ν), c.attributes[j]? = some x →
      readName (ev (c.objects.length + j) (pyStrip (PyVal.str x))) (pyStrip (PyVal.str x)) = .ok x := by
  have key : (∀ (i : ℕ) (x : ν), c.objects[i]? = some x →
      readName (ev i (pyStrip (PyVal.str x))) (pyStrip (PyVal.str x)) = .ok x) ↔ namesBack ev 0 c.objects = .ok c.objects := by
    rw [namesBack_eq]
    simp only [Nat.zero_add]
  rw [key, ← namesBack_eq]
  obtain ⟨file, hf, hr⟩ := C66_exact ev c h hn
  constructor
  · rintro ⟨file', d, hf', hd, h1, h2, -⟩
    rw [hf] at hf'
    obtain rfl : file = file' := by injection hf'
    rw [hr] at hd
    cases ho : namesBack ev 0 c.objects with
    | error e => rw [ho] at hd; cases hd
    | ok objs =>
      rw [ho, py_ok_bind] at hd
      cases ha : namesBack ev c.objects.length c.attributes with
      | error e => rw [ha] at hd; cases hd
      | ok atts =>
        rw [ha, py_ok_bind] at hd
        rcases Ctx.make_cases c.nd.rows objs atts with ⟨-, -, e⟩ | ⟨-, e⟩
        · rw [e, renameAll_nodup (hdo _ ho), renameAll_nodup (hda _ ha)] at hd
          injection hd with hd
          subst hd
          exact ⟨by rw [← h1], by rw [← h2]⟩
        · rw [e] at hd; cases hd
  · rintro ⟨ho, ha⟩
    obtain ⟨file', d, hf', hd⟩ := C66_round_trip_partial ev c h
      (fun i x hx => ⟨(hn x (by simp [List.mem_of_getElem? hx])).1, (hn x (by simp [List.mem_of_getElem? hx])).2,
        key.2 ho i x hx⟩)
      (fun j x hx => ⟨(hn x (by simp [List.mem_of_getElem? hx])).1, (hn x (by simp [List.mem_of_getElem? hx])).2,
        namesBack_eq.1 ha j x hx⟩)
    exact ⟨file', d, hf', hd⟩

/-! ### Strings that do not evaluate -/

/-- No line breaks, no blanks at the ends. -/
def CleanName (x : List Char) : Prop := '\n' ∉ x ∧ '\r' ∉ x ∧ Spec.Padded pySpace x x

theorem padded_self {x : List Char} : Spec.Padded pySpace x x ↔
    (∀ c, x.head? = some c → pySpace c = false) ∧ ∀ c, x.getLast? = some c → pySpace c = false := by
  constructor
  · rintro ⟨l, r, -, -, -, h1, h2⟩; exact ⟨h1, h2⟩
  · rintro ⟨h1, h2⟩; exact ⟨[], [], by simp, by simp, by simp, h1, h2⟩

theorem readline_line (f : List Char) :
    ∃ l, '\n' ∉ l ∧ ((readline f).1 = l ∨ (readline f).1 = l ++ ['\n']) ∧ f = (readline f).1 ++ (readline f).2 := by
  induction f with
  | nil => exact ⟨[], by simp, .inl rfl, rfl⟩
  | cons c f ih =>
    by_cases hc : c = '\n'
    · subst hc
      exact ⟨[], by simp, .inr (by simp [readline]), by simp [readline]⟩
    · obtain ⟨l, h1, h2, h3⟩ := ih
      refine ⟨c :: l, by simp [Ne.symm hc, h1], ?_, ?_⟩
      · simp only [readline, if_neg hc]
        rcases h2 with h2 | h2 <;> simp [h2]
      · simp only [readline, if_neg hc, List.cons_append, ← h3]

theorem cleanName_line {f : List Char} (h : '\r' ∉ f) : CleanName (pyStrip (readline f).1) ∧ '\r' ∉ (readline f).2 := by
  obtain ⟨l, h1, h2, h3⟩ := readline_line f
  have hl : pyStrip (readline f).1 = pyStrip l := by
    rcases h2 with h2 | h2
    · rw [h2]
    · rw [h2, strip_snoc_nl]
  have hsub : ∀ c ∈ l, c ∈ f := by
    intro c hc
    rw [h3, List.mem_append]
    left
    rcases h2 with h2 | h2 <;> simp [h2, hc]
  obtain ⟨a, b, e, -, -, k1, k2⟩ := Csv.padded_iff.2 (rfl : pyStrip l = pyStrip l)
  have hin : ∀ c ∈ pyStrip l, c ∈ l := by
    intro c hc
    rw [e]
    simp [hc]
  rw [hl]
  refine ⟨⟨fun hc => h1 (hin _ hc), fun hc => h (hsub _ (hin _ hc)), padded_self.2 ⟨k1, k2⟩⟩, fun hc => h ?_⟩
  rw [h3]
  simp [hc]

theorem natStr_no {i : ℕ} {c : Char} (h : c.isDigit = false) : c ∉ natStr i := fun hc => by
  have := natStr_digits hc
  simp [h] at this

theorem cleanName_suffix {x : List Char} (h : CleanName x) (i : ℕ) : CleanName (PyName.suffix x i) := by
  obtain ⟨h1, h2, h3⟩ := h
  have hs : (PyName.suffix x i : List Char) = x ++ '_' :: natStr i := rfl
  obtain ⟨k1, k2⟩ := padded_self.1 h3
  rw [hs]
  refine ⟨by simp [h1, natStr_no (c := '\n') (i := i) (by decide)], by simp [h2, natStr_no (c := '\r') (i := i) (by decide)], padded_self.2 ⟨fun c hc => ?_, fun c hc => ?_⟩⟩
  · cases x with
    | nil =>
      simp only [List.nil_append, List.head?_cons, Option.some.injEq] at hc
      subst hc
      decide
    | cons y x =>
      simp only [List.cons_append, List.head?_cons, Option.some.injEq] at hc
      exact k1 c (by simp [hc])
  · have hne : natStr i ≠ [] := Nat.toDigits_ne_nil
    rw [List.getLast?_append, List.getLast?_cons] at hc
    rw [List.getLast?_eq_some_getLast hne] at hc
    simp only [Option.getD_some, Option.some_or, Option.some.injEq] at hc
    exact digit_not_space (natStr_digits (hc ▸ List.getLast_mem hne))

theorem readNames_clean {ev : ℕ → List Char → Eval (List Char)} (hev : ∀ k s, ev k s = .unknown) :
    ∀ (n k : ℕ) (f : List Char), '\r' ∉ f → ∃ l g, readNames ev n k f = .ok (l, g) ∧ (∀ x ∈ l, CleanName x) ∧ '\r' ∉ g := by
  intro n
  induction n with
  | zero => intro k f h; exact ⟨[], f, rfl, by simp, h⟩
  | succ n ih =>
    intro k f h
    obtain ⟨h1, h2⟩ := cleanName_line h
    obtain ⟨l, g, e, hl, hg⟩ := ih (k + 1) (readline f).2 h2
    refine ⟨pyStrip (readline f).1 :: l, g, ?_, ?_, hg⟩
    · simp only [readNames, hev, readName, py_ok_bind, e]
      rfl
    · intro x hx
      rcases List.mem_cons.1 hx with rfl | hx
      · exact h1
      · exact hl x hx

theorem renameAll_clean {l : List (List Char)} (h : ∀ x ∈ l, CleanName x) : ∀ x ∈ renameAll l, CleanName x := by
  intro x hx
  obtain ⟨i, hi, rfl⟩ := List.mem_iff_getElem.1 hx
  rw [renameAll_length] at hi
  obtain ⟨n, hn⟩ := renameAll_get l i l[i] (by simp [hi])
  rw [List.getElem?_eq_getElem (by rw [renameAll_length]; exact hi), Option.some.injEq] at hn
  rw [hn]
  have : ∀ n, CleanName ((fun y => PyName.suffix y i)^[n] l[i]) := by
    intro n
    induction n with
    | zero => exact h _ (List.getElem_mem _)
    | succ n ih =>
      rw [Function.iterate_succ_apply']
      exact cleanName_suffix ih i
  exact this n

/-- Whatever the file: if no name evaluates, the names that are read have neither line breaks nor blanks at their ends. -/
theorem C66_clean {ev : ℕ → List Char → Eval (List Char)} (hev : ∀ k s, ev k s = .unknown) {file : List Char}
    {d : Ctx (List Char) (List Char)} (h : readCxt ev file = .ok d) : ∀ x ∈ d.objects ++ d.attributes, CleanName x := by
  unfold readCxt at h
  cases hh : readHead file with
  | error e => rw [hh] at h; cases h
  | ok q =>
    obtain ⟨n, m, f⟩ := q
    have hf : '\r' ∉ f := by
      have hnl : ∀ g : List Char, '\r' ∉ g → '\r' ∉ (readline g).2 := fun g hg => (cleanName_line hg).2
      unfold readHead at hh
      dsimp only at hh
      split at hh
      · cases hh
      · revert hh
        generalize hA : pyInt _ = A
        cases A with
        | error e => intro hh; cases hh
        | ok n' =>
          rw [py_ok_bind]
          generalize hB : pyInt _ = B
          cases B with
          | error e => intro hh; cases hh
          | ok m' =>
            rw [py_ok_bind]
            intro hh
            injection hh with hh
            injection hh with _ hh
            injection hh with _ hh
            subst hh
            exact hnl _ (hnl _ (hnl _ (hnl _ (hnl _ (CsvReader.no_cr_nlTranslate file)))))
    rw [hh, py_ok_bind] at h
    dsimp only at h
    obtain ⟨os, g, e1, c1, hg⟩ := readNames_clean hev n 0 f hf
    rw [e1, py_ok_bind] at h
    dsimp only at h
    obtain ⟨as, g', e2, c2, -⟩ := readNames_clean hev m n g hg
    rw [e2, py_ok_bind] at h
    dsimp only at h
    rcases Ctx.make_cases (readRows n g') os as with ⟨-, -, e⟩ | ⟨-, e⟩
    · rw [e] at h
      injection h with h
      subst h
      intro x hx
      rcases List.mem_append.1 hx with hx | hx
      · exact renameAll_clean c1 x hx
      · exact renameAll_clean c2 x hx
    · rw [e] at h; cases h

/-- Strings that do not evaluate: the context is read back exactly if no name has a line break or a blank at one of its
ends. -/
theorem C66_strings {ev : ℕ → List Char → Eval (List Char)} (hev : ∀ k s, ev k s = .unknown)
    (c : Ctx (List Char) (List Char)) (h : c.WFw) :
    (∃ file d, writeCxt c = .ok file ∧ readCxt ev file = .ok d ∧ d.objects = c.objects ∧ d.attributes = c.attributes ∧
      d.nd.rows = c.nd.rows) ↔ ∀ x ∈ c.objects ++ c.attributes, CleanName x := by
  constructor
  · rintro ⟨file, d, -, hd, h1, h2, -⟩
    rw [← h1, ← h2]
    exact C66_clean hev hd
  · intro hc
    have key : ∀ k, ∀ x ∈ c.objects ++ c.attributes, CxtName ev k x := by
      intro k x hx
      obtain ⟨h1, h2, h3⟩ := hc x hx
      refine ⟨h1, h2, ?_⟩
      rw [hev]
      show (Except.ok (pyStrip x) : Py (List Char)) = .ok x
      rw [Csv.padded_iff.1 h3]
    exact C66_round_trip_partial ev c h (fun i x hx => key _ x (by simp [List.mem_of_getElem? hx]))
      (fun j x hx => key _ x (by simp [List.mem_of_getElem? hx]))

/-! ### Concrete cases -/

/-- The objects `1` and `01` (both strings), the attribute `a`: the first is read as a number, the second (a SyntaxError)
is read back. -/
example : (∀ l, namesBack (fun _ => evalAtom) 0 [PyAtom.str ['1'], .str ['0', '1']] = .ok l → l.Nodup) ∧
    namesBack (fun _ => evalAtom) 2 [PyAtom.str ['a']] = .ok [.str ['a']] := by
  refine ⟨fun l h => ?_, by decide +kernel⟩
  have : namesBack (fun _ => evalAtom) 0 [PyAtom.str ['1'], .str ['0', '1']] = .ok [.int 1, .str ['0', '1']] := by
    decide +kernel
  rw [this] at h
  cases h
  decide

/-- Hypotheses of `C66_strings`: a name with a blank inside, one with a line break, one with a blank at its end. -/
example : CleanName "Obj 1".toList ∧ ¬ CleanName "a\nb".toList ∧ ¬ CleanName "a ".toList := by
  refine ⟨⟨by decide, by decide, padded_self.2 ⟨?_, ?_⟩⟩, fun h => absurd h.1 (by decide), fun h => ?_⟩
  · intro c hc
    simp at hc
    subst hc
    decide
  · intro c hc
    simp at hc
    subst hc
    decide
  · have := (padded_self.1 h.2.2).2 ' ' (by simp)
    exact absurd this (by decide)
