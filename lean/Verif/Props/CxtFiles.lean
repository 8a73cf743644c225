/-
Reading `.cxt` files of any layout (fca/readwrite/cxt.py:6-92): C119.
-/
import Verif.Props.CsvReader
import Verif.Props.CsvFiles

set_option linter.unusedSectionVars false

open Ctx Spec

namespace Spec

/-- `t` is the text of a number; negative numbers count as 0. -/
def NumText (t : List Char) (n : ℕ) : Prop :=
  ∃ ps : List (List Char), ps ≠ [] ∧ (∀ p ∈ ps, p ≠ [] ∧ ∀ c ∈ p, '0' ≤ c ∧ c ≤ '9') ∧
    ((t = fieldLine '_' ps ∨ t = '+' :: fieldLine '_' ps) ∧
        n = ps.flatten.foldl (fun n c => 10 * n + (c.toNat - '0'.toNat)) 0 ∨
      t = '-' :: fieldLine '_' ps ∧ n = 0)

/-- The characters that `strip` removes. -/
def blankCodes : List ℕ :=
  [9, 10, 11, 12, 13, 28, 29, 30, 31, 32, 0x85, 0xA0, 0x1680, 0x2000, 0x2001, 0x2002, 0x2003, 0x2004, 0x2005, 0x2006, 0x2007,
    0x2008, 0x2009, 0x200A, 0x2028, 0x2029, 0x202F, 0x205F, 0x3000]

def Blank (c : Char) : Bool := decide (c.toNat ∈ blankCodes)

end Spec

theorem pySpace_eq : pySpace = Blank := by
  funext c
  rw [Bool.eq_iff_iff]
  simp only [pySpace, Blank, blankCodes, Bool.or_eq_true, Bool.and_eq_true, decide_eq_true_eq, beq_iff_eq, List.mem_cons,
    List.not_mem_nil, or_false]
  omega

theorem isDigit_iff (c : Char) : c.isDigit = true ↔ '0' ≤ c ∧ c ≤ '9' := by
  simp only [Char.isDigit, Bool.and_eq_true, decide_eq_true_eq]
  rfl

theorem fieldLine_splitOn1 (sep : Char) (t : List Char) : fieldLine sep (splitOn1 sep t) = t := by
  induction t with
  | nil => rfl
  | cons c t ih =>
    simp only [splitOn1]
    split
    · rename_i hc
      subst hc
      cases h : splitOn1 c t with
      | nil => cases t <;> simp [splitOn1] at h; split at h <;> [simp at h; (split at h <;> simp at h)]
      | cons x l =>
        rw [h] at ih
        simp only [fieldLine, List.flatMap_cons, List.nil_append, List.cons_append] at ih ⊢
        rw [ih]
    · cases h : splitOn1 sep t with
      | nil => cases t <;> simp [splitOn1] at h; split at h <;> [simp at h; (split at h <;> simp at h)]
      | cons x l =>
        rw [h] at ih
        simp only [fieldLine, List.cons_append] at ih ⊢
        rw [ih]

theorem splitOn1_nonempty (sep : Char) (t : List Char) : splitOn1 sep t ≠ [] := by
  cases t with
  | nil => simp [splitOn1]
  | cons c t =>
    simp only [splitOn1]
    split
    · simp
    · split <;> simp

theorem digitGroups_iff (t : List Char) : digitGroups t = true ↔
    ∃ ps : List (List Char), ps ≠ [] ∧ (∀ p ∈ ps, p ≠ [] ∧ ∀ c ∈ p, '0' ≤ c ∧ c ≤ '9') ∧ t = fieldLine '_' ps := by
  unfold digitGroups
  simp only [List.all_eq_true, Bool.and_eq_true, Bool.not_eq_true', List.isEmpty_eq_false_iff, isDigit_iff]
  constructor
  · exact fun h => ⟨_, splitOn1_nonempty _ _, h, (fieldLine_splitOn1 _ _).symm⟩
  · rintro ⟨ps, h0, h, rfl⟩
    cases ps with
    | nil => exact absurd rfl h0
    | cons x l =>
      rw [Csv.splitOn1_fieldLine]
      · exact h
      · intro y hy hu
        exact absurd ((h y hy).2 _ hu) (by decide)

theorem filter_fieldLine {ps : List (List Char)} (h : ∀ p ∈ ps, '_' ∉ p) :
    (fieldLine '_' ps).filter (· ≠ '_') = ps.flatten := by
  have hf : ∀ p ∈ ps, p.filter (· ≠ '_') = p := by
    intro p hp
    rw [List.filter_eq_self]
    intro c hc
    simp only [decide_eq_true_eq]
    exact fun e => h p hp (e ▸ hc)
  cases ps with
  | nil => rfl
  | cons x l =>
    rw [fieldLine, List.filter_append, hf x (by simp), List.flatten_cons]
    congr 1
    have hl : ∀ p ∈ l, p.filter (· ≠ '_') = p := fun p hp => hf p (by simp [hp])
    clear h hf
    induction l with
    | nil => rfl
    | cons y l ih =>
      rw [List.flatMap_cons, List.filter_append, ih fun p hp => hl p (by simp [hp]), List.filter_cons_of_neg (by simp),
        hl y (by simp), List.flatten_cons]

theorem ofDigitChars_eq (l : List Char) (k : ℕ) :
    Nat.ofDigitChars 10 l k = l.foldl (fun n c => 10 * n + (c.toNat - '0'.toNat)) k := by
  rw [Nat.ofDigitChars_eq_foldl]

/-- `int` accepts exactly the texts of numbers. -/
theorem pyInt_iff (t : List Char) : (∀ n, pyInt t = .ok n ↔ NumText t n) ∧
    (pyInt t = .error .valueError ↔ ¬ ∃ n, NumText t n) := by
  have hns : ∀ ps : List (List Char), (∀ p ∈ ps, p ≠ [] ∧ ∀ c ∈ p, '0' ≤ c ∧ c ≤ '9') → ∀ p ∈ ps, '_' ∉ p :=
    fun ps h p hp hu => absurd ((h p hp).2 _ hu) (by decide)
  have hhead : ∀ ps : List (List Char), ps ≠ [] → (∀ p ∈ ps, p ≠ [] ∧ ∀ c ∈ p, '0' ≤ c ∧ c ≤ '9') →
      ∃ c r, fieldLine '_' ps = c :: r ∧ '0' ≤ c ∧ c ≤ '9' := by
    intro ps h0 h
    match ps, h0 with
    | x :: l, _ =>
      obtain ⟨hx, hc⟩ := h x (by simp)
      match x, hx with
      | c :: x, _ => exact ⟨c, _, rfl, hc c (by simp)⟩
  have key : ∀ n, pyInt t = .ok n ↔ NumText t n := by
    intro n
    constructor
    · intro h
      unfold pyInt at h
      split at h
      · split at h
        · rename_i d hd
          obtain ⟨ps, h0, h1, rfl⟩ := (digitGroups_iff d).1 hd
          cases h
          exact ⟨ps, h0, h1, .inr ⟨rfl, rfl⟩⟩
        · cases h
      · split at h
        · rename_i d hd
          obtain ⟨ps, h0, h1, rfl⟩ := (digitGroups_iff d).1 hd
          cases h
          exact ⟨ps, h0, h1, .inl ⟨.inr rfl, by rw [filter_fieldLine (hns ps h1), ofDigitChars_eq]⟩⟩
        · cases h
      · split at h
        · rename_i hd
          obtain ⟨ps, h0, h1, rfl⟩ := (digitGroups_iff t).1 hd
          cases h
          exact ⟨ps, h0, h1, .inl ⟨.inl rfl, by rw [filter_fieldLine (hns ps h1), ofDigitChars_eq]⟩⟩
        · cases h
    · rintro ⟨ps, h0, h1, ⟨rfl | rfl, rfl⟩ | ⟨rfl, rfl⟩⟩
      · have hd := (digitGroups_iff _).2 ⟨ps, h0, h1, rfl⟩
        obtain ⟨c, r, he, hc⟩ := hhead ps h0 h1
        unfold pyInt
        split
        · rename_i d hh
          rw [he] at hh
          cases hh
          exact absurd hc (by decide)
        · rename_i d hh
          rw [he] at hh
          cases hh
          exact absurd hc (by decide)
        · rw [if_pos hd, filter_fieldLine (hns ps h1), ofDigitChars_eq]
      · have hd := (digitGroups_iff _).2 ⟨ps, h0, h1, rfl⟩
        simp only [pyInt]
        rw [if_pos hd, filter_fieldLine (hns ps h1), ofDigitChars_eq]
      · have hd := (digitGroups_iff _).2 ⟨ps, h0, h1, rfl⟩
        simp only [pyInt]
        rw [if_pos hd]
  refine ⟨key, ?_⟩
  have hex : (∃ n, pyInt t = .ok n) ∨ pyInt t = .error .valueError := by
    unfold pyInt
    split <;> split <;> simp
  constructor
  · rintro h ⟨n, hn⟩
    rw [(key n).2 hn] at h
    cases h
  · intro h
    rcases hex with ⟨n, hn⟩ | h'
    · exact absurd ⟨n, (key n).1 hn⟩ h
    · exact h'

/-! ### Line endings -/

theorem nlTranslate_no_nl {f : List Char} (h : '\n' ∉ f) :
    nlTranslate f = f.map fun c => if c = '\r' then '\n' else c := by
  induction f with
  | nil => rfl
  | cons c f ih =>
    have hf : '\n' ∉ f := fun e => h (by simp [e])
    rw [nlTranslate.eq_3, ih hf]
    · rfl
    · rintro l rfl rfl
      exact hf (by simp)

/-- `\r\n` and `\r` are read as line breaks. -/
theorem nlTranslate_eol {eol : List Char} (he : eol = ['\n'] ∨ eol = ['\r', '\n'] ∨ eol = ['\r']) {f : List Char}
    (h : '\r' ∉ f) : nlTranslate (f.flatMap fun c => if c = '\n' then eol else [c]) = f := by
  rcases he with rfl | rfl | rfl
  · have : (f.flatMap fun c => if c = '\n' then ['\n'] else [c]) = f := by
      conv_rhs => rw [← List.flatMap_singleton' f]
      congr 1
      funext c
      split <;> simp_all
    rw [this, nlTranslate_id h]
  · induction f with
    | nil => rfl
    | cons c f ih =>
      have hf : '\r' ∉ f := fun e => h (by simp [e])
      have hc : c ≠ '\r' := fun e => h (by simp [e])
      rw [List.flatMap_cons]
      by_cases hn : c = '\n'
      · subst hn
        simp [nlTranslate, ih hf]
      · rw [if_neg hn, List.singleton_append, nlTranslate.eq_3 _ _ (by rintro l rfl; exact absurd rfl hc), if_neg hc, ih hf]
  · rw [nlTranslate_no_nl, List.map_flatMap]
    · conv_rhs => rw [← List.flatMap_singleton' f]
      rw [List.flatMap_def, List.flatMap_def]
      congr 1
      refine List.map_congr_left fun c hc => ?_
      have : c ≠ '\r' := fun e => h (e ▸ hc)
      split <;> simp_all
    · simp only [List.mem_flatMap, not_exists, not_and]
      intro c _
      split
      · simp
      · rename_i hn
        simpa using Ne.symm hn

theorem readHead_nl (f : List Char) : readHead (nlTranslate f) = readHead f := by
  unfold readHead
  rw [nlTranslate_id (CsvReader.no_cr_nlTranslate f)]

section

variable {ν : Type} [DecidableEq ν] [PyVal ν]

/-- The kind of line breaks does not matter. -/
theorem C119_line_endings (ev : ℕ → List Char → Eval ν) {eol : List Char}
    (he : eol = ['\n'] ∨ eol = ['\r', '\n'] ∨ eol = ['\r']) {f : List Char} (h : '\r' ∉ f) :
    readCxt ev (f.flatMap fun c => if c = '\n' then eol else [c]) = readCxt ev f := by
  unfold readCxt
  rw [← readHead_nl (f.flatMap _), nlTranslate_eol he h]

/-! ### The end of the file -/

theorem readline_no_nl {f : List Char} (h : '\n' ∉ f) : readline f = (f, []) := by
  induction f with
  | nil => rfl
  | cons c f ih =>
    have hc : c ≠ '\n' := fun e => h (by simp [e])
    simp [readline, hc, ih fun e => h (by simp [e])]

/-- Equal up to a line break at the end. -/
def SameEnd (f g : List Char) : Prop := g = f ∨ g = f ++ ['\n']

theorem readline_sameEnd {f g : List Char} (h : SameEnd f g) :
    pyStrip (readline g).1 = pyStrip (readline f).1 ∧ SameEnd (readline f).2 (readline g).2 := by
  rcases h with rfl | rfl
  · exact ⟨rfl, .inl rfl⟩
  · by_cases hn : '\n' ∈ f
    · obtain ⟨a, b, rfl, ha⟩ := List.eq_append_cons_of_mem hn
      rw [readline_append ha, List.append_assoc, List.cons_append, readline_append ha]
      exact ⟨rfl, .inr rfl⟩
    · rw [readline_append hn, readline_no_nl hn]
      exact ⟨strip_snoc_nl f, .inl rfl⟩

theorem nlTranslate_sameEnd (f : List Char) : SameEnd (nlTranslate f) (nlTranslate (f ++ ['\n'])) := by
  induction f using nlTranslate.induct with
  | case1 => exact .inr rfl
  | case2 l ih =>
    simp only [List.cons_append, nlTranslate]
    rcases ih with h | h
    · exact .inl (by rw [h])
    · exact .inr (by rw [h]; rfl)
  | case3 c l hne ih =>
    rw [nlTranslate.eq_3 _ _ hne]
    by_cases hc : c = '\r' ∧ l = []
    · obtain ⟨rfl, rfl⟩ := hc
      exact .inl rfl
    · rw [List.cons_append, nlTranslate.eq_3]
      · rcases ih with h | h
        · exact .inl (by rw [h])
        · exact .inr (by rw [h]; rfl)
      · rintro r rfl hr
        cases l with
        | nil => exact hc ⟨rfl, rfl⟩
        | cons d l =>
          cases hr
          exact hne l rfl rfl

theorem readRows_sameEnd (n : ℕ) {f g : List Char} (h : SameEnd f g) : readRows n g = readRows n f := by
  induction n generalizing f g with
  | zero => rfl
  | succ n ih =>
    obtain ⟨h1, h2⟩ := readline_sameEnd h
    rw [readRows, readRows, h1, ih h2]

/-- Equal results, with equal rests up to a line break at the end. -/
def SameOut {γ : Type} (x y : Py (γ × List Char)) : Prop :=
  (∃ e, x = .error e ∧ y = .error e) ∨ ∃ a f g, x = .ok (a, f) ∧ y = .ok (a, g) ∧ SameEnd f g

theorem readNames_sameEnd (ev : ℕ → List Char → Eval ν) (n k : ℕ) {f g : List Char} (h : SameEnd f g) :
    SameOut (readNames ev n k f) (readNames ev n k g) := by
  induction n generalizing k f g with
  | zero => exact .inr ⟨_, _, _, rfl, rfl, h⟩
  | succ n ih =>
    obtain ⟨h1, h2⟩ := readline_sameEnd h
    simp only [readNames, h1]
    cases hx : readName (ev k (pyStrip (readline f).1)) (pyStrip (readline f).1) with
    | error e => exact .inl ⟨e, rfl, rfl⟩
    | ok x =>
      rw [py_ok_bind, py_ok_bind]
      rcases ih (k + 1) h2 with ⟨e, he, he'⟩ | ⟨a, f', g', he, he', hs⟩
      · rw [he, he']
        exact .inl ⟨e, rfl, rfl⟩
      · rw [he, he']
        exact .inr ⟨_, _, _, rfl, rfl, hs⟩

theorem readHead_sameEnd (f : List Char) :
    (∃ e, readHead f = .error e ∧ readHead (f ++ ['\n']) = .error e) ∨
      ∃ n m g g', readHead f = .ok (n, m, g) ∧ readHead (f ++ ['\n']) = .ok (n, m, g') ∧ SameEnd g g' := by
  obtain ⟨a1, b1⟩ := readline_sameEnd (nlTranslate_sameEnd f)
  obtain ⟨-, b2⟩ := readline_sameEnd b1
  obtain ⟨a3, b3⟩ := readline_sameEnd b2
  obtain ⟨a4, b4⟩ := readline_sameEnd b3
  obtain ⟨-, b5⟩ := readline_sameEnd b4
  unfold readHead
  simp only [a1, a3, a4]
  by_cases hB : pyStrip (readline (nlTranslate f)).1 = ['B']
  · rw [if_neg (not_not.2 hB), if_neg (not_not.2 hB)]
    cases hx : pyInt (pyStrip (readline (readline (readline (nlTranslate f)).2).2).1) with
    | error e => exact .inl ⟨e, rfl, rfl⟩
    | ok n =>
      rw [py_ok_bind, py_ok_bind]
      cases hy : pyInt (pyStrip (readline (readline (readline (readline (nlTranslate f)).2).2).2).1) with
      | error e => exact .inl ⟨e, rfl, rfl⟩
      | ok m => exact .inr ⟨n, m, _, _, rfl, rfl, b5⟩
  · rw [if_pos hB, if_pos hB]
    exact .inl ⟨_, rfl, rfl⟩

/-- A line break at the end of the file does not matter, whatever the file. -/
theorem C119_final_newline (ev : ℕ → List Char → Eval ν) (f : List Char) : readCxt ev (f ++ ['\n']) = readCxt ev f := by
  unfold readCxt
  rcases readHead_sameEnd f with ⟨e, h1, h2⟩ | ⟨n, m, g, g', h1, h2, hs⟩
  · rw [h1, h2]
  · rw [h1, h2, py_ok_bind, py_ok_bind]
    dsimp only
    rcases readNames_sameEnd ev n 0 hs with ⟨e, h1, h2⟩ | ⟨a, g, g', h1, h2, hs⟩
    · rw [h1, h2]
    · rw [h1, h2, py_ok_bind, py_ok_bind]
      dsimp only
      rcases readNames_sameEnd ev m n hs with ⟨e, h1, h2⟩ | ⟨b, g, g', h1, h2, hs⟩
      · rw [h1, h2]
      · rw [h1, h2, py_ok_bind, py_ok_bind]
        dsimp only
        rw [readRows_sameEnd n hs]

/-! ### Lines with blanks around them -/

theorem readNames_lines {ev : ℕ → List Char → Eval ν} {rest : List Char} (l : List (List Char × ν)) (k : ℕ)
    (h : ∀ (i : ℕ) raw x, l[i]? = some (raw, x) → '\n' ∉ raw ∧ readName (ev (k + i) (pyStrip raw)) (pyStrip raw) = .ok x) :
    readNames ev l.length k (l.flatMap (fun p => p.1 ++ ['\n']) ++ rest) = .ok (l.map Prod.snd, rest) := by
  induction l generalizing k with
  | nil => rfl
  | cons p l ih =>
    obtain ⟨raw, x⟩ := p
    obtain ⟨h1, h2⟩ := h 0 raw x rfl
    have he : ((raw, x) :: l).flatMap (fun p => p.1 ++ ['\n']) ++ rest =
        raw ++ '\n' :: (l.flatMap (fun p => p.1 ++ ['\n']) ++ rest) := by simp
    simp only [List.length_cons, readNames, he, readline_append h1, strip_snoc_nl]
    rw [Nat.add_zero] at h2
    rw [h2, py_ok_bind, ih (k + 1)]
    · rfl
    · intro i raw y hy
      have := h (i + 1) raw y (by simpa using hy)
      rw [show k + 1 + i = k + (i + 1) by omega]
      exact this

theorem readRows_lines {rest : List Char} (rows : List (List Char × List Char))
    (h : ∀ p ∈ rows, '\n' ∉ p.1 ∧ pyStrip p.1 = p.2) :
    readRows rows.length (rows.flatMap (fun p => p.1 ++ ['\n']) ++ rest) =
      rows.map fun p => p.2.map fun c => c == 'X' := by
  induction rows with
  | nil => rfl
  | cons p rows ih =>
    obtain ⟨h1, h2⟩ := h p (by simp)
    have he : (p :: rows).flatMap (fun p => p.1 ++ ['\n']) ++ rest =
        p.1 ++ '\n' :: (rows.flatMap (fun p => p.1 ++ ['\n']) ++ rest) := by simp
    rw [List.length_cons, readRows, he, readline_append h1, strip_snoc_nl, h2, ih fun q hq => h q (by simp [hq])]
    rfl

/-- The parts of a `.cxt` file: the lines as written; names with their lines; lines of the table without the blanks
around them. -/
structure CxtLines (ν : Type) where
  b : List Char
  text₁ : List Char
  n : List Char
  m : List Char
  text₂ : List Char
  objs : List (List Char × ν)
  atts : List (List Char × ν)
  rows : List (List Char × List Char)
  more : List (List Char)

/-- The lines in their order. -/
def CxtLines.lines (x : CxtLines ν) : List (List Char) :=
  [x.b, x.text₁, x.n, x.m, x.text₂] ++ x.objs.map Prod.fst ++ x.atts.map Prod.fst ++ x.rows.map Prod.fst ++ x.more

/-- The `k`-th name of the file is written as `raw`, with blanks around it: what is left evaluates to the name, or
to nothing and is the name. -/
def NameLine (ev : ℕ → List Char → Eval ν) (k : ℕ) (raw : List Char) (x : ν) : Prop :=
  ∃ t, Padded Blank raw t ∧ (ev k t = .value x ∨ ev k t = .unknown ∧ x = PyVal.ofStr t)

/-- The file is a `.cxt` file for the names and the table. -/
structure CxtLines.Ok (ev : ℕ → List Char → Eval ν) (x : CxtLines ν) : Prop where
  single : ∀ l ∈ x.lines, '\n' ∉ l ∧ '\r' ∉ l
  b : Padded Blank x.b ['B']
  n : ∃ t, Padded Blank x.n t ∧ NumText t x.objs.length
  m : ∃ t, Padded Blank x.m t ∧ NumText t x.atts.length
  objs : ∀ (i : ℕ) raw y, x.objs[i]? = some (raw, y) → NameLine ev i raw y
  atts : ∀ (j : ℕ) raw y, x.atts[j]? = some (raw, y) → NameLine ev (x.objs.length + j) raw y
  rows : ∀ p ∈ x.rows, Padded Blank p.1 p.2 ∧ p.2.length = x.atts.length
  len : x.rows.length = x.objs.length
  onodup : (x.objs.map Prod.snd).Nodup
  anodup : (x.atts.map Prod.snd).Nodup

theorem readHead_lines {b j₁ n m j₂ rest : List Char} (hb : '\n' ∉ b ∧ '\r' ∉ b) (hj₁ : '\n' ∉ j₁ ∧ '\r' ∉ j₁)
    (hn : '\n' ∉ n ∧ '\r' ∉ n) (hm : '\n' ∉ m ∧ '\r' ∉ m) (hj₂ : '\n' ∉ j₂ ∧ '\r' ∉ j₂) :
    readHead (b ++ '\n' :: (j₁ ++ '\n' :: (n ++ '\n' :: (m ++ '\n' :: (j₂ ++ '\n' :: rest))))) =
      if pyStrip b ≠ ['B'] then .error .assertionError else (do
        let k ← pyInt (pyStrip n)
        let l ← pyInt (pyStrip m)
        .ok (k, l, nlTranslate rest)) := by
  have ht : nlTranslate (b ++ '\n' :: (j₁ ++ '\n' :: (n ++ '\n' :: (m ++ '\n' :: (j₂ ++ '\n' :: rest))))) =
      b ++ '\n' :: (j₁ ++ '\n' :: (n ++ '\n' :: (m ++ '\n' :: (j₂ ++ '\n' :: nlTranslate rest)))) := by
    have := CsvReader.nlTranslate_append (a := b ++ '\n' :: (j₁ ++ '\n' :: (n ++ '\n' :: (m ++ '\n' :: (j₂ ++ ['\n'])))))
      (f := rest) (by simp [hb.2, hj₁.2, hn.2, hm.2, hj₂.2])
    simpa using this
  unfold readHead
  simp only [ht, readline_append hb.1, readline_append hj₁.1, readline_append hn.1, readline_append hm.1,
    readline_append hj₂.1, strip_snoc_nl]

theorem padded_blank {raw t : List Char} : Padded Blank raw t ↔ pyStrip raw = t := by
  rw [← pySpace_eq]; exact Csv.padded_iff

/-- `read_cxt` returns the names and the table of the file: blanks around lines, the texts of the second and the fifth
line and lines after the table do not matter, and every cell other than `X` is false. -/
theorem C119_layout (ev : ℕ → List Char → Eval ν) {x : CxtLines ν} (h : x.Ok ev) :
    ∃ c, readCxt ev (x.lines.flatMap fun l => l ++ ['\n']) = .ok c ∧ c.WF ∧ c.objects = x.objs.map Prod.snd ∧
      c.attributes = x.atts.map Prod.snd ∧ c.nd.rows = x.rows.map fun p => p.2.map fun c => c == 'X' := by
  have hs : ∀ l ∈ x.lines, '\n' ∉ l ∧ '\r' ∉ l := h.single
  have hfile : (x.lines.flatMap fun l => l ++ ['\n']) = x.b ++ '\n' :: (x.text₁ ++ '\n' :: (x.n ++ '\n' :: (x.m ++ '\n' ::
      (x.text₂ ++ '\n' :: (x.objs.flatMap (fun p => p.1 ++ ['\n']) ++ (x.atts.flatMap (fun p => p.1 ++ ['\n']) ++
        (x.rows.flatMap (fun p => p.1 ++ ['\n']) ++ x.more.flatMap fun l => l ++ ['\n']))))))) := by
    simp [CxtLines.lines, List.flatMap_append, List.flatMap_map]
  have hmem : ∀ l, l ∈ [x.b, x.text₁, x.n, x.m, x.text₂] → '\n' ∉ l ∧ '\r' ∉ l := fun l hl =>
    hs l (by unfold CxtLines.lines; simp only [List.mem_append]; exact .inl (.inl (.inl (.inl hl))))
  have hcr : '\r' ∉ (x.objs.flatMap (fun p => p.1 ++ ['\n']) ++ (x.atts.flatMap (fun p => p.1 ++ ['\n']) ++
        (x.rows.flatMap (fun p => p.1 ++ ['\n']) ++ x.more.flatMap fun l => l ++ ['\n']))) := by
    have : '\r' ∉ x.lines.flatMap fun l => l ++ ['\n'] := by
      simp only [List.mem_flatMap, not_exists, not_and, List.mem_append, List.mem_singleton, not_or]
      exact fun l hl => ⟨(hs l hl).2, by decide⟩
    rw [hfile] at this
    simp only [List.mem_append, List.mem_cons, not_or] at this ⊢
    tauto
  obtain ⟨tn, hn1, hn2⟩ := h.n
  obtain ⟨tm, hm1, hm2⟩ := h.m
  have hname : ∀ k raw y, NameLine ev k raw y → readName (ev k (pyStrip raw)) (pyStrip raw) = .ok y := by
    rintro k raw y ⟨t, ht, hv⟩
    rw [padded_blank.1 ht]
    rcases hv with hv | ⟨hv, rfl⟩ <;> rw [hv] <;> rfl
  have hw : ∀ r ∈ x.rows.map (fun p => p.2.map fun c => c == 'X'), r.length = (x.atts.map Prod.snd).length := by
    intro r hr
    obtain ⟨p, hp, rfl⟩ := List.mem_map.1 hr
    simpa using (h.rows p hp).2
  have hl : (x.rows.map (fun p => p.2.map fun c => c == 'X')).length = (x.objs.map Prod.snd).length := by
    simpa using h.len
  refine ⟨_, ?_, wf_mk' hl hw h.onodup h.anodup, rfl, rfl, rfl⟩
  unfold readCxt
  rw [hfile, readHead_lines (hmem _ (by simp)) (hmem _ (by simp)) (hmem _ (by simp)) (hmem _ (by simp)) (hmem _ (by simp)),
    if_neg (not_not.2 (padded_blank.1 h.b)), padded_blank.1 hn1, padded_blank.1 hm1, ((pyInt_iff tn).1 _).2 hn2,
    ((pyInt_iff tm).1 _).2 hm2, nlTranslate_id hcr]
  simp only [py_ok_bind]
  rw [readNames_lines, py_ok_bind]
  · dsimp only
    rw [readNames_lines, py_ok_bind]
    · dsimp only
      rw [← h.len, readRows_lines]
      · exact make_nodup hl hw h.onodup h.anodup
      · intro p hp
        exact ⟨(hs p.1 (by simp only [CxtLines.lines, List.mem_append]; exact .inl (.inr (List.mem_map_of_mem hp)))).1,
          padded_blank.1 (h.rows p hp).1⟩
    · intro i raw y hy
      exact ⟨(hs raw (by simp only [CxtLines.lines, List.mem_append]
                         exact .inl (.inl (.inr (List.mem_map.2 ⟨_, List.mem_of_getElem? hy, rfl⟩))))).1,
        hname _ _ _ (h.atts i raw y hy)⟩
  · intro i raw y hy
    rw [Nat.zero_add]
    exact ⟨(hs raw (by simp only [CxtLines.lines, List.mem_append]
                       exact .inl (.inl (.inl (.inr (List.mem_map.2 ⟨_, List.mem_of_getElem? hy, rfl⟩)))))).1,
      hname _ _ _ (h.objs i raw y hy)⟩

/-- Files whose first line is not `B` raise AssertionError. -/
theorem C119_not_cxt (ev : ℕ → List Char → Eval ν) {l : List Char} (rest : List Char) (hl : '\n' ∉ l ∧ '\r' ∉ l)
    (h : ¬ Padded Blank l ['B']) :
    readCxt ev (l ++ '\n' :: rest) = .error .assertionError ∧ readCxt ev l = .error .assertionError := by
  have key : readCxt ev (l ++ '\n' :: rest) = .error .assertionError := by
    have ht : nlTranslate (l ++ '\n' :: rest) = l ++ '\n' :: nlTranslate rest := by
      have := CsvReader.nlTranslate_append (a := l ++ ['\n']) (f := rest) (by simp [hl.2])
      simpa using this
    unfold readCxt readHead
    simp only [ht, readline_append hl.1, strip_snoc_nl]
    rw [if_pos fun e => h (padded_blank.2 e)]
    rfl
  have key' : readCxt ev (l ++ '\n' :: []) = .error .assertionError := by
    unfold readCxt readHead
    rw [nlTranslate_id (by simp [hl.2])]
    simp only [readline_append hl.1, strip_snoc_nl]
    rw [if_pos fun e => h (padded_blank.2 e)]
    rfl
  exact ⟨key, by rw [← C119_final_newline]; exact key'⟩

/-- Files whose third or fourth line is not a number raise ValueError. -/
theorem C119_bad_number (ev : ℕ → List Char → Eval ν) {b j₁ n m j₂ : List Char} (rest : List Char)
    (hs : ∀ l ∈ [b, j₁, n, m, j₂], '\n' ∉ l ∧ '\r' ∉ l) (hb : Padded Blank b ['B'])
    (h : (¬ ∃ t k, Padded Blank n t ∧ NumText t k) ∨ ¬ ∃ t k, Padded Blank m t ∧ NumText t k) :
    readCxt ev (b ++ '\n' :: (j₁ ++ '\n' :: (n ++ '\n' :: (m ++ '\n' :: (j₂ ++ '\n' :: rest))))) =
      .error .valueError := by
  have hv : ∀ l : List Char, (¬ ∃ t k, Padded Blank l t ∧ NumText t k) → pyInt (pyStrip l) = .error .valueError := by
    intro l hl
    rw [(pyInt_iff _).2]
    rintro ⟨k, hk⟩
    exact hl ⟨_, k, padded_blank.2 rfl, hk⟩
  unfold readCxt
  rw [readHead_lines (hs _ (by simp)) (hs _ (by simp)) (hs _ (by simp)) (hs _ (by simp)) (hs _ (by simp)),
    if_neg (not_not.2 (padded_blank.1 hb))]
  rcases h with h | h
  · rw [hv _ h]; rfl
  · cases hp : pyInt (pyStrip n) with
    | error e =>
      have he : e = .valueError := by
        unfold pyInt at hp
        split at hp <;> split at hp <;> cases hp <;> rfl
      rw [he]; rfl
    | ok k => rw [py_ok_bind, hv _ h]; rfl

end

/-! ### A file -/

def sampleCxt : CxtLines (List Char) where
  b := " B".toList
  text₁ := "made by hand".toList
  n := "+2 ".toList
  m := "\t0_2".toList
  text₂ := []
  objs := [(" x ".toList, "x".toList), ("y z".toList, "y z".toList)]
  atts := [("a".toList, "a".toList), ("b\x1c".toList, "b".toList)]
  rows := [("X.".toList, "X.".toList), ("  -X".toList, "-X".toList)]
  more := ["end".toList]

instance : PyVal (List Char) where
  str := id
  ofStr := id

theorem padded_of_strip {raw t : List Char} (h : pyStrip raw = t) : Padded Blank raw t := padded_blank.2 h

theorem sampleCxt_ok : sampleCxt.Ok (fun _ _ => .unknown) where
  single := by decide +kernel
  b := padded_of_strip (by decide +kernel)
  n := ⟨"+2".toList, padded_of_strip (by decide +kernel), [['2']], by decide, by decide, .inl ⟨.inr rfl, rfl⟩⟩
  m := ⟨"0_2".toList, padded_of_strip (by decide +kernel), [['0'], ['2']], by decide, by decide, .inl ⟨.inl rfl, rfl⟩⟩
  objs := by
    intro i raw y h
    match i, h with
    | 0, h => cases h; exact ⟨_, padded_of_strip rfl, .inr ⟨rfl, by decide +kernel⟩⟩
    | 1, h => cases h; exact ⟨_, padded_of_strip rfl, .inr ⟨rfl, by decide +kernel⟩⟩
  atts := by
    intro i raw y h
    match i, h with
    | 0, h => cases h; exact ⟨_, padded_of_strip rfl, .inr ⟨rfl, by decide +kernel⟩⟩
    | 1, h => cases h; exact ⟨_, padded_of_strip rfl, .inr ⟨rfl, by decide +kernel⟩⟩
  rows := by
    intro p hp
    simp only [sampleCxt, List.mem_cons, List.not_mem_nil, or_false] at hp
    rcases hp with rfl | rfl <;> exact ⟨padded_of_strip (by decide +kernel), by decide +kernel⟩
  len := rfl
  onodup := by decide +kernel
  anodup := by decide +kernel

example : ¬ Padded Blank "Burmeister".toList ['B'] := fun h => absurd (padded_blank.1 h) (by decide +kernel)

example : ¬ ∃ t k, Padded Blank "2 objects".toList t ∧ NumText t k := by
  rintro ⟨t, k, h1, h2⟩
  rw [padded_blank] at h1
  subst h1
  exact absurd (((pyInt_iff _).1 k).2 h2) (by rw [show pyInt (pyStrip "2 objects".toList) = .error .valueError by decide +kernel]; simp)
