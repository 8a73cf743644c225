/-
Properties of the readers and writers of tab and comma separated files: C100, C101.
-/
import Verif.Model.CsvFiles
import Verif.Props.ReadWrite
import Verif.Lemmas.Derived

set_option linter.unusedSectionVars false

open Ctx Spec

namespace Csv

/-! ### C100: no reader returns -/

theorem fileLines_ne_nil {file : List Char} (h : file ≠ []) : fileLines file ≠ [] := by
  cases file with
  | nil => exact absurd rfl h
  | cons c l =>
    simp only [fileLines]
    split
    · simp
    · split <;> simp

theorem next_rb (sep : Char) {file : List Char} (h : file ≠ []) :
    next (stream .rb sep file) = .error .csvError := by
  obtain ⟨x, l, hl⟩ := List.exists_cons_of_ne_nil (fileLines_ne_nil h)
  simp [stream, hl, next]

/-- `read_txt`, `read_mv_txt`, `uread_mv_txt`, `read_mv_csv` and `read_csv` raise `csv.Error` for every non-empty file and
StopIteration for the empty one. -/
theorem C100_binary_mode_violated (conv : List Char → Option Bool) (file : List Char) :
    let e := if file = [] then PyErr.stopIteration else PyErr.csvError
    readTxt file = .error e ∧ readMvTxt conv file = .error e ∧ ureadMvTxt conv file = .error e ∧
      readMvCsv conv file = .error e ∧ readCsv conv file = .error e := by
  by_cases h : file = []
  · subst h
    exact ⟨rfl, rfl, rfl, rfl, rfl⟩
  · simp only [if_neg h]
    refine ⟨?_, ?_, ?_, ?_, ?_⟩
    · simp only [readTxt, readTxtBody, next_rb '\t' h, py_err_bind]
    · simp only [readMvTxt, readMvTxtBody, next_rb '\t' h, py_err_bind]
    · simp only [ureadMvTxt, ureadMvTxtBody, next_rb '\t' h, py_err_bind]
    · simp only [readMvCsv, readMvCsvBody, next_rb ',' h, py_err_bind]
    · simp only [readCsv, readCsvBody, readMvCsvBody, next_rb ',' h, py_err_bind]

/-! ### C100: the bodies, for a file opened in text mode -/

/-- Fields that survive: no separators, line breaks and quotation marks. -/
def Safe (sep : Char) (s : List Char) : Prop := sep ∉ s ∧ '\n' ∉ s ∧ '\r' ∉ s ∧ '"' ∉ s

theorem splitOn1_fieldLine (sep : Char) (x : List Char) (l : List (List Char)) (h : ∀ y ∈ x :: l, sep ∉ y) :
    splitOn1 sep (fieldLine sep (x :: l)) = x :: l := by
  induction l generalizing x with
  | nil => simp only [fieldLine, List.flatMap_nil, List.append_nil]; exact splitOn1_single (h x (by simp))
  | cons y l ih =>
    have he : fieldLine sep (x :: y :: l) = x ++ sep :: fieldLine sep (y :: l) := by simp [fieldLine]
    rw [he, splitOn1_append (h x (by simp)), ih y fun z hz => h z (by simp [List.mem_cons.1 hz])]

theorem fieldLine_eq_nil {sep : Char} {l : List (List Char)} (h : fieldLine sep l = []) : l = [] ∨ l = [[]] := by
  match l, h with
  | [], _ => exact .inl rfl
  | [x], h => right; simpa [fieldLine] using h
  | x :: y :: l, h => simp [fieldLine] at h

theorem fields_fieldLine {sep : Char} {l : List (List Char)} (h : ∀ y ∈ l, sep ∉ y) (hne : l ≠ [[]]) :
    fields sep (fieldLine sep l) = l := by
  cases l with
  | nil => rfl
  | cons x l =>
    unfold fields
    rw [if_neg fun e => ?_, splitOn1_fieldLine sep x l h]
    rcases fieldLine_eq_nil e with e | e
    · simp at e
    · exact hne e

theorem not_mem_fieldLine {sep c : Char} (hc : c ≠ sep) {l : List (List Char)} (h : ∀ x ∈ l, c ∉ x) :
    c ∉ fieldLine sep l := by
  cases l with
  | nil => simp [fieldLine]
  | cons x l =>
    simp only [fieldLine, List.mem_append, List.mem_flatMap, List.mem_cons, not_or, not_exists, not_and]
    exact ⟨h x (by simp), fun y hy => ⟨hc, h y (by simp [hy])⟩⟩

theorem dropWhile_of_head {p : Char → Bool} {x : List Char} (h : ∀ c, x.head? = some c → p c = false) :
    x.dropWhile p = x := by
  cases x with
  | nil => rfl
  | cons c x => rw [List.dropWhile_cons, h c rfl]; rfl

theorem dropWhile_blanks {p : Char → Bool} {l x : List Char} (hl : ∀ c ∈ l, p c = true)
    (h : ∀ c, x.head? = some c → p c = false) : (l ++ x).dropWhile p = x := by
  rw [List.dropWhile_append_of_pos hl, dropWhile_of_head h]

/-- `strip()` removes exactly the blanks around a string. -/
theorem padded_iff {raw x : List Char} : Padded pySpace raw x ↔ pyStrip raw = x := by
  constructor
  · rintro ⟨l, r, rfl, hl, hr, h1, h2⟩
    unfold pyStrip
    by_cases hx : x = []
    · subst hx
      have : (l ++ [] ++ r).dropWhile pySpace = [] := by
        rw [List.dropWhile_eq_nil_iff]
        intro c hc
        rcases List.mem_append.1 hc with hc | hc
        · exact hl c (by simpa using hc)
        · exact hr c hc
      rw [this]; rfl
    · rw [List.append_assoc, dropWhile_blanks hl]
      · rw [List.reverse_append, dropWhile_blanks (by simpa using hr)]
        · simp
        · intro c hc
          exact h2 c (by simpa using hc)
      · intro c hc
        rw [List.head?_append_of_ne_nil _ hx] at hc
        exact h1 c hc
  · rintro rfl
    have head : ∀ (y : List Char) c, (y.dropWhile pySpace).head? = some c → pySpace c = false := by
      intro y c hc
      have := List.head?_dropWhile_not pySpace y
      rw [hc] at this
      simpa using this
    set y := raw.dropWhile pySpace with hy
    refine ⟨raw.takeWhile pySpace, (y.reverse.takeWhile pySpace).reverse, ?_, ?_, ?_, ?_, ?_⟩
    · unfold pyStrip
      rw [← hy, List.append_assoc, ← List.reverse_append, List.takeWhile_append_dropWhile, List.reverse_reverse, hy,
        List.takeWhile_append_dropWhile]
    · exact fun c hc => List.mem_takeWhile_imp hc
    · intro c hc
      exact List.mem_takeWhile_imp (List.mem_reverse.1 hc)
    · intro c hc
      unfold pyStrip at hc
      rw [← hy, List.head?_reverse] at hc
      have hsub : (y.reverse.dropWhile pySpace).reverse <+: y := by
        rw [← List.reverse_reverse y]
        simpa using List.reverse_prefix.2 (List.dropWhile_suffix (l := y.reverse) pySpace)
      rw [← List.head?_reverse] at hc
      obtain ⟨t, ht⟩ := hsub
      refine head raw c ?_
      rw [← hy, ← ht]
      rw [List.head?_append, hc]; rfl
    · intro c hc
      unfold pyStrip at hc
      rw [← hy, List.getLast?_reverse] at hc
      exact head _ c hc

theorem map_strip_pad {pad : List Char → List Char} {l : List (List Char)} (h : ∀ x ∈ l, Padded pySpace (pad x) x) :
    (l.map pad).map pyStrip = l := by
  rw [List.map_map]
  conv_rhs => rw [← List.map_id l]
  exact List.map_congr_left fun x hx => padded_iff.1 (h x hx)

theorem rest_ok (l : List (List (List Char))) : rest (l.map .ok) = .ok l := by
  unfold rest
  rw [List.mapM_map, mapM_ok (g := id)]
  · simp
  · intro x _; rfl

/-- Lines of a file, with their separators. -/
theorem stream_lines {sep : Char} (h1 : '\n' ≠ sep) (h2 : '\r' ≠ sep) (ls : List (List (List Char)))
    (hs : ∀ l ∈ ls, (∀ x ∈ l, Safe sep x) ∧ l ≠ [[]]) :
    stream .r sep (ls.flatMap fun l => fieldLine sep l ++ ['\n']) = ls.map .ok := by
  have hcr : '\r' ∉ ls.flatMap fun l => fieldLine sep l ++ ['\n'] := by
    simp only [List.mem_flatMap, List.mem_append, not_exists, not_and, not_or]
    intro l hl
    exact ⟨not_mem_fieldLine h2 fun x hx => ((hs l hl).1 x hx).2.2.1, by decide⟩
  show (fileLines (nlTranslate _)).map _ = _
  rw [nlTranslate_id hcr, fileLines_flatMap (fun l => fieldLine sep l) ls fun l hl =>
    not_mem_fieldLine h1 fun x hx => ((hs l hl).1 x hx).2.1, List.map_map]
  exact List.map_congr_left fun l hl => by
    simp only [Function.comp]
    rw [fields_fieldLine (fun y hy => ((hs l hl).1 y hy).1) (hs l hl).2]

theorem boolFile_lines (atts : List (List Char)) (rows : List (List Bool)) :
    boolFile atts rows = (atts :: [] :: rows.map fun r => r.map fun b => if b then ['1'] else ['0']).flatMap
      fun l => fieldLine '\t' l ++ ['\n'] := by
  simp [boolFile, fieldLine, List.flatMap_map]

theorem mvFile_lines (objs atts : List (List Char)) (rows : List (List (List Char))) :
    mvFile objs atts rows = (objs :: atts :: [] :: rows).flatMap fun l => fieldLine '\t' l ++ ['\n'] := by
  simp [mvFile, fieldLine]

theorem csvFile_lines (atts : List (List Char)) (table : List (List Char × List (List Char))) :
    csvFile atts table = (atts :: table.map fun p => p.1 :: p.2).flatMap fun l => fieldLine ',' l ++ ['\n'] := by
  simp [csvFile, List.flatMap_map]

theorem natStr_inj {n m : ℕ} (h : natStr n = natStr m) : n = m := by
  have h1 := pyInt_natStr n
  rw [h, pyInt_natStr m] at h1
  cases h1
  rfl

/-- The names that `read_txt` gives to objects. -/
theorem gnames_nodup (n : ℕ) : ((List.range n).map fun i => 'g' :: natStr (i + 1)).Nodup := by
  refine List.Nodup.map (fun i j h => ?_) List.nodup_range
  have := natStr_inj (List.cons.inj h).2
  omega

theorem bools_safe (r : List Bool) : ∀ x ∈ r.map (fun b => if b then ['1'] else ['0']), Safe '\t' x := by
  intro x hx
  obtain ⟨b, -, rfl⟩ := List.mem_map.1 hx
  cases b <;> exact ⟨by decide, by decide, by decide, by decide⟩

theorem bools_ne (r : List Bool) : r.map (fun b => if b then ['1'] else ['0']) ≠ [[]] := by
  rintro h
  cases r with
  | nil => simp at h
  | cons b r => cases b <;> simp at h

/-- Were the file opened in text mode, `read_txt` would return the table in the file, with objects `g1`, …, `gn`. In the
file every attribute `a` is written as `pad a`, with blanks around it. -/
theorem C100_read_txt_partial (pad : List Char → List Char) (atts : List (List Char)) (rows : List (List Bool))
    (h0 : rows ≠ []) (ha : ∀ a ∈ atts, Safe '\t' (pad a) ∧ Padded pySpace (pad a) a) (h1 : atts.map pad ≠ [[]])
    (hn : atts.Nodup) (hw : ∀ r ∈ rows, r.length = atts.length) :
    ∃ c, readTxtBody .r (boolFile (atts.map pad) rows) = .ok c ∧ c.WF ∧
      c.objects = (List.range rows.length).map (fun i => 'g' :: natStr (i + 1)) ∧ c.attributes = atts ∧
      c.nd.rows = rows := by
  have hs : stream .r '\t' (boolFile (atts.map pad) rows) =
      (atts.map pad :: [] :: rows.map fun r => r.map fun b => if b then ['1'] else ['0']).map .ok := by
    rw [boolFile_lines]
    refine stream_lines (by decide) (by decide) _ ?_
    intro l hl
    rcases List.mem_cons.1 hl with rfl | hl
    · refine ⟨fun x hx => ?_, h1⟩
      obtain ⟨a, hm, rfl⟩ := List.mem_map.1 hx
      exact (ha a hm).1
    · rcases List.mem_cons.1 hl with rfl | hl
      · simp
      · obtain ⟨r, -, rfl⟩ := List.mem_map.1 hl
        exact ⟨bools_safe r, bools_ne r⟩
  have ht : (rows.map fun r => r.map fun b => if b then ['1'] else ['0']).map (fun rec => rec.filterMap txtCell) = rows := by
    rw [List.map_map]
    conv_rhs => rw [← List.map_id rows]
    exact List.map_congr_left fun r _ => filterMap_cells r
  refine ⟨_, ?_, wf_mk' (by simp) hw (gnames_nodup rows.length) hn, rfl, rfl, rfl⟩
  unfold readTxtBody
  rw [hs]
  simp only [List.map_cons, next, py_ok_bind, rest_ok, ht, map_strip_pad fun a h => (ha a h).2]
  cases hr : rows with
  | nil => exact absurd hr h0
  | cons d t =>
    simp only
    rw [if_neg (by rw [hw d (by simp [hr])]; simp), ← hr]
    exact make_nodup (by simp) hw (gnames_nodup rows.length) hn

theorem mapM_some {γ δ : Type} {f : γ → Option δ} {g : γ → δ} {l : List γ} (h : ∀ x ∈ l, f x = some (g x)) :
    l.mapM f = some (l.map g) := by
  induction l with
  | nil => rfl
  | cons x l ih =>
    rw [List.mapM_cons, h x (by simp), ih fun y hy => h y (by simp [hy])]
    rfl

theorem mapM_none {γ δ : Type} {f : γ → Option δ} {l : List γ} {x : γ} (hx : x ∈ l) (h : f x = none) :
    l.mapM f = none := by
  induction l with
  | nil => simp at hx
  | cons y l ih =>
    rw [List.mapM_cons]
    rcases List.mem_cons.1 hx with rfl | hx
    · rw [h]; rfl
    · rw [ih hx]; cases f y <;> rfl

theorem mvMakeStr_ok {conv : List Char → Option Bool} {val : List Char → Bool} {rows : List (List (List Char))}
    {objs atts : List (List Char)} (hv : ∀ r ∈ rows, ∀ s ∈ r, conv s = some (val s)) (ho : objs.Nodup) (ha : atts.Nodup)
    (hl : rows.length = objs.length) (hw : ∀ r ∈ rows, r.length = atts.length) :
    mvMakeStr conv rows objs atts = .ok (mk' objs atts (rows.map fun r => r.map val)) := by
  unfold mvMakeStr
  rw [mapM_some (g := fun r => r.map val) fun r hr => mapM_some (hv r hr)]
  exact make_nodup (by simpa using hl) (by simpa using hw) ho ha

theorem mvMakeStr_err {conv : List Char → Option Bool} {rows : List (List (List Char))}
    {objs atts : List (List Char)} (hv : ∃ r ∈ rows, ∃ s ∈ r, conv s = none) :
    mvMakeStr conv rows objs atts = .error .valueError := by
  obtain ⟨r, hr, s, hs, h⟩ := hv
  unfold mvMakeStr
  rw [mapM_none hr (mapM_none hs h)]

/-- Tables that can be written to a tab separated file, every name `x` as `pad x`. -/
structure MvOk (pad : List Char → List Char) (objs atts : List (List Char)) (rows : List (List (List Char))) : Prop where
  obj : ∀ o ∈ objs, Safe '\t' (pad o) ∧ Padded pySpace (pad o) o
  att : ∀ a ∈ atts, Safe '\t' (pad a) ∧ Padded pySpace (pad a) a
  val : ∀ r ∈ rows, ∀ s ∈ r, Safe '\t' s
  one : objs.map pad ≠ [[]] ∧ atts.map pad ≠ [[]] ∧ ∀ r ∈ rows, r ≠ [[]]
  len : rows.length = objs.length
  width : ∀ r ∈ rows, r.length = atts.length

theorem readMvTxt_eq (conv : List Char → Option Bool) {pad : List Char → List Char} {objs atts : List (List Char)}
    {rows : List (List (List Char))} (h : MvOk pad objs atts rows) :
    readMvTxtBody .r conv (mvFile (objs.map pad) (atts.map pad) rows) = mvMakeStr conv rows objs atts := by
  have hs : stream .r '\t' (mvFile (objs.map pad) (atts.map pad) rows) =
      (objs.map pad :: atts.map pad :: [] :: rows).map .ok := by
    rw [mvFile_lines]
    refine stream_lines (by decide) (by decide) _ ?_
    intro l hl
    simp only [List.mem_cons] at hl
    rcases hl with rfl | rfl | rfl | hl
    · refine ⟨fun x hx => ?_, h.one.1⟩
      obtain ⟨o, ho, rfl⟩ := List.mem_map.1 hx
      exact (h.obj o ho).1
    · refine ⟨fun x hx => ?_, h.one.2.1⟩
      obtain ⟨a, ha, rfl⟩ := List.mem_map.1 hx
      exact (h.att a ha).1
    · simp
    · exact ⟨h.val l hl, h.one.2.2 l hl⟩
  unfold readMvTxtBody
  rw [hs]
  simp only [List.map_cons, next, py_ok_bind, rest_ok, map_strip_pad fun a ha => (h.att a ha).2,
    map_strip_pad fun a ha => (h.obj a ha).2]
  rw [if_neg]
  rintro (⟨d, hd, hne⟩ | hne)
  · exact hne (h.width d (List.mem_of_mem_head? hd)).symm
  · exact hne h.len

/-- Were the file opened in text mode, `read_mv_txt` would return the names in the file and the truth values of the
strings, as numpy converts them. In the file every name `x` is written as `pad x`, with blanks around it. -/
theorem C100_read_mv_txt_partial (conv : List Char → Option Bool) (pad : List Char → List Char)
    (objs atts : List (List Char)) (rows : List (List (List Char))) (h : MvOk pad objs atts rows) (ho : objs.Nodup) (ha : atts.Nodup) :
    (∀ val : List Char → Bool, (∀ r ∈ rows, ∀ s ∈ r, conv s = some (val s)) →
      ∃ c, readMvTxtBody .r conv (mvFile (objs.map pad) (atts.map pad) rows) = .ok c ∧ c.WF ∧ c.objects = objs ∧ c.attributes = atts ∧
        c.nd.rows = rows.map fun r => r.map val) ∧
    ((∃ r ∈ rows, ∃ s ∈ r, conv s = none) →
      readMvTxtBody .r conv (mvFile (objs.map pad) (atts.map pad) rows) = .error .valueError) := by
  rw [readMvTxt_eq conv h]
  refine ⟨fun val hv => ⟨_, mvMakeStr_ok hv ho ha h.len h.width, ?_, rfl, rfl, rfl⟩, mvMakeStr_err⟩
  exact wf_mk' (by simpa using h.len) (by simpa using h.width) ho ha

/-- Even in text mode `uread_mv_txt` would raise TypeError as soon as one of the first two lines is not empty. -/
theorem C100_uread_text_mode_violated (conv : List Char → Option Bool) {l : List Char} (rest : List Char) (hl : l ≠ [])
    (h : '\n' ∉ l ∧ '\r' ∉ l) :
    ureadMvTxtBody .r conv (l ++ '\n' :: rest) = .error .typeError ∧
      ureadMvTxtBody .r conv ('\n' :: (l ++ '\n' :: rest)) = .error .typeError := by
  have hnl : ∀ f, nlTranslate (l ++ '\n' :: f) = l ++ '\n' :: nlTranslate f := by
    intro f
    have key : ∀ a : List Char, '\r' ∉ a → nlTranslate (a ++ '\n' :: f) = a ++ '\n' :: nlTranslate f := by
      intro a ha
      induction a with
      | nil => simp [nlTranslate]
      | cons c a ih =>
        have hc : c ≠ '\r' := fun e => ha (by simp [e])
        rw [List.cons_append, nlTranslate.eq_3 _ _ (by rintro r rfl; exact absurd rfl hc), if_neg hc,
          ih fun e => ha (by simp [e])]
        rfl
    exact key l h.2
  have hfl : ∀ f, fileLines (l ++ '\n' :: f) = l :: fileLines f := by
    intro f
    have key : ∀ a : List Char, '\n' ∉ a → fileLines (a ++ '\n' :: f) = a :: fileLines f := by
      intro a ha
      induction a with
      | nil => simp [fileLines]
      | cons c a ih =>
        have hc : c ≠ '\n' := fun e => ha (by simp [e])
        rw [List.cons_append, fileLines, if_neg hc, ih fun e => ha (by simp [e])]
    exact key l h.1
  have hrec : fields '\t' l ≠ [] := by
    unfold fields
    rw [if_neg hl]
    exact fun e => absurd (congrArg List.length e) (by
      cases l with
      | nil => exact absurd rfl hl
      | cons c l =>
        simp only [splitOn1]
        split
        · simp
        · split <;> simp)
  constructor
  · unfold ureadMvTxtBody
    simp only [stream, hnl, hfl, List.map_cons, next, py_ok_bind]
    rw [if_pos hrec]
  · have h1 : nlTranslate ('\n' :: (l ++ '\n' :: rest)) = '\n' :: (l ++ '\n' :: nlTranslate rest) := by
      rw [nlTranslate.eq_3 _ _ (by rintro r e; exact absurd e (by decide)), hnl, if_neg (by decide)]
    have h2 : ∀ f, fileLines ('\n' :: f) = [] :: fileLines f := fun f => by simp [fileLines]
    have h3 : fields '\t' [] = [] := rfl
    unfold ureadMvTxtBody
    simp only [stream, h1, h2, hfl, List.map_cons, next, py_ok_bind, h3, ne_eq, not_true_eq_false, if_false]
    rw [if_pos hrec]

theorem fieldLine_tabs (sep : Char) {l : List (List Char)} (hl : l ≠ []) (k : ℕ) :
    fieldLine sep (l ++ List.replicate k []) = fieldLine sep l ++ List.replicate k sep := by
  cases l with
  | nil => exact absurd rfl hl
  | cons x l =>
    simp only [List.cons_append, fieldLine, List.flatMap_append, List.append_assoc]
    congr 2
    induction k with
    | zero => rfl
    | succ k ih => rw [List.replicate_succ, List.flatMap_cons, ih]; rfl

/-- In text mode tabs at the ends of the two lines with names would not matter (if the line of the objects has some, or
there are objects): the names are then taken from the lines without the blanks at their ends. -/
theorem C100_trailing_tabs_partial (conv : List Char → Option Bool) (val : List Char → Bool)
    (objs atts : List (List Char)) (rows : List (List (List Char))) (k₁ k₂ : ℕ)
    (hk : 0 < k₁ ∨ 0 < k₂ ∧ rows ≠ []) (ho : objs ≠ [] ∧ objs ≠ [[]]) (ha : atts ≠ [] ∧ atts ≠ [[]])
    (hs : ∀ x ∈ objs ++ atts ++ rows.flatten, Safe '\t' x)
    (hob : Padded pySpace (fieldLine '\t' objs) (fieldLine '\t' objs))
    (hab : Padded pySpace (fieldLine '\t' atts) (fieldLine '\t' atts))
    (hr : ∀ r ∈ rows, r ≠ [[]]) (hl : rows.length = objs.length) (hw : ∀ r ∈ rows, r.length = atts.length)
    (hon : objs.Nodup) (han : atts.Nodup) (hv : ∀ r ∈ rows, ∀ s ∈ r, conv s = some (val s)) :
    ∃ c, readMvTxtBody .r conv (mvFile (objs ++ List.replicate k₁ []) (atts ++ List.replicate k₂ []) rows) = .ok c ∧
      c.WF ∧ c.objects = objs ∧ c.attributes = atts ∧ c.nd.rows = rows.map fun r => r.map val := by
  have hsafe : ∀ (l : List (List Char)) k, l ≠ [] → l ≠ [[]] → (∀ x ∈ l, Safe '\t' x) →
      (∀ x ∈ l ++ List.replicate k [], Safe '\t' x) ∧ l ++ List.replicate k [] ≠ [[]] := by
    intro l k h0 h1 h2
    refine ⟨fun x hx => ?_, fun e => ?_⟩
    · rcases List.mem_append.1 hx with hx | hx
      · exact h2 x hx
      · rw [(List.mem_replicate.1 hx).2]
        exact ⟨by simp, by simp, by simp, by simp⟩
    · match l, h0, h1 with
      | [x], _, h1 =>
        simp only [List.singleton_append, List.cons.injEq] at e
        exact h1 (by rw [e.1])
      | x :: y :: l, _, _ => simp at e
  have so : ∀ x ∈ objs, Safe '\t' x := fun x hx => hs x (by simp [hx])
  have sa : ∀ x ∈ atts, Safe '\t' x := fun x hx => hs x (by simp [hx])
  have sr : ∀ r ∈ rows, ∀ x ∈ r, Safe '\t' x := fun r hr x hx =>
    hs x (List.mem_append_right _ (List.mem_flatten.2 ⟨r, hr, hx⟩))
  have hlines : ∀ l ∈ (objs ++ List.replicate k₁ []) :: (atts ++ List.replicate k₂ []) :: [] :: rows,
      (∀ x ∈ l, Safe '\t' x) ∧ l ≠ [[]] := by
    intro l hl
    simp only [List.mem_cons] at hl
    rcases hl with rfl | rfl | rfl | hl
    · exact hsafe objs k₁ ho.1 ho.2 so
    · exact hsafe atts k₂ ha.1 ha.2 sa
    · simp
    · exact ⟨sr l hl, hr l hl⟩
  have hst := stream_lines (sep := '\t') (by decide) (by decide) _ hlines
  have hline : ∀ l : List (List Char), (∀ x ∈ l, Safe '\t' x) → '\n' ∉ fieldLine '\t' l ∧ '\r' ∉ fieldLine '\t' l :=
    fun l h => ⟨not_mem_fieldLine (by decide) fun x hx => (h x hx).2.1,
      not_mem_fieldLine (by decide) fun x hx => (h x hx).2.2.1⟩
  have hcr : '\r' ∉ mvFile (objs ++ List.replicate k₁ []) (atts ++ List.replicate k₂ []) rows := by
    rw [mvFile_lines]
    simp only [List.mem_flatMap, List.mem_append, not_exists, not_and, not_or]
    exact fun l hl => ⟨(hline l (hlines l hl).1).2, by decide⟩
  have hstrip : ∀ (l : List (List Char)) k, l ≠ [] → (∀ x ∈ l, Safe '\t' x) →
      Padded pySpace (fieldLine '\t' l) (fieldLine '\t' l) →
      splitOn1 '\t' (pyStrip (fieldLine '\t' (l ++ List.replicate k []))) = l := by
    rintro l k h0 hs ⟨a, b, h1, h2, h3, h4, h5⟩
    have hp : Padded pySpace (fieldLine '\t' (l ++ List.replicate k [])) (fieldLine '\t' l) := by
      refine ⟨[], List.replicate k '\t', by rw [fieldLine_tabs _ h0]; rfl, by simp, fun c hc => ?_, h4, h5⟩
      rw [(List.mem_replicate.1 hc).2]
      decide
    rw [padded_iff.1 hp]
    match l, h0 with
    | x :: l, _ => exact splitOn1_fieldLine _ _ _ fun y hy => (hs y hy).1
  refine ⟨_, ?_, wf_mk' (by simpa using hl) (by simpa using hw) hon han, rfl, rfl, rfl⟩
  rw [← mvMakeStr_ok hv hon han hl hw]
  have hfile := mvFile_lines (objs ++ List.replicate k₁ []) (atts ++ List.replicate k₂ []) rows
  unfold readMvTxtBody
  rw [nlTranslate_id hcr, hfile, hst]
  simp only [List.map_cons, next, py_ok_bind, rest_ok]
  rw [if_pos]
  · rw [← hfile]
    unfold mvFile
    rw [readline_append (hline _ (hlines _ (by simp)).1).1]
    simp only
    rw [readline_append (hline _ (hlines _ (by simp)).1).1]
    simp only [strip_snoc_nl]
    rw [hstrip objs k₁ ho.1 so hob, hstrip atts k₂ ha.1 sa hab]
  · rcases hk with hk | ⟨hk, hne⟩
    · right
      simp only [List.length_map, List.length_append, List.length_replicate]
      omega
    · left
      match rows, hne, hw with
      | d :: t, _, hw =>
        refine ⟨d, rfl, ?_⟩
        rw [hw d (by simp)]
        simp only [List.length_map, List.length_append, List.length_replicate]
        omega

/-- Tables that can be written to a comma separated file, every name `x` as `pad x`. -/
structure CsvOk (pad : List Char → List Char) (atts : List (List Char)) (table : List (List Char × List (List Char))) :
    Prop where
  att : ∀ a ∈ atts, Safe ',' (pad a) ∧ Padded pySpace (pad a) a
  obj : ∀ p ∈ table, Safe ',' (pad p.1) ∧ Padded pySpace (pad p.1) p.1
  val : ∀ p ∈ table, ∀ s ∈ p.2, Safe ',' s
  one : atts.map pad ≠ [[]] ∧ ∀ p ∈ table, (pad p.1, p.2) ≠ ([], [])
  width : ∀ p ∈ table, p.2.length = atts.length

theorem readMvCsv_eq (conv : List Char → Option Bool) {pad : List Char → List Char} {atts : List (List Char)}
    {table : List (List Char × List (List Char))} (h : CsvOk pad atts table) :
    readMvCsvBody .r conv (csvFile (atts.map pad) (table.map fun p => (pad p.1, p.2))) =
      mvMakeStr conv (table.map Prod.snd) (table.map Prod.fst) atts := by
  have hs : stream .r ',' (csvFile (atts.map pad) (table.map fun p => (pad p.1, p.2))) =
      (atts.map pad :: table.map fun p => pad p.1 :: p.2).map .ok := by
    rw [csvFile_lines, List.map_map]
    refine stream_lines (by decide) (by decide) _ ?_
    intro l hl
    rcases List.mem_cons.1 hl with rfl | hl
    · refine ⟨fun x hx => ?_, h.one.1⟩
      obtain ⟨a, ha, rfl⟩ := List.mem_map.1 hx
      exact (h.att a ha).1
    · obtain ⟨p, hp, rfl⟩ := List.mem_map.1 hl
      refine ⟨fun x hx => ?_, fun e => h.one.2 p hp ?_⟩
      · rcases List.mem_cons.1 hx with rfl | hx
        · exact (h.obj p hp).1
        · exact h.val p hp x hx
      · obtain ⟨h1, h2⟩ := List.cons.inj e
        exact Prod.ext h1 h2
  have hd : ((table.map fun p => pad p.1 :: p.2).map Except.ok).mapM (fun x => do
      let rec ← (x : Py (List (List Char)))
      csvRow rec) = .ok table := by
    rw [List.map_map, List.mapM_map, mapM_ok (g := id)]
    · simp
    · intro p hp
      show (do let rec ← (.ok (pad p.1 :: p.2) : Py (List (List Char))); csvRow rec) = _
      rw [py_ok_bind]
      simp [csvRow, padded_iff.1 (h.obj p hp).2]
  unfold readMvCsvBody
  rw [hs]
  simp only [List.map_cons, next, py_ok_bind, hd, map_strip_pad fun a ha => (h.att a ha).2]

/-- Were the file opened in text mode, `read_mv_csv` and `read_csv` would return the names in the file and the truth
values of the strings, as numpy converts them. In the file every name `x` is written as `pad x`, with blanks around it. -/
theorem C100_read_csv_partial (conv : List Char → Option Bool) (pad : List Char → List Char) (atts : List (List Char))
    (table : List (List Char × List (List Char))) (h : CsvOk pad atts table) (ho : (table.map Prod.fst).Nodup)
    (ha : atts.Nodup) :
    (∀ val : List Char → Bool, (∀ p ∈ table, ∀ s ∈ p.2, conv s = some (val s)) →
      ∃ c, readMvCsvBody .r conv (csvFile (atts.map pad) (table.map fun p => (pad p.1, p.2))) = .ok c ∧
        readCsvBody .r conv (csvFile (atts.map pad) (table.map fun p => (pad p.1, p.2))) = .ok c ∧
        c.WF ∧ c.objects = table.map Prod.fst ∧ c.attributes = atts ∧
        c.nd.rows = table.map fun p => p.2.map val) ∧
    ((∃ p ∈ table, ∃ s ∈ p.2, conv s = none) →
      readMvCsvBody .r conv (csvFile (atts.map pad) (table.map fun p => (pad p.1, p.2))) = .error .valueError ∧
        readCsvBody .r conv (csvFile (atts.map pad) (table.map fun p => (pad p.1, p.2))) = .error .valueError) := by
  have hw : ∀ r ∈ table.map Prod.snd, r.length = atts.length := by
    intro r hr
    obtain ⟨p, hp, rfl⟩ := List.mem_map.1 hr
    exact h.width p hp
  have hl : (table.map Prod.snd).length = (table.map Prod.fst).length := by simp
  unfold readCsvBody
  rw [readMvCsv_eq conv h]
  constructor
  · intro val hv
    have hw' : ∀ r ∈ (table.map Prod.snd).map fun r => r.map val, r.length = atts.length := by
      intro r hr
      obtain ⟨q, hq, rfl⟩ := List.mem_map.1 hr
      rw [List.length_map]
      exact hw q hq
    have h1 := mvMakeStr_ok (conv := conv) (val := val) (rows := table.map Prod.snd) (by
      intro r hr s hs
      obtain ⟨p, hp, rfl⟩ := List.mem_map.1 hr
      exact hv p hp s hs) ho ha hl hw
    refine ⟨_, h1, ?_, wf_mk' (by simp) hw' ho ha, rfl, rfl, by simp [mk']⟩
    rw [h1, py_ok_bind]
    exact make_nodup (by simp [mk']) hw' ho ha
  · rintro ⟨p, hp, s, hs, he⟩
    have h1 := mvMakeStr_err (conv := conv) (rows := table.map Prod.snd) (objs := table.map Prod.fst) (atts := atts)
      ⟨p.2, List.mem_map.2 ⟨p, hp, rfl⟩, s, hs, he⟩
    rw [h1]
    exact ⟨rfl, rfl⟩

theorem csvRows_empty (ls : List (List Char)) (h : [] ∈ ls) :
    ((ls.map fun l => (.ok (fields ',' l) : Py (List (List Char)))).mapM fun x => do
      let rec ← x
      csvRow rec) = .error .indexError := by
  induction ls with
  | nil => simp at h
  | cons l ls ih =>
    rw [List.map_cons, List.mapM_cons]
    rcases List.mem_cons.1 h with rfl | h
    · rfl
    · rw [ih h, py_ok_bind]
      cases fields ',' l <;> rfl

/-- Were the file opened in text mode, an empty line after the first one would raise IndexError in `read_mv_csv` and
`read_csv`. -/
theorem C100_csv_empty_line_partial (conv : List Char → Option Bool) (file : List Char)
    (h : [] ∈ (fileLines (nlTranslate file)).tail) :
    readMvCsvBody .r conv file = .error .indexError ∧ readCsvBody .r conv file = .error .indexError := by
  have key : readMvCsvBody .r conv file = .error .indexError := by
    unfold readMvCsvBody stream
    cases hl : fileLines (nlTranslate file) with
    | nil => rw [hl] at h; simp at h
    | cons l ls =>
      rw [hl] at h
      simp only [List.map_cons, next, py_ok_bind]
      rw [csvRows_empty ls h]
      rfl
  refine ⟨key, ?_⟩
  unfold readCsvBody
  rw [key]
  rfl

example : readMvCsvBody .r (fun s => some (decide (s ≠ []))) "a,b\nx,7,\n\ny,,3\n".toList = .error .indexError :=
  (C100_csv_empty_line_partial _ _ (by decide +kernel)).1

/-- A table of two objects meets the hypotheses. -/
example : ∃ c, readMvCsvBody .r (fun s => some (decide (s ≠ []))) "a,b\nx,7,\ny,,3\n".toList = .ok c ∧
    c.objects = ["x".toList, "y".toList] ∧ c.attributes = ["a".toList, "b".toList] ∧
    c.nd.rows = [[true, false], [false, true]] := by
  refine ⟨_, rfl, ?_, ?_, ?_⟩ <;> decide +kernel

example : CsvOk (fun x => ' ' :: x ++ [' ', ' ']) ["a".toList, "b".toList]
    [("x".toList, ["7".toList, []]), ("y".toList, [[], "3".toList])] := by
  constructor <;> (try simp only [Safe, padded_iff]) <;> decide +kernel

example : MvOk id ["x".toList, "y".toList] ["a".toList] [["7".toList], ["0".toList]] := by
  constructor <;> (try simp only [Safe, padded_iff]) <;> decide +kernel

/-! ### C101 -/

theorem joinC_fieldLine (sep : Char) (l : List (List Char)) : joinC [sep] l = fieldLine sep l := by
  induction l with
  | nil => rfl
  | cons x l ih =>
    cases l with
    | nil => simp [joinC, fieldLine]
    | cons y l => simp [joinC, fieldLine, ih]

/-- `write_mv_txt` writes the names and the truth values of the context. -/
theorem C101_content {c : Ctx (List Char) (List Char)} (h : c.WFw) :
    writeMvTxt c = .ok (mvFile c.objects c.attributes (c.nd.rows.map fun r => r.map boolStr)) := by
  unfold writeMvTxt
  rw [← h.nrows, mapM_range (l := c.nd.rows) (g := fun r => joinC ['\t'] (r.map boolStr) ++ ['\n'])]
  · rw [py_ok_bind]
    simp [mvFile, joinC_fieldLine, List.flatMap_def, Function.comp_def]
  · intro i r hr
    unfold pyGet
    rw [hr]
    rfl

theorem boolStr_safe (b : Bool) : Safe '\t' (boolStr b) := by
  cases b <;> exact ⟨by decide, by decide, by decide, by decide⟩

theorem boolStr_row_ne (r : List Bool) : r.map boolStr ≠ [[]] := by
  intro h
  cases r with
  | nil => simp at h
  | cons b r => cases b <;> simp [boolStr] at h

/-- Contexts whose names survive. -/
structure NamesOk (c : Ctx (List Char) (List Char)) : Prop where
  obj : ∀ o ∈ c.objects, Safe '\t' o ∧ pyStrip o = o
  att : ∀ a ∈ c.attributes, Safe '\t' a ∧ pyStrip a = a
  one : c.objects ≠ [[]] ∧ c.attributes ≠ [[]]

theorem NamesOk.mvOk {c : Ctx (List Char) (List Char)} (h : NamesOk c) (hw : c.WFw) :
    MvOk id c.objects c.attributes (c.nd.rows.map fun r => r.map boolStr) where
  obj := fun o ho => ⟨(h.obj o ho).1, padded_iff.2 (h.obj o ho).2⟩
  att := fun a ha => ⟨(h.att a ha).1, padded_iff.2 (h.att a ha).2⟩
  val := by
    intro r hr s hs
    obtain ⟨r, -, rfl⟩ := List.mem_map.1 hr
    obtain ⟨b, -, rfl⟩ := List.mem_map.1 hs
    exact boolStr_safe b
  one := ⟨by simpa using h.one.1, by simpa using h.one.2, by
    intro r hr
    obtain ⟨r, -, rfl⟩ := List.mem_map.1 hr
    exact boolStr_row_ne r⟩
  len := by simpa using hw.nrows
  width := by simpa using hw.width

/-- Different contexts are written differently. -/
theorem C101_injective {c d : Ctx (List Char) (List Char)} (hc : c.WFw) (hd : d.WFw) (hnc : NamesOk c) (hnd : NamesOk d)
    (h : writeMvTxt c = writeMvTxt d) :
    c.objects = d.objects ∧ c.attributes = d.attributes ∧ c.nd.rows = d.nd.rows := by
  rw [C101_content hc, C101_content hd] at h
  have hf := Except.ok.inj h
  let conv : List Char → Option Bool := fun s => some (decide (s = boolStr true))
  let val : List Char → Bool := fun s => decide (s = boolStr true)
  have key : ∀ e : Ctx (List Char) (List Char), e.WFw → NamesOk e →
      readMvTxtBody .r conv (mvFile e.objects e.attributes (e.nd.rows.map fun r => r.map boolStr)) =
        .ok (mk' e.objects e.attributes e.nd.rows) := by
    intro e he hne
    have hm := hne.mvOk he
    have hr := readMvTxt_eq conv hm
    rw [List.map_id, List.map_id] at hr
    rw [hr, mvMakeStr_ok (val := val) (fun _ _ _ _ => rfl) he.onodup he.anodup hm.len hm.width]
    congr 2
    rw [List.map_map]
    conv_rhs => rw [← List.map_id e.nd.rows]
    refine List.map_congr_left fun r _ => ?_
    simp only [Function.comp, List.map_map]
    conv_rhs => rw [id, ← List.map_id r]
    refine List.map_congr_left fun b _ => ?_
    cases b <;> decide
  have h1 := key c hc hnc
  rw [hf, key d hd hnd] at h1
  have h2 := Except.ok.inj h1
  refine ⟨?_, ?_, ?_⟩
  · exact (congrArg Ctx.objects h2).symm
  · exact (congrArg Ctx.attributes h2).symm
  · exact (congrArg (fun e : Ctx (List Char) (List Char) => e.nd.rows) h2).symm

/-- What is written cannot be read: `read_mv_txt` raises for every file. Even in text mode the truth values would not
come back: with a numpy that takes every non-empty string as true all cells become true, with one that parses integers
ValueError is raised. -/
theorem C101_read_back_violated {c : Ctx (List Char) (List Char)} (h : c.WFw) (hn : NamesOk c) :
    ∃ file, writeMvTxt c = .ok file ∧ (∀ conv, readMvTxt conv file = .error .csvError) ∧
      (∀ conv : List Char → Option Bool, (∀ s, s ≠ [] → conv s = some true) →
        ∃ d, readMvTxtBody .r conv file = .ok d ∧ d.objects = c.objects ∧ d.attributes = c.attributes ∧
          d.nd.rows = c.nd.rows.map fun r => r.map fun _ => true) ∧
      (∀ conv : List Char → Option Bool, (∀ b, conv (boolStr b) = none) → c.objects ≠ [] → c.attributes ≠ [] →
        readMvTxtBody .r conv file = .error .valueError) := by
  have hm := hn.mvOk h
  refine ⟨_, C101_content h, fun conv => ?_, fun conv hconv => ?_, fun conv hconv ho ha => ?_⟩
  · have := (C100_binary_mode_violated conv (mvFile c.objects c.attributes (c.nd.rows.map fun r => r.map boolStr))).2.1
    rw [this, if_neg]
    simp [mvFile]
  · have h0 := C100_read_mv_txt_partial conv _ _ _ _ hm h.onodup h.anodup
    rw [List.map_id, List.map_id] at h0
    obtain ⟨d, h1, _, h3, h4, h5⟩ := h0.1 (fun _ => true) (by
      intro r hr s hs
      obtain ⟨r, -, rfl⟩ := List.mem_map.1 hr
      obtain ⟨b, -, rfl⟩ := List.mem_map.1 hs
      exact hconv _ (by cases b <;> decide))
    refine ⟨d, h1, h3, h4, ?_⟩
    rw [h5, List.map_map]
    exact List.map_congr_left fun r _ => by simp
  · have h0 := C100_read_mv_txt_partial conv _ _ _ _ hm h.onodup h.anodup
    rw [List.map_id, List.map_id] at h0
    refine h0.2 ?_
    have hr : c.nd.rows ≠ [] := fun e => ho (List.length_eq_zero_iff.1 (by rw [← h.nrows, e]; rfl))
    obtain ⟨r, t, hrt⟩ := List.exists_cons_of_ne_nil hr
    have hrl := h.width r (by simp [hrt])
    obtain ⟨b, l, hbl⟩ := List.exists_cons_of_ne_nil (l := r) fun e => ha (List.length_eq_zero_iff.1 (by rw [← hrl, e]; rfl))
    exact ⟨r.map boolStr, List.mem_map.2 ⟨r, by simp [hrt], rfl⟩, boolStr b, by simp [hbl], hconv b⟩

/-- `uwrite_mv_txt` empties the file and raises TypeError. -/
theorem C101_uwrite_violated (c : Ctx (List Char) (List Char)) : uwriteMvTxt c = ([], some .typeError) := rfl

def sampleMv : Ctx (List Char) (List Char) :=
  ⟨["x".toList, "y".toList], ["a".toList, "b".toList], ⟨some 2, [[true, false], [false, false]]⟩⟩

example : sampleMv.WFw ∧ NamesOk sampleMv := by
  refine ⟨by constructor <;> decide +kernel, ?_⟩
  constructor <;> (try simp only [Safe]) <;> decide +kernel

example : writeMvTxt sampleMv = .ok "x\ty\na\tb\n\nTrue\tFalse\nFalse\tFalse\n".toList := by decide +kernel

/-- A tab at the end of the line of the objects. -/
example : mvFile (["x".toList, "y".toList] ++ List.replicate 1 []) ["a".toList, "b".toList] [["1".toList, "0".toList],
      ["0".toList, "1".toList]] = "x\ty\t\na\tb\n\n1\t0\n0\t1\n".toList ∧
    (∀ x ∈ [["x".toList, "y".toList], ["a".toList, "b".toList]].flatten, '\t' ∉ x) ∧
    pyStrip (fieldLine '\t' ["x".toList, "y".toList]) = fieldLine '\t' ["x".toList, "y".toList] ∧
    (readMvTxtBody .r (fun s => some (s == ['1'])) "x\ty\t\na\tb\n\n1\t0\n0\t1\n".toList).toOption.map
      (fun c => (c.objects, c.attributes, c.nd.rows)) =
      some (["x".toList, "y".toList], ["a".toList, "b".toList], [[true, false], [false, true]]) := by decide +kernel

end Csv
