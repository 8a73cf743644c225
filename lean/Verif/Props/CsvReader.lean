/-
C118: `read_txt_with_names` on files with quotation marks.
-/
import Verif.Model.CsvReader
import Verif.Props.ReadWrite

set_option linter.unusedSectionVars false

open Ctx Spec

/-! ### Specification -/

namespace CsvReader

/-- The usual text of a quoted field: quotation marks around it, those inside doubled. -/
def quote (v : List Char) : List Char := '"' :: (v.flatMap fun c => if c = '"' then ['"', '"'] else [c]) ++ ['"']

/-- The texts that stand for a value: the value itself if it has no tabs and line breaks and does not begin with a
quotation mark, the quoted value, and a quoted part followed by a plain one. -/
inductive Writes : List Char → List Char → Prop
  | plain {v : List Char} : '\t' ∉ v → '\n' ∉ v → '\r' ∉ v → v.head? ≠ some '"' → Writes v v
  | quoted {v : List Char} : '\r' ∉ v → Writes (quote v) v
  | mixed {v w : List Char} : '\r' ∉ v → '\t' ∉ w → '\n' ∉ w → '\r' ∉ w → w.head? ≠ some '"' → Writes (quote v ++ w) (v ++ w)

/-- A cell of the table. -/
def cellText (b : Bool) : List Char := if b then ['1'] else ['0']

/-- A table: the texts of the attributes, and for every object its text, its name and its row. -/
structure Table where
  atts : List (List Char × List Char)
  rows : List ((List Char × List Char) × List Bool)

/-- The file of the documented format. -/
def Table.file (t : Table) : List Char :=
  tabbed (t.atts.map Prod.fst) ++ '\n' :: '\n' ::
    t.rows.flatMap fun r => tabbed (r.1.1 :: r.2.map cellText) ++ ['\n']

/-- The texts stand for the names; no name is longer than the limit of the reader; attributes have no blanks around
them, and no object is named `0` or `1`. -/
structure Table.Ok (lim : ℕ) (t : Table) : Prop where
  pos : 0 < lim
  one : t.rows ≠ []
  att : ∀ a ∈ t.atts, Writes a.1 a.2 ∧ a.2.length ≤ lim ∧ pyStrip a.2 = a.2
  first : tabbed (t.atts.map Prod.fst) = [] → t.atts = []
  obj : ∀ r ∈ t.rows, Writes r.1.1 r.1.2 ∧ r.1.2.length ≤ lim ∧ (r.1.1 ≠ [] ∨ r.2 ≠ []) ∧ r.1.2 ≠ ['0'] ∧ r.1.2 ≠ ['1']
  width : ∀ r ∈ t.rows, r.2.length = t.atts.length

/-! ### The reader on a stream of characters -/

variable {lim : ℕ}

theorem keepLines_ne_nil {f : List Char} (h : f ≠ []) : keepLines f ≠ [] := by
  cases f with
  | nil => exact absurd rfl h
  | cons c f =>
    simp only [keepLines]
    split
    · simp
    · split <;> simp

theorem take_cons {sep c : Char} {p p' : Parser} {f : List Char} (hc : c ≠ '\n') (hf : f ≠ [])
    (hp : p.step lim sep c = .ok p') : take lim sep p (keepLines (c :: f)) = take lim sep p' (keepLines f) := by
  obtain ⟨h, t, ht⟩ := List.exists_cons_of_ne_nil (keepLines_ne_nil hf)
  simp only [keepLines, if_neg hc, ht, take, Parser.feed, hp, py_ok_bind]

theorem take_nl {sep : Char} {p p' : Parser} {f : List Char} (hp : p.step lim sep '\n' = .ok p') :
    take lim sep p (keepLines ('\n' :: f)) =
      if p'.eol.state = .startRecord then some (.ok p'.eol.fields, keepLines f)
      else take lim sep p'.eol (keepLines f) := by
  simp only [keepLines, if_true, take, Parser.feed, hp, py_ok_bind]

/-- Characters inside of a field. -/
theorem take_inField {fs : List (List Char)} {f : List Char} (hf : f ≠ []) (s acc : List Char) (ht : '\t' ∉ s)
    (hn : '\n' ∉ s) (hr : '\r' ∉ s) (hl : (acc ++ s).length ≤ lim) :
    take lim '\t' ⟨.inField, acc, fs⟩ (keepLines (s ++ f)) = take lim '\t' ⟨.inField, acc ++ s, fs⟩ (keepLines f) := by
  induction s generalizing acc with
  | nil => simp
  | cons c s ih =>
    simp only [List.mem_cons, not_or] at ht hn hr
    rw [List.cons_append, take_cons (Ne.symm hn.1) (by simp [hf]) (p' := ⟨.inField, acc ++ [c], fs⟩), ih _ ht.2 hn.2 hr.2]
    · simp
    · simpa using hl
    · simp only [List.length_append, List.length_cons] at hl
      simp only [Parser.step, isNl, Parser.add]
      rw [if_neg (by simp [Ne.symm hn.1, Ne.symm hr.1]), if_neg (Ne.symm ht.1), if_neg (by omega)]

/-- Characters inside of a quoted field. -/
theorem take_inQuoted {fs : List (List Char)} {f : List Char} (hf : f ≠ []) (s acc : List Char)
    (hl : (acc ++ s).length ≤ lim) :
    take lim '\t' ⟨.inQuoted, acc, fs⟩ (keepLines ((s.flatMap fun c => if c = '"' then ['"', '"'] else [c]) ++ f)) =
      take lim '\t' ⟨.inQuoted, acc ++ s, fs⟩ (keepLines f) := by
  induction s generalizing acc with
  | nil => simp
  | cons c s ih =>
    have hl' : ¬ lim ≤ acc.length := by
      simp only [List.length_append, List.length_cons] at hl
      omega
    have hl'' : (acc ++ [c] ++ s).length ≤ lim := by simpa using hl
    have he : acc ++ c :: s = acc ++ [c] ++ s := by simp
    rw [he, ← ih _ hl'']
    have hne : (s.flatMap fun c => if c = '"' then ['"', '"'] else [c]) ++ f ≠ [] := by simp [hf]
    by_cases hc : c = '"'
    · subst hc
      rw [List.flatMap_cons, if_pos rfl]
      simp only [List.cons_append, List.nil_append]
      rw [take_cons (by decide) (by simp) (p' := ⟨.quoteInQuoted, acc, fs⟩) (by simp [Parser.step]),
        take_cons (by decide) hne (p' := ⟨.inQuoted, acc ++ ['"'], fs⟩)]
      simp [Parser.step, Parser.add, hl']
    · rw [List.flatMap_cons, if_neg hc]
      simp only [List.cons_append, List.nil_append]
      have hs : Parser.step lim '\t' ⟨.inQuoted, acc, fs⟩ c = .ok ⟨.inQuoted, acc ++ [c], fs⟩ := by
        simp [Parser.step, Parser.add, hl', hc]
      by_cases hn : c = '\n'
      · subst hn
        rw [take_nl hs, if_neg (by simp [Parser.eol])]
        rfl
      · rw [take_cons hn hne hs]

/-- A state that takes the first character of a field. -/
def Fresh (p : Parser) : Prop := p.field = [] ∧ (p.state = .startField ∨ p.state = .startRecord)

theorem fresh_step {p : Parser} (hp : Fresh p) {c : Char} (hc : isNl c = false) :
    p.step lim '\t' c = p.stepField lim '\t' c := by
  rcases hp.2 with h | h <;> simp [Parser.step, h, hc]

/-- The reader after a field. -/
theorem take_field {p : Parser} {f t v : List Char} (hp : Fresh p) (hf : f ≠ []) (hw : Writes t v) (ht : t ≠ [])
    (hl : v.length ≤ lim) :
    ∃ st : State, (st = .inField ∨ st = .quoteInQuoted) ∧
      take lim '\t' p (keepLines (t ++ f)) = take lim '\t' ⟨st, v, p.fields⟩ (keepLines f) := by
  cases hw with
  | plain h1 h2 h3 h4 =>
    refine ⟨.inField, .inl rfl, ?_⟩
    cases t with
    | nil => exact absurd rfl ht
    | cons c s =>
      simp only [List.mem_cons, not_or] at h1 h2 h3
      have hq : c ≠ '"' := by simpa using h4
      have hnl : isNl c = false := by simp [isNl, Ne.symm h2.1, Ne.symm h3.1]
      rw [List.cons_append, take_cons (Ne.symm h2.1) (by simp [hf]) (p' := ⟨.inField, [c], p.fields⟩),
        take_inField hf s [c] h1.2 h2.2 h3.2 (by simpa using hl)]
      · rfl
      · rw [fresh_step hp hnl]
        simp only [Parser.stepField, hnl, hq, Ne.symm h1.1, Parser.add, hp.1, if_false, Bool.false_eq_true]
        rw [if_neg (by simp only [List.length_cons] at hl; simp; omega)]
        rfl
  | quoted h =>
    refine ⟨.quoteInQuoted, .inr rfl, ?_⟩
    have he : quote v ++ f = '"' :: ((v.flatMap fun c => if c = '"' then ['"', '"'] else [c]) ++ '"' :: f) := by
      simp [quote]
    rw [he, take_cons (by decide) (by simp) (p' := ⟨.inQuoted, [], p.fields⟩), take_inQuoted (by simp) v [] (by simpa using hl),
      take_cons (by decide) hf (p' := ⟨.quoteInQuoted, v, p.fields⟩)]
    · simp [Parser.step]
    · rw [fresh_step hp (by decide)]
      simp [Parser.stepField, isNl, hp.1]
  | @mixed v w hv h1 h2 h3 h4 =>
    have hlv : v.length ≤ lim := by rw [List.length_append] at hl; omega
    have he : quote v ++ w ++ f = '"' :: ((v.flatMap fun c => if c = '"' then ['"', '"'] else [c]) ++ '"' :: (w ++ f)) := by
      simp [quote]
    have hfirst : take lim '\t' p (keepLines (quote v ++ w ++ f)) =
        take lim '\t' ⟨.quoteInQuoted, v, p.fields⟩ (keepLines (w ++ f)) := by
      rw [he, take_cons (by decide) (by simp) (p' := ⟨.inQuoted, [], p.fields⟩),
        take_inQuoted (by simp) v [] (by simpa using hlv),
        take_cons (by decide) (by simp [hf]) (p' := ⟨.quoteInQuoted, v, p.fields⟩)]
      · simp [Parser.step]
      · rw [fresh_step hp (by decide)]
        simp [Parser.stepField, isNl, hp.1]
    rw [hfirst]
    cases w with
    | nil => exact ⟨.quoteInQuoted, .inr rfl, by simp⟩
    | cons c w =>
      simp only [List.mem_cons, not_or] at h1 h2 h3
      have hq : c ≠ '"' := by simpa using h4
      have hnl : isNl c = false := by simp [isNl, Ne.symm h2.1, Ne.symm h3.1]
      refine ⟨.inField, .inl rfl, ?_⟩
      rw [List.cons_append, take_cons (Ne.symm h2.1) (by simp [hf]) (p' := ⟨.inField, v ++ [c], p.fields⟩),
        take_inField hf w (v ++ [c]) h1.2 h2.2 h3.2 (by simpa using hl)]
      · simp
      · simp only [Parser.step, hq, Ne.symm h1.1, hnl, if_false, Bool.false_eq_true, Parser.add]
        rw [if_neg (by simp only [List.length_append, List.length_cons] at hl; omega)]

theorem writes_nil {v : List Char} (h : Writes [] v) : v = [] := by
  generalize ht : ([] : List Char) = t at h
  cases h with
  | plain => exact ht.symm ▸ rfl
  | quoted => simp [quote] at ht
  | mixed => simp [quote] at ht

theorem take_tab {p : Parser} {f t v : List Char} (hp : Fresh p) (hf : f ≠ []) (hw : Writes t v)
    (hl : v.length ≤ lim) :
    take lim '\t' p (keepLines (t ++ '\t' :: f)) = take lim '\t' ⟨.startField, [], p.fields ++ [v]⟩ (keepLines f) := by
  by_cases ht : t = []
  · subst ht
    rw [writes_nil hw, List.nil_append, take_cons (by decide) hf]
    rw [fresh_step hp (by decide)]
    simp [Parser.stepField, isNl, Parser.save, hp.1]
  · obtain ⟨st, hst, he⟩ := take_field (f := '\t' :: f) hp (by simp) hw ht hl
    rw [he, take_cons (by decide) hf]
    rcases hst with rfl | rfl <;> simp [Parser.step, isNl, Parser.save]

theorem take_last {p : Parser} {f t v : List Char} (hp : Fresh p) (hw : Writes t v) (ht : t ≠ [] ∨ p.state = .startField)
    (hl : v.length ≤ lim) :
    take lim '\t' p (keepLines (t ++ '\n' :: f)) = some (.ok (p.fields ++ [v]), keepLines f) := by
  by_cases ht' : t = []
  · subst ht'
    have hs : p.state = .startField := by simpa using ht
    rw [writes_nil hw, List.nil_append, take_nl (p' := p.save .eatNl)]
    · simp [Parser.eol, Parser.save, hp.1]
    · simp [Parser.step, hs, Parser.stepField, isNl]
  · obtain ⟨st, hst, he⟩ := take_field (f := '\n' :: f) hp (by simp) hw ht' hl
    rw [he, take_nl (p' := Parser.save ⟨st, v, p.fields⟩ .eatNl)]
    · simp [Parser.eol, Parser.save]
    · rcases hst with rfl | rfl <;> simp [Parser.step, isNl]

theorem take_fields {p : Parser} {f : List Char} (hp : Fresh p) (x : List Char × List Char) (l : List (List Char × List Char))
    (hw : ∀ y ∈ x :: l, Writes y.1 y.2 ∧ y.2.length ≤ lim)
    (ht : tabbed ((x :: l).map Prod.fst) ≠ [] ∨ p.state = .startField) :
    take lim '\t' p (keepLines (tabbed ((x :: l).map Prod.fst) ++ '\n' :: f)) =
      some (.ok (p.fields ++ (x :: l).map Prod.snd), keepLines f) := by
  induction l generalizing x p with
  | nil =>
    have he : tabbed ([x].map Prod.fst) = x.1 := by simp [tabbed]
    rw [he] at ht ⊢
    rw [take_last hp (hw x (by simp)).1 ht (hw x (by simp)).2]
    rfl
  | cons y l ih =>
    have he : tabbed ((x :: y :: l).map Prod.fst) ++ '\n' :: f = x.1 ++ '\t' :: (tabbed ((y :: l).map Prod.fst) ++ '\n' :: f) := by
      simp [tabbed]
    rw [he, take_tab hp (by simp) (hw x (by simp)).1 (hw x (by simp)).2,
      ih ⟨rfl, .inl rfl⟩ y (fun z hz => hw z (List.mem_cons_of_mem _ hz)) (.inr rfl)]
    simp

/-- The record of a line of texts. -/
theorem take_record (l : List (List Char × List Char)) (f : List Char)
    (hw : ∀ y ∈ l, Writes y.1 y.2 ∧ y.2.length ≤ lim) (ht : tabbed (l.map Prod.fst) = [] → l = []) :
    take lim '\t' .start (keepLines (tabbed (l.map Prod.fst) ++ '\n' :: f)) =
      some (.ok (l.map Prod.snd), keepLines f) := by
  cases l with
  | nil =>
    show take lim '\t' .start (keepLines ('\n' :: f)) = _
    rw [take_nl (p' := ⟨.eatNl, [], []⟩) (by simp [Parser.step, Parser.start, isNl])]
    simp [Parser.eol]
  | cons x l =>
    rw [take_fields ⟨rfl, .inr rfl⟩ x l hw (.inl fun h => by simpa using ht h)]
    rfl

theorem keepLines_length {f : List Char} (c : Char) : (keepLines f).length ≤ (keepLines (c :: f)).length := by
  simp only [keepLines]
  split
  · simp
  · split <;> rename_i h <;> simp [h]

theorem keepLines_append {s f : List Char} : (keepLines f).length + 1 ≤ (keepLines (s ++ '\n' :: f)).length := by
  induction s with
  | nil => simp [keepLines]
  | cons c s ih => exact ih.trans (keepLines_length c)

/-- The records of a file made of lines of texts. -/
theorem records_lines (ls : List (List (List Char × List Char)))
    (hw : ∀ l ∈ ls, ∀ y ∈ l, Writes y.1 y.2 ∧ y.2.length ≤ lim) (ht : ∀ l ∈ ls, tabbed (l.map Prod.fst) = [] → l = [])
    (n : ℕ) (hn : (keepLines (ls.flatMap fun l => tabbed (l.map Prod.fst) ++ ['\n'])).length ≤ n) :
    records lim '\t' n (keepLines (ls.flatMap fun l => tabbed (l.map Prod.fst) ++ ['\n'])) =
      ls.map fun l => .ok (l.map Prod.snd) := by
  induction ls generalizing n with
  | nil => cases n <;> simp [records, keepLines, take, Parser.start]
  | cons l ls ih =>
    have he : ((l :: ls).flatMap fun l => tabbed (l.map Prod.fst) ++ ['\n']) =
        tabbed (l.map Prod.fst) ++ '\n' :: ls.flatMap fun l => tabbed (l.map Prod.fst) ++ ['\n'] := by simp
    rw [he] at hn ⊢
    have := (keepLines_append (s := tabbed (l.map Prod.fst))
      (f := ls.flatMap fun l => tabbed (l.map Prod.fst) ++ ['\n'])).trans hn
    obtain ⟨n, rfl⟩ := Nat.exists_eq_add_one.2 (Nat.lt_of_lt_of_le (Nat.succ_pos _) this)
    simp only [records, take_record l _ (hw l (by simp)) (ht l (by simp))]
    rw [ih (fun l hl => hw l (by simp [hl])) (fun l hl => ht l (by simp [hl])) n (by omega)]
    rfl

theorem quote_no_cr {v : List Char} (h : '\r' ∉ v) : '\r' ∉ quote v := by
  simp only [quote, List.cons_append, List.mem_cons, List.mem_append, List.mem_flatMap, not_or, not_exists, not_and]
  refine ⟨by decide, ?_, by decide, by simp⟩
  intro c hc he
  split at he
  · simp at he
  · simp only [List.mem_singleton] at he
    exact h (he ▸ hc)

theorem writes_no_cr {t v : List Char} (h : Writes t v) : '\r' ∉ t := by
  cases h with
  | plain _ _ h _ => exact h
  | quoted h => exact quote_no_cr h
  | mixed h _ _ h' _ => exact fun hc => (List.mem_append.1 hc).elim (quote_no_cr h) h'

theorem writes_cell (b : Bool) : Writes (cellText b) (cellText b) := by
  cases b <;> exact .plain (by decide) (by decide) (by decide) (by decide)

/-- All lines of the file. -/
def Table.lines (t : Table) : List (List (List Char × List Char)) :=
  t.atts :: [] :: t.rows.map fun r => r.1 :: r.2.map fun b => (cellText b, cellText b)

theorem Table.file_lines (t : Table) : t.file = t.lines.flatMap fun l => tabbed (l.map Prod.fst) ++ ['\n'] := by
  simp [Table.file, Table.lines, List.flatMap_map, tabbed, Function.comp_def]

variable {t : Table}

theorem Table.Ok.writes (h : t.Ok lim) : ∀ l ∈ t.lines, ∀ y ∈ l, Writes y.1 y.2 ∧ y.2.length ≤ lim := by
  intro l hl y hy
  simp only [Table.lines, List.mem_cons, List.mem_map] at hl
  rcases hl with rfl | rfl | ⟨r, hr, rfl⟩
  · exact ⟨(h.att y hy).1, (h.att y hy).2.1⟩
  · simp at hy
  · rcases List.mem_cons.1 hy with rfl | hy
    · exact ⟨(h.obj r hr).1, (h.obj r hr).2.1⟩
    · obtain ⟨b, -, rfl⟩ := List.mem_map.1 hy
      have := h.pos
      exact ⟨writes_cell b, by cases b <;> simp [cellText] <;> omega⟩

theorem Table.Ok.nonempty (h : t.Ok lim) : ∀ l ∈ t.lines, tabbed (l.map Prod.fst) = [] → l = [] := by
  intro l hl he
  simp only [Table.lines, List.mem_cons, List.mem_map] at hl
  rcases hl with rfl | rfl | ⟨r, hr, rfl⟩
  · exact h.first he
  · rfl
  · rcases (h.obj r hr).2.2.1 with h1 | h1
    · simp [tabbed, h1] at he
    · obtain ⟨b, s, hs⟩ := List.exists_cons_of_ne_nil h1
      simp [tabbed, hs] at he

theorem Table.Ok.reader (h : t.Ok lim) : reader lim '\t' t.file = t.lines.map fun l => .ok (l.map Prod.snd) := by
  have hcr : '\r' ∉ t.file := by
    rw [t.file_lines]
    simp only [List.mem_flatMap, not_exists, not_and, List.mem_append, not_or]
    refine fun l hl => ⟨not_mem_tabbed (by decide) fun x hx => ?_, by simp⟩
    obtain ⟨y, hy, rfl⟩ := List.mem_map.1 hx
    exact writes_no_cr (h.writes l hl y hy).1
  unfold CsvReader.reader
  simp only [nlTranslate_id hcr]
  rw [t.file_lines]
  exact records_lines _ h.writes h.nonempty _ le_rfl

theorem filterMap_cellText (r : List Bool) : (r.map cellText).filterMap txtCell = r := by
  induction r with
  | nil => rfl
  | cons b r ih =>
    rw [List.map_cons, List.filterMap_cons]
    have : txtCell (cellText b) = some b := by cases b <;> decide
    rw [this]
    simp [ih]

/-- A table whose names are written plainly, or quoted in the usual way, is read back. -/
theorem C118_read_back (h : t.Ok lim) (ho : (t.rows.map fun r => r.1.2).Nodup) (ha : (t.atts.map Prod.snd).Nodup) :
    readTxtWithNames lim t.file =
      .ok ⟨t.rows.map fun r => r.1.2, t.atts.map Prod.snd, ⟨some t.atts.length, t.rows.map Prod.snd⟩⟩ := by
  have hs : (t.atts.map Prod.snd).map pyStrip = t.atts.map Prod.snd := by
    rw [List.map_map]
    exact List.map_congr_left fun a ha => (h.att a ha).2.2
  have hd : ((t.rows.map fun r => r.1 :: r.2.map fun b => (cellText b, cellText b)).map fun l =>
      (Except.ok (l.map Prod.snd) : Py (List (List Char)))).mapM (fun rec => do
        let rec ← rec
        txtRecord rec) = .ok (t.rows.map fun r => (r.1.2, r.2)) := by
    rw [List.map_map, List.mapM_map, mapM_ok]
    intro r hr
    have hc : txtCell r.1.2 = none := by
      unfold txtCell
      rw [if_neg (h.obj r hr).2.2.2.1, if_neg (h.obj r hr).2.2.2.2]
    simp only [Function.comp, py_ok_bind, List.map_cons, txtRecord, List.filterMap_cons, hc, List.map_map]
    have : (Prod.snd ∘ fun b => (cellText b, cellText b)) = cellText := rfl
    rw [this, filterMap_cellText]
  unfold readTxtWithNames
  rw [h.reader]
  simp only [Table.lines, List.map_cons, List.map_nil, py_ok_bind, hd, hs]
  obtain ⟨r, rs, hr⟩ := List.exists_cons_of_ne_nil h.one
  have hw := h.width r (by simp [hr])
  rw [hr]
  simp only [List.map_cons, List.length_map, hw, ne_eq, not_true_eq_false, if_false]
  rw [make_ok (by simp), renameAll_nodup, renameAll_nodup ha]
  · simp [Function.comp_def]
  · rw [hr] at ho
    simpa [Function.comp_def] using ho
  · intro x hx
    rw [List.length_map]
    simp only [List.map_map, List.mem_cons, List.mem_map] at hx
    rcases hx with rfl | ⟨r', hr', rfl⟩
    · exact hw
    · exact h.width r' (by simp [hr, hr'])

theorem quote_ne (v : List Char) : quote v ≠ v := by
  intro h
  have hl : ∀ w : List Char, w.length ≤ (w.flatMap fun c => if c = '"' then ['"', '"'] else [c]).length := by
    intro w
    induction w with
    | nil => simp
    | cons c w ih =>
      rw [List.flatMap_cons, List.length_append, List.length_cons]
      have : 1 ≤ (if c = '"' then ['"', '"'] else [c]).length := by split <;> simp
      omega
  have := congrArg List.length h
  simp only [quote, List.length_cons, List.length_append, List.length_nil] at this
  have := hl v
  omega

/-- An object name that looks like a quoted text is not read back: the quotation marks are lost. -/
theorem C118_quoted_name_violated (h : t.Ok lim) (ho : (t.rows.map fun r => r.1.2).Nodup)
    (ha : (t.atts.map Prod.snd).Nodup) {r : (List Char × List Char) × List Bool} (hr : r ∈ t.rows)
    (hq : r.1.1 = quote r.1.2) :
    ∃ c, readTxtWithNames lim t.file = .ok c ∧ c.objects ≠ t.rows.map fun r => r.1.1 := by
  refine ⟨_, C118_read_back h ho ha, fun he => ?_⟩
  have := List.map_inj_left.1 he r hr
  rw [hq] at this
  exact quote_ne _ this.symm

/-! ### An opening quotation mark without a closing one -/

theorem take_unclosed (fs : List (List Char)) (s acc : List Char) (hq : '"' ∉ s) (hl : (acc ++ s).length ≤ lim) :
    take lim '\t' ⟨.inQuoted, acc, fs⟩ (keepLines s) = some (.ok (fs ++ [acc ++ s]), []) := by
  induction s generalizing acc with
  | nil => simp [keepLines, take, Parser.save]
  | cons c s ih =>
    simp only [List.mem_cons, not_or] at hq
    have hl' : ¬ lim ≤ acc.length := by
      simp only [List.length_append, List.length_cons] at hl
      omega
    have hs : Parser.step lim '\t' ⟨.inQuoted, acc, fs⟩ c = .ok ⟨.inQuoted, acc ++ [c], fs⟩ := by
      simp [Parser.step, Parser.add, hl', Ne.symm hq.1]
    have := ih (acc ++ [c]) hq.2 (by simpa using hl)
    by_cases hn : c = '\n'
    · subst hn
      rw [take_nl hs, if_neg (by simp [Parser.eol])]
      show take lim '\t' ⟨.inQuoted, acc ++ ['\n'], fs⟩ (keepLines s) = _
      rw [this]
      simp
    · by_cases hf : s = []
      · subst hf
        simp only [keepLines, if_neg hn, take, Parser.feed, hs, py_ok_bind, Parser.eol]
        simp [Parser.save]
      · rw [take_cons hn hf hs, this]
        simp

theorem splitOn1_tabbed_nl (x : List Char) (l : List (List Char)) (h : ∀ y ∈ x :: l, '\t' ∉ y) :
    (splitOn1 '\t' (tabbed (x :: l) ++ ['\n'])).length = l.length + 1 := by
  induction l generalizing x with
  | nil =>
    have he : tabbed [x] ++ ['\n'] = x ++ ['\n'] := by simp [tabbed]
    rw [he, splitOn1_single (by simpa using h x (by simp))]
    rfl
  | cons y l ih =>
    have he : tabbed (x :: y :: l) ++ ['\n'] = x ++ '\t' :: (tabbed (y :: l) ++ ['\n']) := by simp [tabbed]
    rw [he, splitOn1_append (h x (by simp)), List.length_cons, ih y fun z hz => h z (by simp [List.mem_cons.1 hz])]
    rfl

theorem writes_safe {v : List Char} (h : TabSafe v) : Writes v v := by
  refine .plain h.1 h.2.1 h.2.2.1 fun hh => h.2.2.2 ?_
  cases v with
  | nil => simp at hh
  | cons c v => simp at hh; simp [hh]

/-- If the name of the first object begins with a quotation mark and the file has no other one, the rest of the file is
the name of the only object: with one attribute the result is a context without attributes, with several ValueError is
raised. -/
theorem C118_unclosed_violated {atts : List (List Char)} {s : List Char}
    (ha : ∀ a ∈ atts, TabSafe a ∧ a.length ≤ lim) (h1 : tabbed atts ≠ []) (hq : '"' ∉ s)
    (hr : '\r' ∉ s) (hl : s.length ≤ lim) (ht : '\t' ∈ s) :
    readTxtWithNames lim (tabbed atts ++ '\n' :: '\n' :: '"' :: s) =
      if atts.length = 1 then .ok ⟨[s], [], ⟨some 0, [[]]⟩⟩ else .error .valueError := by
  have hnl : '\n' ∉ tabbed atts := not_mem_tabbed (by decide) fun a h => (ha a h).1.2.1
  have hcr : '\r' ∉ tabbed atts ++ '\n' :: '\n' :: '"' :: s := by
    simp only [List.mem_append, List.mem_cons, not_or]
    exact ⟨not_mem_tabbed (by decide) fun a h => (ha a h).1.2.2.1, by decide, by decide, by decide, hr⟩
  have he : (atts.map fun a => (a, a)).map Prod.fst = atts := by simp [Function.comp_def]
  have he' : (atts.map fun a => (a, a)).map Prod.snd = atts := by simp [Function.comp_def]
  have t1 := take_record (lim := lim) (atts.map fun a => (a, a)) ('\n' :: '"' :: s)
    (by
      intro y hy
      obtain ⟨a, h, rfl⟩ := List.mem_map.1 hy
      exact ⟨writes_safe (ha a h).1, (ha a h).2⟩) (by rw [he]; exact fun h => absurd h h1)
  rw [he, he'] at t1
  have t2 := take_record (lim := lim) [] ('"' :: s) (by simp) (by simp)
  simp only [List.map_nil, tabbed, List.nil_append] at t2
  have t3 : take lim '\t' .start (keepLines ('"' :: s)) = some (.ok [s], []) := by
    have hs : s ≠ [] := List.ne_nil_of_mem ht
    rw [take_cons (by decide) hs (p' := ⟨.inQuoted, [], []⟩), take_unclosed [] s [] hq (by simpa using hl)]
    · rfl
    · rw [fresh_step ⟨rfl, .inr rfl⟩ (by decide)]
      simp [Parser.stepField, Parser.start, isNl]
  have hrd : reader lim '\t' (tabbed atts ++ '\n' :: '\n' :: '"' :: s) = [.ok atts, .ok [], .ok [s]] := by
    unfold reader
    simp only [nlTranslate_id hcr]
    have l1 := keepLines_append (s := tabbed atts) (f := '\n' :: '"' :: s)
    have l2 := keepLines_append (s := []) (f := '"' :: s)
    have l3 : 0 < (keepLines ('"' :: s)).length := List.length_pos_iff.2 (keepLines_ne_nil (by simp))
    rw [List.nil_append] at l2
    obtain ⟨n, hn⟩ : ∃ n, (keepLines (tabbed atts ++ '\n' :: '\n' :: '"' :: s)).length = n + 3 :=
      ⟨_, (Nat.sub_add_cancel (by omega)).symm⟩
    rw [hn]
    simp only [records, t1, t2, t3]
    cases n <;> simp [records, take, Parser.start]
  have hc : txtCell s = none := by
    unfold txtCell
    rw [if_neg, if_neg] <;> rintro rfl <;> simp at ht
  obtain ⟨x, l, rfl⟩ : ∃ x l, atts = x :: l := List.exists_cons_of_ne_nil (by rintro rfl; simp [tabbed] at h1)
  unfold readTxtWithNames
  rw [hrd]
  simp only [py_ok_bind, List.mapM_cons, List.mapM_nil, txtRecord, List.filterMap_cons, hc, List.filterMap_nil,
    nlTranslate_id hcr, readline_append hnl, List.length_map, List.length_cons]
  have hlen := splitOn1_tabbed_nl x l fun y hy => (ha y hy).1.1
  show Ctx.make [[]] [s] (if l.length + 1 ≠ ([] : List Bool).length then _ else _) = _
  rw [if_pos (show l.length + 1 ≠ ([] : List Bool).length by simp)]
  by_cases h : l.length + 1 = 1
  · have h0 : (splitOn1 '\t' (tabbed (x :: l) ++ ['\n'])).dropLast = [] := by
      apply List.eq_nil_of_length_eq_zero
      rw [List.length_dropLast, hlen]; omega
    rw [if_pos h, h0]
    rfl
  · rw [if_neg h]
    apply make_err
    right
    refine ⟨[], by simp, ?_⟩
    rw [List.length_dropLast, hlen, List.length_nil]; omega

/-! ### Long names -/

theorem nlTranslate_append {a f : List Char} (h : '\r' ∉ a) : nlTranslate (a ++ f) = a ++ nlTranslate f := by
  induction a with
  | nil => rfl
  | cons c a ih =>
    simp only [List.mem_cons, not_or] at h
    rw [List.cons_append, List.cons_append, ← ih h.2]
    generalize a ++ f = l
    cases l with
    | nil => simp [nlTranslate, Ne.symm h.1]
    | cons d l => simp [nlTranslate, Ne.symm h.1]

theorem take_error {c : Char} {p : Parser} {f : List Char} (hc : c ≠ '\n') {e : PyErr}
    (hp : p.step lim '\t' c = .error e) : ∃ ls, take lim '\t' p (keepLines (c :: f)) = some (.error e, ls) := by
  simp only [keepLines, if_neg hc]
  split <;> exact ⟨_, by simp only [take, Parser.feed, hp]; rfl⟩

theorem take_long {fs : List (List Char)} {f : List Char} (s acc : List Char) (hs : TabSafe s) (ha : acc.length ≤ lim)
    (hl : lim < (acc ++ s).length) :
    ∃ ls, take lim '\t' ⟨.inField, acc, fs⟩ (keepLines (s ++ f)) = some (.error .csvError, ls) := by
  induction s generalizing acc with
  | nil => simp at hl; omega
  | cons c s ih =>
    simp only [TabSafe, List.mem_cons, not_or] at hs
    obtain ⟨ht, hn, hr, hq⟩ := hs
    rw [List.cons_append]
    have hstep : Parser.step lim '\t' ⟨.inField, acc, fs⟩ c = Parser.add lim ⟨.inField, acc, fs⟩ c .inField := by
      have hnl : isNl c = false := by simp [isNl, Ne.symm hn.1, Ne.symm hr.1]
      simp only [Parser.step, hnl, Ne.symm ht.1, if_false, Bool.false_eq_true]
    by_cases h : lim ≤ acc.length
    · exact take_error (Ne.symm hn.1) (by rw [hstep, Parser.add, if_pos h])
    · have hs : s ≠ [] := by
        rintro rfl
        simp at hl
        omega
      rw [take_cons (Ne.symm hn.1) (by simp [hs]) (by rw [hstep, Parser.add, if_neg h])]
      exact ih _ ⟨ht.2, hn.2, hr.2, hq.2⟩ (by simp; omega) (by simpa using hl)

/-- A name longer than the limit of the reader: `csv.Error`. -/
theorem C118_too_long {a f : List Char} (ha : TabSafe a) (hl : lim < a.length) :
    readTxtWithNames lim (a ++ f) = .error .csvError := by
  obtain ⟨ls, h⟩ : ∃ ls, take lim '\t' .start (keepLines (a ++ nlTranslate f)) = some (.error .csvError, ls) := by
    cases a with
    | nil => simp at hl
    | cons c a =>
      simp only [TabSafe, List.mem_cons, not_or] at ha
      obtain ⟨ht, hn, hr, hq⟩ := ha
      have hnl : isNl c = false := by simp [isNl, Ne.symm hn.1, Ne.symm hr.1]
      have hstep : Parser.step lim '\t' .start c = Parser.add lim .start c .inField := by
        rw [fresh_step ⟨rfl, .inr rfl⟩ hnl]
        simp only [Parser.stepField, hnl, Ne.symm hq.1, Ne.symm ht.1, if_false, Bool.false_eq_true]
      rw [List.cons_append]
      by_cases h : lim = 0
      · exact take_error (Ne.symm hn.1) (by rw [hstep, Parser.add, if_pos (by omega)])
      · have hs : a ≠ [] := by
          rintro rfl
          simp at hl
          omega
        rw [take_cons (Ne.symm hn.1) (by simp [hs]) (p' := ⟨.inField, [c], []⟩)
          (by rw [hstep, Parser.add, if_neg (by simp [Parser.start]; omega)]; rfl)]
        exact take_long a [c] ⟨ht.2, hn.2, hr.2, hq.2⟩ (by simp; omega) (by simpa using hl)
  have hrd : reader lim '\t' (a ++ f) = [.error .csvError] := by
    unfold reader
    simp only [nlTranslate_append ha.2.2.1]
    obtain ⟨n, hn⟩ := Nat.exists_eq_add_one.2 (List.length_pos_iff.2
      (keepLines_ne_nil (f := a ++ nlTranslate f) (by rintro h; simp at h; simp [h.1] at hl)))
    rw [hn]
    simp only [records, h]
  unfold readTxtWithNames
  rw [hrd]
  rfl

/-! ### The model without quotation marks -/

/-- Fields for which quotation marks play no role. -/
def Simple (lim : ℕ) (x : List Char) : Prop := x.head? ≠ some '"' ∧ x.length ≤ lim

theorem feed_tail {tail : List Char} (ht : tail = [] ∨ tail = ['\n']) (st : State) (hst : st = .inField ∨ st = .startField)
    (acc : List Char) (fs : List (List Char)) :
    Parser.feed lim '\t' ⟨st, acc, fs⟩ tail = .ok ⟨.startRecord, [], fs ++ [acc]⟩ := by
  rcases ht with rfl | rfl <;> rcases hst with rfl | rfl <;>
    simp [Parser.feed, Parser.step, Parser.stepField, Parser.eol, Parser.save, isNl, py_ok_bind]

theorem feed_line {tail : List Char} (ht : tail = [] ∨ tail = ['\n']) (line : List Char) (hn : '\n' ∉ line)
    (hr : '\r' ∉ line) :
    (∀ acc fs x xs, splitOn1 '\t' line = x :: xs → (acc ++ x).length ≤ lim → (∀ y ∈ xs, Simple lim y) →
      Parser.feed lim '\t' ⟨.inField, acc, fs⟩ (line ++ tail) = .ok ⟨.startRecord, [], fs ++ (acc ++ x) :: xs⟩) ∧
    ∀ p : Parser, Fresh p → (line ≠ [] ∨ p.state = .startField) → (∀ y ∈ splitOn1 '\t' line, Simple lim y) →
      p.feed lim '\t' (line ++ tail) = .ok ⟨.startRecord, [], p.fields ++ splitOn1 '\t' line⟩ := by
  induction line with
  | nil =>
    refine ⟨?_, ?_⟩
    · intro acc fs x xs h _ _
      simp only [splitOn1, List.cons.injEq] at h
      obtain ⟨rfl, rfl⟩ := h
      simpa using feed_tail ht .inField (.inl rfl) acc fs
    · intro p hp hs _
      obtain ⟨st, fld, fs⟩ := p
      have h1 : st = .startField := by simpa using hs
      have h2 : fld = [] := hp.1
      subst h1 h2
      simpa [splitOn1] using feed_tail ht .startField (.inr rfl) [] fs
  | cons c line ih =>
    simp only [List.mem_cons, not_or] at hn hr
    obtain ⟨ihA, ihB⟩ := ih hn.2 hr.2
    have hnl : isNl c = false := by simp [isNl, Ne.symm hn.1, Ne.symm hr.1]
    obtain ⟨h, t, hsp⟩ := List.exists_cons_of_ne_nil (splitOn1_ne_nil '\t' line)
    refine ⟨?_, ?_⟩
    · intro acc fs x xs he hl hy
      rw [List.cons_append, Parser.feed]
      simp only [Parser.step, hnl, Bool.false_eq_true, if_false]
      by_cases hc : c = '\t'
      · subst hc
        simp only [splitOn1, if_true, List.cons.injEq] at he
        obtain ⟨rfl, rfl⟩ := he
        simp only [if_true, py_ok_bind]
        rw [ihB _ ⟨rfl, .inl rfl⟩ (.inr rfl) hy]
        simp [Parser.save]
      · simp only [splitOn1, if_neg hc, hsp, List.cons.injEq] at he
        obtain ⟨rfl, rfl⟩ := he
        simp only [if_neg hc, Parser.add]
        rw [if_neg (by simp at hl; omega), py_ok_bind, ihA _ _ _ _ hsp (by simpa using hl) hy]
        simp
    · intro p hp _ hy
      rw [List.cons_append, Parser.feed, fresh_step hp hnl]
      simp only [Parser.stepField, hnl, Bool.false_eq_true, if_false]
      by_cases hc : c = '\t'
      · subst hc
        simp only [splitOn1, if_true] at hy ⊢
        rw [if_neg (by decide), py_ok_bind, ihB _ ⟨rfl, .inl rfl⟩ (.inr rfl) fun y h => hy y (by simp [h])]
        simp [Parser.save, hp.1]
      · simp only [splitOn1, if_neg hc, hsp] at hy ⊢
        have h1 := hy (c :: h) (by simp)
        rw [if_neg (by simpa [Simple] using h1.1), Parser.add, if_neg (by have := h1.2; simp [hp.1] at this ⊢; omega),
          py_ok_bind, ihA _ _ _ _ hsp (by have := h1.2; simpa [hp.1] using this) fun y h => hy y (by simp [h])]
        simp [hp.1]

theorem no_cr_nlTranslate (f : List Char) : '\r' ∉ nlTranslate f := by
  induction f using nlTranslate.induct with
  | case1 => simp [nlTranslate]
  | case2 l ih => simp [nlTranslate, ih]
  | case3 c l h ih =>
    rw [nlTranslate.eq_3 _ _ h]
    simp only [List.mem_cons, not_or]
    refine ⟨?_, ih⟩
    split
    · decide
    · rename_i hc
      exact Ne.symm hc

theorem keepLines_fileLines {f : List Char} (hr : '\r' ∉ f) :
    List.Forall₂ (fun k l => '\n' ∉ l ∧ '\r' ∉ l ∧ ∃ tail, (tail = [] ∨ tail = ['\n']) ∧ k = l ++ tail)
      (keepLines f) (fileLines f) := by
  induction f with
  | nil => exact .nil
  | cons c f ih =>
    simp only [List.mem_cons, not_or] at hr
    have ih := ih hr.2
    by_cases hc : c = '\n'
    · subst hc
      simp only [keepLines, fileLines, if_true]
      exact .cons ⟨by simp, by simp, ['\n'], .inr rfl, rfl⟩ ih
    · simp only [keepLines, fileLines, if_neg hc]
      generalize keepLines f = ks at ih
      generalize fileLines f = ls at ih
      cases ih with
      | nil => exact .cons ⟨by simpa using Ne.symm hc, by simpa using hr.1, [], .inl rfl, by simp⟩ .nil
      | cons h1 h2 =>
        obtain ⟨h1, h1', tail, ht, rfl⟩ := h1
        exact .cons ⟨by simp [h1, Ne.symm hc], by simp [h1', hr.1], tail, ht, by simp⟩ h2

theorem reader_simple {file : List Char}
    (h : ∀ l ∈ fileLines (nlTranslate file), ∀ x ∈ splitOn1 '\t' l, Simple lim x) :
    reader lim '\t' file = (fileLines (nlTranslate file)).map fun l => .ok (csvRecord l) := by
  unfold reader
  have hf := keepLines_fileLines (no_cr_nlTranslate file)
  simp only
  generalize fileLines (nlTranslate file) = ls at h hf
  generalize keepLines (nlTranslate file) = ks at hf
  induction hf with
  | nil => rfl
  | @cons k l ks ls h1 _ ih =>
    obtain ⟨hn, hr, tail, ht, rfl⟩ := h1
    have hfeed : Parser.feed lim '\t' .start (l ++ tail) = .ok ⟨.startRecord, [], csvRecord l⟩ := by
      by_cases hl : l = []
      · subst hl
        rcases ht with rfl | rfl <;> simp [Parser.feed, Parser.start, Parser.eol, Parser.step, csvRecord, isNl, py_ok_bind]
      · rw [(feed_line ht l hn hr).2 .start ⟨rfl, .inr rfl⟩ (.inl hl) (h l (by simp))]
        simp [csvRecord, hl, Parser.start]
    simp only [List.length_cons, records, take, hfeed, if_true, List.map_cons]
    rw [ih fun l hl => h l (by simp [hl])]

/-- If no field begins with a quotation mark and none is too long, `read_txt_with_names` is the function modelled in
`ReadWrite`, for all files. -/
theorem C118_simple_model {file : List Char}
    (h : ∀ l ∈ fileLines (nlTranslate file), ∀ x ∈ splitOn1 '\t' l, Simple lim x) :
    readTxtWithNames lim file = _root_.readTxtWithNames file := by
  have hd : ∀ ls : List (List Char), ((ls.map fun l => (Except.ok (csvRecord l) : Py (List (List Char)))).mapM fun rec => do
      let rec ← rec
      txtRecord rec) = ls.mapM txtRow := by
    intro ls
    rw [List.mapM_map]
    rfl
  unfold readTxtWithNames _root_.readTxtWithNames
  rw [reader_simple h]
  simp only
  cases hls : fileLines (nlTranslate file) with
  | nil => rfl
  | cons l ls =>
    cases ls with
    | nil => rfl
    | cons l' ls =>
      simp only [List.map_cons, py_ok_bind, hd]
      rfl

/-! ### Cases -/

example : Table.Ok 131072 ⟨[("si\"ze".toList, "si\"ze".toList), ("\"a\tb\"".toList, "a\tb".toList)],
    [(("\"say \"\"x\"\"\ny\"".toList, "say \"x\"\ny".toList), [true, false]), (([], []), [false, false])]⟩ where
  pos := by decide
  one := by simp
  att := by
    simp only [List.mem_cons, List.not_mem_nil, or_false, forall_eq_or_imp, forall_eq]
    exact ⟨⟨.plain (by decide) (by decide) (by decide) (by decide), by decide, by decide⟩,
      ⟨.quoted (v := "a\tb".toList) (by decide), by decide, by decide⟩⟩
  first := by decide
  obj := by
    simp only [List.mem_cons, List.not_mem_nil, or_false, forall_eq_or_imp, forall_eq]
    exact ⟨⟨.quoted (v := "say \"x\"\ny".toList) (by decide), by decide, by decide, by decide, by decide⟩,
      ⟨.plain (by decide) (by decide) (by decide) (by decide), by decide, by decide, by decide, by decide⟩⟩
  width := by decide

example : Writes "\"a\tb\" c\"".toList "a\tb c\"".toList :=
  .mixed (v := "a\tb".toList) (w := " c\"".toList) (by decide) (by decide) (by decide) (by decide) (by decide)

example : readTxtWithNames 131072 "a\n\n\"g\t1\nh\t0\n".toList = .ok ⟨["g\t1\nh\t0\n".toList], [], ⟨some 0, [[]]⟩⟩ := by
  decide +kernel

example : readTxtWithNames 131072 "a\tb\n\n\"g\t1\t0\nh\t0\t1\n".toList = .error .valueError := by decide +kernel

example : ∀ l ∈ fileLines (nlTranslate "a\"\r\n\r\ng\"h\"\t1".toList), ∀ x ∈ splitOn1 '\t' l, Simple 131072 x := by
  unfold Simple
  decide +kernel

end CsvReader
