/-
Model of `csv.reader` of the Python standard library (Modules/_csv.c, `parse_process_char` and `Reader_iternext`) with
the settings used by fca/readwrite (the dialect `excel` with another delimiter: quotation marks are doubled inside of
quoted fields, no escape character, not strict), and of `read_txt_with_names` on top of it. Unlike `csvRecord` in
`ReadWrite` files may contain quotation marks.
-/
import Verif.Model.ReadWrite

namespace CsvReader

/-- The states of the parser. -/
inductive State
  | startRecord | startField | inField | inQuoted | quoteInQuoted | eatNl
  deriving DecidableEq

/-- State, characters of the current field, finished fields of the current record. -/
structure Parser where
  state : State
  field : List Char
  fields : List (List Char)
  deriving DecidableEq

/-- The parser at the start of a record. -/
def Parser.start : Parser := ⟨.startRecord, [], []⟩

/-- `parse_save_field`. -/
def Parser.save (p : Parser) (s : State) : Parser := ⟨s, [], p.fields ++ [p.field]⟩

/-- `parse_add_char`: `lim` is `csv.field_size_limit()`, 131072 unless set by the program. -/
def Parser.add (lim : ℕ) (p : Parser) (c : Char) (s : State) : Py Parser :=
  if lim ≤ p.field.length then .error .csvError else .ok ⟨s, p.field ++ [c], p.fields⟩

/-- A line break. -/
def isNl (c : Char) : Bool := c == '\n' || c == '\r'

/-- `parse_process_char` in the state START_FIELD. -/
def Parser.stepField (lim : ℕ) (sep : Char) (p : Parser) (c : Char) : Py Parser :=
  if isNl c then .ok (p.save .eatNl)
  else if c = '"' then .ok { p with state := .inQuoted }
  else if c = sep then .ok (p.save .startField)
  else p.add lim c .inField

/-- `parse_process_char` for a character. -/
def Parser.step (lim : ℕ) (sep : Char) (p : Parser) (c : Char) : Py Parser :=
  match p.state with
  | .startRecord => if isNl c then .ok { p with state := .eatNl } else p.stepField lim sep c
  | .startField => p.stepField lim sep c
  | .inField =>
    if isNl c then .ok (p.save .eatNl)
    else if c = sep then .ok (p.save .startField)
    else p.add lim c .inField
  | .inQuoted => if c = '"' then .ok { p with state := .quoteInQuoted } else p.add lim c .inQuoted
  | .quoteInQuoted =>
    if c = '"' then p.add lim c .inQuoted
    else if c = sep then .ok (p.save .startField)
    else if isNl c then .ok (p.save .eatNl)
    else p.add lim c .inField
  | .eatNl => if isNl c then .ok p else .error .csvError

/-- `parse_process_char` for the end of the line. -/
def Parser.eol (p : Parser) : Parser :=
  match p.state with
  | .startRecord => p
  | .startField | .inField | .quoteInQuoted => p.save .startRecord
  | .inQuoted => p
  | .eatNl => { p with state := .startRecord }

/-- The characters of one line. -/
def Parser.feed (lim : ℕ) (sep : Char) : Parser → List Char → Py Parser
  | p, [] => .ok p.eol
  | p, c :: l => do
    let p ← p.step lim sep c
    p.feed lim sep l

/-- The lines of a file with their line breaks, which is what iterating over the file yields. -/
def keepLines : List Char → List (List Char)
  | [] => []
  | c :: l =>
    if c = '\n' then ['\n'] :: keepLines l
    else match keepLines l with
      | [] => [[c]]
      | h :: t => (c :: h) :: t

/-- `Reader_iternext`: the next record and the remaining lines; `none` is StopIteration. -/
def take (lim : ℕ) (sep : Char) : Parser → List (List Char) → Option (Py (List (List Char)) × List (List Char))
  | p, [] => if p.field ≠ [] ∨ p.state = .inQuoted then some (.ok (p.save .startRecord).fields, []) else none
  | p, l :: ls =>
    match p.feed lim sep l with
    | .error e => some (.error e, ls)
    | .ok p => if p.state = .startRecord then some (.ok p.fields, ls) else take lim sep p ls

/-- The records that the reader yields up to an exception; `n` bounds their number. -/
def records (lim : ℕ) (sep : Char) : ℕ → List (List Char) → List (Py (List (List Char)))
  | 0, _ => []
  | n + 1, ls =>
    match take lim sep .start ls with
    | none => []
    | some (.ok rec, ls) => .ok rec :: records lim sep n ls
    | some (.error e, _) => [.error e]

/-- `csv.reader(file, delimiter=sep)` for a file opened with mode `"r"`: every record takes at least one line. -/
def reader (lim : ℕ) (sep : Char) (file : List Char) : List (Py (List (List Char))) :=
  let ls := keepLines (nlTranslate file)
  records lim sep ls.length ls

/-- fca/readwrite/tab_separated.py:31-39: one record; name and cells. -/
def txtRecord : List (List Char) → Py (List Char × List Bool)
  | [] => .error .indexError
  | o :: fs => .ok (o, (o :: fs).filterMap txtCell)

/-- fca/readwrite/tab_separated.py:7-47 `read_txt_with_names`. -/
def readTxtWithNames (lim : ℕ) (file : List Char) : Py (Ctx (List Char) (List Char)) :=
  match reader lim '\t' file with
  | [] => .error .stopIteration
  | first :: s => do
    let first ← first
    let atts := first.map pyStrip
    match s with
    | [] => .error .stopIteration
    | skipped :: s => do
      let _ ← skipped
      let data ← s.mapM fun rec => do
        let rec ← rec
        txtRecord rec
      match data with
      | [] => .error .indexError
      | d :: _ =>
        Ctx.make (data.map Prod.snd) (data.map Prod.fst)
          (if atts.length ≠ d.2.length then (splitOn1 '\t' (readline (nlTranslate file)).1).dropLast else atts)

end CsvReader
