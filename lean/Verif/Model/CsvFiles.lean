/-
Model of the readers of tab and comma separated files in fca/readwrite/tab_separated.py and comma_separated.py, and of
the writers of tab separated many-valued contexts. Files are lists of characters; files with quotation marks are not
modelled.
-/
import Verif.Model.ReadWrite

namespace Csv

/-- Mode of `open`: `"rb"` or `"r"`. -/
inductive FileMode
  | rb | r
  deriving DecidableEq

/-- One record of `csv.reader(file, delimiter=sep)`, for a line without quotation marks. -/
def fields (sep : Char) (line : List Char) : List (List Char) := if line = [] then [] else splitOn1 sep line

/-- The records that `csv.reader` yields. A file opened with mode `"rb"` yields lines of type `bytes`, for each of which
the reader raises `csv.Error`. -/
def stream (mode : FileMode) (sep : Char) (file : List Char) : List (Py (List (List Char))) :=
  match mode with
  | .rb => (fileLines file).map fun _ => .error .csvError
  | .r => (fileLines (nlTranslate file)).map fun l => .ok (fields sep l)

/-- `next(rdr)`. -/
def next : List (Py (List (List Char))) → Py (List (List Char) × List (Py (List (List Char))))
  | [] => .error .stopIteration
  | x :: s => do
    let rec ← x
    .ok (rec, s)

/-- `for rec in rdr`: the remaining records. -/
def rest (s : List (Py (List (List Char)))) : Py (List (List (List Char))) := s.mapM id

/-- The body of `read_txt` (fca/readwrite/tab_separated.py:82-112) for a file opened with `mode`. With mode `"rb"` line
109 splits `bytes` by a `str`. -/
def readTxtBody (mode : FileMode) (file : List Char) : Py (Ctx (List Char) (List Char)) := do
  let (rec, s) ← next (stream mode '\t' file)
  let atts := rec.map pyStrip
  let (_, s) ← next s
  let recs ← rest s
  let table := recs.map fun rec => rec.filterMap txtCell
  let objs := (List.range table.length).map fun i => 'g' :: natStr (i + 1)
  match table with
  | [] => .error .indexError
  | d :: _ =>
    if atts.length ≠ d.length then
      match mode with
      | .rb => .error .typeError
      | .r => Ctx.make table objs (splitOn1 '\t' (readline (nlTranslate file)).1).dropLast
    else Ctx.make table objs atts

/-- fca/readwrite/tab_separated.py:49-112 `read_txt`: the file is opened with mode `"rb"` (line 82). -/
def readTxt (file : List Char) : Py (Ctx (List Char) (List Char)) := readTxtBody .rb file

/-- fca/mvcontext.py:46-56 `ManyValuedContext(table, objects, attributes)` for a table of strings. `conv` is numpy's
conversion of a string to a truth value (fca/context.py:245), which depends on the version: non-empty strings are
true, or integers are parsed and `none` is ValueError. -/
def mvMakeStr (conv : List Char → Option Bool) (table : List (List (List Char))) (objs atts : List (List Char)) :
    Py (Ctx (List Char) (List Char)) :=
  match table.mapM fun row => row.mapM conv with
  | some t => Ctx.make t objs atts
  | none => .error .valueError

/-- The body of `read_mv_txt` (fca/readwrite/tab_separated.py:147-180) for a file opened with `mode`. -/
def readMvTxtBody (mode : FileMode) (conv : List Char → Option Bool) (file : List Char) :
    Py (Ctx (List Char) (List Char)) := do
  let (rec, s) ← next (stream mode '\t' file)
  let objs := rec.map pyStrip
  let (rec, s) ← next s
  let atts := rec.map pyStrip
  let (_, s) ← next s
  let table ← rest s
  if (∃ d ∈ table.head?, atts.length ≠ d.length) ∨ table.length ≠ objs.length then
    match mode with
    | .rb => .error .typeError
    | .r =>
      let (l₁, f) := readline (nlTranslate file)
      let (l₂, _) := readline f
      mvMakeStr conv table (splitOn1 '\t' (pyStrip l₁)) (splitOn1 '\t' (pyStrip l₂))
  else mvMakeStr conv table objs atts

/-- fca/readwrite/tab_separated.py:115-180 `read_mv_txt`: the file is opened with mode `"rb"` (line 147). -/
def readMvTxt (conv : List Char → Option Bool) (file : List Char) : Py (Ctx (List Char) (List Char)) :=
  readMvTxtBody .rb conv file

/-- The body of `uread_mv_txt` (fca/readwrite/tab_separated.py:214-247) for a file opened with `mode`: `str(obj, "utf-8")`
raises TypeError for a string. -/
def ureadMvTxtBody (mode : FileMode) (conv : List Char → Option Bool) (file : List Char) :
    Py (Ctx (List Char) (List Char)) := do
  let (rec, _) ← next (stream mode '\t' file)
  if rec ≠ [] then .error .typeError
  else do
    let (_, s) ← next (stream mode '\t' file)
    let (rec, _) ← next s
    if rec ≠ [] then .error .typeError
    else readMvTxtBody mode conv file

/-- fca/readwrite/tab_separated.py:182-247 `uread_mv_txt`: the file is opened with mode `"rb"` (line 214). -/
def ureadMvTxt (conv : List Char → Option Bool) (file : List Char) : Py (Ctx (List Char) (List Char)) :=
  ureadMvTxtBody .rb conv file

/-- fca/readwrite/comma_separated.py:51-56: a record gives the name of the object and the values. -/
def csvRow : List (List Char) → Py (List Char × List (List Char))
  | [] => .error .indexError
  | o :: l => .ok (pyStrip o, l)

/-- The body of `read_mv_csv` (fca/readwrite/comma_separated.py:39-59) for a file opened with `mode`. -/
def readMvCsvBody (mode : FileMode) (conv : List Char → Option Bool) (file : List Char) :
    Py (Ctx (List Char) (List Char)) := do
  let (rec, s) ← next (stream mode ',' file)
  let atts := rec.map pyStrip
  let data ← s.mapM fun x => do
    let rec ← x
    csvRow rec
  mvMakeStr conv (data.map Prod.snd) (data.map Prod.fst) atts

/-- fca/readwrite/comma_separated.py:7-59 `read_mv_csv`: the file is opened with mode `"rb"` (line 39). -/
def readMvCsv (conv : List Char → Option Bool) (file : List Char) : Py (Ctx (List Char) (List Char)) :=
  readMvCsvBody .rb conv file

/-- The body of `read_csv` for a file opened with `mode`. -/
def readCsvBody (mode : FileMode) (conv : List Char → Option Bool) (file : List Char) :
    Py (Ctx (List Char) (List Char)) := do
  let c ← readMvCsvBody mode conv file
  Ctx.make c.nd.rows c.objects c.attributes

/-- fca/readwrite/comma_separated.py:61-68 `read_csv`. -/
def readCsv (conv : List Char → Option Bool) (file : List Char) : Py (Ctx (List Char) (List Char)) :=
  readCsvBody .rb conv file

/-- `str(b)`. -/
def boolStr (b : Bool) : List Char := if b then ['T', 'r', 'u', 'e'] else ['F', 'a', 'l', 's', 'e']

/-- fca/readwrite/tab_separated.py:249-262 `write_mv_txt` for names that are strings; `context[i]` is the list of the
truth values in row `i` (fca/mvcontext.py:121-122). -/
def writeMvTxt (c : Ctx (List Char) (List Char)) : Py (List Char) := do
  let rows ← (List.range c.objects.length).mapM fun i => do
    let r ← pyGet c.nd.rows i
    .ok (Ctx.joinC ['\t'] (r.map boolStr) ++ ['\n'])
  .ok (Ctx.joinC ['\t'] c.objects ++ ['\n'] ++ (Ctx.joinC ['\t'] c.attributes ++ ['\n', '\n'] ++ rows.flatten))

/-- fca/readwrite/tab_separated.py:264-277 `uwrite_mv_txt`: contents of the file and the exception. Opening the file
empties it, and the first `write` of `bytes` to a text file raises TypeError. -/
def uwriteMvTxt (_ : Ctx (List Char) (List Char)) : List Char × Option PyErr := ([], some .typeError)

end Csv
