/-
Model of fca/readwrite: cxt.py, tab_separated.py (read_txt_with_names), fimi.py, and of the diagram computed by dot.py.
Files are the list of their characters (the encoding is not modelled).
-/
import Verif.Model.ContextOps
import Verif.Model.Lattice

/-! ### Text -/

/-- `str.isspace` for one character, which is what `strip()` removes. -/
def pySpace (c : Char) : Bool :=
  let n := c.toNat
  (9 ≤ n && n ≤ 13) || (28 ≤ n && n ≤ 32) || n == 0x85 || n == 0xA0 || n == 0x1680 || (0x2000 ≤ n && n ≤ 0x200A) ||
    n == 0x2028 || n == 0x2029 || n == 0x202F || n == 0x205F || n == 0x3000

/-- `s.strip()`. -/
def pyStrip (s : List Char) : List Char := ((s.dropWhile pySpace).reverse.dropWhile pySpace).reverse

/-- What a program reads from a file opened with mode `"r"`: `\r\n` and `\r` become `\n`. -/
def nlTranslate : List Char → List Char
  | [] => []
  | '\r' :: '\n' :: l => '\n' :: nlTranslate l
  | c :: l => (if c = '\r' then '\n' else c) :: nlTranslate l

/-- `readline()`: the line with its line break, and the rest; the empty string at the end of the file. -/
def readline : List Char → List Char × List Char
  | [] => ([], [])
  | c :: l => if c = '\n' then (['\n'], l) else (c :: (readline l).1, (readline l).2)

/-- The lines of a file, without line breaks. -/
def fileLines : List Char → List (List Char)
  | [] => []
  | c :: l =>
    if c = '\n' then [] :: fileLines l
    else match fileLines l with
      | [] => [[c]]
      | h :: t => (c :: h) :: t

/-- `s.split(sep)` for a one-character separator. -/
def splitOn1 (sep : Char) : List Char → List (List Char)
  | [] => [[]]
  | c :: l =>
    if c = sep then [] :: splitOn1 sep l
    else match splitOn1 sep l with
      | [] => [[c]]
      | h :: t => (c :: h) :: t

/-- The digits of a number: groups of decimal digits with single underscores between them. -/
def digitGroups (s : List Char) : Bool := (splitOn1 '_' s).all fun p => !p.isEmpty && p.all Char.isDigit

/-- `int(s)`: an optional sign and groups of decimal digits with single underscores between them, otherwise ValueError.
The numbers are only used with `range` (fca/readwrite/cxt.py:68, 77, 87), so a negative number is given as 0. Digits
of other scripts, and the bound of newer versions of Python on the number of digits, are not modelled. -/
def pyInt (s : List Char) : Py ℕ :=
  match s with
  | '-' :: d => if digitGroups d then .ok 0 else .error .valueError
  | '+' :: d => if digitGroups d then .ok (Nat.ofDigitChars 10 (d.filter (· ≠ '_')) 0) else .error .valueError
  | d => if digitGroups d then .ok (Nat.ofDigitChars 10 (d.filter (· ≠ '_')) 0) else .error .valueError

/-- `str(n)`. -/
def natStr (n : ℕ) : List Char := Nat.toDigits 10 n

/-- Python values used as names: `str` and the embedding of strings. -/
class PyVal (ν : Type) extends PyName ν where
  str : ν → List Char
  ofStr : List Char → ν

instance : PyVal (List Char) := ⟨id, id⟩

/-! ### cxt.py -/

/-- The outcome of `eval(s)`: a value, NameError or SyntaxError, or another exception. -/
inductive Eval (ν : Type)
  | value (x : ν)
  | unknown
  | raises (e : PyErr)

section cxt

variable {ν : Type} [DecidableEq ν] [PyVal ν]

/-- fca/readwrite/cxt.py:70-74, 78-82: one name. -/
def readName (e : Eval ν) (s : List Char) : Py ν :=
  match e with
  | .value x => .ok x
  | .unknown => .ok (PyVal.ofStr s)
  | .raises e => .error e

/-- fca/readwrite/cxt.py:68-75 and 76-83: `n` names, numbered from `k`. `ev k s` is the outcome of `eval(s)` for the
`k`-th name (evaluation takes place in the scope of the function and may depend on the state). -/
def readNames (ev : ℕ → List Char → Eval ν) : ℕ → ℕ → List Char → Py (List ν × List Char)
  | 0, _, f => .ok ([], f)
  | n + 1, k, f => do
    let s := pyStrip (readline f).1
    let x ← readName (ev k s) s
    let r ← readNames ev n (k + 1) (readline f).2
    .ok (x :: r.1, r.2)

/-- fca/readwrite/cxt.py:85-88: the rows of the table. -/
def readRows : ℕ → List Char → List (List Bool)
  | 0, _ => []
  | n + 1, f => ((pyStrip (readline f).1).map fun c => c == 'X') :: readRows n (readline f).2

/-- fca/readwrite/cxt.py:59-65: the head of the file; the numbers of objects and attributes and the rest. -/
def readHead (file : List Char) : Py (ℕ × ℕ × List Char) := do
  let f := nlTranslate file
  if pyStrip (readline f).1 ≠ ['B'] then .error .assertionError
  else
    let f := (readline (readline f).2).2
    let n ← pyInt (pyStrip (readline f).1)
    let f := (readline f).2
    let m ← pyInt (pyStrip (readline f).1)
    .ok (n, m, (readline (readline f).2).2)

/-- fca/readwrite/cxt.py:6-92 `read_cxt`. -/
def readCxt (ev : ℕ → List Char → Eval ν) (file : List Char) : Py (Ctx ν ν) := do
  let (n, m, f) ← readHead file
  let (objs, f) ← readNames ev n 0 f
  let (atts, f) ← readNames ev m n f
  Ctx.make (readRows n f) objs atts

/-- fca/readwrite/cxt.py:95-115 `write_cxt`: the content of the file. -/
def writeCxt (c : Ctx ν ν) : Py (List Char) := do
  let rows ← (List.range c.objects.length).mapM fun i => do
    let r ← pyGet c.nd.rows i
    .ok ((r.map fun b => if b then 'X' else '.') ++ ['\n'])
  .ok ('B' :: '\n' :: '\n' :: (natStr c.objects.length ++ '\n' :: (natStr c.attributes.length ++ '\n' :: '\n' ::
    (c.objects.flatMap (fun x => PyVal.str x ++ ['\n']) ++ (c.attributes.flatMap (fun x => PyVal.str x ++ ['\n']) ++
    rows.flatten)))))

end cxt

/-- fca/readwrite/cxt.py:117-137 `uwrite_cxt` for names that are strings. -/
def uwriteCxt (c : Ctx (List Char) (List Char)) : Py (List Char) := do
  let rows ← (List.range c.objects.length).mapM fun i => do
    let r ← pyGet c.nd.rows i
    .ok ((r.map fun b => if b then 'X' else '.') ++ ['\n'])
  .ok ('B' :: '\n' :: '\n' :: (natStr c.objects.length ++ '\n' :: (natStr c.attributes.length ++ '\n' :: '\n' ::
    (c.objects.flatMap (fun x => x ++ ['\n']) ++ (c.attributes.flatMap (fun x => x ++ ['\n']) ++ rows.flatten)))))

/-- fca/readwrite/cxt.py:139-158 `uread_cxt`: `str(line, "utf-8")` raises TypeError for a string (lines 148-149). -/
def ureadCxt (file : List Char) : Py (Ctx (List Char) (List Char)) := do
  let (n, m, f) ← readHead file
  if 0 < n then .error .typeError
  else if 0 < m then .error .typeError
  else Ctx.make (readRows n f) [] []

/-! ### tab_separated.py -/

/-- One record of `csv.reader(file, delimiter="\t")`, for lines without quotation marks: an empty line gives an empty
record. -/
def csvRecord (line : List Char) : List (List Char) := if line = [] then [] else splitOn1 '\t' line

/-- fca/readwrite/tab_separated.py:34-38: a field that is a cell. -/
def txtCell (s : List Char) : Option Bool := if s = ['0'] then some false else if s = ['1'] then some true else none

/-- fca/readwrite/tab_separated.py:31-39: one data line; name and cells. -/
def txtRow (line : List Char) : Py (List Char × List Bool) :=
  match csvRecord line with
  | [] => .error .indexError
  | o :: fs => .ok (o, (o :: fs).filterMap txtCell)

/-- fca/readwrite/tab_separated.py:7-47 `read_txt_with_names`, for files without quotation marks (see `CsvReader` for all
files). -/
def readTxtWithNames (file : List Char) : Py (Ctx (List Char) (List Char)) :=
  let f := nlTranslate file
  match fileLines f with
  | first :: _ :: recs => do
    let atts := (csvRecord first).map pyStrip
    let data ← recs.mapM txtRow
    match data with
    | [] => .error .indexError
    | d :: _ =>
      Ctx.make (data.map Prod.snd) (data.map Prod.fst)
        (if atts.length ≠ d.2.length then (splitOn1 '\t' (readline f).1).dropLast else atts)
  | _ => .error .stopIteration

/-! ### fimi.py -/

/-- fca/readwrite/fimi.py:1-10 `write_fimi`; `str` is the formatting of attributes, `ord` the iteration order of the
intents. -/
def writeFimi {α β : Type} [DecidableEq α] [DecidableEq β] (str : β → List Char) (ord : SetOrder β) (c : Ctx α β) :
    Py (List Char) := do
  let ls ← c.objects.mapM fun o => do
    let intent ← c.objectIntent o
    .ok ((ord.enum intent).flatMap (fun a => str a ++ [' ']) ++ ['\n'])
  .ok ls.flatten

/-! ### dot.py -/

section dot

variable {α β : Type} [DecidableEq α] [DecidableEq β]

/-- fca/readwrite/dot.py:122-134 `find_own_objects`, the entry of `con`: an object is appended and popped again if a
smaller extent contains it. -/
def ownObjects (ord : SetOrder α) (cs : List (Concept α β)) (con : Concept α β) : List α :=
  (ord.enum con.extent).filter fun obj => !cs.any fun sub => decide (sub.extent ⊂ con.extent) && decide (obj ∈ sub.extent)

/-- fca/readwrite/dot.py:136-148 `find_own_attributes`. -/
def ownAttributes (ord : SetOrder β) (cs : List (Concept α β)) (con : Concept α β) : List β :=
  (ord.enum con.intent).filter fun a => !cs.any fun sub => decide (sub.intent ⊂ con.intent) && decide (a ∈ sub.intent)

/-- fca/readwrite/dot.py:40-44, 49-53: the names in a label, or their number if there are five or more; names are
strings. -/
def dotLabel (l : List (List Char)) : List (List Char) := if 5 ≤ l.length then [natStr l.length] else l

/-- fca/readwrite/dot.py:57-60: the edges `c%i -> c%i` of the diagram; `ord` is the iteration order of the sets of
parents. -/
def dotEdges (ord : SetOrder (Concept α β)) (cs : List (Concept α β)) : Py (List (ℕ × ℕ)) := do
  let parents ← coveringRelation cs
  let es ← (List.range cs.length).mapM fun i => do
    let con ← pyGet cs i
    let ps ← dictGet parents con
    (ord.enum ps).mapM fun p => do
      let k ← firstIdx cs p
      .ok (k, i)
  .ok es.flatten

end dot
