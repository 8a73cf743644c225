/-
Functions that accept strings only, for contexts whose names may be something else: `'not ' + name` (fca/context.py),
`join` (fca/algorithms/scaling.py, fca/readwrite/tab_separated.py, fca/readwrite/dot.py), `write` (fca/readwrite/cxt.py).
`txt x` is the name itself if it is a string, `none` otherwise.
-/
import Verif.Model.Scaling
import Verif.Model.DotText
import Verif.Model.CsvFiles
import Verif.Model.MixedNames

/-- What a text file has received, and the exception that ended the writing. That the characters reach the disk when the
file object is not closed is not modelled. -/
abbrev Written := List Char × Option PyErr

/-- Consecutive `output_file.write(...)` calls; computing an argument may raise. -/
def writeChunks : List (Py (List Char)) → Written
  | [] => ([], none)
  | .ok t :: rest => (t ++ (writeChunks rest).1, (writeChunks rest).2)
  | .error e :: _ => ([], some e)

/-- An operation that raises TypeError for anything but a string. -/
def needStr {γ : Type} (txt : γ → Option (List Char)) (x : γ) : Py (List Char) :=
  match txt x with
  | some t => .ok t
  | none => .error .typeError

/-- `sep.join(l)` -/
def joinPy {γ : Type} (txt : γ → Option (List Char)) (sep : List Char) (l : List γ) : Py (List Char) := do
  let ts ← l.mapM (needStr txt)
  .ok (Ctx.joinC sep ts)

section
variable {α β : Type} [DecidableEq α] [DecidableEq β]

namespace Ctx

/-- fca/context.py:765-778 `complementary` for arbitrary names; `ofStr` is the embedding of strings into the names. -/
def complementaryAny [PyName α] [PyName β] (txt : β → Option (List Char)) (ofStr : List Char → β) (c : Ctx α β) :
    Py (Ctx α β) := do
  let atts ← (List.range c.attributes.length).mapM fun i => do
    let m ← pyGet c.attributes i
    let t ← needStr txt m
    .ok (ofStr ("not ".toList ++ t))
  let table ← (List.range c.objects.length).mapM fun i =>
    (List.range c.attributes.length).mapM fun j => do
      let b ← c.nd.cell i j
      .ok (!b)
  make table c.objects atts

/-- fca/context.py:780-792 `compound` for arbitrary names. -/
def compoundAny [PyName α] [PyName β] (txt : β → Option (List Char)) (ofStr : List Char → β) (c : Ctx α β) :
    Py (Ctx α β) := do
  let d ← c.complementaryAny txt ofStr
  let table ← (List.range c.objects.length).mapM fun i => do
    let r ← pyGet c.nd.rows i
    let s ← pyGet d.nd.rows i
    .ok (List.zipWith (· || ·) r s)
  make table c.objects (c.attributes ++ d.attributes)

end Ctx

/-- fca/readwrite/cxt.py:117-137 `uwrite_cxt` for arbitrary names (`write` accepts strings only). -/
def uwriteCxtAny (txtO : α → Option (List Char)) (txtA : β → Option (List Char)) (c : Ctx α β) : Written :=
  writeChunks ([.ok ['B', '\n', '\n'], .ok (natStr c.objects.length ++ ['\n']),
      .ok (natStr c.attributes.length ++ ['\n', '\n'])] ++
    c.objects.flatMap (fun x => [needStr txtO x, .ok ['\n']]) ++
    c.attributes.flatMap (fun x => [needStr txtA x, .ok ['\n']]) ++
    (List.range c.objects.length).flatMap fun i => [do
      let r ← pyGet c.nd.rows i
      .ok (r.map fun b => if b then 'X' else '.'), .ok ['\n']])

/-- fca/readwrite/tab_separated.py:249-262 `write_mv_txt` for arbitrary names. -/
def writeMvTxtAny (txtO : α → Option (List Char)) (txtA : β → Option (List Char)) (c : Ctx α β) : Written :=
  writeChunks ([joinPy txtO ['\t'] c.objects, .ok ['\n'], joinPy txtA ['\t'] c.attributes, .ok ['\n', '\n']] ++
    (List.range c.objects.length).flatMap fun i => [do
      let r ← pyGet c.nd.rows i
      .ok (Ctx.joinC ['\t'] (r.map Csv.boolStr)), .ok ['\n']])

/-! ### dot.py -/

/-- fca/readwrite/dot.py:38-46, 47-55 (and 91-103, 104-116): the writes for one label; `label` is the text of the names
shown, which may raise. -/
def dotLabelChunks (kind tail : List Char) (i : ℕ) (shown : Bool) (label : Py (List Char)) : List (Py (List Char)) :=
  if shown then
    [.ok (dotArrow i i), do
      let t ← label
      .ok ('[' :: kind ++ "=\"".toList ++ t ++ "\", ".toList), .ok tail]
  else []

/-- fca/readwrite/dot.py:40-44: four names or fewer are joined, otherwise their number is written. -/
def dotLabelAny {γ : Type} (txt : γ → Option (List Char)) (l : List γ) : Py (List Char) :=
  if 5 ≤ l.length then .ok (natStr l.length) else joinPy txt "\\n ".toList l

/-- fca/readwrite/dot.py:94-101: the number of the names, or with `full` the first six. -/
def udotLabelAny {γ : Type} (txt : γ → Option (List Char)) (full : Bool) (l : List γ) : Py (List Char) :=
  if full = false ∧ 1 ≤ l.length then .ok (natStr l.length)
  else if 6 < l.length then do
    let ts ← (l.take 6).mapM (needStr txt)
    .ok (Ctx.joinC "\\n ".toList (ts ++ ["...".toList]))
  else joinPy txt "\\n ".toList l

/-- fca/readwrite/dot.py:99, 112: the number of items in the label. -/
def udotCount (full : Bool) (n : ℕ) : ℕ :=
  let n := if full = false ∧ 1 ≤ n then 1 else n
  if 6 < n then 7 else n

variable [Kinded α] [Kinded β] (E : SortEnv α β) (txtO : α → Option (List Char)) (txtA : β → Option (List Char))
  (ordc : SetOrder (Concept α β))

/-- fca/readwrite/dot.py:34-35, 80-81, 122-148: the dicts of own objects and attributes store every concept under its hash,
which may raise (fca/concept.py:70-71); nothing is written. -/
def dotHashes (cs : List (Concept α β)) : Py (List Char) := do
  let _ ← cs.mapM (conceptText E)
  .ok []

/-- fca/readwrite/dot.py:57-60: the edges. -/
def dotEdgeChunk (cs : List (Concept α β)) : Py (List Char) := do
  let es ← dotEdges ordc cs
  .ok (dotEdgeText es)

/-- fca/readwrite/dot.py:6-63 `write_dot` for arbitrary names; `cs` has no repeated concepts. -/
def writeDotAny (path : List Char) (cs : List (Concept α β)) : Written :=
  if path.length = 0 then ([], some .assertionError)
  else writeChunks ([.ok dotHead, dotHashes E cs] ++
    cs.zipIdx.flatMap (fun p =>
      .ok (dotNodeText p.2) ::
        (dotLabelChunks "headlabel".toList "labeldistance=1,labelangle=270,color=transparent]\n".toList p.2
          (!(ownObjects E.ordO cs p.1).isEmpty) (dotLabelAny txtO (ownObjects E.ordO cs p.1)) ++
        dotLabelChunks "taillabel".toList "labeldistance=2,labelangle=90,color=transparent]\n".toList p.2
          (!(ownAttributes E.ordA cs p.1).isEmpty) (dotLabelAny txtA (ownAttributes E.ordA cs p.1)))) ++
    [dotEdgeChunk ordc cs, .ok ['}']])

/-- fca/readwrite/dot.py:65-120 `uwrite_dot` for arbitrary names; `dist n` is `"{0}".format(n/1.8 + 0.5)`. -/
def uwriteDotAny (dist : ℕ → List Char) (path : List Char) (cs : List (Concept α β)) (full : Bool) : Written :=
  if path.length = 0 then ([], some .assertionError)
  else writeChunks ([.ok udotHead, dotHashes E cs] ++
    (List.range cs.length).map (fun i => .ok (dotNodeText i)) ++ [dotEdgeChunk ordc cs] ++
    cs.zipIdx.flatMap (fun p =>
      dotLabelChunks "headlabel".toList
        ("labeldistance=".toList ++ dist (udotCount full (ownObjects E.ordO cs p.1).length) ++
          ",labelangle=270,color=transparent]\n".toList) p.2
        (!(ownObjects E.ordO cs p.1).isEmpty) (udotLabelAny txtO full (ownObjects E.ordO cs p.1)) ++
      dotLabelChunks "taillabel".toList
        ("labeldistance=".toList ++ dist (udotCount full (ownAttributes E.ordA cs p.1).length) ++
          ",labelangle=90,color=transparent]\n".toList) p.2
        (!(ownAttributes E.ordA cs p.1).isEmpty) (udotLabelAny txtA full (ownAttributes E.ordA cs p.1))) ++
    [.ok ['}']])

end

/-! ### scaling.py -/

section scaling
variable {α β ω V : Type} [DecidableEq α] [DecidableEq β] [DecidableEq ω]

/-- fca/algorithms/scaling.py:44-58: one new attribute, for arbitrary names: the column is computed before the name
(lines 56-57). -/
def scaleAttrAny [PyName α] [PyName β] (txt : β → Option (List Char)) (ofStr : List Char → β) (n : ℕ) (get : ℕ → Py V)
    (holds : ω → V → Py Bool) (scale : Ctx ω β) (m : β) (c : Ctx α β) (col : ℕ) : Py (Ctx α β) := do
  let d ← scaleCol n get holds scale col
  let a ← pyGet scale.attributes col
  let name ← joinPy txt [':'] [m, a]
  match c.addAttribute d (ofStr name) with
  | (c', none) => .ok c'
  | (_, some e) => .error e

/-- fca/algorithms/scaling.py:6-59 `scale_mvcontext(mvcontext, scales)` for arbitrary names. -/
def scaleMvAny [PyName α] [PyName β] (txt : β → Option (List Char)) (ofStr : List Char → β) (holds : ω → V → Py Bool)
    (objs : List α) (atts : List β) (rows : List (List V)) (scales : List (Ctx ω β)) : Py (Ctx α β) := do
  let c ← Ctx.make (objs.map fun _ => []) objs []
  (List.range atts.length).foldlM (fun c k => do
    let scale ← pyGet scales k
    (List.range scale.attributes.length).foldlM (fun c col => do
      let m ← pyGet atts k
      scaleAttrAny txt ofStr objs.length (fun obj => do let r ← pyGet rows obj; pyGet r k) holds scale m c col) c) c

end scaling

/-! ### Integers and strings -/

/-- The name itself if it is a string. -/
def PName.asStr : PName → Option (List Char)
  | .int _ => none
  | .str s => some s

instance : PyVal PName where
  str := PName.text
  ofStr := .str
