/-
Model of fca/readwrite/xml_.py. The reader is modelled at the level of the events that the expat parser reports to the
handlers, the writer by the events of the document it builds. Names are strings.
-/
import Verif.Model.ReadWrite

namespace Xml

/-- Calls of the handlers: `StartElementHandler(name, attrs)`, `EndElementHandler(name)`, `CharacterDataHandler(data)`. -/
inductive Ev
  | start (name : List Char) (attrs : List (List Char × List Char))
  | stop (name : List Char)
  | chars (data : List Char)
  deriving DecidableEq

/-- A concept with its `meta` dictionary. -/
structure XConcept (ν : Type) where
  concept : Concept (List Char) (List Char)
  info : List (List Char × ν)

/-- The variables of `read_xml` (fca/readwrite/xml_.py:101-118). The handlers declare `new_extent`, `new_intent` and
`new_meta` as global (lines 122, 144), whereas the assignments in lines 116-118 are to local variables: the globals do not
exist (`none`) before the first element `concept`, unless a previous call has created them. The dicts are functions. -/
structure St (ν : Type) where
  buffer : List Char
  newObj : Option (List Char)
  newAttr : Option (List Char)
  dObjects : List Char → Option (List Char)
  dAttributes : List Char → Option (List Char)
  newExtent : Option (List (List Char))
  newIntent : Option (List (List Char))
  newMeta : Option (List (List Char × ν))
  cs : List (XConcept ν)

variable {ν : Type}

/-- fca/readwrite/xml_.py:101-118: the state at the beginning of a first call. -/
def init : St ν := ⟨[], none, none, fun _ => none, fun _ => none, none, none, none, []⟩

/-- A global variable. -/
def global {γ : Type} : Option γ → Py γ
  | some x => .ok x
  | none => .error .nameError

/-- `attrs[key]`. -/
def attr (attrs : List (List Char × List Char)) (key : List Char) : Option (List Char) :=
  (attrs.find? fun p => p.1 = key).map Prod.snd

/-- `d[k]`. -/
def lookup (d : List Char → Option (List Char)) (k : List Char) : Py (List Char) :=
  match d k with
  | some v => .ok v
  | none => .error .keyError

/-- `s.replace(a, b)` for two characters. -/
def replace1 (a b : Char) (s : List Char) : List Char := s.map fun c => if c = a then b else c

/-- fca/readwrite/xml_.py:136-137: the loop over the attributes of an element `meta`; `float s = none` is ValueError. -/
def addMeta (float : List Char → Option ν) (m : Option (List (List Char × ν))) :
    List (List Char × List Char) → Py (Option (List (List Char × ν)))
  | [] => .ok m
  | (k, s) :: l =>
    match float s with
    | none => .error .valueError
    | some x => do
      let m ← global m
      addMeta float (some (dictSet m (replace1 '_' ' ' k) x)) l

/-- fca/readwrite/xml_.py:120-141 `start_element`. -/
def startElement (float : List Char → Option ν) (st : St ν) (name : List Char) (attrs : List (List Char × List Char)) :
    Py (St ν) :=
  if name = "object".toList then
    match attr attrs "id".toList with
    | some i => .ok { st with buffer := [], newObj := some i }
    | none =>
      match attr attrs "ref".toList with
      | some r => do
        let l ← global st.newExtent
        let x ← lookup st.dObjects r
        .ok { st with newExtent := some (l ++ [x]) }
      | none => .ok st
  else if name = "attribute".toList then
    match attr attrs "id".toList with
    | some i => .ok { st with buffer := [], newAttr := some i }
    | none =>
      match attr attrs "ref".toList with
      | some r => do
        let l ← global st.newIntent
        let x ← lookup st.dAttributes r
        .ok { st with newIntent := some (l ++ [x]) }
      | none => .ok st
  else if name = "meta".toList then do
    let m ← addMeta float st.newMeta attrs
    .ok { st with newMeta := m }
  else if name = "concept".toList then .ok { st with newExtent := some [], newIntent := some [], newMeta := some [] }
  else .ok st

/-- `d[k] = v`. -/
def assign (d : List Char → Option (List Char)) (k v : List Char) : List Char → Option (List Char) :=
  fun k' => if k' = k then some v else d k'

/-- fca/readwrite/xml_.py:143-165 `end_element`; `if new_obj` is false for `None` and for the empty string. -/
def endElement (st : St ν) (name : List Char) : Py (St ν) :=
  if name = "object".toList then
    match st.newObj with
    | some (c :: i) => .ok { st with dObjects := assign st.dObjects (c :: i) st.buffer, newObj := none, buffer := [] }
    | _ => .ok st
  else if name = "attribute".toList then
    match st.newAttr with
    | some (c :: i) => .ok { st with dAttributes := assign st.dAttributes (c :: i) st.buffer, newAttr := none, buffer := [] }
    | _ => .ok st
  else if name = "concept".toList then do
    let e ← global st.newExtent
    let i ← global st.newIntent
    let m ← global st.newMeta
    .ok { st with cs := st.cs ++ [⟨⟨e.toFinset, i.toFinset⟩, m⟩], newExtent := some [], newIntent := some [], newMeta := some [] }
  else .ok st

/-- fca/readwrite/xml_.py:167-172 `char_data`. -/
def charData (st : St ν) (data : List Char) : Py (St ν) :=
  match data with
  | [] => .error .indexError
  | c :: _ => if c = '\n' then .ok st else .ok { st with buffer := st.buffer ++ pyStrip data }

/-- One event. -/
def step (float : List Char → Option ν) (st : St ν) : Ev → Py (St ν)
  | .start name attrs => startElement float st name attrs
  | .stop name => endElement st name
  | .chars data => charData st data

/-- The parser calls the handlers one after the other. -/
def handle (float : List Char → Option ν) (st : St ν) (evs : List Ev) : Py (St ν) := evs.foldlM (step float) st

/-- `p.ParseFile(f)` and `return cs` (fca/readwrite/xml_.py:180-183) for a file opened in text or binary mode:
`ParseFile` raises TypeError, if `f.read` returns a `str`. `parse` is the parser, which reports the events. -/
def parseFile (text : Bool) (float : List Char → Option ν) (parse : List Char → Py (List Ev)) (file : List Char) :
    Py (List (XConcept ν)) :=
  if text then .error .typeError
  else do
    let evs ← parse file
    let st ← handle float init evs
    .ok st.cs

/-- fca/readwrite/xml_.py:88-183 `read_xml`: the file is opened with `open(path)`, in text mode (line 180). -/
def readXml (float : List Char → Option ν) (parse : List Char → Py (List Ev)) (file : List Char) :
    Py (List (XConcept ν)) := parseFile true float parse file

/-- fca/readwrite/xml_.py:185-268 `uread_xml`: as `read_xml`, with another parser. -/
def ureadXml (float : List Char → Option ν) (parse : List Char → Py (List Ev)) (file : List Char) :
    Py (List (XConcept ν)) := parseFile true float parse file

/-! ### Writing -/

/-- Data of a text node or of a `write`. -/
inductive Data
  | str (s : List Char)
  | bytes (s : List Char)

/-- `newdoc.createTextNode(data)`. -/
def createTextNode : Data → Py (List Char)
  | .str s => .ok s
  | .bytes _ => .error .typeError

/-- fca/readwrite/xml_.py:20-26: the lists of objects and attributes. -/
def allObjects (ord : SetOrder (List Char)) (cs : List (XConcept ν)) : List (List Char) :=
  ord.enum (cs.foldl (fun s c => s ∪ c.concept.extent) ∅)

/-- fca/readwrite/xml_.py:20-26: the list of attributes. -/
def allAttributes (ord : SetOrder (List Char)) (cs : List (XConcept ν)) : List (List Char) :=
  ord.enum (cs.foldl (fun s c => s ∪ c.concept.intent) ∅)

/-- fca/readwrite/xml_.py:28-29: `objects_ids[x]`, `attributes_ids[x]` (with first letter `o` or `a`). -/
def idOf (c : Char) (l : List (List Char)) (x : List Char) : List Char := c :: natStr (l.idxOf x + 1)

/-- fca/readwrite/xml_.py:38-43, 47-52: the elements that declare objects or attributes; `enc` is applied to the
names. -/
def declare (enc : List Char → Data) (kind : List Char) (c : Char) (l : List (List Char)) : Py (List Ev) := do
  let es ← l.mapM fun x => do
    let t ← createTextNode (enc x)
    .ok ([.start kind [("id".toList, idOf c l x)]] ++ (if t = [] then [] else [.chars t]) ++ [.stop kind])
  .ok es.flatten

/-- fca/readwrite/xml_.py:60-63, 68-71: references to objects or attributes. -/
def refs (kind : List Char) (c : Char) (l : List (List Char)) (xs : List (List Char)) : List Ev :=
  xs.flatMap fun x => [.start kind [("ref".toList, idOf c l x)], .stop kind]

/-- fca/readwrite/xml_.py:57-81: the element of a concept. -/
def conceptEvs (ord : SetOrder (List Char)) (str : ν → List Char) (objs atts : List (List Char)) (x : XConcept ν) :
    List Ev :=
  [.start "concept".toList [], .start "extent".toList []] ++
    refs "object".toList 'o' objs (ord.enum x.concept.extent) ++ [.stop "extent".toList, .start "intent".toList []] ++
    refs "attribute".toList 'a' atts (ord.enum x.concept.intent) ++ [.stop "intent".toList,
      .start "meta".toList (x.info.map fun p => (replace1 ' ' '_' p.1, str p.2)), .stop "meta".toList,
      .stop "concept".toList]

/-- fca/readwrite/xml_.py:32-83: the document, as the events it gives when read. -/
def document (enc : List Char → Data) (ord : SetOrder (List Char)) (str : ν → List Char) (cs : List (XConcept ν)) :
    Py (List Ev) := do
  let objs := allObjects ord cs
  let atts := allAttributes ord cs
  let os ← declare enc "object".toList 'o' objs
  let as ← declare enc "attribute".toList 'a' atts
  .ok ([.start "conceptsystem".toList [], .start "objects".toList []] ++ os ++
    [.stop "objects".toList, .start "attributes".toList []] ++ as ++
    [.stop "attributes".toList, .start "concepts".toList []] ++ cs.flatMap (conceptEvs ord str objs atts) ++
    [.stop "concepts".toList, .stop "conceptsystem".toList])

/-- fca/readwrite/xml_.py:9-85 `write_xml`: the text nodes are created from `bytes` (lines 41, 50), and `writexml` writes
a `str` to a file opened with mode `"wb"` (lines 31, 85). -/
def writeXml (ord : SetOrder (List Char)) (str : ν → List Char) (cs : List (XConcept ν)) : Py Unit := do
  let _ ← document .bytes ord str cs
  .error .typeError

end Xml
