/-
Model of concepts as objects: fca/concept.py with fca/concept_system.py, fca/concept_lattice.py, where extent, intent and
meta data of a concept can change while it is in systems, lattices, sets and dicts.
-/
import Verif.Model.Lattice

/-- fca/concept.py:36-40: the attributes of a `Concept` object. -/
structure KObj (α β : Type) where
  c : Concept α β
  data : Meta

namespace KO

variable {α β : Type} [DecidableEq α] [DecidableEq β]

/-- The concept objects of a program by address. -/
abbrev Heap (α β : Type) := ℕ → KObj α β

/-- A Python set of concepts: for each member its hash when it was added, and its address. -/
abbrev PSet (K : Type) := List (K × ℕ)

/-- The dict `parents`: for each key its hash when it was inserted, its address, and the value; in order of insertion.
No key is ever deleted, so among keys that match the one inserted first is found (equal hashes have the same probe
sequence). -/
abbrev Dict (K : Type) := List ((K × ℕ) × PSet K)

section hashing
variable {K : Type} [DecidableEq K] (hash : KObj α β → K)

/-- The stored key `e` is the one looked for with the object `n`: the stored hash is the present hash of `n`
(fca/concept.py:70-71, `hash` is an arbitrary function of extent, intent and meta data), and the objects are equal
(65-68). -/
def hit (h : Heap α β) (e : K × ℕ) (n : ℕ) : Bool := decide (e.1 = hash (h n)) && decide ((h e.2).c = (h n).c)

/-- `n in S`. -/
def mem (h : Heap α β) (S : PSet K) (n : ℕ) : Bool := S.any fun e => hit hash h e n

/-- `S.add(n)`. -/
def add (h : Heap α β) (S : PSet K) (n : ℕ) : PSet K := if mem hash h S n then S else S ++ [(hash (h n), n)]

/-- `S.remove(n)`. -/
def remove (h : Heap α β) (S : PSet K) (n : ℕ) : Py (PSet K) :=
  if mem hash h S n then .ok (S.eraseP fun e => hit hash h e n) else .error .keyError

/-- `D[n]`. -/
def get (h : Heap α β) (D : Dict K) (n : ℕ) : Py (PSet K) :=
  match D.find? fun e => hit hash h e.1 n with
  | some e => .ok e.2
  | none => .error .keyError

/-- A method `f` called on the set `D[n]`. -/
def modify (h : Heap α β) (n : ℕ) (f : PSet K → Py (PSet K)) : Dict K → Py (Dict K)
  | [] => .error .keyError
  | e :: es =>
    if hit hash h e.1 n then do
      let S ← f e.2
      .ok ((e.1, S) :: es)
    else do
      let r ← modify h n f es
      .ok (e :: r)

/-- fca/concept_system.py:92: one pair `(c, set())`; for a key that is there already the empty set is replaced by an
empty set. -/
def insertEmpty (h : Heap α β) (D : Dict K) (n : ℕ) : Dict K :=
  if D.any fun e => hit hash h e.1 n then D else D ++ [((hash (h n), n), [])]

/-- fca/concept_system.py:96-101: the body for the pair `(cs[i], cs[j])`. -/
def coverStep (h : Heap α β) (cs : List ℕ) (D : Dict K) (ij : ℕ × ℕ) : Py (Dict K) :=
  if (h ij.1).c.intent ⊂ (h ij.2).c.intent then do
    let D1 ← modify hash h ij.2 (fun S => .ok (add hash h S ij.1)) D
    if cs.any fun k => decide ((h ij.1).c.intent ⊂ (h k).c.intent) && decide ((h k).c.intent ⊂ (h ij.2).c.intent) then
      modify hash h ij.2 (fun S => remove hash h S ij.1) D1
    else .ok D1
  else .ok D

/-- fca/concept_system.py:82-102 `compute_covering_relation`, also fca/algorithms/norris.py:86-153. -/
def covers (h : Heap α β) (cs : List ℕ) : Py (Dict K) :=
  (cs.flatMap fun i => cs.map fun j => (i, j)).foldlM (coverStep hash h cs) (cs.foldl (insertEmpty hash h) [])

/-- fca/concept_system.py:37-39, fca/concept_lattice.py:61-63 `filter`. -/
def filter (h : Heap α β) (cs : List ℕ) (n : ℕ) : List ℕ := cs.filter fun m => decide ((h m).c.intent ⊂ (h n).c.intent)

/-- fca/concept_system.py:41-43, fca/concept_lattice.py:65-67 `ideal`. -/
def ideal (h : Heap α β) (cs : List ℕ) (n : ℕ) : List ℕ := cs.filter fun m => decide ((h n).c.intent ⊂ (h m).c.intent)

end hashing

/-- A `ConceptSystem` (fca/concept_system.py:45-49, `ends = none`) or a `ConceptLattice` (fca/concept_lattice.py:34-38,
`ends` are `_bottom_concept` and `_top_concept`): the list `_concepts` and the dict `_parents`. -/
structure Sys (K : Type) where
  concepts : List ℕ
  cache : Option (Dict K)
  ends : Option (ℕ × ℕ)

/-- The concept objects and the systems and lattices of a program, in order of creation. -/
structure World (α β K : Type) where
  heap : Heap α β
  systems : List (Sys K)

/-- What a program does with them. -/
inductive Op (α β K : Type) where
  /-- `c.extent = …`, `c.intent.add(…)`, `c.meta[…] = …`, also `compute_index`: the object gets new values -/
  | change (n : ℕ) (v : KObj α β)
  /-- `ConceptSystem([…])` -/
  | system (cs : List ℕ)
  /-- `ConceptLattice(context, builder)`: `cs` are the concepts the builder makes -/
  | lattice (cs : List ℕ)
  | append (k n : ℕ)
  | remove (k n : ℕ)
  | parents (k n : ℕ)
  | children (k n : ℕ)
  /-- the set returned by `parents(n)` is changed -/
  | edit (k n : ℕ) (f : PSet K → PSet K)
  /-- `lattice.concepts.append(n)` -/
  | extend (k n : ℕ)

section systems
variable {K : Type} [DecidableEq K] (hash : KObj α β → K)

/-- fca/concept_lattice.py:34-38 `ConceptLattice.__init__`; the builder is `norris` or another one that returns the
concepts `cs` with their covering relation. -/
def makeLattice (h : Heap α β) (cs : List ℕ) : Py (Sys K) := do
  let D ← covers hash h cs
  let b ← pyGet (cs.filter fun n => (ideal h cs n).isEmpty) 0
  let t ← pyGet (cs.filter fun n => (filter h cs n).isEmpty) 0
  .ok ⟨cs, some D, some (b, t)⟩

/-- fca/concept_system.py:104-107, fca/concept_lattice.py:87-88 `parents`: the dict that is looked up, and the system
afterwards. An empty dict counts as missing (105). -/
def fill (h : Heap α β) (s : Sys K) : Py (Sys K × Dict K) :=
  match s.cache with
  | some D =>
    if s.ends.isNone ∧ D.isEmpty then do
      let D ← covers hash h s.concepts
      .ok ({ s with cache := some D }, D)
    else .ok (s, D)
  | none => do
    let D ← covers hash h s.concepts
    .ok ({ s with cache := some D }, D)

/-- fca/concept_system.py:104-107, fca/concept_lattice.py:87-88 `parents`. -/
def parents (h : Heap α β) (s : Sys K) (n : ℕ) : Sys K × Py (PSet K) :=
  match fill hash h s with
  | .ok (s', D) => (s', get hash h D n)
  | .error e => (s, .error e)

/-- fca/concept_system.py:110, fca/concept_lattice.py:91: the loop of `children` over the remaining concepts; `T` has
the members found so far. -/
def childrenLoop (h : Heap α β) (n : ℕ) : List ℕ → Sys K → PSet K → Sys K × Py (PSet K)
  | [], s, T => (s, .ok T)
  | m :: ms, s, T =>
    match parents hash h s m with
    | (s', .error e) => (s', .error e)
    | (s', .ok S) => childrenLoop h n ms s' (if mem hash h S n then add hash h T m else T)

/-- fca/concept_system.py:109-110, fca/concept_lattice.py:90-91 `children`. -/
def children (h : Heap α β) (s : Sys K) (n : ℕ) : Sys K × Py (PSet K) := childrenLoop hash h n s.concepts s []

/-- fca/concept_system.py:69-75 `append`; a lattice has no such method. -/
def append (s : Sys K) (n : ℕ) : Sys K × Option PyErr :=
  if s.ends.isSome then (s, some .attributeError) else ({ s with concepts := s.concepts ++ [n], cache := none }, none)

/-- fca/concept_system.py:77-80 `remove`: the first concept equal to `n`; a lattice has no such method. -/
def removeConcept (h : Heap α β) (s : Sys K) (n : ℕ) : Sys K × Option PyErr :=
  if s.ends.isSome then (s, some .attributeError)
  else if s.concepts.any fun m => decide ((h m).c = (h n).c) then
    ({ s with concepts := s.concepts.eraseP fun m => decide ((h m).c = (h n).c), cache := none }, none)
  else (s, some .valueError)

/-- The set returned by `parents(n)` is that in the dict; `f` changes it. -/
def edit (h : Heap α β) (s : Sys K) (n : ℕ) (f : PSet K → PSet K) : Sys K × Option PyErr :=
  match fill hash h s with
  | .error e => (s, some e)
  | .ok (s', D) =>
    match modify hash h n (fun S => .ok (f S)) D with
    | .ok D' => ({ s' with cache := some D' }, none)
    | .error e => (s', some e)

/-- fca/concept_lattice.py:45-48: `concepts` of a lattice is its list; a system has no such attribute. -/
def extend (s : Sys K) (n : ℕ) : Sys K × Option PyErr :=
  if s.ends.isSome then ({ s with concepts := s.concepts ++ [n] }, none) else (s, some .attributeError)

/-- The exception of a result. -/
def err {γ : Type} : Py γ → Option PyErr
  | .ok _ => none
  | .error e => some e

/-- A method of system `k` (IndexError: there is no such system). -/
def onSys (w : World α β K) (k : ℕ) (f : Sys K → Sys K × Option PyErr) : World α β K × Option PyErr :=
  match w.systems[k]? with
  | none => (w, some .indexError)
  | some s => ({ w with systems := w.systems.set k (f s).1 }, (f s).2)

/-- One step of a program. -/
def exec (w : World α β K) : Op α β K → World α β K × Option PyErr
  | .change n v => ({ w with heap := Function.update w.heap n v }, none)
  | .system cs => ({ w with systems := w.systems ++ [⟨cs, none, none⟩] }, none)
  | .lattice cs =>
    match makeLattice hash w.heap cs with
    | .ok s => ({ w with systems := w.systems ++ [s] }, none)
    | .error e => (w, some e)
  | .append k n => onSys w k fun s => append s n
  | .remove k n => onSys w k fun s => removeConcept w.heap s n
  | .parents k n => onSys w k fun s => ((parents hash w.heap s n).1, err (parents hash w.heap s n).2)
  | .children k n => onSys w k fun s => ((children hash w.heap s n).1, err (children hash w.heap s n).2)
  | .edit k n f => onSys w k fun s => edit hash w.heap s n f
  | .extend k n => onSys w k fun s => extend s n

/-- A program: calls that raise are caught and the next call follows. -/
def run (w : World α β K) (ops : List (Op α β K)) : World α β K := ops.foldl (fun w op => (exec hash w op).1) w

end systems

end KO
