/-
Model of the container methods of fca/concept_system.py and fca/concept_lattice.py, and of sets of concepts that are
filled while fca/context.py `iterate_concepts` runs.
-/
import Verif.Model.Lattice
import Verif.Model.BiUnars

variable {α β : Type} [DecidableEq α] [DecidableEq β]

/-! ### Container methods -/

/-- fca/concept_system.py:51-52, fca/concept_lattice.py:69-70 `__len__`. -/
def csLen (cs : List (Concept α β)) : ℕ := cs.length

/-- fca/concept_system.py:54-55, fca/concept_lattice.py:72-73 `__getitem__` with an integer. -/
def csGetItem (cs : List (Concept α β)) (i : ℤ) : Py (Concept α β) := pyIdx cs i

/-- fca/concept_system.py:57-58, fca/concept_lattice.py:75-76 `__contains__` (`list.__contains__` compares with `==`). -/
def csContains (cs : List (Concept α β)) (x : Concept α β) : Bool := cs.any fun y => y = x

/-- fca/concept_system.py:66-67, fca/concept_lattice.py:84-85 `index`. -/
def csIndex (cs : List (Concept α β)) (x : Concept α β) : Py ℕ := firstIdx cs x

/-- fca/concept_system.py:60-64, fca/concept_lattice.py:78-82 `__str__`; `str` is fca/concept.py:42-60. -/
def csStr (str : Concept α β → List Char) (cs : List (Concept α β)) : List Char :=
  (cs.foldl (fun s c => s ++ (str c ++ ['\n'])) []).dropLast

/-- `for x in s`, `list(s)` for an object with `__getitem__` but without `__iter__` (both classes): positions 0, 1, …
until IndexError. `none` = fuel exhausted. -/
def seqIter {γ : Type} (get : ℤ → Py γ) : ℕ → ℕ → Option (Py (List γ))
  | 0, _ => none
  | fuel + 1, i =>
    match get (i : ℤ) with
    | .ok x =>
      match seqIter get fuel (i + 1) with
      | none => none
      | some (.ok l) => some (.ok (x :: l))
      | some (.error e) => some (.error e)
    | .error .indexError => some (.ok [])
    | .error e => some (.error e)

namespace CSys

/-- fca/concept_system.py:69-75 `append`; `none` is an argument that is not a Concept. -/
def appendArg (s : CSys α β) : Option (Concept α β) → CSys α β × Option PyErr
  | some c => (s.append c, none)
  | none => (s, some .typeError)

/-- fca/concept_system.py:77-80 `remove`; `none` is an argument that is not a Concept. -/
def removeArg (s : CSys α β) : Option (Concept α β) → CSys α β × Option PyErr
  | some c => s.remove c
  | none => (⟨s.concepts, none⟩, none)

/-- Calls of a history, with arguments that may be no concepts. -/
inductive Call (α β : Type)
  | append (c : Option (Concept α β)) | remove (c : Option (Concept α β))
  | parents (c : Concept α β) | children (c : Concept α β)

/-- One call; only the state is kept. -/
def call (s : CSys α β) : Call α β → CSys α β
  | .append c => (s.appendArg c).1
  | .remove c => (s.removeArg c).1
  | .parents c => (s.parents c).1
  | .children c => (s.children c).1

end CSys

/-! ### Sets of concepts -/

/-- fca/concept.py:42-60 `__str__` without meta data: the extent is replaced by `G` if the intent is empty, the intent
by `M` if the extent is empty. The rest is a function of these sets (their sorted lists; names that cannot be compared
raise TypeError and are not modelled). -/
def conceptKey (c : Concept α β) : Option (Finset α) × Option (Finset β) :=
  (if c.intent.card > 0 then some c.extent else none, if c.extent.card > 0 then some c.intent else none)

section sets
variable {H : Type} [DecidableEq H] (hash : Option (Finset α) × Option (Finset β) → H)

/-- `x in s` for a Python set of concepts. The set has the hash of every member at the time it was added
(fca/concept.py:70-71) and the member, given by its position in `heap`, the present values of the concepts. -/
def pySetMem (s : List (H × ℕ)) (heap : List (Concept α β)) (x : Concept α β) : Bool :=
  s.any fun e => decide (e.1 = hash (conceptKey x)) && decide (heap[e.2]? = some x)

/-- `s.add(heap[n])`. -/
def pySetAdd (s : List (H × ℕ)) (heap : List (Concept α β)) (n : ℕ) : List (H × ℕ) :=
  match heap[n]? with
  | none => s
  | some x => if pySetMem hash s heap x then s else s ++ [(hash (conceptKey x), n)]

/-- `set(cxt.iterate_concepts())` (fca/context.py:278-279): every concept is added when it is yielded; `tr` are the
values of the concepts at that time. -/
def collectLive (s : List (H × ℕ)) : ℕ → List (List (Concept α β)) → List (H × ℕ)
  | _, [] => s
  | n, L :: tr => collectLive (pySetAdd hash s L n) (n + 1) tr

/-- `set(cxt.concepts)` (fca/context.py:273-276): the concepts are added after the iteration has ended. -/
def collectDone (cs : List (Concept α β)) : List (H × ℕ) :=
  (List.range cs.length).foldl (fun s n => pySetAdd hash s cs n) []

end sets
