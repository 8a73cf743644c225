/-
Model of fca/concept.py, fca/algorithms/norris.py, fca/concept_lattice.py and
fca/concept_system.py.
-/
import Verif.Model.Context
import Mathlib.Data.Rat.Defs

variable {α β : Type} [DecidableEq α] [DecidableEq β]

/-- fca/concept.py:36-40 `Concept`. The dict `meta` is kept outside (see `MetaConcept`);
`norris` creates all concepts with empty `meta`. -/
structure Concept (α β : Type) where
  extent : Finset α
  intent : Finset β

/-- fca/concept.py:65-68 `__eq__`. `__hash__` (lines 70-71) hashes `str(self)`, a function of
extent, intent and meta; as long as `meta` is empty, equal concepts share a hash and dict lookup is
lookup by this equality. -/
instance : DecidableEq (Concept α β) := fun c d =>
  decidable_of_iff (c.extent = d.extent ∧ c.intent = d.intent) (by cases c; cases d; simp)

/-! ### norris.py -/

/-- fca/algorithms/norris.py:73-78: the check `new`; `seen` are the objects before the current one with their
intents. -/
def norrisNew (seen : List (α × Finset β)) (c : Concept α β) (D : Finset β) : Bool :=
  !(seen.any fun p => decide (D ⊆ p.2) && decide (p.1 ∉ c.extent))

/-- fca/algorithms/norris.py:67-83: the loop over `cs_for_loop` for the object `p`. The list of concepts
is `done ++ todo ++ news`: processed ones, remaining ones, and those appended in this round. First
component: the lists of concepts handed out at each `yield` (with their values at that time), second
component: the list at the end. -/
def norrisInner (seen : List (α × Finset β)) (p : α × Finset β) :
    List (Concept α β) → List (Concept α β) → List (Concept α β) →
    List (List (Concept α β)) × List (Concept α β)
  | done, [], news => ([], done ++ news)
  | done, c :: todo, news =>
    if c.intent ⊆ p.2 then
      norrisInner seen p (done ++ [⟨insert p.1 c.extent, c.intent⟩]) todo news
    else
      let D := c.intent ∩ p.2
      if norrisNew seen c D then
        let new : Concept α β := ⟨insert p.1 c.extent, D⟩
        let r := norrisInner seen p (done ++ [c]) todo (news ++ [new])
        ((done ++ c :: todo ++ news ++ [new]) :: r.1, r.2)
      else norrisInner seen p (done ++ [c]) todo news

/-- fca/algorithms/norris.py:66-83: the loop over the objects. -/
def norrisLoop : List (α × Finset β) → List (α × Finset β) → List (Concept α β) →
    List (List (Concept α β)) × List (Concept α β)
  | _, [], cs => ([], cs)
  | seen, p :: rest, cs =>
    let r := norrisInner seen p [] cs []
    let s := norrisLoop (seen ++ [p]) rest r.2
    (r.1 ++ s.1, s.2)

/-- fca/algorithms/norris.py:51-83 `iterative_norris`: what the consumer holds at each `yield`, and the
final list. -/
def iterNorris (c : Ctx α β) : Py (List (List (Concept α β)) × List (Concept α β)) := do
  let exs ← c.examples
  let top : Concept α β := ⟨∅, c.attributes.toFinset⟩
  let r := norrisLoop [] (c.objects.zip exs) [top]
  .ok ([top] :: r.1, r.2)

/-- fca/algorithms/norris.py:8-48 `norris(context, with_parents=False)`. -/
def norris (c : Ctx α β) : Py (List (Concept α β)) := do
  let r ← iterNorris c
  .ok r.2

/-! ### Covering relation -/

/-- The dict `parents`: key to set of concepts. The iteration order of the dict is never used. -/
abbrev ParentDict (α β : Type) := Concept α β → Option (Finset (Concept α β))

/-- fca/algorithms/norris.py:149-152: the loop over `k`, which removes once and breaks. -/
def coverCheck (cs : List (Concept α β)) (ci cj : Concept α β) (S : Finset (Concept α β)) :
    Py (Finset (Concept α β)) :=
  if cs.any fun ck => decide (ci.intent ⊂ ck.intent) && decide (ck.intent ⊂ cj.intent) then
    (if ci ∈ S then .ok (S.erase ci) else .error .keyError)
  else .ok S

/-- fca/algorithms/norris.py:147-152: the body for one pair `(i, j)`. -/
def coverStep (cs : List (Concept α β)) (P : ParentDict α β) (ij : Concept α β × Concept α β) :
    Py (ParentDict α β) :=
  if ij.1.intent ⊂ ij.2.intent then
    match P ij.2 with
    | none => .error .keyError
    | some S => do
      let S' ← coverCheck cs ij.1 ij.2 (insert ij.1 S)
      .ok (Function.update P ij.2 (some S'))
  else .ok P

/-- fca/algorithms/norris.py:86-153 `compute_covering_relation`, also
fca/concept_system.py:82-102. -/
def coveringRelation (cs : List (Concept α β)) : Py (ParentDict α β) :=
  (cs.flatMap fun ci => cs.map fun cj => (ci, cj)).foldlM (coverStep cs)
    (fun c => if c ∈ cs then some ∅ else none)

/-! ### ConceptSystem and ConceptLattice -/

/-- fca/concept_system.py:37-39 and fca/concept_lattice.py:61-63 `filter`: concepts with a
properly smaller intent. -/
def csFilter (cs : List (Concept α β)) (c : Concept α β) : List (Concept α β) :=
  cs.filter fun d => decide (d.intent ⊂ c.intent)

/-- fca/concept_system.py:41-43 and fca/concept_lattice.py:65-67 `ideal`. -/
def csIdeal (cs : List (Concept α β)) (c : Concept α β) : List (Concept α β) :=
  cs.filter fun d => decide (c.intent ⊂ d.intent)

/-- fca/concept_system.py:25-27 `get_top_concept`, fca/concept_lattice.py:37. -/
def csTop (cs : List (Concept α β)) : Py (Concept α β) :=
  pyGet (cs.filter fun c => (csFilter cs c).isEmpty) 0

/-- fca/concept_system.py:31-33 `get_bottom_concept`, fca/concept_lattice.py:36. -/
def csBottom (cs : List (Concept α β)) : Py (Concept α β) :=
  pyGet (cs.filter fun c => (csIdeal cs c).isEmpty) 0

/-- `d[k]` -/
def dictGet (P : ParentDict α β) (c : Concept α β) : Py (Finset (Concept α β)) :=
  match P c with
  | some S => .ok S
  | none => .error .keyError

/-- fca/concept_lattice.py:90-91 and fca/concept_system.py:109-110 `children`, given the parents
of each concept. -/
def childrenOf (cs : List (Concept α β)) (par : Concept α β → Py (Finset (Concept α β)))
    (c : Concept α β) : Py (Finset (Concept α β)) := do
  let l ← cs.filterMapM fun d => do
    let S ← par d
    .ok (if c ∈ S then some d else none)
  .ok l.toFinset

/-- fca/concept_lattice.py:34-38 `ConceptLattice(context)`. -/
structure CLattice (α β : Type) where
  concepts : List (Concept α β)
  parents : ParentDict α β
  bottom : Concept α β
  top : Concept α β
  context : Ctx α β

/-- fca/concept_lattice.py:34-38 `ConceptLattice.__init__` with `builder=norris`. -/
def makeLattice (c : Ctx α β) : Py (CLattice α β) := do
  let cs ← norris c
  let P ← coveringRelation cs
  let b ← csBottom cs
  let t ← csTop cs
  .ok ⟨cs, P, b, t, c⟩

/-- fca/concept_lattice.py:87-88 `parents`. -/
def CLattice.parentsOf (L : CLattice α β) (c : Concept α β) : Py (Finset (Concept α β)) :=
  dictGet L.parents c

/-- fca/concept_lattice.py:90-91 `children`. -/
def CLattice.children (L : CLattice α β) (c : Concept α β) : Py (Finset (Concept α β)) :=
  childrenOf L.concepts L.parentsOf c

/-- fca/concept_system.py:45-49 `ConceptSystem`: the list and the cached covering relation. -/
structure CSys (α β : Type) where
  concepts : List (Concept α β)
  cache : Option (ParentDict α β)

namespace CSys

/-- fca/concept_system.py:45-49 `__init__`. -/
def make (cs : List (Concept α β)) : CSys α β := ⟨cs, none⟩

/-- fca/concept_system.py:69-75 `append` of a concept. -/
def append (s : CSys α β) (c : Concept α β) : CSys α β := ⟨s.concepts ++ [c], none⟩

/-- fca/concept_system.py:77-80 `remove` of a concept; `list.remove` raises ValueError (before the
cache is dropped) when there is no equal concept. -/
def remove (s : CSys α β) (c : Concept α β) : CSys α β × Option PyErr :=
  if c ∈ s.concepts then (⟨s.concepts.erase c, none⟩, none) else (s, some .valueError)

/-- fca/concept_system.py:105-106: `if not self._parents` holds for `None` and for an empty dict; the
dict is empty only if the list of concepts was. -/
def fill (s : CSys α β) : Py (CSys α β × ParentDict α β) :=
  match s.cache with
  | some P => if s.concepts = [] then (do
      let P ← coveringRelation s.concepts
      .ok (⟨s.concepts, some P⟩, P)) else .ok (s, P)
  | none => do
    let P ← coveringRelation s.concepts
    .ok (⟨s.concepts, some P⟩, P)

/-- fca/concept_system.py:104-107 `parents`: new state and result. -/
def parents (s : CSys α β) (c : Concept α β) : CSys α β × Py (Finset (Concept α β)) :=
  match s.fill with
  | .ok (s', P) => (s', dictGet P c)
  | .error e => (s, .error e)

/-- fca/concept_system.py:109-110 `children`; the state changes as by `parents` of the first
concept (if there is one), after which all lookups use the cache. -/
def children (s : CSys α β) (c : Concept α β) : CSys α β × Py (Finset (Concept α β)) :=
  match s.concepts with
  | [] => (s, .ok ∅)
  | _ :: _ =>
    match s.fill with
    | .ok (s', P) => (s', childrenOf s.concepts (dictGet P) c)
    | .error e => (s, .error e)

/-- The operations of a history. -/
inductive Op (α β : Type)
  | append (c : Concept α β) | remove (c : Concept α β) | parents (c : Concept α β) | children (c : Concept α β)

/-- One operation; only the state is kept. -/
def step (s : CSys α β) : Op α β → CSys α β
  | .append c => s.append c
  | .remove c => (s.remove c).1
  | .parents c => (s.parents c).1
  | .children c => (s.children c).1

end CSys

/-! ### Concepts with meta data -/

/-- The dict `meta` of a concept: index name to value (insertion order). -/
abbrev Meta := List (List Char × ℚ)

/-- fca/concept.py:42-60 `__str__`: the part made of extent and intent is `base c`, `fmt` prints a
dict. -/
def conceptStr (base : Concept α β → List Char) (fmt : Meta → List Char) (c : Concept α β) (m : Meta) :
    List Char :=
  base c ++ (if m = [] then [] else " meta: ".toList ++ fmt m)

/-- fca/algorithms/filtering/filter.py:7-14 `compute_index`: the meta data of all concepts after
an index `idx` (given for every concept of the lattice) was attached under `name`. -/
def computeIndex (cs : List (Concept α β)) (idx : Concept α β → ℚ) (name : List Char)
    (metas : Concept α β → Meta) : Concept α β → Meta :=
  fun c => if c ∈ cs then
    (if (metas c).any fun p => p.1 = name then
      (metas c).map fun p => if p.1 = name then (name, idx c) else p
    else metas c ++ [(name, idx c)])
  else metas c

/-- fca/concept_lattice.py:87-88 `parents` when concepts carry meta data: the dict was filled while
all `meta` were empty, so the entry of `c` is stored under the hash of that string
(fca/concept.py:70-71) and is found iff the present hash is the same. -/
def CLattice.parentsMeta {H : Type} [DecidableEq H] (L : CLattice α β) (str : Concept α β → Meta → List Char)
    (hash : List Char → H) (metas : Concept α β → Meta) (c : Concept α β) :
    Py (Finset (Concept α β)) :=
  if hash (str c (metas c)) = hash (str c []) then L.parentsOf c else .error .keyError

/-- fca/concept_lattice.py:90-91 `children` when concepts carry meta data. -/
def CLattice.childrenMeta {H : Type} [DecidableEq H] (L : CLattice α β) (str : Concept α β → Meta → List Char)
    (hash : List Char → H) (metas : Concept α β → Meta) (c : Concept α β) :
    Py (Finset (Concept α β)) :=
  childrenOf L.concepts (L.parentsMeta str hash metas) c
