/-
Model of fca/algorithms/patterns.py.
-/
import Verif.Model.Lattice
import Verif.Model.ContextOps

/-- fca/algorithms/patterns.py:108-117: the attributes of a `BasicPatternExploration`; the expert and the pattern
generator are parameters of the methods that use them. -/
structure PExp (α β : Type) where
  pos : Ctx α β
  neg : Ctx α β
  confirmed : List (Finset β)

/-- What a pattern generator yields: a pair `(pattern, freq)` or something that cannot be unpacked, as the `Concept`s
of the default generator. -/
inductive PItem (α β : Type) where
  | pair (pattern : Finset β) (freq : ℕ)
  | concept (c : Concept α β)

namespace PExp

variable {α β : Type} [DecidableEq α] [DecidableEq β]

/-- fca/algorithms/patterns.py:91-92: the pattern occurs in the negative context in full rows only. `ord` is the
iteration order of the intent. -/
def negFull (ord : SetOrder β) (neg : Ctx α β) (B : Finset β) : Py Bool := do
  let cl ← neg.aclosure (ord.enum B)
  .ok (cl == neg.attributes.toFinset)

/-- fca/algorithms/patterns.py:165-169 `iterate_unexplained_examples`, with 161-163 `is_explained`. -/
def isExplained (s : PExp α β) (intent : Finset β) : Bool := s.confirmed.any fun p => decide (p ⊆ intent)

def iterUnexplained (s : PExp α β) : Py (List (α × Finset β)) := do
  let exs ← (List.range s.pos.objects.length).mapM fun i => do
    let o ← pyGet s.pos.objects i
    let B ← s.pos.intentByIndex i
    .ok (o, B)
  .ok (exs.filter fun x => !(s.isExplained x.2))

/-- fca/algorithms/patterns.py:125-129: the loop over the items of the generator. -/
def unconfirmedLoop (s : PExp α β) (unex : List (α × Finset β)) : List (PItem α β) → Py (List (Finset β × ℕ))
  | [] => .ok []
  | .concept _ :: _ => .error .typeError
  | .pair p _ :: rest => do
    let r ← unconfirmedLoop s unex rest
    .ok (if !(s.isExplained p) then (p, (unex.filter fun x => decide (p ⊆ x.2)).length) :: r else r)

/-- fca/algorithms/patterns.py:122-130 `get_unconfirmed_patterns_with_examples`; `gen` is what the pattern generator
yields for the two contexts. `sorted(key=-n)` is a stable sort by falling `n`. -/
def unconfirmed (s : PExp α β) (gen : Py (List (PItem α β))) : Py (List (Finset β × ℕ)) := do
  let unex ← s.iterUnexplained
  let items ← gen
  let out ← s.unconfirmedLoop unex items
  .ok (out.insertionSort fun x y => y.2 ≤ x.2)

/-- fca/algorithms/patterns.py:132-138 `confirm_pattern`; the pattern is a list or a set in some iteration order. -/
def confirm (s : PExp α β) (pattern : List β) : PExp α β × Option PyErr :=
  match s.pos.aclosure pattern with
  | .error e => (s, some e)
  | .ok p =>
    if p = s.pos.attributes.toFinset then (s, some .notAPositivePattern)
    else match s.neg.aclosure pattern with
      | .error e => (s, some e)
      | .ok n =>
        if n ≠ s.neg.attributes.toFinset then (s, some .notANegativePattern)
        else ({ s with confirmed := s.confirmed ++ [pattern.toFinset] }, none)

/-- fca/algorithms/patterns.py:140-144 `iterate_examples`; `ord` is the iteration order of the extent. -/
def iterExamples (ord : SetOrder α) (s : PExp α β) (pattern : List β) : Py (List (α × Finset β)) := do
  let objs ← s.pos.aprime pattern
  (ord.enum objs).mapM fun o => do
    let B ← s.pos.objectIntent o
    .ok (o, B)

variable [PyName α] [PyName β]

/-- fca/algorithms/patterns.py:88-93 `iterate_positive_concepts`. -/
def positiveConcepts (ord : SetOrder β) (pos neg : Ctx α β) : Py (List (Concept α β)) := do
  let r₁ ← pos.reduceAttributes
  let r ← r₁.reduceObjects
  let cs ← norris r
  filterPy (fun c => negFull ord neg c.intent) cs

/-- fca/algorithms/patterns.py:98-117 `__init__`. -/
def init (pos neg : Ctx α β) : Py (PExp α β) :=
  if pos.attributes.toFinset ≠ neg.attributes.toFinset then .error .attributeMismatch
  else do
    let p ← pos.deepcopy
    let n ← neg.deepcopy
    .ok ⟨p, n, []⟩

/-- The default generator, fca/algorithms/patterns.py:99, 119-120. -/
def defaultGen (ord : SetOrder β) (s : PExp α β) : Py (List (PItem α β)) := do
  let cs ← positiveConcepts ord s.pos s.neg
  .ok (cs.map .concept)

/-- fca/algorithms/patterns.py:150-155 `add_negative_example`. -/
def addNegative (s : PExp α β) (name : α) (intent : Finset β) (pattern : Option (List β)) : PExp α β × Option PyErr :=
  match pattern with
  | some p =>
    if p.toFinset \ intent ≠ ∅ then (s, some .notNegativeExample)
    else
      let m := s.neg.addObjectWithIntent intent name
      ({ s with neg := m.1 }, m.2)
  | none =>
    let m := s.neg.addObjectWithIntent intent name
    ({ s with neg := m.1 }, m.2)

/-- fca/algorithms/patterns.py:157-159 `add_positive_example`. -/
def addPositive (s : PExp α β) (name : α) (intent : Finset β) : PExp α β × Option PyErr :=
  let m := s.pos.addObjectWithIntent intent name
  ({ s with pos := m.1 }, m.2)

/-- The calls a history consists of. -/
inductive Op (α β : Type) where
  | confirm (pattern : List β)
  | addNegative (name : α) (intent : Finset β) (pattern : Option (List β))
  | addPositive (name : α) (intent : Finset β)

/-- One call. -/
def exec (s : PExp α β) : Op α β → PExp α β × Option PyErr
  | .confirm p => s.confirm p
  | .addNegative n B p => s.addNegative n B p
  | .addPositive n B => s.addPositive n B

/-- A history: calls that raise are caught and the next call follows. -/
def run (s : PExp α β) (ops : List (Op α β)) : PExp α β := ops.foldl (fun s op => (s.exec op).1) s

/-- fca/algorithms/patterns.py:146-148 `iterate_new_objects`, exhausted. The expert is a function that may look at the
exploration (a closure) and returns an iterable of pairs (name, intent); `none` is the default of the constructor, whose
call raises. An expert that is itself a generator: `newLive` in PatternsLive. -/
def iterateNew (s : PExp α β) (expert : Option (PExp α β → List β → Py (List (α × Finset β)))) (pattern : List β) :
    Py (List (α × Finset β)) :=
  match expert with
  | none => .error .typeError
  | some e => e s pattern

/-- A client's loop over the new objects: `for n, B in new: add_negative_example(n, B, pattern)`
(fca/algorithms/patterns.py:150-155). -/
def addAll (s : PExp α β) (pattern : List β) : List (α × Finset β) → PExp α β × Option PyErr
  | [] => (s, none)
  | x :: rest =>
    match s.addNegative x.1 x.2 (some pattern) with
    | (s', none) => s'.addAll pattern rest
    | r => r

/-- A client asks the expert about a pattern, adds what the expert gives and then confirms the pattern:
fca/algorithms/patterns.py:146-148, 150-155, 132-138. -/
def ask (expert : Option (PExp α β → List β → Py (List (α × Finset β)))) (s : PExp α β) (pattern : List β) :
    PExp α β × Option PyErr :=
  match s.iterateNew expert pattern with
  | .error e => (s, some e)
  | .ok xs =>
    match s.addAll pattern xs with
    | (s', none) => s'.confirm pattern
    | r => r

/-- A client asks about several patterns, going on after exceptions. -/
def session (expert : Option (PExp α β → List β → Py (List (α × Finset β)))) (s : PExp α β)
    (patterns : List (List β)) : PExp α β :=
  patterns.foldl (fun s p => (s.ask expert p).1) s

end PExp
