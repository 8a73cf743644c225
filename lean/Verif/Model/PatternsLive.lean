/-
The generators of fca/algorithms/patterns.py resumed step by step, the exploration being changed between the steps by the
program that consumes them. `client ys s` is the state the consumer leaves, `ys` being what was yielded so far. The
consumers considered call methods of the exploration: `add_object` binds a new list of names (fca/context.py:374), so the
list a generator has started to read does not change.
-/
import Verif.Model.Patterns

namespace PExp

variable {α β : Type} [DecidableEq α] [DecidableEq β]

/-- What a loop over a generator leaves: how the generator ended, the items with the states they were yielded in, and the
exploration. -/
structure Live (α β γ : Type) where
  ended : Py Unit
  yields : List (γ × PExp α β)
  final : PExp α β

/-- fca/algorithms/patterns.py:165-169 `iterate_unexplained_examples`, resumed: the names are read from the list that was
there at the first step (`enumerate`), intent and confirmed patterns from the present state. -/
def unexplainedFrom (client : List (α × Finset β) → PExp α β → PExp α β) :
    List α → ℕ → List ((α × Finset β) × PExp α β) → PExp α β → Live α β (α × Finset β)
  | [], _, ys, s => ⟨.ok (), ys, s⟩
  | o :: os, i, ys, s =>
    match s.pos.intentByIndex i with
    | .error e => ⟨.error e, ys, s⟩
    | .ok B =>
      if s.isExplained B then unexplainedFrom client os (i + 1) ys s
      else unexplainedFrom client os (i + 1) (ys ++ [((o, B), s)]) (client ((ys ++ [((o, B), s)]).map Prod.fst) s)

def unexplainedLive (client : List (α × Finset β) → PExp α β → PExp α β) (s : PExp α β) : Live α β (α × Finset β) :=
  unexplainedFrom client s.pos.objects 0 [] s

/-- fca/algorithms/patterns.py:140-144 `iterate_examples`, resumed: the set of names is computed by the call, the intents
are read from the present context. -/
def examplesFrom (client : List (α × Finset β) → PExp α β → PExp α β) :
    List α → List ((α × Finset β) × PExp α β) → PExp α β → Live α β (α × Finset β)
  | [], ys, s => ⟨.ok (), ys, s⟩
  | o :: os, ys, s =>
    match s.pos.objectIntent o with
    | .error e => ⟨.error e, ys, s⟩
    | .ok B => examplesFrom client os (ys ++ [((o, B), s)]) (client ((ys ++ [((o, B), s)]).map Prod.fst) s)

/-- `s'` is the state at the first step: the call may be earlier than the first step. -/
def examplesLive (ord : SetOrder α) (client : List (α × Finset β) → PExp α β → PExp α β) (s s' : PExp α β)
    (pattern : List β) : Live α β (α × Finset β) :=
  match s.pos.aprime pattern with
  | .error e => ⟨.error e, [], s⟩
  | .ok objs => examplesFrom client (ord.enum objs) [] s'

/-- fca/algorithms/patterns.py:90-93: the loop of `iterate_positive_concepts`, resumed; the list of concepts is computed
at the first step, the negative context is read at every step. -/
def positiveFrom (ord : SetOrder β) (client : List (Concept α β) → PExp α β → PExp α β) :
    List (Concept α β) → List (Concept α β × PExp α β) → PExp α β → Live α β (Concept α β)
  | [], ys, s => ⟨.ok (), ys, s⟩
  | x :: xs, ys, s =>
    match negFull ord s.neg x.intent with
    | .error e => ⟨.error e, ys, s⟩
    | .ok false => positiveFrom ord client xs ys s
    | .ok true => positiveFrom ord client xs (ys ++ [(x, s)]) (client ((ys ++ [(x, s)]).map Prod.fst) s)

variable [PyName α] [PyName β]

/-- fca/algorithms/patterns.py:88-93 `iterate_positive_concepts`, resumed. -/
def positiveLive (ord : SetOrder β) (client : List (Concept α β) → PExp α β → PExp α β)
    (s : PExp α β) : Live α β (Concept α β) :=
  match (do
    let r₁ ← s.pos.reduceAttributes
    let r ← r₁.reduceObjects
    norris r) with
  | .error e => ⟨.error e, [], s⟩
  | .ok cs => positiveFrom ord client cs [] s

/-- An expert that is a generator function: `start` is the call, `next` one step, which sees the present exploration;
`none` is the end of the generator. -/
structure LiveExpert (α β σ : Type) where
  start : PExp α β → List β → σ
  next : σ → PExp α β → Option (Py (α × Finset β)) × σ

/-- `for n, B in e.iterate_new_objects(p): e.add_negative_example(n, B, p)`: fca/algorithms/patterns.py:146-148, 150-155.
`none`: more than `fuel` steps. -/
def newLive {σ : Type} (x : LiveExpert α β σ) (p : List β) : ℕ → σ → PExp α β → Option (PExp α β × Option PyErr)
  | 0, _, _ => none
  | fuel + 1, st, s =>
    match x.next st s with
    | (none, _) => some (s, none)
    | (some (.error e), _) => some (s, some e)
    | (some (.ok y), st') =>
      match s.addNegative y.1 y.2 (some p) with
      | (s', none) => newLive x p fuel st' s'
      | r => some r

/-- The loop, and then `confirm_pattern(p)`, as `ask`. -/
def askLive {σ : Type} (x : LiveExpert α β σ) (fuel : ℕ) (s : PExp α β) (p : List β) :
    Option (PExp α β × Option PyErr) :=
  match newLive x p fuel (x.start s p) s with
  | none => none
  | some (s', none) => some (s'.confirm p)
  | some r => some r

/-- Several patterns, going on after exceptions. -/
def sessionLive {σ : Type} (x : LiveExpert α β σ) (fuel : ℕ) : PExp α β → List (List β) → Option (PExp α β)
  | s, [] => some s
  | s, p :: ps =>
    match askLive x fuel s p with
    | none => none
    | some r => sessionLive x fuel r.1 ps

/-- An expert that returns a list, as a generator over it. -/
def LiveExpert.ofList (e : PExp α β → List β → Py (List (α × Finset β))) :
    LiveExpert α β (Py (List (α × Finset β))) where
  start := e
  next st _ := match st with
    | .error er => (some (.error er), .ok [])
    | .ok [] => (none, .ok [])
    | .ok (y :: ys) => (some (.ok y), .ok ys)

end PExp
