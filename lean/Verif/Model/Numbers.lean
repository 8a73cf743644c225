/-
Model of fca/algorithms/exploration2/examples/numbers.py.
-/
import Verif.Model.Exploration2

/-! ### The predicates -/

/-- fca/algorithms/exploration2/examples/numbers.py:6-11 `is_prime(n)`: `range(n - 1, 1, -1)` lists `n - 1, …, 2`;
`%` is Python's, with the sign of the divisor. -/
def numIsPrime (n : ℤ) : Bool :=
  ((List.range (n - 2).toNat).map fun k : ℕ => n - 1 - (k : ℤ)).all fun m => !(n.fmod m == 0)

/-- fca/algorithms/exploration2/examples/numbers.py:15-20: the loop over `m` with the product `f`; `none` is the
implicit `return None` after the loop. -/
def numFactLoop (n : ℤ) : List ℤ → ℤ → Option Bool
  | [], _ => none
  | m :: ms, f =>
    if f * m = n then some true
    else if f * m > n then some false
    else numFactLoop n ms (f * m)

/-- fca/algorithms/exploration2/examples/numbers.py:13-20 `is_factorial(n)`: `range(1, n + 1)` lists `1, …, n`. -/
def numIsFactorial (n : ℤ) : Option Bool :=
  numFactLoop n ((List.range n.toNat).map fun k : ℕ => (k : ℤ) + 1) 1

/-- fca/algorithms/exploration2/examples/numbers.py:26-32: the keys of the dict `d`. -/
inductive NumAttr
  | even | odd | dividedByThree | prime | factorial
  deriving DecidableEq

/-- fca/algorithms/exploration2/examples/numbers.py:26-32: the truth value of `self.d[attr](number)`. -/
def NumAttr.holds : NumAttr → ℤ → Bool
  | .even, n => n.fmod 2 == 0
  | .odd, n => n.fmod 2 == 1
  | .dividedByThree, n => n.fmod 3 == 0
  | .prime, n => numIsPrime n
  | .factorial, n => (numIsFactorial n).getD false

/-- fca/algorithms/exploration2/examples/numbers.py:34: `list(self.d.keys())`. -/
def numAttrs : List NumAttr := [.even, .odd, .dividedByThree, .prime, .factorial]

/-! ### The exploration -/

section
variable {α β : Type} [DecidableEq α] [DecidableEq β] [PyName α] [PyName β]

/-- fca/algorithms/exploration2/examples/numbers.py:46-47 `get_intent(number)`: the attributes of the context that hold
for the object. -/
def cliIntent (holds : β → α → Bool) (c : Ctx α β) (x : α) : Finset β :=
  (c.attributes.filter fun a => holds a x).toFinset

/-- What the user answers to an implication: it is valid, or a counterexample. -/
inductive CliAnswer (α : Type)
  | valid
  | counter (x : α)

/-- How `explore` ends. -/
inductive CliEnd
  | finished
  | raised (e : PyErr)
  | outOfFuel
  deriving DecidableEq

/-- fca/algorithms/exploration2/examples/numbers.py:49-58 `explore`, in session 0, for at most the given number of
rounds. `ans k s imp` is the answer given in round `k` in state `s` to the question for `imp`. The candidates are
computed twice in a round (lines 50, 51), with the same result; `E k` are the set iteration orders in round `k`. -/
def cliExplore (E : ℕ → EDB.Env α β) (holds : β → α → Bool) (ans : ℕ → E2 α β → Imp β → CliAnswer α) :
    ℕ → E2 α β → E2 α β × CliEnd
  | 0, s => (s, .outOfFuel)
  | fuel + 1, s =>
    match s.candidates (E fuel) 0 with
    | .error e => (s, .raised e)
    | .ok [] => (s, .finished)
    | .ok (imp :: _) =>
      let r := match ans fuel s imp with
        | .valid => s.accept 0 imp
        | .counter x => s.reject 0 imp x (cliIntent holds s.ctx x)
      match r with
      | (s', none) => cliExplore E holds ans fuel s'
      | (s', some e) => (s', .raised e)

/-- fca/algorithms/exploration2/examples/numbers.py:49-58: the implications printed as questions (line 52), in this
order. -/
def cliQuestions (E : ℕ → EDB.Env α β) (holds : β → α → Bool) (ans : ℕ → E2 α β → Imp β → CliAnswer α) :
    ℕ → E2 α β → List (Imp β)
  | 0, _ => []
  | fuel + 1, s =>
    match s.candidates (E fuel) 0 with
    | .error _ => []
    | .ok [] => []
    | .ok (imp :: _) =>
      let r := match ans fuel s imp with
        | .valid => s.accept 0 imp
        | .counter x => s.reject 0 imp x (cliIntent holds s.ctx x)
      match r with
      | (s', none) => imp :: cliQuestions E holds ans fuel s'
      | (_, some _) => [imp]

/-- fca/algorithms/exploration2/examples/numbers.py:25-37, fca/algorithms/exploration2/exploration.py:105-115
`CommandLineExploration()`: a context without objects and one session. -/
def cliInit (atts : List β) : Py (E2 α β) := do
  let c ← Ctx.make [] ([] : List α) atts
  .ok (E2.create ⟨c, []⟩)

end
