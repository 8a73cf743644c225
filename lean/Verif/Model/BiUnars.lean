/-
Model of fca/algorithms/exploration_/examples/bi_unars.py.

Importing this module fails in the pinned version: `fca.algorithms.exploration` (line 8) is a module, not a package, so
`fca.algorithms.exploration.exploration` cannot be imported. The functions are modelled as they stand.
-/
import Verif.Model.PartialContext

/-- `l[i]` for a tuple: negative positions count from the end. -/
def pyIdx {γ : Type} (l : List γ) (i : ℤ) : Py γ :=
  if 0 ≤ i then pyGet l i.toNat
  else if 0 ≤ i + l.length then pyGet l (i + l.length).toNat
  else .error .indexError

/-- fca/algorithms/exploration_/examples/bi_unars.py:14-18: a `BiUnar`, two tuples of integers. -/
structure BiUnar where
  f : List ℤ
  g : List ℤ
  deriving DecidableEq

/-- fca/algorithms/exploration_/examples/bi_unars.py:23-24 `automorphic_copy`. -/
def BiUnar.automorphicCopy (bu : BiUnar) : BiUnar := ⟨bu.g, bu.f⟩

/-- fca/algorithms/exploration_/examples/bi_unars.py:96-97 `compose`. -/
def buCompose (f g : List ℤ) : Py (List ℤ) := g.mapM fun x => pyIdx f (x - 1)

/-- fca/algorithms/exploration_/examples/bi_unars.py:197-205: the entries of `terms`. Terms are compared by identity. -/
inductive BuTerm
  | id | f | g | ff | fg | gf | gg
  deriving DecidableEq

namespace BuTerm

/-- fca/algorithms/exploration_/examples/bi_unars.py:36-37, 198-204: `str(term)`. -/
def name : BuTerm → List Char
  | id => ['i', 'd']
  | f => ['f']
  | g => ['g']
  | ff => ['f', 'f']
  | fg => ['f', 'g']
  | gf => ['g', 'f']
  | gg => ['g', 'g']

/-- fca/algorithms/exploration_/examples/bi_unars.py:33-34, 198-204: `term(bu)`. -/
def eval (bu : BiUnar) : BuTerm → Py (List ℤ)
  | id => .ok ((List.range bu.f.length).map fun (k : ℕ) => (k : ℤ) + 1)
  | f => .ok bu.f
  | g => .ok bu.g
  | ff => buCompose bu.f bu.f
  | fg => buCompose bu.f bu.g
  | gf => buCompose bu.g bu.f
  | gg => buCompose bu.g bu.g

end BuTerm

/-- fca/algorithms/exploration_/examples/bi_unars.py:197-205. -/
def buTerms : List BuTerm := [.id, .f, .g, .ff, .fg, .gf, .gg]

/-- fca/algorithms/exploration_/examples/bi_unars.py:40-44: an `Equality`. Equalities are compared by identity; those in
`attributes` differ in one of the terms, so that the pair stands for the object. -/
structure BuEq where
  left : BuTerm
  right : BuTerm
  deriving DecidableEq

namespace BuEq

/-- fca/algorithms/exploration_/examples/bi_unars.py:46-47 `__call__`. -/
def holds (bu : BiUnar) (e : BuEq) : Py Bool := do
  let l ← e.left.eval bu
  let r ← e.right.eval bu
  .ok (l == r)

/-- fca/algorithms/exploration_/examples/bi_unars.py:49-50 `__str__`. -/
def name (e : BuEq) : List Char := e.left.name ++ [' ', '=', ' '] ++ e.right.name

end BuEq

/-- fca/algorithms/exploration_/examples/bi_unars.py:208-209. -/
def buAttributes : List BuEq :=
  (List.range buTerms.length).flatMap fun i =>
    (List.range' (i + 1) (buTerms.length - (i + 1))).filterMap fun j =>
      match buTerms[i]?, buTerms[j]? with
      | some s, some t => some ⟨s, t⟩
      | _, _ => none

/-- fca/algorithms/exploration_/examples/bi_unars.py:175-182 `get_symmetric_term`; `str.replace` of single characters.
`none` is the implicit `None`. -/
def buSymTerm (t : BuTerm) : Option BuTerm :=
  let s := t.name.map fun c => if c = 'f' then 'F' else c
  let s := s.map fun c => if c = 'g' then 'f' else c
  let s := s.map fun c => if c = 'F' then 'g' else c
  buTerms.find? fun t' => t'.name == s

/-- `terms.index(t)`. -/
def buIndex (t : Option BuTerm) : Py ℕ :=
  match t with
  | none => .error .valueError
  | some t => match buTerms.findIdx? (· == t) with
    | some i => .ok i
    | none => .error .valueError

/-- fca/algorithms/exploration_/examples/bi_unars.py:163-172: one round of the loop, with `symmetric_eqs` built up. -/
def buSymStep (acc : Finset BuEq) (e : BuEq) : Py (Finset BuEq) := do
  let left := buSymTerm e.left
  let right := buSymTerm e.right
  let i ← buIndex left
  let j ← buIndex right
  let (left, right) := if i > j then (right, left) else (left, right)
  match buAttributes.find? fun a => some a.left == left && some a.right == right with
  | some a => .ok (insert a acc)
  | none => .ok acc

/-- fca/algorithms/exploration_/examples/bi_unars.py:161-172 `get_symmetric_attribute_set`. -/
def buSymSet (ord : SetOrder BuEq) (eqs : Finset BuEq) : Py (Finset BuEq) :=
  (ord.enum eqs).foldlM buSymStep ∅

/-- fca/algorithms/exploration_/examples/bi_unars.py:52-54, 185-189 `get_symmetric_equality`: the attribute with the text of
`e.automorphic_copy()`, or `None`. -/
def buSymEq (e : BuEq) : Option BuEq :=
  let text : Option BuTerm → List Char := fun t => match t with
    | some t => t.name
    | none => ['N', 'o', 'n', 'e']
  buAttributes.find? fun a => a.name == text (buSymTerm e.left) ++ [' ', '=', ' '] ++ text (buSymTerm e.right)

/-- fca/algorithms/exploration_/examples/bi_unars.py:192-194 `get_symmetric_implication`; `imp.conclusion` is the
reduced conclusion. -/
def buSymImp (ord : SetOrder BuEq) (imp : Imp BuEq) : Py (Imp BuEq) := do
  let p ← buSymSet ord imp.premise
  let c ← buSymSet ord imp.reduced
  .ok ⟨p, c⟩

/-- fca/algorithms/exploration_/examples/bi_unars.py:152-158: the loop of `is_orbit_maximal`. -/
def buOrbitLoop (eqs sym : Finset BuEq) : List BuEq → Bool
  | [] => true
  | a :: as =>
    if a ∈ eqs then
      if a ∉ sym then true else buOrbitLoop eqs sym as
    else if a ∈ sym then false
    else buOrbitLoop eqs sym as

/-- fca/algorithms/exploration_/examples/bi_unars.py:150-158 `is_orbit_maximal`. -/
def buOrbitMaximal (ord : SetOrder BuEq) (eqs : Finset BuEq) : Py Bool := do
  let sym ← buSymSet ord eqs
  .ok (buOrbitLoop eqs sym buAttributes)

/-- The set of the attributes of the list that hold: lines 106 and 111. -/
def buHolding (bu : BiUnar) (as : List BuEq) : Py (Finset BuEq) := do
  let l ← as.mapM fun a => do
    let b ← a.holds bu
    .ok (a, b)
  .ok ((l.filter Prod.snd).map Prod.fst).toFinset

/-- fca/algorithms/exploration_/examples/bi_unars.py:105-106 `bu_intent`. -/
def buIntent (bu : BiUnar) : Py (Finset BuEq) := buHolding bu buAttributes

/-- fca/algorithms/exploration_/examples/bi_unars.py:109-113 `generate_partial_counterexample`. -/
def buPartialExample (ord : SetOrder BuEq) (imp : Imp BuEq) (bu : BiUnar) : Py (Finset BuEq × Finset BuEq) := do
  let relevant := imp.premise ∪ imp.reduced
  let xintent ← buHolding bu (ord.enum relevant)
  .ok (xintent, (buAttributes.toFinset \ relevant) ∪ xintent)

/-- `itertools.product(l, repeat=k)`. -/
def pyProduct {γ : Type} (l : List γ) : ℕ → List (List γ)
  | 0 => [[]]
  | k + 1 => l.flatMap fun x => (pyProduct l k).map fun t => x :: t

/-- fca/algorithms/exploration_/examples/bi_unars.py:100-102 `generate_examples`. -/
def buExamples (n : ℕ) : List BiUnar :=
  let maps := pyProduct ((List.range n).map fun (k : ℕ) => (k : ℤ) + 1) n
  maps.flatMap fun f => maps.map fun g => ⟨f, g⟩

/-- The loop of `find_counter_example`. -/
def buFindLoop (imp : Imp BuEq) : List BiUnar → Py (Option BiUnar)
  | [] => .ok none
  | e :: es => do
    let i ← buIntent e
    if !(imp.isRespected i) then .ok (some e) else buFindLoop imp es

/-- fca/algorithms/exploration_/examples/bi_unars.py:116-119 `find_counter_example`. -/
def buFindCounterExample (n : ℕ) (imp : Imp BuEq) : Py (Option BiUnar) := buFindLoop imp (buExamples n)

/-- fca/algorithms/exploration_/examples/bi_unars.py:122-130 `generate_context`. -/
def buContext [PyName BiUnar] [PyName BuEq] (n : ℕ) (atts : List BuEq) : Py (PCtx BiUnar BuEq) := do
  let objects := buExamples n
  let table ← objects.mapM fun o => atts.mapM fun a => a.holds o
  PCtx.make table table objects atts

/-- fca/algorithms/exploration_/examples/bi_unars.py:137-146: the condition on the three equalities. -/
def buTriangle (x y z : BuEq) : Bool :=
  (x.left == z.left && x.right == y.left && y.right == z.right) ||
  (x.left == z.left && x.right == y.right && y.left == z.right) ||
  (x.left == y.left && x.right == z.left && y.right == z.right)

/-- fca/algorithms/exploration_/examples/bi_unars.py:133-147 `generate_background_implications`. -/
def buBackground (atts : List BuEq) : List (Imp BuEq) :=
  atts.flatMap fun x => atts.flatMap fun y => (atts.filter fun z => buTriangle x y z).map fun z => ⟨{x, y}, {z}⟩

/-- fca/algorithms/exploration_/examples/bi_unars.py:85-93 `provide_counterexample`: the answer for the bi-unar typed in and
the choice between a partial and a full example. -/
def buProvide (ord : SetOrder BuEq) (imp : Imp BuEq) (bu : BiUnar) (partialEx : Bool) :
    Py (List (BiUnar × (Finset BuEq × Finset BuEq))) := do
  let intent ← if partialEx then buPartialExample ord imp bu else do
    let i ← buIntent bu
    .ok (i, i)
  let s ← buSymSet ord intent.1
  let t ← buSymSet ord intent.2
  .ok [(bu, intent), (bu.automorphicCopy, (s, t))]
