/-
The closure functions of fca/algorithms/closure_operators.py and the algorithm of fca/algorithms/norris.py with counters:
how often the bodies of their loops are executed.
-/
import Verif.Model.Implication
import Verif.Model.Lattice

section closures
variable {α : Type} [DecidableEq α]

/-- fca/algorithms/closure_operators.py:77-86, the loop of `simple_closure` (`simpleLoop`). The numbers count the executions
of the body of `while` (line 78) and of the test `imp._premise <= new_closure` (line 81). -/
def simpleLoopW : ℕ → List (Imp α) → Finset α → Option (Finset α × ℕ × ℕ)
  | 0, _, _ => none
  | fuel + 1, unused, cl =>
    let r := simplePass unused cl
    if r.2.1 then
      (simpleLoopW fuel (unused.filter fun imp => !(r.2.2.any fun x => x.pyEq imp)) r.1).map fun w =>
        (w.1, w.2.1 + 1, w.2.2 + unused.length)
    else some (r.1, 1, unused.length)

/-- fca/algorithms/closure_operators.py:38-86 `simple_closure` with the two counters. -/
def simpleClosureW (s : Finset α) (imps : List (Imp α)) : Option (Finset α × ℕ × ℕ) :=
  simpleLoopW (imps.length + 1) imps s

/-- fca/algorithms/closure_operators.py:149-158, the loop of `lin_closure` (`linLoop`). The numbers count the executions of
the body of `while` (line 150) and the calls of `decrease_count` (line 153). -/
def linLoopW (imps : List (Imp α)) (ord : ℕ → SetOrder α) :
    ℕ → List α → (Finset α × Finset α → ℕ) → Finset α → Option (Finset α × ℕ × ℕ)
  | 0, _, _, _ => none
  | _ + 1, [], _, cl => some (cl, 0, 0)
  | fuel + 1, m :: upd, count, cl =>
    let cur := imps.filter fun imp => decide (m ∈ imp.premise)
    let r := linCounts cur count
    let add := r.2 \ cl
    (linLoopW imps ord fuel (((ord fuel).enum add).reverse ++ upd) r.1 (cl ∪ add)).map fun w =>
      (w.1, w.2.1 + 1, w.2.2 + cur.length)

/-- fca/algorithms/closure_operators.py:88-158 `lin_closure` with the two counters. -/
def linClosureW (ord₀ : SetOrder α) (ord : ℕ → SetOrder α) (s : Finset α) (imps : List (Imp α)) :
    Option (Finset α × ℕ × ℕ) :=
  if imps = [] then some (s, 0, 0)
  else
    let start := linStart s imps
    linLoopW imps ord (linFuel s imps) (ord₀.enum start).reverse (fun k => k.1.card) start

end closures

section norris
variable {α β : Type} [DecidableEq α] [DecidableEq β]

/-- fca/algorithms/norris.py:73-78: the check `new`, which stops at the first `break`, with the number of executions of
the body. -/
def norrisNewW (c : Concept α β) (D : Finset β) : List (α × Finset β) → Bool × ℕ
  | [] => (true, 0)
  | p :: rest =>
    if D ⊆ p.2 ∧ p.1 ∉ c.extent then (false, 1)
    else
      let r := norrisNewW c D rest
      (r.1, r.2 + 1)

/-- fca/algorithms/norris.py:67-83 (`norrisInner`) with the number of executions of the body of the loop over
`cs_for_loop` (line 69) and of the loop over `j` (line 75). -/
def norrisInnerW (seen : List (α × Finset β)) (p : α × Finset β) :
    List (Concept α β) → List (Concept α β) → List (Concept α β) → List (Concept α β) × ℕ × ℕ
  | done, [], news => (done ++ news, 0, 0)
  | done, c :: todo, news =>
    if c.intent ⊆ p.2 then
      let r := norrisInnerW seen p (done ++ [⟨insert p.1 c.extent, c.intent⟩]) todo news
      (r.1, r.2.1 + 1, r.2.2)
    else
      let D := c.intent ∩ p.2
      let w := norrisNewW c D seen
      if w.1 then
        let r := norrisInnerW seen p (done ++ [c]) todo (news ++ [⟨insert p.1 c.extent, D⟩])
        (r.1, r.2.1 + 1, r.2.2 + w.2)
      else
        let r := norrisInnerW seen p (done ++ [c]) todo news
        (r.1, r.2.1 + 1, r.2.2 + w.2)

/-- fca/algorithms/norris.py:66-83 (`norrisLoop`) with the two counters. -/
def norrisLoopW : List (α × Finset β) → List (α × Finset β) → List (Concept α β) → List (Concept α β) × ℕ × ℕ
  | _, [], cs => (cs, 0, 0)
  | seen, p :: rest, cs =>
    let r := norrisInnerW seen p [] cs []
    let s := norrisLoopW (seen ++ [p]) rest r.1
    (s.1, s.2.1 + r.2.1, s.2.2 + r.2.2)

/-- fca/algorithms/norris.py:8-48 `norris(context, with_parents=False)` with the two counters. -/
def norrisW (c : Ctx α β) : Py (List (Concept α β) × ℕ × ℕ) := do
  let exs ← c.examples
  .ok (norrisLoopW [] (c.objects.zip exs) [⟨∅, c.attributes.toFinset⟩])

end norris
