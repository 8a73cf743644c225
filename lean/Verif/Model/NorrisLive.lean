/-
Model of the generator of fca/algorithms/norris.py when the context is changed between two values.
-/
import Verif.Model.Lattice
import Verif.Model.ContextOps

variable {α β : Type} [DecidableEq α] [DecidableEq β]

/-- fca/algorithms/norris.py:73-78: the check `new` over the positions `js`, with `names` the names of the objects at this
moment and `E` the extent of `c`. `examples[j]` comes first, `context.objects[j]` is read only if needed. -/
def norrisNewLive (names : List α) (exs : List (Finset β)) (E : Finset α) (D : Finset β) : List ℕ → Py Bool
  | [] => .ok true
  | j :: js => do
    let ex ← pyGet exs j
    if D ⊆ ex then
      let o ← pyGet names j
      if o ∉ E then .ok false else norrisNewLive names exs E D js
    else norrisNewLive names exs E D js

/-- fca/algorithms/norris.py:67-83: the loop over `cs_for_loop` for the position `i`; `names t` are the names of the
objects after `t` values were yielded. The list of concepts is `done ++ todo ++ news` as in `norrisInner`. First component:
what the consumer holds at each `yield`; second component: the number of values and the list at the end, or the
exception. -/
def norrisLiveInner (names : ℕ → List α) (exs : List (Finset β)) (i : ℕ) :
    ℕ → List (Concept α β) → List (Concept α β) → List (Concept α β) →
    List (List (Concept α β)) × Py (ℕ × List (Concept α β))
  | t, done, [], news => ([], .ok (t, done ++ news))
  | t, done, c :: todo, news =>
    match pyGet exs i with
    | .error e => ([], .error e)
    | .ok ex =>
      if c.intent ⊆ ex then
        match pyGet (names t) i with
        | .error e => ([], .error e)
        | .ok o => norrisLiveInner names exs i t (done ++ [⟨insert o c.extent, c.intent⟩]) todo news
      else
        match norrisNewLive (names t) exs c.extent (c.intent ∩ ex) (List.range i) with
        | .error e => ([], .error e)
        | .ok false => norrisLiveInner names exs i t (done ++ [c]) todo news
        | .ok true =>
          match pyGet (names t) i with
          | .error e => ([], .error e)
          | .ok o =>
            let new : Concept α β := ⟨insert o c.extent, c.intent ∩ ex⟩
            let r := norrisLiveInner names exs i (t + 1) (done ++ [c]) todo (news ++ [new])
            ((done ++ c :: todo ++ news ++ [new]) :: r.1, r.2)

/-- fca/algorithms/norris.py:66-83: the loop over the positions. -/
def norrisLiveLoop (names : ℕ → List α) (exs : List (Finset β)) :
    List ℕ → ℕ → List (Concept α β) → List (List (Concept α β)) × Py (List (Concept α β))
  | [], _, cs => ([], .ok cs)
  | i :: is, t, cs =>
    match norrisLiveInner names exs i t [] cs [] with
    | (ys, .error e) => (ys, .error e)
    | (ys, .ok (t', cs')) =>
      let r := norrisLiveLoop names exs is t' cs'
      (ys ++ r.1, r.2)

/-- fca/algorithms/norris.py:51-83 `iterative_norris(context)`, fca/context.py:278-279 `iterate_concepts`, with changes
of the context between two values: `cxts t` is the context after `t` values were yielded and the consumer has reacted.
The intents of the objects and the attributes are read before the first value (lines 57-61), the number of objects after
it (line 66), the names of the objects whenever they are needed (lines 70, 76, 80). -/
def iterNorrisLive (cxts : ℕ → Ctx α β) : List (List (Concept α β)) × Py (List (Concept α β)) :=
  match (cxts 0).examples with
  | .error e => ([], .error e)
  | .ok exs =>
    let top : Concept α β := ⟨∅, (cxts 0).attributes.toFinset⟩
    let r := norrisLiveLoop (fun t => (cxts t).objects) exs (List.range (cxts 1).len) 1 [top]
    ([top] :: r.1, r.2)
