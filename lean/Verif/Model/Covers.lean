/-
Model of fca/algorithms/implication_covers.py.

`imp.conclusion` is the property `get_reduced_conclusion` (fca/implication.py:50-54), which builds a new
set, so the calls `i.conclusion.update(…)` and `imp.conclusion.update(…)` change nothing (lines 69, 75, 80,
93); they are left out. The functions copy the sets they put into new implications, and no implication
object is changed by `compute_implication_cover`, so implications are values. The prints are left out.
-/
import Verif.Model.Implication
import Verif.Model.Context

variable {α β : Type} [DecidableEq α] [DecidableEq β]

namespace Cover

/-- fca/algorithms/implication_covers.py:55-56 `is_subsumed_simply(imp, by_imp)`. -/
def subsumedSimply (imp by_ : Imp β) : Bool :=
  decide (by_.premise ⊆ imp.premise) && decide (imp.reduced ⊆ by_.reduced)

/-- fca/algorithms/implication_covers.py:59-61 `is_subsumed(imp, by_imp)`. -/
def subsumed (imp by_ : Imp β) : Bool :=
  decide (by_.premise ⊆ imp.premise) && decide (imp.reduced ⊆ by_.reduced ∪ imp.premise)

/-- fca/algorithms/implication_covers.py:42-52 `is_new`. Raising a string is a TypeError. -/
def isNew (imp : Imp β) (implications : List (Imp β)) : Py Bool :=
  if imp.reduced ⊆ imp.premise then .ok false else go implications
where
  /-- Lines 45-52: the loop. -/
  go : List (Imp β) → Py Bool
    | [] => .ok true
    | i :: rest =>
      if subsumedSimply imp i then .ok false
      else if subsumed imp i then .error .typeError
      else if subsumed i imp then .error .typeError
      else go rest

/-- `implications.remove(i)`: the first element equal to `i` is removed. -/
def remove (i : Imp β) (l : List (Imp β)) : Py (List (Imp β)) :=
  if l.any (fun x => x.pyEq i) then .ok (l.eraseP fun x => x.pyEq i) else .error .valueError

/-- fca/algorithms/implication_covers.py:64-81 `remove_subsumed_plus`: the result and the changed list. The
first list argument of the loop is the copy `implications[:]`. -/
def removeSubsumedPlus (imp : Imp β) (implications : List (Imp β)) : Py (Bool × List (Imp β)) :=
  if imp.reduced ⊆ imp.premise then .ok (false, implications) else go implications implications
where
  /-- Lines 67-81. -/
  go : List (Imp β) → List (Imp β) → Py (Bool × List (Imp β))
    | [], l => .ok (true, l)
    | i :: rest, l =>
      if i.premise = imp.premise then .ok (false, l)
      else if i.premise ⊆ imp.premise then
        if imp.reduced ⊆ i.reduced then .ok (false, l) else go rest l
      else if imp.premise ⊆ i.premise then
        if i.reduced ⊆ imp.reduced then do
          let l' ← remove i l
          go rest l'
        else go rest l
      else go rest l

/-- fca/algorithms/implication_covers.py:84-97 `remove_subsumed`. -/
def removeSubsumed (imp : Imp β) (implications : List (Imp β)) : Py (Bool × List (Imp β)) :=
  if imp.reduced ⊆ imp.premise then .ok (false, implications) else go true implications implications
where
  /-- Lines 88-96; the first argument is `can_be_subsumed`. -/
  go : Bool → List (Imp β) → List (Imp β) → Py (Bool × List (Imp β))
    | _, [], l => .ok (true, l)
    | can, i :: rest, l =>
      if can = true ∧ i.premise ⊆ imp.premise then
        if imp.reduced ⊆ i.reduced then .ok (false, l) else go can rest l
      else if subsumedSimply i imp then do
        let l' ← remove i l
        go false rest l'
      else go can rest l

/-- fca/algorithms/implication_covers.py:100-110 `remove_subsumed_simply`. -/
def removeSubsumedSimply (imp : Imp β) (implications : List (Imp β)) : Py (Bool × List (Imp β)) :=
  if imp.reduced ⊆ imp.premise then .ok (false, implications) else go true implications implications
where
  /-- Lines 104-109. -/
  go : Bool → List (Imp β) → List (Imp β) → Py (Bool × List (Imp β))
    | _, [], l => .ok (true, l)
    | can, i :: rest, l =>
      if can = true ∧ subsumedSimply imp i then .ok (false, l)
      else if subsumedSimply i imp then do
        let l' ← remove i l
        go false rest l'
      else go can rest l

/-- fca/algorithms/implication_covers.py:113-115 `add_smartly`: the changed `new_valid`. -/
def addSmartly (imp : Imp β) (newValid valid : List (Imp β)) : Py (List (Imp β)) := do
  if ← isNew imp valid then
    let r ← removeSubsumedSimply imp newValid
    if r.1 then .ok (r.2 ++ [imp]) else .ok r.2
  else .ok newValid

/-- fca/algorithms/implication_covers.py:127-130: the first loop over `invalid`. -/
def loop1 (intent : Finset β) (valid : List (Imp β)) : List (Imp β) → List (Imp β) → Py (List (Imp β))
  | [], newValid => .ok newValid
  | imp :: rest, newValid => do
    let nv ← addSmartly ⟨imp.premise, imp.reduced ∩ intent⟩ newValid valid
    loop1 intent valid rest nv

/-- fca/algorithms/implication_covers.py:135-140: one pass of the inner loop; the state is
`(valid, new_valid)`. -/
def step2 (imp : Imp β) (a : β) (st : List (Imp β) × List (Imp β)) : Py (List (Imp β) × List (Imp β)) := do
  let new : Imp β := ⟨imp.premise ∪ {a}, imp.reduced ∪ {a}⟩
  let r ← removeSubsumed new st.1
  if r.1 then
    let q ← removeSubsumedPlus new st.2
    if q.1 then .ok (r.2, q.2 ++ [new]) else .ok (r.2, q.2)
  else .ok (r.2, st.2)

/-- fca/algorithms/implication_covers.py:135-140: the loop over the elements of `attributes - intent`. -/
def loop2a (imp : Imp β) : List β → List (Imp β) × List (Imp β) → Py (List (Imp β) × List (Imp β))
  | [], st => .ok st
  | a :: rest, st => do
    let st' ← step2 imp a st
    loop2a imp rest st'

/-- fca/algorithms/implication_covers.py:134-140: the second loop over `invalid`; `as` lists
`attributes - intent` in its iteration order, the same for all passes. -/
def loop2 (as : List β) : List (Imp β) → List (Imp β) × List (Imp β) → Py (List (Imp β) × List (Imp β))
  | [], st => .ok st
  | imp :: rest, st => do
    let st' ← loop2a imp as st
    loop2 as rest st'

/-- The test of line 122: the example respects the implication. -/
def isValid (intent : Finset β) (imp : Imp β) : Bool :=
  !(decide (imp.premise ⊆ intent)) || decide (imp.reduced ⊆ intent)

/-- fca/algorithms/implication_covers.py:118-141 `updated_basis(intent, basis, attributes)`. -/
def updatedBasis (ord : SetOrder β) (intent : Finset β) (basis : List (Imp β)) (attributes : Finset β) :
    Py (List (Imp β)) := do
  let valid := basis.filter fun imp => isValid intent imp
  let invalid := basis.filter fun imp => !(isValid intent imp)
  let nv ← loop1 intent valid invalid []
  let st ← loop2 (ord.enum (attributes \ intent)) invalid (valid ++ nv, [])
  .ok (st.1 ++ st.2)

/-- fca/algorithms/implication_covers.py:17-28: the loop over the examples; `ord k` gives the iteration order
of the `k`-th difference set. -/
def coverLoop (ord : ℕ → SetOrder β) (attributes : Finset β) :
    ℕ → List (Finset β) → List (Imp β) → Py (List (Imp β))
  | _, [], basis => .ok basis
  | k, intent :: rest, basis => do
    let b ← updatedBasis (ord k) intent basis attributes
    coverLoop ord attributes (k + 1) rest b

/-- fca/algorithms/implication_covers.py:12-28 `compute_implication_cover(cxt)` (the argument `close` is not
used). -/
def computeCover (c : Ctx α β) (ord : ℕ → SetOrder β) : Py (List (Imp β)) := do
  let es ← c.examples
  coverLoop ord c.attributes.toFinset 0 es [⟨∅, c.attributes.toFinset⟩]

/-- fca/algorithms/implication_covers.py:38-39 `is_redundant`, with the default `close`. -/
def isRedundant (imp : Imp β) (basis : List (Imp β)) : Bool :=
  decide (imp.reduced ⊆ simpleClosure imp.premise basis)

/-- fca/algorithms/implication_covers.py:144-158 `minimize(cover)`, the value of `cover` afterwards. The
first argument is the rest of the copy `cover[:]`. The implications in the list are distinct objects (the
assignment to `_premise` changes one list element only). -/
def minimizeLoop : List (Imp β) → List (Imp β) → Py (List (Imp β))
  | [], cover => .ok cover
  | imp :: rest, cover => do
    let cover' ← remove imp cover
    let imp' : Imp β := ⟨simpleClosure imp.premise cover', imp.conclusion⟩
    minimizeLoop rest (if imp'.reduced ⊆ imp'.premise then cover' else cover' ++ [imp'])

def minimize (cover : List (Imp β)) : Py (List (Imp β)) := minimizeLoop cover cover

end Cover
