/-
Model of fca/algorithms/aibasis.py: the attribute-incremental computation of the canonical basis.

The code stores, for a pseudo-closed set, a triple whose second component is the very set object
`implication._premise`; changing one changes the other. Every such set belongs to one list element, so an
element is modelled by a value `Pre` that carries the set once. The implications in the lists `basis`,
`min_mod_impl` etc. are the objects of the triples; they are read only while their sets have the values
given here.
-/
import Verif.Model.Implication
import Verif.Model.Context

variable {α β : Type} [DecidableEq α] [DecidableEq β]

namespace AI

/-- An element of the list `preclosed` (fca/algorithms/aibasis.py:38-39): `(extent, intent)` if `concl` is
`none`, and `(extent, premise, Implication(premise, conclusion))` otherwise. -/
structure Pre (α β : Type) where
  ext : Finset α
  set : Finset β
  concl : Option (Finset β)

/-- fca/algorithms/aibasis.py:139-140 `is_concept`. -/
def Pre.isConcept (p : Pre α β) : Bool := p.concl.isNone

/-- The implication `p[2]` of a triple. -/
def Pre.imp (p : Pre α β) : Imp β := ⟨p.set, p.concl.getD ∅⟩

/-- fca/algorithms/aibasis.py:11-21 `kclosure(s, k, cxt)`: the loop over the examples. -/
def kclosureLoop (s : Finset β) : List (Finset β) → Finset β → Finset β
  | [], cl => cl
  | o :: rest, cl =>
    if s = cl then cl
    else if s ⊆ o then kclosureLoop s rest (cl ∩ o) else kclosureLoop s rest cl

/-- fca/algorithms/aibasis.py:11-21 `kclosure(s, k, cxt)`. `examples()` is a generator; an exception in it
would surface only when the row is reached, but rows of a context in the model's well-formed states
raise none. -/
def kclosure (c : Ctx α β) (s : Finset β) (k : ℕ) : Py (Finset β) := do
  let es ← c.examples
  .ok (kclosureLoop s es (c.attributes.take k).toFinset)

/-- The local lists of `update_preclosed` (fca/algorithms/aibasis.py:51-58). -/
structure St (α β : Type) where
  oldStable : List (Imp β) := []
  newStable : List (Imp β) := []
  minMod : List (Imp β) := []
  nonMin : List (Pre α β) := []
  modExtra : List (Pre α β) := []
  newPre : List (Pre α β) := []

/-- fca/algorithms/aibasis.py:95-111 `process_stable_concept`. -/
def stableConcept (closure : Finset β → Py (Finset β)) (m : β) (extent : Finset α) (p : Pre α β) (st : St α β) :
    Py (St α β) :=
  let premise := insert m p.set
  if st.newStable.all fun i => i.isRespected premise then do
    let cl ← closure premise
    if cl = premise then
      .ok { st with newPre := st.newPre ++ [⟨p.ext ∩ extent, premise, none⟩] }
    else
      .ok { st with
        newStable := st.newStable ++ [⟨premise, cl⟩]
        newPre := st.newPre ++ [⟨p.ext ∩ extent, premise, some cl⟩] }
  else .ok st

/-- fca/algorithms/aibasis.py:113-124 `process_modified_implication`. -/
def modifiedImplication (m : β) (p : Pre α β) (st : St α β) : St α β :=
  let concl := insert m (p.concl.getD ∅)
  if st.minMod.any fun i => decide (i.premise ⊆ p.set) then
    { st with nonMin := st.nonMin ++ [⟨p.ext, insert m p.set, some concl⟩] }
  else
    { st with
      minMod := st.minMod ++ [⟨p.set, concl⟩]
      newPre := st.newPre ++ [⟨p.ext, p.set, some concl⟩] }

/-- fca/algorithms/aibasis.py:126-137 `process_modified_concept`. -/
def modifiedConcept (m : β) (p : Pre α β) (st : St α β) : St α β :=
  let st' := if st.minMod.any fun i => decide (i.premise ⊆ p.set) then st
    else { st with
      minMod := st.minMod ++ [⟨p.set, insert m p.set⟩]
      newPre := st.newPre ++ [⟨p.ext, p.set, some (insert m p.set)⟩] }
  { st' with modExtra := st'.modExtra ++ [⟨p.ext, insert m p.set, none⟩] }

/-- fca/algorithms/aibasis.py:60-76: the body of the loop over `preclosed`. -/
def stepPre (closure : Finset β → Py (Finset β)) (m : β) (extent : Finset α) (p : Pre α β) (st : St α β) :
    Py (St α β) :=
  if p.ext ⊆ extent then
    if p.isConcept then .ok (modifiedConcept m p st) else .ok (modifiedImplication m p st)
  else
    let st' := { st with newPre := st.newPre ++ [p] }
    if p.isConcept then stableConcept closure m extent p st'
    else .ok { st' with oldStable := st'.oldStable ++ [p.imp] }

/-- fca/algorithms/aibasis.py:60-76: the loop over `preclosed`. -/
def loopPre (closure : Finset β → Py (Finset β)) (m : β) (extent : Finset α) :
    List (Pre α β) → St α β → Py (St α β)
  | [], st => .ok st
  | p :: rest, st => do
    let st' ← stepPre closure m extent p st
    loopPre closure m extent rest st'

/-- fca/algorithms/aibasis.py:78-88: the loop over `non_min_mod` from the last element to the first, given as
the reversed list `todo`. `basis` is `base` followed by the implications not yet visited (in the order
of the list) and by those kept; the state is `(kept, mod_extra)`. -/
def loopNonMin (close : Finset β → List (Imp β) → Finset β) (base : List (Imp β)) :
    List (Pre α β) → List (Imp β) → List (Pre α β) → List (Imp β) × List (Pre α β)
  | [], kept, extra => (base ++ kept, extra)
  | p :: rest, kept, extra =>
    let basis := base ++ (rest.reverse.map Pre.imp ++ kept)
    let premise := p.set ∪ close p.set basis
    let p' : Pre α β := ⟨p.ext, premise, p.concl⟩
    if premise = p.concl.getD ∅ then loopNonMin close base rest kept extra
    else loopNonMin close base rest (kept ++ [p'.imp]) (extra ++ [p'])

/-- fca/algorithms/aibasis.py:45-92 `update_preclosed(i, cxt, preclosed, close)`. `sort` is the effect of
`mod_extra.sort(key=lambda x: x[1])`: the keys are sets, whose `<` is proper inclusion, so the result
of the sort is not determined by the documentation of Python. -/
def updatePreclosed (sort : List (Pre α β) → List (Pre α β)) (close : Finset β → List (Imp β) → Finset β)
    (c : Ctx α β) (i : ℕ) (preclosed : List (Pre α β)) : Py (List (Pre α β) × List (Imp β)) := do
  let m ← pyGet c.attributes i
  let extent ← c.extentByIndex i
  let st ← loopPre (fun s => kclosure c s (i + 1)) m extent preclosed {}
  let r := loopNonMin close (st.oldStable ++ st.newStable ++ st.minMod) st.nonMin.reverse [] st.modExtra
  .ok (st.newPre ++ sort r.2, r.1)

/-- fca/algorithms/aibasis.py:36-42: the loop over the attribute indices. -/
def basisLoop (sort : List (Pre α β) → List (Pre α β)) (close : Finset β → List (Imp β) → Finset β)
    (c : Ctx α β) : List ℕ → List (Pre α β) → List (Imp β) → Py (List (Imp β))
  | [], _, basis => .ok basis
  | i :: rest, pre, _ => do
    let r ← updatePreclosed sort close c i pre
    basisLoop sort close c rest r.1 r.2

/-- fca/algorithms/aibasis.py:35-42 `compute_canonical_basis(cxt, close)`. -/
def computeCanonicalBasis (sort : List (Pre α β) → List (Pre α β))
    (close : Finset β → List (Imp β) → Finset β) (c : Ctx α β) : Py (List (Imp β)) :=
  basisLoop sort close c (List.range c.attributes.length) [⟨c.objects.toFinset, ∅, none⟩] []

/-! ### `list.sort` of CPython on short lists -/

/-- `binarysort` of Objects/listobject.c: the position for the pivot in `arr[l:r]`. -/
def bisect {γ : Type} (lt : γ → γ → Bool) (arr : List γ) (x : γ) : ℕ → ℕ → ℕ → ℕ
  | 0, l, _ => l
  | fuel + 1, l, r =>
    if l < r then
      let p := l + (r - l) / 2
      match arr[p]? with
      | some y => if lt x y then bisect lt arr x fuel l p else bisect lt arr x fuel (p + 1) r
      | none => l
    else l

/-- `binarysort`: insert the elements one by one. -/
def binaryInsert {γ : Type} (lt : γ → γ → Bool) : List γ → List γ → List γ
  | arr, [] => arr
  | arr, x :: rest =>
    let p := bisect lt arr x (arr.length + 1) 0 arr.length
    binaryInsert lt (arr.take p ++ x :: arr.drop p) rest

/-- The longest prefix in which each element is related to its predecessor `a`, and the rest. -/
def runFrom {γ : Type} (rel : γ → γ → Bool) (a : γ) : List γ → List γ × List γ
  | [] => ([], [])
  | b :: rest => if rel a b then ((b :: (runFrom rel b rest).1), (runFrom rel b rest).2) else ([], b :: rest)

/-- `list.sort` of CPython for lists of fewer than 64 elements (Objects/listobject.c, `count_run` and
`binarysort`; not part of /repo). -/
def pySortShort {γ : Type} (lt : γ → γ → Bool) : List γ → List γ
  | [] => []
  | [a] => [a]
  | a :: b :: rest =>
    if lt b a then
      let r := runFrom (fun x y => lt y x) a (b :: rest)
      binaryInsert lt (a :: r.1).reverse r.2
    else
      let r := runFrom (fun x y => !(lt y x)) a (b :: rest)
      binaryInsert lt (a :: r.1) r.2

/-- The comparison of the keys in fca/algorithms/aibasis.py:90. -/
def Pre.lt (p q : Pre α β) : Bool := decide (p.set ⊂ q.set)

end AI
