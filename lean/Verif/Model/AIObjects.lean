/-
Model of fca/algorithms/aibasis.py with sets as objects that are changed in place.

A set object is an address into a heap. An `Implication` object is the pair of the addresses of its `_premise` and
`_conclusion` (fca/implication.py:29-34; both are copies made by the constructor, and the attributes are never assigned
again in aibasis.py). Extents are values: they are not changed in place.
-/
import Verif.Model.AIBasis

variable {α β : Type} [DecidableEq α] [DecidableEq β]

namespace AIObj

/-- The set objects; addresses from `next` on are not in use. -/
structure Heap (β : Type) where
  mem : ℕ → Finset β
  next : ℕ

/-- A new set object. -/
def Heap.alloc (H : Heap β) (s : Finset β) : ℕ × Heap β := (H.next, ⟨Function.update H.mem H.next s, H.next + 1⟩)

/-- `a.add(m)`, `a |= s`: a set object is changed in place. -/
def Heap.write (H : Heap β) (a : ℕ) (s : Finset β) : Heap β := ⟨Function.update H.mem a s, H.next⟩

/-- An `Implication` object: the addresses of `_premise` and `_conclusion`. -/
structure Impl where
  prem : ℕ
  concl : ℕ

/-- The value of an implication at present. -/
def Impl.read (H : Heap β) (i : Impl) : Imp β := ⟨H.mem i.prem, H.mem i.concl⟩

/-- An element of `preclosed` (fca/algorithms/aibasis.py:38-39): the pair `(extent, set)` or the triple
`(extent, set, implication)`. -/
structure Elem (α : Type) where
  ext : Finset α
  set : ℕ
  imp : Option Impl

/-- What `list.sort(key=…)` does with a list, for keys that are sets: it permutes the list and sees the keys only. -/
structure KeySort (β : Type) where
  sort : ∀ (γ : Type), (γ → Finset β) → List γ → List γ
  perm : ∀ (γ : Type) (key : γ → Finset β) (l : List γ), (sort γ key l).Perm l
  nat : ∀ (γ δ : Type) (f : γ → δ) (key : δ → Finset β) (l : List γ), sort δ key (l.map f) = (sort γ (key ∘ f) l).map f

/-- The local lists of `update_preclosed` (fca/algorithms/aibasis.py:51-58). -/
structure St (α : Type) where
  oldStable : List Impl := []
  newStable : List Impl := []
  minMod : List Impl := []
  nonMin : List (Elem α) := []
  modExtra : List (Elem α) := []
  newPre : List (Elem α) := []

/-- fca/algorithms/aibasis.py:95-111 `process_stable_concept`. -/
def stableConcept (closure : Finset β → Py (Finset β)) (m : β) (extent : Finset α) (p : Elem α) (H : Heap β) (st : St α) :
    Py (Heap β × St α) :=
  -- new_premise = p[1].copy(); new_premise.add(m)
  let (np, H) := H.alloc (H.mem p.set)
  let H := H.write np (insert m (H.mem np))
  if st.newStable.all fun i => (i.read H).isRespected (H.mem np) then do
    let cl ← closure (H.mem np)
    if cl = H.mem np then
      .ok (H, { st with newPre := st.newPre ++ [⟨p.ext ∩ extent, np, none⟩] })
    else
      -- Implication(new_premise, new_conclusion) copies both
      let (a, H) := H.alloc (H.mem np)
      let (b, H) := H.alloc cl
      .ok (H, { st with
        newStable := st.newStable ++ [⟨a, b⟩]
        newPre := st.newPre ++ [⟨p.ext ∩ extent, a, some ⟨a, b⟩⟩] })
  else .ok (H, st)

/-- fca/algorithms/aibasis.py:113-124 `process_modified_implication`; `i` is `p[2]`. -/
def modifiedImplication (m : β) (p : Elem α) (i : Impl) (H : Heap β) (st : St α) : Heap β × St α :=
  -- p[2].get_conclusion().add(m)
  let H := H.write i.concl (insert m (H.mem i.concl))
  if st.minMod.any fun j => decide (H.mem j.prem ⊆ H.mem p.set) then
    -- p[1].add(m)
    (H.write p.set (insert m (H.mem p.set)), { st with nonMin := st.nonMin ++ [p] })
  else
    (H, { st with minMod := st.minMod ++ [i], newPre := st.newPre ++ [p] })

/-- fca/algorithms/aibasis.py:126-137 `process_modified_concept`. -/
def modifiedConcept (m : β) (p : Elem α) (H : Heap β) (st : St α) : Heap β × St α :=
  let (H, st) :=
    if st.minMod.any fun j => decide (H.mem j.prem ⊆ H.mem p.set) then (H, st)
    else
      -- Implication(p[1].copy(), p[1].copy()) and get_conclusion().add(m)
      let (a, H) := H.alloc (H.mem p.set)
      let (b, H) := H.alloc (H.mem p.set)
      let H := H.write b (insert m (H.mem b))
      (H, { st with minMod := st.minMod ++ [⟨a, b⟩], newPre := st.newPre ++ [⟨p.ext, a, some ⟨a, b⟩⟩] })
  -- p[1].add(m)
  (H.write p.set (insert m (H.mem p.set)), { st with modExtra := st.modExtra ++ [p] })

/-- fca/algorithms/aibasis.py:60-76: the body of the loop over `preclosed`. -/
def stepPre (closure : Finset β → Py (Finset β)) (m : β) (extent : Finset α) (p : Elem α) (H : Heap β) (st : St α) :
    Py (Heap β × St α) :=
  if p.ext ⊆ extent then
    match p.imp with
    | none => .ok (modifiedConcept m p H st)
    | some i => .ok (modifiedImplication m p i H st)
  else
    let st := { st with newPre := st.newPre ++ [p] }
    match p.imp with
    | none => stableConcept closure m extent p H st
    | some i => .ok (H, { st with oldStable := st.oldStable ++ [i] })

/-- fca/algorithms/aibasis.py:60-76: the loop over `preclosed`. -/
def loopPre (closure : Finset β → Py (Finset β)) (m : β) (extent : Finset α) :
    List (Elem α) → Heap β → St α → Py (Heap β × St α)
  | [], H, st => .ok (H, st)
  | p :: rest, H, st => do
    let r ← stepPre closure m extent p H st
    loopPre closure m extent rest r.1 r.2

/-- fca/algorithms/aibasis.py:81-88: the loop over `j` from the last index of `non_min_mod` down to 0. The first list is
`non_min_mod[:j+1]` reversed, `n` the length of the first part of `basis`. An element without implication (there is none)
would raise IndexError at `non_min_mod[j][2]`. -/
def loopNonMin (close : Finset β → List (Imp β) → Finset β) (n : ℕ) :
    List (Elem α) → Heap β → List Impl → List (Elem α) → Py (Heap β × List Impl × List (Elem α))
  | [], H, basis, extra => .ok (H, basis, extra)
  | p :: rest, H, basis, extra =>
    match p.imp with
    | none => .error .indexError
    | some i =>
      -- del basis[n + j]
      let basis := basis.eraseIdx (n + rest.length)
      -- premise |= close(premise, basis)
      let H := H.write i.prem (H.mem i.prem ∪ close (H.mem i.prem) (basis.map (Impl.read H)))
      if H.mem i.prem = H.mem i.concl then loopNonMin close n rest H basis extra
      else loopNonMin close n rest H (basis ++ [i]) (extra ++ [p])

/-- fca/algorithms/aibasis.py:45-92 `update_preclosed(i, cxt, preclosed, close)`. -/
def updatePreclosed (S : KeySort β) (close : Finset β → List (Imp β) → Finset β) (c : Ctx α β) (i : ℕ) (H : Heap β)
    (preclosed : List (Elem α)) : Py (Heap β × List (Elem α) × List Impl) := do
  let m ← pyGet c.attributes i
  let extent ← c.extentByIndex i
  let r ← loopPre (fun s => AI.kclosure c s (i + 1)) m extent preclosed H {}
  let st := r.2
  let basis := st.oldStable ++ st.newStable ++ st.minMod
  let n := basis.length
  -- basis += [p[2] for p in non_min_mod]
  let basis := basis ++ st.nonMin.filterMap Elem.imp
  let q ← loopNonMin close n st.nonMin.reverse r.1 basis st.modExtra
  .ok (q.1, st.newPre ++ S.sort _ (fun p => q.1.mem p.set) q.2.2, q.2.1)

/-- fca/algorithms/aibasis.py:40-42: the loop over the attribute indices. -/
def basisLoop (S : KeySort β) (close : Finset β → List (Imp β) → Finset β) (c : Ctx α β) :
    List ℕ → Heap β → List (Elem α) → List Impl → Py (Heap β × List Impl)
  | [], H, _, basis => .ok (H, basis)
  | i :: rest, H, pre, _ => do
    let r ← updatePreclosed S close c i H pre
    basisLoop S close c rest r.1 r.2.1 r.2.2

/-- fca/algorithms/aibasis.py:35-42 `compute_canonical_basis(cxt, close)`, started with the objects `H`. -/
def computeCanonicalBasis (S : KeySort β) (close : Finset β → List (Imp β) → Finset β) (c : Ctx α β) (H : Heap β) :
    Py (Heap β × List Impl) :=
  let (a, H) := H.alloc ∅
  basisLoop S close c (List.range c.attributes.length) H [⟨c.objects.toFinset, a, none⟩] []

end AIObj
