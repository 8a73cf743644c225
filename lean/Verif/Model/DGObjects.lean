/-
Model of fca/algorithms/dg_basis.py with sets as objects that are changed in place, and of what the closure functions
return: a new set object or the one they were given.
-/
import Verif.Model.DG
import Verif.Model.AIObjects

variable {β : Type} [DecidableEq β]

namespace DGObj

open AIObj

/-- A closure function on objects: it gets a set object and a list of implication objects and returns a set object; the
heap may have changed. -/
abbrev CloseFn (β : Type) := Heap β → ℕ → List Impl → ℕ × Heap β

/-- fca/algorithms/closure_operators.py:80-84: one pass over `unused_imps`; `n` is `new_closure`, changed by `|=`. -/
def simplePassO (n : ℕ) (unused : List Impl) (H : Heap β) : Heap β × Bool × List Impl :=
  unused.foldl (fun st i =>
    if st.1.mem i.prem ⊆ st.1.mem n then (st.1.write n (st.1.mem n ∪ st.1.mem i.concl), true, i :: st.2.2) else st)
    (H, false, [])

/-- fca/algorithms/closure_operators.py:77-86: the `while changed` loop. -/
def simpleLoopO (n : ℕ) : ℕ → List Impl → Heap β → Option (Heap β)
  | 0, _, _ => none
  | fuel + 1, unused, H =>
    let r := simplePassO n unused H
    if r.2.1 then
      simpleLoopO n fuel (unused.filter fun i => !(r.2.2.any fun x => (x.read r.1).pyEq (i.read r.1))) r.1
    else some r.1

/-- fca/algorithms/closure_operators.py:38-86 `simple_closure`: the set that is returned is made by `s.copy()`
(line 75). The default of `getD` is never used (`simpleLoopO_isSome`). -/
def simpleO : CloseFn β := fun H s L =>
  let n := H.alloc (H.mem s)
  (n.1, (simpleLoopO n.1 (L.length + 1) L n.2).getD n.2)

/-- fca/algorithms/closure_operators.py:88-158 `lin_closure`: without implications the set object given is returned
(lines 135-136), otherwise a new one (line 137 or the union of lines 138-140), which nobody else knows while `|=` of
line 155 changes it, so that only its last value is written here. -/
def linO (ord₀ : SetOrder β) (ord : ℕ → SetOrder β) : CloseFn β := fun H s L =>
  if L = [] then (s, H) else H.alloc (linClosure ord₀ ord (H.mem s) (L.map (Impl.read H)))

/-- fca/algorithms/dg_basis.py:85-94: the `for j` loop. `a.remove(m)` changes the object `a`, `a | set([m])` is a new one. -/
def nextO (close : CloseFn β) (atts : List β) (L : List Impl) : ℕ → ℕ → Heap β → (ℕ × Heap β) × Option ℕ
  | 0, a, H => ((a, H), none)
  | j + 1, a, H =>
    match atts[j]? with
    | none => ((a, H), none)
    | some m =>
      if m ∈ H.mem a then nextO close atts L j a (H.write a ((H.mem a).erase m))
      else
        let t := H.alloc (insert m (H.mem a))
        let r := close t.2 t.1 L
        if (r.2.mem r.1 \ r.2.mem a) ∩ (atts.take j).toFinset = ∅ then (r, some j)
        else nextO close atts L j a r.2

/-- fca/algorithms/dg_basis.py:76-77: `a.copy()` and `a_closed.copy()`, copied once more by the constructor
(fca/implication.py:32-33). -/
def appendO (cond : Finset β → Bool) (rel : List Impl) (a ac : ℕ) (H : Heap β) : List Impl × Heap β :=
  if H.mem a ≠ H.mem ac ∧ cond (H.mem a) = true then
    let p := H.alloc (H.mem a)
    let q := p.2.alloc (p.2.mem ac)
    let p' := q.2.alloc (q.2.mem p.1)
    let q' := p'.2.alloc (p'.2.mem q.1)
    (rel ++ [⟨p'.1, q'.1⟩], q'.2)
  else (rel, H)

/-- fca/algorithms/dg_basis.py:74-96: the `while` loop. `a -= set(...)` (79) changes the object `a`, `a = a_closed` (83)
makes it another one. Result: the list of implications, and the heap. -/
def loopO (atts : List β) (aclose : Finset β → Py (Finset β)) (close : CloseFn β) (bg : List Impl)
    (cond : Finset β → Bool) : ℕ → List Impl → ℕ → ℕ → Heap β → Option (Py (List Impl) × Heap β)
  | 0, _, _, _, _ => none
  | fuel + 1, rel, a, i, H =>
    if (H.mem a).card < atts.length then
      match aclose (H.mem a) with
      | .error e => some (.error e, H)
      | .ok v =>
        let c := H.alloc v
        let r := appendO cond rel a c.1 c.2
        if (r.2.mem c.1 \ r.2.mem a) ∩ (atts.take i).toFinset ≠ ∅ then
          let n := nextO close atts (r.1 ++ bg) i a (r.2.write a (r.2.mem a \ (atts.drop i).toFinset))
          loopO atts aclose close bg cond fuel r.1 n.1.1 (n.2.getD i) n.1.2
        else if (r.2.mem c.1).card = atts.length then some (.ok r.1, r.2)
        else
          let n := nextO close atts (r.1 ++ bg) atts.length c.1 r.2
          loopO atts aclose close bg cond fuel r.1 n.1.1 (n.2.getD atts.length) n.1.2
    else some (.ok rel, H)

/-- fca/algorithms/dg_basis.py:57-96 `generalized_compute_dg_basis`, with at most `fuel` rounds of the main loop. -/
def basisO (atts : List β) (aclose : Finset β → Py (Finset β)) (close : CloseFn β) (bg : List Impl)
    (cond : Finset β → Bool) (fuel : ℕ) (H : Heap β) : Option (Py (List Impl) × Heap β) :=
  let s := H.alloc ∅
  let a := close s.2 s.1 bg
  loopO atts aclose close bg cond fuel [] a.1 atts.length a.2

end DGObj
