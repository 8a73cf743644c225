/-
The calls that `generalized_compute_dg_basis` (fca/algorithms/dg_basis.py) makes to the functions it is given.
-/
import Verif.Model.DGContext

/-- A call of one of the three function arguments, with the set it is given. -/
inductive DGCall (α : Type*)
  | aclose (s : Finset α)
  | cond (s : Finset α)
  | close (s : Finset α)

/-- The sets given to `aclose`, in the order of the calls. -/
def acloseArgs {α : Type*} : List (DGCall α) → List (Finset α)
  | [] => []
  | .aclose s :: t => s :: acloseArgs t
  | _ :: t => acloseArgs t

/-- The sets given to `cond`, in the order of the calls. -/
def condArgs {α : Type*} : List (DGCall α) → List (Finset α)
  | [] => []
  | .cond s :: t => s :: condArgs t
  | _ :: t => condArgs t

/-- The sets given to `close`, in the order of the calls. -/
def closeArgs {α : Type*} : List (DGCall α) → List (Finset α)
  | [] => []
  | .close s :: t => s :: closeArgs t
  | _ :: t => closeArgs t

section
variable {α : Type*} [DecidableEq α]

/-- fca/algorithms/dg_basis.py:85-94: the calls of `close` in the `for j` loop (see `dgNext`). -/
def dgNextCalls (close : Finset α → List (Imp α) → Finset α) (atts : List α) (L : List (Imp α)) :
    ℕ → Finset α → List (DGCall α)
  | 0, _ => []
  | j + 1, a =>
    match atts[j]? with
    | none => []
    | some m =>
      if m ∈ a then dgNextCalls close atts L j (a.erase m)
      else
        let b := close (insert m a) L
        .close (insert m a) :: if (b \ a) ∩ (atts.take j).toFinset = ∅ then [] else dgNextCalls close atts L j a

/-- fca/algorithms/dg_basis.py:74-96: the `while` loop (see `dgLoop`) with the calls it makes. `and` evaluates `cond(a)` only
if `a != a_closed` (line 76). -/
def dgTraceLoop (atts : List α) (aclose : Finset α → Py (Finset α))
    (close : Finset α → List (Imp α) → Finset α) (bg : List (Imp α)) (cond : Finset α → Bool) :
    ℕ → List (Imp α) → Finset α → ℕ → List (DGCall α) × Option (Py (List (Imp α)))
  | 0, _, _, _ => ([], none)
  | fuel + 1, basis, a, i =>
    if a.card < atts.length then
      match aclose a with
      | .error e => ([.aclose a], some (.error e))
      | .ok ac =>
        let asked : List (DGCall α) := .aclose a :: if a ≠ ac then [.cond a] else []
        let basis' := if a ≠ ac ∧ cond a = true then basis ++ [⟨a, ac⟩] else basis
        if (ac \ a) ∩ (atts.take i).toFinset ≠ ∅ then
          let r := dgNext close atts (basis' ++ bg) i (a \ (atts.drop i).toFinset)
          let rest := dgTraceLoop atts aclose close bg cond fuel basis' r.1 (r.2.getD i)
          (asked ++ dgNextCalls close atts (basis' ++ bg) i (a \ (atts.drop i).toFinset) ++ rest.1, rest.2)
        else if ac.card = atts.length then (asked, some (.ok basis'))
        else
          let r := dgNext close atts (basis' ++ bg) atts.length ac
          let rest := dgTraceLoop atts aclose close bg cond fuel basis' r.1 (r.2.getD atts.length)
          (asked ++ dgNextCalls close atts (basis' ++ bg) atts.length ac ++ rest.1, rest.2)
    else ([], some (.ok basis))

/-- fca/algorithms/dg_basis.py:57-96 `generalized_compute_dg_basis`: its calls and its result (as `dgBasisFuel`). -/
def dgTrace (atts : List α) (aclose : Finset α → Py (Finset α))
    (close : Finset α → List (Imp α) → Finset α) (bg : List (Imp α)) (cond : Finset α → Bool) :
    List (DGCall α) × Option (Py (List (Imp α))) :=
  let rest := dgTraceLoop atts aclose close bg cond (2 ^ atts.length + 1) [] (close ∅ bg) atts.length
  (.close ∅ :: rest.1, rest.2)

end

/-- fca/algorithms/dg_basis.py:11-25, 28-40: the calls made by `compute_dg_basis(cxt, close, imp_basis, cond)`. -/
def Ctx.dgCalls {α β : Type} [DecidableEq α] [DecidableEq β] (c : Ctx α β) (ordA : SetOrder β) (ordO : SetOrder α)
    (close : Finset β → List (Imp β) → Finset β) (bg : List (Imp β)) (cond : Finset β → Bool) : List (DGCall β) :=
  (dgTrace c.attributes (c.dgAclose ordA ordO) close bg cond).1
