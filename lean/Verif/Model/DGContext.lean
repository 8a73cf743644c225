/-
The entry points of fca/algorithms/dg_basis.py on a context.
-/
import Verif.Model.DG
import Verif.Model.Context

namespace Ctx

variable {α β : Type} [DecidableEq α] [DecidableEq β]

/-- fca/algorithms/dg_basis.py:20 (and 34, 107): `lambda attributes: closure_operators.aclosure(attributes, cxt)`
followed by `set(...)` (lines 75, 129). `ordA`, `ordO` are the iteration orders of the argument set
and of the set of objects in between. -/
def dgAclose (c : Ctx α β) (ordA : SetOrder β) (ordO : SetOrder α) (s : Finset β) : Py (Finset β) :=
  c.coAclosureSet ordO (ordA.enum s)

/-- fca/algorithms/dg_basis.py:11-25, 28-40 `compute_dg_basis(cxt, close, imp_basis, cond)` with
an explicit closure function. -/
def dgBasisWith (c : Ctx α β) (ordA : SetOrder β) (ordO : SetOrder α)
    (close : Finset β → List (Imp β) → Finset β) (bg : List (Imp β)) (cond : Finset β → Bool) :
    Py (List (Imp β)) :=
  dgBasis c.attributes (c.dgAclose ordA ordO) close bg cond

/-- fca/algorithms/dg_basis.py:11-25 `compute_dg_basis` (default `lin_closure`). `ord₀`, `ord` are
the iteration orders inside `lin_closure`. -/
def computeDgBasis (c : Ctx α β) (ordA : SetOrder β) (ordO : SetOrder α) (ord₀ : SetOrder β)
    (ord : ℕ → SetOrder β) (bg : List (Imp β)) (cond : Finset β → Bool) : Py (List (Imp β)) :=
  c.dgBasisWith ordA ordO (linClosure ord₀ ord) bg cond

/-- fca/algorithms/dg_basis.py:27-40 `compute_dg_basis_simple` (default `simple_closure`). -/
def computeDgBasisSimple (c : Ctx α β) (ordA : SetOrder β) (ordO : SetOrder α) (bg : List (Imp β))
    (cond : Finset β → Bool) : Py (List (Imp β)) :=
  c.dgBasisWith ordA ordO simpleClosure bg cond

/-- fca/algorithms/dg_basis.py:99-112 `dg_basis_iter_simple`: yields and the way it ends. -/
def dgBasisIterSimple (c : Ctx α β) (ordA : SetOrder β) (ordO : SetOrder α) (bg : List (Imp β))
    (cond : Finset β → Bool) : List (Imp β) × GenEnd :=
  dgIter c.attributes (c.dgAclose ordA ordO) simpleClosure bg cond

end Ctx
