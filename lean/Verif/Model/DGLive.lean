/-
Model of the generator of fca/algorithms/dg_basis.py when the context is changed between two values.
-/
import Verif.Model.DGContext
import Verif.Model.ContextOps

/-- fca/algorithms/dg_basis.py:128-150: the `while` loop of `generalized_dg_basis_iter`, as `dgIterLoop`, when the
caller changes what `aclose` returns while the generator is suspended at `yield` (line 132): `aclose L` is the function
after the values `L` were yielded. `a_closed` is computed (line 129) before the yield. -/
def dgLiveLoop {α : Type*} [DecidableEq α] (atts : List α) (aclose : List (Imp α) → Finset α → Py (Finset α))
    (close : Finset α → List (Imp α) → Finset α) (bg : List (Imp α)) (cond : Finset α → Bool) :
    ℕ → List (Imp α) → Finset α → ℕ → List (Imp α) × GenEnd
  | 0, _, _, _ => ([], .outOfFuel)
  | fuel + 1, basis, a, i =>
    if a.card < atts.length then
      match aclose basis a with
      | .error e => ([], .raised e)
      | .ok ac =>
        let new : List (Imp α) := if a ≠ ac ∧ cond a = true then [⟨a, ac⟩] else []
        let basis' := basis ++ new
        if (ac \ a) ∩ (atts.take i).toFinset ≠ ∅ then
          let r := dgNext close atts (basis' ++ bg) i (a \ (atts.drop i).toFinset)
          let rest := dgLiveLoop atts aclose close bg cond fuel basis' r.1 (r.2.getD i)
          (new ++ rest.1, rest.2)
        else if ac.card = atts.length then (new, .done)
        else
          let r := dgNext close atts (basis' ++ bg) atts.length ac
          let rest := dgLiveLoop atts aclose close bg cond fuel basis' r.1 (r.2.getD atts.length)
          (new ++ rest.1, rest.2)
    else ([], .done)

variable {α β : Type} [DecidableEq α] [DecidableEq β]

/-- fca/algorithms/dg_basis.py:99-112 `dg_basis_iter_simple(cxt, imp_basis=bg)` with changes of `cxt` between two values:
`cxts L` is the context after the values `L` were yielded and the caller has reacted. The generator keeps the list of
attributes of the context it was created for (`cxts []`); `cxt` in the `lambda` of line 107 is the changed context. The
iteration orders may be different each time. With `bg = []` this is fca/context.py:287-290
`attribute_implications_iter`: the decorator `basis_computation` (fca/context.py:97-110) removes the caches when the
generator is returned, before it runs. -/
def dgLive (cxts : List (Imp β) → Ctx α β) (ordA : List (Imp β) → SetOrder β) (ordO : List (Imp β) → SetOrder α)
    (bg : List (Imp β)) (cond : Finset β → Bool) : List (Imp β) × GenEnd :=
  dgLiveLoop (cxts []).attributes (fun L => (cxts L).dgAclose (ordA L) (ordO L)) simpleClosure bg cond
    (2 ^ (cxts []).attributes.length + 1) [] (simpleClosure ∅ bg) (cxts []).attributes.length
