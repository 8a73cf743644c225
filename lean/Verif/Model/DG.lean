/-
Model of fca/algorithms/dg_basis.py.
-/
import Verif.Model.Implication

variable {α : Type*} [DecidableEq α]

/-- fca/algorithms/dg_basis.py:85-94 (and 141-150): the `for j` loop. `L` is
`relative_basis + imp_basis`. The argument is the number of remaining values of `j`, so the
next one is `j`. Result: the set `a` after the loop and `some j` if the loop was left by `break`
(then `i = j`). An index beyond the list cannot occur (`i <= len(attributes)`). -/
def dgNext (close : Finset α → List (Imp α) → Finset α) (atts : List α) (L : List (Imp α)) :
    ℕ → Finset α → Finset α × Option ℕ
  | 0, a => (a, none)
  | j + 1, a =>
    match atts[j]? with
    | none => (a, none)
    | some m =>
      if m ∈ a then dgNext close atts L j (a.erase m)
      else
        let b := close (insert m a) L
        if (b \ a) ∩ (atts.take j).toFinset = ∅ then (b, some j)
        else dgNext close atts L j a

/-- fca/algorithms/dg_basis.py:74-96: the `while` loop of `generalized_compute_dg_basis`. `none` = fuel exhausted (shown impossible). -/
def dgLoop (atts : List α) (aclose : Finset α → Py (Finset α))
    (close : Finset α → List (Imp α) → Finset α) (bg : List (Imp α)) (cond : Finset α → Bool) :
    ℕ → List (Imp α) → Finset α → ℕ → Option (Py (List (Imp α)))
  | 0, _, _, _ => none
  | fuel + 1, basis, a, i =>
    if a.card < atts.length then
      match aclose a with
      | .error e => some (.error e)
      | .ok ac =>
        let basis' := if a ≠ ac ∧ cond a = true then basis ++ [⟨a, ac⟩] else basis
        if (ac \ a) ∩ (atts.take i).toFinset ≠ ∅ then
          let r := dgNext close atts (basis' ++ bg) i (a \ (atts.drop i).toFinset)
          dgLoop atts aclose close bg cond fuel basis' r.1 (r.2.getD i)
        else if ac.card = atts.length then some (.ok basis')
        else
          let r := dgNext close atts (basis' ++ bg) atts.length ac
          dgLoop atts aclose close bg cond fuel basis' r.1 (r.2.getD atts.length)
    else some (.ok basis)

/-- fca/algorithms/dg_basis.py:57-96 `generalized_compute_dg_basis`, run for at most
`2 ^ len(attributes) + 1` rounds of the main loop. -/
def dgBasisFuel (atts : List α) (aclose : Finset α → Py (Finset α))
    (close : Finset α → List (Imp α) → Finset α) (bg : List (Imp α)) (cond : Finset α → Bool) :
    Option (Py (List (Imp α))) :=
  dgLoop atts aclose close bg cond (2 ^ atts.length + 1) [] (close ∅ bg) atts.length

/-- fca/algorithms/dg_basis.py:57-96 `generalized_compute_dg_basis`. The default of `getD` is
never used for extensive operators (`dgLoop_terminates`). -/
def dgBasis (atts : List α) (aclose : Finset α → Py (Finset α))
    (close : Finset α → List (Imp α) → Finset α) (bg : List (Imp α)) (cond : Finset α → Bool) :
    Py (List (Imp α)) :=
  (dgBasisFuel atts aclose close bg cond).getD (.error .genericException)

/-- How a generator run ends. -/
inductive GenEnd
  | done | raised (e : PyErr) | outOfFuel
  deriving DecidableEq

/-- fca/algorithms/dg_basis.py:128-150: the `while` loop of the generator
`generalized_dg_basis_iter`; the list of values yielded and how the generator ends. -/
def dgIterLoop (atts : List α) (aclose : Finset α → Py (Finset α))
    (close : Finset α → List (Imp α) → Finset α) (bg : List (Imp α)) (cond : Finset α → Bool) :
    ℕ → List (Imp α) → Finset α → ℕ → List (Imp α) × GenEnd
  | 0, _, _, _ => ([], .outOfFuel)
  | fuel + 1, basis, a, i =>
    if a.card < atts.length then
      match aclose a with
      | .error e => ([], .raised e)
      | .ok ac =>
        let new : List (Imp α) := if a ≠ ac ∧ cond a = true then [⟨a, ac⟩] else []
        let basis' := basis ++ new
        if (ac \ a) ∩ (atts.take i).toFinset ≠ ∅ then
          let r := dgNext close atts (basis' ++ bg) i (a \ (atts.drop i).toFinset)
          let rest := dgIterLoop atts aclose close bg cond fuel basis' r.1 (r.2.getD i)
          (new ++ rest.1, rest.2)
        else if ac.card = atts.length then (new, .done)
        else
          let r := dgNext close atts (basis' ++ bg) atts.length ac
          let rest := dgIterLoop atts aclose close bg cond fuel basis' r.1 (r.2.getD atts.length)
          (new ++ rest.1, rest.2)
    else ([], .done)

/-- fca/algorithms/dg_basis.py:114-150 `generalized_dg_basis_iter`. -/
def dgIter (atts : List α) (aclose : Finset α → Py (Finset α))
    (close : Finset α → List (Imp α) → Finset α) (bg : List (Imp α)) (cond : Finset α → Bool) :
    List (Imp α) × GenEnd :=
  dgIterLoop atts aclose close bg cond (2 ^ atts.length + 1) [] (close ∅ bg) atts.length
