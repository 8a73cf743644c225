/-
Model of fca/context.py `make_random_context` and of fca/algorithms/aibasis.py `compare_tuples`.
-/
import Verif.Model.ReadWrite
import Mathlib.Data.Finset.Sort
import Mathlib.Order.SymmDiff
import Mathlib.Data.Finset.SymmDiff

section random
variable {K : Type} [LinearOrder K]

/-- fca/context.py:815-817: the table. `rnd k` is the result of the `k`-th call of `random.random()`; numbers are elements
of a linear order (floats without rounding). `n` rows of `m` cells, the next call has number `k`. -/
def randomRows (rnd : ℕ → K) (d : K) (m : ℕ) : ℕ → ℕ → List (List Bool)
  | _, 0 => []
  | k, n + 1 => ((List.range m).map fun j => decide (d > rnd (k + j))) :: randomRows rnd d m (k + m) n

/-- fca/context.py:813-814: `'g' + str(x)`, `'m' + str(x)` for `x in range(n)`; the range of a negative number is
empty. -/
def numberedNames (c : Char) (n : ℤ) : List (List Char) := (List.range n.toNat).map fun x => c :: natStr x

/-- fca/context.py:804-818 `make_random_context`. -/
def makeRandom (rnd : ℕ → K) (n m : ℤ) (d : K) : Py (Ctx (List Char) (List Char)) :=
  Ctx.make (randomRows rnd d m.toNat 0 n.toNat) (numberedNames 'g' n) (numberedNames 'm' m)

end random

/-- fca/algorithms/aibasis.py:24-33 `compare_tuples`, as a function of the second entries; `sorted(diff)[0]` is the first
entry of the sorted list. -/
def compareTuples {β : Type} [LinearOrder β] (p r : Finset β) : ℤ :=
  match (symmDiff p r).sort (· ≤ ·) with
  | [] => 0
  | a :: _ => if a ∈ p then 1 else -1
