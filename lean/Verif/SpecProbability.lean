/-
Specification: the probability that a set of attributes is closed in a random cross table with independent cells.
-/
import Mathlib.Algebra.BigOperators.Ring.Finset
import Mathlib.Data.Fintype.BigOperators
import Mathlib.Data.Real.Basic

namespace Spec

variable {β : Type} [DecidableEq β]

/-- Probability of the row `s` if attribute `m` is drawn with probability `p m`, independently. -/
def rowProb (p : β → ℝ) (M s : Finset β) : ℝ := (∏ m ∈ s, p m) * ∏ m ∈ M \ s, (1 - p m)

/-- `B` is closed in the table with the rows `T`: every attribute common to all rows containing `B` belongs to
`B`. -/
def ClosedIn {n : ℕ} (M B : Finset β) (T : Fin n → Finset β) : Prop :=
  ∀ m ∈ M, (∀ g, B ⊆ T g → m ∈ T g) → m ∈ B

instance {n : ℕ} (M B : Finset β) (T : Fin n → Finset β) : Decidable (ClosedIn M B T) := by
  unfold ClosedIn; infer_instance

/-- Probability that `B` is closed in a table of `n` independent rows. -/
def probClosed (p : β → ℝ) (M : Finset β) (n : ℕ) (B : Finset β) : ℝ :=
  ∑ T ∈ (Fintype.piFinset fun _ : Fin n => M.powerset).filter (fun T => ClosedIn M B T), ∏ g, rowProb p M (T g)

end Spec
