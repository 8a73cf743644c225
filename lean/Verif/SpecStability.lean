/-
Specification: indices of formal concepts.
-/
import Verif.Spec
import Mathlib.Algebra.Field.Rat
import Mathlib.Data.Finset.Prod

namespace Spec

variable {α β : Type*}

open Classical in
/-- Number of subsets of the extent `A` whose common attributes (within `M`) are exactly `B`. -/
noncomputable def generatingSubsets (M : Finset β) (I : α → β → Prop) (A : Finset α) (B : Finset β) : ℕ :=
  (A.powerset.filter fun S => ∀ m, m ∈ B ↔ m ∈ M ∧ ∀ g ∈ S, I g m).card

/-- Intensional stability: the fraction of subsets of the extent that generate the intent. -/
noncomputable def intensionalStability (M : Finset β) (I : α → β → Prop) (A : Finset α) (B : Finset β) : ℚ :=
  (generatingSubsets M I A B : ℚ) / 2 ^ A.card

/-- Extensional stability: the fraction of subsets of the intent that generate the extent. -/
noncomputable def extensionalStability (G : Finset α) (I : α → β → Prop) (A : Finset α) (B : Finset β) : ℚ :=
  (generatingSubsets G (fun m g => I g m) B A : ℚ) / 2 ^ B.card

open Classical in
/-- Number of crosses lying in a row of `A` or in a column of `B`. -/
noncomputable def crossesTouching (G : Finset α) (M : Finset β) (I : α → β → Prop) (A : Finset α)
    (B : Finset β) : ℕ :=
  ((G ×ˢ M).filter fun p => I p.1 p.2 ∧ (p.1 ∈ A ∨ p.2 ∈ B)).card

end Spec
