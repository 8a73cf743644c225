/-
Specification: covering a relation by rectangles.
-/
import Verif.Spec
import Mathlib.Data.Finset.Prod
import Mathlib.Algebra.Field.Rat

namespace Spec

variable {α β : Type*}

/-- The pair lies in one of the rectangles. -/
def InSome (rs : List (Finset α × Finset β)) (p : α × β) : Prop := ∃ z ∈ rs, p.1 ∈ z.1 ∧ p.2 ∈ z.2

open Classical in
/-- All crosses of the table. -/
noncomputable def crosses (G : Finset α) (M : Finset β) (I : α → β → Prop) : Finset (α × β) :=
  (G ×ˢ M).filter fun p => I p.1 p.2

open Classical in
/-- The crosses outside the rectangles `rs`. -/
noncomputable def uncovered (G : Finset α) (M : Finset β) (I : α → β → Prop)
    (rs : List (Finset α × Finset β)) : Finset (α × β) :=
  (crosses G M I).filter fun p => ¬ InSome rs p

open Classical in
/-- Number of crosses in the rectangle `y` outside the rectangles `rs`. -/
noncomputable def newCrosses (G : Finset α) (M : Finset β) (I : α → β → Prop)
    (rs : List (Finset α × Finset β)) (y : Finset α × Finset β) : ℕ :=
  ((crosses G M I).filter fun p => p.1 ∈ y.1 ∧ p.2 ∈ y.2 ∧ ¬ InSome rs p).card

open Classical in
/-- The fraction of crosses that lie in one of the rectangles `rs`. -/
noncomputable def coveredFraction (G : Finset α) (M : Finset β) (I : α → β → Prop)
    (rs : List (Finset α × Finset β)) : ℚ :=
  (((crosses G M I).filter fun p => InSome rs p).card : ℚ) / (crosses G M I).card

end Spec
