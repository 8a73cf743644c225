/-
Specification: implications and closures of a formal context `(G, M, I)`.
-/
import Verif.Spec

namespace Spec

variable {α β : Type*}

/-- The implication `P → C` holds in the context: every object having `P` has `C`. -/
def HoldsIn (G : Finset α) (I : α → β → Prop) (P C : Finset β) : Prop :=
  ∀ g ∈ G, (∀ m ∈ P, I g m) → ∀ m ∈ C, I g m

open Classical in
/-- The set of attributes common to all objects that have `B`. -/
noncomputable def attrClosure (G : Finset α) (M : Finset β) (I : α → β → Prop) (B : Finset β) :
    Finset β :=
  M.filter fun m => ∀ g ∈ G, (∀ b ∈ B, I g b) → I g m

open Classical in
/-- The set of objects having all attributes common to the objects in `A`. -/
noncomputable def objClosure (G : Finset α) (M : Finset β) (I : α → β → Prop) (A : Finset α) :
    Finset α :=
  G.filter fun g => ∀ m ∈ M, (∀ a ∈ A, I a m) → I g m

/-- `B` is the intent of a formal concept. -/
def IsIntent (G : Finset α) (M : Finset β) (I : α → β → Prop) (B : Finset β) : Prop :=
  ∃ A, IsConcept G M I A B

/-- `A` is the extent of a formal concept. -/
def IsExtent (G : Finset α) (M : Finset β) (I : α → β → Prop) (A : Finset α) : Prop :=
  ∃ B, IsConcept G M I A B

end Spec
