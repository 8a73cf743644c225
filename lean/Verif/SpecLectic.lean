/-
Specification: lectic order on subsets of an ordered attribute list.
-/
import Verif.Spec

namespace Spec

variable {α : Type*}

/-- `A` and `B` agree on the first `j` elements of `l`. -/
def AgreeUpto (l : List α) (j : ℕ) (A B : Finset α) : Prop := ∀ y ∈ l.take j, (y ∈ A ↔ y ∈ B)

/-- `A` is lectically smaller than `B`: the first element of `l` in which they differ
belongs to `B`. -/
def LecticLt (l : List α) (A B : Finset α) : Prop :=
  ∃ j x, l[j]? = some x ∧ x ∉ A ∧ x ∈ B ∧ AgreeUpto l j A B

end Spec
