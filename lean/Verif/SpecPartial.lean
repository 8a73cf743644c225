/-
Specification for partially given examples: an example is known to have the attributes in `x` and may have those in `q`.
-/
import Verif.Spec

namespace Spec

variable {β : Type}

/-- The sets of attributes an example may have if the implications of `L` hold for it. -/
def Admissible (x q : Finset β) (L : Imps β) (T : Finset β) : Prop := x ⊆ T ∧ T ⊆ q ∧ Closed L T

/-- The example refutes the implication, whatever its attributes are. -/
def Refutes (x q P C : Finset β) : Prop := P ⊆ x ∧ ¬ C ⊆ q

end Spec
