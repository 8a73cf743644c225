/-
Specification: covering relation of a list of (extent, intent) pairs ordered by their intents.
-/
import Verif.Spec

namespace Spec

/-- `p` is an upper neighbour of `c` in the list `cs`, ordered by a set-valued label (more general =
smaller intent): its label is properly contained in that of `c` and nothing in the list lies
strictly between. -/
def Covers {γ β : Type} (label : γ → Finset β) (cs : List γ) (p c : γ) : Prop :=
  p ∈ cs ∧ label p ⊂ label c ∧ ¬ ∃ k ∈ cs, label p ⊂ label k ∧ label k ⊂ label c

end Spec
