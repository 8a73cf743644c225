/-
Specification layer.  Nothing in this file refers to the model of the code.
It fixes the mathematical vocabulary in which the properties are stated:
derivation operators of a relation, respected implications, least closed supersets,
entailment, relative pseudo-intents, formal concepts.
-/
import Mathlib.Data.Finset.Basic
import Mathlib.Data.Finset.Card
import Mathlib.Data.Finset.Powerset
import Mathlib.Data.Finset.Union
import Mathlib.Data.Set.Basic

namespace Spec

variable {α β : Type*}

/-! ### Implications -/

/-- The set `S` respects the implication `P → C`: if it contains `P` it contains `C`. -/
def Respects (S P C : Finset α) : Prop := P ⊆ S → C ⊆ S

/-- A list of implications, given as pairs (premise, conclusion). -/
abbrev Imps (α : Type*) := List (Finset α × Finset α)

/-- `S` respects every implication of `L`. -/
def Closed (L : Imps α) (S : Finset α) : Prop := ∀ pc ∈ L, Respects S pc.1 pc.2

/-- `c` is the least superset of `s` that respects every implication in `L`. -/
def IsLeastClosed (L : Imps α) (s c : Finset α) : Prop :=
  s ⊆ c ∧ Closed L c ∧ ∀ d, s ⊆ d → Closed L d → c ⊆ d

/-- `P → C` follows from `L`: every set respecting `L` respects `P → C`. -/
def Entails (L : Imps α) (P C : Finset α) : Prop :=
  ∀ S, Closed L S → Respects S P C

theorem IsLeastClosed.unique {L : Imps α} {s c d : Finset α}
    (h : IsLeastClosed L s c) (h' : IsLeastClosed L s d) : c = d :=
  Finset.Subset.antisymm (h.2.2 d h'.1 h'.2.1) (h'.2.2 c h.1 h.2.1)

/-! ### Derivation in a formal context `(G, M, I)` -/

/-- Attributes of `M` shared by all objects in `A`. -/
def up (M : Finset β) (I : α → β → Prop) (A : Finset α) : Set β :=
  {m | m ∈ M ∧ ∀ g ∈ A, I g m}

/-- Objects of `G` having all attributes in `B`. -/
def down (G : Finset α) (I : α → β → Prop) (B : Finset β) : Set α :=
  {g | g ∈ G ∧ ∀ m ∈ B, I g m}

/-- `(A, B)` is a formal concept of `(G, M, I)`. -/
def IsConcept (G : Finset α) (M : Finset β) (I : α → β → Prop)
    (A : Finset α) (B : Finset β) : Prop :=
  (∀ m, m ∈ B ↔ m ∈ M ∧ ∀ g ∈ A, I g m) ∧ (∀ g, g ∈ A ↔ g ∈ G ∧ ∀ m ∈ B, I g m)

/-! ### Pseudo-intents -/

/-- Pseudo-intents relative to background implications `L₀`, for an operator `cl` on
subsets of `M`: `P ⊆ M` respects `L₀`, is not a fixed point of `cl`, and contains
`cl Q` for every pseudo-intent `Q` properly contained in `P`. -/
def IsPseudo (M : Finset α) (L₀ : Imps α) (cl : Finset α → Finset α) (P : Finset α) : Prop :=
  P ⊆ M ∧ Closed L₀ P ∧ cl P ≠ P ∧
    ∀ Q, (_h : Q ⊂ P) → IsPseudo M L₀ cl Q → cl Q ⊆ P
termination_by P.card
decreasing_by exact Finset.card_lt_card _h

/-- `cl` is a closure operator on the subsets of `M`. -/
structure IsClosureOp (M : Finset α) (cl : Finset α → Finset α) : Prop where
  into : ∀ s, s ⊆ M → cl s ⊆ M
  ext : ∀ s, s ⊆ M → s ⊆ cl s
  mono : ∀ s t, s ⊆ t → t ⊆ M → cl s ⊆ cl t
  idem : ∀ s, s ⊆ M → cl (cl s) = cl s

end Spec
