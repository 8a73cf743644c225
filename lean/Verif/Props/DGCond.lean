/-
C93: basis computation with a condition on premises.
-/
import Verif.Lemmas.DGCond
import Verif.Props.DG
import Mathlib.Data.Fintype.Powerset
import Mathlib.Logic.Equiv.Basic

set_option linter.unusedSectionVars false

open Spec Ctx

variable {α β : Type} [DecidableEq α] [DecidableEq β]

/-- With any condition: an attribute set that respects the background, is not closed, meets the condition and contains
the closure of every proper subset respecting the background is a premise of the result. -/
theorem C93_condition_contains {c : Ctx α β} (h : c.WFw) (ordA : SetOrder β) (ordO : SetOrder α)
    (close : Finset β → List (Imp β) → Finset β) (bg : List (Imp β)) (hclose : StdClose bg close)
    (hbg : ∀ i ∈ bg, i.conclusion ⊆ c.M) (cond : Finset β → Bool) (res : List (Imp β))
    (hres : c.dgBasisWith ordA ordO close bg cond = .ok res) {Z : Finset β} (hZ : Z ⊆ c.M)
    (hc : Closed (specImps bg) Z) (hn : attrClosure c.G c.M c.Inc Z ≠ Z) (hcond : cond Z = true)
    (hq : ∀ T, T ⊂ Z → Closed (specImps bg) T → attrClosure c.G c.M c.Inc T ⊆ Z) :
    ⟨Z, attrClosure c.G c.M c.Inc Z⟩ ∈ res := by
  refine dgBasis_cond (h.totalSetup ordA ordO (hclose.good c.M)) hbg (fun basis hb s _ => hclose.least basis hb s)
    (h.dgBasis_returned hres) hZ hc hn hcond ?_
  intro T hT hTc
  refine Finset.ssubset_iff_subset_ne.2 ⟨hq T hT hTc, fun he => hn ?_⟩
  rw [← he]
  exact h.attrClosure_op.idem T (hT.1.trans hZ)

/-- With a condition that passes from sets to their subsets the result is the list computed without a condition,
restricted to the premises meeting the condition. -/
theorem C93_hereditary_partial {c : Ctx α β} (h : c.WFw) (ordA : SetOrder β) (ordO : SetOrder α)
    (close : Finset β → List (Imp β) → Finset β) (bg : List (Imp β)) (hclose : StdClose bg close)
    (hbg : ∀ i ∈ bg, i.conclusion ⊆ c.M) (cond : Finset β → Bool)
    (hdown : ∀ S T, S ⊆ T → cond T = true → cond S = true) (res all : List (Imp β))
    (hres : c.dgBasisWith ordA ordO close bg cond = .ok res)
    (hall : c.dgBasisWith ordA ordO close bg (fun _ => true) = .ok all) :
    res = all.filter fun x => cond x.premise := by
  have S := h.totalSetup ordA ordO (hclose.good c.M)
  obtain ⟨r1, e1, m1, p1⟩ := dgBasis_hered S h.attrClosure_op hbg (fun basis hb s _ => hclose.least basis hb s) hdown
  obtain ⟨r2, e2, m2, p2⟩ := dgBasis_correct S h.attrClosure_op hbg (fun basis hb s _ => hclose.least basis hb s)
  rw [h.dgBasis_returned hres] at e1
  rw [h.dgBasis_returned hall] at e2
  obtain rfl : res = r1 := by injection e1
  obtain rfl : all = r2 := by injection e2
  refine List.Perm.eq_of_pairwise (le := fun x y => lexVal c.attributes x.premise < lexVal c.attributes y.premise)
    (fun x y _ _ h1 h2 => absurd h1 (by omega)) p1 (p2.filter _) ?_
  refine (List.perm_ext_iff_of_nodup ?_ ?_).2 ?_
  · exact p1.imp fun hlt he => by rw [he] at hlt; omega
  · exact (p2.filter _).imp fun hlt he => by rw [he] at hlt; omega
  · intro x
    rw [List.mem_filter, m1, m2]
    tauto

/-- Symmetric explorations: let `σ` permute the attributes so that background and incidence are invariant, and let the
condition hold for `S` or for `σ S`, for every `S`. If nothing is returned, every implication that holds in the context
follows from the background. -/
theorem C93_orbits {c : Ctx α β} (h : c.WFw) (ordA : SetOrder β) (ordO : SetOrder α)
    (close : Finset β → List (Imp β) → Finset β) (bg : List (Imp β)) (hclose : StdClose bg close)
    (hbg : ∀ i ∈ bg, i.conclusion ⊆ c.M) (cond : Finset β → Bool)
    (hres : c.dgBasisWith ordA ordO close bg cond = .ok []) {σ : β → β} (hinj : Function.Injective σ)
    (hM : ∀ S, S ⊆ c.M → S.image σ ⊆ c.M)
    (hbgσ : ∀ S, S ⊆ c.M → Closed (specImps bg) S → Closed (specImps bg) (S.image σ))
    (hcσ : ∀ S, S ⊆ c.M → attrClosure c.G c.M c.Inc (S.image σ) = (attrClosure c.G c.M c.Inc S).image σ)
    (hcond : ∀ S, S ⊆ c.M → cond S = true ∨ cond (S.image σ) = true) {P C : Finset β} (hP : P ⊆ c.M) (hC : C ⊆ c.M)
    (hPC : HoldsIn c.G c.Inc P C) : Entails (specImps bg) P C := by
  have key := dgBasis_empty_cond (h.totalSetup ordA ordO (hclose.good c.M)) hbg
    (fun basis hb s _ => hclose.least basis hb s) (h.dgBasis_returned hres) (by
      intro Z hZ hZc hZn
      rcases hcond Z hZ with hc | hc
      · exact ⟨Z, hZ, hZc, hZn, le_rfl, hc⟩
      · refine ⟨Z.image σ, hM Z hZ, hbgσ Z hZ hZc, ?_, Finset.card_image_le, hc⟩
        rw [hcσ Z hZ]
        exact fun he => hZn (Finset.image_injective hinj he))
  -- the least set respecting the background
  have hl := simpleClosure_isLeast P bg
  have hT := key _ (simpleClosure_into P _ bg hP hbg) hl.2.1
  intro S hS hPS
  refine Finset.Subset.trans ?_ (hl.2.2 S hPS hS)
  rw [← hT]
  exact ((holdsIn_iff h hC).1 hPC).trans
    (h.attrClosure_op.mono _ _ hl.1 (simpleClosure_into P _ bg hP hbg))

/-- One object with the first of two attributes. -/
def condWit : Ctx (Fin 1) (Fin 2) := ⟨[0], [0, 1], ⟨some 2, [[true, false]]⟩⟩

/-- For a condition that does not pass to subsets the claim fails: the only pseudo-intent is the empty set; with the
condition "not empty" the premise `{1}` is returned. -/
theorem C93_filter_violated : condWit.WFw ∧
    condWit.computeDgBasisSimple (SetOrder.fin 2) (SetOrder.fin 1) [] (fun _ => true) = .ok [⟨∅, {0}⟩] ∧
    condWit.computeDgBasisSimple (SetOrder.fin 2) (SetOrder.fin 1) [] (fun S => decide (S ≠ ∅)) =
      .ok [⟨{1}, {0, 1}⟩] := by
  refine ⟨by constructor <;> decide +kernel, by decide +kernel, by decide +kernel⟩

/-- With the condition "at most one attribute", which passes to subsets. -/
example : (∀ S T : Finset (Fin 3), S ⊆ T → decide (T.card ≤ 1) = true → decide (S.card ≤ 1) = true) ∧
    (⟨[0, 1], [0, 1, 2], ⟨some 3, [[true, false, false], [false, true, false]]⟩⟩ : Ctx (Fin 2) (Fin 3)).computeDgBasisSimple
      (SetOrder.fin 3) (SetOrder.fin 2) [] (fun _ => true) = .ok [⟨{2}, {0, 1, 2}⟩, ⟨{0, 1}, {0, 1, 2}⟩] ∧
    (⟨[0, 1], [0, 1, 2], ⟨some 3, [[true, false, false], [false, true, false]]⟩⟩ : Ctx (Fin 2) (Fin 3)).computeDgBasisSimple
      (SetOrder.fin 3) (SetOrder.fin 2) [] (fun T => decide (T.card ≤ 1)) = .ok [⟨{2}, {0, 1, 2}⟩] := by
  refine ⟨?_, by decide +kernel, by decide +kernel⟩
  intro S T hST hT
  have := Finset.card_le_card hST
  simp only [decide_eq_true_eq] at *
  omega

/-- Two attributes that swap; the condition asks for the first of them. Nothing is returned and everything is closed. -/
example : (⟨[0, 1], [0, 1], ⟨some 2, [[true, false], [false, true]]⟩⟩ : Ctx (Fin 2) (Fin 2)).computeDgBasisSimple
      (SetOrder.fin 2) (SetOrder.fin 2) [] (fun S => decide (0 ∈ S ∨ 1 ∉ S)) = .ok [] ∧
    (∀ S : Finset (Fin 2), (0 ∈ S ∨ 1 ∉ S) ∨ (0 ∈ S.image (Equiv.swap 0 1) ∨ 1 ∉ S.image (Equiv.swap 0 1))) := by
  decide +kernel
