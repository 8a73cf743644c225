/-
Properties C52-C54 and C73: implication covers.
-/
import Verif.Lemmas.Covers
import Verif.Props.DG
import Verif.Props.Context

set_option linter.unusedSectionVars false

variable {α β : Type} [DecidableEq α] [DecidableEq β]

open Spec Cover

theorem examples_eq {c : Ctx α β} (h : c.WFw) :
    c.examples = .ok (c.objects.map fun o => c.upF {o}) :=
  mapM_range (l := c.objects) (g := fun o => c.upF {o}) (fun _ _ ho => h.intentByIndex ho)

theorem clE_eq {c : Ctx α β} (h : c.WFw) {S : Finset β} (hS : S ⊆ c.M) :
    clE c.M (c.objects.map fun o => c.upF {o}) S = attrClosure c.G c.M c.Inc S := by
  ext m
  rw [mem_clE]
  simp only [attrClosure, Finset.mem_filter, List.forall_mem_map, Ctx.G, List.mem_toFinset]
  refine and_congr_right fun hm => forall₂_congr fun o ho => ?_
  have hsub : S ⊆ c.upF {o} ↔ ∀ b ∈ S, c.Inc o b := by
    constructor
    · intro hs b hb; exact (h.mem_upF.1 (hs hb)).2 o (by simp)
    · intro hs b hb
      refine h.mem_upF.2 ⟨by simpa [Ctx.M] using hS hb, fun g hg => ?_⟩
      rw [Finset.mem_singleton] at hg
      exact hg ▸ hs b hb
  have hmem : m ∈ c.upF {o} ↔ c.Inc o m := by
    constructor
    · intro hm; exact (h.mem_upF.1 hm).2 o (by simp)
    · intro hi
      refine h.mem_upF.2 ⟨by simpa [Ctx.M] using hm, fun g hg => ?_⟩
      rw [Finset.mem_singleton] at hg
      exact hg ▸ hi
  rw [hsub, hmem]

theorem computeCover_main {c : Ctx α β} (h : c.WFw) (ord : ℕ → SetOrder β) :
    ∃ B, computeCover c ord = .ok B ∧ Inv c.M (c.objects.map fun o => c.upF {o}) B := by
  unfold computeCover
  rw [examples_eq h]
  obtain ⟨B, h1, h2⟩ := coverLoop_ok (M := c.M) ord (c.objects.map fun o => c.upF {o}) 0 []
    [⟨∅, c.M⟩] (inv_start _) (by
      intro e he
      obtain ⟨o, -, rfl⟩ := List.mem_map.1 he
      exact c.upF_subset _)
  exact ⟨B, h1, h2⟩

theorem inv_holds {c : Ctx α β} (h : c.WFw) {B : List (Imp β)}
    (hB : Inv c.M (c.objects.map fun o => c.upF {o}) B) {b : Imp β} (hb : b ∈ B) :
    HoldsIn c.G c.Inc b.premise b.conclusion := by
  rw [Ctx.holdsIn_iff h (hB.conc b hb), ← clE_eq h (hB.prem b hb)]
  intro m hm
  by_cases hp : m ∈ b.premise
  · exact subset_clE (hB.prem b hb) hp
  · exact hB.reduced_cl hb (subset_refl _) (Finset.mem_sdiff.2 ⟨hm, hp⟩)

/-! ### C52 -/

/-- `compute_implication_cover` returns for every context and all iteration orders (in particular the
branches raising 'ALERT' are never reached), and every implication of the result holds in the context. -/
theorem C52_cover_sound {c : Ctx α β} (h : c.WFw) (ord : ℕ → SetOrder β) :
    ∃ B, computeCover c ord = .ok B ∧ ∀ b ∈ B, HoldsIn c.G c.Inc b.premise b.conclusion ∧
      (∀ o S, c.objectIntent o = .ok S → b.isRespected S = true) := by
  obtain ⟨B, h1, h2⟩ := computeCover_main h ord
  refine ⟨B, h1, fun b hb => ⟨inv_holds h h2 hb, fun o S ho => ?_⟩⟩
  have hmem : o ∈ c.objects := by
    by_contra hc
    rw [Ctx.objectIntent_err hc] at ho
    cases ho
  rw [h.objectIntent hmem] at ho
  cases ho
  have := h2.sound b hb (c.upF {o}) (List.mem_map.2 ⟨o, hmem, rfl⟩)
  unfold Imp.isRespected
  by_cases hp : b.premise ⊆ c.upF {o}
  · simp [this hp]
  · simp [hp]

/-! ### C53 -/

/-- An implication between attributes holds in the context iff it follows from the cover. -/
theorem C53_cover_complete {c : Ctx α β} (h : c.WFw) (ord : ℕ → SetOrder β) :
    ∃ B, computeCover c ord = .ok B ∧ ∀ P C, P ⊆ c.M → C ⊆ c.M →
      (HoldsIn c.G c.Inc P C ↔ Entails (specImps B) P C) := by
  obtain ⟨B, h1, h2⟩ := computeCover_main h ord
  refine ⟨B, h1, fun P C hP hC => ⟨fun hh => ?_, fun hent => ?_⟩⟩
  · intro S hS hPS
    rw [closed_specImps] at hS
    rw [Ctx.holdsIn_iff h hC, ← clE_eq h hP] at hh
    by_cases hcl : clE c.M (c.objects.map fun o => c.upF {o}) P = P
    · rw [hcl] at hh; exact hh.trans hPS
    · obtain ⟨b, hb, hbp, hbc⟩ := h2.star P hP hcl
      refine (hh.trans hbc).trans (Finset.union_subset hPS ?_)
      exact Finset.sdiff_subset.trans (hS b hb (hbp.trans hPS))
  · rw [Ctx.holdsIn_iff h hC]
    refine hent _ ?_ (h.attrClosure_op.ext P hP)
    exact Ctx.closed_attrClosure h (fun i hi => inv_holds h h2 hi) h2.conc P

/-! ### C73 -/

/-- The cover is direct: the closure of every set of attributes is the set itself or the union with the
conclusion of a single implication. No implication of the cover is subsumed by another, and different
implications have different premises. -/
theorem C73_cover_direct {c : Ctx α β} (h : c.WFw) (ord : ℕ → SetOrder β) :
    ∃ B, computeCover c ord = .ok B ∧
      (∀ S, S ⊆ c.M → attrClosure c.G c.M c.Inc S = S ∨
        ∃ b ∈ B, b.premise ⊆ S ∧ attrClosure c.G c.M c.Inc S = S ∪ b.conclusion) ∧
      (B.map Imp.premise).Nodup ∧
      ∀ x ∈ B, ∀ y ∈ B, y.premise ⊆ x.premise → x.conclusion \ x.premise ⊆ y.conclusion \ y.premise → x = y := by
  obtain ⟨B, h1, h2⟩ := computeCover_main h ord
  refine ⟨B, h1, fun S hS => ?_, ?_, fun x hx y hy hp hc => h2.ac.2 x hx y hy ⟨hp, hc⟩⟩
  · rw [← clE_eq h hS]
    by_cases hcl : clE c.M (c.objects.map fun o => c.upF {o}) S = S
    · exact .inl hcl
    · obtain ⟨b, hb, hbp, hbc⟩ := h2.star S hS hcl
      refine .inr ⟨b, hb, hbp, Finset.Subset.antisymm ?_ ?_⟩
      · exact hbc.trans (Finset.union_subset_union (subset_refl _) Finset.sdiff_subset)
      · refine Finset.union_subset (subset_clE hS) fun m hm => ?_
        by_cases hmp : m ∈ b.premise
        · exact subset_clE hS (hbp hmp)
        · exact h2.reduced_cl hb hbp (Finset.mem_sdiff.2 ⟨hm, hmp⟩)
  · exact h2.ac.1.map_on fun x hx y hy hxy => h2.premise_inj hx hy hxy

/-! ### C54 -/

/-- `minimize(cover)` returns for every list of implications, keeps the closed sets and leaves no implication
that follows from the others. -/
theorem C54_minimize (cover : List (Imp β)) :
    ∃ res, minimize cover = .ok res ∧ (∀ S, Closed (specImps res) S ↔ Closed (specImps cover) S) ∧
      (∀ l1 d l2, res = l1 ++ d :: l2 → ¬ Entails (specImps (l1 ++ l2)) d.premise d.conclusion) ∧
      res.length ≤ cover.length := by
  obtain ⟨res, h1, h2, h3, h4⟩ := minimizeLoop_ok cover [] (by simp)
  simp only [List.append_nil, List.length_nil, Nat.add_zero] at h1 h2 h4
  exact ⟨res, h1, h2, h3, h4⟩

/-- `is_redundant(imp, basis)` is true exactly if the implication follows from the basis. -/
theorem C54_is_redundant (imp : Imp β) (basis : List (Imp β)) :
    isRedundant imp basis = true ↔ Entails (specImps basis) imp.premise imp.conclusion := by
  obtain ⟨c1, c2, c3⟩ := simpleClosure_isLeast imp.premise basis
  unfold isRedundant
  rw [decide_eq_true_eq]
  constructor
  · intro hr S hS hp m hm
    by_cases hmp : m ∈ imp.premise
    · exact hp hmp
    · exact c3 S hp hS (hr (Finset.mem_sdiff.2 ⟨hm, hmp⟩))
  · intro hent
    exact Finset.sdiff_subset.trans (hent _ c2 c1)

/-- Both together: a non-redundant list of implications with exactly the consequences valid in the
context. -/
theorem C54_cover_minimized {c : Ctx α β} (h : c.WFw) (ord : ℕ → SetOrder β) :
    ∃ B res, computeCover c ord = .ok B ∧ minimize B = .ok res ∧
      (∀ P C, P ⊆ c.M → C ⊆ c.M → (HoldsIn c.G c.Inc P C ↔ Entails (specImps res) P C)) ∧
      ∀ l1 d l2, res = l1 ++ d :: l2 → ¬ Entails (specImps (l1 ++ l2)) d.premise d.conclusion := by
  obtain ⟨B, h1, h2⟩ := C53_cover_complete h ord
  obtain ⟨res, h3, h4, h5, -⟩ := C54_minimize B
  refine ⟨B, res, h1, h3, fun P C hP hC => ?_, h5⟩
  rw [h2 P C hP hC]
  exact forall_congr' fun S => by rw [h4]

/-! ### Concrete cases -/

def cxtCov : Ctx (Fin 2) (Fin 4) :=
  ⟨[0, 1], [0, 1, 2, 3], ⟨some 4, [[true, true, false, false], [false, true, true, false]]⟩⟩

theorem cxtCov_wf : cxtCov.WFw := by constructor <;> decide +kernel

example : computeCover cxtCov (fun _ => SetOrder.fin 4) =
    .ok [⟨{3}, {0, 1, 2, 3}⟩, ⟨∅, {1}⟩, ⟨{0, 2}, {0, 1, 3}⟩] := by decide +kernel

example : minimize [(⟨{3}, {0, 1, 2, 3}⟩ : Imp (Fin 4)), ⟨∅, {1}⟩, ⟨{0, 2}, {0, 1, 3}⟩] =
    .ok [⟨{1, 3}, {0, 1, 2, 3}⟩, ⟨∅, {1}⟩, ⟨{0, 1, 2}, {0, 1, 3}⟩] := by decide +kernel

/-- A redundant implication is removed. -/
example : minimize [(⟨{0}, {2}⟩ : Imp (Fin 4)), ⟨{0}, {1}⟩, ⟨{1}, {2}⟩] =
    .ok [⟨{0}, {1}⟩, ⟨{1}, {2}⟩] := by decide +kernel

example : isRedundant (⟨{0}, {2}⟩ : Imp (Fin 4)) [⟨{0}, {1}⟩, ⟨{1}, {2}⟩] = true := by decide +kernel
