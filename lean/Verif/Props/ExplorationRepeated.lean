/-
C57, C58 for an initial background that contains equal implications.
-/
import Verif.Props.ExplorationDB
import Verif.Props.DGRepeated

set_option linter.unusedSectionVars false

open Spec EDB Ctx

variable {α β : Type} [DecidableEq α] [DecidableEq β] [PyName α] [PyName β]

/-- Whatever is repeated in the initial background: the open implications are in every state exactly the implications
`P → P''` of the pseudo-intents `P` relative to the background with equal implications counted together. -/
theorem C57_open_basis_repeated {E : EDB.Env α β} (hE : E.cond = fun _ => true) {c : Ctx α β} (h : c.WFw)
    (hne : c.objects ≠ []) {bg : List (Imp β)} (ho : ∀ i ∈ bg, i.premise ⊆ c.M ∧ i.conclusion ⊆ c.M)
    (hv : ∀ i ∈ bg, HoldsIn c.G c.Inc i.premise i.conclusion) {s₀ : EDB α β} (hi : init E c bg = .ok s₀)
    {ops : List (Op α β)} (hf : OkRun E s₀ ops) (s : EDB α β) (hs : s = run E s₀ ops) (x : Imp β) :
    x ∈ s.openImps ↔ IsPseudo s.ctx.M (specImps (earlyImps s.bg)) (attrClosure s.ctx.G s.ctx.M s.ctx.Inc) x.premise ∧
      x.conclusion = attrClosure s.ctx.G s.ctx.M s.ctx.Inc x.premise := by
  obtain ⟨s', h1, -, h3, h4⟩ := init_ok (E := E) h hne ho hv
  rw [h1] at hi; cases hi
  subst hs
  have hI := run_inv h4 hf
  have hb := hI.basis
  unfold relBasis at hb
  rw [hE] at hb
  exact (dg_repeated hI.wf (fun i hi => (hI.over i hi).2) hb).1 x

/-- When nothing is open, an implication that follows from the confirmed base holds in the context, and one that holds
in the context follows from the confirmed base with equal implications counted together. -/
theorem C58_finished_repeated_partial {E : EDB.Env α β} (hE : E.cond = fun _ => true) {c : Ctx α β} (h : c.WFw)
    (hne : c.objects ≠ []) {bg : List (Imp β)} (ho : ∀ i ∈ bg, i.premise ⊆ c.M ∧ i.conclusion ⊆ c.M)
    (hv : ∀ i ∈ bg, HoldsIn c.G c.Inc i.premise i.conclusion) {s₀ : EDB α β} (hi : init E c bg = .ok s₀)
    {ops : List (Op α β)} (hf : OkRun E s₀ ops) (s : EDB α β) (hs : s = run E s₀ ops) (hfin : s.openImps = [])
    {P C : Finset β} (hP : P ⊆ s.ctx.M) (hC : C ⊆ s.ctx.M) :
    (Entails (specImps s.bg) P C → HoldsIn s.ctx.G s.ctx.Inc P C) ∧
    (HoldsIn s.ctx.G s.ctx.Inc P C → Entails (specImps (earlyImps s.bg)) P C) := by
  obtain ⟨s', h1, -, h3, h4⟩ := init_ok (E := E) h hne ho hv
  rw [h1] at hi; cases hi
  subst hs
  have hI := run_inv h4 hf
  have hb := hI.basis
  unfold relBasis at hb
  rw [hE] at hb
  refine ⟨fun hent => ?_, fun hh => ?_⟩
  · rw [holdsIn_iff hI.wf hC]
    exact hent _ (closed_attrClosure hI.wf (fun i hi => hI.valid i hi) (fun i hi => (hI.over i hi).2) P)
      (hI.wf.attrClosure_op.ext _ hP)
  · have := C154_complete hI.wf _ _ _ _ _ (fun i hi => (hI.over i hi).2) _ hb P C hP hC hh
    rwa [hfin, List.nil_append] at this

namespace EDB

def rwit : Ctx (Fin 1) (Fin 3) := ⟨[0], [0, 1, 2], ⟨some 3, [[false, false, false]]⟩⟩

def rwitEnv : Env (Fin 1) (Fin 3) :=
  ⟨fun _ => true, SetOrder.fin 3, SetOrder.fin 1, SetOrder.fin 3, fun _ => SetOrder.fin 3, SetOrder.fin 3, SetOrder.fin 1⟩

def rwitBg : List (Imp (Fin 3)) := [⟨{0, 1}, {2}⟩, ⟨{0, 1}, {2}⟩]

end EDB

/-- C58 fails for an initial background that contains an implication twice: one object without attributes, `0, 1 → 2`
given twice. The only open implication is `2 → 0, 1, 2`; after its confirmation nothing is open, but `1 → 0, 1, 2`, which
holds in the context, does not follow from the base. -/
theorem C58_repeated_violated : ∃ s₀ : EDB (Fin 1) (Fin 3), rwit.WFw ∧
    (∀ i ∈ rwitBg, HoldsIn rwit.G rwit.Inc i.premise i.conclusion) ∧ init rwitEnv rwit rwitBg = .ok s₀ ∧
    OkRun rwitEnv s₀ [.confirm ⟨{2}, {0, 1, 2}⟩] ∧
    ∃ s, s = run rwitEnv s₀ [.confirm ⟨{2}, {0, 1, 2}⟩] ∧ s.openImps = [] ∧
      HoldsIn s.ctx.G s.ctx.Inc {1} {0, 1, 2} ∧ ¬ Entails (specImps s.bg) {1} {0, 1, 2} := by
  have hw : rwit.WFw := by constructor <;> decide +kernel
  have h0 : init rwitEnv rwit rwitBg = .ok ⟨rwit, rwitBg, [⟨{2}, {0, 1, 2}⟩]⟩ := by decide +kernel
  refine ⟨_, hw, ?_, h0, ⟨?_, trivial⟩, _, rfl, by decide +kernel, ?_, ?_⟩
  · intro i hi
    simp only [rwitBg, List.mem_cons, List.not_mem_nil, or_false, or_self] at hi
    subst hi
    simp only [HoldsIn, ← hw.incB]
    decide +kernel
  · simp [Op.Ok]
  · have h1 : (run rwitEnv ⟨rwit, rwitBg, [⟨{2}, {0, 1, 2}⟩]⟩ [.confirm ⟨{2}, {0, 1, 2}⟩]).ctx = rwit := by decide +kernel
    rw [h1]
    simp only [HoldsIn, ← hw.incB]
    decide +kernel
  · have h1 : (run rwitEnv ⟨rwit, rwitBg, [⟨{2}, {0, 1, 2}⟩]⟩ [.confirm ⟨{2}, {0, 1, 2}⟩]).bg =
      rwitBg ++ [⟨{2}, {0, 1, 2}⟩] := by decide +kernel
    rw [h1]
    intro h
    have := h {1} (by rw [closed_specImps]; decide +kernel) (Finset.Subset.refl _)
    revert this
    decide +kernel
