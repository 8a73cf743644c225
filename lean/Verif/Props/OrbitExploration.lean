/-
Exploration with partial examples up to a symmetry of the attributes, and the exploration of bi-unars: C97.
-/
import Verif.Props.BiUnars
import Verif.Lemmas.DGCond

set_option linter.unusedSectionVars false

open Spec Ctx

variable {α β : Type} [DecidableEq α] [DecidableEq β]

/-- A symmetry of order two of the attributes. -/
structure Mirror (M : Finset β) (σ : β → β) : Prop where
  into : ∀ a ∈ M, σ a ∈ M
  inv : ∀ a ∈ M, σ (σ a) = a

/-- The sets closed under the implications are mapped to closed sets. -/
def SymImps (M : Finset β) (σ : β → β) (L : List (Imp β)) : Prop :=
  ∀ Z, Z ⊆ M → Closed (specImps L) Z → Closed (specImps L) (Z.image σ)

/-- Every object has a mirror image. -/
def SymCtx (σ : β → β) (p : PCtx α β) : Prop :=
  ∀ o ∈ p.objects, ∃ o' ∈ p.objects, p.xI o' = (p.xI o).image σ ∧ p.qI o' = (p.qI o).image σ

namespace Mirror

variable {M : Finset β} {σ : β → β}

theorem image_sub (h : Mirror M σ) {Z : Finset β} (hZ : Z ⊆ M) : Z.image σ ⊆ M := by
  intro a ha
  obtain ⟨b, hb, rfl⟩ := Finset.mem_image.1 ha
  exact h.into b (hZ hb)

theorem image_image (h : Mirror M σ) {Z : Finset β} (hZ : Z ⊆ M) : (Z.image σ).image σ = Z := by
  ext a
  rw [Finset.image_image, Finset.mem_image]
  constructor
  · rintro ⟨b, hb, rfl⟩
    rw [Function.comp, h.inv b (hZ hb)]
    exact hb
  · exact fun ha => ⟨a, ha, h.inv a (hZ ha)⟩

theorem mem_image (h : Mirror M σ) {Z : Finset β} (hZ : Z ⊆ M) {a : β} (ha : a ∈ M) : σ a ∈ Z.image σ ↔ a ∈ Z := by
  constructor
  · intro hm
    have := Finset.mem_image_of_mem σ hm
    rw [h.image_image hZ, h.inv a ha] at this
    exact this
  · exact Finset.mem_image_of_mem σ

theorem image_subset (h : Mirror M σ) {Z T : Finset β} (hZ : Z ⊆ M) (hT : T ⊆ M) : Z.image σ ⊆ T ↔ Z ⊆ T.image σ := by
  constructor
  · intro hs
    rw [← h.image_image hZ]
    exact Finset.image_subset_image hs
  · intro hs
    rw [← h.image_image hT]
    exact Finset.image_subset_image hs

theorem card_image (h : Mirror M σ) {Z : Finset β} (hZ : Z ⊆ M) : (Z.image σ).card = Z.card := by
  refine Finset.card_image_of_injOn fun a ha b hb hab => ?_
  have := congrArg σ hab
  rwa [h.inv a (hZ ha), h.inv b (hZ hb)] at this

end Mirror

namespace SymImps

variable {M : Finset β} {σ : β → β}

theorem append {L L' : List (Imp β)} (h : SymImps M σ L) (h' : SymImps M σ L') : SymImps M σ (L ++ L') := by
  intro Z hZ hc
  rw [closed_specImps] at hc ⊢
  intro i hi
  rcases List.mem_append.1 hi with hi | hi
  · exact (closed_specImps L _).1 (h Z hZ ((closed_specImps L Z).2 fun j hj => hc j (by simp [hj]))) i hi
  · exact (closed_specImps L' _).1 (h' Z hZ ((closed_specImps L' Z).2 fun j hj => hc j (by simp [hj]))) i hi

/-- An implication and its mirror image. -/
theorem pair (h : Mirror M σ) {i j : Imp β} (hp : i.premise ⊆ M) (hc : i.conclusion ⊆ M)
    (hj : j.premise = i.premise.image σ) (hj' : j.conclusion = i.reduced.image σ) : SymImps M σ [i, j] := by
  have hr : i.reduced ⊆ M := by
    unfold Imp.reduced
    exact Finset.sdiff_subset.trans hc
  have hred : ∀ Z : Finset β, (i.premise ⊆ Z → i.conclusion ⊆ Z) ↔ (i.premise ⊆ Z → i.reduced ⊆ Z) := by
    intro Z
    refine imp_congr_right fun hp => ?_
    unfold Imp.reduced
    constructor
    · exact fun h => Finset.sdiff_subset.trans h
    · intro h e he
      by_cases hep : e ∈ i.premise
      · exact hp hep
      · exact h (Finset.mem_sdiff.2 ⟨he, hep⟩)
  intro Z hZ hcl
  rw [closed_specImps] at hcl ⊢
  have h1 := hcl i (by simp)
  have h2 := hcl j (by simp)
  rw [hj, hj', h.image_subset hp hZ, h.image_subset hr hZ] at h2
  rw [hred] at h1
  intro k hk
  rcases List.mem_cons.1 hk with rfl | hk
  · rw [hred]; exact h2
  · obtain rfl := List.mem_singleton.1 hk
    rw [hj, hj', h.image_subset hp (h.image_sub hZ), h.image_subset hr (h.image_sub hZ), h.image_image hZ]
    exact h1

end SymImps

namespace PDB

variable [PyName α] [PyName β] {E : Env α β} {U : Finset β → Prop} {M : Finset β} {σ : β → β}

/-- An answer that is symmetric: with the implication its mirror image is confirmed, with the examples their mirror images
are given. -/
inductive SymAnswer (E : Env α β) (U : Finset β → Prop) (M : Finset β) (σ : β → β) : PDB α β → PDB α β → Prop
  | confirm (s s' : PDB α β) (i : Imp β) (is : List (Imp β)) (hi : i ∈ s.cxtImplications) (his : i ∈ is)
      (ht : ∀ j ∈ is, TrueImp U M j) (hs : SymImps M σ is) (h : confirmAll E s is = (s', none)) : SymAnswer E U M σ s s'
  | reject (s s' : PDB α β) (i : Imp β) (exs : List (α × (Finset β × Finset β))) (hi : i ∈ s.cxtImplications)
      (hd : (exs.map Prod.fst).Nodup) (hf : ∀ e ∈ exs, e.1 ∉ s.ctx.objects) (ht : ∀ e ∈ exs, TrueEx U M e.2)
      (hs : ∀ e ∈ exs, e.2.2 ⊆ M ∧ ∃ e' ∈ exs, e'.2 = (e.2.1.image σ, e.2.2.image σ))
      (h : PDB.reject E s i exs = (s', none)) : SymAnswer E U M σ s s'

theorem SymAnswer.answer {s s' : PDB α β} (h : SymAnswer E U M σ s s') : Answer E U M s s' := by
  cases h with
  | confirm i is hi his ht _ h => exact .confirm s s' i is hi his ht h
  | reject i exs hi hd hf ht _ h => exact .reject s s' i exs hi hd hf ht h

theorem complete_sym (hσ : Mirror M σ) {s : PDB α β} {p0 : PCtx α β} (h : Inv E U M s p0) (hL : SymImps M σ s.implications)
    (hp : SymCtx σ s.ctx) : ∃ s', PDB.complete E s = (s', none) ∧ s'.implications = s.implications ∧
      s'.cxtImplications = s.cxtImplications ∧ Inv E U M s' p0 ∧ SymCtx σ s'.ctx := by
  obtain ⟨s', h1, h2, h3, h4, h5⟩ := h.complete
  refine ⟨s', h1, h2, h3, h5, ?_⟩
  obtain ⟨p', g1, g2, g3, g4, g5⟩ := C80_complete h.wf E.ordI s.implications (fun o ho => by
    obtain ⟨T, hT, hx, hq⟩ := h.tru o ho
    exact ⟨T, hx, hq, closed_of_true h.imps hT⟩)
  have hctx : s'.ctx = p' := by
    unfold PDB.complete at h1
    simp only [g1] at h1
    exact (congrArg (fun r => r.1.ctx) h1).symm
  rw [hctx]
  intro o ho
  rw [g3] at ho ⊢
  obtain ⟨o', ho', hx, hq⟩ := hp o ho
  have hqM : s.ctx.qI o ⊆ M := h.m ▸ h.wf.qI_sub o
  have hxM : s.ctx.xI o ⊆ M := (h.wf.xI_le o).trans hqM
  have hadm : ∀ T, T ⊆ M → (Admissible (s.ctx.xI o) (s.ctx.qI o) (specImps s.implications) T →
      Admissible (s.ctx.xI o') (s.ctx.qI o') (specImps s.implications) (T.image σ)) := by
    intro T hT ha
    rw [hx, hq]
    exact ⟨Finset.image_subset_image ha.1, Finset.image_subset_image ha.2.1, hL T hT ha.2.2⟩
  have hadm' : ∀ T, T ⊆ M → (Admissible (s.ctx.xI o') (s.ctx.qI o') (specImps s.implications) T →
      Admissible (s.ctx.xI o) (s.ctx.qI o) (specImps s.implications) (T.image σ)) := by
    intro T hT ha
    rw [hx, hq] at ha
    exact ⟨(hσ.image_subset hxM hT).1 ha.1, (hσ.image_subset hT hqM).2 ha.2.1, hL T hT ha.2.2⟩
  have hq'M : s.ctx.qI o' ⊆ M := h.m ▸ h.wf.qI_sub o'
  have e1 := (g5 o ho).1
  have e2 := (g5 o ho).2.1
  have e1' := (g5 o' ho').1
  have e2' := (g5 o' ho').2.1
  have hpq : p'.qI o ⊆ M := by rw [← h.m, ← g4]; exact g2.qI_sub o
  have hpq' : p'.qI o' ⊆ M := by rw [← h.m, ← g4]; exact g2.qI_sub o'
  have hpx : p'.xI o ⊆ M := (g2.xI_le o).trans hpq
  have hpx' : p'.xI o' ⊆ M := (g2.xI_le o').trans hpq'
  refine ⟨o', ho', ?_, ?_⟩
  · refine Finset.Subset.antisymm ?_ ?_
    · intro a ha
      have haM := hpx' ha
      rw [← hσ.inv a haM]
      refine Finset.mem_image_of_mem σ ((e1 (σ a)).2 fun T hT => ?_)
      have hTM := hT.2.1.trans hqM
      have := (e1' a).1 ha _ (hadm T hTM hT)
      have := Finset.mem_image_of_mem σ this
      rwa [hσ.image_image hTM] at this
    · intro a ha
      obtain ⟨b, hb, rfl⟩ := Finset.mem_image.1 ha
      refine (e1' (σ b)).2 fun T hT => ?_
      have hTM := hT.2.1.trans hq'M
      have := (e1 b).1 hb _ (hadm' T hTM hT)
      have := Finset.mem_image_of_mem σ this
      rwa [hσ.image_image hTM] at this
  · refine Finset.Subset.antisymm ?_ ?_
    · intro a ha
      have haM := hpq' ha
      obtain ⟨T, hT, haT⟩ := (e2' a).1 ha
      have hTM := hT.2.1.trans hq'M
      rw [← hσ.inv a haM]
      exact Finset.mem_image_of_mem σ ((e2 (σ a)).2 ⟨_, hadm' T hTM hT, Finset.mem_image_of_mem σ haT⟩)
    · intro a ha
      obtain ⟨b, hb, rfl⟩ := Finset.mem_image.1 ha
      obtain ⟨T, hT, hbT⟩ := (e2 b).1 hb
      exact (e2' (σ b)).2 ⟨_, hadm T (hT.2.1.trans hqM) hT, Finset.mem_image_of_mem σ hbT⟩

/-- The invariant of a symmetric session. -/
structure SymInv (E : Env α β) (U : Finset β → Prop) (M : Finset β) (σ : β → β) (s : PDB α β) (p0 : PCtx α β) : Prop where
  inv : Inv E U M s p0
  imps : SymImps M σ s.implications
  ctx : SymCtx σ s.ctx
  ctx0 : SymCtx σ p0

theorem SymInv.answer (hσ : Mirror M σ) {s s' : PDB α β} {p0 : PCtx α β} (h : SymInv E U M σ s p0)
    (ha : SymAnswer E U M σ s s') : ∃ p', SymInv E U M σ s' p' := by
  cases ha with
  | confirm i is hi his ht hs hrun =>
    obtain ⟨s1, a1, a2, a3, a4⟩ := h.inv.confirms (List.ne_nil_of_mem his) ht
    have hL : SymImps M σ s1.implications := by rw [a3]; exact h.imps.append hs
    obtain ⟨s2, b1, b2, -, b4, b5⟩ := complete_sym hσ a4 hL (by rw [a2]; exact h.ctx)
    have hs : s' = s2 := by
      unfold confirmAll at hrun
      rw [a1] at hrun
      simp only [andThen, b1] at hrun
      exact (congrArg Prod.fst hrun).symm
    subst hs
    exact ⟨s.ctx, b4, by rw [b2]; exact hL, b5, h.ctx⟩
  | reject i exs hi hd hf ht hs hrun =>
    obtain ⟨s1, p', a1, a2, a3, a4, a5, a6, a7, a8, a9⟩ := h.inv.addExamples hd hf ht
    cases exs with
    | nil => simp [PDB.reject] at hrun
    | cons e exs =>
      obtain rfl := a7 (.inr (by simp))
      have hsym : SymCtx σ s1.ctx := by
        intro o ho
        rw [a3] at ho ⊢
        rcases List.mem_append.1 ho with ho | ho
        · obtain ⟨o', h1, h2, h3⟩ := h.ctx o ho
          refine ⟨o', List.mem_append_left _ h1, ?_, ?_⟩
          · rw [(a8 o ho).1, (a8 o' h1).1]; exact h2
          · rw [(a8 o ho).2, (a8 o' h1).2]; exact h3
        · obtain ⟨x, hx, rfl⟩ := List.mem_map.1 ho
          obtain ⟨hxM, x', hx', hx2⟩ := hs x hx
          have h1 : x.2.1 ⊆ M := by
            obtain ⟨T, -, hT, h1, -⟩ := ht x hx
            exact h1.trans hT
          refine ⟨x'.1, List.mem_append_right _ (List.mem_map_of_mem hx'), ?_, ?_⟩
          · rw [(a9 x hx).1, (a9 x' hx').1, hx2, Finset.inter_eq_left.2 h1, Finset.inter_eq_left.2 (hσ.image_sub h1)]
          · rw [(a9 x hx).2, (a9 x' hx').2, hx2, Finset.inter_eq_left.2 hxM, Finset.inter_eq_left.2 (hσ.image_sub hxM)]
      have hL : SymImps M σ s1.implications := by rw [a2]; exact h.imps
      obtain ⟨s2, b1, b2, -, b4, b5⟩ := complete_sym hσ a4 hL hsym
      unfold PDB.reject at hrun
      simp only at hrun
      split at hrun
      · simp at hrun
      have hs : s' = s2 := by
        rw [a1] at hrun
        simp only [andThen, b1] at hrun
        exact (congrArg Prod.fst hrun).symm
      subst hs
      exact ⟨s1.ctx, b4, by rw [b2]; exact hL, b5, hsym⟩

/-- The closures of mirrored sets are mirrored. -/
theorem xqF_sym (hσ : Mirror M σ) {p : PCtx α β} (hw : p.WF) (hm : p.attributes.toFinset = M) (hp : SymCtx σ p)
    {Z : Finset β} (hZ : Z ⊆ M) : p.xqF (Z.image σ) = (p.xqF Z).image σ := by
  have hone : ∀ Z, Z ⊆ M → ∀ a ∈ p.xqF Z, σ a ∈ p.xqF (Z.image σ) := by
    intro Z hZ a ha
    rw [hw.mem_xqF] at ha ⊢
    have haM : a ∈ M := by rw [← hm]; exact List.mem_toFinset.2 ha.1
    refine ⟨List.mem_toFinset.1 (hm ▸ hσ.into a haM), fun o ho hs => ?_⟩
    obtain ⟨o', ho', hx, hq⟩ := hp o ho
    have hqM : p.qI o ⊆ M := hm ▸ hw.qI_sub o
    have hxM : p.xI o ⊆ M := (hw.xI_le o).trans hqM
    have := ha.2 o' ho' (by
      show Z ⊆ p.xI o'
      rw [hx]
      exact (hσ.image_subset hZ hxM).1 hs)
    have h2 : a ∈ (p.qI o).image σ := by rw [← hq]; exact this
    have h3 := Finset.mem_image_of_mem σ h2
    rw [hσ.image_image hqM] at h3
    exact h3
  have hM : ∀ Z, p.xqF Z ⊆ M := fun Z a ha => by rw [← hm]; exact List.mem_toFinset.2 (hw.mem_xqF.1 ha).1
  refine Finset.Subset.antisymm ?_ ?_
  · intro a ha
    have := hone _ (hσ.image_sub hZ) a ha
    rw [hσ.image_image hZ] at this
    rw [← hσ.inv a (hM _ ha)]
    exact Finset.mem_image_of_mem σ this
  · intro a ha
    obtain ⟨b, hb, rfl⟩ := Finset.mem_image.1 ha
    exact hone Z hZ b hb

end PDB

section
variable [PyName α] [PyName β]
open PDB

/-- A session with symmetric answers. -/
inductive SymSession (E : PDB.Env α β) (U : Finset β → Prop) (M : Finset β) (σ : β → β) (s₀ : PDB α β) :
    ℕ → PDB α β → Prop
  | start : SymSession E U M σ s₀ 0 s₀
  | step {n : ℕ} {s s' : PDB α β} : SymSession E U M σ s₀ n s → SymAnswer E U M σ s s' → SymSession E U M σ s₀ (n + 1) s'

theorem SymSession.psession {E : PDB.Env α β} {U : Finset β → Prop} {M : Finset β} {σ : β → β} {s₀ s : PDB α β} {n : ℕ}
    (h : SymSession E U M σ s₀ n s) : PSession E U M s₀ n s := by
  induction h with
  | start => exact .start
  | step _ ha ih => exact .step ih ha.answer

/-- When the condition selects at least one premise of each pair of mirrored sets and the answers are symmetric: when no
implication is open, the implications that hold in the domain are those that follow from the base. -/
theorem C97_orbit_complete {E : PDB.Env α β} {U : Finset β → Prop} {p : PCtx α β} {σ : β → β}
    (hσ : Mirror p.attributes.toFinset σ) (hcond : ∀ Z, Z ⊆ p.attributes.toFinset → E.cond Z = true ∨ E.cond (Z.image σ) = true)
    (h : p.WF) (hne : p.objects ≠ []) (ht : TrueCtx U p) (hp : SymCtx σ p) {bg : List (Imp β)}
    (hbg : ∀ i ∈ bg, TrueImp U p.attributes.toFinset i) (hbs : SymImps p.attributes.toFinset σ bg) {s₀ : PDB α β}
    (hi : PDB.make E p bg = .ok s₀) {n : ℕ} {s : PDB α β} (hs : SymSession E U p.attributes.toFinset σ s₀ n s)
    (hfin : s.cxtImplications = []) {P C : Finset β} (hP : P ⊆ p.attributes.toFinset) (hC : C ⊆ p.attributes.toFinset) :
    (∀ T, U T → P ⊆ T → C ⊆ T) ↔ Entails (specImps s.implications) P C := by
  obtain ⟨s₀', h1, h2, h3⟩ := init_inv (E := E) h hne ht hbg
  rw [h1] at hi; cases hi
  have hs0 : s₀.ctx = p := by
    unfold PDB.make at h1
    cases hb : p.dgBasis E.ordA E.ordO bg E.cond with
    | error e => rw [hb] at h1; cases h1
    | ok r => rw [hb, py_ok_bind] at h1; cases h1; rfl
  have hinv : ∃ p0, SymInv E U p.attributes.toFinset σ s p0 := by
    clear hfin
    induction hs with
    | start => exact ⟨p, h3, by rw [h2]; exact hbs, by rw [hs0]; exact hp, hp⟩
    | step _ ha ih =>
      obtain ⟨p0, hq⟩ := ih
      exact hq.answer hσ ha
  obtain ⟨p0, hinv⟩ := hinv
  have hI := hinv.inv
  constructor
  · intro hU
    have S := hI.wf0.setup hI.ne0 E.ordA E.ordO
    have hb : dgBasis p0.attributes (p0.xqAclosure E.ordA E.ordO) simpleClosure s.implications E.cond = .ok [] := by
      rw [← hfin]; exact hI.basis
    have hall := dgBasis_empty_cond S (fun i hi => by rw [hI.m0]; exact (hI.imps i hi).1)
      (fun basis _ t _ => simpleClosure_isLeast t _) hb (by
        intro Z hZ hZc hZn
        rw [hI.m0] at hZ ⊢
        rcases hcond Z hZ with hc | hc
        · exact ⟨Z, hZ, hZc, hZn, le_rfl, hc⟩
        · refine ⟨Z.image σ, hσ.image_sub hZ, hinv.imps Z hZ hZc, ?_, (hσ.card_image hZ).le, hc⟩
          rw [xqF_sym hσ hI.wf0 hI.m0 hinv.ctx0 hZ]
          intro he
          have : ((p0.xqF Z).image σ).image σ = (Z.image σ).image σ := by rw [he]
          have hM : p0.xqF Z ⊆ p.attributes.toFinset := fun a ha => by
            rw [← hI.m0]; exact List.mem_toFinset.2 (hI.wf0.mem_xqF.1 ha).1
          rw [hσ.image_image hM, hσ.image_image hZ] at this
          exact hZn this)
    intro Z hZc hPZ a ha
    -- the part of `Z` inside the attributes is closed
    have hZ' : Closed (specImps s.implications) (Z ∩ p.attributes.toFinset) := by
      rw [closed_specImps] at hZc ⊢
      intro i hi hpr
      exact Finset.subset_inter (hZc i hi (hpr.trans Finset.inter_subset_left)) (hI.imps i hi).1
    have hcl := hall _ (by rw [hI.m0]; exact Finset.inter_subset_right) hZ'
    have hPZ' : P ⊆ Z ∩ p.attributes.toFinset := Finset.subset_inter hPZ hP
    have : a ∈ p0.xqF (Z ∩ p.attributes.toFinset) := by
      rw [hI.wf0.mem_xqF]
      refine ⟨List.mem_toFinset.1 (hI.m0 ▸ hC ha), fun o ho hsub => ?_⟩
      obtain ⟨T, hT, hxT, hTq⟩ := hI.tru0 o ho
      exact hTq (hU T hT (hPZ'.trans (hsub.trans hxT)) ha)
    rw [hcl] at this
    exact (Finset.mem_inter.1 this).1
  · intro he T hT hPT
    exact he T (closed_of_true hI.imps hT) hPT

end

/-! ### Bi-unars -/

/-- The intents of the bi-unars of all sizes. -/
def buU (T : Finset BuEq) : Prop := ∃ n bu, BiUnar.WF n bu ∧ buIntent bu = .ok T

theorem buU_valid {i : Imp BuEq} : BuValid i ↔ ∀ T, buU T → i.premise ⊆ T → i.conclusion ⊆ T :=
  ⟨fun h T ⟨n, bu, hw, hI⟩ => h n bu hw T hI, fun h n bu hw I hI => h I ⟨n, bu, hw, hI⟩⟩

theorem mirror_sw : Mirror buAttributes.toFinset BuEq.sw :=
  ⟨fun a ha => List.mem_toFinset.2 (BuEq.sw_mem a (List.mem_toFinset.1 ha)), fun a ha => BuEq.sw_sw a (List.mem_toFinset.1 ha)⟩

theorem sub_atts {S : Finset BuEq} : S ⊆ buAttributes.toFinset ↔ ∀ e ∈ S, e ∈ buAttributes :=
  ⟨fun h _ he => List.mem_toFinset.1 (h he), fun h e he => List.mem_toFinset.2 (h e he)⟩

theorem background_sym : SymImps buAttributes.toFinset BuEq.sw (buBackground buAttributes) := by
  intro Z hZ hc
  obtain ⟨r, hr, hrZ⟩ := C95_closed_iff.1 hc
  refine C95_closed_iff.2 ⟨fun s t => r s.sw t.sw, ⟨fun s => hr.refl _, fun h => hr.symm h, fun h1 h2 => hr.trans h1 h2⟩, ?_⟩
  intro e he
  have h1 : e ∈ Z.image BuEq.sw ↔ e.sw ∈ Z := by
    have := mirror_sw.mem_image hZ (a := e.sw) (List.mem_toFinset.2 (BuEq.sw_mem e he))
    rwa [BuEq.sw_sw e he] at this
  rw [h1, hrZ _ (BuEq.sw_mem e he)]
  unfold BuEq.sw
  split
  · rfl
  · exact ⟨fun h => hr.symm h, fun h => hr.symm h⟩

theorem background_true : ∀ i ∈ buBackground buAttributes, PDB.TrueImp buU buAttributes.toFinset i := by
  intro i hi
  refine ⟨?_, ?_⟩
  · obtain ⟨x, hx, y, hy, z, hz, -, rfl⟩ := mem_buBackground.1 hi
    intro a ha
    rw [Finset.mem_singleton.1 ha]
    exact List.mem_toFinset.2 hz
  · rintro T ⟨n, bu, hw, hI⟩
    exact (closed_specImps _ _).1 (C95_sound hI) i hi

/-- The answer of `provide_counterexample`. -/
theorem buProvide_spec (ord : SetOrder BuEq) {imp : Imp BuEq} (hp : ∀ e ∈ imp.premise, e ∈ buAttributes)
    (hc : ∀ e ∈ imp.conclusion, e ∈ buAttributes) {n : ℕ} {bu : BiUnar} (hw : bu.WF n) (b : Bool) :
    ∃ x q, buProvide ord imp bu b = .ok [(bu, (x, q)), (bu.automorphicCopy, (x.image BuEq.sw, q.image BuEq.sw))] ∧
      x ⊆ bu.intentF ∧ bu.intentF ⊆ q ∧ (∀ e ∈ q, e ∈ buAttributes) ∧
      imp.isRespectedPartial (x, q) = imp.isRespected bu.intentF := by
  have hI := hw.evaluates.intent
  have key : ∀ x q, x ⊆ bu.intentF → (∀ e ∈ q, e ∈ buAttributes) →
      (do
        let s ← buSymSet ord x
        let t ← buSymSet ord q
        (.ok [(bu, (x, q)), (bu.automorphicCopy, (s, t))] : Py (List (BiUnar × (Finset BuEq × Finset BuEq))))) =
      .ok [(bu, (x, q)), (bu.automorphicCopy, (x.image BuEq.sw, q.image BuEq.sw))] := by
    intro x q hx hq
    rw [buSymSet_ok ord (fun e he => BiUnar.intentF_atts e (hx he)), py_ok_bind, buSymSet_ok ord hq, py_ok_bind]
  cases b with
  | true =>
    obtain ⟨x, q, h1, h2, h3, h4, -, h6⟩ := C96_partial ord hp hc hI
    refine ⟨x, q, ?_, h2, h3, h4, h6⟩
    unfold buProvide
    simp only [if_true]
    rw [h1, py_ok_bind]
    exact key x q h2 h4
  | false =>
    refine ⟨bu.intentF, bu.intentF, ?_, Finset.Subset.refl _, Finset.Subset.refl _, BiUnar.intentF_atts, ?_⟩
    · unfold buProvide
      simp only [Bool.false_eq_true, if_false]
      rw [hI, py_ok_bind, py_ok_bind]
      exact key _ _ (Finset.Subset.refl _) BiUnar.intentF_atts
    · unfold Imp.isRespectedPartial Imp.isRespected
      exact Bool.or_comm _ _

section
variable [PyName α] [PyName BuEq]
open PDB

/-- fca/algorithms/exploration_/examples/bi_unars.py:76-93: one round of `CommandLineExpert.explore` with a correct expert.
The names of the two new objects are two new values, as the objects are compared by identity. -/
inductive BuAnswer (E : PDB.Env α BuEq) (ord : SetOrder BuEq) : PDB α BuEq → PDB α BuEq → Prop
  | confirm (s s' : PDB α BuEq) (i j : Imp BuEq) (hi : i ∈ s.cxtImplications) (hv : BuValid i)
      (hj : buSymImp ord i = .ok j) (h : confirmAll E s [i, j] = (s', none)) : BuAnswer E ord s s'
  | reject (s s' : PDB α BuEq) (i : Imp BuEq) (n : ℕ) (bu : BiUnar) (b : Bool) (x y : Finset BuEq × Finset BuEq) (o o' : α)
      (hi : i ∈ s.cxtImplications) (hw : bu.WF n) (hp : buProvide ord i bu b = .ok [(bu, x), (bu.automorphicCopy, y)])
      (hoo : o ≠ o') (ho : o ∉ s.ctx.objects) (ho' : o' ∉ s.ctx.objects)
      (h : PDB.reject E s i [(o, x), (o', y)] = (s', none)) : BuAnswer E ord s s'

/-- A session of `n` questions. -/
inductive BuSession (E : PDB.Env α BuEq) (ord : SetOrder BuEq) (s₀ : PDB α BuEq) : ℕ → PDB α BuEq → Prop
  | start : BuSession E ord s₀ 0 s₀
  | step {n : ℕ} {s s' : PDB α BuEq} : BuSession E ord s₀ n s → BuAnswer E ord s s' → BuSession E ord s₀ (n + 1) s'

variable {E : PDB.Env α BuEq} {ord : SetOrder BuEq}

theorem trueEx_of {x q : Finset BuEq} {n : ℕ} {bu : BiUnar} (hw : bu.WF n) (h1 : x ⊆ bu.intentF) (h2 : bu.intentF ⊆ q) :
    TrueEx buU buAttributes.toFinset (x, q) :=
  ⟨_, ⟨n, bu, hw, hw.evaluates.intent⟩, sub_atts.2 BiUnar.intentF_atts, h1, h2⟩

theorem trueEx_copy {x q : Finset BuEq} {n : ℕ} {bu : BiUnar} (hw : bu.WF n) (h1 : x ⊆ bu.intentF) (h2 : bu.intentF ⊆ q) :
    TrueEx buU buAttributes.toFinset (x.image BuEq.sw, q.image BuEq.sw) := by
  have := BiUnar.intentF_copy (hw.flen.trans hw.glen.symm)
  exact trueEx_of hw.copy (by rw [this]; exact Finset.image_subset_image h1) (by rw [this]; exact Finset.image_subset_image h2)

theorem trueImps_of (ord : SetOrder BuEq) {i : Imp BuEq} (hp : ∀ e ∈ i.premise, e ∈ buAttributes)
    (hc : ∀ e ∈ i.conclusion, e ∈ buAttributes) (hv : BuValid i) :
    ∃ j, buSymImp ord i = .ok j ∧ (∀ k ∈ [i, j], TrueImp buU buAttributes.toFinset k) ∧
      SymImps buAttributes.toFinset BuEq.sw [i, j] := by
  obtain ⟨j, -, h1, h2, -⟩ := C94_implication ord hp hc
  have hj := buSymImp_ok ord hp hc
  rw [h1] at hj
  obtain rfl := Except.ok.inj hj
  refine ⟨_, h1, ?_, SymImps.pair mirror_sw (sub_atts.2 hp) (sub_atts.2 hc) rfl rfl⟩
  intro k hk
  rcases List.mem_cons.1 hk with rfl | hk
  · exact ⟨sub_atts.2 hc, buU_valid.1 hv⟩
  · obtain rfl := List.mem_singleton.1 hk
    exact ⟨sub_atts.2 (image_sw_mem (reduced_atts hc)), buU_valid.1 (h2.1 hv)⟩

theorem BuAnswer.sym {s s' : PDB α BuEq} {p0 : PCtx α BuEq} (h : Inv E buU buAttributes.toFinset s p0)
    (ha : BuAnswer E ord s s') : SymAnswer E buU buAttributes.toFinset BuEq.sw s s' := by
  cases ha with
  | confirm i j hi hv hj hrun =>
    obtain ⟨f1, -, -, -, -, f6⟩ := h.open_form hi
    obtain ⟨j', h1, h2, h3⟩ := trueImps_of ord (sub_atts.1 f1) (sub_atts.1 f6) hv
    rw [h1] at hj
    obtain rfl := Except.ok.inj hj
    exact .confirm s s' i _ hi (by simp) h2 h3 hrun
  | reject i n bu b x y o o' hi hw hp hoo ho ho' hrun =>
    obtain ⟨f1, -, -, -, -, f6⟩ := h.open_form hi
    obtain ⟨x', q', h1, h2, h3, h4, -⟩ := buProvide_spec ord (sub_atts.1 f1) (sub_atts.1 f6) hw b
    rw [h1] at hp
    have hp := Except.ok.inj hp
    simp only [List.cons.injEq, Prod.mk.injEq, true_and, and_true] at hp
    obtain ⟨rfl, rfl⟩ := hp
    refine .reject s s' i _ hi (by simpa using hoo) ?_ ?_ ?_ hrun
    · intro e he
      rcases List.mem_cons.1 he with rfl | he
      · exact ho
      · obtain rfl := List.mem_singleton.1 he; exact ho'
    · intro e he
      rcases List.mem_cons.1 he with rfl | he
      · exact trueEx_of hw h2 h3
      · obtain rfl := List.mem_singleton.1 he; exact trueEx_copy hw h2 h3
    · intro e he
      have hqM := sub_atts.2 h4
      have hxM : x' ⊆ buAttributes.toFinset := h2.trans (h3.trans hqM)
      rcases List.mem_cons.1 he with rfl | he
      · exact ⟨hqM, _, List.mem_cons_of_mem _ (List.mem_singleton.2 rfl), rfl⟩
      · obtain rfl := List.mem_singleton.1 he
        refine ⟨mirror_sw.image_sub hqM, _, List.mem_cons_self, ?_⟩
        simp only [mirror_sw.image_image hqM, mirror_sw.image_image hxM]

theorem BuSession.sym {s₀ s : PDB α BuEq} {p0 : PCtx α BuEq} {n : ℕ} (h0 : Inv E buU buAttributes.toFinset s₀ p0)
    (h : BuSession E ord s₀ n s) : SymSession E buU buAttributes.toFinset BuEq.sw s₀ n s := by
  induction h with
  | start => exact .start
  | step _ ha ih =>
    obtain ⟨p', hinv, -⟩ := ih.psession.inv h0
    exact .step ih (ha.sym hinv)

/-- The exploration of bi-unars with a correct expert, from any partial context of bi-unars that has with an object the
mirrored one: at most `2^21 * 22` questions are asked, and when no implication is open the implications valid in all
bi-unars are those that follow from the base. -/
theorem C97_biunars (hcond : ∀ S, (∀ e ∈ S, e ∈ buAttributes) → buOrbitMaximal ord S = .ok (E.cond S)) {p : PCtx α BuEq}
    (h : p.WF) (hne : p.objects ≠ []) (hatt : p.attributes = buAttributes) (ht : TrueCtx buU p) (hp : SymCtx BuEq.sw p)
    {s₀ : PDB α BuEq} (hi : PDB.make E p (buBackground buAttributes) = .ok s₀) {n : ℕ} {s : PDB α BuEq}
    (hs : BuSession E ord s₀ n s) : n ≤ 2 ^ 21 * 22 ∧ (s.cxtImplications = [] → ∀ P C : Finset BuEq,
      (∀ e ∈ P, e ∈ buAttributes) → (∀ e ∈ C, e ∈ buAttributes) →
      (BuValid ⟨P, C⟩ ↔ Entails (specImps s.implications) P C)) := by
  have hbg : ∀ i ∈ buBackground buAttributes, TrueImp buU p.attributes.toFinset i := by rw [hatt]; exact background_true
  obtain ⟨s₀', h1, -, h3⟩ := init_inv (E := E) h hne ht hbg
  have hss : SymSession E buU p.attributes.toFinset BuEq.sw s₀ n s := by
    rw [h1] at hi
    obtain rfl := Except.ok.inj hi
    rw [hatt] at h3 ⊢
    exact hs.sym h3
  constructor
  · have := C84_terminates h hne ht hbg hi hss.psession
    rw [hatt] at this
    have hl : buAttributes.length = 21 := by decide +kernel
    rw [hl] at this
    exact this
  · intro hfin P C hP hC
    rw [buU_valid]
    refine C97_orbit_complete (by rw [hatt]; exact mirror_sw) ?_ h hne ht hp hbg (by rw [hatt]; exact background_sym) hi hss
      hfin (by rw [hatt]; exact sub_atts.2 hP) (by rw [hatt]; exact sub_atts.2 hC)
    intro Z hZ
    rw [hatt] at hZ
    obtain ⟨T, b, b', h1, h2, h3, h4, -⟩ := C94_orbit_maximal ord (sub_atts.1 hZ)
    rw [buSymSet_ok ord (sub_atts.1 hZ)] at h1
    obtain rfl := Except.ok.inj h1
    rw [hcond _ (sub_atts.1 hZ)] at h2
    rw [hcond _ (image_sw_mem (sub_atts.1 hZ))] at h3
    obtain rfl := Except.ok.inj h2
    obtain rfl := Except.ok.inj h3
    exact h4

/-- While an implication is open, a correct answer exists and is accepted. -/
theorem C97_biunars_progress {p : PCtx α BuEq} (h : p.WF) (hne : p.objects ≠ []) (hatt : p.attributes = buAttributes)
    (ht : TrueCtx buU p) {s₀ : PDB α BuEq} (hi : PDB.make E p (buBackground buAttributes) = .ok s₀) {n : ℕ}
    {s : PDB α BuEq} (hs : BuSession E ord s₀ n s) {i : Imp BuEq} (hio : i ∈ s.cxtImplications) :
    (BuValid i → ∃ j s', buSymImp ord i = .ok j ∧ confirmAll E s [i, j] = (s', none) ∧ BuAnswer E ord s s') ∧
    (¬ BuValid i → ∃ k bu, BiUnar.WF k bu ∧ ∀ b o o', o ≠ o' → o ∉ s.ctx.objects → o' ∉ s.ctx.objects →
      ∃ x y s', buProvide ord i bu b = .ok [(bu, x), (bu.automorphicCopy, y)] ∧
        PDB.reject E s i [(o, x), (o', y)] = (s', none) ∧ BuAnswer E ord s s') := by
  have hbg : ∀ i ∈ buBackground buAttributes, TrueImp buU p.attributes.toFinset i := by rw [hatt]; exact background_true
  obtain ⟨s₀', h1, -, h3⟩ := init_inv (E := E) h hne ht hbg
  have h1' := h1
  rw [hi] at h1'
  obtain rfl := Except.ok.inj h1'
  have h3' : Inv E buU buAttributes.toFinset s₀ p := by rw [← hatt]; exact h3
  have hps : PSession E buU p.attributes.toFinset s₀ n s := by rw [hatt]; exact (hs.sym h3').psession
  obtain ⟨p0, hinv, -⟩ := hps.inv h3
  obtain ⟨f1, -, -, -, -, f6⟩ := hinv.open_form hio
  rw [hatt] at f1 f6
  obtain ⟨acc, rej⟩ := C83_answers_accepted h hne ht hbg hi hps i
  constructor
  · intro hv
    obtain ⟨j, h1, h2, -⟩ := trueImps_of ord (sub_atts.1 f1) (sub_atts.1 f6) hv
    obtain ⟨s', hs'⟩ := acc [i, j] (by simp) (by rw [hatt]; exact h2)
    exact ⟨j, s', h1, hs', .confirm s s' i j hio hv h1 hs'⟩
  · intro hv
    unfold BuValid at hv
    push Not at hv
    obtain ⟨k, bu, hw, I, hI, hP, hC⟩ := hv
    rw [hw.evaluates.intent] at hI
    obtain rfl := Except.ok.inj hI
    refine ⟨k, bu, hw, fun b o o' hoo ho ho' => ?_⟩
    obtain ⟨x, q, g1, g2, g3, g4, g5⟩ := buProvide_spec ord (sub_atts.1 f1) (sub_atts.1 f6) hw b
    have hnr : ¬ i.isRespectedPartial (x, q) = true := by
      rw [g5, Imp.isRespected_iff']
      exact fun hh => hC (hh hP)
    simp only [Imp.isRespectedPartial, Bool.or_eq_true, decide_eq_true_eq, Bool.not_eq_true', decide_eq_false_iff_not,
      not_or, not_not] at hnr
    obtain ⟨s', hs'⟩ := rej (o, (x, q)) [(o', (x.image BuEq.sw, q.image BuEq.sw))] (by simpa using hoo) (by
        intro e he
        rcases List.mem_cons.1 he with rfl | he
        · exact ho
        · obtain rfl := List.mem_singleton.1 he; exact ho') (by
        rw [hatt]
        intro e he
        rcases List.mem_cons.1 he with rfl | he
        · exact trueEx_of hw g2 g3
        · obtain rfl := List.mem_singleton.1 he; exact trueEx_copy hw g2 g3)
      ⟨hnr.2, fun hsub => hnr.1 (by unfold Imp.reduced; exact Finset.sdiff_subset.trans hsub)⟩
    exact ⟨_, _, s', g1, hs', .reject s s' i k bu b _ _ o o' hio hw g1 hoo ho ho' hs'⟩

end

/-! A session that ends: two exchangeable attributes, the domain is {0, 1}, {}, premises other than {1} are asked for. -/

namespace ODemo

def E : PDB.Env (Fin 2) (Fin 2) := ⟨fun S => S ≠ {1}, SetOrder.fin 2, SetOrder.fin 2, SetOrder.fin 2⟩

def U (T : Finset (Fin 2)) : Prop := T = {0, 1} ∨ T = ∅

def σ (a : Fin 2) : Fin 2 := 1 - a

def pc : PCtx (Fin 2) (Fin 2) := ⟨[0], [0, 1], ⟨[0], [0, 1], ⟨some 2, [[true, true]]⟩⟩, ⟨[0], [0, 1], ⟨some 2, [[true, true]]⟩⟩⟩

def s0 : PDB (Fin 2) (Fin 2) := ⟨pc, [], [⟨∅, {0, 1}⟩]⟩
def s1 := (PDB.reject E s0 ⟨∅, {0, 1}⟩ [(1, (∅, ∅))]).1
def s2 := (PDB.confirmAll E s1 [⟨{0}, {0, 1}⟩, ⟨{1}, {0}⟩]).1

theorem pc_wf : pc.WF := by
  have hx : pc.x.WFw := by constructor <;> decide +kernel
  have hq : pc.q.WFw := by constructor <;> decide +kernel
  refine ⟨hx, hq, rfl, rfl, rfl, rfl, ?_⟩
  intro o a
  rw [← hx.incB, ← hq.incB]
  revert o a
  decide +kernel

theorem mirror : Mirror pc.attributes.toFinset σ := ⟨by decide +kernel, by decide +kernel⟩

theorem session : SymSession E U pc.attributes.toFinset σ s0 2 s2 := by
  refine .step (s := s1) (.step .start ?_) ?_
  · refine .reject _ _ ⟨∅, {0, 1}⟩ [(1, (∅, ∅))] (by decide +kernel) (by decide +kernel) (by decide +kernel) ?_ ?_
      (Prod.ext rfl (by decide +kernel))
    · simp only [List.mem_singleton, forall_eq]
      exact ⟨∅, .inr rfl, by decide +kernel⟩
    · simp only [List.mem_singleton, forall_eq]
      exact ⟨by decide +kernel, _, rfl, by decide +kernel⟩
  · refine .confirm _ _ ⟨{0}, {0, 1}⟩ [⟨{0}, {0, 1}⟩, ⟨{1}, {0}⟩] (by decide +kernel) (by simp) ?_
      (SymImps.pair mirror (by decide +kernel) (by decide +kernel) (by decide +kernel) (by decide +kernel))
      (Prod.ext rfl (by decide +kernel))
    intro j hj
    rcases List.mem_cons.1 hj with rfl | hj
    · refine ⟨by decide +kernel, ?_⟩
      rintro T (rfl | rfl) <;> decide +kernel
    · obtain rfl := List.mem_singleton.1 hj
      refine ⟨by decide +kernel, ?_⟩
      rintro T (rfl | rfl) <;> decide +kernel

end ODemo

example : Mirror ODemo.pc.attributes.toFinset ODemo.σ ∧
    (∀ Z, Z ⊆ ODemo.pc.attributes.toFinset → ODemo.E.cond Z = true ∨ ODemo.E.cond (Z.image ODemo.σ) = true) ∧
    ODemo.pc.WF ∧ ODemo.pc.objects ≠ [] ∧ PDB.TrueCtx ODemo.U ODemo.pc ∧ SymCtx ODemo.σ ODemo.pc ∧
    PDB.make ODemo.E ODemo.pc [] = .ok ODemo.s0 ∧
    SymSession ODemo.E ODemo.U ODemo.pc.attributes.toFinset ODemo.σ ODemo.s0 2 ODemo.s2 ∧ ODemo.s2.cxtImplications = [] := by
  refine ⟨ODemo.mirror, by decide +kernel, ODemo.pc_wf, by decide, ?_, ?_, by decide +kernel, ODemo.session, by decide +kernel⟩
  · intro o ho
    obtain rfl : o = 0 := by simpa [ODemo.pc] using ho
    exact ⟨{0, 1}, .inl rfl, by decide +kernel⟩
  · intro o ho
    obtain rfl : o = 0 := by simpa [ODemo.pc] using ho
    exact ⟨0, by decide +kernel⟩

/-! The hypotheses of `C97_biunars`: the partial context of the bi-unar `f = g = (1)`. -/

namespace BuDemo

def row : List Bool := List.replicate 21 true

def pc : PCtx (List Char) BuEq :=
  ⟨[['o']], buAttributes, ⟨[['o']], buAttributes, ⟨some 21, [row]⟩⟩, ⟨[['o']], buAttributes, ⟨some 21, [row]⟩⟩⟩

theorem ctx_wf : pc.x.WFw := by constructor <;> decide +kernel

theorem pc_wf : pc.WF := ⟨ctx_wf, ctx_wf, rfl, rfl, rfl, rfl, fun _ _ h => h⟩

theorem intent : pc.xI ['o'] = buAttributes.toFinset := by decide +kernel

example : pc.WF ∧ pc.objects ≠ [] ∧ pc.attributes = buAttributes ∧ PDB.TrueCtx buU pc ∧ SymCtx BuEq.sw pc := by
  refine ⟨pc_wf, by decide, rfl, ?_, ?_⟩
  · intro o ho
    obtain rfl : o = ['o'] := by simpa [pc] using ho
    refine ⟨buAttributes.toFinset, ⟨1, ⟨[1], [1]⟩, ⟨rfl, rfl, by decide, by decide⟩, by decide +kernel⟩, ?_⟩
    exact ⟨intent.le, intent.ge⟩
  · intro o ho
    obtain rfl : o = ['o'] := by simpa [pc] using ho
    refine ⟨['o'], by decide, ?_, ?_⟩
    · rw [intent]; decide +kernel
    · show pc.xI ['o'] = (pc.xI ['o']).image BuEq.sw
      rw [intent]; decide +kernel

/-- A condition as required exists for every iteration order. -/
example (ord : SetOrder BuEq) : ∃ cond : Finset BuEq → Bool, ∀ S, (∀ e ∈ S, e ∈ buAttributes) →
    buOrbitMaximal ord S = .ok (cond S) := by
  refine ⟨fun S => (buOrbitMaximal ord S).toOption.getD true, fun S hS => ?_⟩
  obtain ⟨T, b, b', -, h, -⟩ := C94_orbit_maximal ord hS
  simp only [h]; rfl

end BuDemo
