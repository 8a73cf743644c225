/-
Properties of `ExplorationDB` and of the exploration with an expert
(fca/algorithms/exploration_/exploration.py): C57, C58, C59, C75.
-/
import Verif.Lemmas.ExplorationDB
import Verif.Props.Reduce

set_option linter.unusedSectionVars false

open Spec

variable {α β : Type} [DecidableEq α] [DecidableEq β]

namespace EDB

open Ctx BExp

/-- No two background implications are equal for Python. -/
def Distinct (s : EDB α β) : Prop := s.bg.Pairwise fun i j => i.pyEq j = false

theorem Inv.pseudo {E : Env α β} (hE : E.cond = fun _ => true) {s : EDB α β} (h : Inv E s) (hd : Distinct s) (x : Imp β) :
    x ∈ s.openImps ↔ IsPseudo s.ctx.M (specImps s.bg) (attrClosure s.ctx.G s.ctx.M s.ctx.Inc) x.premise ∧
      x.conclusion = attrClosure s.ctx.G s.ctx.M s.ctx.Inc x.premise := by
  have hb := h.basis
  unfold relBasis Ctx.computeDgBasis at hb
  rw [hE] at hb
  exact (dg_main h.wf (.inr ⟨_, _, rfl, hd⟩) (fun i hi => (h.over i hi).2) hb).1 x

theorem modifier_bg {E : Env α β} (r : EDB α β × Option PyErr) : (EDB.modifier E r).1.bg = r.1.bg := by
  rcases r with ⟨s, _ | e⟩
  · unfold EDB.modifier
    dsimp only
    split <;> rfl
  · rfl

variable [PyName α] [PyName β]

theorem editRename_bg (s : EDB α β) (n o : α) : (s.editRename n o).1.bg = s.bg := by
  unfold editRename setCtx
  split_ifs <;> rfl

theorem distinct_confirm {s : EDB α β} (hd : Distinct s) {i : Imp β} (hi : Closed (specImps s.bg) i.premise)
    (hc : ¬ i.conclusion ⊆ i.premise) : (s.bg ++ [i]).Pairwise fun i j => i.pyEq j = false := by
  rw [List.pairwise_append]
  refine ⟨hd, by simp, ?_⟩
  intro j hj x hx
  rw [List.mem_singleton.1 hx]
  by_contra hcon
  rw [Bool.not_eq_false] at hcon
  simp only [Imp.pyEq, Bool.and_eq_true, beq_iff_eq] at hcon
  rw [closed_specImps] at hi
  have := hi j hj (by rw [hcon.1])
  apply hc
  intro m hm
  by_contra hmp
  have hmr : m ∈ i.reduced := Finset.mem_sdiff.2 ⟨hm, hmp⟩
  rw [← hcon.2] at hmr
  exact hmp (this (Finset.mem_sdiff.1 hmr).1)

theorem distinct_step {E : Env α β} (hE : E.cond = fun _ => true) {s : EDB α β} (h : Inv E s) (hd : Distinct s)
    {op : Op α β} (hop : op.Ok s) : Distinct (s.exec E op).1 := by
  have key : (s.exec E op).1.bg = s.bg → Distinct (s.exec E op).1 := by
    intro hh; unfold Distinct; rw [hh]; exact hd
  cases op with
  | confirm i =>
    unfold Distinct
    show (EDB.modifier E _).1.bg.Pairwise _
    rw [modifier_bg]
    obtain ⟨h1, h2⟩ := (h.pseudo hE hd i).1 hop
    rw [IsPseudo] at h1
    refine distinct_confirm hd h1.2.1 ?_
    rw [h2]
    intro hs
    exact h1.2.2.1 (Finset.Subset.antisymm hs (h.wf.attrClosure_op.ext _ h1.1))
  | unconfirm i =>
    unfold Distinct
    show (EDB.modifier E _).1.bg.Pairwise _
    rw [modifier_bg]
    split
    · exact hd.sublist (List.eraseIdx_sublist _ _)
    · exact hd
  | addExample n B =>
    apply key
    show (EDB.modifier E _).1.bg = _
    rw [modifier_bg]
    split_ifs <;> rfl
  | deleteExample n => exact key rfl
  | deleteAttribute n => exact key rfl
  | touch => exact key (modifier_bg _)
  | addAttribute n A =>
    apply key
    show (EDB.modifier E _).1.bg = _
    rw [modifier_bg]
    split_ifs <;> rfl
  | editExample n o B =>
    apply key
    show (EDB.modifier E _).1.bg = _
    rw [modifier_bg]
    unfold setCtx
    split
    · rfl
    · split_ifs
      · rfl
      · split
        · rename_i h1
          dsimp only
          rw [← (Prod.mk.inj h1).1]
        · rename_i h1
          rw [editRename_bg]
          rw [← (Prod.mk.inj h1).1]
      · exact editRename_bg _ _ _
  | editAttribute n o A =>
    apply key
    show (EDB.modifier E _).1.bg = _
    rw [modifier_bg]
    unfold setCtx
    split
    · rfl
    · split_ifs
      · rfl
      · rfl
      · split
        · rename_i h1
          dsimp only
          rw [← (Prod.mk.inj h1).1]
        · rename_i h1
          dsimp only
          rw [← (Prod.mk.inj h1).1]

theorem run_distinct {E : Env α β} (hE : E.cond = fun _ => true) {ops : List (Op α β)} {s : EDB α β} (h : Inv E s)
    (hd : Distinct s) (hf : OkRun E s ops) : Distinct (run E s ops) := by
  induction ops generalizing s with
  | nil => exact hd
  | cons op ops ih => exact ih (exec_step h hf.1).inv (distinct_step hE h hd hf.1) hf.2

/-! ### witnesses -/

def wit : Ctx (Fin 2) (Fin 2) := ⟨[0, 1], [0, 1], ⟨some 2, [[true, true], [false, true]]⟩⟩

def witEnv : Env (Fin 2) (Fin 2) :=
  ⟨fun _ => true, SetOrder.fin 2, SetOrder.fin 2, SetOrder.fin 2, fun _ => SetOrder.fin 2, SetOrder.fin 2, SetOrder.fin 2⟩

theorem wit_wf : wit.WFw := by constructor <;> decide +kernel

def wit0 : EDB (Fin 2) (Fin 2) := ⟨wit, [], [⟨∅, {1}⟩]⟩

deriving instance DecidableEq for Nd, Ctx, EDB

theorem wit0_init : init witEnv wit [] = .ok wit0 := by decide +kernel

end EDB

open EDB Ctx

variable [PyName α] [PyName β]

/-- Whatever the condition on premises is: every background implication holds for every object, after every history in
which only open implications are confirmed and edits do not use names of other rows or columns (calls that raise for
any other reason are included, also deletions, `edit_attribute` and unknown names). Missing from C57: `edit_example` with
the name of another object (false, see below). -/
theorem C57_background_valid_partial {E : EDB.Env α β} {c : Ctx α β} (h : c.WFw) (hne : c.objects ≠ []) {bg : List (Imp β)}
    (ho : ∀ i ∈ bg, i.premise ⊆ c.M ∧ i.conclusion ⊆ c.M)
    (hv : ∀ i ∈ bg, HoldsIn c.G c.Inc i.premise i.conclusion) {s₀ : EDB α β} (hi : init E c bg = .ok s₀)
    {ops : List (Op α β)} (hf : OkRun E s₀ ops) :
    ∀ i ∈ (run E s₀ ops).bg,
      HoldsIn (run E s₀ ops).ctx.G (run E s₀ ops).ctx.Inc i.premise i.conclusion ∧
      ∀ o S, (run E s₀ ops).ctx.objectIntent o = .ok S → i.isRespected S = true := by
  obtain ⟨s, h1, -, -, h4⟩ := init_ok (E := E) h hne ho hv
  rw [h1] at hi; cases hi
  have hI := run_inv h4 hf
  intro i hi
  refine ⟨hI.valid i hi, ?_⟩
  intro o S hS
  by_cases hm : o ∈ (run E s₀ ops).ctx.objects
  · rw [hI.wf.objectIntent hm] at hS
    cases hS
    rw [Imp.isRespected_iff']
    intro hp m hm'
    have hinc : ∀ x, x ∈ (run E s₀ ops).ctx.upF {o} ↔ x ∈ (run E s₀ ops).ctx.attributes ∧ (run E s₀ ops).ctx.Inc o x := by
      intro x; rw [hI.wf.mem_upF]; simp
    rw [hinc]
    have := hI.valid i hi o (List.mem_toFinset.2 hm) (fun x hx => ((hinc x).1 (hp hx)).2) m hm'
    exact ⟨this.mem.2, this⟩
  · rw [objectIntent_err hm] at hS
    cases hS

/-- With the default condition and an initial background without repetitions, the open implications are in every state
exactly the implications `P → P''` of the pseudo-intents `P` relative to the background. -/
theorem C57_open_basis_partial {E : EDB.Env α β} (hE : E.cond = fun _ => true) {c : Ctx α β} (h : c.WFw)
    (hne : c.objects ≠ []) {bg : List (Imp β)} (ho : ∀ i ∈ bg, i.premise ⊆ c.M ∧ i.conclusion ⊆ c.M)
    (hv : ∀ i ∈ bg, HoldsIn c.G c.Inc i.premise i.conclusion) (hd : bg.Pairwise fun i j => i.pyEq j = false)
    {s₀ : EDB α β} (hi : init E c bg = .ok s₀) {ops : List (Op α β)} (hf : OkRun E s₀ ops) (s : EDB α β)
    (hs : s = run E s₀ ops) (x : Imp β) :
    x ∈ s.openImps ↔ IsPseudo s.ctx.M (specImps s.bg) (attrClosure s.ctx.G s.ctx.M s.ctx.Inc) x.premise ∧
      x.conclusion = attrClosure s.ctx.G s.ctx.M s.ctx.Inc x.premise := by
  obtain ⟨s', h1, -, h3, h4⟩ := init_ok (E := E) h hne ho hv
  rw [h1] at hi; cases hi
  have hd' : Distinct s₀ := by unfold Distinct; rw [h3]; exact hd
  subst hs
  exact (run_inv h4 hf).pseudo hE (run_distinct hE h4 hd' hf) x

/-- Calls that raise leave everything as it was. -/
theorem C57_raising_unchanged_partial {E : EDB.Env α β} {c : Ctx α β} (h : c.WFw) (hne : c.objects ≠ []) {bg : List (Imp β)}
    (ho : ∀ i ∈ bg, i.premise ⊆ c.M ∧ i.conclusion ⊆ c.M)
    (hv : ∀ i ∈ bg, HoldsIn c.G c.Inc i.premise i.conclusion) {s₀ : EDB α β} (hi : init E c bg = .ok s₀)
    {ops : List (Op α β)} (hf : OkRun E s₀ ops) {op : Op α β} (hop : op.Ok (run E s₀ ops)) {s' : EDB α β} {e : PyErr}
    (he : (run E s₀ ops).exec E op = (s', some e)) : s' = run E s₀ ops := by
  obtain ⟨s, h1, -, -, h4⟩ := init_ok (E := E) h hne ho hv
  rw [h1] at hi; cases hi
  have := (exec_step (run_inv h4 hf) hop).err e
  rw [he] at this
  exact this rfl

example : ∃ s₀, init witEnv wit [] = .ok s₀ ∧
    OkRun witEnv s₀ [.confirm ⟨∅, {1}⟩, .editExample 1 1 {0}, .editExample 1 1 {0, 1}, .unconfirm ⟨∅, {1}⟩, .deleteExample 0] ∧
    (run witEnv s₀ [.confirm ⟨∅, {1}⟩, .editExample 1 1 {0}, .editExample 1 1 {0, 1}]).bg = [⟨∅, {1}⟩] ∧
    (run witEnv s₀ [.confirm ⟨∅, {1}⟩, .editExample 1 1 {0}, .editExample 1 1 {0, 1}]).openImps = [⟨{1}, {0, 1}⟩] := by
  refine ⟨wit0, wit0_init, ⟨?_, .inl rfl, .inl rfl, trivial, trivial, trivial⟩, by decide +kernel, by decide +kernel⟩
  simp [Op.Ok, wit0]

/-- C57 fails: `edit_example` with a changed intent and the name of another object raises NotUniqueObjectName after the
intent is stored and before the open implications are recomputed. The open implication is false then; confirming it makes
a false implication part of the background. -/
theorem C57_stale_open_implications_violated :
    init witEnv wit [] = .ok wit0 ∧
    (wit0.exec witEnv (.editExample 0 1 ∅)).2 = some .notUniqueObjectName ∧
    (∃ s : EDB (Fin 2) (Fin 2), s = run witEnv wit0 [.editExample 0 1 ∅] ∧
      ∃ i ∈ s.openImps, ¬ HoldsIn s.ctx.G s.ctx.Inc i.premise i.conclusion) ∧
    (∃ s : EDB (Fin 2) (Fin 2), s = run witEnv wit0 [.editExample 0 1 ∅, .confirm ⟨∅, {1}⟩] ∧
      ∃ i ∈ s.bg, ¬ HoldsIn s.ctx.G s.ctx.Inc i.premise i.conclusion) := by
  have hw : (⟨[0, 1], [0, 1], ⟨some 2, [[true, true], [false, false]]⟩⟩ : Ctx (Fin 2) (Fin 2)).WFw := by
    constructor <;> decide +kernel
  refine ⟨wit0_init, by decide +kernel, ⟨_, rfl, ⟨∅, {1}⟩, by decide +kernel, ?_⟩, ⟨_, rfl, ⟨∅, {1}⟩, by decide +kernel, ?_⟩⟩
  · have h : (run witEnv wit0 [.editExample 0 1 ∅]).ctx = ⟨[0, 1], [0, 1], ⟨some 2, [[true, true], [false, false]]⟩⟩ := by
      decide +kernel
    rw [h]
    simp only [HoldsIn, ← hw.incB]
    decide +kernel
  · have h : (run witEnv wit0 [.editExample 0 1 ∅, .confirm ⟨∅, {1}⟩]).ctx =
        ⟨[0, 1], [0, 1], ⟨some 2, [[true, true], [false, false]]⟩⟩ := by
      decide +kernel
    rw [h]
    simp only [HoldsIn, ← hw.incB]
    decide +kernel

/-- When nothing is open, an implication between attributes holds in the context iff it follows from the confirmed base. -/
theorem C58_finished_complete {E : EDB.Env α β} (hE : E.cond = fun _ => true) {c : Ctx α β} (h : c.WFw)
    (hne : c.objects ≠ []) {bg : List (Imp β)} (ho : ∀ i ∈ bg, i.premise ⊆ c.M ∧ i.conclusion ⊆ c.M)
    (hv : ∀ i ∈ bg, HoldsIn c.G c.Inc i.premise i.conclusion) (hd : bg.Pairwise fun i j => i.pyEq j = false)
    {s₀ : EDB α β} (hi : init E c bg = .ok s₀) {ops : List (Op α β)} (hf : OkRun E s₀ ops) (s : EDB α β)
    (hs : s = run E s₀ ops) (hfin : s.openImps = []) {P C : Finset β} (hP : P ⊆ s.ctx.M) (hC : C ⊆ s.ctx.M) :
    HoldsIn s.ctx.G s.ctx.Inc P C ↔ Entails (specImps s.bg) P C := by
  obtain ⟨s', h1, -, h3, h4⟩ := init_ok (E := E) h hne ho hv
  rw [h1] at hi; cases hi
  have hd' : Distinct s₀ := by unfold Distinct; rw [h3]; exact hd
  subst hs
  have hI := run_inv h4 hf
  have hb := hI.basis
  unfold relBasis Ctx.computeDgBasis at hb
  rw [hE] at hb
  have := C25_basis_complete hI.wf E.ordA E.ordO _ _ (.inr ⟨_, _, rfl, run_distinct hE h4 hd' hf⟩)
    (fun i hi => ⟨(hI.over i hi).2, hI.valid i hi⟩) _ hb P C hP hC
  rwa [hfin, List.nil_append] at this

example : ∃ s₀, init witEnv wit [] = .ok s₀ ∧
    OkRun witEnv s₀ [.confirm ⟨∅, {1}⟩] ∧ (run witEnv s₀ [.confirm ⟨∅, {1}⟩]).openImps = [] := by
  refine ⟨wit0, wit0_init, ⟨?_, trivial⟩, by decide +kernel⟩
  simp [Op.Ok, wit0]

/-- C75: `edit_attribute` raises TypeError and changes nothing whenever there is an object and a background implication;
the two deletions always raise AttributeError and change nothing. -/
theorem C75_edit_and_delete_raise {E : EDB.Env α β} {s : EDB α β} (h : s.ctx.WFw) (hne : s.ctx.objects ≠ [])
    (hb : s.bg ≠ []) (n o : β) (A : Finset α) (x : α) :
    s.exec E (.editAttribute n o A) = (s, some .typeError) ∧
    s.exec E (.deleteExample x) = (s, some .attributeError) ∧
    s.exec E (.deleteAttribute n) = (s, some .attributeError) := by
  refine ⟨?_, rfl, rfl⟩
  show s.editAttribute E n o A = _
  unfold editAttribute
  have hmap : s.ctx.objects.mapM s.ctx.objectIntent = .ok (s.ctx.objects.map fun o => s.ctx.upF {o}) :=
    mapM_ok fun x hx => h.objectIntent hx
  rw [hmap]
  dsimp only
  rw [if_pos ⟨by simpa using hne, hb⟩]
  rfl

example : wit.WFw ∧ wit.objects ≠ [] ∧ (⟨wit, [⟨∅, {1}⟩], []⟩ : EDB (Fin 2) (Fin 2)).bg ≠ [] :=
  ⟨wit_wf, by decide, by decide⟩

/-! ### C59: the exploration with a truthful expert -/

namespace EDB

open Ctx BExp

/-- Invariant of the exploration of `c` with the expert theory `basis`. -/
structure XInv (E : EDB.Env α β) (name : Finset β → α) (basis : List (Imp β)) (M : Finset β) (s : EDB α β) : Prop where
  inv : Inv E s
  dist : Distinct s
  m : s.ctx.M = M
  bgE : ∀ S, S ⊆ M → Closed (specImps basis) S → Closed (specImps s.bg) S
  objE : Valid s.ctx.G s.ctx.Inc basis
  names : ∀ P, P ⊆ M → name P ∈ s.ctx.objects → ∀ a, s.ctx.Inc (name P) a ↔ a ∈ simpleClosure P basis

open Classical in
/-- The sets that respect the background and are not closed in the context. -/
noncomputable def gap (M : Finset β) (s : EDB α β) : Finset (Finset β) :=
  M.powerset.filter fun S => Closed (specImps s.bg) S ∧ attrClosure s.ctx.G s.ctx.M s.ctx.Inc S ≠ S

theorem mem_gap {M : Finset β} {s : EDB α β} {S : Finset β} :
    S ∈ gap M s ↔ S ⊆ M ∧ Closed (specImps s.bg) S ∧ attrClosure s.ctx.G s.ctx.M s.ctx.Inc S ≠ S := by
  unfold gap
  rw [@Finset.mem_filter, Finset.mem_powerset]

theorem simpleClosure_sub {M : Finset β} {basis : List (Imp β)} (hb : BExp.Over M basis) {S : Finset β} (hS : S ⊆ M) :
    simpleClosure S basis ⊆ M := by
  refine (simpleClosure_isLeast S basis).2.2 M hS ?_
  rw [closed_specImps]
  exact fun i hi _ => (hb i hi).2

theorem step_confirm {E : EDB.Env α β} (hE : E.cond = fun _ => true) {name : Finset β → α} {basis : List (Imp β)}
    {M : Finset β} {s : EDB α β} (h : XInv E name basis M s) {x : Imp β} (hx : x ∈ s.openImps)
    (hv : expertValid basis x = true) :
    ∃ s', s.confirm E x = (s', none) ∧ XInv E name basis M s' ∧ (gap M s').card < (gap M s).card ∧
      s'.ctx = s.ctx ∧ s'.bg = s.bg ++ [x] := by
  obtain ⟨hps, hcx⟩ := (h.inv.pseudo hE h.dist x).1 hx
  rw [IsPseudo] at hps
  have hgood : Good { s with bg := s.bg ++ [x] } := by
    refine ⟨h.inv.wf, h.inv.one, ?_, ?_⟩
    · intro j hj
      rcases List.mem_append.1 hj with hj | hj
      · exact h.inv.over j hj
      · rw [List.mem_singleton.1 hj]; exact h.inv.openValid.2 x hx
    · intro j hj
      rcases List.mem_append.1 hj with hj | hj
      · exact h.inv.valid j hj
      · rw [List.mem_singleton.1 hj]; exact h.inv.openValid.1 x hx
  obtain ⟨s', h1, h2, h3, h4⟩ := hgood.modifier (E := E)
  have hconf : s.confirm E x = (s', none) := h1
  have hxE : ∀ S, Closed (specImps basis) S → x.premise ⊆ S → x.conclusion ⊆ S := by
    intro S hS hp m hm
    by_cases hmp : m ∈ x.premise
    · exact hp hmp
    · have hr : x.reduced ⊆ simpleClosure x.premise basis := of_decide_eq_true hv
      exact (simpleClosure_isLeast x.premise basis).2.2 S hp hS (hr (Finset.mem_sdiff.2 ⟨hm, hmp⟩))
  have hnc : ¬ x.conclusion ⊆ x.premise := by
    rw [hcx]
    intro hs
    exact hps.2.2.1 (Finset.Subset.antisymm hs (h.inv.wf.attrClosure_op.ext _ hps.1))
  refine ⟨s', hconf, ⟨h4, ?_, by rw [h2]; exact h.m, ?_, by rw [h2]; exact h.objE, by rw [h2]; exact h.names⟩, ?_, h2, h3⟩
  · unfold Distinct
    rw [h3]
    exact distinct_confirm h.dist hps.2.1 hnc
  · intro S hS hc
    rw [h3, closed_specImps]
    intro j hj hp
    rcases List.mem_append.1 hj with hj | hj
    · exact (closed_specImps _ _).1 (h.bgE S hS hc) j hj hp
    · rw [List.mem_singleton.1 hj] at hp ⊢
      exact hxE S hc hp
  · apply Finset.card_lt_card
    rw [Finset.ssubset_iff_of_subset]
    · refine ⟨x.premise, mem_gap.2 ⟨h.m ▸ hps.1, hps.2.1, hps.2.2.1⟩, ?_⟩
      intro hg
      have := (closed_specImps _ _).1 (mem_gap.1 hg).2.1 x (by rw [h3]; simp) (Finset.Subset.refl _)
      exact hnc this
    · intro S hS
      obtain ⟨h5, h6, h7⟩ := mem_gap.1 hS
      rw [h2] at h7
      refine mem_gap.2 ⟨h5, ?_, h7⟩
      rw [closed_specImps] at h6 ⊢
      exact fun j hj => h6 j (by rw [h3]; exact List.mem_append_left _ hj)

theorem step_reject {E : EDB.Env α β} (hE : E.cond = fun _ => true) {name : Finset β → α} (hname : Function.Injective name)
    {basis : List (Imp β)} {M : Finset β} (hbM : BExp.Over M basis) {s : EDB α β} (h : XInv E name basis M s) {x : Imp β}
    (hx : x ∈ s.openImps) (hv : expertValid basis x = false) :
    ∃ s', s.reject E name basis x = (s', none) ∧ XInv E name basis M s' ∧ (gap M s').card < (gap M s).card ∧
      s'.bg = s.bg ∧ s'.ctx.attributes = s.ctx.attributes ∧ s'.ctx.objects.length = s.ctx.objects.length + 1 ∧
      ∀ S m, m ∈ attrClosure s'.ctx.G s'.ctx.M s'.ctx.Inc S ↔ m ∈ attrClosure s.ctx.G s.ctx.M s.ctx.Inc S ∧
        (S ⊆ simpleClosure x.premise basis → m ∈ simpleClosure x.premise basis) := by
  obtain ⟨hps, hcx⟩ := (h.inv.pseudo hE h.dist x).1 hx
  rw [IsPseudo] at hps
  have hPM : x.premise ⊆ M := h.m ▸ hps.1
  obtain ⟨hext, hcl, -⟩ := simpleClosure_isLeast x.premise basis
  set B := simpleClosure x.premise basis with hB
  have hBM : B ⊆ M := simpleClosure_sub hbM hPM
  have hnr : ¬ x.reduced ⊆ B := by
    intro hr
    have : expertValid basis x = true := decide_eq_true hr
    rw [this] at hv; cases hv
  have hnc : ¬ x.conclusion ⊆ B := fun hc => hnr (Finset.sdiff_subset.trans hc)
  have hresp : x.isRespected B = false := by
    rw [← Bool.not_eq_true, Imp.isRespected_iff']
    exact fun hh => hnc (hh hext)
  have hchk : s.checkIntent B = true := by
    rw [checkIntent_iff, ← closed_specImps]
    exact h.bgE B hBM hcl
  have hfresh : name x.premise ∉ s.ctx.objects := by
    intro hin
    have hn := h.names x.premise hPM hin
    have hval := h.inv.openValid.1 x hx (name x.premise) (List.mem_toFinset.2 hin)
      (fun m hm => (hn m).2 (hext hm))
    exact hnc fun m hm => (hn m).1 (hval m hm)
  obtain ⟨t, ht1, ht2, ht3, ht4, ht5, ht6⟩ := h.inv.toGood.addExample hfresh hchk
  obtain ⟨s', h1, h2, h3, h4⟩ := ht3.modifier (E := E)
  have hM' : s'.ctx.M = s.ctx.M := by unfold Ctx.M; rw [h2, ht5]
  have hG' : ∀ g, g ∈ s'.ctx.G ↔ g = name x.premise ∨ g ∈ s.ctx.G := by
    intro g
    unfold Ctx.G
    rw [h2, ht4, List.mem_toFinset, List.mem_append, List.mem_singleton, List.mem_toFinset, or_comm]
  have hinc : ∀ o a, s'.ctx.Inc o a ↔ (o = name x.premise ∧ a ∈ B) ∨ (o ≠ name x.premise ∧ s.ctx.Inc o a) := by
    intro o a
    rw [h2, ht6]
    constructor
    · rintro (⟨h5, -, h7⟩ | h5)
      · exact .inl ⟨h5, h7⟩
      · exact .inr h5
    · rintro (⟨h5, h7⟩ | h5)
      · exact .inl ⟨h5, List.mem_toFinset.1 (by have := hBM h7; rw [← h.m] at this; exact this), h7⟩
      · exact .inr h5
  have hrej : s.reject E name basis x = (s', none) := by
    unfold reject
    simp only [← hB]
    rw [if_neg (by simp [hresp])]
    unfold EDB.addExample
    rw [if_neg (by simp [hchk]), if_neg hfresh, ht1, h1]
  have hmem : ∀ S m, m ∈ attrClosure s'.ctx.G s'.ctx.M s'.ctx.Inc S ↔
      m ∈ attrClosure s.ctx.G s.ctx.M s.ctx.Inc S ∧ (S ⊆ B → m ∈ B) := by
    intro S m
    unfold attrClosure
    rw [@Finset.mem_filter, @Finset.mem_filter, hM', and_assoc]
    refine and_congr_right fun _ => ?_
    constructor
    · intro hh
      constructor
      · intro g hg hgS
        have hgn : g ≠ name x.premise := by
          rintro rfl; exact hfresh (List.mem_toFinset.1 hg)
        have := hh g ((hG' g).2 (.inr hg)) (fun b hb => (hinc g b).2 (.inr ⟨hgn, hgS b hb⟩))
        rcases (hinc g m).1 this with h5 | h5
        · exact absurd h5.1 hgn
        · exact h5.2
      · intro hS
        have := hh (name x.premise) ((hG' _).2 (.inl rfl)) (fun b hb => (hinc _ b).2 (.inl ⟨rfl, hS hb⟩))
        rcases (hinc _ m).1 this with h5 | h5
        · exact h5.2
        · exact absurd rfl h5.1
    · rintro ⟨hh, hhB⟩ g hg hgS
      rw [hinc]
      by_cases hgn : g = name x.premise
      · refine .inl ⟨hgn, hhB fun b hb => ?_⟩
        rcases (hinc g b).1 (hgS b hb) with h5 | h5
        · exact h5.2
        · exact absurd hgn h5.1
      · refine .inr ⟨hgn, hh g (((hG' g).1 hg).resolve_left hgn) fun b hb => ?_⟩
        rcases (hinc g b).1 (hgS b hb) with h5 | h5
        · exact absurd h5.1 hgn
        · exact h5.2
  refine ⟨s', hrej, ⟨h4, ?_, by rw [hM', h.m], ?_, ?_, ?_⟩, ?_, by rw [h3, ht2], by rw [h2, ht5], by rw [h2, ht4]; simp, hmem⟩
  · unfold Distinct; rw [h3, ht2]; exact h.dist
  · rw [h3, ht2]; exact h.bgE
  · intro i hi g hg hp m hm
    rw [hinc]
    by_cases hgn : g = name x.premise
    · left
      refine ⟨hgn, (closed_specImps _ _).1 hcl i hi ?_ hm⟩
      intro y hy
      rcases (hinc g y).1 (hp y hy) with h5 | h5
      · exact h5.2
      · exact absurd hgn h5.1
    · right
      refine ⟨hgn, h.objE i hi g (((hG' g).1 hg).resolve_left hgn) ?_ m hm⟩
      intro y hy
      rcases (hinc g y).1 (hp y hy) with h5 | h5
      · exact absurd h5.1 hgn
      · exact h5.2
  · intro P hP hin a
    rw [hinc]
    by_cases hPx : P = x.premise
    · subst hPx
      simp [hB]
    · have hne : name P ≠ name x.premise := fun he => hPx (hname he)
      have hin' : name P ∈ s.ctx.objects := by
        have := (hG' (name P)).1 (List.mem_toFinset.2 hin)
        exact List.mem_toFinset.1 (this.resolve_left hne)
      rw [← h.names P hP hin' a]
      simp [hne]
  · apply Finset.card_lt_card
    rw [Finset.ssubset_iff_of_subset]
    · refine ⟨B, mem_gap.2 ⟨hBM, (by rw [closed_specImps, ← checkIntent_iff]; exact hchk), ?_⟩, ?_⟩
      · intro he
        apply hnc
        rw [hcx, ← he]
        exact h.inv.wf.attrClosure_op.mono _ _ hext (by rw [h.m]; exact hBM)
      · intro hg
        apply (mem_gap.1 hg).2.2
        apply Finset.Subset.antisymm
        · intro m hm
          exact ((hmem B m).1 hm).2 (Finset.Subset.refl _)
        · exact h4.wf.attrClosure_op.ext B (by rw [hM', h.m]; exact hBM)
    · intro S hS
      obtain ⟨h5, h6, h7⟩ := mem_gap.1 hS
      refine mem_gap.2 ⟨h5, by rw [← ht2, ← h3]; exact h6, ?_⟩
      intro he
      apply h7
      apply Finset.Subset.antisymm
      · intro m hm
        have := ((hmem S m).1 hm).1
        rwa [he] at this
      · exact h4.wf.attrClosure_op.ext S (by rw [hM', h.m]; exact h5)

theorem explore_ok {E : EDB.Env α β} (hE : E.cond = fun _ => true) {name : Finset β → α} (hname : Function.Injective name)
    {basis : List (Imp β)} {M : Finset β} (hbM : BExp.Over M basis) : ∀ {fuel : ℕ} {s : EDB α β},
    XInv E name basis M s → (gap M s).card < fuel →
    ∃ s', explore E name basis fuel s = some (s', none) ∧ XInv E name basis M s' ∧ s'.openImps = [] := by
  intro fuel
  induction fuel with
  | zero => intro s _ hf; omega
  | succ fuel ih =>
    intro s h hf
    unfold explore
    rcases ho : s.openImps with _ | ⟨x, l⟩
    · exact ⟨s, rfl, h, ho⟩
    · have hx : x ∈ s.openImps := by rw [ho]; simp
      dsimp only
      cases hv : expertValid basis x with
      | true =>
        obtain ⟨s', h1, h2, h3, -⟩ := step_confirm hE h hx hv
        rw [if_pos rfl, h1]
        exact ih h2 (by omega)
      | false =>
        obtain ⟨s', h1, h2, h3, -⟩ := step_reject hE hname hbM h hx hv
        rw [if_neg (by simp), h1]
        exact ih h2 (by omega)

end EDB

open EDB Ctx

/-- The exploration with the expert of the theory `basis` of a context that respects it, with a background following from
the theory and without repetitions: whatever the orders are that Python leaves open, the loop ends after at most `2 ^ |M|`
answers without exception, nothing is open then, the sets respecting the confirmed base are exactly those respecting the
expert's theory, and exactly the expert's implications hold in the context. `name` renders a set as an object name; different
sets have different renderings, and no object has the rendering of a set as its name. -/
theorem C59_truthful_expert {E : EDB.Env α β} (hE : E.cond = fun _ => true) {name : Finset β → α}
    (hname : Function.Injective name) {c : Ctx α β} (h : c.WFw) (hne : c.objects ≠ []) (hfresh : ∀ P, name P ∉ c.objects)
    {basis bg : List (Imp β)} (hbM : ∀ i ∈ basis, i.premise ⊆ c.M ∧ i.conclusion ⊆ c.M)
    (hbv : ∀ i ∈ basis, HoldsIn c.G c.Inc i.premise i.conclusion)
    (ho : ∀ i ∈ bg, i.premise ⊆ c.M ∧ i.conclusion ⊆ c.M) (hbg : ∀ i ∈ bg, Entails (specImps basis) i.premise i.conclusion)
    (hd : bg.Pairwise fun i j => i.pyEq j = false) :
    ∃ s₀ s, init E c bg = .ok s₀ ∧ explore E name basis (2 ^ c.M.card + 1) s₀ = some (s, none) ∧ s.openImps = [] ∧
      s.ctx.M = c.M ∧
      (∀ S, S ⊆ c.M → (Closed (specImps s.bg) S ↔ Closed (specImps basis) S)) ∧
      (∀ P C, P ⊆ c.M → C ⊆ c.M → (HoldsIn s.ctx.G s.ctx.Inc P C ↔ Entails (specImps basis) P C)) := by
  have hv : ∀ i ∈ bg, HoldsIn c.G c.Inc i.premise i.conclusion := by
    intro i hi
    rw [holdsIn_iff h (ho i hi).2]
    exact hbg i hi _ (closed_attrClosure h hbv (fun i hi => (hbM i hi).2) _) (h.attrClosure_op.ext _ (ho i hi).1)
  obtain ⟨s₀, h1, h2, h3, h4⟩ := init_ok (E := E) h hne ho hv
  have hX : XInv E name basis c.M s₀ := by
    refine ⟨h4, by unfold Distinct; rw [h3]; exact hd, by rw [h2], ?_, by rw [h2]; exact hbv, ?_⟩
    · intro S _ hc
      rw [h3, closed_specImps]
      exact fun i hi hp => hbg i hi S hc hp
    · intro P _ hin
      rw [h2] at hin
      exact absurd hin (hfresh P)
  have hcard : (gap c.M s₀).card < 2 ^ c.M.card + 1 := by
    have : (gap c.M s₀).card ≤ c.M.powerset.card := by
      apply Finset.card_le_card
      intro S hS
      exact Finset.mem_powerset.2 (mem_gap.1 hS).1
    rw [Finset.card_powerset] at this
    omega
  obtain ⟨s, h5, h6, h7⟩ := explore_ok hE hname hbM hX hcard
  have hcomp : ∀ P C, P ⊆ c.M → C ⊆ c.M → (HoldsIn s.ctx.G s.ctx.Inc P C ↔ Entails (specImps s.bg) P C) := by
    intro P C hP hC
    have hb := h6.inv.basis
    unfold relBasis Ctx.computeDgBasis at hb
    rw [hE] at hb
    have := C25_basis_complete h6.inv.wf E.ordA E.ordO _ _ (.inr ⟨_, _, rfl, h6.dist⟩)
      (fun i hi => ⟨(h6.inv.over i hi).2, h6.inv.valid i hi⟩) _ hb P C (by rw [h6.m]; exact hP) (by rw [h6.m]; exact hC)
    rwa [h7, List.nil_append] at this
  have hcl : ∀ S, S ⊆ c.M → (Closed (specImps s.bg) S ↔ Closed (specImps basis) S) := by
    intro S hS
    refine ⟨?_, h6.bgE S hS⟩
    intro hc
    rw [closed_specImps]
    intro i hi hp
    have := (hcomp i.premise i.conclusion (hbM i hi).1 (hbM i hi).2).1 (h6.objE i hi)
    exact this S hc hp
  refine ⟨s₀, s, h1, h5, h7, h6.m, hcl, ?_⟩
  intro P C hP hC
  rw [hcomp P C hP hC]
  constructor
  · intro he S hS hp m hm
    have hSM : Closed (specImps basis) (S ∩ c.M) := by
      rw [closed_specImps] at hS ⊢
      intro i hi hp'
      exact Finset.subset_inter (hS i hi (hp'.trans Finset.inter_subset_left)) (hbM i hi).2
    have := he (S ∩ c.M) ((hcl _ Finset.inter_subset_right).2 hSM) (Finset.subset_inter hp hP) hm
    exact (Finset.mem_inter.1 this).1
  · intro he S hS hp m hm
    have hSM : Closed (specImps s.bg) (S ∩ c.M) := by
      rw [closed_specImps] at hS ⊢
      intro i hi hp'
      exact Finset.subset_inter (hS i hi (hp'.trans Finset.inter_subset_left))
        (by have := (h6.inv.over i hi).2; rwa [h6.m] at this)
    have := he (S ∩ c.M) ((hcl _ Finset.inter_subset_right).1 hSM) (Finset.subset_inter hp hP) hm
    exact (Finset.mem_inter.1 this).1

namespace EDB

instance (γ δ : Type) : PyName (γ ⊕ δ) := ⟨fun x _ => x⟩

/-- The table of `TrianglesTest` (equilateral, isosceles, acute, right) and the expert of that test. -/
def triangles : Ctx (Fin 3 ⊕ Finset (Fin 4)) (Fin 4) :=
  ⟨[.inl 0, .inl 1, .inl 2], [0, 1, 2, 3],
    ⟨some 4, [[false, true, false, false], [false, false, true, false], [false, false, false, true]]⟩⟩

def triangleBasis : List (Imp (Fin 4)) := [⟨{2, 3}, {0, 1}⟩, ⟨{0}, {1, 2}⟩]

theorem triangles_wf : triangles.WFw := by constructor <;> decide +kernel

end EDB

example : triangles.WFw ∧ triangles.objects ≠ [] ∧ Function.Injective (Sum.inr : Finset (Fin 4) → Fin 3 ⊕ Finset (Fin 4)) ∧
    (∀ P, (Sum.inr P : Fin 3 ⊕ Finset (Fin 4)) ∉ triangles.objects) ∧
    (∀ i ∈ triangleBasis, i.premise ⊆ triangles.M ∧ i.conclusion ⊆ triangles.M) ∧
    (∀ i ∈ triangleBasis, HoldsIn triangles.G triangles.Inc i.premise i.conclusion) := by
  refine ⟨triangles_wf, by decide, Sum.inr_injective, by simp [triangles], by decide +kernel, ?_⟩
  simp only [HoldsIn, ← triangles_wf.incB]
  decide +kernel
