/-
Property C139: how many implications an exploration accepts, whatever is answered in which order.
-/
import Verif.Props.ExploreBasis
import Verif.Props.Exploration2

set_option linter.unusedSectionVars false

open Spec Ctx

variable {α β : Type} [DecidableEq α] [DecidableEq β]

/-- An accepted implication takes its premise from the pseudo-intents, and nothing else. -/
theorem Spec.pseudo_accept {M : Finset β} {L₀ : Imps β} {cl : Finset β → Finset β} (hop : IsClosureOp M cl) {P : Finset β}
    (hP : IsPseudo M L₀ cl P) (Q : Finset β) : IsPseudo M (L₀ ++ [(P, cl P)]) cl Q ↔ IsPseudo M L₀ cl Q ∧ Q ≠ P := by
  induction hn : Q.card using Nat.strong_induction_on generalizing Q with
  | _ n ih =>
    have hP' := hP
    rw [IsPseudo] at hP'
    constructor
    · intro h
      rw [IsPseudo] at h
      obtain ⟨h1, h2, h3, h4⟩ := h
      have hPQ : P ⊆ Q → cl P ⊆ Q := fun hs => h2 (P, cl P) (by simp) hs
      refine ⟨?_, ?_⟩
      · rw [IsPseudo]
        refine ⟨h1, fun pc hpc => h2 pc (List.mem_append_left _ hpc), h3, fun R hR hRp => ?_⟩
        by_cases he : R = P
        · subst he; exact hPQ hR.1
        · exact h4 R hR ((ih R.card (hn ▸ Finset.card_lt_card hR) R rfl).2 ⟨hRp, he⟩)
      · rintro rfl
        exact h3 (Finset.Subset.antisymm (hPQ (Finset.Subset.refl _)) (hop.ext _ h1))
    · rintro ⟨h, hne⟩
      have h' := h
      rw [IsPseudo] at h
      obtain ⟨h1, h2, h3, h4⟩ := h
      rw [IsPseudo]
      refine ⟨h1, ?_, h3, fun R hR hRp => h4 R hR ((ih R.card (hn ▸ Finset.card_lt_card hR) R rfl).1 hRp).1⟩
      intro pc hpc
      rcases List.mem_append.1 hpc with hpc | hpc
      · exact h2 pc hpc
      · rw [List.mem_singleton.1 hpc]
        intro hs
        exact h4 P (Finset.ssubset_iff_subset_ne.2 ⟨hs, Ne.symm hne⟩) hP

namespace EDB
variable [PyName α] [PyName β]

/-- Implications get into the background by `confirm_implication` only. -/
theorem exec_bg {E : Env α β} (s : EDB α β) (op : Op α β) {x : Imp β} (hx : x ∈ (s.exec E op).1.bg) :
    x ∈ s.bg ∨ op = .confirm x := by
  have key : (s.exec E op).1.bg = s.bg → x ∈ s.bg := fun h => h ▸ hx
  cases op with
  | confirm i =>
    have : (s.exec E (.confirm i)).1.bg = s.bg ++ [i] := modifier_bg _
    rw [this, List.mem_append, List.mem_singleton] at hx
    exact hx.imp id fun h => by rw [h]
  | unconfirm i =>
    left
    change x ∈ (EDB.modifier E _).1.bg at hx
    rw [modifier_bg] at hx
    split at hx
    · exact List.mem_of_mem_eraseIdx hx
    · exact hx
  | addExample n B =>
    left; apply key
    show (EDB.modifier E _).1.bg = _
    rw [modifier_bg]
    split_ifs <;> rfl
  | deleteExample n => exact .inl (key rfl)
  | deleteAttribute n => exact .inl (key rfl)
  | touch => exact .inl (key (modifier_bg _))
  | addAttribute n A =>
    left; apply key
    show (EDB.modifier E _).1.bg = _
    rw [modifier_bg]
    split_ifs <;> rfl
  | editExample n o B =>
    left; apply key
    show (EDB.modifier E _).1.bg = _
    rw [modifier_bg]
    unfold setCtx
    split
    · rfl
    · split_ifs
      · rfl
      · split
        · rename_i h1
          dsimp only
          rw [← (Prod.mk.inj h1).1]
        · rename_i h1
          rw [editRename_bg]
          rw [← (Prod.mk.inj h1).1]
      · exact editRename_bg _ _ _
  | editAttribute n o A =>
    left; apply key
    show (EDB.modifier E _).1.bg = _
    rw [modifier_bg]
    unfold setCtx
    split
    · rfl
    · split_ifs
      · rfl
      · rfl
      · split
        · rename_i h1
          dsimp only
          rw [← (Prod.mk.inj h1).1]
        · rename_i h1
          dsimp only
          rw [← (Prod.mk.inj h1).1]

/-- The implications confirmed in a history. -/
def confirmed (ops : List (Op α β)) : List (Imp β) := ops.filterMap fun | .confirm i => some i | _ => none

theorem run_bg {E : Env α β} {ops : List (Op α β)} {s : EDB α β} {x : Imp β} (hx : x ∈ (run E s ops).bg) :
    x ∈ s.bg ∨ x ∈ confirmed ops := by
  induction ops generalizing s with
  | nil => exact .inl hx
  | cons op ops ih =>
    rcases ih hx with h | h
    · rcases exec_bg s op h with h | rfl
      · exact .inl h
      · exact .inr (by simp [confirmed])
    · right
      unfold confirmed at h ⊢
      rw [List.mem_filterMap] at h ⊢
      obtain ⟨o, h1, h2⟩ := h
      exact ⟨o, List.mem_cons_of_mem _ h1, h2⟩

omit [PyName α] [PyName β] in
theorem Distinct.nodup {s : EDB α β} (h : Distinct s) : s.bg.Nodup := by
  refine h.imp ?_
  rintro a b hab rfl
  simp [Imp.pyEq] at hab

/-- The relative basis does not depend on iteration orders. -/
theorem relBasis_det {c : Ctx α β} (h : c.WFw) (hne : c.objects ≠ []) {bg : List (Imp β)} (hbg : c.ValidBg bg)
    (hd : bg.Pairwise fun i j => i.pyEq j = false) (E : Env α β) :
    ∃ r, ∀ E' : Env α β, (E'.cond = fun _ => true) → relBasis E' c bg = .ok r := by
  have hex : ∀ E' : Env α β, (E'.cond = fun _ => true) → ∃ r, relBasis E' c bg = .ok r ∧
      Explore.Cand c.attributes bg (attrClosure c.G c.M c.Inc) r := by
    intro E' hE'
    obtain ⟨r, hr⟩ := Ctx.C24_basis_returns h hne E'.ordA E'.ordO (linClosure E'.ord₀ E'.ord) bg
      (.inr ⟨_, _, rfl, List.Pairwise.nil⟩) (fun i hi => (hbg i hi).1) (fun _ => true)
    refine ⟨r, ?_, Explore.cand_of_basis h (.inr ⟨_, _, rfl, hd⟩) hbg hr⟩
    unfold relBasis Ctx.computeDgBasis; rw [hE']; exact hr
  obtain ⟨r, h1, h2⟩ := hex { E with cond := fun _ => true } rfl
  refine ⟨r, fun E' hE' => ?_⟩
  obtain ⟨r', h3, h4⟩ := hex E' hE'
  rw [h3, Explore.sorted_eq h4.2 h2.2 fun i => by rw [h4.1, h2.1]]

/-- The number of calls of `confirm_implication` in a history that ends without open implications is at least the length of
the Duquenne-Guigues basis of the final context relative to what is left of the initial background. -/
theorem C139_confirm_calls {E : Env α β} (hE : E.cond = fun _ => true) {c : Ctx α β} (h : c.WFw) (hne : c.objects ≠ [])
    {bg : List (Imp β)} (ho : ∀ i ∈ bg, i.premise ⊆ c.M ∧ i.conclusion ⊆ c.M)
    (hv : ∀ i ∈ bg, HoldsIn c.G c.Inc i.premise i.conclusion) (hd : bg.Pairwise fun i j => i.pyEq j = false)
    {s₀ : EDB α β} (hi : init E c bg = .ok s₀) {ops : List (Op α β)} (hf : OkRun E s₀ ops) (s : EDB α β)
    (hs : s = run E s₀ ops) (hfin : s.openImps = []) :
    ∃ res, (∀ E' : Env α β, (E'.cond = fun _ => true) → relBasis E' s.ctx (bg.filter fun i => decide (i ∈ s.bg)) = .ok res) ∧
      res.length ≤ (s.bg.filter fun i => decide (i ∉ bg)).length ∧ res.length ≤ (confirmed ops).length := by
  have hc := fun {P C} => C58_finished_complete hE h hne ho hv hd hi hf s hs hfin (P := P) (C := C)
  obtain ⟨s', h1, -, h3, h4⟩ := init_ok (E := E) h hne ho hv
  rw [h1] at hi; cases hi
  have hd' : Distinct s₀ := by unfold Distinct; rw [h3]; exact hd
  have hI : Inv E s := hs ▸ run_inv h4 hf
  have hD : Distinct s := hs ▸ run_distinct hE h4 hd' hf
  set bg' := bg.filter fun i => decide (i ∈ s.bg) with hbg'
  have hmem : ∀ i ∈ bg', i ∈ s.bg := fun i hi => by simpa using (List.mem_filter.1 hi).2
  have hV : s.ctx.ValidBg bg' := fun i hi => ⟨(hI.over i (hmem i hi)).2, hI.valid i (hmem i hi)⟩
  have hdd : bg'.Pairwise fun i j => i.pyEq j = false := hd.filter _
  obtain ⟨res, hres⟩ := relBasis_det hI.wf hI.one hV hdd E
  have hlen : res.length ≤ (s.bg.filter fun i => decide (i ∉ bg)).length := by
    have hr := hres E hE
    unfold relBasis Ctx.computeDgBasis at hr
    rw [hE] at hr
    have := C27_basis_minimal hI.wf E.ordA E.ordO _ bg' (.inr ⟨_, _, rfl, hdd⟩) hV res hr
      (specImps (s.bg.filter fun i => decide (i ∉ bg)))
      (by
        intro pc hpc
        obtain ⟨i, hi, rfl⟩ := List.mem_map.1 hpc
        exact (hI.over i (List.mem_filter.1 hi).1).2)
      (by
        intro pc hpc
        obtain ⟨i, hi, rfl⟩ := List.mem_map.1 hpc
        exact hI.valid i (List.mem_filter.1 hi).1)
      (by
        intro P C hP hC hh S hS
        refine (hc hP hC).1 hh S ?_
        rw [closed_specImps]
        intro i hi
        have : i.toSpec ∈ specImps (s.bg.filter fun i => decide (i ∉ bg)) ++ specImps bg' := by
          rw [List.mem_append]
          by_cases hb : i ∈ bg
          · exact .inr (List.mem_map_of_mem (List.mem_filter.2 ⟨hb, by simpa using hi⟩))
          · exact .inl (List.mem_map_of_mem (List.mem_filter.2 ⟨hi, by simpa using hb⟩))
        exact hS _ this)
    simpa [specImps] using this
  refine ⟨res, hres, hlen, hlen.trans ?_⟩
  refine List.Subperm.length_le ((hD.nodup.filter _).subperm fun x hx => ?_)
  obtain ⟨hx1, hx2⟩ := List.mem_filter.1 hx
  rw [hs] at hx1
  rcases run_bg hx1 with h' | h'
  · rw [h3] at h'
    simp [h'] at hx2
  · exact h'

theorem confirm_step {E : Env α β} (hE : E.cond = fun _ => true) {s : EDB α β} (h : Inv E s) (hd : Distinct s) {i : Imp β}
    (hi : i ∈ s.openImps) : ∃ s', (s.exec E (.confirm i)).1 = s' ∧ Inv E s' ∧ Distinct s' ∧ s'.ctx = s.ctx ∧ s'.bg = s.bg ++ [i] ∧
      s'.openImps = s.openImps.filter fun x => decide (x ≠ i) := by
  have hop : Op.Ok s (.confirm i : Op α β) := hi
  have hI' := (exec_step (E := E) h hop).inv
  have hD' := distinct_step hE h hd hop
  have hb : (s.exec E (.confirm i)).1.bg = s.bg ++ [i] := modifier_bg _
  have hc : (s.exec E (.confirm i)).1.ctx = s.ctx := by
    show (EDB.modifier E _).1.ctx = s.ctx
    unfold EDB.modifier
    dsimp only
    split <;> rfl
  refine ⟨_, rfl, hI', hD', hc, hb, ?_⟩
  have sorted : ∀ {t : EDB α β}, Inv E t → Distinct t →
      (t.openImps.map Imp.premise).Pairwise (LecticLt t.ctx.attributes) := by
    intro t ht hdt
    have hb := ht.basis
    unfold relBasis Ctx.computeDgBasis at hb
    rw [hE] at hb
    rw [List.pairwise_map]
    exact (dg_main ht.wf (.inr ⟨_, _, rfl, hdt⟩) (fun i hi => (ht.over i hi).2) hb).2
  have h1 := sorted hI' hD'
  rw [hc] at h1
  refine Explore.sorted_eq h1 (((sorted h hd).sublist (List.filter_sublist.map _))) fun x => ?_
  rw [List.mem_filter, hI'.pseudo hE hD' x, h.pseudo hE hd x, hc, hb]
  obtain ⟨p1, p2⟩ := (h.pseudo hE hd i).1 hi
  have : specImps (s.bg ++ [i]) = specImps s.bg ++ [(i.premise, attrClosure s.ctx.G s.ctx.M s.ctx.Inc i.premise)] := by
    rw [← p2]; simp [specImps, Imp.toSpec]
  rw [this, pseudo_accept h.wf.attrClosure_op p1 x.premise]
  simp only [decide_eq_true_eq]
  constructor
  · rintro ⟨⟨k1, k2⟩, k3⟩
    exact ⟨⟨k1, k3⟩, fun he => k2 (by rw [he])⟩
  · rintro ⟨⟨k1, k3⟩, k2⟩
    refine ⟨⟨k1, fun he => k2 ?_⟩, k3⟩
    obtain ⟨xp, xc⟩ := x
    obtain ⟨ip, ic⟩ := i
    simp only at he k3 p2
    subst he
    rw [k3, p2]

theorem confirm_list {E : Env α β} (hE : E.cond = fun _ => true) (imps : List (Imp β)) {s : EDB α β} (h : Inv E s)
    (hd : Distinct s) :
    (OkRun E s (imps.map .confirm) ↔ imps.Nodup ∧ ∀ i ∈ imps, i ∈ s.openImps) ∧
    (OkRun E s (imps.map .confirm) → (run E s (imps.map .confirm)).ctx = s.ctx ∧
      (run E s (imps.map .confirm)).bg = s.bg ++ imps ∧
      (run E s (imps.map .confirm)).openImps = s.openImps.filter fun i => decide (i ∉ imps)) := by
  induction imps generalizing s with
  | nil => simp [OkRun, run]
  | cons i t ih =>
    by_cases hi : i ∈ s.openImps
    · obtain ⟨s', e1, e2, e3, e4, e5, e6⟩ := confirm_step hE h hd hi
      obtain ⟨k1, k2⟩ := ih e2 e3
      have hrun : run E s ((i :: t).map .confirm) = run E s' (t.map .confirm) := by
        rw [← e1]; rfl
      have hok : OkRun E s ((i :: t).map .confirm) ↔ OkRun E s' (t.map .confirm) := by
        rw [← e1]; exact ⟨fun h => h.2, fun h => ⟨hi, h⟩⟩
      rw [hrun, hok]
      constructor
      · rw [k1, e6, List.nodup_cons]
        simp only [List.mem_filter, List.forall_mem_cons, decide_eq_true_eq]
        constructor
        · rintro ⟨q1, q2⟩
          exact ⟨⟨fun hit => (q2 i hit).2 rfl, q1⟩, hi, fun x hx => (q2 x hx).1⟩
        · rintro ⟨⟨q1, q2⟩, -, q3⟩
          exact ⟨q2, fun x hx => ⟨q3 x hx, fun he => q1 (he ▸ hx)⟩⟩
      · intro hr
        obtain ⟨r1, r2, r3⟩ := k2 hr
        refine ⟨r1.trans e4, by rw [r2, e5]; simp, ?_⟩
        rw [r3, e6, List.filter_filter]
        refine List.filter_congr fun x _ => ?_
        simp only [List.mem_cons, not_or, Bool.decide_and, Bool.and_comm]
    · have : ¬ OkRun E s ((i :: t).map .confirm) := fun h => hi h.1
      refine ⟨⟨fun h => absurd h this, fun h => absurd (h.2 i List.mem_cons_self) hi⟩, fun h => absurd h this⟩

/-- In any reached state the implications that can be confirmed one after the other, without other calls in between, are
exactly the different open ones, in any order. They are appended to the background and taken from the open ones; the
exploration is finished if and only if all of them were confirmed. -/
theorem C139_any_order {E : Env α β} (hE : E.cond = fun _ => true) {c : Ctx α β} (h : c.WFw) (hne : c.objects ≠ [])
    {bg : List (Imp β)} (ho : ∀ i ∈ bg, i.premise ⊆ c.M ∧ i.conclusion ⊆ c.M)
    (hv : ∀ i ∈ bg, HoldsIn c.G c.Inc i.premise i.conclusion) (hd : bg.Pairwise fun i j => i.pyEq j = false)
    {s₀ : EDB α β} (hi : init E c bg = .ok s₀) {ops : List (Op α β)} (hf : OkRun E s₀ ops) (s : EDB α β)
    (hs : s = run E s₀ ops) (imps : List (Imp β)) :
    (OkRun E s (imps.map .confirm) ↔ imps.Nodup ∧ ∀ i ∈ imps, i ∈ s.openImps) ∧
    (OkRun E s (imps.map .confirm) → ∃ s', run E s (imps.map .confirm) = s' ∧ s'.ctx = s.ctx ∧ s'.bg = s.bg ++ imps ∧
      s'.openImps = s.openImps.filter (fun i => decide (i ∉ imps)) ∧ (s'.openImps = [] ↔ imps.Perm s.openImps)) := by
  obtain ⟨s', h1, -, h3, h4⟩ := init_ok (E := E) h hne ho hv
  rw [h1] at hi; cases hi
  have hd' : Distinct s₀ := by unfold Distinct; rw [h3]; exact hd
  have hI : Inv E s := hs ▸ run_inv h4 hf
  have hD : Distinct s := hs ▸ run_distinct hE h4 hd' hf
  obtain ⟨k1, k2⟩ := confirm_list hE imps hI hD
  refine ⟨k1, fun hr => ?_⟩
  obtain ⟨r1, r2, r3⟩ := k2 hr
  refine ⟨_, rfl, r1, r2, r3, ?_⟩
  obtain ⟨n1, n2⟩ := k1.1 hr
  have n3 : s.openImps.Nodup := by
    have hb := hI.basis
    unfold relBasis Ctx.computeDgBasis at hb
    rw [hE] at hb
    refine (dg_main hI.wf (.inr ⟨_, _, rfl, hD⟩) (fun i hi => (hI.over i hi).2) hb).2.imp ?_
    rintro a b hab rfl
    rw [lecticLt_iff] at hab; omega
  rw [r3, List.filter_eq_nil_iff, List.perm_ext_iff_of_nodup n1 n3]
  simp only [decide_eq_true_eq, not_not]
  exact ⟨fun hh a => ⟨n2 a, hh a⟩, fun hh a ha => (hh a).2 ha⟩

/-- More can be accepted than the basis has: `{0, 2} → {1}` and `{0, 1} → {2}` are confirmed while `∅ → {0}` is open; after a
counterexample to the latter two more implications have to be confirmed. The basis of the final context has two. -/
theorem C139_more :
    ∃ (c : Ctx (Fin 3) (Fin 3)) (E : Env (Fin 3) (Fin 3)) (s₀ s : EDB (Fin 3) (Fin 3)) (ops : List (Op (Fin 3) (Fin 3))),
      c.WFw ∧ (E.cond = fun _ => true) ∧ init E c [] = .ok s₀ ∧ OkRun E s₀ ops ∧ s = run E s₀ ops ∧ s.openImps = [] ∧
      ops = [.addExample 1 {0}, .confirm ⟨{0, 2}, {0, 1, 2}⟩, .confirm ⟨{0, 1}, {0, 1, 2}⟩, .addExample 2 ∅,
        .confirm ⟨{2}, {0, 1, 2}⟩, .confirm ⟨{1}, {0, 1, 2}⟩] ∧
      s.bg.length = 4 ∧ relBasis E s.ctx [] = .ok [⟨{2}, {0, 1, 2}⟩, ⟨{1}, {0, 1, 2}⟩] := by
  let c : Ctx (Fin 3) (Fin 3) := ⟨[0], [0, 1, 2], ⟨some 3, [[true, true, true]]⟩⟩
  let E : Env (Fin 3) (Fin 3) := ⟨fun _ => true, .fin 3, .fin 3, .fin 3, fun _ => .fin 3, .fin 3, .fin 3⟩
  refine ⟨c, E, ⟨c, [], [⟨∅, {0, 1, 2}⟩]⟩, _, _, by constructor <;> decide +kernel, rfl, by decide +kernel, ?_, rfl, ?_, rfl,
    by decide +kernel, by decide +kernel⟩
  · simp only [OkRun, Op.Ok, and_true, true_and]
    decide +kernel
  · decide +kernel

end EDB

/-- A session of an exploration (the one created last) without candidates has accepted at least as many implications as the
Duquenne-Guigues basis of the context has. -/
theorem C139_sessions [PyName α] [PyName β] {E : EDB.Env α β} {c : Ctx α β} (h : c.WFw) (hne : c.objects ≠ [])
    {ops : List (E2.Op α β)} (hf : E2.OkRun E ⟨c, []⟩ ops) (s : E2 α β) (hs : s = E2.run ⟨c, []⟩ ops) {k : ℕ}
    (hk : k + 1 = s.sessions.length) (hc : s.candidates E k = .ok []) {bg : List (Imp β)}
    (hbg : s.sessions[k]? = some bg) :
    ∃ res, s.ctx.computeDgBasis E.ordA E.ordO E.ord₀ E.ord [] (fun _ => true) = .ok res ∧ res.length ≤ bg.length := by
  have hc' := fun {P C} => C76_no_candidates_complete h hne hf s hs hk hc hbg (P := P) (C := C)
  subst hs
  have hI := E2.run_inv (E2.start_inv h hne) hf
  obtain ⟨bg', L, h1, -, -, h4, -⟩ := hI.candidates (E := E) hk
  rw [hbg] at h1
  have hb := Option.some.inj h1
  subst hb
  obtain ⟨r, hr⟩ := Ctx.C24_basis_returns hI.wf hI.one E.ordA E.ordO (linClosure E.ord₀ E.ord) []
    (.inr ⟨_, _, rfl, List.Pairwise.nil⟩) (by simp) (fun _ => true)
  refine ⟨r, hr, ?_⟩
  have := C27_basis_minimal hI.wf E.ordA E.ordO _ [] (.inr ⟨_, _, rfl, List.Pairwise.nil⟩) (by simp [ValidBg]) r hr
    (specImps bg)
    (by
      intro pc hpc
      obtain ⟨i, hi, rfl⟩ := List.mem_map.1 hpc
      exact (h4.over i hi).2)
    (by
      intro pc hpc
      obtain ⟨i, hi, rfl⟩ := List.mem_map.1 hpc
      exact h4.valid i hi)
    (by
      intro P C hP hC hh
      have := (hc' hP hC).1 hh
      simpa [specImps] using this)
  simpa [specImps] using this

/-! ### Examples -/

section examples

def cntEnv : EDB.Env (Fin 3) (Fin 3) := ⟨fun _ => true, .fin 3, .fin 3, .fin 3, fun _ => .fin 3, .fin 3, .fin 3⟩
def cntCtx : Ctx (Fin 3) (Fin 3) := ⟨[0, 1], [0, 1, 2], ⟨some 3, [[true, true, true], [true, false, false]]⟩⟩
def cnt0 : EDB (Fin 3) (Fin 3) := ⟨cntCtx, [], [⟨∅, {0}⟩, ⟨{0, 2}, {0, 1, 2}⟩, ⟨{0, 1}, {0, 1, 2}⟩]⟩

theorem cnt_wf : cntCtx.WFw := by constructor <;> decide +kernel

theorem cnt_init : EDB.init cntEnv cntCtx [] = .ok cnt0 := by
  have : EDB.relBasis cntEnv cntCtx [] = .ok cnt0.openImps := by decide +kernel
  unfold EDB.init
  rw [this]; rfl

/-- The three open implications may be confirmed in any order. -/
example (imps : List (Imp (Fin 3))) (h : imps.Perm cnt0.openImps) :
    EDB.init cntEnv cntCtx [] = .ok cnt0 ∧ EDB.OkRun cntEnv cnt0 (imps.map .confirm) ∧
    (EDB.run cntEnv cnt0 (imps.map .confirm)).bg = imps ∧ (EDB.run cntEnv cnt0 (imps.map .confirm)).openImps = [] := by
  have hi := cnt_init
  obtain ⟨h1, h2⟩ := EDB.C139_any_order (E := cntEnv) rfl cnt_wf (by decide) (bg := []) (by simp) (by simp) (by simp) hi
    (ops := []) trivial cnt0 rfl imps
  have hok := h1.2 ⟨h.nodup_iff.2 (by decide +kernel), fun i hi => h.mem_iff.1 hi⟩
  obtain ⟨s', rfl, -, h4, -, h6⟩ := h2 hok
  exact ⟨hi, hok, h4, h6.2 h⟩

/-- With a counterexample to the first of them after the confirmation of the last: at least two confirmations, here four. -/
example : ∃ ops : List (EDB.Op (Fin 3) (Fin 3)), EDB.OkRun cntEnv cnt0 ops ∧ (EDB.confirmed ops).length = 4 ∧
    (EDB.run cntEnv cnt0 ops).openImps = [] ∧
    ∃ res, EDB.relBasis cntEnv (EDB.run cntEnv cnt0 ops).ctx [] = .ok res ∧ res.length = 2 ∧
      res.length ≤ (EDB.confirmed ops).length := by
  have hi := cnt_init
  let ops : List (EDB.Op (Fin 3) (Fin 3)) := [.confirm ⟨{0, 2}, {0, 1, 2}⟩, .confirm ⟨{0, 1}, {0, 1, 2}⟩, .addExample 2 ∅,
    .confirm ⟨{2}, {0, 1, 2}⟩, .confirm ⟨{1}, {0, 1, 2}⟩]
  have hok : EDB.OkRun cntEnv cnt0 ops := by
    simp only [ops, EDB.OkRun, EDB.Op.Ok, and_true, true_and]
    decide +kernel
  have hfin : (EDB.run cntEnv cnt0 ops).openImps = [] := by decide +kernel
  obtain ⟨res, h1, -, h3⟩ := EDB.C139_confirm_calls (E := cntEnv) rfl cnt_wf (by decide) (bg := []) (by simp) (by simp) (by simp)
    hi hok _ rfl hfin
  have hb : EDB.relBasis cntEnv (EDB.run cntEnv cnt0 ops).ctx [] = .ok [⟨{2}, {0, 1, 2}⟩, ⟨{1}, {0, 1, 2}⟩] := by
    decide +kernel
  refine ⟨ops, hok, by decide, hfin, res, h1 cntEnv rfl, ?_, h3⟩
  have h4 := (h1 cntEnv rfl).symm.trans hb
  rw [Except.ok.inj h4]; rfl

/-- The same through two sessions; the first one is given up. -/
example : ∃ ops : List (E2.Op (Fin 3) (Fin 3)), E2.OkRun cntEnv ⟨cntCtx, []⟩ ops ∧
    (E2.run ⟨cntCtx, []⟩ ops).candidates cntEnv 1 = .ok [] ∧
    ∃ res, (E2.run ⟨cntCtx, []⟩ ops).ctx.computeDgBasis cntEnv.ordA cntEnv.ordO cntEnv.ord₀ cntEnv.ord [] (fun _ => true) = .ok res ∧
      res.length ≤ 3 := by
  let ops : List (E2.Op (Fin 3) (Fin 3)) := [.create, .accept 0 ⟨∅, {0}⟩, .create, .accept 1 ⟨{0, 1}, {0, 1, 2}⟩,
    .reject 1 ⟨∅, {0}⟩ 2 ∅, .accept 1 ⟨{2}, {0, 1, 2}⟩, .accept 1 ⟨{1}, {0, 1, 2}⟩]
  have hok : E2.OkRun cntEnv ⟨cntCtx, []⟩ ops := by
    refine ⟨trivial, ⟨[⟨∅, {0}⟩, ⟨{0, 2}, {0, 1, 2}⟩, ⟨{0, 1}, {0, 1, 2}⟩], by decide +kernel, by decide +kernel⟩, trivial,
      ⟨[⟨∅, {0}⟩, ⟨{0, 2}, {0, 1, 2}⟩, ⟨{0, 1}, {0, 1, 2}⟩], by decide +kernel, by decide +kernel⟩, ?_,
      ⟨[⟨{2}, {0, 1, 2}⟩, ⟨{1}, {0, 1, 2}⟩], by decide +kernel, by decide +kernel⟩,
      ⟨[⟨{1}, {0, 1, 2}⟩], by decide +kernel, by decide +kernel⟩, trivial⟩
    show (2 : Fin 3) ∉ _
    decide +kernel
  have hc : (E2.run ⟨cntCtx, []⟩ ops).candidates cntEnv 1 = .ok [] := by decide +kernel
  obtain ⟨res, h1, h2⟩ := C139_sessions (E := cntEnv) cnt_wf (by decide) hok _ rfl (k := 1) (by decide +kernel) hc
    (bg := [⟨{0, 1}, {0, 1, 2}⟩, ⟨{2}, {0, 1, 2}⟩, ⟨{1}, {0, 1, 2}⟩]) (by decide +kernel)
  exact ⟨ops, hok, hc, res, h1, h2⟩

end examples
