/-
Property C136: explorations that take the first open implication accept exactly the canonical basis of the domain.
-/
import Verif.Lemmas.ExploreOrder
import Verif.Props.BasisIntents
import Verif.Props.Numbers

set_option linter.unusedSectionVars false

open Spec Explore

variable {α β : Type} [DecidableEq α] [DecidableEq β] [PyName α] [PyName β]

/-- Sorted lists of implications with the same members are equal. -/
theorem Explore.sorted_eq {atts : List β} {l l' : List (Imp β)} (h : (l.map Imp.premise).Pairwise (LecticLt atts))
    (h' : (l'.map Imp.premise).Pairwise (LecticLt atts)) (hm : ∀ i, i ∈ l ↔ i ∈ l') : l = l' := by
  have nd : ∀ {k : List (Imp β)}, (k.map Imp.premise).Pairwise (LecticLt atts) → k.Nodup := by
    intro k hk
    rw [List.pairwise_map] at hk
    refine hk.imp ?_
    rintro a b hab rfl
    rw [lecticLt_iff] at hab; omega
  exact Ctx.lectic_list_eq h h' ((List.perm_ext_iff_of_nodup (nd h) (nd h')).2 hm)

/-- The candidates computed by the library. -/
theorem Explore.cand_of_basis {c : Ctx α β} (h : c.WFw) {ordA : SetOrder β} {ordO : SetOrder α}
    {close : Finset β → List (Imp β) → Finset β} {bg res : List (Imp β)} (hclose : Ctx.StdClose bg close)
    (hbg : c.ValidBg bg) (hres : c.dgBasisWith ordA ordO close bg (fun _ => true) = .ok res) :
    Cand c.attributes bg (attrClosure c.G c.M c.Inc) res :=
  ⟨(Ctx.dg_main h hclose (fun i hi => (hbg i hi).1) hres).1,
    (Ctx.C26_basis_pseudo_intents h ordA ordO close bg hclose hbg res hres).2.2.2⟩

namespace EDB

open Ctx BExp

theorem simpleClosure_op {M : Finset β} {basis : List (Imp β)} (hb : BExp.Over M basis) :
    IsClosureOp M fun S => simpleClosure S basis := by
  refine ⟨fun s hs => simpleClosure_sub hb hs, fun s _ => (simpleClosure_isLeast s basis).1, fun s t hst _ => ?_,
    fun s _ => ?_⟩
  · exact (simpleClosure_isLeast s basis).2.2 _ (hst.trans (simpleClosure_isLeast t basis).1)
      (simpleClosure_isLeast t basis).2.1
  · refine Finset.Subset.antisymm ?_ (simpleClosure_isLeast _ basis).1
    exact (simpleClosure_isLeast _ basis).2.2 _ (Finset.Subset.refl _) (simpleClosure_isLeast s basis).2.1

theorem XInv.cand {E : EDB.Env α β} (hE : E.cond = fun _ => true) {name : Finset β → α} {basis : List (Imp β)}
    {M : Finset β} {s : EDB α β} (h : XInv E name basis M s) :
    Cand s.ctx.attributes s.bg (attrClosure s.ctx.G s.ctx.M s.ctx.Inc) s.openImps := by
  have hb := h.inv.basis
  unfold relBasis Ctx.computeDgBasis at hb
  rw [hE] at hb
  exact cand_of_basis h.inv.wf (.inr ⟨_, _, rfl, h.dist⟩)
    (fun i hi => ⟨(h.inv.over i hi).2, h.inv.valid i hi⟩) hb

theorem explore_prog {E : EDB.Env α β} (hE : E.cond = fun _ => true) {name : Finset β → α}
    (hname : Function.Injective name) {basis : List (Imp β)} {atts : List β} (hbM : BExp.Over atts.toFinset basis)
    {bg₀ : List (Imp β)} : ∀ {fuel : ℕ} {s : EDB α β} {acc asked : List (Imp β)},
    XInv E name basis atts.toFinset s → s.ctx.attributes = atts → s.bg = bg₀ ++ acc →
    Prog atts bg₀ acc asked (fun S => simpleClosure S basis) (attrClosure s.ctx.G s.ctx.M s.ctx.Inc) →
    (gap atts.toFinset s).card < fuel →
    ∃ s' acc', explore E name basis fuel s = some (s', none) ∧ s'.openImps = [] ∧
      XInv E name basis atts.toFinset s' ∧ s'.ctx.attributes = atts ∧ s'.bg = bg₀ ++ acc' ∧
      Prog atts bg₀ acc' (asked ++ exploreQuestions E name basis fuel s) (fun S => simpleClosure S basis)
        (attrClosure s'.ctx.G s'.ctx.M s'.ctx.Inc) ∧
      acc.length + s.ctx.objects.length + (exploreQuestions E name basis fuel s).length =
        acc'.length + s'.ctx.objects.length := by
  intro fuel
  induction fuel with
  | zero => intro s acc asked _ _ _ _ hf; omega
  | succ fuel ih =>
    intro s acc asked h hat hbg hP hf
    unfold explore exploreQuestions
    have hM : s.ctx.M = atts.toFinset := h.m
    have hcand := h.cand hE
    rw [hat, hbg] at hcand
    rcases ho : s.openImps with _ | ⟨x, l⟩
    · exact ⟨s, acc, rfl, ho, h, hat, hbg, by simpa using hP, by simp⟩
    · have hx : x ∈ s.openImps := by rw [ho]; simp
      rw [ho] at hcand
      obtain ⟨hps, hcx⟩ := (hcand.1 x).1 (by simp)
      rw [IsPseudo] at hps
      dsimp only
      cases hv : expertValid basis x with
      | true =>
        obtain ⟨s', h1, h2, h3, h4, h5⟩ := step_confirm hE h hx hv
        rw [if_pos rfl, h1]
        have ht : attrClosure s.ctx.G s.ctx.M s.ctx.Inc x.premise = simpleClosure x.premise basis := by
          refine Finset.Subset.antisymm ?_ (hP.le _ hps.1)
          rw [← hcx]
          intro m hm
          by_cases hmp : m ∈ x.premise
          · exact (simpleClosure_isLeast x.premise basis).1 hmp
          · have hr : x.reduced ⊆ simpleClosure x.premise basis := of_decide_eq_true hv
            exact hr (Finset.mem_sdiff.2 ⟨hm, hmp⟩)
        have hP' := hP.accept hcand ht
        rw [← h4] at hP'
        obtain ⟨s'', acc', e1, e2, e3, e4, e5, e6, e7⟩ := ih h2 (by rw [h4]; exact hat)
          (by rw [h5, hbg, List.append_assoc]) hP' (by omega)
        refine ⟨s'', acc', e1, e2, e3, e4, e5, by simpa using e6, ?_⟩
        rw [h4] at e7
        simp only [List.length_append, List.length_cons, List.length_nil] at e7 ⊢
        omega
      | false =>
        obtain ⟨s', h1, h2, h3, h4, h5, h6, h7⟩ := step_reject hE hname hbM h hx hv
        rw [if_neg (by simp), h1]
        have hat' : s'.ctx.attributes = atts := by rw [h5]; exact hat
        have hop := h2.inv.wf.attrClosure_op
        rw [show s'.ctx.M = atts.toFinset from h2.m] at hop
        have hopK := h.inv.wf.attrClosure_op
        obtain ⟨hext, hcl, -⟩ := simpleClosure_isLeast x.premise basis
        have hnc : ¬ x.conclusion ⊆ simpleClosure x.premise basis := by
          intro hc
          have : expertValid basis x = true := decide_eq_true (Finset.sdiff_subset.trans hc)
          rw [this] at hv; cases hv
        have hP' : Prog atts bg₀ acc (asked ++ [x]) (fun S => simpleClosure S basis)
            (attrClosure s'.ctx.G s'.ctx.M s'.ctx.Inc) := by
          refine hP.reject hcand (by rw [h2.m]; exact hop) ?_ ?_ ?_
          · intro S hS m hm
            rw [h7]
            refine ⟨hP.le S hS hm, fun hSB => ?_⟩
            exact (simpleClosure_isLeast S basis).2.2 _ hSB hcl hm
          · intro S hS hfix
            refine Finset.Subset.antisymm (fun m hm => ?_) (by rw [h2.m]; exact hop.ext S hS)
            have := ((h7 S m).1 hm).1
            rwa [hfix] at this
          · intro hc
            exact hnc fun m hm => ((h7 _ m).1 (hc hm)).2 hext
        obtain ⟨s'', acc', e1, e2, e3, e4, e5, e6, e7⟩ := ih h2 hat' (by rw [h4, hbg]) hP' (by omega)
        refine ⟨s'', acc', e1, e2, e3, e4, e5, by simpa using e6, ?_⟩
        rw [h6] at e7
        simp only [List.length_cons] at e7 ⊢
        omega

end EDB

open EDB Ctx

/-- `explore()` of `explorationtest.py` with the background `bg`, under the hypotheses of C59: the implications `acc`
confirmed are exactly those of the pseudo-intents of the expert's theory relative to `bg`, in lectic order: this is the
list `get_attribute_implications` computes for the final context with the background `bg`. Every question is recorded:
either it is confirmed or it leads to a new example. The premises of the questions never decrease; for the same
premise the conclusions become smaller, so no question is asked twice. -/
theorem C136_exploration {E : EDB.Env α β} (hE : E.cond = fun _ => true) {name : Finset β → α}
    (hname : Function.Injective name) {c : Ctx α β} (h : c.WFw) (hne : c.objects ≠ []) (hfresh : ∀ P, name P ∉ c.objects)
    {basis bg : List (Imp β)} (hbM : ∀ i ∈ basis, i.premise ⊆ c.M ∧ i.conclusion ⊆ c.M)
    (hbv : ∀ i ∈ basis, HoldsIn c.G c.Inc i.premise i.conclusion)
    (ho : ∀ i ∈ bg, i.premise ⊆ c.M ∧ i.conclusion ⊆ c.M) (hbg : ∀ i ∈ bg, Entails (specImps basis) i.premise i.conclusion)
    (hd : bg.Pairwise fun i j => i.pyEq j = false) :
    ∃ s₀ s acc qs, EDB.init E c bg = .ok s₀ ∧ explore E name basis (2 ^ c.M.card + 1) s₀ = some (s, none) ∧
      s.openImps = [] ∧ s.bg = bg ++ acc ∧
      (∀ E' : EDB.Env α β, (E'.cond = fun _ => true) → relBasis E' s.ctx bg = .ok acc) ∧
      (∀ cl : Finset β → Finset β, (∀ S, S ⊆ c.M → IsLeastClosed (specImps basis) S (cl S)) →
        ∀ i, i ∈ acc ↔ IsPseudo c.M (specImps bg) cl i.premise ∧ i.conclusion = cl i.premise) ∧
      qs = exploreQuestions E name basis (2 ^ c.M.card + 1) s₀ ∧ acc.Sublist qs ∧ qs.Nodup ∧
      qs.Pairwise (AskBefore c.attributes) ∧
      qs.length + c.objects.length = acc.length + s.ctx.objects.length := by
  have hv : ∀ i ∈ bg, HoldsIn c.G c.Inc i.premise i.conclusion := by
    intro i hi
    rw [holdsIn_iff h (ho i hi).2]
    exact hbg i hi _ (closed_attrClosure h hbv (fun i hi => (hbM i hi).2) _) (h.attrClosure_op.ext _ (ho i hi).1)
  obtain ⟨s₀, h1, h2, h3, h4⟩ := EDB.init_ok (E := E) h hne ho hv
  have hX : XInv E name basis c.attributes.toFinset s₀ := by
    refine ⟨h4, by unfold Distinct; rw [h3]; exact hd, by rw [h2], ?_, by rw [h2]; exact hbv, ?_⟩
    · intro S _ hc
      rw [h3, closed_specImps]
      exact fun i hi hp => hbg i hi S hc hp
    · intro P _ hin
      rw [h2] at hin
      exact absurd hin (hfresh P)
  have hcard : (gap c.attributes.toFinset s₀).card < 2 ^ c.M.card + 1 := by
    have : (gap c.attributes.toFinset s₀).card ≤ c.M.powerset.card := by
      apply Finset.card_le_card
      intro S hS
      exact Finset.mem_powerset.2 (mem_gap.1 hS).1
    rw [Finset.card_powerset] at this
    omega
  have hop := simpleClosure_op (M := c.attributes.toFinset) hbM
  have hP : Prog c.attributes bg [] [] (fun S => simpleClosure S basis)
      (attrClosure s₀.ctx.G s₀.ctx.M s₀.ctx.Inc) := by
    rw [h2]
    refine Prog.init hop h.attrClosure_op (fun S hS => ?_) (fun i hi S hS hc hp => ?_)
    · exact (simpleClosure_isLeast S basis).2.2 _ (h.attrClosure_op.ext S hS)
        (closed_attrClosure h hbv (fun i hi => (hbM i hi).2) _)
    · refine hbg i hi S ?_ hp
      have := (simpleClosure_isLeast S basis).2.1
      rwa [show simpleClosure S basis = S from hc] at this
  obtain ⟨s, acc, e1, e2, e3, e4, e5, e6, e7⟩ := explore_prog hE hname hbM hX (by rw [h2]) (by rw [h3]; simp) hP hcard
  have hcand := e3.cand hE
  rw [e4, e5, e2] at hcand
  obtain ⟨d1, d2, d3⟩ := e6.done hcand
  have hMs : s.ctx.M = c.M := e3.m
  rw [List.nil_append] at e6
  refine ⟨s₀, s, acc, _, h1, e1, e2, e5, ?_, ?_, rfl, e6.sub, e6.order.imp fun hab => hab.ne, e6.order, ?_⟩
  · intro E' hE'
    have hvb : s.ctx.ValidBg bg := fun i hi => by
      have hi' : i ∈ s.bg := by rw [e5]; exact List.mem_append_left _ hi
      exact ⟨(e3.inv.over i hi').2, e3.inv.valid i hi'⟩
    have hcl : Ctx.StdClose bg (linClosure E'.ord₀ E'.ord) := .inr ⟨_, _, rfl, hd⟩
    obtain ⟨r, hr⟩ := Ctx.C24_basis_returns e3.inv.wf e3.inv.one E'.ordA E'.ordO (linClosure E'.ord₀ E'.ord) bg
      (.inr ⟨_, _, rfl, List.Pairwise.nil⟩) (fun i hi => (hvb i hi).1) (fun _ => true)
    have hr' : relBasis E' s.ctx bg = .ok r := by
      unfold relBasis Ctx.computeDgBasis; rw [hE']; exact hr
    rw [hr']
    have hc2 := cand_of_basis e3.inv.wf hcl hvb hr
    rw [e4] at hc2
    congr 1
    refine sorted_eq hc2.2 d3 fun i => ?_
    rw [hc2.1, d2]
    have hcongr := IsPseudo.congr_cl (M := c.attributes.toFinset) (L₀ := specImps bg) d1
    rw [hcongr i.premise]
    refine and_congr_right fun hi => ?_
    rw [IsPseudo] at hi
    rw [d1 _ hi.1]
  · intro cl hcl i
    have hcongr : ∀ S, S ⊆ c.M → cl S = simpleClosure S basis := fun S hS =>
      (hcl S hS).unique (simpleClosure_isLeast S basis)
    rw [d2, show c.attributes.toFinset = c.M from rfl, IsPseudo.congr_cl hcongr]
    refine and_congr_right fun hi => ?_
    rw [IsPseudo] at hi
    rw [hcongr _ hi.1]
  · rw [h2] at e7
    simp only [List.length_nil] at e7
    omega

namespace Cli

open Classical in
/-- The attributes common to all elements of the domain that have the attributes `S`. -/
noncomputable def domClosure (holds : β → α → Bool) (atts : List β) (S : Finset β) : Finset β :=
  atts.toFinset.filter fun a => ∀ x, S ⊆ dom holds atts x → holds a x = true

omit [PyName α] [PyName β] in
theorem mem_domClosure {holds : β → α → Bool} {atts : List β} {S : Finset β} {a : β} :
    a ∈ domClosure holds atts S ↔ a ∈ atts.toFinset ∧ ∀ x, S ⊆ dom holds atts x → a ∈ dom holds atts x := by
  unfold domClosure
  rw [@Finset.mem_filter]
  refine and_congr_right fun ha => forall_congr' fun x => imp_congr_right fun _ => ?_
  unfold dom
  rw [List.mem_toFinset, List.mem_filter]
  exact ⟨fun h => ⟨List.mem_toFinset.1 ha, h⟩, fun h => h.2⟩

omit [PyName α] [PyName β] in
theorem domClosure_op (holds : β → α → Bool) (atts : List β) : IsClosureOp atts.toFinset (domClosure holds atts) := by
  have hext : ∀ S, S ⊆ atts.toFinset → S ⊆ domClosure holds atts S :=
    fun S hS a ha => mem_domClosure.2 ⟨hS ha, fun x hx => hx ha⟩
  refine ⟨fun S _ a ha => (mem_domClosure.1 ha).1, hext, ?_, ?_⟩
  · intro S T hST _ a ha
    obtain ⟨h1, h2⟩ := mem_domClosure.1 ha
    exact mem_domClosure.2 ⟨h1, fun x hx => h2 x (hST.trans hx)⟩
  · intro S hS
    refine Finset.Subset.antisymm (fun a ha => ?_) (hext _ fun a ha => (mem_domClosure.1 ha).1)
    obtain ⟨h1, h2⟩ := mem_domClosure.1 ha
    exact mem_domClosure.2 ⟨h1, fun x hx => h2 x fun b hb => (mem_domClosure.1 hb).2 x hx⟩

variable {holds : β → α → Bool} {atts : List β} {s : E2 α β} {bg : List (Imp β)}

theorem CInv.candList (h : CInv holds atts s bg) {E : EDB.Env α β} {L : List (Imp β)} (hL : s.candidates E 0 = .ok L) :
    Cand atts bg (attrClosure s.ctx.G s.ctx.M s.ctx.Inc) L := by
  obtain ⟨L', h1, h2, h3⟩ := h.cand E
  rw [hL] at h1
  obtain rfl := Except.ok.inj h1
  have hb := h2.basis
  unfold EDB.relBasis Ctx.computeDgBasis at hb
  have := cand_of_basis h.inv.wf (.inr ⟨_, _, rfl, h3⟩) (fun i hi => ⟨(h2.over i hi).2, h2.valid i hi⟩) hb
  rwa [h.atts_eq] at this

theorem CInv.le (h : CInv holds atts s bg) (S : Finset β) :
    domClosure holds atts S ⊆ attrClosure s.ctx.G s.ctx.M s.ctx.Inc S := by
  classical
  intro a ha
  obtain ⟨h1, h2⟩ := mem_domClosure.1 ha
  simp only [attrClosure, Finset.mem_filter]
  refine ⟨by unfold Ctx.M; rw [h.atts_eq]; exact h1, fun g hg hS => ?_⟩
  have hg' := List.mem_toFinset.1 hg
  exact (h.obj g hg' a).2 (h2 g fun b hb => (h.obj g hg' b).1 (hS b hb))

theorem explore_prog {E : ℕ → EDB.Env α β} {ans : ℕ → E2 α β → Imp β → CliAnswer α} (ht : Truthful holds atts ans) :
    ∀ {fuel : ℕ} {s : E2 α β} {bg asked : List (Imp β)}, CInv holds atts s bg → todo atts s bg < fuel →
      Prog atts [] bg asked (domClosure holds atts) (attrClosure s.ctx.G s.ctx.M s.ctx.Inc) →
      ∃ s' bg', cliExplore E holds ans fuel s = (s', .finished) ∧ CInv holds atts s' bg' ∧
        (∃ E', s'.candidates E' 0 = .ok []) ∧
        Prog atts [] bg' (asked ++ cliQuestions E holds ans fuel s) (domClosure holds atts)
          (attrClosure s'.ctx.G s'.ctx.M s'.ctx.Inc) ∧
        bg.length + s.ctx.objects.length + (cliQuestions E holds ans fuel s).length =
          bg'.length + s'.ctx.objects.length := by
  intro fuel
  induction fuel with
  | zero => intro s bg asked _ hf; omega
  | succ fuel ih =>
    intro s bg asked h hf hP
    obtain ⟨L, hL, -, -⟩ := h.cand (E fuel)
    have hcand := h.candList hL
    unfold cliExplore cliQuestions
    rw [hL]
    rcases L with _ | ⟨x, L⟩
    · exact ⟨s, bg, rfl, h, ⟨_, hL⟩, by simpa using hP, by simp⟩
    · dsimp only
      obtain ⟨hps, hcx⟩ := (hcand.1 x).1 (by simp)
      rw [IsPseudo] at hps
      have hta := ht fuel s x
      cases ha : ans fuel s x with
      | valid =>
        rw [ha] at hta
        obtain ⟨s', h1, h2, h3, h4⟩ := h.accept hL (by simp) hta
        simp only [h1]
        have hP' := hP.accept hcand (by
          refine Finset.Subset.antisymm ?_ (hP.le _ hps.1)
          rw [← hcx]
          intro m hm
          refine mem_domClosure.2 ⟨?_, fun y hy => hta y hy hm⟩
          rw [hcx] at hm
          exact hP.opK.into _ hps.1 hm)
        rw [← h4] at hP'
        obtain ⟨s'', bg', e1, e2, e3, e4, e5⟩ := ih h2 (by omega) hP'
        refine ⟨s'', bg', e1, e2, e3, by simpa using e4, ?_⟩
        rw [h4] at e5
        simp only [List.length_append, List.length_cons, List.length_nil] at e5 ⊢
        omega
      | counter o =>
        rw [ha] at hta
        obtain ⟨s', h1, h2, h3, h4, h5⟩ := h.reject hL (by simp) hta.1 hta.2
        simp only [h1]
        have hM' : s'.ctx.M = atts.toFinset := by unfold Ctx.M; rw [h2.atts_eq]
        have hop := h2.inv.wf.attrClosure_op
        rw [hM'] at hop
        have hP' : Prog atts [] bg (asked ++ [x]) (domClosure holds atts)
            (attrClosure s'.ctx.G s'.ctx.M s'.ctx.Inc) := by
          refine hP.reject hcand (by rw [hM']; exact hop) (fun S _ => h2.le S) ?_ ?_
          · intro S hS hfix
            refine Finset.Subset.antisymm (fun m hm => ?_) (by rw [hM']; exact hop.ext S hS)
            have := ((h5 S m).1 hm).1
            rwa [hfix] at this
          · intro hc
            exact hta.2 fun m hm => ((h5 _ m).1 (hc hm)).2 hta.1
        obtain ⟨s'', bg', e1, e2, e3, e4, e5⟩ := ih h2 (by omega) hP'
        refine ⟨s'', bg', e1, e2, e3, by simpa using e4, ?_⟩
        rw [h4] at e5
        simp only [List.length_cons] at e5 ⊢
        omega

/-- What the exploration has computed at the end. -/
structure Canonical (holds : β → α → Bool) (atts : List β) (s : E2 α β) (bg qs : List (Imp β)) : Prop where
  sess : s.sessions = [bg]
  basis : ∀ E : EDB.Env α β, s.ctx.computeDgBasis E.ordA E.ordO E.ord₀ E.ord [] (fun _ => true) = .ok bg
  mem : ∀ i, i ∈ bg ↔ IsPseudo atts.toFinset [] (domClosure holds atts) i.premise ∧
    i.conclusion = domClosure holds atts i.premise
  sub : bg.Sublist qs
  nodup : qs.Nodup
  order : qs.Pairwise (AskBefore atts)
  count : qs.length = bg.length + s.ctx.objects.length

theorem CInv.canonical {s : E2 α β} {bg qs : List (Imp β)} (h : CInv holds atts s bg) {E' : EDB.Env α β}
    (hc : s.candidates E' 0 = .ok [])
    (hP : Prog atts [] bg qs (domClosure holds atts) (attrClosure s.ctx.G s.ctx.M s.ctx.Inc))
    (hn : qs.length = bg.length + s.ctx.objects.length) : Canonical holds atts s bg qs := by
  obtain ⟨d1, d2, d3⟩ := hP.done (h.candList hc)
  refine ⟨h.sess, fun E => ?_, d2, hP.sub, hP.order.imp fun hab => hab.ne, hP.order, hn⟩
  have hcl : Ctx.StdClose [] (linClosure E.ord₀ E.ord) := .inr ⟨_, _, rfl, List.Pairwise.nil⟩
  obtain ⟨r, hr⟩ := Ctx.C24_basis_returns h.inv.wf h.inv.one E.ordA E.ordO (linClosure E.ord₀ E.ord) []
    hcl (by simp) (fun _ => true)
  have hc2 := cand_of_basis h.inv.wf hcl (by simp [ValidBg]) hr
  rw [h.atts_eq] at hc2
  unfold Ctx.computeDgBasis
  rw [hr]
  congr 1
  refine sorted_eq hc2.2 d3 fun i => ?_
  rw [hc2.1, d2, IsPseudo.congr_cl d1]
  refine and_congr_right fun hi => ?_
  rw [IsPseudo] at hi
  rw [d1 _ hi.1]

theorem cand_const {atts : List β} (hne : atts ≠ []) :
    Cand atts [] (fun _ => atts.toFinset) [⟨∅, atts.toFinset⟩] := by
  have h0 : atts.toFinset ≠ ∅ := by simpa using hne
  have hps : IsPseudo atts.toFinset (specImps []) (fun _ => atts.toFinset) ∅ := by
    rw [IsPseudo]
    exact ⟨Finset.empty_subset _, by rw [closed_specImps]; simp, h0, fun Q hQ => absurd hQ (Finset.not_ssubset_empty Q)⟩
  refine ⟨fun x => ?_, by simp⟩
  rw [List.mem_singleton]
  constructor
  · rintro rfl; exact ⟨hps, rfl⟩
  · rintro ⟨hx, hc⟩
    have hx' := hx
    rw [IsPseudo] at hx
    have he : x.premise = ∅ := by
      by_contra hn
      have := hx.2.2.2 ∅ (Finset.empty_ssubset.2 (Finset.nonempty_iff_ne_empty.2 hn)) hps
      exact hx.2.2.1 (Finset.Subset.antisymm this hx.1)
    cases x
    simp only at he hc
    rw [he, hc]

end Cli

open Cli

/-- `CommandLineExploration().explore()` with right answers: the implications accepted at the end are exactly the
Duquenne–Guigues basis of the domain, premise and conclusion, listed in the lectic order of the premises; this is the
list `compute_dg_basis` returns for the final context. The number of questions is the number of these implications plus
the number of objects; no question is asked twice. -/
theorem C136_command_line (E : ℕ → EDB.Env α β) (holds : β → α → Bool) {atts : List β} (hnd : atts.Nodup)
    (ans : ℕ → E2 α β → Imp β → CliAnswer α) (ht : Truthful holds atts ans) :
    ∃ s₀ s bg, cliInit atts = .ok s₀ ∧ cliExplore E holds ans (2 ^ atts.length + 2) s₀ = (s, .finished) ∧
      Canonical holds atts s bg (cliQuestions E holds ans (2 ^ atts.length + 2) s₀) := by
  have hinit := cliInit_ok (α := α) hnd
  have hopc : IsClosureOp atts.toFinset fun _ => atts.toFinset :=
    ⟨fun _ _ => Finset.Subset.refl _, fun _ h => h, fun _ _ _ _ => Finset.Subset.refl _, fun _ _ => rfl⟩
  have hop := domClosure_op holds atts
  have hP : Prog atts [] [] [] (domClosure holds atts) (fun _ => atts.toFinset) :=
    Prog.init hop hopc hop.into (by simp)
  by_cases hne : atts = []
  · refine ⟨_, ⟨emptyCtx α atts, [[]]⟩, [], hinit, ?_, rfl, fun E => ?_, fun i => ?_, ?_, ?_, ?_, ?_⟩
    · unfold cliExplore
      rw [cand_none _ hnd [] (.inl ⟨hne, rfl⟩)]
    · exact cand_none E hnd [] (.inl ⟨hne, rfl⟩)
    · constructor
      · simp
      · rintro ⟨hi, -⟩
        rw [IsPseudo] at hi
        refine absurd (Finset.Subset.antisymm ?_ (hop.ext _ hi.1)) hi.2.2.1
        refine (hop.into _ hi.1).trans ?_
        rw [hne]; simp
    all_goals
      unfold cliQuestions
      rw [cand_none _ hnd [] (.inl ⟨hne, rfl⟩)]
      try simp [emptyCtx]
  · rw [hinit]
    have hta := ht (2 ^ atts.length + 1) ⟨emptyCtx α atts, [[]]⟩ ⟨∅, atts.toFinset⟩
    have hcand := cand_const hne
    show ∃ s₀ s bg, _ ∧ cliExplore E holds ans ((2 ^ atts.length + 1) + 1) s₀ = _ ∧
      Canonical holds atts s bg (cliQuestions E holds ans ((2 ^ atts.length + 1) + 1) s₀)
    cases ha : ans (2 ^ atts.length + 1) ⟨emptyCtx α atts, [[]]⟩ ⟨∅, atts.toFinset⟩ with
    | valid =>
      rw [ha] at hta
      have hacc : (⟨emptyCtx α atts, [[]]⟩ : E2 α β).accept 0 ⟨∅, atts.toFinset⟩ =
          (⟨emptyCtx α atts, [[⟨∅, atts.toFinset⟩]]⟩, none) := rfl
      have hq : cliQuestions E holds ans ((2 ^ atts.length + 1) + 1) ⟨emptyCtx α atts, [[]]⟩ =
          [⟨∅, atts.toFinset⟩] := by
        rw [cliQuestions, cand_first _ hnd hne]
        dsimp only
        rw [ha]
        dsimp only
        rw [hacc]
        dsimp only
        rw [cliQuestions, cand_none _ hnd _ (.inr rfl)]
      have hall : ∀ S, S ⊆ atts.toFinset → domClosure holds atts S = atts.toFinset := by
        intro S hS
        refine Finset.Subset.antisymm (hop.into S hS) fun a h => mem_domClosure.2 ⟨h, fun x _ => ?_⟩
        exact hta x (Finset.empty_subset _) h
      refine ⟨_, ⟨emptyCtx α atts, [[⟨∅, atts.toFinset⟩]]⟩, [⟨∅, atts.toFinset⟩], rfl, ?_, rfl, fun E => ?_, ?_, ?_, ?_, ?_, ?_⟩
      · rw [cliExplore, cand_first _ hnd hne]
        dsimp only
        rw [ha]
        dsimp only
        rw [hacc]
        dsimp only
        rw [cliExplore, cand_none _ hnd _ (.inr rfl)]
      · exact cand_first E hnd hne
      · intro i
        rw [hcand.1 i, show specImps ([] : List (Imp β)) = [] from rfl]
        rw [IsPseudo.congr_cl (cl' := domClosure holds atts) fun S hS => (hall S hS).symm]
        refine and_congr_right fun hi => ?_
        rw [IsPseudo] at hi
        rw [hall _ hi.1]
      all_goals
        rw [hq]
        try simp [emptyCtx]
    | counter x =>
      rw [ha] at hta
      obtain ⟨c, h1, h2, h3⟩ := cinv_first holds hnd x
      have hrej := reject_first holds hta h1
      have hcard : todo atts ⟨c, [[]]⟩ [] < 2 ^ atts.length + 1 := by
        have : (EDB.gap atts.toFinset ((⟨c, [[]]⟩ : E2 α β).edb [])).card ≤ atts.toFinset.powerset.card := by
          apply Finset.card_le_card
          intro S hS
          exact Finset.mem_powerset.2 (EDB.mem_gap.1 hS).1
        rw [Finset.card_powerset, List.toFinset_card_of_nodup hnd] at this
        have h4 : todo atts ⟨c, [[]]⟩ [] = (EDB.gap atts.toFinset ((⟨c, [[]]⟩ : E2 α β).edb [])).card := rfl
        omega
      have hM' : c.M = atts.toFinset := by unfold Ctx.M; rw [h2.atts_eq]
      have hopK : IsClosureOp c.M (attrClosure c.G c.M c.Inc) := h2.inv.wf.attrClosure_op
      have hP' : Prog atts [] [] [⟨∅, atts.toFinset⟩] (domClosure holds atts) (attrClosure c.G c.M c.Inc) := by
        refine hP.reject (x := ⟨∅, atts.toFinset⟩) (L := []) hcand (by rw [← hM']; exact hopK) (fun S _ => h2.le S) ?_ ?_
        · rintro S - rfl
          rw [← hM']
          exact Finset.Subset.antisymm (hopK.into _ (Finset.Subset.refl _)) (hopK.ext _ (Finset.Subset.refl _))
        · intro hc
          classical
          apply hta.2
          intro a ha
          have hm := hc ha
          simp only [attrClosure, Finset.mem_filter] at hm
          have hxo : x ∈ c.objects := by rw [h3]; simp
          exact (h2.obj x hxo a).1 (hm.2 x (List.mem_toFinset.2 hxo) (by simp))
      obtain ⟨s, bg, e1, e2, ⟨E', e3⟩, e4, e5⟩ := Cli.explore_prog (E := E) ht h2 hcard hP'
      refine ⟨_, s, bg, rfl, ?_, ?_⟩
      · rw [cliExplore, cand_first _ hnd hne]
        dsimp only
        rw [ha]
        dsimp only
        rw [hrej]
        exact e1
      · rw [cliQuestions, cand_first _ hnd hne]
        dsimp only
        rw [ha]
        dsimp only
        rw [hrej]
        refine e2.canonical e3 e4 ?_
        have e5' : 0 + c.objects.length + (cliQuestions E holds ans (2 ^ atts.length + 1) ⟨c, [[]]⟩).length =
          bg.length + s.ctx.objects.length := e5
        rw [h3] at e5'
        simp only [List.length_cons, List.length_nil] at e5' ⊢
        omega

/-! ### The numbers of the example -/

namespace Cli

theorem num_mem (a : NumAttr) : a ∈ numAttrs.toFinset := by cases a <;> decide

theorem num_dom {a : NumAttr} {n : ℤ} : a ∈ dom NumAttr.holds numAttrs n ↔ a.holds n = true := by
  unfold dom
  rw [List.mem_toFinset, List.mem_filter]
  exact ⟨fun h => h.2, fun h => ⟨List.mem_toFinset.1 (num_mem a), h⟩⟩

/-- The four implications between the predicates. -/
def numBasis : List (Imp NumAttr) :=
  [⟨{.dividedByThree, .factorial}, {.even, .dividedByThree, .factorial}⟩,
   ⟨{.odd, .factorial}, {.odd, .prime, .factorial}⟩,
   ⟨{.even, .dividedByThree, .prime, .factorial}, {.even, .odd, .dividedByThree, .prime, .factorial}⟩,
   ⟨{.even, .odd}, {.even, .odd, .dividedByThree, .prime, .factorial}⟩]

theorem num_even_odd (n : ℤ) : ¬ (NumAttr.even.holds n = true ∧ NumAttr.odd.holds n = true) := by
  rintro ⟨h1, h2⟩
  rw [(C91_divisible n).1] at h1
  rw [(C91_divisible n).2.1] at h2
  exact (Int.not_even_iff_odd.2 h2) h1

theorem num_odd_factorial (n : ℤ) (ho : NumAttr.odd.holds n = true) (hf : NumAttr.factorial.holds n = true) : n = 1 := by
  rw [(C91_divisible n).2.1, Int.odd_iff] at ho
  obtain ⟨k, hk⟩ := (C91_factorial n).1 hf
  by_cases hk2 : 2 ≤ k
  · have h2 : 2 ∣ k.factorial := Nat.dvd_factorial (by omega) hk2
    omega
  · rcases k with _ | _ | k
    · exact hk
    · exact hk
    · omega

theorem num_three_factorial (n : ℤ) (h3 : NumAttr.dividedByThree.holds n = true)
    (hf : NumAttr.factorial.holds n = true) : NumAttr.even.holds n = true ∧ 6 ≤ n := by
  rw [(C91_divisible n).2.2] at h3
  obtain ⟨k, hk⟩ := (C91_factorial n).1 hf
  have hk3 : 3 ≤ k := by
    by_contra hlt
    have : k = 0 ∨ k = 1 ∨ k = 2 := by omega
    rcases this with rfl | rfl | rfl <;> · rw [hk] at h3; revert h3; decide
  constructor
  · rw [(C91_divisible n).1, even_iff_two_dvd, hk]
    exact_mod_cast Nat.dvd_factorial (by omega) (by omega)
  · have := Nat.factorial_le hk3
    rw [hk]
    exact_mod_cast this

theorem num_respects (n : ℤ) : Closed (specImps numBasis) (dom NumAttr.holds numAttrs n) := by
  rw [closed_specImps]
  intro i hi
  have key : ∀ P : Finset NumAttr, P ⊆ dom NumAttr.holds numAttrs n → ∀ a ∈ P, a.holds n = true :=
    fun P hP a ha => num_dom.1 (hP ha)
  simp only [numBasis, List.mem_cons, List.not_mem_nil, or_false] at hi
  rcases hi with rfl | rfl | rfl | rfl <;> intro hp <;> have hp := key _ hp
  · have h3 := hp .dividedByThree (by simp)
    have hf := hp .factorial (by simp)
    intro a ha
    simp only [Finset.mem_insert, Finset.mem_singleton] at ha
    rcases ha with rfl | rfl | rfl
    · exact num_dom.2 (num_three_factorial n h3 hf).1
    · exact num_dom.2 h3
    · exact num_dom.2 hf
  · have ho := hp .odd (by simp)
    have hf := hp .factorial (by simp)
    intro a ha
    simp only [Finset.mem_insert, Finset.mem_singleton] at ha
    rcases ha with rfl | rfl | rfl
    · exact num_dom.2 ho
    · exact num_dom.2 (C91_prime_violated n (by rw [num_odd_factorial n ho hf]; decide))
    · exact num_dom.2 hf
  · exfalso
    have h3 := num_three_factorial n (hp .dividedByThree (by simp)) (hp .factorial (by simp))
    have h2 := ((C91_divisible n).1.1 h3.1).two_dvd
    exact (numIsPrime_iff n).1 (hp .prime (by simp)) 2 (by omega) (by omega) h2
  · exact absurd ⟨hp .even (by simp), hp .odd (by simp)⟩ (num_even_odd n)

/-- Six numbers that suffice. -/
def numCtx : Ctx (Fin 6) NumAttr :=
  ⟨[0, 1, 2, 3, 4, 5], numAttrs, ⟨some 5,
    [[true, false, true, true, false], [false, true, false, true, true], [true, false, false, true, true],
     [false, true, true, true, false], [true, false, true, false, true], [false, true, true, false, false]]⟩⟩

/-- The numbers that are the objects of `numCtx`. -/
def numVal (g : Fin 6) : ℤ := [0, 1, 2, 3, 6, 9].getD g.val 0

def numOrder : SetOrder NumAttr :=
  ⟨fun s => numAttrs.filter (· ∈ s), fun _ => List.Nodup.filter _ (by decide), fun s x => by
    rw [List.mem_filter]
    exact ⟨fun h => by simpa using h.2, fun h => ⟨List.mem_toFinset.1 (num_mem x), by simpa using h⟩⟩⟩

theorem numCtx_wf : numCtx.WFw := by constructor <;> decide +kernel

theorem numCtx_inc (g : Fin 6) (a : NumAttr) : numCtx.Inc g a ↔ a.holds (numVal g) = true := by
  rw [← numCtx_wf.incB]
  revert g
  cases a <;> decide +kernel

theorem numCtx_closure (S : Finset NumAttr) :
    attrClosure numCtx.G numCtx.M numCtx.Inc S = domClosure NumAttr.holds numAttrs S := by
  have hS : S ⊆ numCtx.M := fun a _ => num_mem a
  have hop := numCtx_wf.attrClosure_op
  have hd := domClosure_op NumAttr.holds numAttrs
  apply Finset.Subset.antisymm
  · have hfix : ∀ T ∈ numAttrs.toFinset.powerset, (∀ i ∈ numBasis, i.premise ⊆ T → i.conclusion ⊆ T) →
        numCtx.aclF T ⊆ T := by decide +kernel
    intro a ha
    refine mem_domClosure.2 ⟨num_mem a, fun n hn => ?_⟩
    have hc := (closed_specImps _ _).1 (num_respects n)
    have h2 := hfix _ (Finset.mem_powerset.2 fun a _ => num_mem a) hc
    rw [numCtx_wf.aclF_eq] at h2
    exact h2 (hop.mono _ _ hn (fun a _ => num_mem a) ha)
  · classical
    intro a ha
    obtain ⟨-, h2⟩ := mem_domClosure.1 ha
    simp only [attrClosure, Finset.mem_filter]
    refine ⟨num_mem a, fun g _ hg => ?_⟩
    rw [numCtx_inc]
    exact num_dom.1 (h2 (numVal g) fun b hb => num_dom.2 ((numCtx_inc g b).1 (hg b hb)))

end Cli

/-- The exploration of the example, over all integers and with right answers, always accepts the same four
implications in the same order, whichever counterexamples are given. -/
theorem C136_numbers [PyName ℤ] [PyName NumAttr] (E : ℕ → EDB.Env ℤ NumAttr)
    (ans : ℕ → E2 ℤ NumAttr → Imp NumAttr → CliAnswer ℤ) (ht : Truthful NumAttr.holds numAttrs ans) :
    ∃ s₀ s, cliInit numAttrs = .ok s₀ ∧ cliExplore E NumAttr.holds ans 34 s₀ = (s, .finished) ∧
      s.sessions = [numBasis] ∧
      (cliQuestions E NumAttr.holds ans 34 s₀).length = 4 + s.ctx.objects.length := by
  obtain ⟨s₀, s, bg, h1, h2, h3⟩ := C136_command_line E NumAttr.holds (atts := numAttrs) (by decide) ans ht
  have hres : numCtx.dgBasisWith numOrder (SetOrder.fin 6) (linClosure numOrder fun _ => numOrder) []
      (fun _ => true) = .ok numBasis := by decide +kernel
  have hc := cand_of_basis numCtx_wf (.inr ⟨_, _, rfl, List.Pairwise.nil⟩) (by simp [ValidBg]) hres
  have hbg : bg = numBasis := by
    have hsort : (bg.map Imp.premise).Pairwise (LecticLt numAttrs) := by
      rw [List.pairwise_map]
      refine (h3.order.sublist h3.sub).imp_of_mem ?_
      intro a b ha hb hab
      rcases hab with hab | ⟨he, hss⟩
      · exact hab
      · rw [((h3.mem a).1 ha).2, ((h3.mem b).1 hb).2, he] at hss
        exact absurd (Finset.Subset.refl _) hss.2
    refine sorted_eq hsort hc.2 fun i => ?_
    rw [h3.mem, hc.1, funext numCtx_closure]
    rfl
  refine ⟨s₀, s, h1, h2, by rw [h3.sess, hbg], ?_⟩
  have := h3.count
  rw [hbg] at this
  exact this

/-! ### Examples -/

/-- The table of `TrianglesTest` with numbers as names; the example for the premise `P` has the number
`3 + ∑ 2 ^ i, i ∈ P`. -/
def triCtx : Ctx (Fin 19) (Fin 4) := ⟨[0, 1, 2], [0, 1, 2, 3], triangles.nd⟩

def triName (P : Finset (Fin 4)) : Fin 19 :=
  Fin.ofNat 19 (3 + (((List.finRange 4).filter (· ∈ P)).map fun i => 2 ^ i.val).sum)

theorem triName_facts : Function.Injective triName ∧ ∀ P, triName P ∉ triCtx.objects := by
  have h1 : ∀ P ∈ (Finset.univ : Finset (Fin 4)).powerset, ∀ Q ∈ (Finset.univ : Finset (Fin 4)).powerset,
    triName P = triName Q → P = Q := by decide +kernel
  have h2 : ∀ P ∈ (Finset.univ : Finset (Fin 4)).powerset, triName P ∉ triCtx.objects := by decide +kernel
  have hm : ∀ P : Finset (Fin 4), P ∈ (Finset.univ : Finset (Fin 4)).powerset :=
    fun P => Finset.mem_powerset.2 (Finset.subset_univ P)
  exact ⟨fun P Q => h1 P (hm P) Q (hm Q), fun P => h2 P (hm P)⟩

def triEnv : EDB.Env (Fin 19) (Fin 4) :=
  { cond := fun _ => true, ordA := .fin 4, ordO := .fin 19, ord₀ := .fin 4, ord := fun _ => .fin 4,
    ordI := .fin 4, ordE := .fin 19 }

/-- The exploration of `TrianglesTest`: five questions, two of them confirmed, three new examples. The premise `{0}` is
asked twice, the second time with a smaller conclusion. -/
example : (EDB.init triEnv triCtx []).toOption.map (exploreQuestions triEnv triName triangleBasis 17) =
    some [⟨{2, 3}, {0, 1, 2, 3}⟩, ⟨{1, 3}, {0, 1, 2, 3}⟩, ⟨{1, 2}, {0, 1, 2, 3}⟩, ⟨{0}, {0, 1, 2, 3}⟩, ⟨{0}, {0, 1, 2}⟩] := by
  decide +kernel

example : ((EDB.init triEnv triCtx []).toOption.bind (explore triEnv triName triangleBasis 17)).map
    (fun r => (r.1.ctx.objects.length, r.1.bg)) = some (6, [⟨{2, 3}, {0, 1, 2, 3}⟩, ⟨{0}, {0, 1, 2}⟩]) := by
  decide +kernel

/-- The run of C92 over `0, 1, 2`: `{} → {0, 1}` and `{0} → {0, 1}` are answered by 0 and 1, `{1} → {0, 1}` is
accepted. -/
example : ∃ s₀, cliInit (α := Fin 3) ([0, 1] : List (Fin 2)) = .ok s₀ ∧
    cliQuestions (fun _ => E2.witEnv) (fun (a : Fin 2) (x : Fin 3) => decide (a.val < x.val)) cliWitAns 6 s₀ =
      [⟨∅, {0, 1}⟩, ⟨{1}, {0, 1}⟩, ⟨{0}, {0, 1}⟩] :=
  ⟨_, rfl, by decide +kernel⟩
