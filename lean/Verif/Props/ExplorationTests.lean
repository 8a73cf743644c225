/-
Property C174: what fca/algorithms/exploration_/explorationtest.py checks for one context, for every database and every
history of calls.
-/
import Verif.Props.ExploreCount
import Verif.Model.ExplorationCalls

set_option linter.unusedSectionVars false

open Spec

variable {α β : Type} [DecidableEq α] [DecidableEq β] [PyName α] [PyName β]

namespace EDB

open Ctx BExp

/-- The states considered: a database on a context with objects and a background that holds and does not repeat itself,
after any calls in which only open implications are confirmed and edits do not use names of other rows or columns; calls
that raise are included. -/
def Reached (E : Env α β) (s : EDB α β) : Prop :=
  ∃ (c : Ctx α β) (bg : List (Imp β)) (s₀ : EDB α β) (ops : List (Op α β)), c.WFw ∧ c.objects ≠ [] ∧
    (∀ i ∈ bg, i.premise ⊆ c.M ∧ i.conclusion ⊆ c.M) ∧ (∀ i ∈ bg, HoldsIn c.G c.Inc i.premise i.conclusion) ∧
    bg.Pairwise (fun i j => i.pyEq j = false) ∧ init E c bg = .ok s₀ ∧ OkRun E s₀ ops ∧ s = run E s₀ ops

theorem Reached.inv {E : Env α β} (hE : E.cond = fun _ => true) {s : EDB α β} (h : Reached E s) : Inv E s ∧ Distinct s := by
  obtain ⟨c, bg, s₀, ops, h1, h2, h3, h4, h5, h6, h7, rfl⟩ := h
  obtain ⟨s', k1, -, k3, k4⟩ := init_ok (E := E) h1 h2 h3 h4
  rw [k1] at h6; cases h6
  have hd' : Distinct s₀ := by unfold Distinct; rw [k3]; exact h5
  exact ⟨run_inv k4 h7, run_distinct hE k4 hd' h7⟩

theorem Inv.sorted {E : Env α β} (hE : E.cond = fun _ => true) {t : EDB α β} (ht : Inv E t) (hdt : Distinct t) :
    (t.openImps.map Imp.premise).Pairwise (LecticLt t.ctx.attributes) := by
  have hb := ht.basis
  unfold relBasis Ctx.computeDgBasis at hb
  rw [hE] at hb
  rw [List.pairwise_map]
  exact (dg_main ht.wf (.inr ⟨_, _, rfl, hdt⟩) (fun i hi => (ht.over i hi).2) hb).2

theorem Inv.nodup {E : Env α β} (hE : E.cond = fun _ => true) {t : EDB α β} (ht : Inv E t) (hdt : Distinct t) :
    t.openImps.Nodup := by
  have := ht.sorted hE hdt
  rw [List.pairwise_map] at this
  refine this.imp ?_
  rintro a b hab rfl
  rw [lecticLt_iff] at hab
  omega

/-- Databases with the same attributes and background have the same open implications exactly if the closures agree. -/
theorem open_eq_iff {E E' : Env α β} (hE : E.cond = fun _ => true) (hE' : E'.cond = fun _ => true) {s t : EDB α β}
    (hs : Inv E s) (ht : Inv E' t) (ds : Distinct s) (dt : Distinct t) (hM : t.ctx.attributes = s.ctx.attributes)
    (hb : t.bg = s.bg) :
    t.openImps = s.openImps ↔
      ∀ S, S ⊆ s.ctx.M → attrClosure t.ctx.G t.ctx.M t.ctx.Inc S = attrClosure s.ctx.G s.ctx.M s.ctx.Inc S := by
  have hMM : t.ctx.M = s.ctx.M := by unfold Ctx.M; rw [hM]
  constructor
  · intro he S hS
    have b1 := hs.basis
    have b2 := ht.basis
    unfold relBasis Ctx.computeDgBasis at b1 b2
    rw [hE] at b1; rw [hE'] at b2
    have l1 := C25_basis_closure hs.wf _ _ _ s.bg (.inr ⟨_, _, rfl, ds⟩)
      (fun i hi => ⟨(hs.over i hi).2, hs.valid i hi⟩) _ b1 S hS
    have l2 := C25_basis_closure ht.wf _ _ _ t.bg (.inr ⟨_, _, rfl, dt⟩)
      (fun i hi => ⟨(ht.over i hi).2, ht.valid i hi⟩) _ b2 S (hMM ▸ hS)
    rw [he, hb] at l2
    exact l2.unique l1
  · intro hcl
    have k := ht.sorted hE' dt
    rw [hM] at k
    refine Explore.sorted_eq k (hs.sorted hE ds) fun x => ?_
    rw [hMM] at hcl
    rw [hs.pseudo hE ds, ht.pseudo hE' dt, hb, hMM, IsPseudo.congr_cl hcl]
    refine and_congr_right fun hp => ?_
    rw [IsPseudo] at hp
    rw [hcl _ hp.1]

/-- `add_example` with a new name, for every set: it is refused exactly if the set violates the background, without any
effect; otherwise there is one object more, with the attributes of the context in the set. The open implications stay the
same exactly if these attributes are the attributes common to some objects. -/
theorem C174_add_example {E : Env α β} (hE : E.cond = fun _ => true) {s : EDB α β} (h : Reached E s) {n : α}
    (hn : n ∉ s.ctx.objects) (B : Finset β) :
    ((∃ i ∈ s.bg, i.premise ⊆ B ∧ ¬ i.conclusion ⊆ B) → s.addExample E n B = (s, some .illegalContextModification)) ∧
    ((∀ i ∈ s.bg, i.premise ⊆ B → i.conclusion ⊆ B) → ∃ s', s.addExample E n B = (s', none) ∧ Reached E s' ∧
      s'.bg = s.bg ∧ s'.ctx.objects = s.ctx.objects ++ [n] ∧ s'.ctx.attributes = s.ctx.attributes ∧
      (∀ o a, s'.ctx.Inc o a ↔ (o = n ∧ a ∈ s.ctx.attributes ∧ a ∈ B) ∨ (o ≠ n ∧ s.ctx.Inc o a)) ∧
      (s'.openImps = s.openImps ↔ IsIntent s.ctx.G s.ctx.M s.ctx.Inc (B ∩ s.ctx.M))) := by
  obtain ⟨hi, hd⟩ := h.inv hE
  refine ⟨fun ⟨i, hib, hp, hc⟩ => ?_, fun hB => ?_⟩
  · have : s.checkIntent B = false := by
      rw [← Bool.not_eq_true, checkIntent_iff]
      exact fun hh => hc (hh i hib hp)
    unfold addExample
    rw [this]
    rfl
  · have hck := checkIntent_iff.2 hB
    obtain ⟨t, h1, h2, h3, h4, h5, h6⟩ := hi.toGood.addExample hn hck
    obtain ⟨s', k1, k2, k3, k4⟩ := h3.modifier (E := E)
    have e : s.addExample E n B = (s', none) := by
      unfold addExample
      rw [hck, if_neg hn, h1]
      exact k1
    have hr : Reached E s' := by
      obtain ⟨c, bg, s₀, ops, p1, p2, p3, p4, p5, p6, p7, rfl⟩ := h
      refine ⟨c, bg, s₀, ops ++ [.addExample n B], p1, p2, p3, p4, p5, p6, ?_, ?_⟩
      · clear hi hd hn hB hck h1 k1 e h2 h4 h5 h6 p6
        induction ops generalizing s₀ with
        | nil => exact ⟨trivial, trivial⟩
        | cons op ops ih => exact ⟨p7.1, ih _ p7.2⟩
      · unfold run at e ⊢
        rw [List.foldl_append]
        show s' = (addExample E _ n B).1
        rw [e]
    have hatt : s'.ctx.attributes = s.ctx.attributes := by rw [k2, h5]
    have hinc : ∀ o a, s'.ctx.Inc o a ↔ (o = n ∧ a ∈ s.ctx.attributes ∧ a ∈ B) ∨ (o ≠ n ∧ s.ctx.Inc o a) := by
      rw [k2]; exact h6
    have hobj : s'.ctx.objects = s.ctx.objects ++ [n] := by rw [k2, h4]
    refine ⟨s', e, hr, by rw [k3, h2], hobj, hatt, hinc, ?_⟩
    rw [open_eq_iff hE hE hi k4 hd (hr.inv hE).2 hatt (by rw [k3, h2])]
    have hMM : s'.ctx.M = s.ctx.M := by unfold Ctx.M; rw [hatt]
    have key : ∀ S, S ⊆ s.ctx.M → ∀ m, m ∈ attrClosure s'.ctx.G s'.ctx.M s'.ctx.Inc S ↔
        m ∈ attrClosure s.ctx.G s.ctx.M s.ctx.Inc S ∧ (S ⊆ B → m ∈ B) := by
      intro S hS m
      classical
      simp only [attrClosure, Finset.mem_filter, hMM]
      have hG : ∀ g, g ∈ s'.ctx.G ↔ g ∈ s.ctx.G ∨ g = n := by
        intro g; simp [Ctx.G, hobj, or_comm]
      have hSa : ∀ x ∈ S, x ∈ s.ctx.attributes := fun x hx => List.mem_toFinset.1 (hS hx)
      have hng : n ∉ s.ctx.G := fun hh => hn (List.mem_toFinset.1 hh)
      constructor
      · rintro ⟨hm, hg⟩
        have hma : m ∈ s.ctx.attributes := List.mem_toFinset.1 hm
        refine ⟨⟨hm, fun g hgG hgS => ?_⟩, fun hSB => ?_⟩
        · have hgn : g ≠ n := fun hh => hng (hh ▸ hgG)
          have := hg g ((hG g).2 (.inl hgG)) fun x hx => (hinc g x).2 (.inr ⟨hgn, hgS x hx⟩)
          exact (((hinc g m).1 this).resolve_left fun hh => hgn hh.1).2
        · have := hg n ((hG n).2 (.inr rfl)) fun x hx => (hinc n x).2 (.inl ⟨rfl, hSa x hx, hSB hx⟩)
          exact (((hinc n m).1 this).resolve_right fun hh => hh.1 rfl).2.2
      · rintro ⟨⟨hm, hg⟩, hB'⟩
        have hma : m ∈ s.ctx.attributes := List.mem_toFinset.1 hm
        refine ⟨hm, fun g hgG hgS => ?_⟩
        rcases (hG g).1 hgG with hgG' | rfl
        · have hgn : g ≠ n := fun hh => hng (hh ▸ hgG')
          refine (hinc g m).2 (.inr ⟨hgn, hg g hgG' fun x hx => ?_⟩)
          exact (((hinc g x).1 (hgS x hx)).resolve_left fun hh => hgn hh.1).2
        · refine (hinc g m).2 (.inl ⟨rfl, hma, hB' fun x hx => ?_⟩)
          exact (((hinc g x).1 (hgS x hx)).resolve_right fun hh => hh.1 rfl).2.2
    rw [isIntent_iff]
    have hop := hi.wf.attrClosure_op
    constructor
    · intro hcl
      refine ⟨Finset.inter_subset_right, Finset.Subset.antisymm (fun m hm => ?_) (hop.ext _ Finset.inter_subset_right)⟩
      have hm' := hm
      rw [← hcl _ Finset.inter_subset_right, key _ Finset.inter_subset_right] at hm
      exact Finset.mem_inter.2 ⟨hm.2 Finset.inter_subset_left, hop.into _ Finset.inter_subset_right hm'⟩
    · rintro ⟨-, hcl⟩ S hS
      ext m
      rw [key S hS]
      refine ⟨fun hh => hh.1, fun hh => ⟨hh, fun hSB => ?_⟩⟩
      have := hop.mono _ _ (Finset.subset_inter hSB hS) Finset.inter_subset_right hh
      rw [hcl] at this
      exact (Finset.mem_inter.1 this).1

/-- `confirm_implication` of an open implication: it goes to the end of the base and leaves the open ones, which are
otherwise as before; the context stays. -/
theorem C174_confirm {E : Env α β} (hE : E.cond = fun _ => true) {s : EDB α β} (h : Reached E s) {i : Imp β}
    (hi : i ∈ s.openImps) :
    ∃ s', s.confirmAll E [i] = (s', none) ∧ s'.ctx = s.ctx ∧ s'.bg = s.bg ++ [i] ∧ s'.openImps = s.openImps.erase i ∧
      s'.openImps.length + 1 = s.openImps.length := by
  obtain ⟨hI, hd⟩ := h.inv hE
  obtain ⟨s', h1, h2, h3, h4, h5, h6⟩ := confirm_step hE hI hd hi
  have he : s'.openImps = s.openImps.erase i := by
    rw [h6, (hI.nodup hE hd).erase_eq_filter]
    congr 1
    funext x
    by_cases hx : x = i <;> simp [hx]
  have herr : (s.exec E (.confirm i)).2 = none := by
    cases he2 : (s.exec E (.confirm i)).2 with
    | none => rfl
    | some e =>
      have := (exec_step (E := E) hI (op := (.confirm i : Op α β)) hi).err e he2
      rw [h1] at this
      rw [this] at h5
      simpa using congrArg List.length h5
  refine ⟨s', Prod.ext h1 herr, h4, h5, he, ?_⟩
  rw [he, List.length_erase_of_mem hi]
  have := List.length_pos_of_mem hi
  omega

/-- `reject_implication` of an open implication with one example under a new name, for every set given by the expert: it is
refused without any effect if the set respects the implication or violates the background; otherwise the example is added
and the implication is no longer open. -/
theorem C174_reject {E : Env α β} (hE : E.cond = fun _ => true) {s : EDB α β} (h : Reached E s) {i : Imp β}
    (hi : i ∈ s.openImps) {n : α} (hn : n ∉ s.ctx.objects) (B : Finset β) :
    ((i.premise ⊆ B → i.conclusion ⊆ B) → s.rejectWith E i [(n, B)] = (s, some .notCounterexample)) ∧
    (i.premise ⊆ B → ¬ i.conclusion ⊆ B →
      ((∃ j ∈ s.bg, j.premise ⊆ B ∧ ¬ j.conclusion ⊆ B) →
        s.rejectWith E i [(n, B)] = (s, some .illegalContextModification)) ∧
      ((∀ j ∈ s.bg, j.premise ⊆ B → j.conclusion ⊆ B) → ∃ s', s.rejectWith E i [(n, B)] = (s', none) ∧ s'.bg = s.bg ∧
        s'.ctx.objects = s.ctx.objects ++ [n] ∧ i ∉ s'.openImps)) := by
  obtain ⟨c1, c2⟩ := C174_add_example hE h hn B
  have hrej : i.isRespected B = false → s.rejectWith E i [(n, B)] = s.addExample E n B := by
    intro hr
    unfold rejectWith
    simp only [hr, Bool.false_eq_true, if_false, List.foldl_cons, List.foldl_nil]
    rfl
  refine ⟨fun hr => ?_, fun hp hc => ?_⟩
  · unfold rejectWith
    simp only [(i.isRespected_iff' B).2 hr, if_true]
  · have hr : i.isRespected B = false := by
      rw [← Bool.not_eq_true, i.isRespected_iff' B]
      exact fun hh => hc (hh hp)
    rw [hrej hr]
    refine ⟨c1, fun hB => ?_⟩
    obtain ⟨s', e1, e2, e3, e4, e5, e6, -⟩ := c2 hB
    refine ⟨s', e1, e3, e4, fun hin => ?_⟩
    obtain ⟨hI, -⟩ := h.inv hE
    obtain ⟨hI', -⟩ := e2.inv hE
    have hv := hI'.openValid.1 i hin n (List.mem_toFinset.2 (by rw [e4]; simp))
    have ho := hI.openValid.2 i hi
    apply hc
    intro m hm
    have := hv (fun x hx => (e6 n x).2 (.inl ⟨rfl, List.mem_toFinset.1 (ho.1 hx), hp hx⟩)) m hm
    exact (((e6 n m).1 this).resolve_right fun hh => hh.1 rfl).2.2

/-- The two experts of the tests, in every state: the counterexample of the perfect expert, which knows no implication, is
accepted for every open implication; that of the foolish expert, premise and conclusion, never. -/
theorem C174_experts {E : Env α β} (hE : E.cond = fun _ => true) {s : EDB α β} (h : Reached E s) {i : Imp β}
    (hi : i ∈ s.openImps) {n : α} (hn : n ∉ s.ctx.objects) :
    (∃ s', s.rejectWith E i [(n, simpleClosure i.premise [])] = (s', none) ∧ s'.bg = s.bg ∧
      s'.ctx.objects = s.ctx.objects ++ [n] ∧ i ∉ s'.openImps) ∧
    s.rejectWith E i [(n, i.premise ∪ i.reduced)] = (s, some .notCounterexample) := by
  obtain ⟨hI, hd⟩ := h.inv hE
  obtain ⟨p1, p2⟩ := (hI.pseudo hE hd i).1 hi
  rw [IsPseudo] at p1
  constructor
  · have hs : simpleClosure i.premise [] = i.premise :=
      Finset.Subset.antisymm ((simpleClosure_isLeast i.premise []).2.2 _ (Finset.Subset.refl _)
        (by rw [closed_specImps]; simp)) (simpleClosure_isLeast i.premise []).1
    rw [hs]
    refine ((C174_reject hE h hi hn i.premise).2 (Finset.Subset.refl _) fun hc => ?_).2 fun j hj => ?_
    · rw [p2] at hc
      exact p1.2.2.1 (Finset.Subset.antisymm hc (hI.wf.attrClosure_op.ext _ p1.1))
    · exact (closed_specImps _ _).1 p1.2.1 j hj
  · refine (C174_reject hE h hi hn _).1 fun _ => ?_
    unfold Imp.reduced
    rw [Finset.union_sdiff_self_eq_union]
    exact Finset.subset_union_right

/-- The examples of the tests, in every state: premise and conclusion of an open implication are accepted as an example and
change neither the base nor the open implications; the premise of an implication of the base is refused, unless the
conclusion is part of it. -/
theorem C174_examples {E : Env α β} (hE : E.cond = fun _ => true) {s : EDB α β} (h : Reached E s) {n : α}
    (hn : n ∉ s.ctx.objects) :
    (∀ i ∈ s.openImps, ∃ s', s.addExample E n (i.premise ∪ i.reduced) = (s', none) ∧ s'.bg = s.bg ∧
      s'.ctx.objects = s.ctx.objects ++ [n] ∧ s'.openImps = s.openImps) ∧
    ∀ i ∈ s.bg, ¬ i.conclusion ⊆ i.premise → s.addExample E n i.premise = (s, some .illegalContextModification) := by
  obtain ⟨hI, hd⟩ := h.inv hE
  constructor
  · intro i hi
    obtain ⟨p1, p2⟩ := (hI.pseudo hE hd i).1 hi
    rw [IsPseudo] at p1
    have hop := hI.wf.attrClosure_op
    have hu : i.premise ∪ i.reduced = attrClosure s.ctx.G s.ctx.M s.ctx.Inc i.premise := by
      unfold Imp.reduced
      rw [Finset.union_sdiff_self_eq_union, p2]
      exact Finset.union_eq_right.2 (hop.ext _ p1.1)
    rw [hu]
    have hB : ∀ j ∈ s.bg, j.premise ⊆ attrClosure s.ctx.G s.ctx.M s.ctx.Inc i.premise →
        j.conclusion ⊆ attrClosure s.ctx.G s.ctx.M s.ctx.Inc i.premise := by
      intro j hj hp
      have := hI.valid j hj
      rw [holdsIn_iff hI.wf (hI.over j hj).2] at this
      have h2 := hop.mono _ _ hp (hop.into _ p1.1)
      rw [hop.idem _ p1.1] at h2
      exact this.trans h2
    obtain ⟨s', e1, -, e3, e4, -, -, e7⟩ := (C174_add_example hE h hn _).2 hB
    refine ⟨s', e1, e3, e4, e7.2 ?_⟩
    rw [Finset.inter_eq_left.2 (hop.into _ p1.1), isIntent_iff]
    exact ⟨hop.into _ p1.1, hop.idem _ p1.1⟩
  · intro i hi hc
    exact (C174_add_example hE h hn i.premise).1 ⟨i, hi, Finset.Subset.refl _, hc⟩

/-- `test_all` of the triangles: if the expert knows the implications `basis` and nothing is confirmed at the start, the base
at the end is never longer than `basis`, and every question that is not confirmed gives one new object. -/
theorem C174_base_length {E : EDB.Env α β} (hE : E.cond = fun _ => true) {name : Finset β → α}
    (hname : Function.Injective name) {c : Ctx α β} (h : c.WFw) (hne : c.objects ≠ []) (hfresh : ∀ P, name P ∉ c.objects)
    {basis : List (Imp β)} (hbM : ∀ i ∈ basis, i.premise ⊆ c.M ∧ i.conclusion ⊆ c.M)
    (hbv : ∀ i ∈ basis, HoldsIn c.G c.Inc i.premise i.conclusion) :
    ∃ s₀ s, EDB.init E c [] = .ok s₀ ∧ explore E name basis (2 ^ c.M.card + 1) s₀ = some (s, none) ∧ s.openImps = [] ∧
      s.bg.length ≤ basis.length ∧
      (exploreQuestions E name basis (2 ^ c.M.card + 1) s₀).length + c.objects.length =
        s.bg.length + s.ctx.objects.length := by
  obtain ⟨s₀, s, acc, qs, h1, h2, h3, h4, -, h6, h7, hsub, hnd, -, h8⟩ := C136_exploration hE hname h hne hfresh hbM hbv
    (bg := []) (by simp) (by simp) (by simp)
  rw [List.nil_append] at h4
  refine ⟨s₀, s, h1, h2, h3, ?_, ?_⟩
  · have hop := simpleClosure_op (M := c.M) hbM
    have hm := h6 (fun S => simpleClosure S basis) fun S _ => simpleClosure_isLeast S basis
    have hn : (acc.map Imp.premise).Nodup := by
      refine (hnd.sublist hsub).map_on fun x hx y hy hxy => ?_
      have e1 := ((hm x).1 hx).2
      have e2 := ((hm y).1 hy).2
      obtain ⟨xp, xc⟩ := x
      obtain ⟨yp, yc⟩ := y
      simp only at hxy e1 e2
      rw [e1, e2, hxy]
    have := pseudo_length_le (L₀ := specImps []) hop (acc.map Imp.premise) hn (fun P hP => ?_) (specImps basis) (fun S hS he => ?_)
      fun S hS hc => ?_
    · rw [h4]
      simpa [specImps] using this
    · obtain ⟨i, hi, rfl⟩ := List.mem_map.1 hP
      exact ((hm i).1 hi).1
    · have := (simpleClosure_isLeast S basis).2.1
      rwa [show simpleClosure S basis = S from he] at this
    · refine Finset.Subset.antisymm ((simpleClosure_isLeast S basis).2.2 S (Finset.Subset.refl _) ?_)
        (simpleClosure_isLeast S basis).1
      rwa [show specImps ([] : List (Imp β)) = [] from rfl, List.append_nil] at hc
  · rw [h4, ← h7]; exact h8

/-! ### The context of the tests -/

/-- explorationtest.py:46-54. -/
def testCtx : Ctx (Fin 5) (Fin 4) := ⟨[0, 1, 2, 3], [0, 1, 2, 3], ⟨some 4, [[true, false, false, true],
  [true, false, true, false], [false, true, true, false], [false, true, true, true]]⟩⟩

theorem testCtx_wf : testCtx.WFw := by constructor <;> decide +kernel

def testEnv : Env (Fin 5) (Fin 4) :=
  ⟨fun _ => true, .fin 4, .fin 5, .fin 4, fun _ => .fin 4, .fin 4, .fin 5⟩

/-- explorationtest.py:55: the database of the tests. -/
def test0 : EDB (Fin 5) (Fin 4) := ⟨testCtx, [], [⟨{2, 3}, {1, 2, 3}⟩, ⟨{1}, {1, 2}⟩, ⟨{0, 1, 2}, {0, 1, 2, 3}⟩]⟩

theorem test0_init : init testEnv testCtx [] = .ok test0 := by
  have : relBasis testEnv testCtx [] = .ok test0.openImps := by decide +kernel
  unfold init
  rw [this]; rfl

/-- The states of the tests: at the start, and after the first confirmation; three and two implications are open, the name
of the fifth object is new. -/
example : Reached testEnv test0 ∧ Reached testEnv (run testEnv test0 [.confirm ⟨{2, 3}, {1, 2, 3}⟩]) ∧
    (4 : Fin 5) ∉ test0.ctx.objects ∧ test0.openImps.length = 3 ∧
    (run testEnv test0 [.confirm ⟨{2, 3}, {1, 2, 3}⟩]).openImps.length = 2 ∧
    (run testEnv test0 [.confirm ⟨{2, 3}, {1, 2, 3}⟩]).bg.length = 1 := by
  have hop : Op.Ok test0 (.confirm ⟨{2, 3}, {1, 2, 3}⟩ : Op (Fin 5) (Fin 4)) := List.mem_cons_self
  refine ⟨⟨testCtx, [], test0, [], testCtx_wf, by decide, by simp, by simp, by simp, test0_init, trivial, rfl⟩,
    ⟨testCtx, [], test0, [.confirm ⟨{2, 3}, {1, 2, 3}⟩], testCtx_wf, by decide, by simp, by simp, by simp, test0_init,
      ⟨hop, trivial⟩, rfl⟩, by decide, rfl, ?_, ?_⟩
  · decide +kernel
  · decide +kernel

/-- `test_correct_implication_reject`, `test_incorrect_implication_reject`. -/
example : (test0.rejectWith testEnv ⟨{2, 3}, {1, 2, 3}⟩ [(4, simpleClosure {2, 3} [])]).1.ctx.objects = [0, 1, 2, 3, 4] ∧
    (test0.rejectWith testEnv ⟨{2, 3}, {1, 2, 3}⟩ [(4, {2, 3} ∪ {1})]).2 = some .notCounterexample := by
  decide +kernel

/-- An example that is no intent changes the open implications. -/
example : (test0.addExample testEnv 4 {2, 3}).1.openImps ≠ test0.openImps := by decide +kernel

end EDB
