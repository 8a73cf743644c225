/-
Properties of partial contexts: C70, C71, C80 - C84.
-/
import Mathlib.Algebra.Order.BigOperators.Group.Finset
import Verif.Model.PartialContext
import Verif.SpecPartial
import Verif.Lemmas.DGEmpty
import Verif.Lemmas.DGContext
import Verif.Lemmas.BasicExploration
import Verif.Props.Reduce

set_option linter.unusedSectionVars false

open Spec Ctx

variable {α β : Type} [DecidableEq α] [DecidableEq β]

/-! ### C70 -/

section
variable [PyName α] [PyName β]

/-- Tables with at least one cell raise TypeError, tables without rows IndexError. -/
theorem C70_constructor_violated (xt qt : List (List Bool)) (objs : List α) (atts : List β) (m : ℕ)
    (hx : xt.length = objs.length) (hq : qt.length = objs.length) (hxw : ∀ r ∈ xt, r.length = m)
    (hqw : ∀ r ∈ qt, r.length = m) :
    (objs ≠ [] → 0 < m → PCtx.make xt qt objs atts = .error .typeError) ∧
    (objs = [] → PCtx.make xt qt objs atts = .error .indexError) := by
  constructor
  · intro hne hm
    match xt, qt, hx, hq, hxw, hqw with
    | [], _, hx, _, _, _ => exact absurd (List.length_eq_zero_iff.1 (by simpa using hx.symm)) hne
    | _, [], _, hq, _, _ => exact absurd (List.length_eq_zero_iff.1 (by simpa using hq.symm)) hne
    | l0 :: l, r0 :: r, hx, hq, hxw, hqw =>
      have h1 : l0.length = m := hxw l0 (by simp)
      have h2 : r0.length = m := hqw r0 (by simp)
      have h3 : (l0 :: l).length * m ≠ 0 := by
        simp; omega
      unfold PCtx.make subseteqTable
      rw [if_neg (by rw [hx, hq]; simp)]
      simp only [if_false, h1, h2, ne_eq, not_true_eq_false]
      rw [if_neg h3]
      rfl
  · rintro rfl
    obtain rfl : xt = [] := List.length_eq_zero_iff.1 hx
    obtain rfl : qt = [] := List.length_eq_zero_iff.1 hq
    rfl

/-- Tables of different shape are refused with ValueError: different numbers of rows, or first rows of different length. -/
theorem C70_constructor_shapes (xt qt : List (List Bool)) (objs : List α) (atts : List β)
    (h : xt.length ≠ qt.length ∨ (xt ≠ [] ∧ (xt.headD []).length ≠ (qt.headD []).length)) :
    PCtx.make xt qt objs atts = .error .valueError := by
  by_cases hl : xt.length ≠ qt.length
  · simp only [PCtx.make, subseteqTable, if_pos hl]
    rfl
  · match xt, qt, h, hl with
    | [], _, h, hl => exact (h.elim (fun h => absurd h hl) fun h => absurd rfl h.1)
    | _ :: _, [], h, hl => simp at hl
    | l0 :: l, r0 :: r, h, hl =>
      have h' : l0.length ≠ r0.length := by
        rcases h with h | h
        · exact absurd h hl
        · simpa using h.2
      simp only [PCtx.make, subseteqTable, if_neg hl, if_pos h']
      rfl

/-- Shapes that differ. -/
example : (PCtx.make [[true]] [[true, false]] [['x']] [['a']] : Py (PCtx (List Char) (List Char))) = .error .valueError :=
  C70_constructor_shapes _ _ _ _ (by decide)

/-- The constructor succeeds exactly for tables with at least one row and without columns. -/
theorem C70_constructor_partial (xt qt : List (List Bool)) (objs : List α) (atts : List β) :
    (∃ p, PCtx.make xt qt objs atts = .ok p) ↔
      objs ≠ [] ∧ atts = [] ∧ xt = List.replicate objs.length [] ∧ qt = List.replicate objs.length [] := by
  constructor
  · rintro ⟨p, hp⟩
    unfold PCtx.make at hp
    obtain ⟨b, h1, hp⟩ := bind_ok hp
    have hb : b = true ∧ ∃ l0 l, xt = l0 :: l ∧ l0 = [] := by
      unfold subseteqTable at h1
      split at h1
      · simp at h1
      · split at h1
        · simp at h1
        · simp at h1
        · split at h1
          · simp at h1
          · split at h1
            · rename_i h0
              exact ⟨by simpa using h1.symm, _, _, rfl, by simpa using h0⟩
            · simp at h1
    obtain ⟨rfl, l0, l, rfl, rfl⟩ := hb
    simp only [if_true] at hp
    obtain ⟨cx, h2, hp⟩ := bind_ok hp
    obtain ⟨cq, h3, hp⟩ := bind_ok hp
    have hdx : ¬(([] :: l).length ≠ objs.length ∨ ∃ r ∈ ([] :: l : List (List Bool)), r.length ≠ atts.length) :=
      fun hbad => by rw [Ctx.make_err hbad] at h2; cases h2
    have hdq : ¬(qt.length ≠ objs.length ∨ ∃ r ∈ qt, r.length ≠ atts.length) :=
      fun hbad => by rw [Ctx.make_err hbad] at h3; cases h3
    push Not at hdx hdq
    have hatts : atts = [] := List.length_eq_zero_iff.1 (hdx.2 [] (by simp)).symm
    subst hatts
    refine ⟨?_, rfl, ?_, ?_⟩
    · rintro rfl
      simp at hdx
    · rw [List.eq_replicate_iff]
      exact ⟨hdx.1, fun r hr => List.length_eq_zero_iff.1 (hdx.2 r hr)⟩
    · rw [List.eq_replicate_iff]
      exact ⟨hdq.1, fun r hr => List.length_eq_zero_iff.1 (hdq.2 r hr)⟩
  · rintro ⟨hne, rfl, rfl, rfl⟩
    obtain ⟨n, hn⟩ : ∃ n, objs.length = n + 1 := by
      cases objs with
      | nil => exact absurd rfl hne
      | cons o os => exact ⟨os.length, rfl⟩
    have hs : subseteqTable (List.replicate objs.length []) (List.replicate objs.length []) = .ok true := by
      rw [hn, List.replicate_succ]
      unfold subseteqTable
      simp
    unfold PCtx.make
    rw [hs, py_ok_bind, if_pos rfl, Ctx.make_ok (by simp) (by intro r hr; rw [List.eq_of_mem_replicate hr]; rfl)]
    exact ⟨_, rfl⟩

example : PCtx.make [[true, false]] [[true, true]] ["o".toList] ["a".toList, "b".toList] = .error .typeError := by
  decide +kernel

example : (PCtx.make [[]] [[]] ["o".toList] ([] : List (List Char))).toBool = true := by decide +kernel

end

/-! ### Well-formed partial contexts -/

theorem mem_up1 {c : Ctx α β} (h : c.WFw) {o : α} {a : β} : a ∈ c.upF {o} ↔ c.Inc o a := by
  rw [h.mem_upF]
  simp only [Finset.mem_singleton, forall_eq, and_iff_right_iff_imp]
  exact fun hi => hi.mem.2

namespace PCtx

/-- Both tables have the same names, and everything known is possible. -/
structure WF (p : PCtx α β) : Prop where
  xw : p.x.WFw
  qw : p.q.WFw
  xo : p.x.objects = p.objects
  qo : p.q.objects = p.objects
  xa : p.x.attributes = p.attributes
  qa : p.q.attributes = p.attributes
  le : ∀ o a, p.x.Inc o a → p.q.Inc o a

/-- What is known and what is possible for an object. -/
def xI (p : PCtx α β) (o : α) : Finset β := p.x.upF {o}
def qI (p : PCtx α β) (o : α) : Finset β := p.q.upF {o}

theorem WF.mem_xI {p : PCtx α β} (h : p.WF) {o : α} {a : β} : a ∈ p.xI o ↔ p.x.Inc o a := mem_up1 h.xw
theorem WF.mem_qI {p : PCtx α β} (h : p.WF) {o : α} {a : β} : a ∈ p.qI o ↔ p.q.Inc o a := mem_up1 h.qw

theorem WF.xI_le {p : PCtx α β} (h : p.WF) (o : α) : p.xI o ⊆ p.qI o := by
  intro a ha
  rw [h.mem_qI]
  exact h.le o a (h.mem_xI.1 ha)

theorem WF.qI_sub {p : PCtx α β} (h : p.WF) (o : α) : p.qI o ⊆ p.attributes.toFinset := by
  intro a ha
  rw [← h.qa]
  exact p.q.upF_subset _ ha

/-- The operator computed by `xq_aclosure`. -/
def xqF (p : PCtx α β) (s : Finset β) : Finset β := p.q.upF (p.x.downF s)

theorem WF.mem_xqF {p : PCtx α β} (h : p.WF) {s : Finset β} {a : β} :
    a ∈ p.xqF s ↔ a ∈ p.attributes ∧ ∀ o ∈ p.objects, s ⊆ p.xI o → a ∈ p.qI o := by
  unfold xqF
  rw [h.qw.mem_upF, h.qa]
  refine and_congr_right fun _ => ⟨fun hh o ho hs => ?_, fun hh o ho => ?_⟩
  · rw [h.mem_qI]
    apply hh
    rw [h.xw.mem_downF, h.xo]
    exact ⟨ho, fun b hb => h.mem_xI.1 (hs hb)⟩
  · rw [h.xw.mem_downF, h.xo] at ho
    exact h.mem_qI.1 (hh o ho.1 fun b hb => h.mem_xI.2 (ho.2 b hb))

theorem WF.xqAclosure {p : PCtx α β} (h : p.WF) (hne : p.objects ≠ []) (ordA : SetOrder β) (ordO : SetOrder α)
    {s : Finset β} (hs : s ⊆ p.attributes.toFinset) : p.xqAclosure ordA ordO s = .ok (p.xqF s) := by
  unfold PCtx.xqAclosure
  rw [h.xw.coAprime (h.xw.cols (by rw [h.xo]; exact hne)), py_ok_bind, h.qw.coOprime, ordO.toFinset, ordA.toFinset]
  · rfl
  · intro o ho
    rw [ordO.mem] at ho
    have := List.mem_toFinset.1 (p.x.downF_subset _ ho)
    rw [h.qo, ← h.xo]; exact this
  · intro a ha
    rw [h.xa]
    exact List.mem_toFinset.1 (hs ((ordA.mem s a).1 ha))

theorem WF.setup {p : PCtx α β} (h : p.WF) (hne : p.objects ≠ []) (ordA : SetOrder β) (ordO : SetOrder α) :
    DGSetup p.attributes (p.xqAclosure ordA ordO) p.xqF simpleClosure where
  nodup := h.xa ▸ h.xw.anodup
  ac := fun _ hs => h.xqAclosure hne ordA ordO hs
  ext := by
    intro s hs a ha
    rw [h.mem_xqF]
    exact ⟨List.mem_toFinset.1 (hs ha), fun o _ hso => h.xI_le o (hso ha)⟩
  into := fun s _ a ha => List.mem_toFinset.2 (h.mem_xqF.1 ha).1
  cext := fun s L => (simpleClosure_isLeast s L).1
  cinto := fun s L => simpleClosure_into s _ L

end PCtx

/-! ### C71 -/

/-- The basis of a partial context with at least one object is computed, its implications are compatible with every
object, and no object refutes them. -/
theorem C71_sound {p : PCtx α β} (h : p.WF) (hne : p.objects ≠ []) (ordA : SetOrder β) (ordO : SetOrder α)
    {bg : List (Imp β)} (hbg : ∀ i ∈ bg, i.conclusion ⊆ p.attributes.toFinset) (cond : Finset β → Bool) :
    ∃ res, p.dgBasis ordA ordO bg cond = .ok res ∧ ∀ i ∈ res, ∀ o ∈ p.objects, ∀ xi qi,
      p.x.objectIntent o = .ok xi → p.q.objectIntent o = .ok qi →
        ¬ Refutes xi qi i.premise i.conclusion ∧ i.isRespectedPartial (xi, qi) = true := by
  obtain ⟨res, -, h2, h3, -⟩ := dgBasis_generic (h.setup hne ordA ordO) hbg cond
  refine ⟨res, h2, fun i hi o ho xi qi hx hq => ?_⟩
  rw [h.xw.objectIntent (by rw [h.xo]; exact ho)] at hx
  rw [h.qw.objectIntent (by rw [h.qo]; exact ho)] at hq
  obtain rfl : p.xI o = xi := by injection hx
  obtain rfl : p.qI o = qi := by injection hq
  have key : i.premise ⊆ p.xI o → i.conclusion ⊆ p.qI o := by
    intro hp a ha
    rw [(h3 i hi).2.1] at ha
    exact (h.mem_xqF.1 ha).2 o ho hp
  refine ⟨fun hr => hr.2 (key hr.1), ?_⟩
  simp only [Imp.isRespectedPartial, Bool.or_eq_true, decide_eq_true_eq, Bool.not_eq_true', decide_eq_false_iff_not]
  by_cases hp : i.premise ⊆ p.xI o
  · left
    exact Finset.Subset.trans (by unfold Imp.reduced; exact Finset.sdiff_subset) (key hp)
  · exact .inr hp

/-- If the basis is empty, every implication between attributes that does not follow from the background is refuted. -/
theorem C71_empty_complete {p : PCtx α β} (h : p.WF) (hne : p.objects ≠ []) (ordA : SetOrder β) (ordO : SetOrder α)
    {bg : List (Imp β)} (hbg : ∀ i ∈ bg, i.conclusion ⊆ p.attributes.toFinset)
    (he : p.dgBasis ordA ordO bg (fun _ => true) = .ok []) {P C : Finset β} (hP : P ⊆ p.attributes.toFinset)
    (hC : C ⊆ p.attributes.toFinset) (hn : ¬ Entails (specImps bg) P C) :
    ∃ o ∈ p.objects, ∃ xi qi, p.x.objectIntent o = .ok xi ∧ p.q.objectIntent o = .ok qi ∧ Refutes xi qi P C := by
  have hcl := dgBasis_empty (h.setup hne ordA ordO) hbg (fun s _ => simpleClosure_isLeast s bg) he
  set T := simpleClosure P bg with hT
  have hlc := simpleClosure_isLeast P bg
  have hTM : T ⊆ p.attributes.toFinset := simpleClosure_into P _ bg hP hbg
  have hTc := hcl T hTM hlc.2.1
  have hCT : ¬ C ⊆ T := by
    intro hsub
    exact hn fun S hS hPS => hsub.trans (hlc.2.2 S hPS hS)
  obtain ⟨m, hm, hmT⟩ := Finset.not_subset.1 hCT
  rw [← hTc, h.mem_xqF] at hmT
  have : ¬ ∀ o ∈ p.objects, T ⊆ p.xI o → m ∈ p.qI o := fun hh => hmT ⟨List.mem_toFinset.1 (hC hm), hh⟩
  push Not at this
  obtain ⟨o, ho, hsub, hq⟩ := this
  refine ⟨o, ho, p.xI o, p.qI o, h.xw.objectIntent (by rw [h.xo]; exact ho),
    h.qw.objectIntent (by rw [h.qo]; exact ho), hlc.1.trans hsub, fun hh => hq (hh hm)⟩

/-! ### C80 -/

namespace PCtx

variable [PyName α] [PyName β]

/-- One object is completed. -/
structure Completed (ord : SetOrder β) (L : List (Imp β)) (p p' : PCtx α β) (D : List α) : Prop where
  wf : p'.WF
  objs : p'.objects = p.objects
  atts : p'.attributes = p.attributes
  xI : ∀ o ∈ D, p'.xI o = simpleClosure (p.xI o) L
  qI : ∀ o ∈ D, p'.qI o = (p.qI o).filter fun a =>
    a ∈ simpleClosure (p.xI o) L ∨ simpleClosure (simpleClosure (p.xI o) L ∪ {a}) L ⊆ p.qI o
  xI' : ∀ o, o ∉ D → p'.xI o = p.xI o
  qI' : ∀ o, o ∉ D → p'.qI o = p.qI o

theorem set_returns {c : Ctx α β} (h : c.WFw) {o : α} (ho : o ∈ c.objects) {B : Finset β} (ord : SetOrder β)
    (hB : B ⊆ c.attributes.toFinset) : ∃ c', c.setObjectIntent (ord.enum B) o = (c', none) ∧ c'.WFw ∧
      c'.objects = c.objects ∧ c'.attributes = c.attributes ∧ c'.upF {o} = B ∧ ∀ o', o' ≠ o → c'.upF {o'} = c.upF {o'} := by
  obtain ⟨c', hc'⟩ := h.stores.returns (op := .setObjectIntent (ord.enum B) o)
    (by intro he; have : c.objects = [] := he; rw [this] at ho; simp at ho)
    ⟨fun a ha => List.mem_toFinset.1 (hB ((ord.mem _ _).1 ha)), ho⟩
  obtain ⟨h1, h2, h3, h4⟩ := BExp.set_object_ctx h hc'
  refine ⟨c', hc', h1, h2, h3, ?_, ?_⟩
  · ext a
    rw [mem_up1 h1, h4]
    simp only [true_and, ne_eq, not_true_eq_false, false_and, or_false, ord.mem]
    exact ⟨fun hh => hh.2.2, fun ha => ⟨ho, List.mem_toFinset.1 (hB ha), ha⟩⟩
  · intro o' hne
    ext a
    rw [mem_up1 h1, h4, mem_up1 h]
    simp [hne]

theorem wf_of {p p' : PCtx α β} (h : p.WF) (hx : p'.x.WFw) (hq : p'.q.WFw) (h1 : p'.objects = p.objects)
    (h2 : p'.attributes = p.attributes) (h3 : p'.x.objects = p.x.objects) (h4 : p'.x.attributes = p.x.attributes)
    (h5 : p'.q.objects = p.q.objects) (h6 : p'.q.attributes = p.q.attributes) (hle : ∀ o, p'.xI o ⊆ p'.qI o) : p'.WF where
  xw := hx
  qw := hq
  xo := by rw [h3, h1, h.xo]
  qo := by rw [h5, h1, h.qo]
  xa := by rw [h4, h2, h.xa]
  qa := by rw [h6, h2, h.qa]
  le := fun o a ha => (mem_up1 hq).1 (hle o ((mem_up1 hx).2 ha))

theorem WF.completeOne {p : PCtx α β} (h : p.WF) (ord : SetOrder β) (L : List (Imp β)) {o : α} (ho : o ∈ p.objects) :
    (simpleClosure (p.xI o) L ⊆ p.qI o → ∃ p', p.completeOne ord L o = (p', none) ∧ Completed ord L p p' [o]) ∧
    (¬ simpleClosure (p.xI o) L ⊆ p.qI o → p.completeOne ord L o = (p, some .valueError)) := by
  have hx : p.x.objectIntent o = .ok (p.xI o) := h.xw.objectIntent (by rw [h.xo]; exact ho)
  have hq : p.q.objectIntent o = .ok (p.qI o) := h.qw.objectIntent (by rw [h.qo]; exact ho)
  constructor
  · intro hc
    obtain ⟨x', e1, a1, a2, a3, a4, a5⟩ := set_returns h.xw (o := o) (by rw [h.xo]; exact ho) ord
      (B := simpleClosure (p.xI o) L) (by rw [h.xa]; exact hc.trans (h.qI_sub o))
    obtain ⟨q', e2, b1, b2, b3, b4, b5⟩ := set_returns h.qw (o := o) (by rw [h.qo]; exact ho) ord
      (B := (p.qI o).filter fun a => a ∈ simpleClosure (p.xI o) L ∨
        simpleClosure (simpleClosure (p.xI o) L ∪ {a}) L ⊆ p.qI o)
      (by rw [h.qa]; exact (Finset.filter_subset _ _).trans (h.qI_sub o))
    refine ⟨⟨p.objects, p.attributes, x', q'⟩, ?_, ?_⟩
    · unfold PCtx.completeOne
      simp only [hx, hq, hc, not_true_eq_false, if_false, e1, e2]
    · refine ⟨wf_of h a1 b1 rfl rfl a2 a3 b2 b3 ?_, rfl, rfl, ?_, ?_, ?_, ?_⟩
      · intro o'
        by_cases he : o' = o
        · subst he
          show x'.upF {o'} ⊆ q'.upF {o'}
          rw [a4, b4]
          intro a ha
          rw [Finset.mem_filter]
          exact ⟨hc ha, .inl ha⟩
        · show x'.upF {o'} ⊆ q'.upF {o'}
          rw [a5 o' he, b5 o' he]
          exact h.xI_le o'
      · intro o' ho'
        rw [List.mem_singleton] at ho'
        subst ho'
        exact a4
      · intro o' ho'
        rw [List.mem_singleton] at ho'
        subst ho'
        exact b4
      · intro o' ho'
        exact a5 o' (by simpa using ho')
      · intro o' ho'
        exact b5 o' (by simpa using ho')
  · intro hc
    unfold PCtx.completeOne
    simp only [hx, hq, hc, not_false_eq_true, if_true]

/-- The loop completes the objects before the first inconsistent one. -/
theorem WF.completeLoop {p : PCtx α β} (h : p.WF) (ord : SetOrder β) (L : List (Imp β)) :
    ∀ os : List α, os.Nodup → (∀ o ∈ os, o ∈ p.objects) →
      ∃ p' D, D <+: os ∧ Completed ord L p p' D ∧ (∀ o ∈ D, simpleClosure (p.xI o) L ⊆ p.qI o) ∧
        ((D = os ∧ p.completeLoop ord L os = (p', none)) ∨
        (∃ o rest, os = D ++ o :: rest ∧ ¬ simpleClosure (p.xI o) L ⊆ p.qI o ∧
          p.completeLoop ord L os = (p', some .valueError))) := by
  intro os
  induction os generalizing p with
  | nil =>
    intro _ _
    exact ⟨p, [], List.prefix_rfl, ⟨h, rfl, rfl, by simp, by simp, fun _ _ => rfl, fun _ _ => rfl⟩, by simp,
      .inl ⟨rfl, rfl⟩⟩
  | cons o os ih =>
    intro hnd hos
    have hstep := h.completeOne ord L (hos o (by simp))
    by_cases hc : simpleClosure (p.xI o) L ⊆ p.qI o
    · obtain ⟨p₁, e1, c1⟩ := hstep.1 hc
      have hnd' := List.nodup_cons.1 hnd
      obtain ⟨p', D, hpre, c2, hall, hend⟩ := ih c1.wf hnd'.2 (fun o' ho' => by rw [c1.objs]; exact hos o' (by simp [ho']))
      have hDo : ∀ o' ∈ D, o' ≠ o := by
        rintro o' ho' rfl
        exact hnd'.1 (hpre.subset ho')
      have hoD : o ∉ D := fun hh => hDo o hh rfl
      have hx1 : ∀ o', o' ≠ o → p₁.xI o' = p.xI o' := fun o' hne => c1.xI' o' (by simpa using hne)
      have hq1 : ∀ o', o' ≠ o → p₁.qI o' = p.qI o' := fun o' hne => c1.qI' o' (by simpa using hne)
      refine ⟨p', o :: D, List.cons_prefix_cons.2 ⟨rfl, hpre⟩, ?_, ?_, ?_⟩
      · refine ⟨c2.wf, by rw [c2.objs, c1.objs], by rw [c2.atts, c1.atts], ?_, ?_, ?_, ?_⟩
        · intro o' ho'
          by_cases he : o' = o
          · subst he
            rw [c2.xI' o' hoD, c1.xI o' (by simp)]
          · rw [c2.xI o' ((List.mem_cons.1 ho').resolve_left he), hx1 o' he]
        · intro o' ho'
          by_cases he : o' = o
          · subst he
            rw [c2.qI' o' hoD, c1.qI o' (by simp)]
          · rw [c2.qI o' ((List.mem_cons.1 ho').resolve_left he), hx1 o' he, hq1 o' he]
        · intro o' ho'
          rw [List.mem_cons, not_or] at ho'
          rw [c2.xI' o' ho'.2, hx1 o' ho'.1]
        · intro o' ho'
          rw [List.mem_cons, not_or] at ho'
          rw [c2.qI' o' ho'.2, hq1 o' ho'.1]
      · intro o' ho'
        rcases List.mem_cons.1 ho' with rfl | ho'
        · exact hc
        · rw [← hx1 o' (hDo o' ho'), ← hq1 o' (hDo o' ho')]
          exact hall o' ho'
      · simp only [PCtx.completeLoop, e1]
        rcases hend with ⟨rfl, he⟩ | ⟨o', rest, rfl, hn, he⟩
        · exact .inl ⟨rfl, he⟩
        · refine .inr ⟨o', rest, rfl, ?_, he⟩
          have hne : o' ≠ o := by
            rintro rfl
            exact hnd'.1 (by simp)
          rw [← hx1 o' hne, ← hq1 o' hne]
          exact hn
    · refine ⟨p, [], by simp, ⟨h, rfl, rfl, by simp, by simp, fun _ _ => rfl, fun _ _ => rfl⟩, by simp,
        .inr ⟨o, os, rfl, hc, ?_⟩⟩
      simp only [PCtx.completeLoop, hstep.2 hc]

end PCtx

/-- `Admissible` sets exist iff the closure of what is known is possible. -/
theorem admissible_iff {x q : Finset β} {L : List (Imp β)} :
    (∃ T, Admissible x q (specImps L) T) ↔ simpleClosure x L ⊆ q := by
  have h := simpleClosure_isLeast x L
  constructor
  · rintro ⟨T, h1, h2, h3⟩
    exact (h.2.2 T h1 h3).trans h2
  · intro hc
    exact ⟨_, h.1, hc, h.2.1⟩

theorem admissible_x {x q : Finset β} {L : List (Imp β)} (hc : simpleClosure x L ⊆ q) (a : β) :
    a ∈ simpleClosure x L ↔ ∀ T, Admissible x q (specImps L) T → a ∈ T := by
  have h := simpleClosure_isLeast x L
  exact ⟨fun ha T hT => h.2.2 T hT.1 hT.2.2 ha, fun hall => hall _ ⟨h.1, hc, h.2.1⟩⟩

theorem admissible_q {x q : Finset β} {L : List (Imp β)} (hc : simpleClosure x L ⊆ q) (a : β) :
    (a ∈ q ∧ (a ∈ simpleClosure x L ∨ simpleClosure (simpleClosure x L ∪ {a}) L ⊆ q)) ↔
      ∃ T, Admissible x q (specImps L) T ∧ a ∈ T := by
  have h := simpleClosure_isLeast x L
  have h' := simpleClosure_isLeast (simpleClosure x L ∪ {a}) L
  constructor
  · rintro ⟨-, ha | ha⟩
    · exact ⟨_, ⟨h.1, hc, h.2.1⟩, ha⟩
    · exact ⟨_, ⟨h.1.trans (Finset.subset_union_left.trans h'.1), ha, h'.2.1⟩, h'.1 (by simp)⟩
  · rintro ⟨T, hT, ha⟩
    refine ⟨hT.2.1 ha, .inr ?_⟩
    refine (h'.2.2 T ?_ hT.2.2).trans hT.2.1
    exact Finset.union_subset (h.2.2 T hT.1 hT.2.2) (by simpa using ha)

section
variable [PyName α] [PyName β]

/-- If every object is consistent with the implications, `complete` raises nothing and afterwards exactly the attributes of
all admissible sets are known and exactly those of some admissible set are possible. -/
theorem C80_complete {p : PCtx α β} (h : p.WF) (ord : SetOrder β) (L : List (Imp β))
    (hc : ∀ o ∈ p.objects, ∃ T, Admissible (p.xI o) (p.qI o) (specImps L) T) :
    ∃ p', p.complete ord L = (p', none) ∧ p'.WF ∧ p'.objects = p.objects ∧ p'.attributes = p.attributes ∧
      ∀ o ∈ p.objects,
        (∀ a, a ∈ p'.xI o ↔ ∀ T, Admissible (p.xI o) (p.qI o) (specImps L) T → a ∈ T) ∧
        (∀ a, a ∈ p'.qI o ↔ ∃ T, Admissible (p.xI o) (p.qI o) (specImps L) T ∧ a ∈ T) ∧
        ∀ T, Admissible (p'.xI o) (p'.qI o) (specImps L) T ↔ Admissible (p.xI o) (p.qI o) (specImps L) T := by
  obtain ⟨p', D, hpre, c, hall, hend⟩ := h.completeLoop ord L p.objects (h.xo ▸ h.xw.onodup) fun _ ho => ho
  rcases hend with ⟨rfl, he⟩ | ⟨o, rest, hos, hn, -⟩
  · refine ⟨p', he, c.wf, c.objs, c.atts, fun o ho => ?_⟩
    have hco := hall o ho
    have hx : ∀ a, a ∈ p'.xI o ↔ ∀ T, Admissible (p.xI o) (p.qI o) (specImps L) T → a ∈ T := by
      intro a
      rw [c.xI o ho]
      exact admissible_x hco a
    have hq : ∀ a, a ∈ p'.qI o ↔ ∃ T, Admissible (p.xI o) (p.qI o) (specImps L) T ∧ a ∈ T := by
      intro a
      rw [c.qI o ho, Finset.mem_filter]
      exact admissible_q hco a
    refine ⟨hx, hq, fun T => ⟨fun hT => ⟨?_, ?_, hT.2.2⟩, fun hT => ⟨?_, ?_, hT.2.2⟩⟩⟩
    · refine Finset.Subset.trans ?_ hT.1
      rw [c.xI o ho]
      exact (simpleClosure_isLeast _ L).1
    · refine hT.2.1.trans ?_
      rw [c.qI o ho]
      exact Finset.filter_subset _ _
    · intro a ha
      exact (hx a).1 ha T hT
    · intro a ha
      exact (hq a).2 ⟨T, hT, ha⟩
  · exact absurd (admissible_iff.1 (hc o (by rw [hos]; simp))) hn

/-- Otherwise ValueError is raised at the first object that has no admissible set; the objects before it are completed and
stay so, the others are unchanged. -/
theorem C80_inconsistent {p : PCtx α β} (h : p.WF) (ord : SetOrder β) (L : List (Imp β)) {o : α} (ho : o ∈ p.objects)
    (hc : ¬ ∃ T, Admissible (p.xI o) (p.qI o) (specImps L) T) :
    ∃ p' D, p.complete ord L = (p', some .valueError) ∧ p'.WF ∧ D <+: p.objects ∧ D ≠ p.objects ∧
      (∀ o ∈ D, (∀ a, a ∈ p'.xI o ↔ ∀ T, Admissible (p.xI o) (p.qI o) (specImps L) T → a ∈ T) ∧
        ∀ a, a ∈ p'.qI o ↔ ∃ T, Admissible (p.xI o) (p.qI o) (specImps L) T ∧ a ∈ T) ∧
      ∀ o, o ∉ D → p'.xI o = p.xI o ∧ p'.qI o = p.qI o := by
  obtain ⟨p', D, hpre, c, hall, hend⟩ := h.completeLoop ord L p.objects (h.xo ▸ h.xw.onodup) fun _ ho => ho
  rcases hend with ⟨rfl, he⟩ | ⟨o', rest, hos, hn, he⟩
  · exact absurd (admissible_iff.2 (hall o ho)) hc
  · refine ⟨p', D, he, c.wf, hpre, ?_, fun o ho => ⟨fun a => ?_, fun a => ?_⟩, fun o ho => ⟨c.xI' o ho, c.qI' o ho⟩⟩
    · intro hD
      have := congrArg List.length hos
      rw [← hD] at this
      simp at this
    · rw [c.xI o ho]
      exact admissible_x (hall o ho) a
    · rw [c.qI o ho, Finset.mem_filter]
      exact admissible_q (hall o ho) a

end

/-! ### C81 -/

namespace PCtx

variable [PyName α] [PyName β]

theorem add_ctx {c : Ctx α β} (h : c.WFw) {n : α} (hn : n ∉ c.objects) (B : Finset β) :
    ∃ c', c.addObjectWithIntent B n = (c', none) ∧ c'.WFw ∧ c'.objects = c.objects ++ [n] ∧
      c'.attributes = c.attributes ∧ c'.upF {n} = B ∩ c.attributes.toFinset ∧ ∀ o, o ≠ n → c'.upF {o} = c.upF {o} := by
  obtain ⟨c', hc'⟩ := addObject_returns h (row := c.attributes.map fun a => decide (a ∈ B)) (by simp) n
  have hst := h.stores.exec (op := .addObjectWithIntent B n) hn hc'
  refine ⟨c', hc', hst.wf, hst.objs, hst.atts, ?_, ?_⟩
  · ext a
    rw [mem_up1 hst.wf, hst.inc]
    simp only [Table.apply, List.mem_append, List.mem_singleton]
    simp only [or_true, true_and, if_true, decide_eq_true_eq, Finset.mem_inter, List.mem_toFinset]
    tauto
  · intro o ho
    ext a
    rw [mem_up1 hst.wf, mem_up1 h, hst.inc]
    simp only [Table.apply, List.mem_append, List.mem_singleton, ho, or_false, if_false]
    rw [← h.incB]
    constructor
    · exact fun hh => hh.2.2
    · intro hi; exact ⟨((h.incB _ _).1 hi).mem.1, ((h.incB _ _).1 hi).mem.2, hi⟩

theorem WF.addObject {p : PCtx α β} (h : p.WF) {n : α} (hn : n ∉ p.objects) {i : Finset β × Finset β} (hi : i.1 ⊆ i.2) :
    ∃ p', p.addObjectWithIntent i n = (p', none) ∧ p'.WF ∧ p'.objects = p.objects ++ [n] ∧
      p'.attributes = p.attributes ∧ p'.xI n = i.1 ∩ p.attributes.toFinset ∧ p'.qI n = i.2 ∩ p.attributes.toFinset ∧
      ∀ o, o ≠ n → p'.xI o = p.xI o ∧ p'.qI o = p.qI o := by
  obtain ⟨x', e1, a1, a2, a3, a4, a5⟩ := add_ctx h.xw (by rw [h.xo]; exact hn) i.1
  obtain ⟨q', e2, b1, b2, b3, b4, b5⟩ := add_ctx h.qw (by rw [h.qo]; exact hn) i.2
  rw [h.xa] at a4
  rw [h.qa] at b4
  refine ⟨⟨p.objects ++ [n], p.attributes, x', q'⟩, ?_, ?_, rfl, rfl, a4, b4, fun o ho => ⟨a5 o ho, b5 o ho⟩⟩
  · unfold PCtx.addObjectWithIntent
    simp only [hi, not_true_eq_false, if_false, e1, e2]
  · refine ⟨a1, b1, by rw [a2, h.xo], by rw [b2, h.qo], by rw [a3, h.xa], by rw [b3, h.qa], ?_⟩
    intro o a ha
    rw [← mem_up1 a1] at ha
    rw [← mem_up1 b1]
    by_cases ho : o = n
    · subst ho
      rw [a4] at ha
      rw [b4]
      exact Finset.inter_subset_inter_right hi ha
    · rw [a5 o ho] at ha
      rw [b5 o ho]
      exact h.xI_le o ha

/-- Calls that change a partial context. -/
inductive Op (α β : Type)
  | add (intent : Finset β × Finset β) (name : α)
  | complete (imps : List (Imp β))

def exec (ord : SetOrder β) (p : PCtx α β) : Op α β → Mut α β
  | .add i n => p.addObjectWithIntent i n
  | .complete L => p.complete ord L

def run (ord : SetOrder β) (p : PCtx α β) (ops : List (Op α β)) : PCtx α β :=
  ops.foldl (fun p op => (p.exec ord op).1) p

/-- Names of new objects are new. -/
def FreshRun (ord : SetOrder β) : PCtx α β → List (Op α β) → Prop
  | _, [] => True
  | p, op :: ops => (∀ i n, op = .add i n → n ∉ p.objects) ∧ FreshRun ord (p.exec ord op).1 ops

theorem WF.exec {p : PCtx α β} (h : p.WF) (ord : SetOrder β) (op : Op α β) (hf : ∀ i n, op = .add i n → n ∉ p.objects) :
    (p.exec ord op).1.WF ∧ (p.exec ord op).1.attributes = p.attributes := by
  cases op with
  | add i n =>
    by_cases hi : i.1 ⊆ i.2
    · obtain ⟨p', e, hw, -, ha, -⟩ := h.addObject (hf i n rfl) hi
      simp only [PCtx.exec, e]
      exact ⟨hw, ha⟩
    · simp only [PCtx.exec, PCtx.addObjectWithIntent, hi, not_false_eq_true, if_true]
      exact ⟨h, trivial⟩
  | complete L =>
    obtain ⟨p', D, hpre, c, hall, hend⟩ := h.completeLoop ord L p.objects (h.xo ▸ h.xw.onodup) fun _ ho => ho
    simp only [PCtx.exec, PCtx.complete]
    rcases hend with ⟨-, he⟩ | ⟨_, _, -, -, he⟩ <;> rw [he] <;> exact ⟨c.wf, c.atts⟩

end PCtx

section
variable [PyName α] [PyName β]
open PCtx

/-- Additions under new names and completions, raising or not, keep the names of the two tables equal and everything known
possible. -/
theorem C81_histories_partial (ord : SetOrder β) (ops : List (Op α β)) {p : PCtx α β} (h : p.WF)
    (hf : FreshRun ord p ops) : (p.run ord ops).WF ∧ (p.run ord ops).attributes = p.attributes := by
  induction ops generalizing p with
  | nil => exact ⟨h, rfl⟩
  | cons op ops ih =>
    have h1 := h.exec ord op hf.1
    obtain ⟨h2, h3⟩ := ih h1.1 hf.2
    exact ⟨h2, h3.trans h1.2⟩

end

/-- A partial context with one object. -/
def pcOne : PCtx (List Char) (List Char) :=
  ⟨["o".toList], ["a".toList, "b".toList], ⟨["o".toList], ["a".toList, "b".toList], ⟨some 2, [[true, false]]⟩⟩,
    ⟨["o".toList], ["a".toList, "b".toList], ⟨some 2, [[true, true]]⟩⟩⟩

theorem pcOne_wf : pcOne.WF := by
  have hx : pcOne.x.WFw := by constructor <;> decide +kernel
  have hq : pcOne.q.WFw := by constructor <;> decide +kernel
  refine ⟨hx, hq, rfl, rfl, rfl, rfl, ?_⟩
  intro o a
  rw [← hx.incB, ← hq.incB]
  have key : ∀ o ∈ pcOne.x.objects, ∀ a ∈ pcOne.x.attributes, pcOne.x.incB o a = true → pcOne.q.incB o a = true := by
    decide +kernel
  intro hi
  exact key o ((hx.incB _ _).1 hi).mem.1 a ((hx.incB _ _).1 hi).mem.2 hi

/-- An object added under a used name is renamed in the two tables but not in the list of objects. -/
theorem C81_duplicate_name_violated : pcOne.WF ∧
    (pcOne.addObjectWithIntent ({"a".toList}, {"a".toList}) "o".toList).2 = none ∧
    (pcOne.addObjectWithIntent ({"a".toList}, {"a".toList}) "o".toList).1.objects ≠
      (pcOne.addObjectWithIntent ({"a".toList}, {"a".toList}) "o".toList).1.x.objects :=
  ⟨pcOne_wf, by decide +kernel, by decide +kernel⟩

example : ∃ p', pcOne.complete (SetOrder.any _) [⟨{"a".toList}, {"b".toList}⟩] = (p', none) ∧ "b".toList ∈ p'.xI "o".toList := by
  have hcl : simpleClosure (pcOne.xI "o".toList) [⟨{"a".toList}, {"b".toList}⟩] ⊆ pcOne.qI "o".toList := by decide +kernel
  obtain ⟨p', h1, h2, h3, h4, h5⟩ := C80_complete pcOne_wf (SetOrder.any _) [⟨{"a".toList}, {"b".toList}⟩] (by
    intro o ho
    obtain rfl : o = "o".toList := by simpa [pcOne] using ho
    exact admissible_iff.2 hcl)
  refine ⟨p', h1, ((h5 "o".toList (by simp [pcOne])).1 _).2 fun T hT => ?_⟩
  have := (closed_specImps _ T).1 hT.2.2 ⟨{"a".toList}, {"b".toList}⟩ (by simp)
  refine this ?_ (by simp)
  refine Finset.Subset.trans ?_ hT.1
  decide +kernel

example : ¬ ∃ T, Admissible (pcOne.xI "o".toList) (pcOne.qI "o".toList) (specImps [⟨{"a".toList}, {"c".toList}⟩]) T := by
  rw [admissible_iff]
  decide +kernel

/-! ### C82 -/

/-- The first object has 0 and may have 1. -/
def pcInc : PCtx (Fin 4) (Fin 3) :=
  ⟨[0, 1, 2, 3], [0, 1, 2],
    ⟨[0, 1, 2, 3], [0, 1, 2], ⟨some 3, [[true, false, false], [false, true, true], [false, false, true], [false, true, false]]⟩⟩,
    ⟨[0, 1, 2, 3], [0, 1, 2], ⟨some 3, [[true, true, false], [false, true, true], [false, false, true], [false, true, false]]⟩⟩⟩

theorem pcInc_wf : pcInc.WF := by
  have hx : pcInc.x.WFw := by constructor <;> decide +kernel
  have hq : pcInc.q.WFw := by constructor <;> decide +kernel
  refine ⟨hx, hq, rfl, rfl, rfl, rfl, ?_⟩
  intro o a
  rw [← hx.incB, ← hq.incB]
  revert o a
  decide +kernel

/-- An implication no object refutes and the basis does not entail. -/
theorem C82_incomplete_violated : pcInc.WF ∧
    pcInc.dgBasis (SetOrder.fin 3) (SetOrder.fin 4) [] (fun _ => true) = .ok [⟨{0}, {0, 1}⟩] ∧
    (∀ o ∈ pcInc.objects, ¬ Refutes (pcInc.xI o) (pcInc.qI o) {0, 1} {2}) ∧
    ¬ Entails (specImps [⟨({0} : Finset (Fin 3)), {0, 1}⟩]) {0, 1} {2} := by
  refine ⟨pcInc_wf, by decide +kernel, ?_, ?_⟩
  · unfold Refutes
    decide +kernel
  · intro h
    have := h {0, 1} (by rw [closed_specImps]; decide +kernel) (Finset.Subset.refl _)
    revert this
    decide +kernel

example : pcInc.objects ≠ [] := by decide

theorem PCtx.WF.mono {p : PCtx α β} (h : p.WF) {s t : Finset β} (hst : s ⊆ t) : p.xqF s ⊆ p.xqF t := by
  intro a ha
  rw [h.mem_xqF] at ha ⊢
  exact ⟨ha.1, fun o ho ht => ha.2 o ho (hst.trans ht)⟩

/-- If the closure is idempotent, in particular if nothing is unknown, every implication that is not refuted follows from
the basis and the background. -/
theorem C82_idempotent_partial {p : PCtx α β} (h : p.WF) (hne : p.objects ≠ []) (ordA : SetOrder β) (ordO : SetOrder α)
    {bg : List (Imp β)} (hbg : ∀ i ∈ bg, i.premise ⊆ p.attributes.toFinset ∧ i.conclusion ⊆ p.attributes.toFinset)
    (hid : ∀ s, s ⊆ p.attributes.toFinset → p.xqF (p.xqF s) = p.xqF s) :
    ∃ res, p.dgBasis ordA ordO bg (fun _ => true) = .ok res ∧ ∀ P C : Finset β, P ⊆ p.attributes.toFinset →
      C ⊆ p.attributes.toFinset → (∀ o ∈ p.objects, ¬ Refutes (p.xI o) (p.qI o) P C) →
      Entails (specImps (res ++ bg)) P C := by
  have S := h.setup hne ordA ordO
  have hop : IsClosureOp p.attributes.toFinset p.xqF := ⟨S.into, S.ext, fun s t hst _ => h.mono hst, hid⟩
  obtain ⟨res, h1, h2, -⟩ := dgBasis_correct S hop (fun i hi => (hbg i hi).2)
    (fun basis _ s _ => simpleClosure_isLeast s (basis ++ bg))
  refine ⟨res, h1, fun P C hP hC hr => ?_⟩
  intro T hT hPT a ha
  have hT' := (closed_specImps _ T).1 hT
  have hI : Closed (specImps (res ++ bg)) (T ∩ p.attributes.toFinset) := by
    rw [closed_specImps]
    intro x hx hxp
    refine Finset.subset_inter (hT' x hx (hxp.trans Finset.inter_subset_left)) ?_
    rcases List.mem_append.1 hx with hx | hx
    · rw [((h2 x).1 hx).2]
      exact S.into _ (isPseudo_iff.1 ((h2 x).1 hx).1).1.1
    · exact (hbg x hx).2
  have hcl := closed_of_basis h2 hop Finset.inter_subset_right hI
  have hCP : C ⊆ p.xqF P := by
    intro m hm
    rw [h.mem_xqF]
    refine ⟨List.mem_toFinset.1 (hC hm), fun o ho hs => ?_⟩
    by_contra hq
    exact hr o ho ⟨hs, fun hh => hq (hh hm)⟩
  have := h.mono (Finset.subset_inter hPT hP) (hCP ha)
  rw [hcl] at this
  exact Finset.inter_subset_left this

/-! ### C83, C84: exploration with partially given examples -/

namespace PDB

variable [PyName α] [PyName β]

/-- Every object of the partial context stands for a member of the domain `U`. -/
def TrueCtx (U : Finset β → Prop) (p : PCtx α β) : Prop := ∀ o ∈ p.objects, ∃ T, U T ∧ p.xI o ⊆ T ∧ T ⊆ p.qI o

/-- Implications over the attributes that hold in the domain. -/
def TrueImp (U : Finset β → Prop) (M : Finset β) (i : Imp β) : Prop :=
  i.conclusion ⊆ M ∧ ∀ T, U T → i.premise ⊆ T → i.conclusion ⊆ T

/-- A partial example of the domain. -/
def TrueEx (U : Finset β → Prop) (M : Finset β) (e : Finset β × Finset β) : Prop := ∃ T, U T ∧ T ⊆ M ∧ e.1 ⊆ T ∧ T ⊆ e.2

/-- The state between calls: `p0` is the partial context for which the open implications were computed. -/
structure Inv (E : Env α β) (U : Finset β → Prop) (M : Finset β) (s : PDB α β) (p0 : PCtx α β) : Prop where
  wf : s.ctx.WF
  ne : s.ctx.objects ≠ []
  m : s.ctx.attributes.toFinset = M
  tru : TrueCtx U s.ctx
  wf0 : p0.WF
  ne0 : p0.objects ≠ []
  m0 : p0.attributes.toFinset = M
  tru0 : TrueCtx U p0
  refine : ∀ S, s.ctx.xqF S ⊆ p0.xqF S
  imps : ∀ i ∈ s.implications, TrueImp U M i
  basis : p0.dgBasis E.ordA E.ordO s.implications E.cond = .ok s.cxtImplications

variable {E : Env α β} {U : Finset β → Prop} {M : Finset β}

theorem recompute_ok {s : PDB α β} (wf : s.ctx.WF) (ne : s.ctx.objects ≠ []) (m : s.ctx.attributes.toFinset = M)
    (tru : TrueCtx U s.ctx) (imps : ∀ i ∈ s.implications, TrueImp U M i) :
    ∃ s', recompute E s = (s', none) ∧ s'.ctx = s.ctx ∧ s'.implications = s.implications ∧ Inv E U M s' s.ctx := by
  obtain ⟨res, -, h2, -, -⟩ := dgBasis_generic (wf.setup ne E.ordA E.ordO)
    (bg := s.implications) (fun i hi => by rw [m]; exact (imps i hi).1) E.cond
  refine ⟨{ s with cxtImplications := res }, ?_, rfl, rfl, ?_⟩
  · unfold recompute PCtx.dgBasis
    rw [h2]
  · exact ⟨wf, ne, m, tru, wf, ne, m, tru, fun _ => Finset.Subset.refl _, imps, h2⟩

theorem Inv.confirm {s : PDB α β} {p0 : PCtx α β} (h : Inv E U M s p0) {i : Imp β} (hi : TrueImp U M i) :
    ∃ s', PDB.confirm E s i = (s', none) ∧ s'.ctx = s.ctx ∧ s'.implications = s.implications ++ [i] ∧
      Inv E U M s' s.ctx := by
  unfold PDB.confirm
  refine recompute_ok (s := { s with implications := s.implications ++ [i] }) h.wf h.ne h.m h.tru ?_
  intro j hj
  rcases List.mem_append.1 hj with hj | hj
  · exact h.imps j hj
  · rw [List.mem_singleton] at hj
    rw [hj]; exact hi

theorem Inv.confirms {is : List (Imp β)} : ∀ {s : PDB α β} {p0 : PCtx α β}, Inv E U M s p0 → is ≠ [] →
    (∀ i ∈ is, TrueImp U M i) →
    ∃ s', is.foldl (fun r i => andThen r fun s => PDB.confirm E s i) (s, none) = (s', none) ∧ s'.ctx = s.ctx ∧
      s'.implications = s.implications ++ is ∧ Inv E U M s' s.ctx := by
  induction is with
  | nil => intro s p0 _ h; exact absurd rfl h
  | cons i is ih =>
    intro s p0 h _ ht
    obtain ⟨s1, a1, a2, a3, a4⟩ := h.confirm (ht i (by simp))
    have hf : (i :: is).foldl (fun r i => andThen r fun s => PDB.confirm E s i) (s, none) =
        is.foldl (fun r i => andThen r fun s => PDB.confirm E s i) (s1, none) := by
      rw [List.foldl_cons]
      show List.foldl _ (PDB.confirm E s i) is = _
      rw [a1]
    rw [hf]
    by_cases hn : is = []
    · subst hn
      exact ⟨s1, rfl, a2, a3, a4⟩
    · obtain ⟨s', b1, b2, b3, b4⟩ := ih a4 hn fun j hj => ht j (by simp [hj])
      exact ⟨s', b1, by rw [b2, a2], by rw [b3, a3]; simp, by rw [← a2]; exact b4⟩

theorem closed_of_true {L : List (Imp β)} (h : ∀ i ∈ L, TrueImp U M i) {T : Finset β} (hT : U T) :
    Closed (specImps L) T := by
  rw [closed_specImps]
  exact fun i hi => (h i hi).2 T hT

theorem xqF_anti {p p' : PCtx α β} (h : p.WF) (h' : p'.WF) (ha : p'.attributes = p.attributes)
    (ho : ∀ o ∈ p.objects, o ∈ p'.objects ∧ p.xI o ⊆ p'.xI o ∧ p'.qI o ⊆ p.qI o) (S : Finset β) :
    p'.xqF S ⊆ p.xqF S := by
  intro a hm
  rw [h'.mem_xqF] at hm
  rw [h.mem_xqF]
  refine ⟨ha ▸ hm.1, fun o hoo hs => ?_⟩
  obtain ⟨h1, h2, h3⟩ := ho o hoo
  exact h3 (hm.2 o h1 (hs.trans h2))

theorem Inv.complete {s : PDB α β} {p0 : PCtx α β} (h : Inv E U M s p0) :
    ∃ s', PDB.complete E s = (s', none) ∧ s'.implications = s.implications ∧ s'.cxtImplications = s.cxtImplications ∧
      s'.ctx.objects = s.ctx.objects ∧ Inv E U M s' p0 := by
  have hadm : ∀ o ∈ s.ctx.objects, ∀ T, U T → s.ctx.xI o ⊆ T → T ⊆ s.ctx.qI o →
      Admissible (s.ctx.xI o) (s.ctx.qI o) (specImps s.implications) T :=
    fun o _ T hT h1 h2 => ⟨h1, h2, closed_of_true h.imps hT⟩
  obtain ⟨p', h1, h2, h3, h4, h5⟩ := C80_complete h.wf E.ordI s.implications (fun o ho => by
    obtain ⟨T, hT, hx, hq⟩ := h.tru o ho
    exact ⟨T, hadm o ho T hT hx hq⟩)
  refine ⟨{ s with ctx := p' }, ?_, rfl, rfl, h3, ?_⟩
  · unfold PDB.complete
    simp only [h1]
  · refine ⟨h2, by rw [h3]; exact h.ne, by rw [h4]; exact h.m, ?_, h.wf0, h.ne0, h.m0, h.tru0, ?_, h.imps, h.basis⟩
    · intro o ho
      rw [h3] at ho
      obtain ⟨T, hT, hx, hq⟩ := h.tru o ho
      have := ((h5 o ho).2.2 T).2 (hadm o ho T hT hx hq)
      exact ⟨T, hT, this.1, this.2.1⟩
    · intro S
      refine (xqF_anti h.wf h2 h4 ?_ S).trans (h.refine S)
      intro o ho
      refine ⟨by rw [h3]; exact ho, fun a ha => ?_, fun a ha => ?_⟩
      · rw [(h5 o ho).1]
        exact fun T hT => hT.1 ha
      · obtain ⟨T, hT, haT⟩ := ((h5 o ho).2.1 a).1 ha
        exact hT.2.1 haT

theorem Inv.addExample {s : PDB α β} {p0 : PCtx α β} (h : Inv E U M s p0) {n : α} (hn : n ∉ s.ctx.objects)
    {e : Finset β × Finset β} (he : TrueEx U M e) :
    ∃ s', PDB.addExample E s n e = (s', none) ∧ s'.implications = s.implications ∧
      s'.ctx.objects = s.ctx.objects ++ [n] ∧ Inv E U M s' s'.ctx ∧ (∀ S, s'.ctx.xqF S ⊆ s.ctx.xqF S) ∧
      s'.ctx.xI n = e.1 ∩ M ∧ s'.ctx.qI n = e.2 ∩ M ∧
      ∀ o, o ≠ n → s'.ctx.xI o = s.ctx.xI o ∧ s'.ctx.qI o = s.ctx.qI o := by
  obtain ⟨T, hT, hTM, hxT, hTq⟩ := he
  obtain ⟨p', h1, h2, h3, h4, h5, h6, h7⟩ := h.wf.addObject hn (i := e) (hxT.trans hTq)
  rw [h.m] at h5 h6
  have htru : TrueCtx U p' := by
    intro o ho
    by_cases hon : o = n
    · subst hon
      rw [h5, h6]
      exact ⟨T, hT, Finset.inter_subset_left.trans hxT, Finset.subset_inter hTq hTM⟩
    · rw [(h7 o hon).1, (h7 o hon).2]
      rw [h3] at ho
      exact h.tru o ((List.mem_append.1 ho).resolve_right (by simpa using hon))
  obtain ⟨s', r1, r2, r3, r4⟩ := recompute_ok (E := E) (U := U) (M := M) (s := { s with ctx := p' }) h2
    (by rw [h3]; simp) (by rw [h4]; exact h.m) htru h.imps
  have hany : ¬ (s.implications.any fun i => !i.isRespectedPartial e) = true := by
    simp only [List.any_eq_true, Bool.not_eq_true', not_exists, not_and]
    intro i hi
    simp only [Imp.isRespectedPartial, Bool.not_eq_false, Bool.or_eq_true, decide_eq_true_eq, Bool.not_eq_true',
      decide_eq_false_iff_not]
    by_cases hp : i.premise ⊆ e.1
    · left
      refine Finset.Subset.trans ?_ (((h.imps i hi).2 T hT (hp.trans hxT)).trans hTq)
      unfold Imp.reduced
      exact Finset.sdiff_subset
    · exact .inr hp
  refine ⟨s', ?_, r3, by rw [r2]; exact h3, by rw [r2]; exact r4, ?_, by rw [r2]; exact h5, by rw [r2]; exact h6,
    by rw [r2]; exact h7⟩
  · unfold PDB.addExample
    rw [if_neg hany, if_neg hn]
    simp only [h1]
    exact r1
  · rw [r2]
    refine xqF_anti h.wf h2 h4 ?_
    intro o ho
    have hon : o ≠ n := fun hh => hn (hh ▸ ho)
    refine ⟨?_, by rw [(h7 o hon).1], by rw [(h7 o hon).2]⟩
    show o ∈ p'.objects
    rw [h3]; simp [ho]

theorem Inv.addExamples {exs : List (α × (Finset β × Finset β))} : ∀ {s : PDB α β} {p0 : PCtx α β}, Inv E U M s p0 →
    (exs.map Prod.fst).Nodup → (∀ e ∈ exs, e.1 ∉ s.ctx.objects) → (∀ e ∈ exs, TrueEx U M e.2) →
    ∃ s' p', exs.foldl (fun r e => andThen r fun s => PDB.addExample E s e.1 e.2) (s, none) = (s', none) ∧
      s'.implications = s.implications ∧ s'.ctx.objects = s.ctx.objects ++ exs.map Prod.fst ∧ Inv E U M s' p' ∧
      (∀ S, p'.xqF S ⊆ p0.xqF S) ∧ (∀ e ∈ exs, ∀ S, S ⊆ M → S ⊆ e.2.1 → p'.xqF S ⊆ e.2.2) ∧
      (p0 = s.ctx ∨ exs ≠ [] → p' = s'.ctx) ∧
      (∀ o ∈ s.ctx.objects, s'.ctx.xI o = s.ctx.xI o ∧ s'.ctx.qI o = s.ctx.qI o) ∧
      ∀ e ∈ exs, s'.ctx.xI e.1 = e.2.1 ∩ M ∧ s'.ctx.qI e.1 = e.2.2 ∩ M := by
  induction exs with
  | nil => exact fun {s p0} h _ _ _ => ⟨s, p0, rfl, rfl, by simp, h, fun _ => Finset.Subset.refl _, by simp,
    by simp, by simp, by simp⟩
  | cons e exs ih =>
    intro s p0 h hnd hf ht
    obtain ⟨s1, a1, a2, a3, a4, a5, a6, a7, a8⟩ := h.addExample (hf e (by simp)) (ht e (by simp))
    rw [List.map_cons, List.nodup_cons] at hnd
    obtain ⟨s', p', b1, b2, b3, b4, b5, b6, b7, b8, b9⟩ := ih a4 hnd.2 (by
      intro e' he'
      rw [a3, List.mem_append, not_or]
      refine ⟨hf e' (by simp [he']), ?_⟩
      rw [List.mem_singleton]
      intro hh
      exact hnd.1 (List.mem_map.2 ⟨e', he', hh⟩)) (fun e' he' => ht e' (by simp [he']))
    refine ⟨s', p', ?_, by rw [b2, a2], by rw [b3, a3]; simp, b4, fun S => (b5 S).trans ((a5 S).trans (h.refine S)), ?_,
      ?_, ?_, ?_⟩
    · rw [List.foldl_cons]
      show List.foldl _ (PDB.addExample E s e.1 e.2) exs = _
      rw [a1]
      exact b1
    · intro e' he' S hSM hS
      rcases List.mem_cons.1 he' with rfl | he'
      · intro a ha
        have := (a4.wf.mem_xqF.1 (b5 S ha)).2 e'.1 (by rw [a3]; simp)
          (by rw [a6]; exact Finset.subset_inter hS hSM)
        rw [a7] at this
        exact Finset.inter_subset_left this
      · exact b6 e' he' S hSM hS
    · exact fun _ => b7 (.inl rfl)
    · intro o ho
      have hon : o ≠ e.1 := fun hh => hf e (by simp) (hh ▸ ho)
      obtain ⟨h1, h2⟩ := b8 o (by rw [a3]; simp [ho])
      rw [h1, h2]
      exact a8 o hon
    · intro e' he'
      rcases List.mem_cons.1 he' with rfl | he'
      · obtain ⟨h1, h2⟩ := b8 e'.1 (by rw [a3]; simp)
        rw [h1, h2]
        exact ⟨a6, a7⟩
      · exact b9 e' he'

/-- One answer to an open implication: it is confirmed, perhaps together with others, and they hold in the domain, or it is
rejected with examples of the domain, of which the first one refutes it. -/
inductive Answer (E : Env α β) (U : Finset β → Prop) (M : Finset β) : PDB α β → PDB α β → Prop
  | confirm (s s' : PDB α β) (i : Imp β) (is : List (Imp β)) (hi : i ∈ s.cxtImplications) (his : i ∈ is)
      (ht : ∀ j ∈ is, TrueImp U M j) (h : confirmAll E s is = (s', none)) : Answer E U M s s'
  | reject (s s' : PDB α β) (i : Imp β) (exs : List (α × (Finset β × Finset β))) (hi : i ∈ s.cxtImplications)
      (hd : (exs.map Prod.fst).Nodup) (hf : ∀ e ∈ exs, e.1 ∉ s.ctx.objects) (ht : ∀ e ∈ exs, TrueEx U M e.2)
      (h : PDB.reject E s i exs = (s', none)) : Answer E U M s s'

open Classical in
/-- Sets respecting the background, and the sizes of the closures. -/
noncomputable def measure (M : Finset β) (L : List (Imp β)) (p : PCtx α β) : ℕ :=
  (M.powerset.filter fun S => Closed (specImps L) S).card + ∑ S ∈ M.powerset, (p.xqF S).card

theorem Inv.open_form {s : PDB α β} {p0 : PCtx α β} (h : Inv E U M s p0) {i : Imp β} (hi : i ∈ s.cxtImplications) :
    i.premise ⊆ M ∧ i.conclusion = p0.xqF i.premise ∧ i.premise ≠ i.conclusion ∧
      Closed (specImps s.implications) i.premise ∧ i.premise ⊆ i.conclusion ∧ i.conclusion ⊆ M := by
  have S := h.wf0.setup h.ne0 E.ordA E.ordO
  have hbg : ∀ i ∈ s.implications, i.conclusion ⊆ p0.attributes.toFinset := fun i hi => by
    rw [h.m0]; exact (h.imps i hi).1
  obtain ⟨res, -, h2, h3, -⟩ := dgBasis_generic S hbg E.cond
  have hb : dgBasis p0.attributes (p0.xqAclosure E.ordA E.ordO) simpleClosure s.implications E.cond =
      .ok s.cxtImplications := h.basis
  have hcl := dgBasis_premises S hbg (fun s L => (simpleClosure_isLeast s L).2.1) _ hb i hi
  rw [h2] at hb
  obtain rfl : res = s.cxtImplications := by injection hb
  obtain ⟨a1, a2, a3, -⟩ := h3 i hi
  refine ⟨h.m0 ▸ a1, a2, a3, hcl, ?_, ?_⟩
  · rw [a2]; exact S.ext _ a1
  · rw [a2, ← h.m0]; exact S.into _ a1

theorem Inv.answer {s s' : PDB α β} {p0 : PCtx α β} (h : Inv E U M s p0) (ha : Answer E U M s s') :
    ∃ p', Inv E U M s' p' ∧ PDB.measure M s'.implications p' < PDB.measure M s.implications p0 := by
  classical
  cases ha with
  | confirm i is hi his ht hrun =>
    obtain ⟨s1, a1, a2, a3, a4⟩ := h.confirms (List.ne_nil_of_mem his) ht
    obtain ⟨s2, b1, b2, -, -, b4⟩ := a4.complete
    have hs : s' = s2 := by
      unfold confirmAll at hrun
      rw [a1] at hrun
      simp only [andThen, b1] at hrun
      exact (congrArg Prod.fst hrun).symm
    subst hs
    refine ⟨s.ctx, b4, ?_⟩
    obtain ⟨f1, f2, f3, f4, f5, f6⟩ := h.open_form hi
    unfold PDB.measure
    refine Nat.add_lt_add_of_lt_of_le ?_ (Finset.sum_le_sum fun S _ => Finset.card_le_card (h.refine S))
    apply Finset.card_lt_card
    rw [Finset.ssubset_iff_of_subset]
    · refine ⟨i.premise, ?_, ?_⟩
      · rw [Finset.mem_filter, Finset.mem_powerset]
        exact ⟨f1, f4⟩
      · rw [Finset.mem_filter]
        rintro ⟨-, hc⟩
        rw [closed_specImps, b2, a3] at hc
        exact f3 (Finset.Subset.antisymm f5 (hc i (by simp [his]) (Finset.Subset.refl _)))
    · intro S hS
      rw [Finset.mem_filter] at hS ⊢
      refine ⟨hS.1, ?_⟩
      have := hS.2
      rw [closed_specImps] at this ⊢
      intro j hj
      exact this j (by rw [b2, a3]; simp [hj])
  | reject i exs hi hd hf ht hrun =>
    obtain ⟨s1, p', a1, a2, a3, a4, a5, a6, -⟩ := h.addExamples hd hf ht
    obtain ⟨s2, b1, b2, -, -, b4⟩ := a4.complete
    cases exs with
    | nil => simp [PDB.reject] at hrun
    | cons e exs =>
      unfold PDB.reject at hrun
      simp only at hrun
      split at hrun
      · simp at hrun
      rename_i hresp
      have hs : s' = s2 := by
        rw [a1] at hrun
        simp only [andThen, b1] at hrun
        exact (congrArg Prod.fst hrun).symm
      subst hs
      refine ⟨p', b4, ?_⟩
      obtain ⟨f1, f2, f3, f4, f5, f6⟩ := h.open_form hi
      simp only [Imp.isRespectedPartial, Bool.or_eq_true, decide_eq_true_eq, Bool.not_eq_true', decide_eq_false_iff_not,
        not_or, not_not] at hresp
      unfold PDB.measure
      rw [b2, a2]
      refine Nat.add_lt_add_left ?_ _
      refine Finset.sum_lt_sum (fun S _ => Finset.card_le_card (a5 S)) ⟨i.premise, Finset.mem_powerset.2 f1, ?_⟩
      apply Finset.card_lt_card
      refine Finset.ssubset_iff_subset_ne.2 ⟨a5 _, fun he => hresp.1 ?_⟩
      have := a6 e (by simp) i.premise f1 hresp.2
      rw [he, ← f2] at this
      unfold Imp.reduced
      exact Finset.sdiff_subset.trans this

end PDB

section
variable [PyName α] [PyName β]
open PDB

/-- The state of a session: the constructor has been called and questions were answered. -/
inductive PSession (E : PDB.Env α β) (U : Finset β → Prop) (M : Finset β) (s₀ : PDB α β) : ℕ → PDB α β → Prop
  | start : PSession E U M s₀ 0 s₀
  | step {n : ℕ} {s s' : PDB α β} : PSession E U M s₀ n s → Answer E U M s s' → PSession E U M s₀ (n + 1) s'

theorem PSession.inv {E : PDB.Env α β} {U : Finset β → Prop} {M : Finset β} {s₀ s : PDB α β} {p0 : PCtx α β} {n : ℕ}
    (h0 : Inv E U M s₀ p0) (h : PSession E U M s₀ n s) :
    ∃ p', Inv E U M s p' ∧ PDB.measure M s.implications p' + n ≤ PDB.measure M s₀.implications p0 := by
  induction h with
  | start => exact ⟨p0, h0, le_rfl⟩
  | step _ ha ih =>
    obtain ⟨p', h1, h2⟩ := ih
    obtain ⟨p'', h3, h4⟩ := h1.answer ha
    exact ⟨p'', h3, by omega⟩

theorem init_inv {E : PDB.Env α β} {U : Finset β → Prop} {p : PCtx α β} (h : p.WF) (hne : p.objects ≠ [])
    (ht : TrueCtx U p) {bg : List (Imp β)} (hbg : ∀ i ∈ bg, TrueImp U p.attributes.toFinset i) :
    ∃ s₀, PDB.make E p bg = .ok s₀ ∧ s₀.implications = bg ∧ Inv E U p.attributes.toFinset s₀ p := by
  obtain ⟨res, -, h2, -, -⟩ := dgBasis_generic (h.setup hne E.ordA E.ordO) (bg := bg)
    (fun i hi => (hbg i hi).1) E.cond
  refine ⟨⟨p, bg, res⟩, ?_, rfl, ⟨h, hne, rfl, ht, h, hne, rfl, ht, fun _ => Finset.Subset.refl _, hbg, h2⟩⟩
  unfold PDB.make PCtx.dgBasis
  rw [h2]
  rfl

/-- Known are exactly the attributes of all admissible sets, possible exactly those of some admissible set. -/
def Completed (s : PDB α β) : Prop :=
  ∀ o ∈ s.ctx.objects,
    (∀ a, a ∈ s.ctx.xI o ↔ ∀ T, Admissible (s.ctx.xI o) (s.ctx.qI o) (specImps s.implications) T → a ∈ T) ∧
    ∀ a, a ∈ s.ctx.qI o ↔ ∃ T, Admissible (s.ctx.xI o) (s.ctx.qI o) (specImps s.implications) T ∧ a ∈ T

theorem PDB.Inv.completed {E : PDB.Env α β} {U : Finset β → Prop} {M : Finset β} {s s' : PDB α β} {p0 : PCtx α β}
    (h : Inv E U M s p0) (hc : PDB.complete E s = (s', none)) :
    Completed s' ∧ ∀ o ∈ s.ctx.objects, ∀ T, Admissible (s'.ctx.xI o) (s'.ctx.qI o) (specImps s'.implications) T ↔
      Admissible (s.ctx.xI o) (s.ctx.qI o) (specImps s'.implications) T := by
  obtain ⟨p', h1, h2, h3, h4, h5⟩ := C80_complete h.wf E.ordI s.implications (fun o ho => by
    obtain ⟨T, hT, hx, hq⟩ := h.tru o ho
    exact ⟨T, hx, hq, closed_of_true h.imps hT⟩)
  have hs : s' = { s with ctx := p' } := by
    unfold PDB.complete at hc
    simp only [h1] at hc
    exact (congrArg Prod.fst hc).symm
  subst hs
  refine ⟨fun o ho => ?_, fun o ho => (h5 o ho).2.2⟩
  simp only at ho
  rw [h3] at ho
  obtain ⟨k1, k2, k3⟩ := h5 o ho
  simp only [k3]
  exact ⟨k1, k2⟩

/-- After every answer of a truthful expert the examples are completed: what follows from the base about an example is known
and what contradicts the base is not possible. No answer loses information on an example: its admissible sets are those
given by the data before the answer and the base after it; for the examples of the answer, those given by the expert. -/
theorem C80_after_answer {E : PDB.Env α β} {U : Finset β → Prop} {p : PCtx α β} (h : p.WF) (hne : p.objects ≠ [])
    (ht : TrueCtx U p) {bg : List (Imp β)} (hbg : ∀ i ∈ bg, TrueImp U p.attributes.toFinset i) {s₀ : PDB α β}
    (hi : PDB.make E p bg = .ok s₀) {n : ℕ} {s s' : PDB α β} (hs : PSession E U p.attributes.toFinset s₀ n s) (i : Imp β) :
    (∀ is, i ∈ is → (∀ j ∈ is, TrueImp U p.attributes.toFinset j) → confirmAll E s is = (s', none) →
      s'.implications = s.implications ++ is ∧ s'.ctx.objects = s.ctx.objects ∧ Completed s' ∧
      ∀ o ∈ s.ctx.objects, ∀ T, Admissible (s'.ctx.xI o) (s'.ctx.qI o) (specImps s'.implications) T ↔
        Admissible (s.ctx.xI o) (s.ctx.qI o) (specImps s'.implications) T) ∧
    ∀ exs, ((exs.map Prod.fst).Nodup) → (∀ e ∈ exs, e.1 ∉ s.ctx.objects) →
      (∀ e ∈ exs, TrueEx U p.attributes.toFinset e.2) → PDB.reject E s i exs = (s', none) →
      s'.implications = s.implications ∧ s'.ctx.objects = s.ctx.objects ++ exs.map Prod.fst ∧ Completed s' ∧
      (∀ o ∈ s.ctx.objects, ∀ T, Admissible (s'.ctx.xI o) (s'.ctx.qI o) (specImps s'.implications) T ↔
        Admissible (s.ctx.xI o) (s.ctx.qI o) (specImps s'.implications) T) ∧
      ∀ e ∈ exs, ∀ T, Admissible (s'.ctx.xI e.1) (s'.ctx.qI e.1) (specImps s'.implications) T ↔
        Admissible (e.2.1 ∩ p.attributes.toFinset) (e.2.2 ∩ p.attributes.toFinset) (specImps s'.implications) T := by
  obtain ⟨s₀', h1, -, h3⟩ := init_inv (E := E) h hne ht hbg
  rw [h1] at hi; cases hi
  obtain ⟨p0, hinv, -⟩ := hs.inv h3
  constructor
  · intro is his hti hrun
    obtain ⟨s1, a1, a2, a3, a4⟩ := hinv.confirms (List.ne_nil_of_mem his) hti
    obtain ⟨s2, b1, b2, -, b3, -⟩ := a4.complete
    have hs : s' = s2 := by
      unfold confirmAll at hrun
      rw [a1] at hrun
      simp only [andThen, b1] at hrun
      exact (congrArg Prod.fst hrun).symm
    subst hs
    obtain ⟨c1, c2⟩ := a4.completed b1
    rw [a2] at b3 c2
    exact ⟨by rw [b2, a3], b3, c1, c2⟩
  · intro exs hd hf htr hrun
    obtain ⟨s1, p', a1, a2, a3, a4, a5, a6, a7, a8, a9⟩ := hinv.addExamples hd hf htr
    obtain ⟨s2, b1, b2, -, b3, -⟩ := a4.complete
    have hs : s' = s2 := by
      cases exs with
      | nil => simp [PDB.reject] at hrun
      | cons e exs =>
        unfold PDB.reject at hrun
        simp only at hrun
        split at hrun
        · simp at hrun
        rw [a1] at hrun
        simp only [andThen, b1] at hrun
        exact (congrArg Prod.fst hrun).symm
    subst hs
    obtain ⟨c1, c2⟩ := a4.completed b1
    rw [a3] at b3 c2
    refine ⟨by rw [b2, a2], b3, c1, fun o ho T => ?_, fun e he T => ?_⟩
    · rw [c2 o (by simp [ho]), (a8 o ho).1, (a8 o ho).2]
    · rw [c2 e.1 (by simp only [List.mem_append, List.mem_map]; exact .inr ⟨e, he, rfl⟩), (a9 e he).1, (a9 e he).2]

/-- When no implication is open, the implications that hold in the domain are those that follow from the base. -/
theorem C83_finished_complete {E : PDB.Env α β} (hE : E.cond = fun _ => true) {U : Finset β → Prop} {p : PCtx α β}
    (h : p.WF) (hne : p.objects ≠ []) (ht : TrueCtx U p) {bg : List (Imp β)} (hbg : ∀ i ∈ bg, TrueImp U p.attributes.toFinset i) {s₀ : PDB α β}
    (hi : PDB.make E p bg = .ok s₀) {n : ℕ} {s : PDB α β} (hs : PSession E U p.attributes.toFinset s₀ n s)
    (hfin : s.cxtImplications = []) {P C : Finset β} (hP : P ⊆ p.attributes.toFinset) (hC : C ⊆ p.attributes.toFinset) :
    (∀ T, U T → P ⊆ T → C ⊆ T) ↔ Entails (specImps s.implications) P C := by
  obtain ⟨s₀', h1, -, h3⟩ := init_inv (E := E) h hne ht hbg
  rw [h1] at hi; cases hi
  obtain ⟨p0, hinv, -⟩ := hs.inv h3
  constructor
  · intro hU
    by_contra hn
    have hb := hinv.basis
    rw [hfin, hE] at hb
    obtain ⟨o, ho, xi, qi, hx, hq, hr⟩ := C71_empty_complete hinv.wf0 hinv.ne0 E.ordA E.ordO
      (fun i hi => by rw [hinv.m0]; exact (hinv.imps i hi).1) hb (by rw [hinv.m0]; exact hP) (by rw [hinv.m0]; exact hC) hn
    rw [hinv.wf0.xw.objectIntent (by rw [hinv.wf0.xo]; exact ho)] at hx
    rw [hinv.wf0.qw.objectIntent (by rw [hinv.wf0.qo]; exact ho)] at hq
    obtain rfl : p0.xI o = xi := by injection hx
    obtain rfl : p0.qI o = qi := by injection hq
    obtain ⟨T, hT, hxT, hTq⟩ := hinv.tru0 o ho
    exact hr.2 ((hU T hT (hr.1.trans hxT)).trans hTq)
  · intro he T hT hPT
    exact he T (closed_of_true hinv.imps hT) hPT

/-- Truthful answers raise nothing. -/
theorem C83_answers_accepted {E : PDB.Env α β} {U : Finset β → Prop} {p : PCtx α β} (h : p.WF) (hne : p.objects ≠ [])
    (ht : TrueCtx U p) {bg : List (Imp β)} (hbg : ∀ i ∈ bg, TrueImp U p.attributes.toFinset i) {s₀ : PDB α β}
    (hi : PDB.make E p bg = .ok s₀) {n : ℕ} {s : PDB α β} (hs : PSession E U p.attributes.toFinset s₀ n s) (i : Imp β) :
    (∀ is, i ∈ is → (∀ j ∈ is, TrueImp U p.attributes.toFinset j) → ∃ s', confirmAll E s is = (s', none)) ∧
    ∀ e exs, (((e :: exs).map Prod.fst).Nodup) → (∀ x ∈ e :: exs, x.1 ∉ s.ctx.objects) →
      (∀ x ∈ e :: exs, TrueEx U p.attributes.toFinset x.2) → Refutes e.2.1 e.2.2 i.premise i.conclusion →
      ∃ s', PDB.reject E s i (e :: exs) = (s', none) := by
  obtain ⟨s₀', h1, -, h3⟩ := init_inv (E := E) h hne ht hbg
  rw [h1] at hi; cases hi
  obtain ⟨p0, hinv, -⟩ := hs.inv h3
  constructor
  · intro is his hti
    obtain ⟨s1, a1, a2, a3, a4⟩ := hinv.confirms (List.ne_nil_of_mem his) hti
    obtain ⟨s2, b1, -⟩ := a4.complete
    refine ⟨s2, ?_⟩
    unfold confirmAll
    rw [a1]
    simp only [andThen, b1]
  · intro e exs hd hf htr hr
    obtain ⟨s1, p', a1, a2, a3, a4, a5, a6, -⟩ := hinv.addExamples hd hf htr
    obtain ⟨s2, b1, -⟩ := a4.complete
    refine ⟨s2, ?_⟩
    unfold PDB.reject
    simp only
    rw [if_neg]
    · rw [a1]
      simp only [andThen, b1]
    · simp only [Imp.isRespectedPartial, Bool.or_eq_true, decide_eq_true_eq, Bool.not_eq_true', decide_eq_false_iff_not,
        not_or, not_not]
      refine ⟨fun hsub => hr.2 ?_, hr.1⟩
      obtain ⟨T, -, -, hxT, hTq⟩ := htr e (by simp)
      intro a ha
      by_cases hap : a ∈ i.premise
      · exact hTq (hxT (hr.1 hap))
      · exact hsub (by unfold Imp.reduced; exact Finset.mem_sdiff.2 ⟨ha, hap⟩)

/-- The number of questions is bounded: every session with truthful answers ends. -/
theorem C84_terminates {E : PDB.Env α β} {U : Finset β → Prop} {p : PCtx α β} (h : p.WF) (hne : p.objects ≠ [])
    (ht : TrueCtx U p) {bg : List (Imp β)} (hbg : ∀ i ∈ bg, TrueImp U p.attributes.toFinset i) {s₀ : PDB α β}
    (hi : PDB.make E p bg = .ok s₀) {n : ℕ} {s : PDB α β} (hs : PSession E U p.attributes.toFinset s₀ n s) :
    n ≤ 2 ^ p.attributes.length * (p.attributes.length + 1) := by
  classical
  obtain ⟨s₀', h1, h2, h3⟩ := init_inv (E := E) h hne ht hbg
  rw [h1] at hi; cases hi
  obtain ⟨p0, -, hle⟩ := hs.inv h3
  have hc : p.attributes.toFinset.card = p.attributes.length :=
    List.toFinset_card_of_nodup (h.xa ▸ h.xw.anodup)
  have hm : PDB.measure p.attributes.toFinset s₀.implications p ≤ 2 ^ p.attributes.length * (p.attributes.length + 1) := by
    unfold PDB.measure
    have e1 : (p.attributes.toFinset.powerset.filter fun S => Closed (specImps s₀.implications) S).card ≤
        2 ^ p.attributes.length := by
      refine (Finset.card_filter_le _ _).trans ?_
      rw [Finset.card_powerset, hc]
    have e2 : ∑ S ∈ p.attributes.toFinset.powerset, (p.xqF S).card ≤ 2 ^ p.attributes.length * p.attributes.length := by
      have : ∀ S ∈ p.attributes.toFinset.powerset, (p.xqF S).card ≤ p.attributes.length := by
        intro S _
        rw [← hc]
        exact Finset.card_le_card fun a ha => List.mem_toFinset.2 (h.mem_xqF.1 ha).1
      refine (Finset.sum_le_card_nsmul _ _ _ this).trans ?_
      rw [Finset.card_powerset, hc, Nat.nsmul_eq_mul]
    rw [Nat.mul_add, Nat.mul_one]
    omega
  omega

end

/-! A session that ends: object 0 surely has 0 and may have 1, and the domain is {0, 1}, {1}, {}. -/

namespace PDemo

def E : PDB.Env (Fin 4) (Fin 2) := ⟨fun _ => true, SetOrder.fin 2, SetOrder.fin 4, SetOrder.fin 2⟩

def U (T : Finset (Fin 2)) : Prop := T = {0, 1} ∨ T = {1} ∨ T = ∅

instance : DecidablePred U := fun T => by unfold U; infer_instance

def pc : PCtx (Fin 4) (Fin 2) := ⟨[0], [0, 1], ⟨[0], [0, 1], ⟨some 2, [[true, false]]⟩⟩, ⟨[0], [0, 1], ⟨some 2, [[true, true]]⟩⟩⟩

def s0 : PDB (Fin 4) (Fin 2) := ⟨pc, [], [⟨∅, {0, 1}⟩]⟩
def s1 := (PDB.reject E s0 ⟨∅, {0, 1}⟩ [(1, (∅, {1}))]).1
def s2 := (PDB.reject E s1 ⟨∅, {1}⟩ [(2, (∅, ∅))]).1
def s3 := (PDB.confirmAll E s2 [⟨{0}, {0, 1}⟩]).1
def s4 := (PDB.reject E s3 ⟨{1}, {0, 1}⟩ [(3, ({1}, {1}))]).1

theorem pc_wf : pc.WF := by
  have hx : pc.x.WFw := by constructor <;> decide +kernel
  have hq : pc.q.WFw := by constructor <;> decide +kernel
  refine ⟨hx, hq, rfl, rfl, rfl, rfl, ?_⟩
  intro o a
  rw [← hx.incB, ← hq.incB]
  revert o a
  decide +kernel

theorem session : PSession E U pc.attributes.toFinset s0 4 s4 := by
  refine .step (s := s3) (.step (s := s2) (.step (s := s1) (.step .start ?_) ?_) ?_) ?_
  · refine .reject _ _ ⟨∅, {0, 1}⟩ [(1, (∅, {1}))] (by decide +kernel) (by decide +kernel) (by decide +kernel) ?_
      (Prod.ext rfl (by decide +kernel))
    simp only [List.mem_singleton, forall_eq]
    exact ⟨∅, by decide +kernel⟩
  · refine .reject _ _ ⟨∅, {1}⟩ [(2, (∅, ∅))] (by decide +kernel) (by decide +kernel) (by decide +kernel) ?_
      (Prod.ext rfl (by decide +kernel))
    simp only [List.mem_singleton, forall_eq]
    exact ⟨∅, by decide +kernel⟩
  · refine .confirm _ _ ⟨{0}, {0, 1}⟩ [⟨{0}, {0, 1}⟩] (by decide +kernel) (by simp) ?_ (Prod.ext rfl (by decide +kernel))
    intro j hj
    obtain rfl := List.mem_singleton.1 hj
    refine ⟨by decide +kernel, ?_⟩
    rintro T (rfl | rfl | rfl) <;> decide +kernel
  · refine .reject _ _ ⟨{1}, {0, 1}⟩ [(3, ({1}, {1}))] (by decide +kernel) (by decide +kernel) (by decide +kernel) ?_
      (Prod.ext rfl (by decide +kernel))
    simp only [List.mem_singleton, forall_eq]
    exact ⟨{1}, by decide +kernel⟩

end PDemo

example : PDemo.pc.WF ∧ PDemo.pc.objects ≠ [] ∧ PDB.TrueCtx PDemo.U PDemo.pc ∧ PDB.make PDemo.E PDemo.pc [] = .ok PDemo.s0 ∧
    PSession PDemo.E PDemo.U PDemo.pc.attributes.toFinset PDemo.s0 4 PDemo.s4 ∧ PDemo.s4.cxtImplications = [] := by
  refine ⟨PDemo.pc_wf, by decide, ?_, ?_, PDemo.session, by decide +kernel⟩
  · intro o ho
    obtain rfl : o = 0 := by simpa [PDemo.pc] using ho
    exact ⟨{0, 1}, by decide +kernel⟩
  · decide +kernel

/-! ### C85: the open implications between two calls -/

theorem recompute_sound [PyName α] [PyName β] {E : PDB.Env α β} {s s' : PDB α β}
    (h : PDB.recompute E s = (s', none)) (hw : s.ctx.WF) (hne : s.ctx.objects ≠ [])
    (hbg : ∀ i ∈ s.implications, i.conclusion ⊆ s.ctx.attributes.toFinset) :
    ∀ i ∈ s'.cxtImplications, ∀ o ∈ s'.ctx.objects, ¬ Refutes (s'.ctx.xI o) (s'.ctx.qI o) i.premise i.conclusion := by
  obtain ⟨res, h1, h2⟩ := C71_sound hw hne E.ordA E.ordO hbg E.cond
  unfold PDB.recompute at h
  rw [h1] at h
  obtain rfl := (congrArg Prod.fst h).symm
  intro i hi o ho
  exact (h2 i hi o ho _ _ (hw.xw.objectIntent (by rw [hw.xo]; exact ho))
    (hw.qw.objectIntent (by rw [hw.qo]; exact ho))).1

/-- After `confirm_implication` or `add_example` alone no open implication is refuted by the partial context. -/
theorem C85_open_partial [PyName α] [PyName β] {E : PDB.Env α β} {s s' : PDB α β} (hw : s.ctx.WF)
    (hne : s.ctx.objects ≠ []) (hbg : ∀ i ∈ s.implications, i.conclusion ⊆ s.ctx.attributes.toFinset)
    (h : (∃ i, i.conclusion ⊆ s.ctx.attributes.toFinset ∧ PDB.confirm E s i = (s', none)) ∨
      ∃ n e, e.1 ⊆ e.2 ∧ PDB.addExample E s n e = (s', none)) :
    ∀ i ∈ s'.cxtImplications, ∀ o ∈ s'.ctx.objects, ¬ Refutes (s'.ctx.xI o) (s'.ctx.qI o) i.premise i.conclusion := by
  rcases h with ⟨i, hi, h⟩ | ⟨n, e, he, h⟩
  · refine recompute_sound h hw hne ?_
    intro j hj
    rcases List.mem_append.1 hj with hj | hj
    · exact hbg j hj
    · rw [List.mem_singleton] at hj
      rw [hj]; exact hi
  · unfold PDB.addExample at h
    split at h
    · simp at h
    split at h
    · simp at h
    rename_i hn
    obtain ⟨p', h1, h2, h3, h4, -⟩ := hw.addObject hn he
    simp only [h1] at h
    refine recompute_sound h h2 ?_ ?_
    · show p'.objects ≠ []
      rw [h3]; simp
    · show ∀ i ∈ s.implications, i.conclusion ⊆ p'.attributes.toFinset
      rw [h4]; exact hbg

/-- One object that surely has 0 and may have 1. -/
def pcStale : PCtx (Fin 1) (Fin 3) :=
  ⟨[0], [0, 1, 2], ⟨[0], [0, 1, 2], ⟨some 3, [[true, false, false]]⟩⟩, ⟨[0], [0, 1, 2], ⟨some 3, [[true, true, false]]⟩⟩⟩

def staleE : PDB.Env (Fin 1) (Fin 3) := ⟨fun _ => true, SetOrder.fin 3, SetOrder.fin 1, SetOrder.fin 3⟩

/-- `confirm_implications` completes the context after the open implications were computed: one of them is refuted. -/
theorem C85_stale_violated : ∃ s : PDB (Fin 1) (Fin 3), PDB.make staleE pcStale [] = .ok s ∧
    (PDB.confirmAll staleE s [⟨{0}, {0, 1}⟩]).2 = none ∧
    ∃ i ∈ (PDB.confirmAll staleE s [⟨{0}, {0, 1}⟩]).1.cxtImplications,
      Refutes ((PDB.confirmAll staleE s [⟨{0}, {0, 1}⟩]).1.ctx.xI 0) ((PDB.confirmAll staleE s [⟨{0}, {0, 1}⟩]).1.ctx.qI 0)
        i.premise i.conclusion :=
  ⟨⟨pcStale, [], [⟨∅, {0, 1}⟩, ⟨{0, 1}, {0, 1, 2}⟩]⟩, by decide +kernel, by decide +kernel,
    ⟨{0, 1}, {0, 1, 2}⟩, by decide +kernel, by unfold Refutes; decide +kernel⟩

/-! ### Transposition -/

theorem row_cell {c : Ctx α β} (h : c.WFw) {i j : ℕ} (hi : i < c.objects.length) (hj : j < c.attributes.length) :
    ∃ r b, c.nd.row i = .ok r ∧ pyGet r j = .ok b := by
  have hi' : i < c.nd.rows.length := by rw [h.nrows]; exact hi
  have hw := h.width c.nd.rows[i] (List.getElem_mem hi')
  refine ⟨c.nd.rows[i], c.nd.rows[i][j]'(by rw [hw]; exact hj), ?_, pyGet_ok (List.getElem?_eq_getElem _)⟩
  unfold Nd.row
  rw [h.shape (by intro hh; simp [hh] at hi')]
  exact pyGet_ok (List.getElem?_eq_getElem hi')

/-- The transposed partial context cannot be built: TypeError as soon as there are an object and an attribute. -/
theorem C70_transpose_violated [PyName α] [PyName β] {p : PCtx α β} (h : p.WF) (ho : p.objects ≠ [])
    (ha : p.attributes ≠ []) : p.transpose = .error .typeError := by
  have hin : ∀ j ∈ List.range p.attributes.length, ∃ y : List (Bool × Bool), ((List.range p.objects.length).mapM fun i => do
      let xr ← p.x.nd.row i
      let xv ← pyGet xr j
      let qr ← p.q.nd.row i
      let qv ← pyGet qr j
      (.ok (xv, qv) : Py (Bool × Bool))) = .ok y ∧ y.length = p.objects.length := by
    intro j hj
    have : ∀ i ∈ List.range p.objects.length, ∃ y : Bool × Bool, (do
        let xr ← p.x.nd.row i
        let xv ← pyGet xr j
        let qr ← p.q.nd.row i
        let qv ← pyGet qr j
        (.ok (xv, qv) : Py (Bool × Bool))) = .ok y ∧ True := by
      intro i hi
      rw [List.mem_range] at hi hj
      obtain ⟨r, b, h1, h2⟩ := row_cell h.xw (by rw [h.xo]; exact hi) (by rw [h.xa]; exact hj)
      obtain ⟨r', b', h3, h4⟩ := row_cell h.qw (by rw [h.qo]; exact hi) (by rw [h.qa]; exact hj)
      exact ⟨(b, b'), by simp only [h1, h2, h3, h4, py_ok_bind], trivial⟩
    obtain ⟨ys, e1, e2⟩ := mapM_ok' this
    exact ⟨ys, e1, by rw [← e2.length_eq, List.length_range]⟩
  obtain ⟨t, e1, e2⟩ := mapM_ok' hin
  unfold PCtx.transpose
  rw [e1, py_ok_bind]
  have hlen : t.length = p.attributes.length := by rw [← e2.length_eq, List.length_range]
  have hall : ∀ r ∈ t, r.length = p.objects.length := by
    intro r hr
    clear e1 hlen
    generalize List.range p.attributes.length = l at e2
    induction e2 with
    | nil => simp at hr
    | cons h1 _ ih =>
      rcases List.mem_cons.1 hr with rfl | hr
      · exact h1
      · exact ih hr
  refine (C70_constructor_violated _ _ p.attributes p.objects p.objects.length (by simp [hlen]) (by simp [hlen]) ?_ ?_).1 ha
    (List.length_pos_iff.2 ho) <;>
  · intro r hr
    obtain ⟨r', hr', rfl⟩ := List.mem_map.1 hr
    simp [hall r' hr']

example : PDemo.pc.WF ∧ PDemo.pc.objects ≠ [] ∧ PDemo.pc.attributes ≠ [] := ⟨PDemo.pc_wf, by decide, by decide⟩
