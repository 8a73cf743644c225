/-
Properties of fca/algorithms/exploration_/examples/bi_unars.py: C94, C95, C96.
-/
import Verif.Model.BiUnars
import Verif.Props.PartialContext
import Verif.Lemmas.ExplorationDB
import Mathlib.Logic.Relation
import Mathlib.Data.Fintype.Basic

set_option linter.unusedSectionVars false

open Spec

/-- A pair of maps of `{1, …, n}` into itself. -/
structure BiUnar.WF (n : ℕ) (bu : BiUnar) : Prop where
  flen : bu.f.length = n
  glen : bu.g.length = n
  frange : ∀ x ∈ bu.f, 1 ≤ x ∧ x ≤ n
  grange : ∀ x ∈ bu.g, 1 ≤ x ∧ x ≤ n

instance : Fintype BuTerm := ⟨buTerms.toFinset, fun t => by cases t <;> decide⟩

namespace BiUnar

theorem WF.copy {n : ℕ} {bu : BiUnar} (h : bu.WF n) : bu.automorphicCopy.WF n := ⟨h.glen, h.flen, h.grange, h.frange⟩

theorem copy_copy (bu : BiUnar) : bu.automorphicCopy.automorphicCopy = bu := rfl

/-- No term raises an exception. -/
def Evaluates (bu : BiUnar) : Prop := ∀ t : BuTerm, ∃ v, t.eval bu = .ok v

/-- The value of a term. -/
def val (bu : BiUnar) (t : BuTerm) : List ℤ := (t.eval bu).toOption.getD []

theorem Evaluates.eval {bu : BiUnar} (h : bu.Evaluates) (t : BuTerm) : t.eval bu = .ok (bu.val t) := by
  obtain ⟨v, hv⟩ := h t
  unfold val
  rw [hv]; rfl

theorem Evaluates.holds {bu : BiUnar} (h : bu.Evaluates) (e : BuEq) :
    e.holds bu = .ok (bu.val e.left == bu.val e.right) := by
  unfold BuEq.holds
  rw [h.eval, py_ok_bind, h.eval, py_ok_bind]

theorem buCompose_ok {f g : List ℤ} (hg : ∀ x ∈ g, 1 ≤ x ∧ x ≤ f.length) : ∃ v, buCompose f g = .ok v := by
  unfold buCompose
  induction g with
  | nil => exact ⟨_, rfl⟩
  | cons x g ih =>
    obtain ⟨v, hv⟩ := ih fun y hy => hg y (by simp [hy])
    obtain ⟨h1, h2⟩ := hg x (by simp)
    have hx : pyIdx f (x - 1) = .ok (f[(x - 1).toNat]'(by omega)) := by
      unfold pyIdx pyGet
      rw [if_pos (by omega), List.getElem?_eq_getElem (by omega)]
    exact ⟨_, by rw [List.mapM_cons, hx, py_ok_bind, hv, py_ok_bind]; rfl⟩

theorem WF.evaluates {n : ℕ} {bu : BiUnar} (h : bu.WF n) : bu.Evaluates := by
  intro t
  have hf := h.flen ▸ h.frange
  have hfg := h.flen ▸ h.grange
  have hgf := h.glen ▸ h.frange
  have hg := h.glen ▸ h.grange
  cases t
  · exact ⟨_, rfl⟩
  · exact ⟨_, rfl⟩
  · exact ⟨_, rfl⟩
  · exact buCompose_ok hf
  · exact buCompose_ok hfg
  · exact buCompose_ok hgf
  · exact buCompose_ok hg

end BiUnar

open BiUnar

theorem mapM_all {γ δ : Type} {f : γ → Py δ} {l : List γ} {r : List δ} (h : l.mapM f = .ok r) :
    ∀ x ∈ l, ∃ y, f x = .ok y := by
  induction l generalizing r with
  | nil => simp
  | cons a l ih =>
    rw [List.mapM_cons] at h
    cases ha : f a with
    | error e => rw [ha] at h; cases h
    | ok y =>
      rw [ha, py_ok_bind] at h
      cases hl : l.mapM f with
      | error e => rw [hl] at h; cases h
      | ok r' =>
        intro x hx
        rcases List.mem_cons.1 hx with rfl | hx
        · exact ⟨y, ha⟩
        · exact ih hl x hx

theorem buHolding_ok {bu : BiUnar} (h : bu.Evaluates) (as : List BuEq) :
    buHolding bu as = .ok (as.filter fun e => bu.val e.left == bu.val e.right).toFinset := by
  unfold buHolding
  rw [mapM_ok (g := fun e => (e, bu.val e.left == bu.val e.right)) (fun e _ => by rw [h.holds, py_ok_bind]), py_ok_bind]
  refine congrArg Except.ok (congrArg List.toFinset ?_)
  induction as with
  | nil => rfl
  | cons a as ih =>
    rw [List.map_cons, List.filter_cons, List.filter_cons]
    split <;> simp_all

/-- The intent as a set. -/
def BiUnar.intentF (bu : BiUnar) : Finset BuEq := (buAttributes.filter fun e => bu.val e.left == bu.val e.right).toFinset

theorem BiUnar.Evaluates.intent {bu : BiUnar} (h : bu.Evaluates) : buIntent bu = .ok bu.intentF := buHolding_ok h _

theorem BiUnar.mem_intentF {bu : BiUnar} {e : BuEq} :
    e ∈ bu.intentF ↔ e ∈ buAttributes ∧ bu.val e.left = bu.val e.right := by
  unfold BiUnar.intentF
  rw [List.mem_toFinset, List.mem_filter, beq_iff_eq]

theorem evaluates_of_intent {bu : BiUnar} {I : Finset BuEq} (h : buIntent bu = .ok I) : bu.Evaluates := by
  unfold buIntent buHolding at h
  have hm : ∃ r, (buAttributes.mapM fun a => do
      let b ← a.holds bu
      (.ok (a, b) : Py (BuEq × Bool))) = .ok r := by
    cases hc : buAttributes.mapM fun a => do
        let b ← a.holds bu
        (.ok (a, b) : Py (BuEq × Bool)) with
    | ok r => exact ⟨r, rfl⟩
    | error e => rw [hc] at h; cases h
  obtain ⟨r, hr⟩ := hm
  have hall := mapM_all hr
  have hl : ∀ e ∈ buAttributes, (∃ v, e.left.eval bu = .ok v) ∧ ∃ v, e.right.eval bu = .ok v := by
    intro e he
    obtain ⟨y, hy⟩ := hall e he
    unfold BuEq.holds at hy
    cases h1 : e.left.eval bu with
    | error x => rw [h1] at hy; cases hy
    | ok v =>
      rw [h1, py_ok_bind] at hy
      cases h2 : e.right.eval bu with
      | error x => rw [h2] at hy; cases hy
      | ok w => exact ⟨⟨v, rfl⟩, ⟨w, rfl⟩⟩
  intro t
  by_cases ht : t = .gg
  · subst ht
    exact (hl ⟨.id, .gg⟩ (by decide +kernel)).2
  · exact (hl ⟨t, .gg⟩ (by revert t; decide +kernel)).1

/-! ### C94: symmetry -/

/-- `f` and `g` exchanged. -/
def BuTerm.sw : BuTerm → BuTerm
  | .id => .id
  | .f => .g
  | .g => .f
  | .ff => .gg
  | .fg => .gf
  | .gf => .fg
  | .gg => .ff

theorem BuTerm.sw_sw (t : BuTerm) : t.sw.sw = t := by cases t <;> rfl

theorem BuTerm.eval_sw {bu : BiUnar} (h : bu.f.length = bu.g.length) (t : BuTerm) :
    t.sw.eval bu = t.eval bu.automorphicCopy := by
  cases t <;> try rfl
  show Except.ok _ = Except.ok _
  rw [h]; rfl

/-- The attribute with `f` and `g` exchanged. -/
def BuEq.sw (e : BuEq) : BuEq :=
  if (⟨e.left.sw, e.right.sw⟩ : BuEq) ∈ buAttributes then ⟨e.left.sw, e.right.sw⟩ else ⟨e.right.sw, e.left.sw⟩

theorem BuEq.sw_mem : ∀ e ∈ buAttributes, e.sw ∈ buAttributes := by decide +kernel

theorem BuEq.sw_sw : ∀ e ∈ buAttributes, e.sw.sw = e := by decide +kernel

theorem buSymStep_ok : ∀ e ∈ buAttributes, ∀ acc, buSymStep acc e = .ok (insert e.sw acc) := by
  intro e he acc
  have h : ∀ e ∈ buAttributes, ∃ i j, buIndex (buSymTerm e.left) = .ok i ∧ buIndex (buSymTerm e.right) = .ok j ∧
      (buAttributes.find? fun a =>
        some a.left == (if i > j then (buSymTerm e.right, buSymTerm e.left) else (buSymTerm e.left, buSymTerm e.right)).1 &&
        some a.right == (if i > j then (buSymTerm e.right, buSymTerm e.left) else (buSymTerm e.left, buSymTerm e.right)).2) =
        some e.sw := by
    intro e he
    have h1 : ∀ t, ∃ i, buIndex (buSymTerm t) = .ok i := fun t => by
      cases t
      · exact ⟨0, by decide⟩
      · exact ⟨2, by decide⟩
      · exact ⟨1, by decide⟩
      · exact ⟨6, by decide⟩
      · exact ⟨5, by decide⟩
      · exact ⟨4, by decide⟩
      · exact ⟨3, by decide⟩
    obtain ⟨i, hi⟩ := h1 e.left
    obtain ⟨j, hj⟩ := h1 e.right
    refine ⟨i, j, hi, hj, ?_⟩
    have h2 : ∀ e ∈ buAttributes, ∀ i ∈ List.range 7, ∀ j ∈ List.range 7, buIndex (buSymTerm e.left) = .ok i →
      buIndex (buSymTerm e.right) = .ok j → (buAttributes.find? fun a =>
        some a.left == (if i > j then (buSymTerm e.right, buSymTerm e.left) else (buSymTerm e.left, buSymTerm e.right)).1 &&
        some a.right == (if i > j then (buSymTerm e.right, buSymTerm e.left) else (buSymTerm e.left, buSymTerm e.right)).2) =
        some e.sw := by decide +kernel
    have hb : ∀ t i, buIndex t = .ok i → i ∈ List.range 7 := by
      intro t i h
      unfold buIndex at h
      split at h
      · cases h
      · split at h
        · rename_i t' k hk
          obtain rfl := Except.ok.inj h
          have := (List.findIdx?_eq_some_iff_findIdx_eq.1 hk).1
          exact List.mem_range.2 this
        · cases h
    exact h2 e he i (hb _ _ hi) j (hb _ _ hj) hi hj
  obtain ⟨i, j, h1, h2, h3⟩ := h e he
  unfold buSymStep
  simp only
  rw [h1, py_ok_bind, h2, py_ok_bind, h3]

theorem foldlM_insert : ∀ (l : List BuEq) (acc : Finset BuEq), (∀ e ∈ l, e ∈ buAttributes) →
    l.foldlM buSymStep acc = .ok (acc ∪ (l.map BuEq.sw).toFinset) := by
  intro l
  induction l with
  | nil => intro acc _; simp [List.foldlM, pure, Except.pure]
  | cons a l ih =>
    intro acc h
    rw [List.foldlM_cons, buSymStep_ok a (h a (by simp)), py_ok_bind, ih _ fun e he => h e (by simp [he])]
    refine congrArg Except.ok ?_
    ext x
    simp only [Finset.mem_union, Finset.mem_insert, List.map_cons, List.toFinset_cons]
    tauto

theorem buSymSet_ok (ord : SetOrder BuEq) {S : Finset BuEq} (h : ∀ e ∈ S, e ∈ buAttributes) :
    buSymSet ord S = .ok (S.image BuEq.sw) := by
  unfold buSymSet
  rw [foldlM_insert _ _ (fun e he => h e ((ord.mem _ _).1 he))]
  refine congrArg Except.ok ?_
  ext x
  simp only [Finset.mem_union, Finset.notMem_empty, false_or, List.mem_toFinset, List.mem_map, ord.mem,
    Finset.mem_image]

theorem image_sw_mem {S : Finset BuEq} (h : ∀ e ∈ S, e ∈ buAttributes) : ∀ e ∈ S.image BuEq.sw, e ∈ buAttributes := by
  intro e he
  obtain ⟨e', h1, rfl⟩ := Finset.mem_image.1 he
  exact BuEq.sw_mem e' (h e' h1)

theorem image_sw_sw {S : Finset BuEq} (h : ∀ e ∈ S, e ∈ buAttributes) : (S.image BuEq.sw).image BuEq.sw = S := by
  ext x
  rw [Finset.image_image, Finset.mem_image]
  constructor
  · rintro ⟨e, he, rfl⟩
    rw [Function.comp, BuEq.sw_sw e (h e he)]
    exact he
  · exact fun hx => ⟨x, hx, BuEq.sw_sw x (h x hx)⟩

theorem image_sw_subset {S T : Finset BuEq} (hS : ∀ e ∈ S, e ∈ buAttributes) (hT : ∀ e ∈ T, e ∈ buAttributes) :
    S.image BuEq.sw ⊆ T.image BuEq.sw ↔ S ⊆ T := by
  constructor
  · intro h
    rw [← image_sw_sw hS, ← image_sw_sw hT]
    exact Finset.image_subset_image h
  · exact fun h => Finset.image_subset_image h

theorem BiUnar.intentF_atts {bu : BiUnar} : ∀ e ∈ bu.intentF, e ∈ buAttributes := fun _ he => (mem_intentF.1 he).1

theorem BiUnar.val_copy {bu : BiUnar} (h : bu.f.length = bu.g.length) (t : BuTerm) :
    bu.automorphicCopy.val t = bu.val t.sw := by
  unfold BiUnar.val
  rw [BuTerm.eval_sw h]

theorem BiUnar.intentF_copy {bu : BiUnar} (h : bu.f.length = bu.g.length) :
    bu.automorphicCopy.intentF = bu.intentF.image BuEq.sw := by
  have key : ∀ e : BuEq, e ∈ buAttributes → (bu.automorphicCopy.val e.left = bu.automorphicCopy.val e.right ↔
      bu.val e.sw.left = bu.val e.sw.right) := by
    intro e _
    rw [val_copy h, val_copy h]
    unfold BuEq.sw
    split
    · rfl
    · exact eq_comm
  ext x
  rw [mem_intentF, Finset.mem_image]
  constructor
  · rintro ⟨h1, h2⟩
    exact ⟨x.sw, mem_intentF.2 ⟨BuEq.sw_mem x h1, (key x h1).1 h2⟩, BuEq.sw_sw x h1⟩
  · rintro ⟨e, he, rfl⟩
    obtain ⟨h1, h2⟩ := mem_intentF.1 he
    refine ⟨BuEq.sw_mem e h1, (key _ (BuEq.sw_mem e h1)).2 ?_⟩
    rw [BuEq.sw_sw e h1]
    exact h2

theorem Evaluates.copy {bu : BiUnar} (h : bu.Evaluates) (hl : bu.f.length = bu.g.length) :
    bu.automorphicCopy.Evaluates := by
  intro t
  obtain ⟨v, hv⟩ := h t.sw
  exact ⟨v, by rw [← BuTerm.eval_sw hl]; exact hv⟩

/-- The intent of the automorphic copy is the symmetric attribute set of the intent, for all pairs of tuples of the same
length for which the intent can be computed. -/
theorem C94_intent (ord : SetOrder BuEq) {bu : BiUnar} (hl : bu.f.length = bu.g.length) {I : Finset BuEq}
    (h : buIntent bu = .ok I) : ∃ J, buSymSet ord I = .ok J ∧ buIntent bu.automorphicCopy = .ok J ∧
      buSymSet ord J = .ok I := by
  have hE := evaluates_of_intent h
  rw [hE.intent] at h
  obtain rfl := Except.ok.inj h
  refine ⟨_, buSymSet_ok ord intentF_atts, ?_, ?_⟩
  · rw [(Evaluates.copy hE hl).intent, intentF_copy hl]
  · rw [buSymSet_ok ord (image_sw_mem intentF_atts), image_sw_sw intentF_atts]

/-- The implication holds for all bi-unars of all sizes. -/
def BuValid (imp : Imp BuEq) : Prop :=
  ∀ n bu, BiUnar.WF n bu → ∀ I, buIntent bu = .ok I → imp.premise ⊆ I → imp.conclusion ⊆ I

theorem image_sw_sdiff {S T : Finset BuEq} (hS : ∀ e ∈ S, e ∈ buAttributes) (hT : ∀ e ∈ T, e ∈ buAttributes) :
    (S \ T).image BuEq.sw = S.image BuEq.sw \ T.image BuEq.sw := by
  ext x
  simp only [Finset.mem_image, Finset.mem_sdiff]
  constructor
  · rintro ⟨e, ⟨h1, h2⟩, rfl⟩
    refine ⟨⟨e, h1, rfl⟩, ?_⟩
    rintro ⟨e', h3, h4⟩
    have := congrArg BuEq.sw h4
    rw [BuEq.sw_sw e' (hT e' h3), BuEq.sw_sw e (hS e h1)] at this
    exact h2 (this ▸ h3)
  · rintro ⟨⟨e, h1, rfl⟩, h2⟩
    exact ⟨e, ⟨h1, fun h => h2 ⟨e, h, rfl⟩⟩, rfl⟩

theorem reduced_atts {j : Imp BuEq} (h : ∀ e ∈ j.conclusion, e ∈ buAttributes) : ∀ e ∈ j.reduced, e ∈ buAttributes :=
  fun e he => h e (by unfold Imp.reduced at he; exact (Finset.mem_sdiff.1 he).1)

theorem buSymImp_ok (ord : SetOrder BuEq) {j : Imp BuEq} (h1 : ∀ e ∈ j.premise, e ∈ buAttributes)
    (h2 : ∀ e ∈ j.conclusion, e ∈ buAttributes) :
    buSymImp ord j = .ok ⟨j.premise.image BuEq.sw, j.reduced.image BuEq.sw⟩ := by
  unfold buSymImp
  rw [buSymSet_ok ord h1, py_ok_bind, buSymSet_ok ord (reduced_atts h2), py_ok_bind]

theorem valid_reduced {j : Imp BuEq} : BuValid j ↔ BuValid ⟨j.premise, j.reduced⟩ := by
  have : ∀ I : Finset BuEq, (j.premise ⊆ I → j.conclusion ⊆ I) ↔ (j.premise ⊆ I → j.reduced ⊆ I) := by
    intro I
    refine imp_congr_right fun hp => ?_
    unfold Imp.reduced
    constructor
    · exact fun h => Finset.sdiff_subset.trans h
    · intro h e he
      by_cases hep : e ∈ j.premise
      · exact hp hep
      · exact h (Finset.mem_sdiff.2 ⟨he, hep⟩)
  unfold BuValid
  simp only [this]

/-- An implication is valid iff its symmetric implication is; applying the symmetry twice gives an implication equal to
the given one. -/
theorem C94_implication (ord : SetOrder BuEq) {imp : Imp BuEq} (hp : ∀ e ∈ imp.premise, e ∈ buAttributes)
    (hc : ∀ e ∈ imp.conclusion, e ∈ buAttributes) : ∃ imp' imp'', buSymImp ord imp = .ok imp' ∧
      (BuValid imp ↔ BuValid imp') ∧ buSymImp ord imp' = .ok imp'' ∧ imp''.pyEq imp = true := by
  have hone : ∀ j : Imp BuEq, (∀ e ∈ j.premise, e ∈ buAttributes) → (∀ e ∈ j.conclusion, e ∈ buAttributes) →
      BuValid j → BuValid ⟨j.premise.image BuEq.sw, j.conclusion.image BuEq.sw⟩ := by
    intro j h1 h2 hv n bu hw I hI hPI
    rw [hw.evaluates.intent] at hI
    obtain rfl := Except.ok.inj hI
    have hl : bu.f.length = bu.g.length := hw.flen.trans hw.glen.symm
    have hcp := hv n _ hw.copy _ hw.copy.evaluates.intent
    rw [intentF_copy hl] at hcp
    have hback : ∀ S : Finset BuEq, (∀ e ∈ S, e ∈ buAttributes) →
        (S ⊆ bu.intentF.image BuEq.sw ↔ S.image BuEq.sw ⊆ bu.intentF) := by
      intro S hS
      rw [← image_sw_subset hS (image_sw_mem intentF_atts), image_sw_sw intentF_atts]
    exact (hback _ h2).1 (hcp ((hback _ h1).2 hPI))
  have hr := reduced_atts hc
  refine ⟨_, _, buSymImp_ok ord hp hc, ⟨fun h => ?_, fun h => ?_⟩, buSymImp_ok ord (image_sw_mem hp) (image_sw_mem hr), ?_⟩
  · exact hone ⟨imp.premise, imp.reduced⟩ hp hr (valid_reduced.1 h)
  · have := hone _ (image_sw_mem hp) (image_sw_mem hr) h
    simp only [image_sw_sw hp, image_sw_sw hr] at this
    exact valid_reduced.2 this
  · unfold Imp.pyEq
    simp only [Imp.reduced, image_sw_sw hp, Bool.and_eq_true, beq_iff_eq, true_and]
    have h1 : ∀ e ∈ imp.conclusion \ imp.premise, e ∈ buAttributes := hr
    rw [image_sw_sdiff (image_sw_mem h1) (image_sw_mem hp), image_sw_sw h1, image_sw_sw hp]
    simp

theorem buOrbitLoop_spec {S T : Finset BuEq} : ∀ l : List BuEq,
    (buOrbitLoop S T l = true ∨ buOrbitLoop T S l = true) ∧
    (buOrbitLoop S T l = true ∧ buOrbitLoop T S l = true ↔ ∀ a ∈ l, a ∈ S ↔ a ∈ T) := by
  intro l
  induction l with
  | nil => simp [buOrbitLoop]
  | cons a l ih =>
    unfold buOrbitLoop
    by_cases h1 : a ∈ S <;> by_cases h2 : a ∈ T <;> simp [h1, h2, ih]

/-- Of two symmetric attribute sets at least one is orbit maximal, and both are only if they are equal: the condition
selects exactly one set of each orbit. -/
theorem C94_orbit_maximal (ord : SetOrder BuEq) {S : Finset BuEq} (hS : ∀ e ∈ S, e ∈ buAttributes) :
    ∃ T b b', buSymSet ord S = .ok T ∧ buOrbitMaximal ord S = .ok b ∧ buOrbitMaximal ord T = .ok b' ∧
      (b = true ∨ b' = true) ∧ (b = true ∧ b' = true ↔ T = S) := by
  refine ⟨_, buOrbitLoop S (S.image BuEq.sw) buAttributes, buOrbitLoop (S.image BuEq.sw) S buAttributes,
    buSymSet_ok ord hS, ?_, ?_, ?_⟩
  · unfold buOrbitMaximal
    rw [buSymSet_ok ord hS, py_ok_bind]
  · unfold buOrbitMaximal
    rw [buSymSet_ok ord (image_sw_mem hS), py_ok_bind, image_sw_sw hS]
  · obtain ⟨h1, h2⟩ := buOrbitLoop_spec (S := S) (T := S.image BuEq.sw) buAttributes
    refine ⟨h1, h2.trans ⟨fun h => ?_, fun h => ?_⟩⟩
    · ext a
      constructor
      · intro ha; exact (h a (image_sw_mem hS a ha)).2 ha
      · intro ha; exact (h a (hS a ha)).1 ha
    · intro a _; rw [h]

/-- `get_symmetric_equality` gives the symmetric attribute or None. -/
theorem C94_equality_partial : ∀ e ∈ buAttributes, ∀ a, buSymEq e = some a → a = e.sw ∧ a ∈ buAttributes := by
  have : ∀ e ∈ buAttributes, buSymEq e = none ∨ buSymEq e = some e.sw := by decide +kernel
  intro e he a ha
  rcases this e he with h | h
  · rw [h] at ha; cases ha
  · rw [h] at ha
    obtain rfl := Option.some.inj ha
    exact ⟨rfl, BuEq.sw_mem e he⟩

/-- It is None for `f = g` and six more of the 21 attributes: the text of the copy is `g = f`. -/
theorem C94_equality_violated : buSymEq ⟨.f, .g⟩ = none ∧
    buAttributes.filter (fun e => buSymEq e == none) =
      [⟨.f, .g⟩, ⟨.ff, .fg⟩, ⟨.ff, .gf⟩, ⟨.ff, .gg⟩, ⟨.fg, .gf⟩, ⟨.fg, .gg⟩, ⟨.gf, .gg⟩] := by decide +kernel

/-! ### C95: background implications -/

theorem mem_buBackground {atts : List BuEq} {i : Imp BuEq} : i ∈ buBackground atts ↔
    ∃ x ∈ atts, ∃ y ∈ atts, ∃ z ∈ atts, buTriangle x y z = true ∧ i = ⟨{x, y}, {z}⟩ := by
  unfold buBackground
  simp only [List.mem_flatMap, List.mem_map, List.mem_filter]
  constructor
  · rintro ⟨x, hx, y, hy, z, ⟨hz, ht⟩, rfl⟩
    exact ⟨x, hx, y, hy, z, hz, ht, rfl⟩
  · rintro ⟨x, hx, y, hy, z, hz, ht, rfl⟩
    exact ⟨x, hx, y, hy, z, ⟨hz, ht⟩, rfl⟩

theorem buTriangle_iff {x y z : BuEq} : buTriangle x y z = true ↔
    (x.left = z.left ∧ x.right = y.left ∧ y.right = z.right) ∨ (x.left = z.left ∧ x.right = y.right ∧ y.left = z.right) ∨
    (x.left = y.left ∧ x.right = z.left ∧ y.right = z.right) := by
  unfold buTriangle
  simp only [Bool.or_eq_true, Bool.and_eq_true, beq_iff_eq, and_assoc, or_assoc]

/-- The attribute between two terms. -/
def buEdge (s t : BuTerm) : BuEq := if (⟨s, t⟩ : BuEq) ∈ buAttributes then ⟨s, t⟩ else ⟨t, s⟩

/-- The sets of equalities that respect the background are the restrictions of equivalence relations on the terms. -/
theorem C95_closed_iff {S : Finset BuEq} : Closed (specImps (buBackground buAttributes)) S ↔
    ∃ r : BuTerm → BuTerm → Prop, Equivalence r ∧ ∀ e ∈ buAttributes, e ∈ S ↔ r e.left e.right := by
  rw [closed_specImps]
  constructor
  · intro h
    have h3 : ∀ x y z, x ∈ buAttributes → y ∈ buAttributes → z ∈ buAttributes → buTriangle x y z = true → x ∈ S → y ∈ S →
        z ∈ S := by
      intro x y z hx hy hz ht hxS hyS
      have := h ⟨{x, y}, {z}⟩ (mem_buBackground.2 ⟨x, hx, y, hy, z, hz, ht, rfl⟩) (by
        intro a ha
        rcases Finset.mem_insert.1 ha with rfl | ha
        · exact hxS
        · rw [Finset.mem_singleton.1 ha]; exact hyS)
      exact this (Finset.mem_singleton_self _)
    have hsymm : ∀ s t : BuTerm, s ≠ t → buEdge s t = buEdge t s := by decide +kernel
    have hmem : ∀ s t : BuTerm, s ≠ t → buEdge s t ∈ buAttributes := by decide +kernel
    have htri : ∀ s t u : BuTerm, s ≠ t → t ≠ u → s ≠ u → buTriangle (buEdge s t) (buEdge t u) (buEdge s u) = true ∨
        buTriangle (buEdge t u) (buEdge s t) (buEdge s u) = true := by decide +kernel
    refine ⟨fun s t => s = t ∨ buEdge s t ∈ S, ⟨fun s => .inl rfl, ?_, ?_⟩, ?_⟩
    · intro s t hst
      rcases hst with h | h
      · exact .inl h.symm
      · by_cases hst : s = t
        · exact .inl hst.symm
        · exact .inr (hsymm s t hst ▸ h)
    · intro s t u h1 h2
      by_cases hst : s = t
      · subst hst; exact h2
      by_cases htu : t = u
      · subst htu; exact h1
      by_cases hsu : s = u
      · exact .inl hsu
      right
      have h1 := h1.resolve_left hst
      have h2 := h2.resolve_left htu
      rcases htri s t u hst htu hsu with ht | ht
      · exact h3 _ _ _ (hmem s t hst) (hmem t u htu) (hmem s u hsu) ht h1 h2
      · exact h3 _ _ _ (hmem t u htu) (hmem s t hst) (hmem s u hsu) ht h2 h1
    · intro e he
      have : e.left ≠ e.right ∧ buEdge e.left e.right = e := by
        revert e; decide +kernel
      constructor
      · intro heS; exact .inr (this.2.symm ▸ heS)
      · rintro (h | h)
        · exact absurd h this.1
        · exact this.2 ▸ h
  · rintro ⟨r, hr, hS⟩ i hi hp
    obtain ⟨x, hx, y, hy, z, hz, ht, rfl⟩ := mem_buBackground.1 hi
    have h1 := (hS x hx).1 (hp (by simp))
    have h2 := (hS y hy).1 (hp (by simp))
    intro a ha
    rw [Finset.mem_singleton.1 ha, hS z hz]
    rcases buTriangle_iff.1 ht with ⟨e1, e2, e3⟩ | ⟨e1, e2, e3⟩ | ⟨e1, e2, e3⟩
    · rw [← e1, ← e3]
      exact hr.trans h1 (e2 ▸ h2)
    · rw [← e1, ← e3]
      exact hr.trans h1 (e2 ▸ hr.symm h2)
    · rw [← e2, ← e3]
      exact hr.trans (hr.symm h1) (e1 ▸ h2)

/-- An equality follows from a set of equalities under the background iff it follows by reflexivity, symmetry and
transitivity. -/
theorem C95_entails {S : Finset BuEq} (hS : ∀ e ∈ S, e ∈ buAttributes) {e : BuEq} (he : e ∈ buAttributes) :
    Entails (specImps (buBackground buAttributes)) S {e} ↔
      Relation.EqvGen (fun s t => (⟨s, t⟩ : BuEq) ∈ S) e.left e.right := by
  classical
  constructor
  · intro h
    let T : Finset BuEq := buAttributes.toFinset.filter fun a =>
      Relation.EqvGen (fun s t => (⟨s, t⟩ : BuEq) ∈ S) a.left a.right
    have hT : Closed (specImps (buBackground buAttributes)) T := by
      refine C95_closed_iff.2 ⟨_, Relation.EqvGen.is_equivalence fun s t => (⟨s, t⟩ : BuEq) ∈ S, fun a ha => ?_⟩
      simp [T, ha]
    have := h T hT fun a ha => by
      simp only [T, Finset.mem_filter, List.mem_toFinset]
      exact ⟨hS a ha, Relation.EqvGen.rel _ _ ha⟩
    have := this (Finset.mem_singleton_self e)
    simp only [T, Finset.mem_filter] at this
    exact this.2
  · intro h T hT hST a ha
    obtain ⟨r, hr, hrT⟩ := C95_closed_iff.1 hT
    rw [Finset.mem_singleton.1 ha, hrT e he]
    have hmono : ∀ s t, Relation.EqvGen (fun s t => (⟨s, t⟩ : BuEq) ∈ S) s t → r s t := by
      intro s t hst
      induction hst with
      | rel s t h => exact (hrT _ (hS _ h)).1 (hST h)
      | refl s => exact hr.refl s
      | symm s t _ ih => exact hr.symm ih
      | trans s t u _ _ ih1 ih2 => exact hr.trans ih1 ih2
    exact hmono _ _ h

/-- Every intent respects the background. -/
theorem C95_sound {bu : BiUnar} {I : Finset BuEq} (h : buIntent bu = .ok I) :
    Closed (specImps (buBackground buAttributes)) I := by
  rw [(evaluates_of_intent h).intent] at h
  obtain rfl := Except.ok.inj h
  refine C95_closed_iff.2 ⟨fun s t => bu.val s = bu.val t, ⟨fun _ => rfl, fun h => h.symm, fun h1 h2 => h1.trans h2⟩, ?_⟩
  intro e he
  rw [mem_intentF]
  exact and_iff_right he

/-- `f = g` follows from `id = f` and `id = g`, and `f = ff` does not. -/
example : Entails (specImps (buBackground buAttributes)) {⟨.id, .f⟩, ⟨.id, .g⟩} {⟨.f, .g⟩} ∧
    ¬ Entails (specImps (buBackground buAttributes)) {⟨.id, .f⟩, ⟨.id, .g⟩} {⟨.f, .ff⟩} := by
  constructor
  · rw [C95_entails (by decide +kernel) (by decide +kernel)]
    exact .trans _ BuTerm.id _ (.symm _ _ (.rel _ _ (by decide))) (.rel _ _ (by decide))
  · rw [C95_entails (by decide +kernel) (by decide +kernel)]
    intro h
    have key : ∀ s t, Relation.EqvGen (fun s t => (⟨s, t⟩ : BuEq) ∈ ({⟨.id, .f⟩, ⟨.id, .g⟩} : Finset BuEq)) s t →
        (s = .ff ↔ t = .ff) := by
      intro s t hst
      induction hst with
      | rel s t h => revert s t; decide
      | refl s => rfl
      | symm s t _ ih => exact ih.symm
      | trans s t u _ _ h1 h2 => exact h1.trans h2
    exact absurd ((key _ _ h).2 rfl) (by decide)

/-! ### C96: examples -/

theorem mem_pyProduct {γ : Type} {l : List γ} {k : ℕ} {t : List γ} :
    t ∈ pyProduct l k ↔ t.length = k ∧ ∀ x ∈ t, x ∈ l := by
  induction k generalizing t with
  | zero =>
    simp only [pyProduct, List.mem_singleton, List.length_eq_zero_iff]
    constructor
    · rintro rfl; simp
    · exact fun h => h.1
  | succ k ih =>
    simp only [pyProduct, List.mem_flatMap, List.mem_map]
    constructor
    · rintro ⟨x, hx, t', ht', rfl⟩
      obtain ⟨h1, h2⟩ := ih.1 ht'
      refine ⟨by simp [h1], fun y hy => ?_⟩
      rcases List.mem_cons.1 hy with rfl | hy
      · exact hx
      · exact h2 y hy
    · rintro ⟨h1, h2⟩
      cases t with
      | nil => simp at h1
      | cons x t =>
        exact ⟨x, h2 x (by simp), t, ih.2 ⟨by simpa using h1, fun y hy => h2 y (by simp [hy])⟩, rfl⟩

theorem pyProduct_nodup {γ : Type} {l : List γ} (h : l.Nodup) (k : ℕ) : (pyProduct l k).Nodup := by
  induction k with
  | zero => simp [pyProduct]
  | succ k ih =>
    rw [pyProduct, List.nodup_flatMap]
    refine ⟨fun x _ => ih.map fun a b hab => (List.cons.inj hab).2, ?_⟩
    refine h.imp fun {x y} hxy => ?_
    intro t h1 h2
    obtain ⟨a, -, rfl⟩ := List.mem_map.1 h1
    obtain ⟨b, -, hb⟩ := List.mem_map.1 h2
    exact hxy (List.cons.inj hb).1.symm

/-- `generate_examples(n)` lists every pair of maps of `{1, …, n}` into itself exactly once. -/
theorem C96_examples (n : ℕ) : (∀ bu, bu ∈ buExamples n ↔ bu.WF n) ∧ (buExamples n).Nodup := by
  have hr : ∀ x : ℤ, (x ∈ (List.range n).map fun (k : ℕ) => (k : ℤ) + 1) ↔ 1 ≤ x ∧ x ≤ n := by
    intro x
    rw [List.mem_map]
    constructor
    · rintro ⟨k, hk, rfl⟩
      have := List.mem_range.1 hk
      omega
    · rintro ⟨h1, h2⟩
      exact ⟨(x - 1).toNat, List.mem_range.2 (by omega), by omega⟩
  have hnd : ((List.range n).map fun (k : ℕ) => (k : ℤ) + 1).Nodup :=
    List.nodup_range.map fun a b hab => by
      have : (a : ℤ) + 1 = b + 1 := hab
      omega
  constructor
  · intro bu
    unfold buExamples
    simp only [List.mem_flatMap, List.mem_map, mem_pyProduct]
    constructor
    · rintro ⟨f, ⟨h1, h2⟩, g, ⟨h3, h4⟩, rfl⟩
      exact ⟨h1, h3, fun x hx => (hr x).1 (List.mem_map.2 (h2 x hx)), fun x hx => (hr x).1 (List.mem_map.2 (h4 x hx))⟩
    · intro h
      exact ⟨bu.f, ⟨h.flen, fun x hx => List.mem_map.1 ((hr x).2 (h.frange x hx))⟩, bu.g,
        ⟨h.glen, fun x hx => List.mem_map.1 ((hr x).2 (h.grange x hx))⟩, rfl⟩
  · unfold buExamples
    rw [List.nodup_flatMap]
    refine ⟨fun f _ => (pyProduct_nodup hnd n).map fun a b hab => by injection hab, ?_⟩
    refine (pyProduct_nodup hnd n).imp fun {f f'} hff => ?_
    intro t h1 h2
    obtain ⟨a, -, rfl⟩ := List.mem_map.1 h1
    obtain ⟨b, -, hb⟩ := List.mem_map.1 h2
    injection hb with hb _
    exact hff hb.symm

theorem buFindLoop_spec (imp : Imp BuEq) : ∀ l : List BiUnar, (∀ bu ∈ l, bu.Evaluates) →
    (buFindLoop imp l = .ok none ∧ ∀ bu ∈ l, imp.premise ⊆ bu.intentF → imp.conclusion ⊆ bu.intentF) ∨
    ∃ bu ∈ l, buFindLoop imp l = .ok (some bu) ∧ imp.premise ⊆ bu.intentF ∧ ¬ imp.conclusion ⊆ bu.intentF := by
  intro l
  induction l with
  | nil => intro _; exact .inl ⟨rfl, by simp⟩
  | cons a l ih =>
    intro h
    unfold buFindLoop
    rw [(h a (by simp)).intent, py_ok_bind]
    by_cases hr : imp.isRespected a.intentF = true
    · rw [hr, if_neg (by simp)]
      rcases ih fun bu hbu => h bu (by simp [hbu]) with ⟨h1, h2⟩ | ⟨bu, h1, h2, h3⟩
      · refine .inl ⟨h1, fun bu hbu => ?_⟩
        rcases List.mem_cons.1 hbu with rfl | hbu
        · exact (Imp.isRespected_iff' imp _).1 hr
        · exact h2 bu hbu
      · exact .inr ⟨bu, by simp [h1], h2, h3⟩
    · have hr' : imp.isRespected a.intentF = false := by simpa using hr
      rw [hr', if_pos (by rfl)]
      rw [Imp.isRespected_iff'] at hr
      push Not at hr
      exact .inr ⟨a, by simp, rfl, hr.1, hr.2⟩

/-- `find_counter_example(n, imp)` never raises; it returns None if the implication holds for all bi-unars of size `n`,
and otherwise one of them that violates it. -/
theorem C96_find (n : ℕ) (imp : Imp BuEq) :
    (buFindCounterExample n imp = .ok none ∧
      ∀ bu, BiUnar.WF n bu → ∀ I, buIntent bu = .ok I → imp.premise ⊆ I → imp.conclusion ⊆ I) ∨
    ∃ bu I, BiUnar.WF n bu ∧ buIntent bu = .ok I ∧ buFindCounterExample n imp = .ok (some bu) ∧ imp.premise ⊆ I ∧
      ¬ imp.conclusion ⊆ I := by
  have hm := (C96_examples n).1
  rcases buFindLoop_spec imp (buExamples n) fun bu hbu => ((hm bu).1 hbu).evaluates with ⟨h1, h2⟩ | ⟨bu, h1, h2, h3, h4⟩
  · refine .inl ⟨h1, fun bu hw I hI => ?_⟩
    rw [hw.evaluates.intent] at hI
    obtain rfl := Except.ok.inj hI
    exact h2 bu ((hm bu).2 hw)
  · exact .inr ⟨bu, _, (hm bu).1 h1, ((hm bu).1 h1).evaluates.intent, h2, h3, h4⟩

/-- `generate_partial_counterexample(imp, bu)`: the certain attributes hold, the attributes that hold are possible, only
attributes of the implication are decided, and the partial example refutes the implication iff the bi-unar does. -/
theorem C96_partial (ord : SetOrder BuEq) {imp : Imp BuEq} (hp : ∀ e ∈ imp.premise, e ∈ buAttributes)
    (hc : ∀ e ∈ imp.conclusion, e ∈ buAttributes) {bu : BiUnar} {I : Finset BuEq} (h : buIntent bu = .ok I) :
    ∃ x q, buPartialExample ord imp bu = .ok (x, q) ∧ x ⊆ I ∧ I ⊆ q ∧ (∀ e ∈ q, e ∈ buAttributes) ∧
      (∀ e ∈ q, e ∉ x → e ∉ imp.premise ∧ e ∉ imp.conclusion) ∧
      imp.isRespectedPartial (x, q) = imp.isRespected I := by
  have hE := evaluates_of_intent h
  rw [hE.intent] at h
  obtain rfl := Except.ok.inj h
  have hu : imp.premise ∪ imp.reduced = imp.premise ∪ imp.conclusion := by
    unfold Imp.reduced
    exact Finset.union_sdiff_self_eq_union
  unfold buPartialExample
  rw [hu]
  simp only
  rw [buHolding_ok hE, py_ok_bind]
  have hx : ∀ e, (e ∈ ((ord.enum (imp.premise ∪ imp.conclusion)).filter fun e =>
      bu.val e.left == bu.val e.right).toFinset) ↔ (e ∈ imp.premise ∨ e ∈ imp.conclusion) ∧ e ∈ bu.intentF := by
    intro e
    rw [List.mem_toFinset, List.mem_filter, ord.mem, Finset.mem_union, mem_intentF, beq_iff_eq]
    constructor
    · rintro ⟨h1, h2⟩
      exact ⟨h1, h1.elim (hp e) (hc e), h2⟩
    · rintro ⟨h1, -, h2⟩; exact ⟨h1, h2⟩
  have hq : ∀ e, (e ∈ (buAttributes.toFinset \ (imp.premise ∪ imp.conclusion)) ∪
      ((ord.enum (imp.premise ∪ imp.conclusion)).filter fun e => bu.val e.left == bu.val e.right).toFinset) ↔
      (e ∈ buAttributes ∧ ¬ (e ∈ imp.premise ∨ e ∈ imp.conclusion)) ∨
      ((e ∈ imp.premise ∨ e ∈ imp.conclusion) ∧ e ∈ bu.intentF) := by
    intro e
    rw [Finset.mem_union, hx, Finset.mem_sdiff, List.mem_toFinset, Finset.mem_union]
  refine ⟨_, _, rfl, fun e he => ((hx e).1 he).2, fun e he => ?_, fun e he => ?_, fun e he hn => ?_, ?_⟩
  · rw [hq]
    by_cases hr : e ∈ imp.premise ∨ e ∈ imp.conclusion
    · exact .inr ⟨hr, he⟩
    · exact .inl ⟨intentF_atts e he, hr⟩
  · rcases (hq e).1 he with h1 | h1
    · exact h1.1
    · exact h1.1.elim (hp e) (hc e)
  · rcases (hq e).1 he with h1 | h1
    · exact not_or.1 h1.2
    · exact absurd ((hx e).2 h1) hn
  · rw [Bool.eq_iff_iff]
    simp only [Imp.isRespectedPartial, Bool.or_eq_true, decide_eq_true_eq, Bool.not_eq_true', decide_eq_false_iff_not]
    rw [Imp.isRespected_iff']
    constructor
    · rintro (h1 | h1) hP
      · intro e he
        by_cases hep : e ∈ imp.premise
        · exact hP hep
        · rcases (hq e).1 (h1 (by unfold Imp.reduced; exact Finset.mem_sdiff.2 ⟨he, hep⟩)) with h2 | h2
          · exact absurd (.inr he) h2.2
          · exact h2.2
      · exact absurd (fun e he => (hx e).2 ⟨.inl he, hP he⟩) h1
    · intro h1
      by_cases hP : imp.premise ⊆ bu.intentF
      · left
        intro e he
        have he' : e ∈ imp.conclusion := by
          unfold Imp.reduced at he; exact (Finset.mem_sdiff.1 he).1
        exact (hq e).2 (.inr ⟨.inr he', h1 hP he'⟩)
      · right
        intro hs
        exact hP fun e he => ((hx e).1 (hs he)).2

/-- `generate_context` raises TypeError for every size and every non-empty attribute list. -/
theorem C96_context_violated [PyName BiUnar] [PyName BuEq] (n : ℕ) {atts : List BuEq} (ha : atts ≠ []) :
    buContext n atts = .error .typeError := by
  have hm := (C96_examples n).1
  unfold buContext
  simp only
  rw [mapM_ok (g := fun o : BiUnar => atts.map fun a => o.val a.left == o.val a.right) (fun o ho =>
    mapM_ok (fun a _ => (((hm o).1 ho).evaluates).holds a)), py_ok_bind]
  have hne : buExamples n ≠ [] := by
    have : (⟨List.replicate n 1, List.replicate n 1⟩ : BiUnar) ∈ buExamples n := by
      refine (hm _).2 ⟨by simp, by simp, ?_, ?_⟩ <;>
      · intro x hx
        obtain ⟨h1, rfl⟩ := List.mem_replicate.1 hx
        omega
    exact List.ne_nil_of_mem this
  unfold PCtx.make
  obtain ⟨o, os, ho⟩ := List.exists_cons_of_ne_nil hne
  obtain ⟨a, as, rfl⟩ := List.exists_cons_of_ne_nil ha
  rw [ho]
  simp [subseteqTable]

/-! Concrete cases: `f = (2, 2)`, `g = (1, 2)`. -/

example : (⟨[2, 2], [1, 2]⟩ : BiUnar).WF 2 ∧
    buIntent ⟨[2, 2], [1, 2]⟩ = .ok {⟨.id, .g⟩, ⟨.id, .gg⟩, ⟨.f, .ff⟩, ⟨.f, .fg⟩, ⟨.f, .gf⟩, ⟨.g, .gg⟩, ⟨.ff, .fg⟩, ⟨.ff, .gf⟩, ⟨.fg, .gf⟩} ∧
    buIntent (BiUnar.automorphicCopy ⟨[2, 2], [1, 2]⟩) = .ok {⟨.id, .f⟩, ⟨.id, .ff⟩, ⟨.f, .ff⟩, ⟨.g, .fg⟩, ⟨.g, .gf⟩, ⟨.g, .gg⟩, ⟨.fg, .gf⟩, ⟨.fg, .gg⟩, ⟨.gf, .gg⟩} := by
  refine ⟨⟨by decide, by decide, by decide, by decide⟩, by decide +kernel, by decide +kernel⟩

example : buFindCounterExample 2 ⟨{⟨.f, .g⟩}, {⟨.id, .f⟩}⟩ = .ok (some ⟨[1, 1], [1, 1]⟩) ∧
    buFindCounterExample 2 ⟨{⟨.id, .f⟩}, {⟨.g, .fg⟩}⟩ = .ok none ∧ (buExamples 2).length = 16 := by
  decide +kernel
