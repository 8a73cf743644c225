/-
C143: a `BasicExploration` led by a user who answers truthfully about a domain ends with the theory of the domain.
-/
import Mathlib.Data.Fintype.BigOperators
import Verif.Props.BasicExploration

set_option linter.unusedSectionVars false

open Spec

variable {α β : Type} [DecidableEq α] [DecidableEq β]

namespace BExp

open Ctx

/-- The domain that is explored: all its objects, all its attributes, and which object has which attribute. -/
structure Domain (α β : Type) where
  objs : Finset α
  atts : Finset β
  has : α → β → Prop

/-- The context is a part of the domain. -/
structure Domain.Contains (D : Domain α β) (c : Ctx α β) : Prop where
  objs : ∀ o ∈ c.objects, o ∈ D.objs
  atts : ∀ a ∈ c.attributes, a ∈ D.atts
  inc : ∀ o ∈ c.objects, ∀ a ∈ c.attributes, (c.Inc o a ↔ D.has o a)

/-- The calls of a user who tells the truth about the domain: an open implication is confirmed if it holds in the
domain; a counterexample is an object (attribute) of the domain that violates the implication, with what it has
among the attributes (objects) of the current context; and objects and attributes of the domain are added. -/
inductive Truthful (D : Domain α β) (s : BExp α β) : Op α β → Prop where
  | confirmAttr {i : ℕ} {imp : Imp β} (hi : s.attrImps[i]? = some imp)
      (h : ∀ g ∈ D.objs, (∀ m ∈ imp.premise, D.has g m) → ∀ m ∈ imp.conclusion, D.has g m) :
      Truthful D s (.confirmAttr i)
  | confirmObj {i : ℕ} {imp : Imp α} (hi : s.objImps[i]? = some imp)
      (h : ∀ m ∈ D.atts, (∀ g ∈ imp.premise, D.has g m) → ∀ g ∈ imp.conclusion, D.has g m) :
      Truthful D s (.confirmObj i)
  | counterAttr {i : ℕ} {imp : Imp β} (hi : s.attrImps[i]? = some imp) {g : α} (hg : g ∈ D.objs)
      (hp : ∀ m ∈ imp.premise, D.has g m) (hc : ∃ m ∈ imp.conclusion, ¬ D.has g m) {B : Finset β}
      (hB : ∀ m ∈ s.ctx.attributes, (m ∈ B ↔ D.has g m)) : Truthful D s (.counterAttr g B i)
  | counterObj {i : ℕ} {imp : Imp α} (hi : s.objImps[i]? = some imp) {m : β} (hm : m ∈ D.atts)
      (hp : ∀ g ∈ imp.premise, D.has g m) (hc : ∃ g ∈ imp.conclusion, ¬ D.has g m) {A : Finset α}
      (hA : ∀ g ∈ s.ctx.objects, (g ∈ A ↔ D.has g m)) : Truthful D s (.counterObj m A i)
  | addObject {g : α} (hg : g ∈ D.objs) (hn : g ∉ s.ctx.objects) {B : Finset β}
      (hB : ∀ m ∈ s.ctx.attributes, (m ∈ B ↔ D.has g m)) : Truthful D s (.addObject B g)
  | addAttribute {m : β} (hm : m ∈ D.atts) (hn : m ∉ s.ctx.attributes) {A : Finset α}
      (hA : ∀ g ∈ s.ctx.objects, (g ∈ A ↔ D.has g m)) : Truthful D s (.addAttribute A m)

/-- The implications of the list are pairwise different for `Implication.__eq__`. -/
def Distinct {γ : Type} [DecidableEq γ] (L : List (Imp γ)) : Prop := (L.map Imp.key).Nodup

theorem pyEq_key {γ : Type} [DecidableEq γ] (i j : Imp γ) : i.pyEq j = true ↔ i.key = j.key := by
  simp [Imp.pyEq, Imp.key]

theorem distinct_open {γ : Type} [DecidableEq γ] {L K : List (Imp γ)} (h : (L.map Imp.premise).Nodup)
    (hK : Distinct K) : Distinct (openOnes L K ++ K) := by
  unfold Distinct
  rw [List.map_append, List.nodup_append]
  refine ⟨?_, hK, ?_⟩
  · have h1 : ((openOnes L K).map Imp.premise).Nodup :=
      h.sublist (List.Sublist.map _ List.filter_sublist)
    refine List.Nodup.of_map Prod.fst ?_
    rw [List.map_map]
    exact h1
  · intro k hk k' hk' he
    obtain ⟨i, hi, rfl⟩ := List.mem_map.1 hk
    obtain ⟨j, hj, rfl⟩ := List.mem_map.1 hk'
    have := (mem_openOnes.1 hi).2 j hj
    rw [← Bool.not_eq_true, pyEq_key] at this
    exact this he.symm

theorem distinct_perm {γ : Type} [DecidableEq γ] {L K : List (Imp γ)} (h : L.Perm K) (hK : Distinct K) :
    Distinct L := (h.map Imp.key).nodup_iff.2 hK

/-- There are at most `3 ^ n` implications, up to `Implication.__eq__`, over `n` names. -/
theorem distinct_length {M : Finset β} {L : List (Imp β)} (h : Distinct L) (ho : Over M L) :
    L.length ≤ 3 ^ M.card := by
  let f : Finset β × Finset β → (M → Fin 3) := fun k m => if m.1 ∈ k.1 then 0 else if m.1 ∈ k.2 then 1 else 2
  have hinj : ∀ i ∈ L, ∀ j ∈ L, f i.key = f j.key → i.key = j.key := by
    intro i hi j hj he
    have hpt : ∀ m ∈ M, (m ∈ i.premise ↔ m ∈ j.premise) ∧ (m ∈ i.reduced ↔ m ∈ j.reduced) := by
      intro m hm
      have h1 := congrFun he ⟨m, hm⟩
      have hi0 : m ∈ i.reduced → m ∉ i.premise := fun h => (Finset.mem_sdiff.1 h).2
      have hj0 : m ∈ j.reduced → m ∉ j.premise := fun h => (Finset.mem_sdiff.1 h).2
      simp only [f, Imp.key] at h1
      by_cases a : m ∈ i.premise <;> by_cases b : m ∈ j.premise <;> by_cases c : m ∈ i.reduced <;>
        by_cases d : m ∈ j.reduced <;> simp_all
    have hred : ∀ k ∈ L, k.reduced ⊆ M := fun k hk => Finset.sdiff_subset.trans (ho k hk).2
    unfold Imp.key
    rw [Prod.mk.injEq]
    constructor <;> ext m
    · exact ⟨fun hm => ((hpt m ((ho i hi).1 hm)).1).1 hm, fun hm => ((hpt m ((ho j hj).1 hm)).1).2 hm⟩
    · exact ⟨fun hm => ((hpt m (hred i hi hm)).2).1 hm, fun hm => ((hpt m (hred j hj hm)).2).2 hm⟩
  have hnd : ((L.map Imp.key).map f).Nodup := by
    refine List.Nodup.map_on ?_ h
    intro x hx y hy he
    obtain ⟨i, hi, rfl⟩ := List.mem_map.1 hx
    obtain ⟨j, hj, rfl⟩ := List.mem_map.1 hy
    exact hinj i hi j hj he
  have := hnd.length_le_card
  rw [Fintype.card_fun, Fintype.card_fin, Fintype.card_coe] at this
  simpa using this

theorem attrBasis_nodup {E : Env α β} (hs : ∀ l, (E.sortA l).Perm l) {c : Ctx α β} (h : c.WFw)
    (hne : c.objects ≠ []) {a : List (Imp β)} (ha : attrBasis E c = .ok a) : (a.map Imp.premise).Nodup := by
  obtain ⟨pre, basis, h1, h2, -⟩ := AI.main h (h.cols hne) hs (close := simpleClosure)
    fun s L _ => simpleClosure_isLeast s L
  unfold attrBasis at ha
  rw [h1] at ha
  cases ha
  exact h2.nd

variable [PyName α] [PyName β]

theorem objBasis_nodup {E : Env α β} (hs : ∀ l, (E.sortO l).Perm l) {c : Ctx α β} (h : c.WFw)
    (hne : c.attributes ≠ []) {a : List (Imp α)} (ha : objBasis E c = .ok a) : (a.map Imp.premise).Nodup := by
  obtain ⟨d, hd, -⟩ := h.transpose
  obtain ⟨h1, h2, h3, h4⟩ := h.transpose_inc hd
  unfold objBasis at ha
  rw [hd] at ha
  exact attrBasis_nodup (E := ⟨E.sortO, E.sortA, E.ordO, E.ordA⟩) hs h1.toWFw (by rw [h2]; exact hne) ha

/-- A sequence of truthful calls. -/
def TruthfulRun (E : Env α β) (D : Domain α β) : BExp α β → List (Op α β) → Prop
  | _, [] => True
  | s, op :: ops => Truthful D s op ∧ TruthfulRun E D (s.exec E op).1 ops

/-- Invariant of a truthful exploration. -/
structure TInv (D : Domain α β) (s : BExp α β) : Prop where
  inv : Inv s
  sub : D.Contains s.ctx
  av : Valid D.objs D.has s.confAttr
  ov : Valid D.atts (fun a o => D.has o a) s.confObj
  ak : Distinct (s.attrImps ++ s.confAttr)
  ok : Distinct (s.objImps ++ s.confObj)

theorem recompute_distinct {E : Env α β} (hE : E.Ok) {t s' : BExp α β} (h : t.ctx.WFw) (h1 : t.ctx.objects ≠ [])
    (h2 : t.ctx.attributes ≠ []) (hr : recompute E t = (s', none)) (ha : Distinct t.confAttr)
    (ho : Distinct t.confObj) : Distinct (s'.attrImps ++ s'.confAttr) ∧ Distinct (s'.objImps ++ s'.confObj) := by
  obtain ⟨a, ha', -⟩ := attrBasis_ok hE.a h h1
  obtain ⟨o, ho', -⟩ := objBasis_ok hE.o h h2
  unfold recompute at hr
  simp only [ha', ho', Prod.mk.injEq, and_true] at hr
  subst hr
  exact ⟨distinct_open (attrBasis_nodup hE.a h h1 ha') ha, distinct_open (objBasis_nodup hE.o h h2 ho') ho⟩

theorem Distinct.right {γ : Type} [DecidableEq γ] {L K : List (Imp γ)} (h : Distinct (L ++ K)) : Distinct K := by
  unfold Distinct at h ⊢
  rw [List.map_append] at h
  exact (List.nodup_append.1 h).2.1

/-- How far an exploration is: every truthful call adds one. -/
def progress (s : BExp α β) : ℕ :=
  s.confAttr.length + s.confObj.length + s.ctx.objects.length + s.ctx.attributes.length

theorem TInv.addObj {E : Env α β} (hE : E.Ok) {D : Domain α β} {s : BExp α β} (h : TInv D s) {g : α}
    (hg : g ∈ D.objs) (hn : g ∉ s.ctx.objects) {B : Finset β}
    (hB : ∀ m ∈ s.ctx.attributes, (m ∈ B ↔ D.has g m)) :
    check s.confAttr B = true ∧ ∃ s', thenRecompute E s (s.ctx.addObjectWithIntent B g) = (s', none) ∧ TInv D s' ∧
      s'.progress = s.progress + 1 := by
  have hck : check s.confAttr B = true := by
    rw [check_iff]
    intro i hi hp m hm
    have h1 := h.inv.akover i hi
    rw [hB m (List.mem_toFinset.1 (h1.2 hm))]
    exact h.av i hi g hg (fun x hx => (hB x (List.mem_toFinset.1 (h1.1 hx))).1 (hp hx)) m hm
  refine ⟨hck, ?_⟩
  obtain ⟨s', h1, h2, h3, h4, h5, h6, h7⟩ := addObj_step hE h.inv hn hck
  obtain ⟨c', hc1, hc2, hc3, hc4, -⟩ := add_object_ctx h.inv.wf h.inv.one hn B
  have hd := recompute_distinct hE (t := { s with ctx := c' }) (s' := s') hc2 (by rw [hc3]; simp)
    (by show c'.attributes ≠ []; rw [hc4]; exact h.inv.ane) (by rw [hc1] at h1; exact h1) h.ak.right h.ok.right
  refine ⟨s', h1, ⟨h7.inv, ⟨?_, ?_, ?_⟩, ?_, ?_, hd.1, hd.2⟩, ?_⟩
  · intro o ho
    rw [h2, List.mem_append, List.mem_singleton] at ho
    rcases ho with ho | rfl
    · exact h.sub.objs o ho
    · exact hg
  · rw [h3]; exact h.sub.atts
  · intro o ho a ha
    rw [h2, List.mem_append, List.mem_singleton] at ho
    rw [h3] at ha
    rw [h4]
    by_cases hog : o = g
    · subst hog
      simp [ha, hB a ha]
    · simp only [hog, false_and, ne_eq, not_false_eq_true, true_and, false_or]
      exact h.sub.inc o (ho.resolve_right hog) a ha
  · rw [h5]; exact h.av
  · rw [h6]; exact h.ov
  · unfold progress
    rw [h5, h6, h2, h3, List.length_append, List.length_singleton]
    omega

theorem TInv.addAttr {E : Env α β} (hE : E.Ok) {D : Domain α β} {s : BExp α β} (h : TInv D s) {m : β}
    (hm : m ∈ D.atts) (hn : m ∉ s.ctx.attributes) {A : Finset α}
    (hA : ∀ g ∈ s.ctx.objects, (g ∈ A ↔ D.has g m)) :
    check s.confObj A = true ∧ ∃ s', thenRecompute E s (s.ctx.addAttributeWithExtent A m) = (s', none) ∧ TInv D s' ∧
      s'.progress = s.progress + 1 := by
  have hck : check s.confObj A = true := by
    rw [check_iff]
    intro i hi hp g hg
    have h1 := h.inv.okover i hi
    rw [hA g (List.mem_toFinset.1 (h1.2 hg))]
    exact h.ov i hi m hm (fun x hx => (hA x (List.mem_toFinset.1 (h1.1 hx))).1 (hp hx)) g hg
  refine ⟨hck, ?_⟩
  obtain ⟨s', h1, h2, h3, h4, h5, h6, h7⟩ := addAttr_step hE h.inv hn hck
  obtain ⟨c', hc1, hc2, hc3, hc4, -⟩ := add_attribute_ctx h.inv.wf h.inv.one hn A
  have hd := recompute_distinct hE (t := { s with ctx := c' }) (s' := s') hc2
    (by show c'.objects ≠ []; rw [hc3]; exact h.inv.one) (by rw [hc4]; simp)
    (by rw [hc1] at h1; exact h1) h.ak.right h.ok.right
  refine ⟨s', h1, ⟨h7.inv, ⟨?_, ?_, ?_⟩, ?_, ?_, hd.1, hd.2⟩, ?_⟩
  · rw [h2]; exact h.sub.objs
  · intro a ha
    rw [h3, List.mem_append, List.mem_singleton] at ha
    rcases ha with ha | rfl
    · exact h.sub.atts a ha
    · exact hm
  · intro o ho a ha
    rw [h3, List.mem_append, List.mem_singleton] at ha
    rw [h2] at ho
    rw [h4]
    by_cases ham : a = m
    · subst ham
      simp [ho, hA o ho]
    · simp only [ham, false_and, ne_eq, not_false_eq_true, true_and, false_or]
      exact h.sub.inc o ho a (ha.resolve_right ham)
  · rw [h5]; exact h.av
  · rw [h6]; exact h.ov
  · unfold progress
    rw [h5, h6, h2, h3, List.length_append, List.length_singleton]
    omega

theorem TInv.step {E : Env α β} (hE : E.Ok) {D : Domain α β} {s : BExp α β} (h : TInv D s) {op : Op α β}
    (ht : Truthful D s op) :
    ∃ s', s.exec E op = (s', none) ∧ TInv D s' ∧ s'.progress = s.progress + 1 := by
  cases ht with
  | @confirmAttr i imp hi hv =>
    have h1 := (confirmAttr_step h.inv i).inv
    have h2 : s.exec E (.confirmAttr i) = ((s.confirmAttr i).1, none) := by
      simp only [exec, confirmAttr, hi]
    refine ⟨_, h2, ?_⟩
    simp only [confirmAttr, hi] at h1 ⊢
    refine ⟨⟨h1, h.sub, ?_, h.ov, distinct_perm (confirm_lists hi) h.ak, h.ok⟩, ?_⟩
    · intro j hj
      rcases List.mem_append.1 hj with hj | hj
      · exact h.av j hj
      · rw [List.mem_singleton] at hj
        subst hj
        exact hv
    · simp only [progress, List.length_append, List.length_singleton]; omega
  | @confirmObj i imp hi hv =>
    have h1 := (confirmObj_step h.inv i).inv
    have h2 : s.exec E (.confirmObj i) = ((s.confirmObj i).1, none) := by
      simp only [exec, confirmObj, hi]
    refine ⟨_, h2, ?_⟩
    simp only [confirmObj, hi] at h1 ⊢
    refine ⟨⟨h1, h.sub, h.av, ?_, h.ak, distinct_perm (confirm_lists hi) h.ok⟩, ?_⟩
    · intro j hj
      rcases List.mem_append.1 hj with hj | hj
      · exact h.ov j hj
      · rw [List.mem_singleton] at hj
        subst hj
        exact hv
    · simp only [progress, List.length_append, List.length_singleton]; omega
  | @counterAttr i imp hi g hg hp hc B hB =>
    have hmem := List.mem_of_getElem? hi
    have hov := h.inv.aover imp hmem
    obtain ⟨m, hm, hnm⟩ := hc
    have hn : g ∉ s.ctx.objects := by
      intro hgo
      refine hnm ((h.sub.inc g hgo m (List.mem_toFinset.1 (hov.2 hm))).1 ?_)
      refine h.inv.aval imp hmem g (List.mem_toFinset.2 hgo) (fun x hx => ?_) m hm
      exact (h.sub.inc g hgo x (List.mem_toFinset.1 (hov.1 hx))).2 (hp x hx)
    obtain ⟨hck, s', h1, h2⟩ := h.addObj hE hg hn hB
    refine ⟨s', ?_, h2⟩
    have e1 : imp.premise ⊆ B := fun x hx => (hB x (List.mem_toFinset.1 (hov.1 hx))).2 (hp x hx)
    have hmr : m ∈ imp.reduced := Finset.mem_sdiff.2 ⟨hm, fun hx => hnm (hp m hx)⟩
    have e2 : ¬ imp.reduced ⊆ B := fun hs => hnm ((hB m (List.mem_toFinset.1 (hov.2 hm))).1 (hs hmr))
    simp only [exec, BExp.counterAttr, hi]
    rw [if_neg (by simpa [Finset.inter_eq_left] using e1), if_neg (by simpa [Finset.inter_eq_left] using e2),
      if_neg (by simp [hck])]
    exact h1
  | @counterObj i imp hi m hm hp hc A hA =>
    have hmem := List.mem_of_getElem? hi
    have hov := h.inv.oover imp hmem
    obtain ⟨g, hg, hng⟩ := hc
    have hn : m ∉ s.ctx.attributes := by
      intro hma
      refine hng ((h.sub.inc g (List.mem_toFinset.1 (hov.2 hg)) m hma).1 ?_)
      refine h.inv.oval imp hmem m (List.mem_toFinset.2 hma) (fun x hx => ?_) g hg
      exact (h.sub.inc x (List.mem_toFinset.1 (hov.1 hx)) m hma).2 (hp x hx)
    obtain ⟨hck, s', h1, h2⟩ := h.addAttr hE hm hn hA
    refine ⟨s', ?_, h2⟩
    have e1 : imp.premise ⊆ A := fun x hx => (hA x (List.mem_toFinset.1 (hov.1 hx))).2 (hp x hx)
    have hmr : g ∈ imp.reduced := Finset.mem_sdiff.2 ⟨hg, fun hx => hng (hp g hx)⟩
    have e2 : ¬ imp.reduced ⊆ A := fun hs => hng ((hA g (List.mem_toFinset.1 (hov.2 hg))).1 (hs hmr))
    simp only [exec, BExp.counterObj, hi]
    rw [if_neg (by simpa [Finset.inter_eq_left] using e1), if_neg (by simpa [Finset.inter_eq_left] using e2),
      if_neg (by simp [hck])]
    exact h1
  | @addObject g hg hn B hB =>
    obtain ⟨hck, s', h1, h2⟩ := h.addObj hE hg hn hB
    refine ⟨s', ?_, h2⟩
    simp only [exec, BExp.addObject]
    rw [if_neg (by simp [hck])]
    exact h1
  | @addAttribute m hm hn A hA =>
    obtain ⟨hck, s', h1, h2⟩ := h.addAttr hE hm hn hA
    refine ⟨s', ?_, h2⟩
    simp only [exec, BExp.addAttribute]
    rw [if_neg (by simp [hck])]
    exact h1

theorem TInv.run {E : Env α β} (hE : E.Ok) {D : Domain α β} {ops : List (Op α β)} {s : BExp α β} (h : TInv D s)
    (ht : TruthfulRun E D s ops) :
    TInv D (BExp.run E s ops) ∧ (BExp.run E s ops).progress = s.progress + ops.length := by
  induction ops generalizing s with
  | nil => exact ⟨h, rfl⟩
  | cons op ops ih =>
    obtain ⟨s', h1, h2, h3⟩ := h.step hE ht.1
    have ht2 := ht.2
    rw [h1] at ht2
    obtain ⟨h4, h5⟩ := ih h2 ht2
    have hr : BExp.run E s (op :: ops) = BExp.run E s' ops := by
      show BExp.run E (s.exec E op).1 ops = _
      rw [h1]
    rw [hr]
    refine ⟨h4, ?_⟩
    rw [h5, h3, List.length_cons]
    omega

theorem TInv.init {E : Env α β} (hE : E.Ok) {D : Domain α β} {c : Ctx α β} (h : c.WFw) (h1 : c.objects ≠ [])
    (h2 : c.attributes ≠ []) (hD : D.Contains c) {s₀ : BExp α β} (hi : BExp.init E c = .ok s₀) :
    TInv D s₀ ∧ s₀.ctx = c ∧ s₀.confAttr = [] ∧ s₀.confObj = [] := by
  obtain ⟨s, h3, h4, h5, h6, h7⟩ := init_ok hE h h1 h2
  rw [hi] at h3; cases h3
  have hd : c.deepcopy = .ok c := by
    unfold Ctx.deepcopy
    rw [ofNd_ok h.nrows h.width h.onodup h.anodup]
  unfold BExp.init at hi
  rw [hd, py_ok_bind] at hi
  obtain ⟨a, ha, hi⟩ := bind_ok hi
  obtain ⟨o, ho, hi⟩ := bind_ok hi
  cases hi
  have hk : ∀ {γ : Type} [DecidableEq γ] {L : List (Imp γ)}, (L.map Imp.premise).Nodup → Distinct (L ++ []) := by
    intro γ _ L hL
    have := distinct_open hL (K := []) (by simp [Distinct])
    simpa [openOnes] using this
  exact ⟨⟨h7, hD, by simp [Valid], by simp [Valid], hk (attrBasis_nodup hE.a h h1 ha),
    hk (objBasis_nodup hE.o h h2 ho)⟩, rfl, rfl, rfl⟩

end BExp

open BExp Ctx

variable [PyName α] [PyName β]

/-- No truthful call raises, and everything confirmed holds in the domain; the context stays a part of it. -/
theorem C143_truthful_calls_succeed {E : Env α β} (hE : E.Ok) {D : Domain α β} {c : Ctx α β} (h : c.WFw)
    (h1 : c.objects ≠ []) (h2 : c.attributes ≠ []) (hD : D.Contains c) {s₀ : BExp α β} (hi : init E c = .ok s₀)
    {ops : List (Op α β)} (ht : TruthfulRun E D s₀ ops) :
    (∀ op, Truthful D (run E s₀ ops) op → ((run E s₀ ops).exec E op).2 = none) ∧
    (∀ i ∈ (run E s₀ ops).confAttr, HoldsIn D.objs D.has i.premise i.conclusion) ∧
    (∀ i ∈ (run E s₀ ops).confObj, HoldsIn D.atts (fun a o => D.has o a) i.premise i.conclusion) ∧
    D.Contains (run E s₀ ops).ctx := by
  obtain ⟨h3, -⟩ := (TInv.init hE h h1 h2 hD hi).1.run hE ht
  refine ⟨?_, h3.av, h3.ov, h3.sub⟩
  intro op hop
  obtain ⟨s', h4, -⟩ := h3.step hE hop
  rw [h4]

/-- Every open implication has a truthful answer: it can be confirmed or refuted. -/
theorem C143_answer_exists {D : Domain α β} (s : BExp α β) :
    (∀ i < s.attrImps.length, Truthful D s (.confirmAttr i) ∨ ∃ g B, Truthful D s (.counterAttr g B i)) ∧
    (∀ i < s.objImps.length, Truthful D s (.confirmObj i) ∨ ∃ m A, Truthful D s (.counterObj m A i)) := by
  classical
  constructor
  · intro i hi
    have he : s.attrImps[i]? = some s.attrImps[i] := List.getElem?_eq_getElem hi
    by_cases hv : ∀ g ∈ D.objs, (∀ m ∈ s.attrImps[i].premise, D.has g m) →
        ∀ m ∈ s.attrImps[i].conclusion, D.has g m
    · exact .inl (.confirmAttr he hv)
    · push Not at hv
      obtain ⟨g, hg, hp, hc⟩ := hv
      exact .inr ⟨g, s.ctx.attributes.toFinset.filter (D.has g), .counterAttr he hg hp hc
        (by intro m hm; simp [hm])⟩
  · intro i hi
    have he : s.objImps[i]? = some s.objImps[i] := List.getElem?_eq_getElem hi
    by_cases hv : ∀ m ∈ D.atts, (∀ g ∈ s.objImps[i].premise, D.has g m) →
        ∀ g ∈ s.objImps[i].conclusion, D.has g m
    · exact .inl (.confirmObj he hv)
    · push Not at hv
      obtain ⟨m, hm, hp, hc⟩ := hv
      exact .inr ⟨m, s.ctx.objects.toFinset.filter (fun g => D.has g m), .counterObj he hm hp hc
        (by intro g hg; simp [hg])⟩

/-- A truthful exploration ends: the number of calls is bounded by the domain alone. -/
theorem C143_ends {E : Env α β} (hE : E.Ok) {D : Domain α β} {c : Ctx α β} (h : c.WFw)
    (h1 : c.objects ≠ []) (h2 : c.attributes ≠ []) (hD : D.Contains c) {s₀ : BExp α β} (hi : init E c = .ok s₀)
    {ops : List (Op α β)} (ht : TruthfulRun E D s₀ ops) :
    ops.length + c.objects.length + c.attributes.length ≤
      3 ^ D.atts.card + 3 ^ D.objs.card + D.objs.card + D.atts.card := by
  obtain ⟨h3, h4, h5, h6⟩ := TInv.init hE h h1 h2 hD hi
  obtain ⟨h7, h8⟩ := h3.run hE ht
  have hp : s₀.progress = c.objects.length + c.attributes.length := by
    unfold progress; rw [h4, h5, h6]; simp
  have hM : (run E s₀ ops).ctx.M ⊆ D.atts := fun a ha => h7.sub.atts a (List.mem_toFinset.1 ha)
  have hG : (run E s₀ ops).ctx.G ⊆ D.objs := fun a ha => h7.sub.objs a (List.mem_toFinset.1 ha)
  have b1 := distinct_length h7.ak.right (h7.inv.akover.mono hM)
  have b2 := distinct_length h7.ok.right (h7.inv.okover.mono hG)
  have b3 : (run E s₀ ops).ctx.objects.length ≤ D.objs.card := by
    rw [← List.toFinset_card_of_nodup h7.inv.wf.onodup]; exact Finset.card_le_card hG
  have b4 : (run E s₀ ops).ctx.attributes.length ≤ D.atts.card := by
    rw [← List.toFinset_card_of_nodup h7.inv.wf.anodup]; exact Finset.card_le_card hM
  unfold progress at h8 hp
  omega

/-- When no attribute implication is open, the confirmed ones have exactly the implications between the attributes
of the context that hold in the domain as consequences, and no object of the domain has a set of these attributes
that is not already an intent. -/
theorem C143_attribute_theory {E : Env α β} (hE : E.Ok) {D : Domain α β} {c : Ctx α β} (h : c.WFw)
    (h1 : c.objects ≠ []) (h2 : c.attributes ≠ []) (hD : D.Contains c) {s₀ : BExp α β} (hi : init E c = .ok s₀)
    {ops : List (Op α β)} (ht : TruthfulRun E D s₀ ops) (h0 : (run E s₀ ops).attrImps = []) :
    (∀ P C, P ⊆ (run E s₀ ops).ctx.M → C ⊆ (run E s₀ ops).ctx.M →
      (HoldsIn D.objs D.has P C ↔ Entails (specImps (run E s₀ ops).confAttr) P C)) ∧
    (∀ g ∈ D.objs, ∀ S ⊆ (run E s₀ ops).ctx.M, (∀ m ∈ (run E s₀ ops).ctx.M, (m ∈ S ↔ D.has g m)) →
      attrClosure (run E s₀ ops).ctx.G (run E s₀ ops).ctx.M (run E s₀ ops).ctx.Inc S = S) := by
  obtain ⟨h3, -⟩ := (TInv.init hE h h1 h2 hD hi).1.run hE ht
  generalize run E s₀ ops = s at h3 h0
  have hcomp := h3.inv.acomp
  rw [h0, List.nil_append] at hcomp
  have hent : ∀ P C, Entails (specImps s.confAttr) P C → HoldsIn D.objs D.has P C := by
    classical
    intro P C he g hg hp m hm
    let S := (P ∪ C ∪ s.ctx.M).filter (D.has g)
    have hS : Closed (specImps s.confAttr) S := by
      rw [closed_specImps]
      intro i hiK hps x hx
      refine Finset.mem_filter.2 ⟨Finset.mem_union_right _ ((h3.inv.akover i hiK).2 hx), ?_⟩
      exact h3.av i hiK g hg (fun y hy => (Finset.mem_filter.1 (hps hy)).2) x hx
    exact (Finset.mem_filter.1 (he S hS (fun x hx => Finset.mem_filter.2
      ⟨Finset.mem_union_left _ (Finset.mem_union_left _ hx), hp x hx⟩) hm)).2
  have hctx : ∀ P C, P ⊆ s.ctx.M → C ⊆ s.ctx.M → HoldsIn D.objs D.has P C → HoldsIn s.ctx.G s.ctx.Inc P C := by
    intro P C hP hC hh g hg hp m hm
    have hgo := List.mem_toFinset.1 hg
    rw [h3.sub.inc g hgo m (List.mem_toFinset.1 (hC hm))]
    exact hh g (h3.sub.objs g hgo)
      (fun x hx => (h3.sub.inc g hgo x (List.mem_toFinset.1 (hP hx))).1 (hp x hx)) m hm
  refine ⟨fun P C hP hC => ⟨fun hh => entails_of_complete hcomp h3.inv.akover hP hC (hctx P C hP hC hh), hent P C⟩, ?_⟩
  intro g hg S hSM hS
  refine hcomp S hSM ?_
  rw [closed_specImps]
  intro i hiK hps x hx
  have ho := h3.inv.akover i hiK
  rw [hS x (ho.2 hx)]
  exact h3.av i hiK g hg (fun y hy => (hS y (ho.1 hy)).1 (hps hy)) x hx

/-- The same for the objects. -/
theorem C143_object_theory {E : Env α β} (hE : E.Ok) {D : Domain α β} {c : Ctx α β} (h : c.WFw)
    (h1 : c.objects ≠ []) (h2 : c.attributes ≠ []) (hD : D.Contains c) {s₀ : BExp α β} (hi : init E c = .ok s₀)
    {ops : List (Op α β)} (ht : TruthfulRun E D s₀ ops) (h0 : (run E s₀ ops).objImps = []) :
    (∀ P C, P ⊆ (run E s₀ ops).ctx.G → C ⊆ (run E s₀ ops).ctx.G →
      (HoldsIn D.atts (fun a o => D.has o a) P C ↔ Entails (specImps (run E s₀ ops).confObj) P C)) ∧
    (∀ m ∈ D.atts, ∀ S ⊆ (run E s₀ ops).ctx.G, (∀ g ∈ (run E s₀ ops).ctx.G, (g ∈ S ↔ D.has g m)) →
      attrClosure (run E s₀ ops).ctx.M (run E s₀ ops).ctx.G (fun a o => (run E s₀ ops).ctx.Inc o a) S = S) := by
  obtain ⟨h3, -⟩ := (TInv.init hE h h1 h2 hD hi).1.run hE ht
  generalize run E s₀ ops = s at h3 h0
  have hcomp := h3.inv.ocomp
  rw [h0, List.nil_append] at hcomp
  have hent : ∀ P C, Entails (specImps s.confObj) P C → HoldsIn D.atts (fun a o => D.has o a) P C := by
    classical
    intro P C he g hg hp m hm
    let S := (P ∪ C ∪ s.ctx.G).filter (fun o => D.has o g)
    have hS : Closed (specImps s.confObj) S := by
      rw [closed_specImps]
      intro i hiK hps x hx
      refine Finset.mem_filter.2 ⟨Finset.mem_union_right _ ((h3.inv.okover i hiK).2 hx), ?_⟩
      exact h3.ov i hiK g hg (fun y hy => (Finset.mem_filter.1 (hps hy)).2) x hx
    exact (Finset.mem_filter.1 (he S hS (fun x hx => Finset.mem_filter.2
      ⟨Finset.mem_union_left _ (Finset.mem_union_left _ hx), hp x hx⟩) hm)).2
  have hctx : ∀ P C, P ⊆ s.ctx.G → C ⊆ s.ctx.G → HoldsIn D.atts (fun a o => D.has o a) P C →
      HoldsIn s.ctx.M (fun a o => s.ctx.Inc o a) P C := by
    intro P C hP hC hh g hg hp m hm
    have hgo := List.mem_toFinset.1 hg
    show s.ctx.Inc m g
    rw [h3.sub.inc m (List.mem_toFinset.1 (hC hm)) g hgo]
    exact hh g (h3.sub.atts g hgo)
      (fun x hx => (h3.sub.inc x (List.mem_toFinset.1 (hP hx)) g hgo).1 (hp x hx)) m hm
  refine ⟨fun P C hP hC => ⟨fun hh => entails_of_complete hcomp h3.inv.okover hP hC (hctx P C hP hC hh), hent P C⟩, ?_⟩
  intro g hg S hSM hS
  refine hcomp S hSM ?_
  rw [closed_specImps]
  intro i hiK hps x hx
  have ho := h3.inv.okover i hiK
  rw [hS x (ho.2 hx)]
  exact h3.ov i hiK g hg (fun y hy => (hS y (ho.1 hy)).1 (hps hy)) x hx

/-! ### A whole exploration -/

namespace BExp

/-- Three objects and three attributes; the context `wit` is the part with the first two of each. -/
def witDom : Domain (Fin 3) (Fin 3) :=
  ⟨{0, 1, 2}, {0, 1, 2}, fun o a => (o, a) ∈ ([(0, 0), (0, 1), (1, 1), (1, 2), (2, 0)] : List (Fin 3 × Fin 3))⟩

def witT : Ctx (Fin 3) (Fin 3) := ⟨[0, 1], [0, 1], ⟨some 2, [[true, true], [false, true]]⟩⟩

def witTEnv : Env (Fin 3) (Fin 3) :=
  ⟨AI.pySortShort AI.Pre.lt, AI.pySortShort AI.Pre.lt, SetOrder.fin 3, SetOrder.fin 3⟩

def witOps : List (Op (Fin 3) (Fin 3)) :=
  [.counterAttr 2 {0} 0, .counterObj 2 {1} 0, .confirmAttr 0, .confirmObj 0]

def witS : BExp (Fin 3) (Fin 3) := ⟨witT, [⟨∅, {1}⟩], [⟨∅, {0}⟩], [], []⟩

/-- Two counterexamples and two confirmations answer everything. -/
example : witTEnv.Ok ∧ witT.WFw ∧ witDom.Contains witT ∧ BExp.init witTEnv witT = .ok witS ∧
    TruthfulRun witTEnv witDom witS witOps ∧ (BExp.run witTEnv witS witOps).attrImps = [] ∧
    (BExp.run witTEnv witS witOps).objImps = [] ∧
    (BExp.run witTEnv witS witOps).confAttr = [⟨{2}, {1, 2}⟩] ∧
    (BExp.run witTEnv witS witOps).confObj = [⟨{2}, {0, 2}⟩] := by
  have hw : witT.WFw := by constructor <;> decide +kernel
  refine ⟨⟨AI.pySortShort_perm _, AI.pySortShort_perm _⟩, hw, ⟨by decide +kernel, by decide +kernel, ?_⟩,
    by decide +kernel, ⟨?_, ?_, ?_, ?_, trivial⟩, by decide +kernel, by decide +kernel, by decide +kernel,
    by decide +kernel⟩
  · simp only [← hw.incB]
    unfold witDom
    decide +kernel
  · exact .counterAttr (imp := ⟨∅, {1}⟩) (by decide +kernel) (by decide +kernel) (by simp)
      ⟨1, by decide, by unfold witDom; decide⟩ (by unfold witDom; decide +kernel)
  · exact .counterObj (imp := ⟨∅, {0}⟩) (by decide +kernel) (by decide +kernel) (by simp)
      ⟨0, by decide, by unfold witDom; decide⟩ (by unfold witDom; decide +kernel)
  · exact .confirmAttr (imp := ⟨{2}, {1, 2}⟩) (by decide +kernel) (by unfold witDom; decide +kernel)
  · exact .confirmObj (imp := ⟨{2}, {0, 2}⟩) (by decide +kernel) (by unfold witDom; decide +kernel)

end BExp
