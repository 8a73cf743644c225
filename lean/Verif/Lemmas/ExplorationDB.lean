/-
Invariants of `ExplorationDB`.
-/
import Verif.Model.ExplorationDB
import Verif.Lemmas.BasicExploration
import Verif.Props.DG

set_option linter.unusedSectionVars false

open Spec

variable {α β : Type} [DecidableEq α] [DecidableEq β]

namespace EDB

open Ctx BExp

theorem _root_.Imp.isRespected_iff' (i : Imp β) (S : Finset β) :
    i.isRespected S = true ↔ (i.premise ⊆ S → i.conclusion ⊆ S) := by
  unfold Imp.isRespected Imp.reduced
  simp only [Bool.or_eq_true, Bool.not_eq_true', decide_eq_false_iff_not, decide_eq_true_eq]
  constructor
  · rintro (h | h) hp
    · exact absurd hp h
    · intro m hm
      by_cases hmp : m ∈ i.premise
      · exact hp hmp
      · exact h (Finset.mem_sdiff.2 ⟨hm, hmp⟩)
  · intro h
    by_cases hp : i.premise ⊆ S
    · exact .inr (Finset.sdiff_subset.trans (h hp))
    · exact .inl hp

theorem checkIntent_iff {s : EDB α β} {B : Finset β} :
    s.checkIntent B = true ↔ ∀ i ∈ s.bg, i.premise ⊆ B → i.conclusion ⊆ B := by
  unfold checkIntent
  rw [List.all_eq_true]
  exact forall₂_congr fun i _ => i.isRespected_iff' B

/-- The part of the state the open implications are computed from. -/
structure Good (s : EDB α β) : Prop where
  wf : s.ctx.WFw
  one : s.ctx.objects ≠ []
  over : BExp.Over s.ctx.M s.bg
  valid : Valid s.ctx.G s.ctx.Inc s.bg

/-- Invariant of an exploration. -/
structure Inv (E : Env α β) (s : EDB α β) : Prop extends Good s where
  basis : relBasis E s.ctx s.bg = .ok s.openImps

theorem Good.modifier {E : Env α β} {s : EDB α β} (h : Good s) :
    ∃ s', modifier E (s, none) = (s', none) ∧ s'.ctx = s.ctx ∧ s'.bg = s.bg ∧ Inv E s' := by
  obtain ⟨r, hr⟩ := C24_basis_returns h.wf h.one E.ordA E.ordO (linClosure E.ord₀ E.ord) s.bg
    (.inr ⟨_, _, rfl, List.Pairwise.nil⟩) (fun i hi => (h.over i hi).2) E.cond
  have hr' : relBasis E s.ctx s.bg = .ok r := hr
  refine ⟨{ s with openImps := r }, ?_, rfl, rfl, ⟨⟨h.wf, h.one, h.over, h.valid⟩, hr'⟩⟩
  simp only [EDB.modifier, hr']

theorem init_ok {E : Env α β} {c : Ctx α β} (h : c.WFw) (hne : c.objects ≠ []) {bg : List (Imp β)}
    (ho : BExp.Over c.M bg) (hv : Valid c.G c.Inc bg) :
    ∃ s, init E c bg = .ok s ∧ s.ctx = c ∧ s.bg = bg ∧ Inv E s := by
  obtain ⟨s, h1, h2, h3, h4⟩ := Good.modifier (E := E) (s := ⟨c, bg, []⟩) ⟨h, hne, ho, hv⟩
  refine ⟨s, ?_, h2, h3, h4⟩
  have := h4.basis
  unfold init
  rw [h2, h3] at this
  dsimp only at this
  rw [this, py_ok_bind]
  cases s
  simp only at h2 h3
  subst h2 h3
  rfl

theorem Inv.openValid {E : Env α β} {s : EDB α β} (h : Inv E s) :
    Valid s.ctx.G s.ctx.Inc s.openImps ∧ BExp.Over s.ctx.M s.openImps := by
  have hs := C24_basis_sound h.wf E.ordA E.ordO _ _ _ _ h.basis
  refine ⟨fun i hi => (hs i hi).1, ?_⟩
  have hc : ∀ i ∈ s.openImps, i.conclusion ⊆ s.ctx.M := by
    intro i hi m hm
    rw [(hs i hi).2.2.1, ← h.wf.aclF_eq] at hm
    exact List.mem_toFinset.2 (h.wf.mem_aclF.1 hm).1
  exact fun i hi => ⟨(hs i hi).2.2.2.1.1.trans (hc i hi), hc i hi⟩

variable [PyName α] [PyName β]

/-- The calls considered in a state: only open implications are confirmed, and the new name in an edit is the old one
or not in use. -/
def Op.Ok (s : EDB α β) : Op α β → Prop
  | .confirm i => i ∈ s.openImps
  | .editExample n o _ => n = o ∨ n ∉ s.ctx.objects
  | .editAttribute n o _ => n = o ∨ n ∉ s.ctx.attributes
  | _ => True

/-- Every call of the history is considered. -/
def OkRun (E : Env α β) : EDB α β → List (Op α β) → Prop
  | _, [] => True
  | s, op :: ops => op.Ok s ∧ OkRun E (s.exec E op).1 ops

theorem rename_object_ctx {c : Ctx α β} (h : c.WFw) (hne : c.objects ≠ []) {old n : α} (ho : old ∈ c.objects)
    (hn : n ∉ c.objects) :
    ∃ c', c.renameObject old n = (c', none) ∧ c'.WFw ∧
      c'.objects = c.objects.map (fun o => if o = old then n else o) ∧
      c'.attributes = c.attributes ∧ (∀ a, c'.Inc n a ↔ c.Inc old a) ∧
      ∀ o a, o ≠ n → o ≠ old → (c'.Inc o a ↔ c.Inc o a) := by
  obtain ⟨c', hc'⟩ := h.stores.returns (op := .renameObject old n) hne ho
  have hst := h.stores.exec (op := .renameObject old n) (.inl hn) hc'
  refine ⟨c', hc', hst.wf, hst.objs, hst.atts, ?_, ?_⟩
  · intro a
    rw [hst.inc]
    simp only [Table.apply, if_true, List.mem_map]
    rw [← h.incB]
    constructor
    · exact fun hh => hh.2.2
    · intro hi; exact ⟨⟨old, ho, by simp⟩, ((h.incB _ _).1 hi).mem.2, hi⟩
  · intro o a hon hoo
    rw [hst.inc]
    simp only [Table.apply, if_neg hon, List.mem_map]
    rw [← h.incB]
    constructor
    · exact fun hh => hh.2.2
    · intro hi; exact ⟨⟨o, ((h.incB _ _).1 hi).mem.1, by simp [hoo]⟩, ((h.incB _ _).1 hi).mem.2, hi⟩

theorem Good.rename {s : EDB α β} (h : Good s) {old n : α} (ho : old ∈ s.ctx.objects)
    (hn : n = old ∨ n ∉ s.ctx.objects) :
    ∃ t, s.editRename n old = (t, none) ∧ t.bg = s.bg ∧ Good t := by
  unfold editRename
  by_cases he : old ≠ n
  · have hn' := hn.resolve_left (Ne.symm he)
    obtain ⟨c', h1, h2, h3, h4, h5, h6⟩ := rename_object_ctx h.wf h.one ho hn'
    rw [if_pos he, if_neg hn', h1]
    refine ⟨_, rfl, rfl, h2, ?_, ?_, ?_⟩
    · simp only [h3]; simpa using h.one
    · show BExp.Over c'.M _
      unfold Ctx.M; rw [h4]; exact h.over
    · show Valid c'.G c'.Inc s.bg
      intro i hi g hg hp m hm
      have hg' : g ∈ c'.objects := List.mem_toFinset.1 hg
      rw [h3, List.mem_map] at hg'
      obtain ⟨o, ho', rfl⟩ := hg'
      by_cases hoo : o = old
      · rw [if_pos hoo] at hp ⊢
        rw [h5]
        exact h.valid i hi old (List.mem_toFinset.2 ho) (fun x hx => (h5 x).1 (hp x hx)) m hm
      · rw [if_neg hoo] at hp ⊢
        have hon : o ≠ n := by rintro rfl; exact hn' ho'
        rw [h6 o m hon hoo]
        exact h.valid i hi o (List.mem_toFinset.2 ho') (fun x hx => (h6 o x hon hoo).1 (hp x hx)) m hm
  · rw [if_neg he]
    exact ⟨s, rfl, rfl, h⟩

theorem Good.addExample {s : EDB α β} (h : Good s) {n : α} (hn : n ∉ s.ctx.objects) {B : Finset β}
    (hB : s.checkIntent B = true) :
    ∃ t, s.setCtx (s.ctx.addObjectWithIntent B n) = (t, none) ∧ t.bg = s.bg ∧ Good t ∧
      t.ctx.objects = s.ctx.objects ++ [n] ∧ t.ctx.attributes = s.ctx.attributes ∧
      ∀ o a, t.ctx.Inc o a ↔ (o = n ∧ a ∈ s.ctx.attributes ∧ a ∈ B) ∨ (o ≠ n ∧ s.ctx.Inc o a) := by
  obtain ⟨c', h1, h2, h3, h4, h5⟩ := add_object_ctx h.wf h.one hn B
  have hM : c'.M = s.ctx.M := by unfold Ctx.M; rw [h4]
  refine ⟨{ s with ctx := c' }, ?_, rfl, ⟨h2, by rw [h3]; simp, ?_, ?_⟩, h3, h4, h5⟩
  · unfold setCtx; rw [h1]
  · show BExp.Over c'.M _; rw [hM]; exact h.over
  · show Valid c'.G c'.Inc s.bg
    refine valid_row h.valid h.over (checkIntent_iff.1 hB) (n := n) ?_ ?_ ?_
    · intro o ho
      have : o ∈ c'.objects := List.mem_toFinset.1 ho
      rw [h3, List.mem_append, List.mem_singleton] at this
      rcases this with h | h
      · exact .inr (List.mem_toFinset.2 h)
      · exact .inl h
    · intro a ha _
      have ha' : a ∈ s.ctx.attributes := List.mem_toFinset.1 ha
      rw [h5]; simp [ha']
    · intro o a ho
      rw [h5]; simp [ho]

theorem Good.addAttribute {s : EDB α β} (h : Good s) {n : β} (hn : n ∉ s.ctx.attributes) (A : Finset α) :
    ∃ t, s.setCtx (s.ctx.addAttributeWithExtent A n) = (t, none) ∧ t.bg = s.bg ∧ Good t := by
  obtain ⟨c', h1, h2, h3, h4, h5⟩ := add_attribute_ctx h.wf h.one hn A
  have hG : c'.G = s.ctx.G := by unfold Ctx.G; rw [h3]
  have hM : c'.M = s.ctx.M ∪ {n} := by unfold Ctx.M; rw [h4]; simp
  refine ⟨{ s with ctx := c' }, ?_, rfl, ⟨h2, by rw [h3]; exact h.one, ?_, ?_⟩⟩
  · unfold setCtx; rw [h1]
  · show BExp.Over c'.M _; rw [hM]; exact h.over.mono Finset.subset_union_left
  · show Valid c'.G c'.Inc s.bg
    refine valid_other h.valid h.over (by rw [hG]) ?_
    intro o a ha
    have ha' : a ≠ n := by rintro rfl; exact hn (List.mem_toFinset.1 ha)
    rw [h5]; simp [ha']

theorem Good.setIntent {s : EDB α β} (h : Good s) {n : α} {B : Finset β} {ord : SetOrder β}
    (hB : s.checkIntent B = true) {c' : Ctx α β} (hm : s.ctx.setObjectIntent (ord.enum B) n = (c', none)) :
    Good { s with ctx := c' } ∧ c'.objects = s.ctx.objects := by
  obtain ⟨h2, h3, h4, h5⟩ := set_object_ctx h.wf hm
  have hG : c'.G = s.ctx.G := by unfold Ctx.G; rw [h3]
  have hM : c'.M = s.ctx.M := by unfold Ctx.M; rw [h4]
  refine ⟨⟨h2, by rw [h3]; exact h.one, ?_, ?_⟩, h3⟩
  · show BExp.Over c'.M _; rw [hM]; exact h.over
  · show Valid c'.G c'.Inc s.bg
    refine valid_row h.valid h.over (checkIntent_iff.1 hB) (n := n) ?_ ?_ ?_
    · intro o ho
      exact .inr (hG ▸ ho)
    · intro a ha hn
      have ha' : a ∈ s.ctx.attributes := List.mem_toFinset.1 ha
      have hn' : n ∈ s.ctx.objects := by rw [← h3]; exact List.mem_toFinset.1 hn
      rw [h5]; simp [ha', hn']
    · intro o a ho
      rw [h5]; simp [ho]

/-- What one call does: the invariant is kept, and a call that raises changes nothing. -/
structure Step (E : Env α β) (s : EDB α β) (r : EDB α β × Option PyErr) : Prop where
  inv : Inv E r.1
  err : ∀ e, r.2 = some e → r.1 = s

theorem Step.same {E : Env α β} {s : EDB α β} (h : Inv E s) (e : PyErr) : Step E s (EDB.modifier E (s, some e)) :=
  ⟨h, fun _ _ => rfl⟩

theorem Step.good {E : Env α β} {s t : EDB α β} (h : Good t) : Step E s (EDB.modifier E (t, none)) := by
  obtain ⟨s', h1, -, -, h4⟩ := h.modifier (E := E)
  rw [h1]
  exact ⟨h4, fun e he => by simp at he⟩

theorem exec_step {E : Env α β} {s : EDB α β} (h : Inv E s) {op : Op α β} (hop : op.Ok s) :
    Step E s (s.exec E op) := by
  cases op with
  | confirm i =>
    refine Step.good ⟨h.wf, h.one, ?_, ?_⟩
    · intro j hj
      rcases List.mem_append.1 hj with hj | hj
      · exact h.over j hj
      · rw [List.mem_singleton.1 hj]; exact h.openValid.2 i hop
    · intro j hj
      rcases List.mem_append.1 hj with hj | hj
      · exact h.valid j hj
      · rw [List.mem_singleton.1 hj]; exact h.openValid.1 i hop
  | unconfirm i =>
    show Step E s (s.unconfirm E i)
    unfold unconfirm
    split
    · exact Step.good ⟨h.wf, h.one, fun j hj => h.over j (List.mem_of_mem_eraseIdx hj),
        fun j hj => h.valid j (List.mem_of_mem_eraseIdx hj)⟩
    · exact Step.same h _
  | addExample n B =>
    show Step E s (s.addExample E n B)
    unfold addExample
    split_ifs with h1 h2
    · exact Step.same h _
    · exact Step.same h _
    · obtain ⟨t, h3, -, h4, -⟩ := h.toGood.addExample h2 (by simpa using h1)
      rw [h3]
      exact Step.good h4
  | deleteExample n => exact Step.same h _
  | deleteAttribute n => exact Step.same h _
  | touch => exact Step.good h.toGood
  | addAttribute n A =>
    show Step E s (s.addAttribute E n A)
    unfold addAttribute
    split_ifs with h1
    · exact Step.same h _
    · obtain ⟨t, h3, -, h4⟩ := h.toGood.addAttribute h1 A
      rw [h3]
      exact Step.good h4
  | editExample n o B =>
    show Step E s (s.editExample E n o B)
    unfold editExample
    by_cases ho : o ∈ s.ctx.objects
    · rw [h.wf.objectIntent ho]
      dsimp only
      split_ifs with h1 h2
      · exact Step.same h _
      · rcases hm : s.ctx.setObjectIntent (E.ordI.enum B) o with ⟨c', _ | e⟩
        · obtain ⟨h3, h4⟩ := h.toGood.setIntent (by simpa using h2) hm
          obtain ⟨t, h5, -, h6⟩ := h3.rename (old := o) (n := n) (by show o ∈ c'.objects; rw [h4]; exact ho)
            (by show _ ∨ n ∉ c'.objects; rw [h4]; exact hop)
          unfold setCtx
          dsimp only
          rw [h5]
          exact Step.good h6
        · have hc : c' = s.ctx := Ctx.C03_failed_unchanged (op := .setObjectIntent (E.ordI.enum B) o) hm
          subst hc
          exact Step.same h _
      · obtain ⟨t, h5, -, h6⟩ := h.toGood.rename ho hop
        rw [h5]
        exact Step.good h6
    · rw [objectIntent_err ho]
      exact Step.same h _
  | editAttribute n o A =>
    show Step E s (s.editAttribute E n o A)
    unfold editAttribute
    have hmap : s.ctx.objects.mapM s.ctx.objectIntent = .ok (s.ctx.objects.map fun o => s.ctx.upF {o}) :=
      mapM_ok fun x hx => h.wf.objectIntent hx
    rw [hmap]
    dsimp only
    split_ifs with h1 h2
    · exact Step.same h _
    · exact Step.same h _
    · have hbg : s.bg = [] := by
        by_contra hb
        exact h1 ⟨by simpa using h.one, hb⟩
      rcases hm : s.ctx.setAttributeExtent (E.ordE.enum A) o with ⟨c', _ | e⟩
      · obtain ⟨h2, h3, h4, -⟩ := set_attribute_ctx h.wf hm
        have ho : o ∈ s.ctx.attributes := by
          by_contra hno
          obtain ⟨e, he⟩ := C03_illegal_raises h.wf.stores (op := .setAttributeExtent (E.ordE.enum A) o)
            (fun hl => hno hl.2)
          have : (s.ctx.exec (.setAttributeExtent (E.ordE.enum A) o)) = (c', none) := hm
          rw [this] at he
          simp at he
        have hf : (TOp.renameAttribute o n : TOp α β).Fresh ⟨c'.objects, c'.attributes, c'.incB⟩ := by
          rcases hop with hop | hop
          · exact .inr hop
          · exact .inl (by show n ∉ c'.attributes; rw [h4]; exact hop)
        obtain ⟨c2, hc2⟩ := h2.stores.returns (op := .renameAttribute o n) (by show c'.objects ≠ []; rw [h3]; exact h.one)
          (by show o ∈ c'.attributes; rw [h4]; exact ho)
        have hst := h2.stores.exec hf hc2
        have hc2' : c'.renameAttribute o n = (c2, none) := hc2
        unfold setCtx
        dsimp only
        rw [hc2']
        refine Step.good ⟨hst.wf, ?_, ?_, ?_⟩
        · show c2.objects ≠ []
          rw [hst.objs]; show c'.objects ≠ []; rw [h3]; exact h.one
        · show BExp.Over _ s.bg
          rw [hbg]; intro i hi; simp at hi
        · show Valid _ _ s.bg
          rw [hbg]; intro i hi; simp at hi
      · have hc : c' = s.ctx := Ctx.C03_failed_unchanged (op := .setAttributeExtent (E.ordE.enum A) o) hm
        subst hc
        exact Step.same h _

theorem run_inv {E : Env α β} {ops : List (Op α β)} {s : EDB α β} (h : Inv E s) (hf : OkRun E s ops) :
    Inv E (run E s ops) := by
  induction ops generalizing s with
  | nil => exact h
  | cons op ops ih => exact ih (exec_step h hf.1).inv hf.2

end EDB
