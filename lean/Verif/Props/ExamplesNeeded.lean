/-
Property C181: how many examples an exploration needs.
-/
import Verif.Props.Realise
import Verif.Props.ExploreCount
import Verif.Props.ExplorationBase
import Verif.Props.BasicExploration

set_option linter.unusedSectionVars false

open Spec Ctx BExp

variable {α β : Type} [DecidableEq α] [DecidableEq β]

/-! ### Specification -/

/-- `X` is the intent of an object. -/
def Ctx.HasRow (c : Ctx α β) (X : Finset β) : Prop := ∃ g ∈ c.objects, ∀ m ∈ c.M, c.Inc g m ↔ m ∈ X

/-- An irreducible closed set of the theory that no object has as its intent. -/
def Ctx.Lacks (c : Ctx α β) (L : Imps β) (X : Finset β) : Prop := MeetIrr c.M L X ∧ ¬ c.HasRow X

/-- An implication over the attributes that does not follow is refuted by an irreducible closed set. -/
theorem Ctx.C181_irreducible_counterexample {M : Finset β} {L : Imps β} (hL : ∀ pc ∈ L, pc.2 ⊆ M) {P C : Finset β}
    (hP : P ⊆ M) (hC : C ⊆ M) (hn : ¬ Entails L P C) : ∃ B, MeetIrr M L B ∧ P ⊆ B ∧ ¬ C ⊆ B := by
  classical
  unfold Entails Respects at hn
  push Not at hn
  obtain ⟨S, hS, hPS, hCS⟩ := hn
  obtain ⟨m, hm, hmS⟩ := Finset.not_subset.1 hCS
  have hSM : Closed L (S ∩ M) := by
    intro pc hpc hp x hx
    exact Finset.mem_inter.2 ⟨hS pc hpc (hp.trans Finset.inter_subset_left) hx, hL pc hpc hx⟩
  obtain ⟨Y, hYmem, hYmax⟩ := (M.powerset.filter fun Y => Closed L Y ∧ P ⊆ Y ∧ m ∉ Y).exists_max_image
    Finset.card ⟨S ∩ M, Finset.mem_filter.2 ⟨Finset.mem_powerset.2 Finset.inter_subset_right, hSM,
      Finset.subset_inter hPS hP, fun h => hmS (Finset.mem_inter.1 h).1⟩⟩
  obtain ⟨hYM, hYc, hPY, hmY⟩ := Finset.mem_filter.1 hYmem
  have hYM := Finset.mem_powerset.1 hYM
  refine ⟨Y, ⟨hYM, hYc, m, hC hm, hmY, fun Z hZM hZc hYZ => ?_⟩, hPY, fun h => hmY (h hm)⟩
  by_contra hmZ
  have := hYmax Z (Finset.mem_filter.2 ⟨Finset.mem_powerset.2 hZM, hZc, hPY.trans hYZ.1, hmZ⟩)
  exact absurd (Finset.card_lt_card hYZ) (by omega)

/-- If the rows after a call are the rows before and at most one more, then at most one of the sets lacking is there. -/
theorem lacks_step {c c' : Ctx α β} {L : Imps β} {b : Bool} {k : ℕ} (e1 : c'.attributes = c.attributes) {B : Finset β}
    (hB : ∀ g ∈ c'.objects, (∃ o ∈ c.objects, ∀ m ∈ c.M, c'.Inc g m ↔ c.Inc o m) ∨
      (b = true ∧ ∀ m ∈ c.M, c'.Inc g m ↔ m ∈ B)) {F : List (Finset β)} (hF : F.Nodup) (hl : ∀ X ∈ F, c.Lacks L X)
    (ih : ∀ F' : List (Finset β), F'.Nodup → (∀ X ∈ F', c'.Lacks L X) → F'.length ≤ k) :
    F.length ≤ k + if b = true then 1 else 0 := by
  classical
  have hM : c'.M = c.M := by unfold Ctx.M; rw [e1]
  have key : ∀ X ∈ F, ¬ c'.Lacks L X → b = true ∧ X = B ∩ c.M := by
    intro X hX hno
    obtain ⟨k1, k2⟩ := hl X hX
    have : c'.HasRow X := by
      by_contra hr
      exact hno ⟨by rw [hM]; exact k1, hr⟩
    obtain ⟨g, hg, hgm⟩ := this
    rw [hM] at hgm
    rcases hB g hg with ⟨o, ho, hom⟩ | ⟨hr, hrow⟩
    · exact absurd ⟨o, ho, fun m hm => (hom m hm).symm.trans (hgm m hm)⟩ k2
    · refine ⟨hr, ?_⟩
      ext m
      rw [Finset.mem_inter]
      constructor
      · intro hm
        have hm' := k1.1 hm
        exact ⟨(hrow m hm').1 ((hgm m hm').2 hm), hm'⟩
      · rintro ⟨h1, h2⟩
        exact (hgm m h2).1 ((hrow m h2).2 h1)
  have hrest := ih (F.filter fun X => decide (c'.Lacks L X)) (hF.filter _) (fun X hX => by simpa using (List.mem_filter.1 hX).2)
  by_cases hr : b = true
  · rw [if_pos hr]
    have hsub : F.toFinset ⊆ insert (B ∩ c.M) (F.filter fun X => decide (c'.Lacks L X)).toFinset := by
      intro X hX
      have hX := List.mem_toFinset.1 hX
      rw [Finset.mem_insert, List.mem_toFinset, List.mem_filter]
      by_cases hq : c'.Lacks L X
      · exact .inr ⟨hX, by simpa using hq⟩
      · exact .inl (key X hX hq).2
    have := (Finset.card_le_card hsub).trans (Finset.card_insert_le _ _)
    rw [List.toFinset_card_of_nodup hF, List.toFinset_card_of_nodup (hF.filter _)] at this
    omega
  · have : F.filter (fun X => decide (c'.Lacks L X)) = F := by
      rw [List.filter_eq_self]
      intro X hX
      by_contra hq
      exact hr (key X hX (by simpa using hq)).1
    rw [this] at hrest
    omega

namespace EDB

/-- The call is not about attributes. -/
def Op.KeepsAtts : Op α β → Prop
  | .addAttribute _ _ => False
  | .editAttribute _ _ _ => False
  | _ => True

/-- One for `add_example`. -/
def Op.adds : Op α β → ℕ
  | .addExample _ _ => 1
  | _ => 0

/-- `add_example` or `edit_example`. -/
def Op.isRow : Op α β → Bool
  | .addExample _ _ => true
  | .editExample _ _ _ => true
  | _ => false

variable [PyName α] [PyName β]

/-- A history in which only open implications are confirmed, all of them consequences of `L`, and every example is an
irreducible closed set of `L` that refutes an open implication, under a new name. -/
def IrrRun (E : Env α β) (L : Imps β) : EDB α β → List (Op α β) → Prop
  | _, [] => True
  | s, .confirm i :: ops => i ∈ s.openImps ∧ Entails L i.premise i.conclusion ∧ IrrRun E L (s.exec E (.confirm i)).1 ops
  | s, .addExample n B :: ops => n ∉ s.ctx.objects ∧ MeetIrr s.ctx.M L B ∧
      (∃ i ∈ s.openImps, i.premise ⊆ B ∧ ¬ i.conclusion ⊆ B) ∧ IrrRun E L (s.exec E (.addExample n B)).1 ops
  | _, _ => False

/-! ### What a call does to the rows -/

theorem editRename_rows {s : EDB α β} (h : Good s) {old n : α} (ho : old ∈ s.ctx.objects)
    (hn : n = old ∨ n ∉ s.ctx.objects) :
    (s.editRename n old).1.ctx.attributes = s.ctx.attributes ∧
    (s.editRename n old).1.ctx.objects.length = s.ctx.objects.length ∧
    ∀ g ∈ (s.editRename n old).1.ctx.objects, ∃ o ∈ s.ctx.objects, ∀ m, (s.editRename n old).1.ctx.Inc g m ↔ s.ctx.Inc o m := by
  unfold editRename
  by_cases he : old ≠ n
  · have hn' := hn.resolve_left (Ne.symm he)
    obtain ⟨c', h1, h2, h3, h4, h5, h6⟩ := rename_object_ctx h.wf h.one ho hn'
    rw [if_pos he, if_neg hn', h1]
    refine ⟨h4, by simp [setCtx, h3], ?_⟩
    intro g hg
    change g ∈ c'.objects at hg
    rw [h3, List.mem_map] at hg
    obtain ⟨o, ho', rfl⟩ := hg
    refine ⟨o, ho', fun m => ?_⟩
    show c'.Inc _ m ↔ _
    by_cases hoo : o = old
    · rw [if_pos hoo, h5, hoo]
    · rw [if_neg hoo]
      exact h6 o m (by rintro rfl; exact hn' ho') hoo
  · rw [if_neg he]
    exact ⟨rfl, rfl, fun g hg => ⟨g, hg, fun m => Iff.rfl⟩⟩

/-- A call adds at most one row, and only `add_example` and `edit_example` do. -/
theorem exec_rows {E : Env α β} {s : EDB α β} (h : Inv E s) {op : Op α β} (hop : op.Ok s) (hk : op.KeepsAtts) :
    (s.exec E op).1.ctx.attributes = s.ctx.attributes ∧
    ∃ B : Finset β, ∀ g ∈ (s.exec E op).1.ctx.objects,
      (∃ o ∈ s.ctx.objects, ∀ m ∈ s.ctx.M, (s.exec E op).1.ctx.Inc g m ↔ s.ctx.Inc o m) ∨
      (op.isRow = true ∧ ∀ m ∈ s.ctx.M, (s.exec E op).1.ctx.Inc g m ↔ m ∈ B) := by
  have same : ∀ {t : EDB α β}, t.ctx = s.ctx → t.ctx.attributes = s.ctx.attributes ∧
      ∃ B : Finset β, ∀ g ∈ t.ctx.objects, (∃ o ∈ s.ctx.objects, ∀ m ∈ s.ctx.M, t.ctx.Inc g m ↔ s.ctx.Inc o m) ∨
      (op.isRow = true ∧ ∀ m ∈ s.ctx.M, t.ctx.Inc g m ↔ m ∈ B) := by
    intro t ht
    rw [ht]
    exact ⟨rfl, ∅, fun g hg => .inl ⟨g, hg, fun m _ => Iff.rfl⟩⟩
  cases op with
  | confirm i => exact same (modifier_ctx _)
  | unconfirm i =>
    refine same ((modifier_ctx _).trans ?_)
    split <;> rfl
  | deleteExample n => exact same (modifier_ctx _)
  | deleteAttribute n => exact same (modifier_ctx _)
  | touch => exact same (modifier_ctx _)
  | addAttribute n A => exact hk.elim
  | editAttribute n o A => exact hk.elim
  | addExample n B =>
    by_cases h1 : s.checkIntent B = true
    · by_cases h2 : n ∈ s.ctx.objects
      · refine same ((modifier_ctx _).trans ?_)
        simp [h1, h2]
      · obtain ⟨t, h3, -, -, h5, h6, h7⟩ := h.toGood.addExample h2 h1
        have he : (s.exec E (.addExample n B)).1.ctx = t.ctx := by
          refine (modifier_ctx _).trans ?_
          simp only [h1, h2, if_false, Bool.not_true, Bool.false_eq_true]
          rw [h3]
        rw [he]
        refine ⟨h6, B, fun g hg => ?_⟩
        rw [h5, List.mem_append, List.mem_singleton] at hg
        by_cases hgn : g = n
        · refine .inr ⟨rfl, fun m hm => ?_⟩
          have hm' : m ∈ s.ctx.attributes := List.mem_toFinset.1 hm
          rw [h7]; simp [hgn, hm']
        · exact .inl ⟨g, hg.resolve_right hgn, fun m _ => by rw [h7]; simp [hgn]⟩
    · refine same ((modifier_ctx _).trans ?_)
      simp [h1]
  | editExample n o B =>
    have e0 : (s.exec E (.editExample n o B)).1.ctx = _ := modifier_ctx _
    rw [e0]
    by_cases ho : o ∈ s.ctx.objects
    · rw [h.wf.objectIntent ho]
      dsimp only
      split_ifs with h1 h2
      · exact same rfl
      · rcases hm : s.ctx.setObjectIntent (E.ordI.enum B) o with ⟨c', _ | e⟩
        · obtain ⟨h3, h4⟩ := h.toGood.setIntent (by simpa using h2) hm
          obtain ⟨-, -, k4, k5⟩ := set_object_ctx h.wf hm
          obtain ⟨q1, -, q3⟩ := editRename_rows h3 (old := o) (n := n) (by show o ∈ c'.objects; rw [h4]; exact ho)
            (by show _ ∨ n ∉ c'.objects; rw [h4]; exact hop)
          unfold setCtx
          dsimp only
          refine ⟨q1.trans k4, B, fun g hg => ?_⟩
          obtain ⟨o', ho', hom⟩ := q3 g hg
          change o' ∈ c'.objects at ho'
          rw [h4] at ho'
          by_cases hoo : o' = o
          · refine .inr ⟨rfl, fun m hmm => ?_⟩
            have hm' : m ∈ s.ctx.attributes := List.mem_toFinset.1 hmm
            rw [hom]
            show c'.Inc o' m ↔ _
            rw [k5]; simp [hoo, ho, hm', E.ordI.mem]
          · refine .inl ⟨o', ho', fun m _ => ?_⟩
            rw [hom]
            show c'.Inc o' m ↔ _
            rw [k5]; simp [hoo]
        · have hc : c' = s.ctx := Ctx.C03_failed_unchanged (op := .setObjectIntent (E.ordI.enum B) o) hm
          exact same hc
      · obtain ⟨q1, -, q3⟩ := editRename_rows h.toGood ho hop
        refine ⟨q1, ∅, fun g hg => ?_⟩
        obtain ⟨o', ho', hom⟩ := q3 g hg
        exact .inl ⟨o', ho', fun m _ => hom m⟩
    · rw [objectIntent_err ho]
      exact same rfl

/-- A call adds at most one object, and only `add_example` does. -/
theorem exec_objects_length {E : Env α β} {s : EDB α β} (h : Inv E s) {op : Op α β} (hop : op.Ok s) :
    (s.exec E op).1.ctx.objects.length ≤ s.ctx.objects.length + op.adds := by
  have same : ∀ {t : EDB α β}, t.ctx = s.ctx → t.ctx.objects.length ≤ s.ctx.objects.length + op.adds := by
    intro t ht
    rw [ht]; omega
  cases op with
  | confirm i => exact same (modifier_ctx _)
  | unconfirm i =>
    refine same ((modifier_ctx _).trans ?_)
    split <;> rfl
  | deleteExample n => exact same (modifier_ctx _)
  | deleteAttribute n => exact same (modifier_ctx _)
  | touch => exact same (modifier_ctx _)
  | addAttribute n A =>
    by_cases h1 : n ∈ s.ctx.attributes
    · refine same ((modifier_ctx _).trans ?_)
      simp [h1]
    · obtain ⟨c', h2, -, h4, -⟩ := add_attribute_ctx h.wf h.one h1 A
      have he : (s.exec E (.addAttribute n A)).1.ctx = c' := by
        refine (modifier_ctx _).trans ?_
        simp only [h1, if_false]
        unfold setCtx
        rw [h2]
      rw [he, h4]; omega
  | editAttribute n o A =>
    have e0 : (s.exec E (.editAttribute n o A)).1.ctx = _ := modifier_ctx _
    rw [e0]
    have hmap : s.ctx.objects.mapM s.ctx.objectIntent = .ok (s.ctx.objects.map fun o => s.ctx.upF {o}) :=
      mapM_ok fun x hx => h.wf.objectIntent hx
    rw [hmap]
    dsimp only
    split_ifs with h1 h2
    · exact same rfl
    · exact same rfl
    · rcases hm : s.ctx.setAttributeExtent (E.ordE.enum A) o with ⟨c', _ | e⟩
      · obtain ⟨h2, h3, h4, -⟩ := set_attribute_ctx h.wf hm
        unfold setCtx
        dsimp only
        rcases hr : c'.renameAttribute o n with ⟨c2, _ | e⟩
        · have hf : (TOp.renameAttribute o n : TOp α β).Fresh ⟨c'.objects, c'.attributes, c'.incB⟩ := by
            rcases hop with hop | hop
            · exact .inr hop
            · exact .inl (by show n ∉ c'.attributes; rw [h4]; exact hop)
          have hst := h2.stores.exec (op := .renameAttribute o n) hf hr
          show c2.objects.length ≤ _
          rw [hst.objs]; show c'.objects.length ≤ _; rw [h3]; omega
        · have hc : c2 = c' := Ctx.C03_failed_unchanged (op := .renameAttribute o n) hr
          show c2.objects.length ≤ _
          rw [hc, h3]; omega
      · have hc : c' = s.ctx := Ctx.C03_failed_unchanged (op := .setAttributeExtent (E.ordE.enum A) o) hm
        exact same hc
  | addExample n B =>
    by_cases h1 : s.checkIntent B = true
    · by_cases h2 : n ∈ s.ctx.objects
      · refine same ((modifier_ctx _).trans ?_)
        simp [h1, h2]
      · obtain ⟨t, h3, -, -, h5, h6, h7⟩ := h.toGood.addExample h2 h1
        have he : (s.exec E (.addExample n B)).1.ctx = t.ctx := by
          refine (modifier_ctx _).trans ?_
          simp only [h1, h2, if_false, Bool.not_true, Bool.false_eq_true]
          rw [h3]
        rw [he, h5]
        simp [Op.adds]
    · refine same ((modifier_ctx _).trans ?_)
      simp [h1]
  | editExample n o B =>
    have e0 : (s.exec E (.editExample n o B)).1.ctx = _ := modifier_ctx _
    rw [e0]
    by_cases ho : o ∈ s.ctx.objects
    · rw [h.wf.objectIntent ho]
      dsimp only
      split_ifs with h1 h2
      · exact same rfl
      · rcases hm : s.ctx.setObjectIntent (E.ordI.enum B) o with ⟨c', _ | e⟩
        · obtain ⟨h3, h4⟩ := h.toGood.setIntent (by simpa using h2) hm
          obtain ⟨-, q2, -⟩ := editRename_rows h3 (old := o) (n := n) (by show o ∈ c'.objects; rw [h4]; exact ho)
            (by show _ ∨ n ∉ c'.objects; rw [h4]; exact hop)
          unfold setCtx
          dsimp only
          rw [q2]
          show c'.objects.length ≤ _
          rw [h4]; omega
        · have hc : c' = s.ctx := Ctx.C03_failed_unchanged (op := .setObjectIntent (E.ordI.enum B) o) hm
          exact same hc
      · obtain ⟨-, q2, -⟩ := editRename_rows h.toGood ho hop
        rw [q2]; omega
    · rw [objectIntent_err ho]
      exact same rfl

/-! ### At least so many -/

theorem run_objects_length {E : Env α β} {ops : List (Op α β)} {s : EDB α β} (h : Inv E s) (hf : OkRun E s ops) :
    (run E s ops).ctx.objects.length ≤ s.ctx.objects.length + (ops.map Op.adds).sum := by
  induction ops generalizing s with
  | nil => simp [run]
  | cons op ops ih =>
    have h1 := exec_objects_length h hf.1
    have h2 := ih (exec_step h hf.1).inv hf.2
    have h3 : run E s (op :: ops) = run E (s.exec E op).1 ops := rfl
    rw [h3, List.map_cons, List.sum_cons]
    omega

theorem run_lacks {E : Env α β} {L : Imps β} {ops : List (Op α β)} {s : EDB α β} (h : Inv E s) (hf : OkRun E s ops)
    (hk : ∀ op ∈ ops, op.KeepsAtts) (hfin : ∀ X, ¬ (run E s ops).ctx.Lacks L X) {F : List (Finset β)} (hF : F.Nodup)
    (hl : ∀ X ∈ F, s.ctx.Lacks L X) : F.length ≤ ops.countP Op.isRow := by
  classical
  induction ops generalizing s F with
  | nil =>
    cases F with
    | nil => simp
    | cons X F => exact absurd (hl X (by simp)) (hfin X)
  | cons op ops ih =>
    obtain ⟨e1, B, hB⟩ := exec_rows h hf.1 (hk op (by simp))
    rw [List.countP_cons]
    exact lacks_step e1 hB hF hl fun F' => ih (exec_step h hf.1).inv hf.2 (fun o ho => hk o (by simp [ho])) hfin

/-- C181: after a history that ends without open implications, every irreducible closed set of the accepted theory is the
intent of an object. So with `F` the list of these sets at least `len(F) - len(objects)` calls of `add_example` were made,
counting the objects at the start. -/
theorem C181_lower_bound {E : Env α β} (hE : E.cond = fun _ => true) {c : Ctx α β} (h : c.WFw) (hne : c.objects ≠ [])
    {bg : List (Imp β)} (ho : ∀ i ∈ bg, i.premise ⊆ c.M ∧ i.conclusion ⊆ c.M)
    (hv : ∀ i ∈ bg, HoldsIn c.G c.Inc i.premise i.conclusion) (hd : bg.Pairwise fun i j => i.pyEq j = false)
    {s₀ : EDB α β} (hi : init E c bg = .ok s₀) {ops : List (Op α β)} (hf : OkRun E s₀ ops) (s : EDB α β)
    (hs : s = run E s₀ ops) (hfin : s.openImps = []) :
    (∀ X, MeetIrr s.ctx.M (specImps s.bg) X → s.ctx.HasRow X) ∧
    (∀ F : List (Finset β), F.Nodup → (∀ X ∈ F, MeetIrr s.ctx.M (specImps s.bg) X) →
      F.length ≤ c.objects.length + (ops.map Op.adds).sum) ∧
    ((∀ op ∈ ops, op.KeepsAtts) → ∀ F : List (Finset β), F.Nodup → (∀ X ∈ F, c.Lacks (specImps s.bg) X) →
      F.length ≤ ops.countP Op.isRow) := by
  classical
  have hc := fun {P C} => C58_finished_complete hE h hne ho hv hd hi hf s hs hfin (P := P) (C := C)
  obtain ⟨s', h1, h2, h3, h4⟩ := init_ok (E := E) h hne ho hv
  rw [h1] at hi; cases hi
  have hI : Inv E s := hs ▸ run_inv h4 hf
  have hL : ∀ pc ∈ specImps s.bg, pc.2 ⊆ s.ctx.M := by
    intro pc hpc
    obtain ⟨i, hi, rfl⟩ := List.mem_map.1 hpc
    exact (hI.over i hi).2
  have hrow : ∀ X, MeetIrr s.ctx.M (specImps s.bg) X → s.ctx.HasRow X := fun X hX =>
    C180_irreducible_intents hI.wf hL (fun P C hP hC => hc hP hC) hX
  refine ⟨hrow, ?_, ?_⟩
  · intro F hF hmem
    have hsub : F.toFinset ⊆ s.ctx.G.image fun g => s.ctx.M.filter fun m => s.ctx.Inc g m := by
      intro X hX
      have hX := List.mem_toFinset.1 hX
      obtain ⟨g, hg, hgm⟩ := hrow X (hmem X hX)
      refine Finset.mem_image.2 ⟨g, List.mem_toFinset.2 hg, ?_⟩
      ext m
      rw [Finset.mem_filter]
      exact ⟨fun h => (hgm m h.1).1 h.2, fun h => ⟨(hmem X hX).1 h, (hgm m ((hmem X hX).1 h)).2 h⟩⟩
    have := (Finset.card_le_card hsub).trans Finset.card_image_le
    rw [List.toFinset_card_of_nodup hF] at this
    have h5 := this.trans (List.toFinset_card_le _)
    have h6 := run_objects_length h4 hf
    rw [h2, ← hs] at h6
    omega
  · intro hk F hF hmem
    refine run_lacks h4 hf hk (L := specImps s.bg) ?_ hF (by rw [h2]; exact hmem)
    rw [← hs]
    exact fun X hX => hX.2 (hrow X hX.1)

/-! ### And no more -/

/-- Invariant of an exploration of the domain with the theory `L`. -/
structure JInv (E : Env α β) (L : Imps β) (M : Finset β) (s : EDB α β) : Prop where
  inv : Inv E s
  dist : Distinct s
  m : s.ctx.M = M
  bgE : ∀ S, S ⊆ M → Closed L S → Closed (specImps s.bg) S
  objE : ∀ pc ∈ L, HoldsIn s.ctx.G s.ctx.Inc pc.1 pc.2

theorem JInv.confirm {E : Env α β} (hE : E.cond = fun _ => true) {L : Imps β} {M : Finset β} {s : EDB α β}
    (h : JInv E L M s) {x : Imp β} (hx : x ∈ s.openImps) (hv : Entails L x.premise x.conclusion) :
    JInv E L M (s.exec E (.confirm x)).1 ∧ (s.exec E (.confirm x)).1.ctx = s.ctx ∧
    (gap M (s.exec E (.confirm x)).1).card < (gap M s).card := by
  obtain ⟨hps, hcx⟩ := (h.inv.pseudo hE h.dist x).1 hx
  rw [IsPseudo] at hps
  have hnc : ¬ x.conclusion ⊆ x.premise := by
    rw [hcx]
    intro hs
    exact hps.2.2.1 (Finset.Subset.antisymm hs (h.inv.wf.attrClosure_op.ext _ hps.1))
  have h2 : (s.exec E (.confirm x)).1.ctx = s.ctx := modifier_ctx _
  have h3 : (s.exec E (.confirm x)).1.bg = s.bg ++ [x] := modifier_bg _
  refine ⟨⟨(exec_step h.inv (op := .confirm x) hx).inv, distinct_step hE h.inv h.dist (op := .confirm x) hx, by rw [h2]; exact h.m, ?_,
    by rw [h2]; exact h.objE⟩, h2, ?_⟩
  · intro S hS hc
    rw [h3, closed_specImps]
    intro j hj hp
    rcases List.mem_append.1 hj with hj | hj
    · exact (closed_specImps _ _).1 (h.bgE S hS hc) j hj hp
    · rw [List.mem_singleton.1 hj] at hp ⊢
      exact hv S hc hp
  · apply Finset.card_lt_card
    rw [Finset.ssubset_iff_of_subset]
    · refine ⟨x.premise, mem_gap.2 ⟨h.m ▸ hps.1, hps.2.1, hps.2.2.1⟩, ?_⟩
      intro hg
      have := (closed_specImps _ _).1 (mem_gap.1 hg).2.1 x (by rw [h3]; simp) (Finset.Subset.refl _)
      exact hnc this
    · intro S hS
      obtain ⟨h5, h6, h7⟩ := mem_gap.1 hS
      rw [h2] at h7
      refine mem_gap.2 ⟨h5, ?_, h7⟩
      rw [closed_specImps] at h6 ⊢
      exact fun j hj => h6 j (by rw [h3]; exact List.mem_append_left _ hj)

theorem JInv.add {E : Env α β} (hE : E.cond = fun _ => true) {L : Imps β} {M : Finset β} (hL : ∀ pc ∈ L, pc.2 ⊆ M)
    {s : EDB α β} (h : JInv E L M s) {n : α} (hn : n ∉ s.ctx.objects) {B : Finset β} (hBM : B ⊆ M) (hBc : Closed L B)
    {x : Imp β} (hx : x ∈ s.openImps) (hxp : x.premise ⊆ B) (hxc : ¬ x.conclusion ⊆ B) :
    JInv E L M (s.exec E (.addExample n B)).1 ∧ (s.exec E (.addExample n B)).2 = none ∧ ¬ s.ctx.HasRow B ∧
    (∀ X, X ⊆ M → ((s.exec E (.addExample n B)).1.ctx.HasRow X ↔ s.ctx.HasRow X ∨ X = B)) ∧
    (gap M (s.exec E (.addExample n B)).1).card < (gap M s).card := by
  have hchk : s.checkIntent B = true := checkIntent_iff.2 ((closed_specImps _ _).1 (h.bgE B hBM hBc))
  obtain ⟨t, h3, t2, t3, h5, h6, h7⟩ := h.inv.toGood.addExample hn hchk
  obtain ⟨s', u1, u2, u3, u4⟩ := t3.modifier (E := E)
  have hex : s.exec E (.addExample n B) = (s', none) := by
    show EDB.modifier E _ = _
    simp only [hchk, hn, if_false, Bool.not_true, Bool.false_eq_true]
    rw [h3, u1]
  have hM : s'.ctx.M = s.ctx.M := by unfold Ctx.M; rw [u2, h6]
  have hobj : s'.ctx.objects = s.ctx.objects ++ [n] := by rw [u2, h5]
  have hinc : ∀ o a, s'.ctx.Inc o a ↔ (o = n ∧ a ∈ s.ctx.attributes ∧ a ∈ B) ∨ (o ≠ n ∧ s.ctx.Inc o a) := by rw [u2]; exact h7
  have hold : ∀ o ∈ s.ctx.objects, ∀ a, s'.ctx.Inc o a ↔ s.ctx.Inc o a := by
    intro o ho a
    have : o ≠ n := by rintro rfl; exact hn ho
    rw [hinc]; simp [this]
  have hnew : ∀ a ∈ M, s'.ctx.Inc n a ↔ a ∈ B := by
    intro a ha
    have : a ∈ s.ctx.attributes := by rw [← h.m] at ha; exact List.mem_toFinset.1 ha
    rw [hinc]; simp [this]
  obtain ⟨hps, hcx⟩ := (h.inv.pseudo hE h.dist x).1 hx
  have hnoint : attrClosure s.ctx.G s.ctx.M s.ctx.Inc B ≠ B := by
    intro he
    have := h.inv.wf.attrClosure_op.mono _ _ hxp (h.m ▸ hBM)
    rw [he, ← hcx] at this
    exact hxc this
  have hnorow : ¬ s.ctx.HasRow B := by
    rintro ⟨g, hg, hgm⟩
    rw [h.m] at hgm
    have hval := h.inv.openValid.1 x hx g (List.mem_toFinset.2 hg)
      (fun m hm => (hgm m (hBM (hxp hm))).2 (hxp hm))
    refine hxc fun m hm => (hgm m ?_).1 (hval m hm)
    rw [← h.m]; exact (h.inv.openValid.2 x hx).2 hm
  rw [hex]
  refine ⟨⟨u4, ?_, hM.trans h.m, ?_, ?_⟩, rfl, hnorow, ?_, ?_⟩
  · unfold Distinct; rw [u3, t2]; exact h.dist
  · intro S hS hc
    show Closed (specImps s'.bg) S
    rw [u3, t2]; exact h.bgE S hS hc
  · intro pc hpc g hg hp m hm
    have hg : g ∈ s'.ctx.objects := List.mem_toFinset.1 hg
    rw [hobj, List.mem_append, List.mem_singleton] at hg
    rcases hg with hg | rfl
    · exact (hold g hg m).2 (h.objE pc hpc g (List.mem_toFinset.2 hg) (fun p hp' => (hold g hg p).1 (hp p hp')) m hm)
    · have hin : ∀ p ∈ pc.1, p ∈ B := by
        intro p hp'
        have hpi := hp p hp'
        have hpM : p ∈ M := by rw [← h.m, ← hM]; exact List.mem_toFinset.2 hpi.mem.2
        exact (hnew p hpM).1 hpi
      exact (hnew m (hL pc hpc hm)).2 (hBc pc hpc hin hm)
  · intro X hX
    constructor
    · rintro ⟨g, hg, hgm⟩
      change ∀ m ∈ s'.ctx.M, s'.ctx.Inc g m ↔ m ∈ X at hgm
      change g ∈ s'.ctx.objects at hg
      rw [hM] at hgm
      rw [hobj, List.mem_append, List.mem_singleton] at hg
      rcases hg with hg | rfl
      · exact .inl ⟨g, hg, fun m hm => (hold g hg m).symm.trans (hgm m hm)⟩
      · right
        rw [h.m] at hgm
        ext m
        constructor
        · exact fun hm => (hnew m (hX hm)).1 ((hgm m (hX hm)).2 hm)
        · exact fun hm => (hgm m (hBM hm)).1 ((hnew m (hBM hm)).2 hm)
    · rintro (⟨g, hg, hgm⟩ | rfl)
      · exact ⟨g, by show g ∈ s'.ctx.objects; rw [hobj]; simp [hg], fun m hm => (hold g hg m).trans (hgm m (hM ▸ hm))⟩
      · refine ⟨n, by show n ∈ s'.ctx.objects; rw [hobj]; simp, fun m hm => hnew m ?_⟩
        rw [← h.m, ← hM]; exact hm
  · apply Finset.card_lt_card
    rw [Finset.ssubset_iff_of_subset]
    · refine ⟨B, mem_gap.2 ⟨hBM, h.bgE B hBM hBc, hnoint⟩, fun hg => (mem_gap.1 hg).2.2 ?_⟩
      refine Finset.Subset.antisymm ?_ (u4.wf.attrClosure_op.ext B (by rw [hM, h.m]; exact hBM))
      intro m hm
      simp only [attrClosure, Finset.mem_filter] at hm
      have hm1 : m ∈ M := by rw [← h.m, ← hM]; exact hm.1
      refine (hnew m hm1).1 (hm.2 n (List.mem_toFinset.2 (by rw [hobj]; simp)) fun b hb => (hnew b (hBM hb)).2 hb)
    · intro S hS
      obtain ⟨k1, k2, k3⟩ := mem_gap.1 hS
      refine mem_gap.2 ⟨k1, by rw [u3, t2] at k2; exact k2, fun he => k3 ?_⟩
      refine Finset.Subset.antisymm ?_ (u4.wf.attrClosure_op.ext S (by rw [hM, h.m]; exact k1))
      intro m hm
      rw [← he]
      simp only [attrClosure, Finset.mem_filter] at hm ⊢
      refine ⟨hM ▸ hm.1, fun g hg hgs => ?_⟩
      have hg' := List.mem_toFinset.1 hg
      exact (hold g hg' m).1 (hm.2 g (List.mem_toFinset.2 (by rw [hobj]; simp [hg'])) fun b hb =>
        (hold g hg' b).2 (hgs b hb))

theorem irr_run {E : Env α β} (hE : E.cond = fun _ => true) {L : Imps β} {M : Finset β} (hL : ∀ pc ∈ L, pc.2 ⊆ M)
    {ops : List (Op α β)} {s : EDB α β} (h : JInv E L M s) (hf : IrrRun E L s ops) :
    OkRun E s ops ∧ JInv E L M (run E s ops) ∧ (gap M (run E s ops)).card + ops.length ≤ (gap M s).card ∧
    ∀ F : List (Finset β), F.Nodup → (∀ X, X ∈ F ↔ s.ctx.Lacks L X) → ∃ F' : List (Finset β), F'.Nodup ∧
      (∀ X, X ∈ F' ↔ (run E s ops).ctx.Lacks L X) ∧ F.length = F'.length + (ops.map Op.adds).sum := by
  induction ops generalizing s with
  | nil => exact ⟨trivial, h, le_refl _, fun F hF hm => ⟨F, hF, hm, rfl⟩⟩
  | cons op ops ih =>
    cases op with
    | confirm i =>
      obtain ⟨h1, h2, h3⟩ := hf
      obtain ⟨k1, k2, k3⟩ := h.confirm hE h1 h2
      obtain ⟨i1, i2, i3, i4⟩ := ih k1 h3
      refine ⟨⟨h1, i1⟩, i2, ?_, fun F hF hm => ?_⟩
      · show (gap M (run E (s.exec E (.confirm i)).1 ops)).card + (ops.length + 1) ≤ _
        omega
      · obtain ⟨F', j1, j2, j3⟩ := i4 F hF (by rw [k2]; exact hm)
        exact ⟨F', j1, j2, by simpa [Op.adds] using j3⟩
    | addExample n B =>
      obtain ⟨h1, h2, ⟨x, hx, hxp, hxc⟩, h3⟩ := hf
      obtain ⟨k1, -, k3, k4, k5⟩ := h.add hE hL h1 (h.m ▸ h2.1) h2.2.1 hx hxp hxc
      obtain ⟨i1, i2, i3, i4⟩ := ih k1 h3
      refine ⟨⟨trivial, i1⟩, i2, ?_, fun F hF hm => ?_⟩
      · show (gap M (run E (s.exec E (.addExample n B)).1 ops)).card + (ops.length + 1) ≤ _
        omega
      · have hBF : B ∈ F := (hm B).2 ⟨h2, k3⟩
        obtain ⟨F', j1, j2, j3⟩ := i4 (F.erase B) (hF.erase B) (by
          intro X
          rw [hF.mem_erase_iff, hm]
          unfold Lacks
          rw [k1.m, h.m]
          constructor
          · rintro ⟨a1, a2, a3⟩
            exact ⟨a2, fun hr => ((k4 X a2.1).1 hr).elim a3 a1⟩
          · rintro ⟨a1, a2⟩
            exact ⟨fun he => a2 ((k4 X a1.1).2 (.inr he)), a1, fun hr => a2 ((k4 X a1.1).2 (.inl hr))⟩)
        refine ⟨F', j1, j2, ?_⟩
        have := List.length_erase_of_mem hBF
        have hpos := List.length_pos_of_mem hBF
        rw [List.map_cons, List.sum_cons]
        show F.length = F'.length + (1 + _)
        omega
    | _ => exact hf.elim

theorem irr_run_append {E : Env α β} {L : Imps β} {ops ops' : List (Op α β)} {s : EDB α β} (h1 : IrrRun E L s ops)
    (h2 : IrrRun E L (run E s ops) ops') : IrrRun E L s (ops ++ ops') := by
  induction ops generalizing s with
  | nil => exact h2
  | cons op ops ih =>
    cases op with
    | confirm i => exact ⟨h1.1, h1.2.1, ih h1.2.2 h2⟩
    | addExample n B => exact ⟨h1.1, h1.2.1, h1.2.2.1, ih h1.2.2.2 h2⟩
    | _ => exact h1.elim

theorem irr_continue [Infinite α] {E : Env α β} (hE : E.cond = fun _ => true) {L : Imps β} {M : Finset β}
    (hL : ∀ pc ∈ L, pc.2 ⊆ M) {s : EDB α β} (h : JInv E L M s) :
    ∃ ops, IrrRun E L s ops ∧ (run E s ops).openImps = [] := by
  classical
  induction hk : (gap M s).card using Nat.strong_induction_on generalizing s with
  | _ k ih =>
    rcases ho : s.openImps with _ | ⟨x, rest⟩
    · exact ⟨[], trivial, ho⟩
    · have hx : x ∈ s.openImps := by rw [ho]; simp
      by_cases he : Entails L x.premise x.conclusion
      · obtain ⟨k1, -, k3⟩ := h.confirm hE hx he
        obtain ⟨ops, i1, i2⟩ := ih _ (hk ▸ k3) k1 rfl
        exact ⟨.confirm x :: ops, ⟨hx, he, i1⟩, i2⟩
      · obtain ⟨n, hn⟩ := Infinite.exists_notMem_finset s.ctx.objects.toFinset
        have hn : n ∉ s.ctx.objects := fun hc => hn (List.mem_toFinset.2 hc)
        have hov := h.inv.openValid.2 x hx
        rw [h.m] at hov
        obtain ⟨B, hB, hp, hc⟩ := C181_irreducible_counterexample hL hov.1 hov.2 he
        obtain ⟨k1, -, -, -, k5⟩ := h.add hE hL hn hB.1 hB.2.1 hx hp hc
        obtain ⟨ops, i1, i2⟩ := ih _ (hk ▸ k5) k1 rfl
        exact ⟨.addExample n B :: ops, ⟨hn, by rw [h.m]; exact hB, ⟨x, hx, hp, hc⟩, i1⟩, i2⟩

theorem init_jinv {E : Env α β} {c : Ctx α β} (h : c.WFw) (hne : c.objects ≠ []) {L : Imps β} (hL : ∀ pc ∈ L, pc.2 ⊆ c.M)
    (hLv : ∀ pc ∈ L, HoldsIn c.G c.Inc pc.1 pc.2) {bg : List (Imp β)}
    (ho : ∀ i ∈ bg, i.premise ⊆ c.M ∧ i.conclusion ⊆ c.M) (hbg : ∀ i ∈ bg, Entails L i.premise i.conclusion)
    (hd : bg.Pairwise fun i j => i.pyEq j = false) {s₀ : EDB α β} (hi : init E c bg = .ok s₀) :
    JInv E L c.M s₀ ∧ s₀.ctx = c ∧ ∀ i ∈ bg, HoldsIn c.G c.Inc i.premise i.conclusion := by
  have hv : ∀ i ∈ bg, HoldsIn c.G c.Inc i.premise i.conclusion := by
    intro i hi
    rw [holdsIn_iff h (ho i hi).2]
    exact hbg i hi _ (closed_of_eq h hLv hL (h.attrClosure_op.idem _ (ho i hi).1)) (h.attrClosure_op.ext _ (ho i hi).1)
  obtain ⟨s', h1, h2, h3, h4⟩ := init_ok (E := E) h hne ho hv
  rw [h1] at hi; cases hi
  refine ⟨⟨h4, by unfold Distinct; rw [h3]; exact hd, by rw [h2], ?_, by rw [h2]; exact hLv⟩, h2, hv⟩
  intro S _ hc
  rw [h3, closed_specImps]
  exact fun i hi hp => hbg i hi S hc hp

/-- C181: if every example is an irreducible closed set of the theory of the domain that refutes an open implication, and
only consequences are confirmed, then a finished history has accepted exactly this theory, and the number of calls of
`add_example` is exactly the number of irreducible closed sets that were not intents of objects at the start: by
`C181_lower_bound` no finished history with this result makes do with fewer. There are at most `2 ** len(attributes)`
calls, and every such history can be finished. -/
theorem C181_attained {E : Env α β} (hE : E.cond = fun _ => true) {c : Ctx α β} (h : c.WFw) (hne : c.objects ≠ [])
    {L : Imps β} (hL : ∀ pc ∈ L, pc.2 ⊆ c.M) (hLv : ∀ pc ∈ L, HoldsIn c.G c.Inc pc.1 pc.2) {bg : List (Imp β)}
    (ho : ∀ i ∈ bg, i.premise ⊆ c.M ∧ i.conclusion ⊆ c.M) (hbg : ∀ i ∈ bg, Entails L i.premise i.conclusion)
    (hd : bg.Pairwise fun i j => i.pyEq j = false) {s₀ : EDB α β} (hi : init E c bg = .ok s₀) {ops : List (Op α β)}
    (hf : IrrRun E L s₀ ops) (s : EDB α β) (hs : s = run E s₀ ops) :
    ops.length ≤ 2 ^ c.M.card ∧
    (s.openImps = [] →
      (∀ P C, P ⊆ c.M → C ⊆ c.M → (Entails (specImps s.bg) P C ↔ Entails L P C)) ∧
      (∀ X, MeetIrr c.M (specImps s.bg) X ↔ MeetIrr c.M L X) ∧
      ∀ F : List (Finset β), F.Nodup → (∀ X, X ∈ F ↔ c.Lacks L X) → (ops.map Op.adds).sum = F.length) ∧
    (Infinite α → ∃ ops', IrrRun E L s₀ (ops ++ ops') ∧ (run E s₀ (ops ++ ops')).openImps = []) := by
  obtain ⟨hJ, h2, hv⟩ := init_jinv h hne hL hLv ho hbg hd hi
  obtain ⟨r1, r2, r3, r4⟩ := irr_run hE hL hJ hf
  rw [← hs] at r2 r3 r4
  refine ⟨?_, ?_, ?_⟩
  · have : (gap c.M s₀).card ≤ c.M.powerset.card :=
      Finset.card_le_card fun S hS => Finset.mem_powerset.2 (mem_gap.1 hS).1
    rw [Finset.card_powerset] at this
    omega
  · intro hfin
    have hc := fun {P C} => C58_finished_complete hE h hne ho hv hd hi r1 s hs hfin (P := P) (C := C)
    rw [r2.m] at hc
    have hbgM : ∀ pc ∈ specImps s.bg, pc.2 ⊆ c.M := by
      intro pc hpc
      obtain ⟨i, hi, rfl⟩ := List.mem_map.1 hpc
      rw [← r2.m]; exact (r2.inv.over i hi).2
    have hent : ∀ P C, P ⊆ c.M → C ⊆ c.M → (Entails (specImps s.bg) P C ↔ Entails L P C) := by
      intro P C hP hC
      constructor
      · intro hh S hS hPS m hm
        have hSM : Closed L (S ∩ c.M) := by
          intro pc hpc hp x hx
          exact Finset.mem_inter.2 ⟨hS pc hpc (hp.trans Finset.inter_subset_left) hx, hL pc hpc hx⟩
        exact (Finset.mem_inter.1 (hh _ (r2.bgE _ Finset.inter_subset_right hSM) (Finset.subset_inter hPS hP) hm)).1
      · intro hh
        rw [← hc hP hC, holdsIn_iff r2.inv.wf (by rw [r2.m]; exact hC)]
        have hP' : P ⊆ s.ctx.M := by rw [r2.m]; exact hP
        have hop := r2.inv.wf.attrClosure_op
        exact hh _ (closed_of_eq r2.inv.wf r2.objE (by rw [r2.m]; exact hL) (hop.idem P hP')) (hop.ext P hP')
    have hcl : ∀ S, S ⊆ c.M → (Closed (specImps s.bg) S ↔ Closed L S) := by
      have key : ∀ {K : Imps β}, (∀ pc ∈ K, pc.2 ⊆ c.M) → ∀ B : Finset β,
          (Closed K B ↔ ∀ C, C ⊆ c.M → Entails K B C → C ⊆ B) := by
        intro K hK B
        constructor
        · intro hcl C _ hC
          exact hC B hcl (Finset.Subset.refl _)
        · intro hall pc hpc hp
          exact hall pc.2 (hK pc hpc) fun S hS hBS => hS pc hpc (hp.trans hBS)
      intro S hS
      rw [key hL, key hbgM]
      exact forall_congr' fun C => forall_congr' fun hC => by rw [hent S C hS hC]
    have hirr : ∀ X, MeetIrr c.M (specImps s.bg) X ↔ MeetIrr c.M L X := by
      intro X
      unfold MeetIrr
      refine and_congr_right fun hX => and_congr (hcl X hX) (exists_congr fun m => and_congr_right fun _ =>
        and_congr_right fun _ => forall_congr' fun Y => forall_congr' fun hY => ?_)
      rw [hcl Y hY]
    refine ⟨hent, hirr, fun F hF hm => ?_⟩
    obtain ⟨F', j1, j2, j3⟩ := r4 F hF (by rw [h2]; exact hm)
    have hno := (C181_lower_bound hE h hne ho hv hd hi r1 s hs hfin).1
    have : F' = [] := by
      rw [List.eq_nil_iff_forall_not_mem]
      intro X hX
      obtain ⟨a1, a2⟩ := (j2 X).1 hX
      rw [r2.m] at a1
      exact a2 (hno X (by rw [r2.m]; exact (hirr X).2 a1))
    rw [this] at j3
    simpa using j3.symm
  · intro hinf
    obtain ⟨ops', o1, o2⟩ := irr_continue hE hL r2
    rw [hs] at o1 o2
    refine ⟨ops', irr_run_append hf o1, ?_⟩
    have : run E s₀ (ops ++ ops') = run E (run E s₀ ops) ops' := by unfold run; rw [List.foldl_append]
    rw [this]; exact o2

end EDB

/-! ### The other explorations -/

namespace E2

/-- The call gives an object. -/
def Op.isRow : Op α β → Bool
  | .reject _ _ _ _ => true
  | .addObject _ _ => true
  | _ => false

variable [PyName α] [PyName β]

theorem addObject_rows {s : E2 α β} (h : Inv s) {n : α} (hn : n ∉ s.ctx.objects) (B : Finset β) :
    (s.addObject n B).1.ctx.attributes = s.ctx.attributes ∧ ∀ g ∈ (s.addObject n B).1.ctx.objects,
      (∃ o ∈ s.ctx.objects, ∀ m ∈ s.ctx.M, (s.addObject n B).1.ctx.Inc g m ↔ s.ctx.Inc o m) ∨
      ∀ m ∈ s.ctx.M, (s.addObject n B).1.ctx.Inc g m ↔ m ∈ B := by
  unfold addObject
  split
  · exact ⟨rfl, fun g hg => .inl ⟨g, hg, fun m _ => Iff.rfl⟩⟩
  · split_ifs
    · obtain ⟨c', h1, -, h3, h4, h5⟩ := add_object_ctx h.wf h.one hn B
      dsimp only
      rw [h1]
      refine ⟨h4, fun g hg => ?_⟩
      change g ∈ c'.objects at hg
      rw [h3, List.mem_append, List.mem_singleton] at hg
      show (∃ o ∈ s.ctx.objects, ∀ m ∈ s.ctx.M, c'.Inc g m ↔ s.ctx.Inc o m) ∨ ∀ m ∈ s.ctx.M, c'.Inc g m ↔ m ∈ B
      by_cases hgn : g = n
      · refine .inr fun m hm => ?_
        have hm' : m ∈ s.ctx.attributes := List.mem_toFinset.1 hm
        rw [h5]; simp [hgn, hm']
      · exact .inl ⟨g, hg.resolve_right hgn, fun m _ => by rw [h5]; simp [hgn]⟩
    · exact ⟨rfl, fun g hg => .inl ⟨g, hg, fun m _ => Iff.rfl⟩⟩

theorem exec_rows {E : EDB.Env α β} {s : E2 α β} (h : Inv s) {op : Op α β} (hop : op.Ok E s) :
    (s.exec op).1.ctx.attributes = s.ctx.attributes ∧ ∃ B : Finset β, ∀ g ∈ (s.exec op).1.ctx.objects,
      (∃ o ∈ s.ctx.objects, ∀ m ∈ s.ctx.M, (s.exec op).1.ctx.Inc g m ↔ s.ctx.Inc o m) ∨
      (op.isRow = true ∧ ∀ m ∈ s.ctx.M, (s.exec op).1.ctx.Inc g m ↔ m ∈ B) := by
  have same : ∀ {t : E2 α β}, t.ctx = s.ctx → t.ctx.attributes = s.ctx.attributes ∧
      ∃ B : Finset β, ∀ g ∈ t.ctx.objects, (∃ o ∈ s.ctx.objects, ∀ m ∈ s.ctx.M, t.ctx.Inc g m ↔ s.ctx.Inc o m) ∨
      (op.isRow = true ∧ ∀ m ∈ s.ctx.M, t.ctx.Inc g m ↔ m ∈ B) := by
    intro t ht
    rw [ht]
    exact ⟨rfl, ∅, fun g hg => .inl ⟨g, hg, fun m _ => Iff.rfl⟩⟩
  cases op with
  | create => exact same rfl
  | accept k i =>
    refine same ?_
    simp only [exec, accept]
    split <;> rfl
  | addObject o B =>
    obtain ⟨h1, h2⟩ := addObject_rows h hop B
    exact ⟨h1, B, fun g hg => (h2 g hg).imp id fun hh => ⟨rfl, hh⟩⟩
  | reject k i o B =>
    show (s.reject k i o B).1.ctx.attributes = s.ctx.attributes ∧ ∃ B' : Finset β, ∀ g ∈ (s.reject k i o B).1.ctx.objects,
      (∃ o' ∈ s.ctx.objects, ∀ m ∈ s.ctx.M, (s.reject k i o B).1.ctx.Inc g m ↔ s.ctx.Inc o' m) ∨
      (true = true ∧ ∀ m ∈ s.ctx.M, (s.reject k i o B).1.ctx.Inc g m ↔ m ∈ B')
    unfold reject
    split
    · exact same rfl
    · split_ifs
      · obtain ⟨h1, h2⟩ := addObject_rows h hop B
        exact ⟨h1, B, fun g hg => (h2 g hg).imp id fun hh => ⟨rfl, hh⟩⟩
      · exact same rfl

theorem run_lacks {E : EDB.Env α β} {L : Imps β} {ops : List (Op α β)} {s : E2 α β} (h : Inv s) (hf : OkRun E s ops)
    (hfin : ∀ X, ¬ (run s ops).ctx.Lacks L X) {F : List (Finset β)} (hF : F.Nodup)
    (hl : ∀ X ∈ F, s.ctx.Lacks L X) : F.length ≤ ops.countP Op.isRow := by
  classical
  induction ops generalizing s F with
  | nil =>
    cases F with
    | nil => simp
    | cons X F => exact absurd (hl X (by simp)) (hfin X)
  | cons op ops ih =>
    obtain ⟨e1, B, hB⟩ := exec_rows h hf.1
    rw [List.countP_cons]
    exact lacks_step e1 hB hF hl fun F' => ih (exec_inv h hf.1) hf.2 hfin

/-- C181: the same for the sessions of exploration2: when the session created last has no candidates, at least as many
calls of `reject_implication` and `add_object` were made as irreducible closed sets of its theory were not intents at the
start. -/
theorem C181_sessions {E : EDB.Env α β} {c : Ctx α β} (h : c.WFw) (hne : c.objects ≠ [])
    {ops : List (E2.Op α β)} (hf : E2.OkRun E ⟨c, []⟩ ops) (s : E2 α β) (hs : s = E2.run ⟨c, []⟩ ops) {k : ℕ}
    (hk : k + 1 = s.sessions.length) (hc : s.candidates E k = .ok []) {bg : List (Imp β)}
    (hbg : s.sessions[k]? = some bg) :
    (∀ X, MeetIrr s.ctx.M (specImps bg) X → s.ctx.HasRow X) ∧
    ∀ F : List (Finset β), F.Nodup → (∀ X ∈ F, c.Lacks (specImps bg) X) → F.length ≤ ops.countP Op.isRow := by
  have hth := fun {P C} => C76_no_candidates_complete h hne hf s hs hk hc hbg (P := P) (C := C)
  have hI : Inv s := hs ▸ E2.run_inv (E2.start_inv h hne) hf
  have hlast : s.sessions.getLast? = some bg := by
    rw [List.getLast?_eq_getElem?, ← hbg]
    congr 1
    omega
  have hL : ∀ pc ∈ specImps bg, pc.2 ⊆ s.ctx.M := by
    intro pc hpc
    obtain ⟨i, hi, rfl⟩ := List.mem_map.1 hpc
    exact ((hI.last bg hlast).1.over i hi).2
  have hrow : ∀ X, MeetIrr s.ctx.M (specImps bg) X → s.ctx.HasRow X := fun X hX =>
    C180_irreducible_intents hI.wf hL (fun P C hP hC => hth hP hC) hX
  refine ⟨hrow, fun F hF hl => ?_⟩
  refine run_lacks (E2.start_inv h hne) hf (L := specImps bg) ?_ hF hl
  rw [← hs]
  exact fun X hX => hX.2 (hrow X hX.1)

end E2

namespace BExp
variable [PyName α] [PyName β]

/-- C181: in `BasicExploration`, when no attribute implication is open and the confirmed ones are valid, every irreducible
closed set of the confirmed theory is the intent of an object. -/
theorem C181_basic {E : Env α β} (hE : E.Ok) {s : BExp α β} (hr : Reachable E s) (h0 : s.attrImps = [])
    (hv : ∀ i ∈ s.confAttr, HoldsIn s.ctx.G s.ctx.Inc i.premise i.conclusion) {X : Finset β}
    (hX : MeetIrr s.ctx.M (specImps s.confAttr) X) : s.ctx.HasRow X := by
  have h := hr.inv hE
  refine C180_irreducible_intents h.wf ?_ (fun P C hP hC => C74_finished hE hr h0 hv hP hC) hX
  intro pc hpc
  obtain ⟨i, hi, rfl⟩ := List.mem_map.1 hpc
  exact (h.akover i hi).2

/-- C181: and when no object implication is open, every irreducible closed set of the confirmed object implications is the
extent of an attribute. -/
theorem C181_basic_objects {E : Env α β} (hE : E.Ok) {s : BExp α β} (hr : Reachable E s) (h0 : s.objImps = [])
    (hv : ∀ i ∈ s.confObj, HoldsIn s.ctx.M (fun a o => s.ctx.Inc o a) i.premise i.conclusion) {X : Finset α}
    (hX : MeetIrr s.ctx.G (specImps s.confObj) X) : ∃ a ∈ s.ctx.attributes, ∀ g ∈ s.ctx.G, s.ctx.Inc g a ↔ g ∈ X := by
  have h := hr.inv hE
  obtain ⟨d, hd, -, -⟩ := h.wf.transpose
  obtain ⟨hwf, h1, h2, h3⟩ := h.wf.transpose_inc hd
  have hG : d.G = s.ctx.M := by unfold Ctx.G Ctx.M; rw [h1]
  have hM : d.M = s.ctx.G := by unfold Ctx.G Ctx.M; rw [h2]
  have hI : d.Inc = fun a o => s.ctx.Inc o a := by
    funext a o
    exact propext (h3 a o)
  have hov : ∀ pc ∈ specImps s.confObj, pc.2 ⊆ d.M := by
    intro pc hpc
    obtain ⟨i, hi, rfl⟩ := List.mem_map.1 hpc
    rw [hM]; exact (h.okover i hi).2
  have ht : d.TheoryIs (specImps s.confObj) := by
    intro P C hP hC
    rw [hM] at hP hC
    constructor
    · intro hh
      rw [hG, hI] at hh
      have := (C74_open_and_confirmed_complete hE hr).2.2.2 P C hP hC hh
      rwa [h0, List.nil_append] at this
    · intro he
      rw [holdsIn_iff hwf.toWFw (by rw [hM]; exact hC)]
      have hop := hwf.toWFw.attrClosure_op
      refine he _ (closed_of_eq hwf.toWFw ?_ hov (hop.idem P (by rw [hM]; exact hP))) (hop.ext P (by rw [hM]; exact hP))
      intro pc hpc
      obtain ⟨i, hi, rfl⟩ := List.mem_map.1 hpc
      rw [hG, hI]; exact hv i hi
  obtain ⟨a, ha, ham⟩ := C180_irreducible_intents hwf.toWFw hov ht (X := X) (by rw [hM]; exact hX)
  refine ⟨a, by rw [← h1]; exact ha, fun g hg => ?_⟩
  have := ham g (by rw [hM]; exact hg)
  rwa [hI] at this

end BExp

section examples

/-- One object with the intent `b`. -/
def exnCtx : Ctx (Fin 3) (Fin 3) := ⟨[0], [0, 1, 2], ⟨some 3, [[false, true, false]]⟩⟩

def exn0 : EDB (Fin 3) (Fin 3) := ⟨exnCtx, [], [⟨∅, {1}⟩, ⟨{1, 2}, {0, 1, 2}⟩, ⟨{0, 1}, {0, 1, 2}⟩]⟩

def exnOps : List (EDB.Op (Fin 3) (Fin 3)) := [.addExample 1 {2}, .addExample 2 {1, 2}, .confirm ⟨{0}, {0, 1, 2}⟩]

theorem exn_wf : exnCtx.WFw := by constructor <;> decide +kernel

theorem exn_init : EDB.init cntEnv exnCtx [] = .ok exn0 := by
  have : EDB.relBasis cntEnv exnCtx [] = .ok exn0.openImps := by decide +kernel
  unfold EDB.init
  rw [this]; rfl

theorem exn_inc (m : Fin 3) : exnCtx.Inc 0 m ↔ m = 1 := by
  rw [inc_iff (c := exnCtx) (i := 0) (j := m.1) exn_wf.onodup exn_wf.anodup (by decide +kernel)
    (by revert m; decide +kernel)]
  unfold Bit
  match m with
  | 0 | 1 | 2 => simp [exnCtx]

/-- The theory of `a → b`, `ab → c` has the irreducible closed sets `b`, `c`, `bc`; the context lacks the last two. -/
theorem exn_lacks (X : Finset (Fin 3)) : X ∈ [{2}, {1, 2}] ↔ exnCtx.Lacks (specImps chainImps) X := by
  have h1 : exnCtx.HasRow X ↔ X = {1} := by
    unfold Ctx.HasRow
    have : exnCtx.objects = [0] := rfl
    simp only [this, List.mem_singleton, exists_eq_left, exn_inc]
    have hM : ∀ m, m ∈ exnCtx.M := by decide +kernel
    simp only [hM, true_imp_iff]
    revert X; decide +kernel
  unfold Ctx.Lacks
  rw [h1]
  unfold MeetIrr Closed Respects
  have hM : exnCtx.M = {0, 1, 2} := by decide +kernel
  rw [hM]
  clear h1
  revert X; decide +kernel

/-- Two examples and one confirmation: the hypotheses of `C181_attained` and of `C181_lower_bound`. -/
example : EDB.init cntEnv exnCtx [] = .ok exn0 ∧ EDB.IrrRun cntEnv (specImps chainImps) exn0 exnOps ∧
    EDB.OkRun cntEnv exn0 exnOps ∧ (EDB.run cntEnv exn0 exnOps).openImps = [] ∧ (exnOps.map EDB.Op.adds).sum = 2 := by
  have hirr : EDB.IrrRun cntEnv (specImps chainImps) exn0 exnOps := by
    refine ⟨by decide +kernel, ?_, by decide +kernel, by decide +kernel, ?_, by decide +kernel, by decide +kernel, ?_, trivial⟩
    · exact ((exn_lacks {2}).1 (by decide)).1
    · have : (EDB.exec cntEnv exn0 (.addExample 1 {2})).1.ctx.M = exnCtx.M := by decide +kernel
      rw [this]
      exact ((exn_lacks {1, 2}).1 (by decide)).1
    · unfold Entails Closed Respects; decide +kernel
  have hfin : (EDB.run cntEnv exn0 exnOps).openImps = [] := by decide +kernel
  have hL : ∀ pc ∈ specImps chainImps, HoldsIn exnCtx.G exnCtx.Inc pc.1 pc.2 := by
    intro pc hpc g hg hp
    have hg0 : g = 0 := by
      have : exnCtx.G = {0} := by decide +kernel
      rw [this] at hg; simpa using hg
    subst hg0
    simp only [exn_inc] at hp ⊢
    revert pc; decide +kernel
  have h := EDB.C181_attained (E := cntEnv) rfl exn_wf (by decide) (L := specImps chainImps) (by decide +kernel) hL (bg := [])
    (by simp) (by simp) (by simp) exn_init hirr _ rfl
  refine ⟨exn_init, hirr, ?_, hfin, (h.2.1 hfin).2.2 [{2}, {1, 2}] (by decide +kernel) exn_lacks⟩
  refine ⟨trivial, trivial, ?_, trivial⟩
  show _ ∈ _
  decide +kernel

/-- `C181_irreducible_counterexample`: `b → c` does not follow. -/
example : ¬ Entails (specImps chainImps) {1} {2} ∧ ∀ pc ∈ specImps chainImps, pc.2 ⊆ ({0, 1, 2} : Finset (Fin 3)) := by
  unfold Entails Closed Respects; decide +kernel

/-- The same in a session of exploration2: the hypotheses of `C181_sessions`, two examples. -/
example : ∃ ops : List (E2.Op (Fin 3) (Fin 3)), E2.OkRun cntEnv ⟨exnCtx, []⟩ ops ∧
    (E2.run ⟨exnCtx, []⟩ ops).candidates cntEnv 0 = .ok [] ∧
    (E2.run ⟨exnCtx, []⟩ ops).sessions[0]? = some [⟨{0}, {0, 1, 2}⟩] ∧ ops.countP E2.Op.isRow = 2 := by
  refine ⟨[.create, .reject 0 ⟨∅, {1}⟩ 1 {2}, .reject 0 ⟨{2}, {0, 1, 2}⟩ 2 {1, 2}, .accept 0 ⟨{0}, {0, 1, 2}⟩], ?_,
    by decide +kernel, by decide +kernel, by decide⟩
  refine ⟨trivial, ?_, ?_, ⟨[⟨{0}, {0, 1, 2}⟩], by decide +kernel, by decide +kernel⟩, trivial⟩
  · show (1 : Fin 3) ∉ _
    decide +kernel
  · show (2 : Fin 3) ∉ _
    decide +kernel

/-- And for `C181_basic` and `C181_basic_objects`, with an irreducible closed set each. -/
example : ∃ s, s = BExp.run BExp.witEnv BExp.wit0 [.confirmAttr 0, .confirmObj 0] ∧ BExp.Reachable BExp.witEnv s ∧
    s.attrImps = [] ∧ s.objImps = [] ∧
    (∀ i ∈ s.confAttr, HoldsIn s.ctx.G s.ctx.Inc i.premise i.conclusion) ∧
    (∀ i ∈ s.confObj, HoldsIn s.ctx.M (fun a o => s.ctx.Inc o a) i.premise i.conclusion) ∧ MeetIrr s.ctx.M (specImps s.confAttr) {1} ∧
    MeetIrr s.ctx.G (specImps s.confObj) {0} := by
  have h1 : (BExp.run BExp.witEnv BExp.wit0 [.confirmAttr 0, .confirmObj 0]).confAttr = [⟨∅, {1}⟩] := by decide +kernel
  have h2 : (BExp.run BExp.witEnv BExp.wit0 [.confirmAttr 0, .confirmObj 0]).confObj = [⟨∅, {0}⟩] := by decide +kernel
  have hw : (BExp.run BExp.witEnv BExp.wit0 [.confirmAttr 0, .confirmObj 0]).ctx.WFw := by constructor <;> decide +kernel
  refine ⟨_, rfl, ⟨BExp.wit, BExp.wit0, [.confirmAttr 0, .confirmObj 0], BExp.wit_wf, by decide, by decide, BExp.wit0_init,
    ⟨trivial, trivial, trivial⟩, rfl⟩, by decide +kernel, by decide +kernel,
    by simp only [HoldsIn, ← hw.incB]; decide +kernel, by simp only [HoldsIn, ← hw.incB]; decide +kernel, ?_, ?_⟩
  · rw [h1]
    have : (BExp.run BExp.witEnv BExp.wit0 [.confirmAttr 0, .confirmObj 0]).ctx.M = {0, 1} := by decide +kernel
    rw [this]
    unfold MeetIrr Closed Respects; decide +kernel
  · rw [h2]
    have : (BExp.run BExp.witEnv BExp.wit0 [.confirmAttr 0, .confirmObj 0]).ctx.G = {0, 1} := by decide +kernel
    rw [this]
    unfold MeetIrr Closed Respects; decide +kernel

end examples
