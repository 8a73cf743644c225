/-
Invariants of `BasicExploration`.
-/
import Verif.Model.BasicExploration
import Verif.Props.AIBasis
import Verif.Props.Context

set_option linter.unusedSectionVars false

open Spec

variable {α β : Type} [DecidableEq α] [DecidableEq β]

namespace BExp

open Ctx

/-- All implications of the list hold in the table `(G, I)`. -/
def Valid (G : Finset α) (I : α → β → Prop) (L : List (Imp β)) : Prop :=
  ∀ i ∈ L, HoldsIn G I i.premise i.conclusion

/-- All names occurring in the list belong to `M`. -/
def Over (M : Finset β) (L : List (Imp β)) : Prop :=
  ∀ i ∈ L, i.premise ⊆ M ∧ i.conclusion ⊆ M

/-- The implications of the list derive everything that holds. -/
def Complete (G : Finset α) (M : Finset β) (I : α → β → Prop) (L : List (Imp β)) : Prop :=
  ∀ S, S ⊆ M → Closed (specImps L) S → attrClosure G M I S = S

theorem check_iff {γ : Type} [DecidableEq γ] {K : List (Imp γ)} {x : Finset γ} :
    check K x = true ↔ ∀ i ∈ K, i.premise ⊆ x → i.conclusion ⊆ x := by
  have hred : ∀ i : Imp γ, i.premise ⊆ x → (i.reduced ⊆ x ↔ i.conclusion ⊆ x) := by
    intro i hp
    unfold Imp.reduced
    constructor
    · intro h m hm
      by_cases hmp : m ∈ i.premise
      · exact hp hmp
      · exact h (Finset.mem_sdiff.2 ⟨hm, hmp⟩)
    · intro h m hm
      exact h (Finset.mem_sdiff.1 hm).1
  unfold check
  rw [List.all_eq_true]
  refine forall₂_congr fun i _ => ?_
  by_cases hp : i.premise ⊆ x
  · rw [if_neg (by simpa [Finset.inter_eq_left] using hp)]
    simp [Finset.inter_eq_left, hp, hred i hp]
  · rw [if_pos (by simpa [Finset.inter_eq_left] using hp)]
    simp [hp]

theorem attrBasis_ok {E : Env α β} (hs : ∀ l, (E.sortA l).Perm l) {c : Ctx α β} (h : c.WFw)
    (hne : c.objects ≠ []) :
    ∃ a, attrBasis E c = .ok a ∧ Valid c.G c.Inc a ∧ Over c.M a ∧ Complete c.G c.M c.Inc a := by
  have hne' : c.nd.rows ≠ [] := by
    intro h0
    apply hne
    rw [← List.length_eq_zero_iff, ← h.nrows, h0]; rfl
  obtain ⟨a, h1, h2, h3⟩ := C32_canonical_sound_complete h (h.shape hne') E.sortA simpleClosure hs
    simpleClosure_isLeast
  have hover : Over c.M a := by
    intro i hi
    obtain ⟨h4, h5, -⟩ := h2 i hi
    refine ⟨h4, ?_⟩
    rw [h5, ← h.aclF_eq]
    intro m hm
    exact List.mem_toFinset.2 (h.mem_aclF.1 hm).1
  refine ⟨a, h1, ?_, hover, fun S hS hc => (h3 S hS).1 hc⟩
  intro i hi
  rw [holdsIn_iff h (hover i hi).2, (h2 i hi).2.1]

variable [PyName α] [PyName β]

theorem objBasis_ok {E : Env α β} (hs : ∀ l, (E.sortO l).Perm l) {c : Ctx α β} (h : c.WFw)
    (hne : c.attributes ≠ []) :
    ∃ a, objBasis E c = .ok a ∧ Valid c.M (fun a o => c.Inc o a) a ∧ Over c.G a ∧
      Complete c.M c.G (fun a o => c.Inc o a) a := by
  obtain ⟨d, hd, -⟩ := h.transpose
  obtain ⟨h1, h2, h3, h4⟩ := h.transpose_inc hd
  let E' : Env β α := ⟨E.sortO, E.sortA, E.ordO, E.ordA⟩
  obtain ⟨a, h5, h6⟩ := attrBasis_ok (E := E') hs h1.toWFw (by rw [h2]; exact hne)
  have hI : d.Inc = fun a o => c.Inc o a := by funext a o; exact propext (h4 a o)
  refine ⟨a, ?_, ?_⟩
  · unfold objBasis; rw [hd]; exact h5
  · rw [hI] at h6
    have hG : d.G = c.M := by unfold Ctx.G Ctx.M; rw [h2]
    have hM : d.M = c.G := by unfold Ctx.G Ctx.M; rw [h3]
    rw [hG, hM] at h6
    exact h6

theorem mem_openOnes {γ : Type} [DecidableEq γ] {L K : List (Imp γ)} {i : Imp γ} :
    i ∈ openOnes L K ↔ i ∈ L ∧ ∀ x ∈ K, x.pyEq i = false := by
  simp [openOnes, List.mem_filter]

theorem complete_openOnes {G : Finset α} {M : Finset β} {I : α → β → Prop} {L K : List (Imp β)}
    (h : Complete G M I L) : Complete G M I (openOnes L K ++ K) := by
  intro S hS hc
  refine h S hS ?_
  rw [closed_specImps] at hc ⊢
  intro i hi hp
  by_cases hK : ∃ x ∈ K, x.pyEq i = true
  · obtain ⟨x, hx, hxi⟩ := hK
    simp only [Imp.pyEq, Bool.and_eq_true, beq_iff_eq] at hxi
    have h1 := hc x (List.mem_append_right _ hx) (hxi.1 ▸ hp)
    intro m hm
    by_cases hmp : m ∈ i.premise
    · exact hp hmp
    · have : m ∈ i.reduced := Finset.mem_sdiff.2 ⟨hm, hmp⟩
      rw [← hxi.2] at this
      exact h1 (Finset.mem_sdiff.1 this).1
  · push Not at hK
    exact hc i (List.mem_append_left _ (mem_openOnes.2 ⟨hi, fun x hx => by simpa using hK x hx⟩)) hp

/-- Invariant of an exploration. -/
structure Inv (s : BExp α β) : Prop where
  wf : s.ctx.WFw
  one : s.ctx.objects ≠ []
  ane : s.ctx.attributes ≠ []
  aval : Valid s.ctx.G s.ctx.Inc s.attrImps
  aover : Over s.ctx.M s.attrImps
  akover : Over s.ctx.M s.confAttr
  acomp : Complete s.ctx.G s.ctx.M s.ctx.Inc (s.attrImps ++ s.confAttr)
  oval : Valid s.ctx.M (fun a o => s.ctx.Inc o a) s.objImps
  oover : Over s.ctx.G s.objImps
  okover : Over s.ctx.G s.confObj
  ocomp : Complete s.ctx.M s.ctx.G (fun a o => s.ctx.Inc o a) (s.objImps ++ s.confObj)

/-- The confirmed attribute implications hold. -/
def AOk (s : BExp α β) : Prop := Valid s.ctx.G s.ctx.Inc s.confAttr

/-- The confirmed object implications hold. -/
def OOk (s : BExp α β) : Prop := Valid s.ctx.M (fun a o => s.ctx.Inc o a) s.confObj

/-- The sorts only permute. -/
structure Env.Ok (E : Env α β) : Prop where
  a : ∀ l, (E.sortA l).Perm l
  o : ∀ l, (E.sortO l).Perm l

theorem init_ok {E : Env α β} (hE : E.Ok) {c : Ctx α β} (h : c.WFw) (h1 : c.objects ≠ [])
    (h2 : c.attributes ≠ []) :
    ∃ s, init E c = .ok s ∧ s.ctx = c ∧ s.confAttr = [] ∧ s.confObj = [] ∧ Inv s := by
  obtain ⟨a, ha, ha1, ha2, ha3⟩ := attrBasis_ok hE.a h h1
  obtain ⟨o, ho, ho1, ho2, ho3⟩ := objBasis_ok hE.o h h2
  have hd : c.deepcopy = .ok c := by
    unfold Ctx.deepcopy
    rw [ofNd_ok h.nrows h.width h.onodup h.anodup]
  refine ⟨⟨c, a, o, [], []⟩, ?_, rfl, rfl, rfl, ?_⟩
  · unfold init
    rw [hd, py_ok_bind, ha, py_ok_bind, ho, py_ok_bind]
  · exact ⟨h, h1, h2, ha1, ha2, by simp [Over], by simpa using ha3, ho1, ho2, by simp [Over],
      by simpa using ho3⟩

theorem recompute_ok {E : Env α β} (hE : E.Ok) {s : BExp α β} (h : s.ctx.WFw) (h1 : s.ctx.objects ≠ [])
    (h2 : s.ctx.attributes ≠ []) (h3 : Over s.ctx.M s.confAttr) (h4 : Over s.ctx.G s.confObj) :
    ∃ s', recompute E s = (s', none) ∧ s'.ctx = s.ctx ∧ s'.confAttr = s.confAttr ∧
      s'.confObj = s.confObj ∧ Inv s' := by
  obtain ⟨a, ha, ha1, ha2, ha3⟩ := attrBasis_ok hE.a h h1
  obtain ⟨o, ho, ho1, ho2, ho3⟩ := objBasis_ok hE.o h h2
  refine ⟨⟨s.ctx, openOnes a s.confAttr, openOnes o s.confObj, s.confAttr, s.confObj⟩, ?_, rfl, rfl, rfl, ?_⟩
  · unfold recompute
    simp only [ha, ho]
  · exact ⟨h, h1, h2, fun i hi => ha1 i (mem_openOnes.1 hi).1, fun i hi => ha2 i (mem_openOnes.1 hi).1, h3,
      complete_openOnes ha3, fun i hi => ho1 i (mem_openOnes.1 hi).1,
      fun i hi => ho2 i (mem_openOnes.1 hi).1, h4, complete_openOnes ho3⟩

/-- Names used for additions are new. -/
def Op.Fresh (c : Ctx α β) : Op α β → Prop
  | .counterAttr n _ _ | .addObject _ n => n ∉ c.objects
  | .counterObj n _ _ | .addAttribute _ n => n ∉ c.attributes
  | _ => True

/-- Every call of the history uses new names for additions. -/
def FreshRun (E : Env α β) : BExp α β → List (Op α β) → Prop
  | _, [] => True
  | s, op :: ops => op.Fresh s.ctx ∧ FreshRun E (s.exec E op).1 ops

def Op.isEditAttribute : Op α β → Bool
  | .editAttribute _ _ => true
  | _ => false

def Op.isEditObject : Op α β → Bool
  | .editObject _ _ => true
  | _ => false

/-! ### the four kinds of changes of the context -/

section
variable {c c' : Ctx α β}

theorem add_object_ctx (h : c.WFw) (hne : c.objects ≠ []) {n : α} (hn : n ∉ c.objects) (B : Finset β) :
    ∃ c', c.addObjectWithIntent B n = (c', none) ∧ c'.WFw ∧ c'.objects = c.objects ++ [n] ∧
      c'.attributes = c.attributes ∧
      ∀ o a, c'.Inc o a ↔ (o = n ∧ a ∈ c.attributes ∧ a ∈ B) ∨ (o ≠ n ∧ c.Inc o a) := by
  obtain ⟨c', hc'⟩ := h.stores.returns (op := .addObjectWithIntent B n) hne trivial
  have hst := h.stores.exec (op := .addObjectWithIntent B n) hn hc'
  refine ⟨c', hc', hst.wf, hst.objs, hst.atts, ?_⟩
  intro o a
  rw [hst.inc]
  simp only [Table.apply, List.mem_append, List.mem_singleton]
  by_cases ho : o = n
  · simp [ho]
  · simp only [ho, or_false, if_false, false_and, not_false_eq_true, true_and, false_or, ne_eq]
    rw [← h.incB]
    constructor
    · exact fun hh => hh.2.2
    · intro hi; exact ⟨((h.incB _ _).1 hi).mem.1, ((h.incB _ _).1 hi).mem.2, hi⟩

theorem add_attribute_ctx (h : c.WFw) (hne : c.objects ≠ []) {n : β} (hn : n ∉ c.attributes) (A : Finset α) :
    ∃ c', c.addAttributeWithExtent A n = (c', none) ∧ c'.WFw ∧ c'.objects = c.objects ∧
      c'.attributes = c.attributes ++ [n] ∧
      ∀ o a, c'.Inc o a ↔ (a = n ∧ o ∈ c.objects ∧ o ∈ A) ∨ (a ≠ n ∧ c.Inc o a) := by
  obtain ⟨c', hc'⟩ := h.stores.returns (op := .addAttributeWithExtent A n) hne trivial
  have hst := h.stores.exec (op := .addAttributeWithExtent A n) hn hc'
  refine ⟨c', hc', hst.wf, hst.objs, hst.atts, ?_⟩
  intro o a
  rw [hst.inc]
  simp only [Table.apply, List.mem_append, List.mem_singleton]
  by_cases ho : a = n
  · simp [ho]
  · simp only [ho, or_false, if_false, false_and, not_false_eq_true, true_and, false_or, ne_eq]
    rw [← h.incB]
    constructor
    · exact fun hh => hh.2.2
    · intro hi; exact ⟨((h.incB _ _).1 hi).mem.1, ((h.incB _ _).1 hi).mem.2, hi⟩

theorem set_object_ctx (h : c.WFw) {n : α} {B : List β} (he : c.setObjectIntent B n = (c', none)) :
    c'.WFw ∧ c'.objects = c.objects ∧ c'.attributes = c.attributes ∧
      ∀ o a, c'.Inc o a ↔ (o = n ∧ o ∈ c.objects ∧ a ∈ c.attributes ∧ a ∈ B) ∨ (o ≠ n ∧ c.Inc o a) := by
  have hst := h.stores.exec (op := .setObjectIntent B n) trivial he
  refine ⟨hst.wf, hst.objs, hst.atts, ?_⟩
  intro o a
  rw [hst.inc]
  simp only [Table.apply]
  by_cases ho : o = n
  · simp [ho]
  · simp only [ho, if_false, false_and, not_false_eq_true, true_and, false_or, ne_eq]
    rw [← h.incB]
    constructor
    · exact fun hh => hh.2.2
    · intro hi; exact ⟨((h.incB _ _).1 hi).mem.1, ((h.incB _ _).1 hi).mem.2, hi⟩

theorem set_attribute_ctx (h : c.WFw) {n : β} {A : List α} (he : c.setAttributeExtent A n = (c', none)) :
    c'.WFw ∧ c'.objects = c.objects ∧ c'.attributes = c.attributes ∧
      ∀ o a, c'.Inc o a ↔ (a = n ∧ a ∈ c.attributes ∧ o ∈ c.objects ∧ o ∈ A) ∨ (a ≠ n ∧ c.Inc o a) := by
  have hst := h.stores.exec (op := .setAttributeExtent A n) trivial he
  refine ⟨hst.wf, hst.objs, hst.atts, ?_⟩
  intro o a
  rw [hst.inc]
  simp only [Table.apply]
  by_cases ho : a = n
  · simp [ho]; tauto
  · simp only [ho, if_false, false_and, not_false_eq_true, true_and, false_or, ne_eq]
    rw [← h.incB]
    constructor
    · exact fun hh => hh.2.2
    · intro hi; exact ⟨((h.incB _ _).1 hi).mem.1, ((h.incB _ _).1 hi).mem.2, hi⟩

end

/-- A row is added or replaced by one that respects the implications of `K`. -/
theorem valid_row {G G' : Finset α} {M : Finset β} {I I' : α → β → Prop} {K : List (Imp β)} {n : α}
    {B : Finset β} (hv : Valid G I K) (hk : Over M K) (hB : ∀ i ∈ K, i.premise ⊆ B → i.conclusion ⊆ B)
    (hG : ∀ o ∈ G', o = n ∨ o ∈ G) (h1 : ∀ a ∈ M, n ∈ G' → (I' n a ↔ a ∈ B))
    (h2 : ∀ o a, o ≠ n → (I' o a ↔ I o a)) : Valid G' I' K := by
  intro i hi g hg hp m hm
  by_cases hgn : g = n
  · subst hgn
    have : i.premise ⊆ B := fun x hx => (h1 x ((hk i hi).1 hx) hg).1 (hp x hx)
    exact (h1 m ((hk i hi).2 hm) hg).2 (hB i hi this hm)
  · rw [h2 g m hgn]
    refine hv i hi g ((hG g hg).resolve_left hgn) (fun x hx => ?_) m hm
    exact (h2 g x hgn).1 (hp x hx)

/-- A column outside of the implications changes. -/
theorem valid_other {G G' : Finset α} {M : Finset β} {I I' : α → β → Prop} {K : List (Imp β)}
    (hv : Valid G I K) (hk : Over M K) (hG : G' ⊆ G) (h2 : ∀ o, ∀ a ∈ M, (I' o a ↔ I o a)) :
    Valid G' I' K := by
  intro i hi g hg hp m hm
  rw [h2 g m ((hk i hi).2 hm)]
  exact hv i hi g (hG hg) (fun x hx => (h2 g x ((hk i hi).1 hx)).1 (hp x hx)) m hm

/-- What one call does. -/
structure Step (a o : Bool) (s s' : BExp α β) : Prop where
  inv : Inv s'
  attr : a = true → AOk s → AOk s'
  obj : o = true → OOk s → OOk s'

theorem Step.refl {a o : Bool} {s : BExp α β} (h : Inv s) : Step a o s s :=
  ⟨h, fun _ h => h, fun _ h => h⟩

theorem Over.mono {M M' : Finset β} {K : List (Imp β)} (h : Over M K) (hM : M ⊆ M') : Over M' K :=
  fun i hi => ⟨(h i hi).1.trans hM, (h i hi).2.trans hM⟩

theorem addObj_step {E : Env α β} (hE : E.Ok) {s : BExp α β} (h : Inv s) {n : α} (hn : n ∉ s.ctx.objects)
    {B : Finset β} (hB : check s.confAttr B = true) :
    ∃ s', thenRecompute E s (s.ctx.addObjectWithIntent B n) = (s', none) ∧
      s'.ctx.objects = s.ctx.objects ++ [n] ∧ s'.ctx.attributes = s.ctx.attributes ∧
      (∀ o a, s'.ctx.Inc o a ↔ (o = n ∧ a ∈ s.ctx.attributes ∧ a ∈ B) ∨ (o ≠ n ∧ s.ctx.Inc o a)) ∧
      s'.confAttr = s.confAttr ∧ s'.confObj = s.confObj ∧ Step true true s s' := by
  obtain ⟨c', h1, h2, h3, h4, h5⟩ := add_object_ctx h.wf h.one hn B
  have hM : c'.M = s.ctx.M := by unfold Ctx.M; rw [h4]
  have hG : c'.G = s.ctx.G ∪ {n} := by unfold Ctx.G; rw [h3]; simp
  obtain ⟨s', h6, h7, h8, h9, h10⟩ := recompute_ok hE (s := { s with ctx := c' }) h2
    (by rw [h3]; simp) (by show c'.attributes ≠ []; rw [h4]; exact h.ane)
    (by show Over c'.M _; rw [hM]; exact h.akover)
    (by show Over c'.G _; rw [hG]; exact h.okover.mono Finset.subset_union_left)
  refine ⟨s', ?_, by rw [h7]; exact h3, by rw [h7]; exact h4, by rw [h7]; exact h5, h8, h9, h10, ?_, ?_⟩
  · rw [h1]; exact h6
  · intro _ hv
    unfold AOk at hv ⊢
    rw [h7, h8]
    refine valid_row hv h.akover (check_iff.1 hB) (n := n) ?_ ?_ ?_
    · intro o ho
      have : o ∈ c'.objects := List.mem_toFinset.1 ho
      rw [h3, List.mem_append, List.mem_singleton] at this
      rcases this with h | h
      · exact .inr (List.mem_toFinset.2 h)
      · exact .inl h
    · intro a ha _
      have ha' : a ∈ s.ctx.attributes := List.mem_toFinset.1 ha
      show c'.Inc n a ↔ _
      rw [h5]; simp [ha']
    · intro o a ho
      show c'.Inc o a ↔ _
      rw [h5]; simp [ho]
  · intro _ hv
    unfold OOk at hv ⊢
    rw [h7, h9]
    refine valid_other hv h.okover (by show c'.M ⊆ _; rw [hM]) ?_
    intro a o ho
    have ho' : o ≠ n := by rintro rfl; exact hn (List.mem_toFinset.1 ho)
    show c'.Inc o a ↔ _
    rw [h5]; simp [ho']

theorem addAttr_step {E : Env α β} (hE : E.Ok) {s : BExp α β} (h : Inv s) {n : β} (hn : n ∉ s.ctx.attributes)
    {A : Finset α} (hA : check s.confObj A = true) :
    ∃ s', thenRecompute E s (s.ctx.addAttributeWithExtent A n) = (s', none) ∧
      s'.ctx.objects = s.ctx.objects ∧ s'.ctx.attributes = s.ctx.attributes ++ [n] ∧
      (∀ o a, s'.ctx.Inc o a ↔ (a = n ∧ o ∈ s.ctx.objects ∧ o ∈ A) ∨ (a ≠ n ∧ s.ctx.Inc o a)) ∧
      s'.confAttr = s.confAttr ∧ s'.confObj = s.confObj ∧ Step true true s s' := by
  obtain ⟨c', h1, h2, h3, h4, h5⟩ := add_attribute_ctx h.wf h.one hn A
  have hG : c'.G = s.ctx.G := by unfold Ctx.G; rw [h3]
  have hM : c'.M = s.ctx.M ∪ {n} := by unfold Ctx.M; rw [h4]; simp
  obtain ⟨s', h6, h7, h8, h9, h10⟩ := recompute_ok hE (s := { s with ctx := c' }) h2
    (by show c'.objects ≠ []; rw [h3]; exact h.one) (by rw [h4]; simp)
    (by show Over c'.M _; rw [hM]; exact h.akover.mono Finset.subset_union_left)
    (by show Over c'.G _; rw [hG]; exact h.okover)
  refine ⟨s', ?_, by rw [h7]; exact h3, by rw [h7]; exact h4, by rw [h7]; exact h5, h8, h9, h10, ?_, ?_⟩
  · rw [h1]; exact h6
  · intro _ hv
    unfold AOk at hv ⊢
    rw [h7, h8]
    refine valid_other hv h.akover (by show c'.G ⊆ _; rw [hG]) ?_
    intro o a ha
    have ha' : a ≠ n := by rintro rfl; exact hn (List.mem_toFinset.1 ha)
    show c'.Inc o a ↔ _
    rw [h5]; simp [ha']
  · intro _ hv
    unfold OOk at hv ⊢
    rw [h7, h9]
    refine valid_row hv h.okover (check_iff.1 hA) (n := n) ?_ ?_ ?_
    · intro o ho
      have : o ∈ c'.attributes := List.mem_toFinset.1 ho
      rw [h4, List.mem_append, List.mem_singleton] at this
      rcases this with h | h
      · exact .inr (List.mem_toFinset.2 h)
      · exact .inl h
    · intro a ha _
      have ha' : a ∈ s.ctx.objects := List.mem_toFinset.1 ha
      show c'.Inc a n ↔ _
      rw [h5]; simp [ha']
    · intro o a ho
      show c'.Inc a o ↔ _
      rw [h5]; simp [ho]

theorem editObj_step {E : Env α β} (hE : E.Ok) {s : BExp α β} (h : Inv s) {n : α} {B : Finset β}
    (hB : check s.confAttr B = true) :
    Step true false s (thenRecompute E s (s.ctx.setObjectIntent (E.ordA.enum B) n)).1 := by
  rcases hm : s.ctx.setObjectIntent (E.ordA.enum B) n with ⟨c', _ | e⟩
  · obtain ⟨h2, h3, h4, h5⟩ := set_object_ctx h.wf hm
    have hG : c'.G = s.ctx.G := by unfold Ctx.G; rw [h3]
    have hM : c'.M = s.ctx.M := by unfold Ctx.M; rw [h4]
    obtain ⟨s', h6, h7, h8, h9, h10⟩ := recompute_ok hE (s := { s with ctx := c' }) h2
      (by show c'.objects ≠ []; rw [h3]; exact h.one) (by show c'.attributes ≠ []; rw [h4]; exact h.ane)
      (by show Over c'.M _; rw [hM]; exact h.akover)
      (by show Over c'.G _; rw [hG]; exact h.okover)
    have h6' : thenRecompute E s (c', none) = (s', none) := h6
    rw [h6']
    refine ⟨h10, ?_, by simp⟩
    intro _ hv
    unfold AOk at hv ⊢
    show Valid s'.ctx.G _ _
    rw [h7, h8]
    refine valid_row hv h.akover (check_iff.1 hB) (n := n) ?_ ?_ ?_
    · intro o ho
      exact .inr (hG ▸ ho)
    · intro a ha hn
      have ha' : a ∈ s.ctx.attributes := List.mem_toFinset.1 ha
      have hn' : n ∈ s.ctx.objects := by rw [← h3]; exact List.mem_toFinset.1 hn
      show c'.Inc n a ↔ _
      rw [h5]; simp [ha', hn']
    · intro o a ho
      show c'.Inc o a ↔ _
      rw [h5]; simp [ho]
  · have hc : c' = s.ctx := Ctx.C03_failed_unchanged (op := .setObjectIntent (E.ordA.enum B) n) hm
    subst hc
    exact Step.refl h

theorem editAttr_step {E : Env α β} (hE : E.Ok) {s : BExp α β} (h : Inv s) {n : β} {A : Finset α}
    (hA : check s.confObj A = true) :
    Step false true s (thenRecompute E s (s.ctx.setAttributeExtent (E.ordO.enum A) n)).1 := by
  rcases hm : s.ctx.setAttributeExtent (E.ordO.enum A) n with ⟨c', _ | e⟩
  · obtain ⟨h2, h3, h4, h5⟩ := set_attribute_ctx h.wf hm
    have hG : c'.G = s.ctx.G := by unfold Ctx.G; rw [h3]
    have hM : c'.M = s.ctx.M := by unfold Ctx.M; rw [h4]
    obtain ⟨s', h6, h7, h8, h9, h10⟩ := recompute_ok hE (s := { s with ctx := c' }) h2
      (by show c'.objects ≠ []; rw [h3]; exact h.one) (by show c'.attributes ≠ []; rw [h4]; exact h.ane)
      (by show Over c'.M _; rw [hM]; exact h.akover)
      (by show Over c'.G _; rw [hG]; exact h.okover)
    have h6' : thenRecompute E s (c', none) = (s', none) := h6
    rw [h6']
    refine ⟨h10, by simp, ?_⟩
    intro _ hv
    unfold OOk at hv ⊢
    show Valid s'.ctx.M _ _
    rw [h7, h9]
    refine valid_row hv h.okover (check_iff.1 hA) (n := n) ?_ ?_ ?_
    · intro o ho
      exact .inr (hM ▸ ho)
    · intro a ha hn
      have ha' : a ∈ s.ctx.objects := List.mem_toFinset.1 ha
      have hn' : n ∈ s.ctx.attributes := by rw [← h4]; exact List.mem_toFinset.1 hn
      show c'.Inc a n ↔ _
      rw [h5]; simp [ha', hn']
    · intro o a ho
      show c'.Inc a o ↔ _
      rw [h5]; simp [ho]
  · have hc : c' = s.ctx := Ctx.C03_failed_unchanged (op := .setAttributeExtent (E.ordO.enum A) n) hm
    subst hc
    exact Step.refl h

theorem confirm_lists {γ : Type} {L K : List (Imp γ)} {i : ℕ} {imp : Imp γ} (hi : L[i]? = some imp) :
    (L.eraseIdx i ++ (K ++ [imp])).Perm (L ++ K) := by
  have hlt := (List.getElem?_eq_some_iff.1 hi).1
  have he := (List.getElem?_eq_some_iff.1 hi).2
  have h1 : (L[i] :: L.eraseIdx i).Perm L := List.getElem_cons_eraseIdx_perm hlt
  rw [he] at h1
  calc (L.eraseIdx i ++ (K ++ [imp])) = (L.eraseIdx i ++ K) ++ [imp] := by simp
    _ |>.Perm ([imp] ++ (L.eraseIdx i ++ K)) := List.perm_append_comm
    _ |>.Perm (L ++ K) := by
      rw [← List.append_assoc]
      exact List.Perm.append_right K h1

theorem Complete.perm {G : Finset α} {M : Finset β} {I : α → β → Prop} {L L' : List (Imp β)}
    (h : Complete G M I L) (hp : L'.Perm L) : Complete G M I L' := by
  intro S hS hc
  refine h S hS ?_
  rw [closed_specImps] at hc ⊢
  exact fun i hi => hc i (hp.mem_iff.2 hi)

theorem confirmAttr_step {s : BExp α β} (h : Inv s) (i : ℕ) : Step true true s (s.confirmAttr i).1 := by
  unfold confirmAttr
  rcases hi : s.attrImps[i]? with _ | imp
  · exact Step.refl h
  · have hmem := List.mem_of_getElem? hi
    refine ⟨⟨h.wf, h.one, h.ane, fun j hj => h.aval j (List.mem_of_mem_eraseIdx hj),
      fun j hj => h.aover j (List.mem_of_mem_eraseIdx hj), ?_, h.acomp.perm (confirm_lists hi), h.oval, h.oover,
      h.okover, h.ocomp⟩, ?_, fun _ h => h⟩
    · intro j hj
      rcases List.mem_append.1 hj with hj | hj
      · exact h.akover j hj
      · rw [List.mem_singleton.1 hj]; exact h.aover imp hmem
    · intro _ hv j hj
      rcases List.mem_append.1 hj with hj | hj
      · exact hv j hj
      · rw [List.mem_singleton.1 hj]; exact h.aval imp hmem

theorem confirmObj_step {s : BExp α β} (h : Inv s) (i : ℕ) : Step true true s (s.confirmObj i).1 := by
  unfold confirmObj
  rcases hi : s.objImps[i]? with _ | imp
  · exact Step.refl h
  · have hmem := List.mem_of_getElem? hi
    refine ⟨⟨h.wf, h.one, h.ane, h.aval, h.aover, h.akover, h.acomp,
      fun j hj => h.oval j (List.mem_of_mem_eraseIdx hj),
      fun j hj => h.oover j (List.mem_of_mem_eraseIdx hj), ?_, h.ocomp.perm (confirm_lists hi)⟩,
      fun _ h => h, ?_⟩
    · intro j hj
      rcases List.mem_append.1 hj with hj | hj
      · exact h.okover j hj
      · rw [List.mem_singleton.1 hj]; exact h.oover imp hmem
    · intro _ hv j hj
      rcases List.mem_append.1 hj with hj | hj
      · exact hv j hj
      · rw [List.mem_singleton.1 hj]; exact h.oval imp hmem

theorem exec_step {E : Env α β} (hE : E.Ok) {s : BExp α β} (h : Inv s) {op : Op α β} (hf : op.Fresh s.ctx) :
    Step (!op.isEditAttribute) (!op.isEditObject) s (s.exec E op).1 := by
  cases op with
  | confirmAttr i => exact confirmAttr_step h i
  | confirmObj i => exact confirmObj_step h i
  | addObject B n =>
    show Step _ _ s (s.addObject E B n).1
    unfold addObject
    cases hB : check s.confAttr B with
    | false => exact Step.refl h
    | true =>
      obtain ⟨s', h1, -, -, -, -, -, h2⟩ := addObj_step hE h hf hB
      simp only [Bool.not_true, Bool.false_eq_true, if_false, h1]
      exact h2
  | addAttribute A n =>
    show Step _ _ s (s.addAttribute E A n).1
    unfold addAttribute
    cases hA : check s.confObj A with
    | false => exact Step.refl h
    | true =>
      obtain ⟨s', h1, -, -, -, -, -, h2⟩ := addAttr_step hE h hf hA
      simp only [Bool.not_true, Bool.false_eq_true, if_false, h1]
      exact h2
  | editObject B n =>
    show Step _ _ s (s.editObject E B n).1
    unfold editObject
    cases hB : check s.confAttr B with
    | false => exact Step.refl h
    | true => exact editObj_step hE h hB
  | editAttribute A n =>
    show Step _ _ s (s.editAttribute E A n).1
    unfold editAttribute
    cases hB : check s.confObj A with
    | false => exact Step.refl h
    | true => exact editAttr_step hE h hB
  | counterAttr n B i =>
    show Step _ _ s (s.counterAttr E n B i).1
    unfold counterAttr
    split
    · exact Step.refl h
    · split_ifs
      · exact Step.refl h
      · exact Step.refl h
      · exact Step.refl h
      · rename_i hB
        obtain ⟨s', h1, -, -, -, -, -, h2⟩ := addObj_step hE h hf (by simpa using hB)
        rw [h1]
        exact h2
  | counterObj n A i =>
    show Step _ _ s (s.counterObj E n A i).1
    unfold counterObj
    split
    · exact Step.refl h
    · split_ifs
      · exact Step.refl h
      · exact Step.refl h
      · exact Step.refl h
      · rename_i hB
        obtain ⟨s', h1, -, -, -, -, -, h2⟩ := addAttr_step hE h hf (by simpa using hB)
        rw [h1]
        exact h2

theorem run_step {E : Env α β} (hE : E.Ok) {ops : List (Op α β)} {s : BExp α β} (h : Inv s)
    (hf : FreshRun E s ops) :
    Step (ops.all fun op => !op.isEditAttribute) (ops.all fun op => !op.isEditObject) s (run E s ops) := by
  induction ops generalizing s with
  | nil => exact Step.refl h
  | cons op ops ih =>
    have h1 := exec_step hE h hf.1
    have h2 := ih h1.inv hf.2
    refine ⟨h2.inv, ?_, ?_⟩
    · intro ha hv
      rw [List.all_cons, Bool.and_eq_true] at ha
      exact h2.attr ha.2 (h1.attr ha.1 hv)
    · intro ha hv
      rw [List.all_cons, Bool.and_eq_true] at ha
      exact h2.obj ha.2 (h1.obj ha.1 hv)

end BExp
