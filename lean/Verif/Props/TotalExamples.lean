/-
C169: a partial context without question marks is explored as a context.
-/
import Verif.Model.ExplorationCalls
import Verif.Props.PartialContext
import Verif.Props.Product
import Verif.Props.HashOrder

set_option linter.unusedSectionVars false

open Spec

variable {α β : Type} [DecidableEq α] [DecidableEq β]

/-- The partial context whose two tables are the table of `c`. -/
def Ctx.toPartial (c : Ctx α β) : PCtx α β := ⟨c.objects, c.attributes, c, c⟩

theorem Ctx.WFw.toPartial {c : Ctx α β} (h : c.WFw) : c.toPartial.WF :=
  ⟨h, h, rfl, rfl, rfl, rfl, fun _ _ => id⟩

/-- The closure of a partial context without question marks is the closure of the context, and the bases are the same
lists (or the same exceptions). For the first list `get_attribute_implications` of a context uses `lin_closure`, so the
background is supposed to be over the attributes and without repetitions. -/
theorem C169_basis {c : Ctx α β} (h : c.WFw) (ordA : SetOrder β) (ordO : SetOrder α) (bg : List (Imp β))
    (cond : Finset β → Bool) :
    ((∀ i ∈ bg, i.conclusion ⊆ c.M) → (bg.Pairwise fun i j => i.pyEq j = false) → ∀ ord₀ ord,
      c.toPartial.dgBasis ordA ordO bg cond = c.computeDgBasis ordA ordO ord₀ ord bg cond) ∧
    c.toPartial.dgBasis ordA ordO bg cond = c.computeDgBasisSimple ordA ordO bg cond ∧
    ∀ s, c.toPartial.xqAclosure ordA ordO s = c.dgAclose ordA ordO s :=
  ⟨fun hbg hnd ord₀ ord => (Ctx.C30_lin_eq_simple h ordA ordO ord₀ ord bg hbg hnd cond).symm, rfl, fun _ => rfl⟩

section
variable [PyName α] [PyName β]

theorem Ctx.WFw.set_same {c : Ctx α β} (h : c.WFw) {o : α} (ho : o ∈ c.objects) (ord : SetOrder β) :
    c.setObjectIntent (ord.enum (c.upF {o})) o = (c, none) := by
  obtain ⟨c', h1, h2, h3, h4, h5, h6⟩ := PCtx.set_returns h ho ord (B := c.upF {o}) (Finset.filter_subset _ _)
  rw [h1]
  congr 1
  refine Ctx.WFw.ext_inc h2 h (by rw [h3]; exact List.ne_nil_of_mem ho) h3 h4 fun o' a => ?_
  rw [← mem_up1 h2, ← mem_up1 h]
  by_cases he : o' = o
  · subst he
    rw [h5]
  · rw [h6 o' he]

theorem simpleClosure_eq_of_closed {s : Finset β} {L : List (Imp β)} (h : Closed (specImps L) s) :
    simpleClosure s L = s :=
  Finset.Subset.antisymm ((simpleClosure_isLeast s L).2.2 s (Finset.Subset.refl _) h) (simpleClosure_isLeast s L).1

theorem complete_one {c : Ctx α β} (h : c.WFw) (ord : SetOrder β) (L : List (Imp β)) {o : α} (ho : o ∈ c.objects) :
    (Closed (specImps L) (c.upF {o}) → c.toPartial.completeOne ord L o = (c.toPartial, none)) ∧
    (¬ Closed (specImps L) (c.upF {o}) → c.toPartial.completeOne ord L o = (c.toPartial, some .valueError)) := by
  constructor
  · intro hc
    unfold PCtx.completeOne
    have e := simpleClosure_eq_of_closed hc
    have hf : (c.upF {o}).filter (fun a => a ∈ c.upF {o} ∨ simpleClosure (c.upF {o} ∪ {a}) L ⊆ c.upF {o}) = c.upF {o} :=
      Finset.filter_true_of_mem fun a ha => .inl ha
    simp only [show c.toPartial.x = c from rfl, show c.toPartial.q = c from rfl, h.objectIntent ho, e,
      Finset.Subset.refl, not_true_eq_false, if_false, h.set_same ho, hf]
    rfl
  · intro hc
    refine (h.toPartial.completeOne ord L (o := o) ho).2 fun hs => hc ?_
    have hs : simpleClosure (c.upF {o}) L ⊆ c.upF {o} := hs
    have := simpleClosure_isLeast (c.upF {o}) L
    rw [Finset.Subset.antisymm hs this.1] at this
    exact this.2.1

theorem complete_loop {c : Ctx α β} (h : c.WFw) (ord : SetOrder β) (L : List (Imp β)) : ∀ os : List α,
    (∀ o ∈ os, o ∈ c.objects) →
    ((∀ o ∈ os, Closed (specImps L) (c.upF {o})) → c.toPartial.completeLoop ord L os = (c.toPartial, none)) ∧
    ((¬ ∀ o ∈ os, Closed (specImps L) (c.upF {o})) →
      c.toPartial.completeLoop ord L os = (c.toPartial, some .valueError)) := by
  intro os
  induction os with
  | nil => intro _; exact ⟨fun _ => rfl, fun hn => absurd (by simp) hn⟩
  | cons o os ih =>
    intro hos
    have h1 := complete_one h ord L (hos o (by simp))
    have h2 := ih fun o' ho' => hos o' (by simp [ho'])
    by_cases hc : Closed (specImps L) (c.upF {o})
    · simp only [PCtx.completeLoop, h1.1 hc, List.forall_mem_cons, hc, true_and]
      exact h2
    · simp only [PCtx.completeLoop, h1.2 hc, List.forall_mem_cons, hc, false_and, not_false_eq_true, true_implies,
        false_implies, and_self]

theorem closed_rows {c : Ctx α β} (h : c.WFw) {L : List (Imp β)} (hL : ∀ i ∈ L, i.conclusion ⊆ c.M) :
    (∀ o ∈ c.objects, Closed (specImps L) (c.upF {o})) ↔ c.ValidBg L := by
  simp only [closed_specImps]
  constructor
  · intro hc i hi
    refine ⟨hL i hi, fun g hg hp m hm => (mem_up1 h).1 ?_⟩
    exact hc g (List.mem_toFinset.1 hg) i hi (fun a ha => (mem_up1 h).2 (hp a ha)) hm
  · intro hv o ho i hi hp a ha
    exact (mem_up1 h).2 ((hv i hi).2 o (List.mem_toFinset.2 ho) (fun m hm => (mem_up1 h).1 (hp hm)) a ha)

/-- `complete` never changes a partial context without question marks; it raises ValueError exactly if one of the
implications does not hold in the context. -/
theorem C169_complete {c : Ctx α β} (h : c.WFw) (ord : SetOrder β) {L : List (Imp β)}
    (hL : ∀ i ∈ L, i.conclusion ⊆ c.M) :
    (c.ValidBg L → c.toPartial.complete ord L = (c.toPartial, none)) ∧
    (¬ c.ValidBg L → c.toPartial.complete ord L = (c.toPartial, some .valueError)) := by
  rw [← closed_rows h hL]
  exact complete_loop h ord L c.objects fun _ => id

/-- A complete example with a new name gives the partial context of the extended context. -/
theorem C169_add {c : Ctx α β} (h : c.WFw) {n : α} (hn : n ∉ c.objects) (B : Finset β) :
    ∃ c', c.addObjectWithIntent B n = (c', none) ∧ c.toPartial.addObjectWithIntent (B, B) n = (c'.toPartial, none) := by
  obtain ⟨c', h1, -, h2, h3, -⟩ := PCtx.add_ctx h hn B
  refine ⟨c', h1, ?_⟩
  unfold PCtx.addObjectWithIntent Ctx.toPartial
  simp only [Finset.Subset.refl, not_true_eq_false, if_false, h1, h2, h3]

/-! ### The dialogs -/

namespace EDB

/-- The database over the partial context. -/
def toPartial (t : EDB α β) : PDB α β := ⟨t.ctx.toPartial, t.bg, t.openImps⟩

/-- The set orders of the database over the partial context. -/
def Env.toPartial (E : Env α β) : PDB.Env α β := ⟨E.cond, E.ordA, E.ordO, E.ordI⟩

/-- What the dialog maintains: the implications of the background are valid in the context and different. -/
structure Kept (t : EDB α β) : Prop where
  wf : t.ctx.WFw
  valid : t.ctx.ValidBg t.bg
  distinct : t.bg.Pairwise fun i j => i.pyEq j = false

/-- Only new implications that are valid in the context are confirmed. -/
def FairCall (t : EDB α β) : ACall α β → Prop
  | .confirm imps => t.ctx.ValidBg imps ∧ (t.bg ++ imps).Pairwise fun i j => i.pyEq j = false
  | _ => True

/-- All calls of a dialog. -/
def FairDialog (E : Env α β) : EDB α β → List (ACall α β) → Prop
  | _, [] => True
  | t, c :: cs => FairCall t c ∧ FairDialog E (ACall.onContext E t c).1 cs

/-- State and exception of both databases. -/
def SameBoth (r : EDB α β × Option PyErr) (r' : PDB α β × Option PyErr) : Prop := r' = (r.1.toPartial, r.2)

variable {E : Env α β}

theorem same_modifier {t : EDB α β} (h : Kept t) : SameBoth (modifier E (t, none)) (PDB.recompute E.toPartial t.toPartial) := by
  unfold SameBoth PDB.recompute modifier relBasis
  rw [show t.toPartial.ctx.dgBasis E.toPartial.ordA E.toPartial.ordO t.toPartial.implications E.toPartial.cond = _ from
    (C169_basis h.wf E.ordA E.ordO t.bg E.cond).1 (fun i hi => (h.valid i hi).1) h.distinct E.ord₀ E.ord]
  dsimp only
  cases t.ctx.computeDgBasis E.ordA E.ordO E.ord₀ E.ord t.bg E.cond <;> rfl

theorem kept_modifier {t : EDB α β} (h : Kept t) : Kept (modifier E (t, none)).1 := by
  unfold modifier
  dsimp only
  split
  · exact ⟨h.wf, h.valid, h.distinct⟩
  · exact h

theorem modifier_none {t : EDB α β} : (modifier E (t, none)).1.ctx = t.ctx ∧ (modifier E (t, none)).1.bg = t.bg := by
  unfold modifier
  dsimp only
  split <;> exact ⟨rfl, rfl⟩

theorem same_confirms : ∀ (imps : List (Imp β)) {t : EDB α β} (_ : Kept t) (_ : t.ctx.ValidBg imps)
    (_ : (t.bg ++ imps).Pairwise fun i j => i.pyEq j = false),
    SameBoth (imps.foldl (fun r i => andThen r fun s => confirm E s i) (t, none))
      (imps.foldl (fun r i => PDB.andThen r fun s => PDB.confirm E.toPartial s i) (t.toPartial, none)) ∧
    Kept (imps.foldl (fun r i => andThen r fun s => confirm E s i) (t, none)).1 := by
  intro imps
  induction imps with
  | nil => intro t h _ _; exact ⟨rfl, h⟩
  | cons i imps ih =>
    intro t h hv hd
    have hk : Kept ({ t with bg := t.bg ++ [i] } : EDB α β) := by
      refine ⟨h.wf, ?_, ?_⟩
      · intro j hj
        rcases List.mem_append.1 hj with hj | hj
        · exact h.valid j hj
        · rw [List.mem_singleton] at hj; subst hj; exact hv j (by simp)
      · rw [show t.bg ++ i :: imps = (t.bg ++ [i]) ++ imps by simp] at hd
        exact (List.pairwise_append.1 hd).1
    have hs := same_modifier (E := E) hk
    have hk' := kept_modifier (E := E) hk
    obtain ⟨hc, hb⟩ := modifier_none (E := E) (t := { t with bg := t.bg ++ [i] })
    simp only [List.foldl_cons]
    rw [show andThen (t, none) (fun s => confirm E s i) = modifier E ({ t with bg := t.bg ++ [i] }, none) from rfl,
      show PDB.andThen (t.toPartial, none) (fun s => PDB.confirm E.toPartial s i) =
        PDB.recompute E.toPartial (toPartial { t with bg := t.bg ++ [i] }) from rfl, hs]
    generalize modifier E ({ t with bg := t.bg ++ [i] }, none) = r at hk' hc hb ⊢
    obtain ⟨t', e⟩ := r
    cases e with
    | none =>
      refine ih hk' ?_ ?_
      · dsimp only at hc
        rw [hc]; exact fun j hj => hv j (by simp [hj])
      · dsimp only at hb
        rw [hb]; simpa using hd
    | some e =>
      have h1 : ∀ l : List (Imp β), l.foldl (fun r i => andThen r fun s => confirm E s i) (t', some e) = (t', some e) := by
        intro l; induction l with
        | nil => rfl
        | cons j l ih => rw [List.foldl_cons]; exact ih
      have h2 : ∀ l : List (Imp β), l.foldl (fun r i => PDB.andThen r fun s => PDB.confirm E.toPartial s i)
          (t'.toPartial, some e) = (t'.toPartial, some e) := by
        intro l; induction l with
        | nil => rfl
        | cons j l ih => rw [List.foldl_cons]; exact ih
      rw [h1]
      exact ⟨h2 imps, hk'⟩

theorem isRespectedPartial_same (i : Imp β) (B : Finset β) : i.isRespectedPartial (B, B) = i.isRespected B := by
  unfold Imp.isRespectedPartial Imp.isRespected
  exact Bool.or_comm _ _

theorem same_example {t : EDB α β} (h : Kept t) (n : α) (B : Finset β) :
    SameBoth (t.addExample E n B) (PDB.addExample E.toPartial t.toPartial n (B, B)) ∧ Kept (t.addExample E n B).1 := by
  unfold EDB.addExample PDB.addExample
  have hany : (t.toPartial.implications.any fun i => !i.isRespectedPartial (B, B)) = !t.checkIntent B := by
    simp only [isRespectedPartial_same, checkIntent, show t.toPartial.implications = t.bg from rfl, List.not_all_eq_any_not]
  rw [hany]
  by_cases hc : t.checkIntent B = true
  · rw [hc]
    simp only [Bool.not_true, Bool.false_eq_true, if_false]
    by_cases hn : n ∈ t.ctx.objects
    · rw [if_pos hn, if_pos (show n ∈ t.toPartial.ctx.objects from hn)]
      exact ⟨rfl, h⟩
    · rw [if_neg hn, if_neg (show n ∉ t.toPartial.ctx.objects from hn)]
      obtain ⟨c', h1, h1'⟩ := C169_add h.wf hn B
      obtain ⟨c'', g1, g2, g3, g4, g5, g6⟩ := PCtx.add_ctx h.wf hn B
      rw [h1] at g1
      obtain rfl : c' = c'' := congrArg Prod.fst g1
      have hk : Kept ({ t with ctx := c' } : EDB α β) := by
        refine ⟨g2, ?_, h.distinct⟩
        have hM : c'.M = t.ctx.M := by unfold Ctx.M; rw [g4]
        have hL : ∀ i ∈ t.bg, i.conclusion ⊆ c'.M := fun i hi => hM ▸ (h.valid i hi).1
        rw [← closed_rows g2 hL]
        have hold := (closed_rows h.wf fun i hi => (h.valid i hi).1).2 h.valid
        intro o ho
        by_cases he : o = n
        · subst he
          rw [g5, closed_specImps]
          intro i hi hp a ha
          have hr := List.all_eq_true.1 hc i hi
          rw [Imp.isRespected_iff] at hr
          exact Finset.mem_inter.2 ⟨hr (hp.trans Finset.inter_subset_left) ha, (h.valid i hi).1 ha⟩
        · rw [g6 o he]
          rw [g3] at ho
          exact hold o (by simpa [he] using ho)
      have hm := same_modifier (E := E) hk
      refine ⟨?_, ?_⟩
      · simp only [setCtx, h1, show t.toPartial.ctx = t.ctx.toPartial from rfl, h1']
        exact hm
      · simp only [setCtx, h1]
        exact kept_modifier hk
  · rw [Bool.not_eq_true] at hc
    rw [hc]
    exact ⟨rfl, h⟩

theorem same_examples : ∀ (exs : List (α × Finset β)) {t : EDB α β} (_ : Kept t),
    SameBoth (exs.foldl (fun r e => andThen r fun s => addExample E s e.1 e.2) (t, none))
      ((exs.map fun e => (e.1, (e.2, e.2))).foldl (fun r e => PDB.andThen r fun s =>
        PDB.addExample E.toPartial s e.1 e.2) (t.toPartial, none)) ∧
    Kept (exs.foldl (fun r e => andThen r fun s => addExample E s e.1 e.2) (t, none)).1 := by
  intro exs
  induction exs with
  | nil => intro t h; exact ⟨rfl, h⟩
  | cons x exs ih =>
    intro t h
    obtain ⟨hs, hk'⟩ := same_example (E := E) h x.1 x.2
    simp only [List.foldl_cons, List.map_cons]
    rw [show andThen (t, none) (fun s => addExample E s x.1 x.2) = t.addExample E x.1 x.2 from rfl,
      show PDB.andThen (t.toPartial, none) (fun s => PDB.addExample E.toPartial s x.1 (x.2, x.2)) =
        PDB.addExample E.toPartial t.toPartial x.1 (x.2, x.2) from rfl, hs]
    generalize t.addExample E x.1 x.2 = r at hk' ⊢
    obtain ⟨t', e⟩ := r
    cases e with
    | none => exact ih hk'
    | some e =>
      have h1 : ∀ l : List (α × Finset β),
          l.foldl (fun r e => andThen r fun s => addExample E s e.1 e.2) (t', some e) = (t', some e) := by
        intro l; induction l with
        | nil => rfl
        | cons j l ih => rw [List.foldl_cons]; exact ih
      have h2 : ∀ l : List (α × (Finset β × Finset β)), l.foldl (fun r e => PDB.andThen r fun s =>
          PDB.addExample E.toPartial s e.1 e.2) (t'.toPartial, some e) = (t'.toPartial, some e) := by
        intro l; induction l with
        | nil => rfl
        | cons j l ih => rw [List.foldl_cons]; exact ih
      rw [h1]
      exact ⟨h2 _, hk'⟩

theorem complete_kept {t : EDB α β} (h : Kept t) (e : Option PyErr) :
    PDB.andThen (t.toPartial, e) (PDB.complete E.toPartial) = (t.toPartial, e) := by
  cases e with
  | some e => rfl
  | none =>
    show PDB.complete E.toPartial t.toPartial = _
    unfold PDB.complete
    rw [show t.toPartial.ctx.complete E.toPartial.ordI t.toPartial.implications = _ from
      (C169_complete h.wf E.ordI fun i hi => (h.valid i hi).1).1 h.valid]
    rfl

/-- One call: both databases end in the same state and raise the same exception, if any. -/
theorem same_call {t : EDB α β} (h : Kept t) (c : ACall α β) (hf : FairCall t c) :
    SameBoth (c.onContext E t) (c.onPartial E.toPartial t.toPartial) ∧ Kept (c.onContext E t).1 := by
  cases c with
  | confirm imps =>
    obtain ⟨h1, h2⟩ := same_confirms (E := E) imps h hf.1 hf.2
    refine ⟨?_, h2⟩
    unfold SameBoth at h1 ⊢
    simp only [ACall.onPartial, ACall.onContext, PDB.confirmAll, confirmAll]
    rw [h1]
    exact complete_kept h2 _
  | reject imp exs =>
    cases exs with
    | nil => exact ⟨rfl, h⟩
    | cons x exs =>
      simp only [ACall.onPartial, ACall.onContext, PDB.reject, rejectWith, List.map_cons, isRespectedPartial_same]
      by_cases hr : imp.isRespected x.2 = true
      · simp only [hr, if_true]
        exact ⟨rfl, h⟩
      · simp only [hr]
        obtain ⟨h1, h2⟩ := same_examples (E := E) (x :: exs) h
        refine ⟨?_, h2⟩
        unfold SameBoth at h1 ⊢
        rw [List.map_cons] at h1
        rw [h1]
        exact complete_kept h2 _
  | unconfirm imp =>
    simp only [ACall.onPartial, ACall.onContext, PDB.unconfirm, unconfirm,
      show t.toPartial.implications = t.bg from rfl]
    cases hk : t.bg.findIdx? fun x => x.pyEq imp with
    | none => exact ⟨rfl, h⟩
    | some k =>
      have hk : Kept ({ t with bg := t.bg.eraseIdx k } : EDB α β) :=
        ⟨h.wf, fun i hi => h.valid i (List.mem_of_mem_eraseIdx hi), h.distinct.sublist (List.eraseIdx_sublist _ _)⟩
      exact ⟨same_modifier hk, kept_modifier hk⟩

/-- The dialog with a partial context without question marks and complete examples is the dialog with the context: the
same states, the same open implications, the same exceptions, for every dialog in which only new implications that are
valid in the context are confirmed. -/
theorem C169_dialog {t : EDB α β} (h : Kept t) : ∀ (cs : List (ACall α β)), FairDialog E t cs →
    ACall.dialog (ACall.onPartial E.toPartial) t.toPartial cs =
      ((ACall.dialog (ACall.onContext E) t cs).1.toPartial, (ACall.dialog (ACall.onContext E) t cs).2) := by
  intro cs
  induction cs generalizing t with
  | nil => intro _; rfl
  | cons c cs ih =>
    intro hf
    obtain ⟨h1, h2⟩ := same_call (E := E) h c hf.1
    simp only [ACall.dialog]
    rw [h1, ih h2 hf.2]

/-- The constructors: the database over the partial context starts as the one over the context. -/
theorem C169_start {c : Ctx α β} (h : c.WFw) {bg : List (Imp β)} (hbg : ∀ i ∈ bg, i.conclusion ⊆ c.M)
    (hd : bg.Pairwise fun i j => i.pyEq j = false) :
    PDB.make E.toPartial c.toPartial bg = (EDB.init E c bg).map toPartial := by
  unfold PDB.make EDB.init relBasis
  rw [show c.toPartial.dgBasis E.toPartial.ordA E.toPartial.ordO bg E.toPartial.cond = _ from
    (C169_basis h E.ordA E.ordO bg E.cond).1 hbg hd E.ord₀ E.ord]
  cases c.computeDgBasis E.ordA E.ordO E.ord₀ E.ord bg E.cond <;> rfl

/-- Confirming an open implication is always allowed: it is valid in the context and new. -/
theorem C169_open {t : EDB α β} (h : Kept t) (hE : E.cond = fun _ => true)
    (hb : relBasis E t.ctx t.bg = .ok t.openImps) {i : Imp β} (hi : i ∈ t.openImps) : FairCall t (.confirm [i]) := by
  unfold relBasis Ctx.computeDgBasis at hb
  rw [hE] at hb
  have hcl : i.conclusion = attrClosure t.ctx.G t.ctx.M t.ctx.Inc i.premise ∧ IsPseudo t.ctx.M (specImps t.bg)
      (attrClosure t.ctx.G t.ctx.M t.ctx.Inc) i.premise := by
    have := ((Ctx.dg_main h.wf (.inr ⟨_, _, rfl, h.distinct⟩) (fun i hi => (h.valid i hi).1) hb).1 i).1 hi
    exact ⟨this.2, this.1⟩
  obtain ⟨hcl, hp⟩ := hcl
  rw [IsPseudo] at hp
  have hs := Ctx.C24_basis_sound h.wf _ _ _ _ _ _ hb i hi
  refine ⟨fun j hj => ?_, List.pairwise_append.2 ⟨h.distinct, by simp, fun j hj k hk => ?_⟩⟩
  · rw [List.mem_singleton] at hj
    subst hj
    exact ⟨hcl ▸ h.wf.attrClosure_op.into _ hp.1, hs.1⟩
  · rw [List.mem_singleton] at hk
    subst hk
    by_contra hne
    rw [Bool.not_eq_false, Imp.pyEq_iff] at hne
    have hprem : j.premise = k.premise := congrArg Prod.fst hne
    have hred : j.reduced = k.reduced := congrArg Prod.snd hne
    have hc := (closed_specImps _ _).1 hp.2.1 j hj (by rw [hprem])
    have : k.conclusion ⊆ k.premise := by
      intro a ha
      by_contra hna
      have hr : a ∈ k.reduced := by unfold Imp.reduced; exact Finset.mem_sdiff.2 ⟨ha, hna⟩
      rw [← hred] at hr
      unfold Imp.reduced at hr
      exact hna (hc (Finset.mem_sdiff.1 hr).1)
    exact hs.2.2.2.1.2 this

end EDB
end

/-! ### Cases -/

namespace TotalExamples

/-- Two objects with the intents `{0}` and `{0, 1, 2}`. -/
def cxt : Ctx (Fin 4) (Fin 3) := ⟨[0, 1], [0, 1, 2], ⟨some 3, [[true, false, false], [true, true, true]]⟩⟩

def E : EDB.Env (Fin 4) (Fin 3) := ⟨fun _ => true, .fin 3, .fin 4, .fin 3, fun _ => .fin 3, .fin 3, .fin 4⟩

theorem cxt_wf : cxt.WFw := by constructor <;> decide +kernel

def start : EDB (Fin 4) (Fin 3) := ⟨cxt, [], [⟨∅, {0}⟩, ⟨{0, 2}, {0, 1, 2}⟩, ⟨{0, 1}, {0, 1, 2}⟩]⟩

/-- One open implication is confirmed, the next one is rejected with a counterexample, then with a name already used and
with an example that contradicts the background; at the end an implication is withdrawn that is not in the background. -/
def calls : List (ACall (Fin 4) (Fin 3)) :=
  [.confirm [⟨∅, {0}⟩], .reject ⟨{0, 2}, {0, 1, 2}⟩ [(2, {0, 2})], .reject ⟨{0, 1}, {0, 1, 2}⟩ [(2, {0, 1})],
   .reject ⟨{1}, {2}⟩ [(3, {1})], .reject ⟨{1}, {2}⟩ [(3, {1, 2})], .unconfirm ⟨{1}, {2}⟩]

def cxt2 : Ctx (Fin 4) (Fin 3) := ⟨[0, 1], [0, 1, 2], ⟨some 3, [[false, true, false], [false, false, true]]⟩⟩

theorem cxt2_wf : cxt2.WFw := by constructor <;> decide +kernel

theorem start_kept : start.Kept := ⟨cxt_wf, by intro i hi; simp [start] at hi, by simp [start]⟩

theorem calls_fair : EDB.FairDialog E start calls := by
  refine ⟨⟨?_, by decide +kernel⟩, trivial, trivial, trivial, trivial, trivial, trivial⟩
  intro i hi
  rw [List.mem_singleton] at hi
  subst hi
  refine ⟨by decide +kernel, ?_⟩
  have : start.ctx = cxt := rfl
  rw [this]
  simp only [HoldsIn, ← cxt_wf.incB]
  decide +kernel

/-- The exceptions of this dialog. -/
example : EDB.relBasis E cxt [] = .ok start.openImps ∧
    (ACall.dialog (ACall.onPartial E.toPartial) start.toPartial calls).2 =
      [none, none, some .notUniqueObjectName, some .illegalContextModification, some .notCounterexample,
       some .valueError] ∧
    (ACall.dialog (ACall.onPartial E.toPartial) start.toPartial calls).1.cxtImplications = [⟨{0, 1}, {0, 1, 2}⟩] := by
  refine ⟨by decide +kernel, by decide +kernel, by decide +kernel⟩

example := EDB.C169_dialog (E := E) start_kept calls calls_fair

/-- Confirming an implication that an object refutes: the database over the context takes it, the one over the partial
context raises ValueError (and has recorded the implication). -/
theorem C169_refuted_violated : start.Kept ∧
    (ACall.onContext E start (.confirm [⟨{0}, {1}⟩])).2 = none ∧
    (ACall.onPartial E.toPartial start.toPartial (.confirm [⟨{0}, {1}⟩])).2 = some .valueError ∧
    (ACall.onPartial E.toPartial start.toPartial (.confirm [⟨{0}, {1}⟩])).1.implications = [⟨{0}, {1}⟩] :=
  ⟨start_kept, by decide +kernel, by decide +kernel, by decide +kernel⟩

/-- Confirming a valid implication twice: the open implications differ, since only one of the databases uses
`lin_closure`. -/
theorem C169_repeated_violated : EDB.Kept (⟨cxt2, [], []⟩ : EDB (Fin 4) (Fin 3)) ∧
    cxt2.ValidBg [⟨{0, 1}, {2}⟩, ⟨{0, 1}, {2}⟩] ∧
    (ACall.onContext E ⟨cxt2, [], []⟩ (.confirm [⟨{0, 1}, {2}⟩, ⟨{0, 1}, {2}⟩])).1.openImps =
      [⟨{1, 2}, {0, 1, 2}⟩, ⟨{0, 2}, {0, 1, 2}⟩] ∧
    (ACall.onPartial E.toPartial (EDB.toPartial ⟨cxt2, [], []⟩)
      (.confirm [⟨{0, 1}, {2}⟩, ⟨{0, 1}, {2}⟩])).1.cxtImplications = [⟨{1, 2}, {0, 1, 2}⟩, ⟨{0}, {0, 1, 2}⟩] := by
  refine ⟨⟨cxt2_wf, by intro i hi; simp at hi, by simp⟩, ?_, by decide +kernel, by decide +kernel⟩
  intro i hi
  have hi : i = ⟨{0, 1}, {2}⟩ := by simpa using hi
  subst hi
  refine ⟨by decide +kernel, ?_⟩
  simp only [HoldsIn, ← cxt2_wf.incB]
  decide +kernel

/-- The partial context of `cxt` and an implication that does not hold. -/
example : cxt.toPartial.complete (.fin 3) [⟨{0}, {1}⟩] = (cxt.toPartial, some .valueError) ∧
    cxt.toPartial.complete (.fin 3) [⟨{1}, {2}⟩] = (cxt.toPartial, none) := by
  constructor <;> decide +kernel

example : 2 ∉ cxt.objects := by decide

/-- An open implication of `start`. -/
example : EDB.FairCall start (.confirm [⟨{0, 2}, {0, 1, 2}⟩]) :=
  EDB.C169_open (E := E) start_kept rfl (by decide +kernel) (by decide)

end TotalExamples
