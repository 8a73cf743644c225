/-
C164: what an exploration does depends on the accepted implications only through what follows from them; `minimize` on the
accepted implications.
-/
import Verif.Model.BaseObjects
import Verif.Props.ExplorationDB
import Verif.Props.CoverObjects
import Verif.Props.Covers
import Verif.Model.PartialContext

set_option linter.unusedSectionVars false

open Spec

variable {α β : Type} [DecidableEq α] [DecidableEq β]

namespace EDB

open Ctx BExp

/-! ### Specification -/

/-- Two lists of implications have the same consequences. -/
def SameTheory (L L' : List (Imp β)) : Prop :=
  ∀ P C, Entails (specImps L) P C ↔ Entails (specImps L') P C

/-- Two databases that differ in the accepted implications only, which have the same consequences. -/
structure Alike (s t : EDB α β) : Prop where
  ctx : s.ctx = t.ctx
  opens : s.openImps = t.openImps
  theory : SameTheory s.bg t.bg
  nil : s.bg = [] ↔ t.bg = []

/-- Calls other than `unconfirm_implication`. -/
def Op.Keeps : Op α β → Prop
  | .unconfirm _ => False
  | _ => True

/-! ### Proof -/

theorem sameTheory_closed {L L' : List (Imp β)} (h : SameTheory L L') (S : Finset β) :
    Closed (specImps L) S ↔ Closed (specImps L') S := by
  have key : ∀ {L L' : List (Imp β)}, (∀ P C, Entails (specImps L) P C → Entails (specImps L') P C) →
      Closed (specImps L') S → Closed (specImps L) S := by
    intro L L' h hS
    rw [closed_specImps]
    intro i hi hp
    refine h i.premise i.conclusion (fun T hT hpT => ?_) S hS hp
    exact (closed_specImps L T).1 hT i hi hpT
  exact ⟨key fun P C => (h P C).2, key fun P C => (h P C).1⟩

theorem sameTheory_of_closed {L L' : List (Imp β)} (h : ∀ S, Closed (specImps L) S ↔ Closed (specImps L') S) :
    SameTheory L L' := fun P C => forall_congr' fun S => by rw [h]

theorem sameTheory_append {L L' : List (Imp β)} (h : SameTheory L L') (i : Imp β) : SameTheory (L ++ [i]) (L' ++ [i]) := by
  refine sameTheory_of_closed fun S => ?_
  have := sameTheory_closed h S
  rw [closed_specImps, closed_specImps] at this ⊢
  simp only [List.mem_append, or_imp, forall_and, this]

theorem isPseudo_congr {M : Finset β} {L L' : List (Imp β)} (h : SameTheory L L') (cl : Finset β → Finset β) (P : Finset β) :
    IsPseudo M (specImps L) cl P ↔ IsPseudo M (specImps L') cl P := by
  induction P using Finset.strongInduction with
  | H P ih =>
    rw [IsPseudo, IsPseudo, sameTheory_closed h P]
    constructor
    · rintro ⟨h1, h2, h3, h4⟩
      exact ⟨h1, h2, h3, fun Q hQ hp => h4 Q hQ ((ih Q hQ).2 hp)⟩
    · rintro ⟨h1, h2, h3, h4⟩
      exact ⟨h1, h2, h3, fun Q hQ hp => h4 Q hQ ((ih Q hQ).1 hp)⟩

/-- Lists with the same consequences give the same relative basis. -/
theorem relBasis_same {E : Env α β} (hE : E.cond = fun _ => true) {c : Ctx α β} (h : c.WFw) {L L' : List (Imp β)}
    (hL : ∀ i ∈ L, i.conclusion ⊆ c.M) (hL' : ∀ i ∈ L', i.conclusion ⊆ c.M)
    (hd : L.Pairwise fun i j => i.pyEq j = false) (hd' : L'.Pairwise fun i j => i.pyEq j = false)
    (hs : SameTheory L L') {r r' : List (Imp β)} (hr : relBasis E c L = .ok r) (hr' : relBasis E c L' = .ok r') : r = r' := by
  unfold relBasis Ctx.computeDgBasis at hr hr'
  rw [hE] at hr hr'
  obtain ⟨h1, h2⟩ := dg_main h (.inr ⟨_, _, rfl, hd⟩) hL hr
  obtain ⟨h1', h2'⟩ := dg_main h (.inr ⟨_, _, rfl, hd'⟩) hL' hr'
  have nd : ∀ {l : List (Imp β)}, (l.Pairwise fun x y => LecticLt c.attributes x.premise y.premise) → l.Nodup := by
    intro l hl
    refine hl.imp ?_
    rintro x y hxy rfl
    rw [lecticLt_iff] at hxy
    exact lt_irrefl _ hxy
  refine List.Perm.eq_of_pairwise (fun x y _ _ k1 k2 => ?_) h2 h2'
    ((List.perm_ext_iff_of_nodup (nd h2) (nd h2')).2 fun x => by rw [h1, h1', isPseudo_congr hs])
  rw [lecticLt_iff] at k1 k2
  omega

theorem checkIntent_same {s t : EDB α β} (h : SameTheory s.bg t.bg) (B : Finset β) : s.checkIntent B = t.checkIntent B := by
  rw [Bool.eq_iff_iff, checkIntent_iff, checkIntent_iff, ← closed_specImps, ← closed_specImps]
  exact sameTheory_closed h B

/-- What is kept for two databases side by side. -/
structure Pair (E : Env α β) (s t : EDB α β) : Prop where
  alike : Alike s t
  inv : Inv E s
  inv' : Inv E t
  dist : Distinct s
  dist' : Distinct t

theorem modifier_ctx {E : Env α β} (r : EDB α β × Option PyErr) : (EDB.modifier E r).1.ctx = r.1.ctx := by
  rcases r with ⟨s, _ | e⟩
  · unfold EDB.modifier
    dsimp only
    split <;> rfl
  · rfl

theorem modifier_err {E : Env α β} (r : EDB α β × Option PyErr) (h : Inv E (EDB.modifier E r).1) :
    (EDB.modifier E r).2 = r.2 := by
  have hb := h.basis
  rw [modifier_ctx, modifier_bg] at hb
  rcases r with ⟨s, _ | e⟩
  · unfold EDB.modifier
    dsimp only at hb ⊢
    rw [hb]
  · rfl

theorem valid_same {c : Ctx α β} {L L' : List (Imp β)} (hs : SameTheory L L') (ho : BExp.Over c.M L)
    (ho' : BExp.Over c.M L') (hv : Valid c.G c.Inc L) : Valid c.G c.Inc L' := by
  classical
  intro i hi g hg hp
  have hcl : Closed (specImps L) (c.M.filter fun m => c.Inc g m) := by
    rw [closed_specImps]
    intro j hj hjp m hm
    rw [Finset.mem_filter]
    refine ⟨(ho j hj).2 hm, hv j hj g hg (fun x hx => (Finset.mem_filter.1 (hjp hx)).2) m hm⟩
  rw [sameTheory_closed hs, closed_specImps] at hcl
  intro m hm
  exact (Finset.mem_filter.1 (hcl i hi (fun x hx => Finset.mem_filter.2 ⟨(ho' i hi).1 hx, hp x hx⟩) hm)).2

theorem minimizeObjLoop_over {M : Finset β} {base : List ℕ} {todo : List ℕ} {h h' : Cover.ImpHeap β} {cover res : List ℕ}
    (ht : ∀ a ∈ todo, a ∈ base) (hcov : ∀ a ∈ cover, a ∈ base) (ho : ∀ a ∈ base, (h a).premise ⊆ M ∧ (h a).conclusion ⊆ M)
    (hr : Cover.minimizeObjLoop todo h cover = .ok (h', res)) :
    (∀ a ∈ base, (h' a).premise ⊆ M ∧ (h' a).conclusion ⊆ M) ∧ ∀ a ∈ res, a ∈ base := by
  induction todo generalizing h cover with
  | nil =>
    injection hr with hr
    injection hr with h1 h2
    subst h1 h2
    exact ⟨ho, hcov⟩
  | cons a todo ih =>
    unfold Cover.minimizeObjLoop Cover.removeObj at hr
    split_ifs at hr
    · rw [py_ok_bind] at hr
      dsimp only at hr
      have hsub : ∀ x ∈ cover.eraseP fun x => (h x).pyEq (h a), x ∈ base := fun x hx => hcov x (List.mem_of_mem_eraseP hx)
      have ha : a ∈ base := ht a (by simp)
      refine ih (fun x hx => ht x (by simp [hx])) ?_ ?_ hr
      · intro x hx
        split_ifs at hx
        · exact hsub x hx
        · rw [List.mem_append, List.mem_singleton] at hx
          rcases hx with hx | rfl
          · exact hsub x hx
          · exact ha
      · intro x hx
        by_cases hxa : x = a
        · subst hxa
          rw [Function.update_self]
          refine ⟨simpleClosure_into _ _ _ (ho x hx).1 fun i hi => ?_, (ho x hx).2⟩
          obtain ⟨y, hy, rfl⟩ := List.mem_map.1 hi
          exact (ho y (hsub y hy)).2
        · rw [Function.update_of_ne hxa]
          exact ho x hx
    · cases hr

theorem minimizeLoop_over {M : Finset β} {todo cover res : List (Imp β)} (ht : BExp.Over M todo) (hcov : BExp.Over M cover)
    (hr : Cover.minimizeLoop todo cover = .ok res) : BExp.Over M res := by
  induction todo generalizing cover with
  | nil => injection hr with hr; exact hr ▸ hcov
  | cons i todo ih =>
    unfold Cover.minimizeLoop at hr
    cases hx : Cover.remove i cover with
    | error e => rw [hx] at hr; cases hr
    | ok cover' =>
      rw [hx, py_ok_bind] at hr
      have hsub : BExp.Over M cover' := by
        unfold Cover.remove at hx
        split_ifs at hx
        injection hx with hx
        subst hx
        exact fun x hx => hcov x (List.mem_of_mem_eraseP hx)
      refine ih (fun x hx => ht x (by simp [hx])) ?_ hr
      split_ifs
      · exact hsub
      · intro x hx
        rw [List.mem_append, List.mem_singleton] at hx
        rcases hx with hx | rfl
        · exact hsub x hx
        · exact ⟨simpleClosure_into _ _ _ (ht i (by simp)).1 fun j hj => (hsub j hj).2, (ht i (by simp)).2⟩

theorem irredundant_distinct {L : List (Imp β)}
    (h : ∀ l1 d l2, L = l1 ++ d :: l2 → ¬ Entails (specImps (l1 ++ l2)) d.premise d.conclusion) :
    L.Pairwise fun i j => i.pyEq j = false := by
  rw [List.pairwise_iff_getElem]
  intro i j hi hj hij
  by_contra hne
  rw [Bool.not_eq_false] at hne
  refine h (L.take j) L[j] (L.drop (j + 1)) ?_ fun S hS hp => ?_
  · rw [List.getElem_cons_drop, List.take_append_drop]
  · have hmem : L[i] ∈ L.take j ++ L.drop (j + 1) :=
      List.mem_append_left _ (List.mem_take_iff_getElem.2 ⟨i, by omega, rfl⟩)
    have hcl := (closed_specImps _ _).1 hS _ hmem
    simp only [Imp.pyEq, Bool.and_eq_true, beq_iff_eq] at hne
    have h1 := hcl (hne.1 ▸ hp)
    have h2 : L[j].reduced ⊆ S := hne.2 ▸ (Finset.sdiff_subset.trans h1)
    intro x hx
    by_cases hxp : x ∈ L[j].premise
    · exact hp hxp
    · exact h2 (Finset.mem_sdiff.2 ⟨hx, hxp⟩)

theorem simpleClosure_same {L L' : List (Imp β)} (h : SameTheory L L') (S : Finset β) :
    simpleClosure S L = simpleClosure S L' := by
  have a := simpleClosure_isLeast S L
  have b := simpleClosure_isLeast S L'
  exact Finset.Subset.antisymm (a.2.2 _ b.1 ((sameTheory_closed h _).2 b.2.1)) (b.2.2 _ a.1 ((sameTheory_closed h _).1 a.2.1))

theorem sameTheory_prepend {L L' : List (Imp β)} (h : SameTheory L L') (B : List (Imp β)) :
    SameTheory (B ++ L) (B ++ L') := by
  refine sameTheory_of_closed fun S => ?_
  have := sameTheory_closed h S
  rw [closed_specImps, closed_specImps] at this ⊢
  simp only [List.mem_append, or_imp, forall_and, this]

theorem dgNext_same {L L' : List (Imp β)} (h : SameTheory L L') (atts : List β) (j : ℕ) (a : Finset β) :
    dgNext simpleClosure atts L j a = dgNext simpleClosure atts L' j a := by
  induction j generalizing a with
  | zero => rfl
  | succ j ih => unfold dgNext; simp only [ih, simpleClosure_same h]

theorem dgLoop_same {L L' : List (Imp β)} (h : SameTheory L L') (atts : List β) (aclose : Finset β → Py (Finset β))
    (cond : Finset β → Bool) (fuel : ℕ) (B : List (Imp β)) (a : Finset β) (i : ℕ) :
    dgLoop atts aclose simpleClosure L cond fuel B a i = dgLoop atts aclose simpleClosure L' cond fuel B a i := by
  induction fuel generalizing B a i with
  | zero => rfl
  | succ n ih => unfold dgLoop; simp only [ih, dgNext_same (sameTheory_prepend h _)]

theorem dgBasis_same {L L' : List (Imp β)} (h : SameTheory L L') (atts : List β) (aclose : Finset β → Py (Finset β))
    (cond : Finset β → Bool) : dgBasis atts aclose simpleClosure L cond = dgBasis atts aclose simpleClosure L' cond := by
  unfold dgBasis dgBasisFuel
  rw [dgLoop_same h, simpleClosure_same h]

variable [PyName α] [PyName β]

/-- A call other than `confirm_implication` and `unconfirm_implication` does the same to the contexts and raises the same
exception before the open implications are computed. -/
theorem exec_pre {E : Env α β} {s t : EDB α β} (hc : s.ctx = t.ctx) (hs : SameTheory s.bg t.bg)
    (hn : s.bg = [] ↔ t.bg = []) {op : Op α β} (hk : op.Keeps) (hcf : ∀ i, op ≠ .confirm i) :
    ∃ c' e, s.exec E op = EDB.modifier E ({ s with ctx := c' }, e) ∧
      t.exec E op = EDB.modifier E ({ t with ctx := c' }, e) := by
  cases op with
  | confirm i => exact absurd rfl (hcf i)
  | unconfirm i => exact hk.elim
  | addExample n B =>
    simp only [exec, addExample, checkIntent_same hs, hc, setCtx]
    split_ifs
    · exact ⟨t.ctx, _, by rw [← hc], rfl⟩
    · exact ⟨t.ctx, _, by rw [← hc], rfl⟩
    · exact ⟨_, _, rfl, rfl⟩
  | deleteExample n => exact ⟨t.ctx, some .attributeError, by rw [← hc]; rfl, rfl⟩
  | deleteAttribute n => exact ⟨t.ctx, some .attributeError, by rw [← hc]; rfl, rfl⟩
  | touch => exact ⟨t.ctx, none, by rw [← hc]; rfl, rfl⟩
  | addAttribute n A =>
    simp only [exec, addAttribute, hc, setCtx]
    split_ifs
    · exact ⟨t.ctx, _, by rw [← hc], rfl⟩
    · exact ⟨_, _, rfl, rfl⟩
  | editExample n o B =>
    simp only [exec, editExample, checkIntent_same hs, hc, setCtx, editRename]
    cases t.ctx.objectIntent o with
    | error e => exact ⟨t.ctx, _, by rw [← hc], rfl⟩
    | ok S =>
      dsimp only
      split_ifs
      · exact ⟨t.ctx, _, by rw [← hc], rfl⟩
      · rcases t.ctx.setObjectIntent (E.ordI.enum B) o with ⟨c', _ | e⟩
        · dsimp only
          split_ifs
          · exact ⟨_, _, rfl, rfl⟩
          · exact ⟨_, _, rfl, rfl⟩
        · exact ⟨_, _, rfl, rfl⟩
      · rcases t.ctx.setObjectIntent (E.ordI.enum B) o with ⟨c', _ | e⟩
        · exact ⟨_, _, rfl, rfl⟩
        · exact ⟨_, _, rfl, rfl⟩
      · exact ⟨t.ctx, _, by rw [← hc], rfl⟩
      · exact ⟨_, _, rfl, rfl⟩
      · exact ⟨t.ctx, _, by rw [← hc], rfl⟩
  | editAttribute n o A =>
    simp only [exec, editAttribute, hc, setCtx, ne_eq, hn]
    cases t.ctx.objects.mapM t.ctx.objectIntent with
    | error e => exact ⟨t.ctx, _, by rw [← hc], rfl⟩
    | ok S =>
      dsimp only
      split_ifs
      · exact ⟨t.ctx, _, by rw [← hc], rfl⟩
      · exact ⟨t.ctx, _, by rw [← hc], rfl⟩
      · rcases t.ctx.setAttributeExtent (E.ordE.enum A) o with ⟨c', _ | e⟩
        · exact ⟨_, _, rfl, rfl⟩
        · exact ⟨_, _, rfl, rfl⟩

theorem Pair.step {E : Env α β} (hE : E.cond = fun _ => true) {s t : EDB α β} (h : Pair E s t) {op : Op α β}
    (hop : op.Ok s) (hk : op.Keeps) :
    Pair E (s.exec E op).1 (t.exec E op).1 ∧ (s.exec E op).2 = (t.exec E op).2 := by
  obtain ⟨⟨ha1, ha2, ha3, ha4⟩, hi, hi', hd, hd'⟩ := h
  have hop' : op.Ok t := by
    cases op <;> simp only [Op.Ok] at hop ⊢ <;> first | (rw [← ha2]; exact hop) | (rw [← ha1]; exact hop)
  have hI := (exec_step hi hop).inv
  have hI' := (exec_step hi' hop').inv
  have hD := distinct_step hE hi hd hop
  have hD' := distinct_step hE hi' hd' hop'
  have key : (s.exec E op).1.ctx = (t.exec E op).1.ctx ∧ SameTheory (s.exec E op).1.bg (t.exec E op).1.bg ∧
      ((s.exec E op).1.bg = [] ↔ (t.exec E op).1.bg = []) ∧ (s.exec E op).2 = (t.exec E op).2 := by
    by_cases hcf : ∃ i, op = .confirm i
    · obtain ⟨i, rfl⟩ := hcf
      have e1 : s.exec E (.confirm i) = EDB.modifier E ({ s with bg := s.bg ++ [i] }, none) := rfl
      have e2 : t.exec E (.confirm i) = EDB.modifier E ({ t with bg := t.bg ++ [i] }, none) := rfl
      rw [e1] at hI ⊢
      rw [e2] at hI' ⊢
      rw [modifier_err _ hI, modifier_err _ hI', modifier_ctx, modifier_ctx, modifier_bg, modifier_bg]
      exact ⟨ha1, sameTheory_append ha3 i, by simp, rfl⟩
    · obtain ⟨c', e, e1, e2⟩ := exec_pre (E := E) ha1 ha3 ha4 hk (fun i hi => hcf ⟨i, hi⟩)
      rw [e1] at hI ⊢
      rw [e2] at hI' ⊢
      rw [modifier_err _ hI, modifier_err _ hI', modifier_ctx, modifier_ctx, modifier_bg, modifier_bg]
      exact ⟨rfl, ha3, ha4, rfl⟩
  obtain ⟨k1, k2, k3, k4⟩ := key
  refine ⟨⟨⟨k1, ?_, k2, k3⟩, hI, hI', hD, hD'⟩, k4⟩
  have hb' := hI'.basis
  have hov' := hI'.over
  rw [← k1] at hb' hov'
  exact relBasis_same hE hI.wf (fun i hi => (hI.over i hi).2) (fun i hi => (hov' i hi).2) hD hD' k2 hI.basis hb'

theorem Pair.run {E : Env α β} (hE : E.cond = fun _ => true) {ops : List (Op α β)} {s t : EDB α β} (h : Pair E s t)
    (hf : OkRun E s ops) (hk : ∀ op ∈ ops, op.Keeps) : Pair E (run E s ops) (run E t ops) := by
  induction ops generalizing s t with
  | nil => exact h
  | cons op ops ih => exact ih (h.step hE hf.1 (hk op (by simp))).1 hf.2 fun o ho => hk o (by simp [ho])

end EDB

open EDB Ctx

section simple

variable {α β : Type} [DecidableEq α] [DecidableEq β]

/-- `compute_dg_basis_simple` and the relative basis of a partial context depend on the background implications only through
what follows from them, and so does `complete`; for every condition and also if they raise. -/
theorem C164_simple {bg bg' : List (Imp β)} (hs : SameTheory bg bg') (ordA : SetOrder β) (ordO : SetOrder α)
    (cond : Finset β → Bool) :
    (∀ c : Ctx α β, c.computeDgBasisSimple ordA ordO bg cond = c.computeDgBasisSimple ordA ordO bg' cond) ∧
      ∀ p : PCtx α β, p.dgBasis ordA ordO bg cond = p.dgBasis ordA ordO bg' cond :=
  ⟨fun c => dgBasis_same hs c.attributes _ cond, fun p => dgBasis_same hs p.attributes _ cond⟩

/-- `complete` of a partial context depends on the implications only through what follows from them. -/
theorem C164_complete [PyName α] [PyName β] {bg bg' : List (Imp β)} (hs : SameTheory bg bg') (ord : SetOrder β)
    (p : PCtx α β) : p.complete ord bg = p.complete ord bg' := by
  have h1 : ∀ (p : PCtx α β) o, p.completeOne ord bg o = p.completeOne ord bg' o := by
    intro p o
    unfold PCtx.completeOne
    simp only [simpleClosure_same hs]
  have h2 : ∀ (os : List α) (p : PCtx α β), p.completeLoop ord bg os = p.completeLoop ord bg' os := by
    intro os
    induction os with
    | nil => exact fun p => rfl
    | cons o os ih => intro p; unfold PCtx.completeLoop; simp only [h1, ih]
  exact h2 _ p

/-- But a partial example that is accepted with one list of implications can be refused with another one that has the same
consequences: `{a} → {b}`, `{b} → {c}` and `{a} → {b, c}`, `{b} → {c}` for an example that has `a` and may have `a`, `b`. -/
theorem C164_partial_example_violated : ∃ (bg bg' : List (Imp (Fin 3))) (E : PDB.Env (Fin 2) (Fin 3)) (s s' : PDB (Fin 2) (Fin 3)),
    SameTheory bg bg' ∧ (∃ p, PDB.make E p bg = .ok s ∧ PDB.make E p bg' = .ok s') ∧
      s.cxtImplications = s'.cxtImplications ∧
      (s.addExample E 1 ({0}, {0, 1})).2 = none ∧ (s'.addExample E 1 ({0}, {0, 1})).2 = some .illegalContextModification := by
  let p : PCtx (Fin 2) (Fin 3) := ⟨[0], [0, 1, 2], ⟨[0], [0, 1, 2], ⟨some 3, [[true, true, true]]⟩⟩,
    ⟨[0], [0, 1, 2], ⟨some 3, [[true, true, true]]⟩⟩⟩
  refine ⟨[⟨{0}, {1}⟩, ⟨{1}, {2}⟩], [⟨{0}, {1, 2}⟩, ⟨{1}, {2}⟩],
    ⟨fun _ => true, SetOrder.fin 3, SetOrder.fin 2, SetOrder.fin 3⟩,
    ⟨p, [⟨{0}, {1}⟩, ⟨{1}, {2}⟩], [⟨∅, {0, 1, 2}⟩]⟩, ⟨p, [⟨{0}, {1, 2}⟩, ⟨{1}, {2}⟩], [⟨∅, {0, 1, 2}⟩]⟩, ?_,
    ⟨p, ?_, ?_⟩, rfl, ?_, ?_⟩
  · refine sameTheory_of_closed fun S => ?_
    simp only [closed_specImps, List.forall_mem_cons, Finset.singleton_subset_iff, Finset.insert_subset_iff]
    tauto
  · decide +kernel
  · decide +kernel
  · decide +kernel
  · decide +kernel

end simple

variable [PyName α] [PyName β]

/-- Two explorations that start with lists of accepted implications which have the same consequences stay the same, call by
call, except for the list of accepted implications; `unconfirm_implication` is left out. Both lists have no two members that
are equal, and are empty together. -/
theorem C164_alike {E : EDB.Env α β} (hE : E.cond = fun _ => true) {c : Ctx α β} (h : c.WFw) (hne : c.objects ≠ [])
    {bg bg' : List (Imp β)} (ho : ∀ i ∈ bg, i.premise ⊆ c.M ∧ i.conclusion ⊆ c.M)
    (ho' : ∀ i ∈ bg', i.premise ⊆ c.M ∧ i.conclusion ⊆ c.M)
    (hv : ∀ i ∈ bg, HoldsIn c.G c.Inc i.premise i.conclusion)
    (hd : bg.Pairwise fun i j => i.pyEq j = false) (hd' : bg'.Pairwise fun i j => i.pyEq j = false)
    (hs : SameTheory bg bg') (hn : bg = [] ↔ bg' = []) {s₀ : EDB α β} (hi : init E c bg = .ok s₀) :
    ∃ t₀, init E c bg' = .ok t₀ ∧ ∀ ops, OkRun E s₀ ops → (∀ op ∈ ops, op.Keeps) →
      Alike (run E s₀ ops) (run E t₀ ops) ∧
      ∀ op : Op α β, op.Ok (run E s₀ ops) → op.Keeps →
        ((run E s₀ ops).exec E op).2 = ((run E t₀ ops).exec E op).2 := by
  obtain ⟨s, h1, h2, h3, h4⟩ := init_ok (E := E) h hne ho hv
  rw [h1] at hi; cases hi
  obtain ⟨t, g1, g2, g3, g4⟩ := init_ok (E := E) h hne ho' (valid_same hs ho ho' hv)
  refine ⟨t, g1, ?_⟩
  have hp : Pair E s₀ t := by
    refine ⟨⟨by rw [h2, g2], ?_, by rw [h3, g3]; exact hs, by rw [h3, g3]; exact hn⟩, h4, g4, ?_, ?_⟩
    · have b1 := h4.basis
      have b2 := g4.basis
      rw [h2, h3] at b1
      rw [g2, g3] at b2
      exact relBasis_same hE h (fun i hi => (ho i hi).2) (fun i hi => (ho' i hi).2) hd hd' hs b1 b2
    · unfold Distinct; rw [h3]; exact hd
    · unfold Distinct; rw [g3]; exact hd'
  intro ops hf hk
  have := hp.run hE hf hk
  exact ⟨this.alike, fun op hop hkk => (this.step hE hop hkk).2⟩

/-- An exploration started again with the accepted implications after `minimize` is the same. -/
theorem C164_minimized {E : EDB.Env α β} (hE : E.cond = fun _ => true) {c : Ctx α β} (h : c.WFw) (hne : c.objects ≠ [])
    {bg : List (Imp β)} (ho : ∀ i ∈ bg, i.premise ⊆ c.M ∧ i.conclusion ⊆ c.M)
    (hv : ∀ i ∈ bg, HoldsIn c.G c.Inc i.premise i.conclusion)
    (hd : bg.Pairwise fun i j => i.pyEq j = false) (hn : bg = [] ∨ ∃ i ∈ bg, ¬ i.conclusion ⊆ i.premise)
    {s₀ : EDB α β} (hi : init E c bg = .ok s₀) :
    ∃ bg' t₀, Cover.minimize bg = .ok bg' ∧ init E c bg' = .ok t₀ ∧ ∀ ops, OkRun E s₀ ops → (∀ op ∈ ops, op.Keeps) →
      Alike (run E s₀ ops) (run E t₀ ops) ∧
      ∀ op : Op α β, op.Ok (run E s₀ ops) → op.Keeps →
        ((run E s₀ ops).exec E op).2 = ((run E t₀ ops).exec E op).2 := by
  obtain ⟨bg', m1, m2, m3, m4⟩ := C54_minimize bg
  have ho' : BExp.Over c.M bg' := minimizeLoop_over ho ho m1
  have hn' : bg = [] ↔ bg' = [] := by
    constructor
    · rintro rfl
      exact List.eq_nil_of_length_eq_zero (by simpa using m4)
    · rintro rfl
      rcases hn with hn | ⟨i, hi, hni⟩
      · exact hn
      · exact absurd ((closed_specImps _ _).1 ((m2 i.premise).1 ((closed_specImps _ _).2 (by simp))) i hi subset_rfl) hni
  obtain ⟨t, t1, t2⟩ := C164_alike hE h hne ho ho' hv hd (irredundant_distinct m3)
    (sameTheory_of_closed fun S => (m2 S).symm) hn' hi
  exact ⟨bg', t, m1, t1, t2⟩

/-- `minimize(db.base)` in the middle of an exploration changes the accepted implications of the database, because the copy
holds the same objects, but not what follows from them. If no two of them have become equal then everything goes on as
without it. -/
theorem C164_minimize_base {E : EDB.Env α β} (hE : E.cond = fun _ => true) {c : Ctx α β} (h : c.WFw) (hne : c.objects ≠ [])
    {bg : List (Imp β)} (ho : ∀ i ∈ bg, i.premise ⊆ c.M ∧ i.conclusion ⊆ c.M)
    (hv : ∀ i ∈ bg, HoldsIn c.G c.Inc i.premise i.conclusion)
    (hd : bg.Pairwise fun i j => i.pyEq j = false) {s₀ : EDB α β} (hi : init E c bg = .ok s₀)
    {ops : List (Op α β)} (hf : OkRun E s₀ ops) {hp : Cover.ImpHeap β} {base : List ℕ} (hn : base.Nodup)
    (s : EDB α β) (hs : s = run E s₀ ops) (hb : s.bg = base.map hp) :
    ∃ hp' t, minimizeBase hp base s.ctx s.openImps = .ok (hp', t) ∧ t.bg = base.map hp' ∧ SameTheory s.bg t.bg ∧
      (t.bg.Pairwise (fun i j => i.pyEq j = false) → ∀ ops', OkRun E s ops' → (∀ op ∈ ops', op.Keeps) →
        Alike (run E s ops') (run E t ops') ∧
        ∀ op : Op α β, op.Ok (run E s ops') → op.Keeps →
          ((run E s ops').exec E op).2 = ((run E t ops').exec E op).2) := by
  obtain ⟨s', h1, -, h3, h4⟩ := init_ok (E := E) h hne ho hv
  rw [h1] at hi; cases hi
  have hI := run_inv h4 hf
  have hD := run_distinct hE h4 (by unfold Distinct; rw [h3]; exact hd) hf
  rw [← hs] at hI hD
  obtain ⟨hp', res, m1, -⟩ := Cover.C147_values hp base hn
  have hst : SameTheory s.bg (base.map hp') := by
    rw [hb]
    exact sameTheory_of_closed fun S => (Cover.C147_other_list hn m1 base (fun a ha => ha) S).symm
  have ho' : BExp.Over s.ctx.M (base.map hp') := by
    have := (minimizeObjLoop_over (M := s.ctx.M) (base := base) (fun a ha => ha) (fun a ha => ha)
      (fun a ha => hI.over (hp a) (by rw [hb]; exact List.mem_map_of_mem ha)) m1).1
    intro i hi
    obtain ⟨a, ha, rfl⟩ := List.mem_map.1 hi
    exact this a ha
  refine ⟨hp', ofObjs hp' base s.ctx s.openImps, ?_, rfl, hst, fun hdist ops' hf' hk => ?_⟩
  · unfold minimizeBase
    rw [m1]
    rfl
  · have hG : Good (⟨s.ctx, base.map hp', []⟩ : EDB α β) := ⟨hI.wf, hI.one, ho', valid_same hst hI.over ho' hI.valid⟩
    obtain ⟨u, -, u2, u3, u4⟩ := hG.modifier (E := E)
    have hb2 := u4.basis
    rw [u2, u3] at hb2
    have he := relBasis_same hE hI.wf (fun i hi => (hI.over i hi).2) (fun i hi => (ho' i hi).2) hD hdist hst hI.basis hb2
    have hP : Pair E s (ofObjs hp' base s.ctx s.openImps) :=
      ⟨⟨rfl, rfl, hst, by rw [hb]; simp [ofObjs]⟩, hI, ⟨⟨hI.wf, hI.one, ho', hG.valid⟩, he ▸ hb2⟩, hD, hdist⟩
    have := hP.run hE hf' hk
    exact ⟨this.alike, fun op hop hkk => (this.step hE hop hkk).2⟩

namespace EDB

/-! ### witnesses -/

/-- Intents `{b, c, d}`, `{c}`, `{d}`, `∅`. -/
def ctx164 : Ctx (Fin 5) (Fin 4) := ⟨[0, 1, 2, 3], [0, 1, 2, 3], ⟨some 4,
  [[false, true, true, true], [false, false, true, false], [false, false, false, true], [false, false, false, false]]⟩⟩

theorem ctx164_wf : ctx164.WFw := by constructor <;> decide +kernel

def env164 : Env (Fin 5) (Fin 4) :=
  ⟨fun _ => true, SetOrder.fin 4, SetOrder.fin 5, SetOrder.fin 4, fun _ => SetOrder.fin 4, SetOrder.fin 4, SetOrder.fin 5⟩

/-- `a → b`, `b → c`, `ad → c`, `ad → b`. -/
def heap164 : Cover.ImpHeap (Fin 4)
  | 0 => ⟨{0}, {1}⟩
  | 1 => ⟨{1}, {2}⟩
  | 2 => ⟨{0, 3}, {2}⟩
  | _ => ⟨{0, 3}, {1}⟩

def open164 : EDB (Fin 5) (Fin 4) :=
  ⟨ctx164, [0, 1, 2, 3].map heap164, [⟨{3, 2}, {1, 2, 3}⟩, ⟨{1, 2}, {1, 2, 3}⟩]⟩

theorem open164_init : init env164 ctx164 ([0, 1, 2, 3].map heap164) = .ok open164 := by decide +kernel

/-- After `minimize(db.base)`: the last two implications are equal. -/
def after164 : EDB (Fin 5) (Fin 4) :=
  ⟨ctx164, [⟨{0}, {1}⟩, ⟨{1}, {2}⟩, ⟨{0, 3, 1, 2}, {2}⟩, ⟨{0, 3, 1, 2}, {1}⟩], [⟨{3, 2}, {1, 2, 3}⟩, ⟨{1, 2}, {1, 2, 3}⟩]⟩

theorem after164_min : ∃ hp', minimizeBase heap164 [0, 1, 2, 3] open164.ctx open164.openImps = .ok (hp', after164) := by
  have h : (minimizeBase heap164 [0, 1, 2, 3] open164.ctx open164.openImps).map Prod.snd = .ok after164 := by decide +kernel
  cases hm : minimizeBase heap164 [0, 1, 2, 3] open164.ctx open164.openImps with
  | error e => rw [hm] at h; cases h
  | ok r =>
    rw [hm] at h
    injection h with h
    exact ⟨r.1, by rw [← h]⟩

def lost164 : EDB (Fin 5) (Fin 4) := { after164 with openImps := [⟨{1, 2}, {1, 2, 3}⟩] }

/-- `a → c`, `a → b`, `b → c`. -/
def three164 : List (Imp (Fin 3)) := [⟨{0}, {2}⟩, ⟨{0}, {1}⟩, ⟨{1}, {2}⟩]

def ctx164' : Ctx (Fin 3) (Fin 3) := ⟨[0, 1, 2], [0, 1, 2], ⟨some 3, [[true, true, true], [false, false, true], [false, false, false]]⟩⟩

theorem ctx164'_wf : ctx164'.WFw := by constructor <;> decide +kernel

def env164' : Env (Fin 3) (Fin 3) :=
  ⟨fun _ => true, SetOrder.fin 3, SetOrder.fin 3, SetOrder.fin 3, fun _ => SetOrder.fin 3, SetOrder.fin 3, SetOrder.fin 3⟩

end EDB

/-- It can make two accepted implications equal; `lin_closure` then counts them together, an implication that holds in the
context is no longer asked, and it does not follow from the accepted and the open implications. -/
theorem C164_minimize_base_violated :
    init env164 ctx164 ([0, 1, 2, 3].map heap164) = .ok open164 ∧ Distinct open164 ∧
      (∃ hp', minimizeBase heap164 [0, 1, 2, 3] open164.ctx open164.openImps = .ok (hp', after164)) ∧
      open164.exec env164 .touch = (open164, none) ∧ after164.exec env164 .touch = (lost164, none) ∧
      HoldsIn lost164.ctx.G lost164.ctx.Inc {2, 3} {1} ∧
      Entails (specImps (open164.bg ++ open164.openImps)) {2, 3} {1} ∧
      ¬ Entails (specImps (lost164.bg ++ lost164.openImps)) {2, 3} {1} := by
  refine ⟨open164_init, ?_, after164_min, by decide +kernel, by decide +kernel, ?_, fun S hS hp => ?_, fun hh => ?_⟩
  · unfold Distinct; decide +kernel
  · have e : lost164.ctx = ctx164 := rfl
    rw [e]
    simp only [HoldsIn, ← ctx164_wf.incB]
    decide +kernel
  · have := (closed_specImps _ _).1 hS ⟨{2, 3}, {1, 2, 3}⟩ (by decide +kernel) hp
    exact fun x hx => this (by rw [Finset.mem_singleton] at hx; subst hx; decide)
  · have := hh {2, 3} ((closed_specImps _ _).2 (by decide +kernel)) subset_rfl
    revert this
    decide

/-- `unconfirm_implication` is different after `minimize`: an implication that was removed cannot be taken back. -/
theorem C164_unconfirm_violated : ∃ (bg' : List (Imp (Fin 3))) (s t : EDB (Fin 3) (Fin 3)),
    Cover.minimize three164 = .ok bg' ∧ init env164' ctx164' three164 = .ok s ∧ init env164' ctx164' bg' = .ok t ∧
      s.openImps = t.openImps ∧
      (s.exec env164' (.unconfirm ⟨{0}, {2}⟩)).2 = none ∧
      (t.exec env164' (.unconfirm ⟨{0}, {2}⟩)).2 = some .valueError ∧
      (s.exec env164' (.unconfirm ⟨{0}, {1}⟩)).2 = none ∧ (t.exec env164' (.unconfirm ⟨{0}, {1}⟩)).2 = none ∧
      (s.exec env164' (.unconfirm ⟨{0}, {1}⟩)).1.openImps ≠ (t.exec env164' (.unconfirm ⟨{0}, {1}⟩)).1.openImps := by
  refine ⟨[⟨{0}, {1}⟩, ⟨{1}, {2}⟩], ⟨ctx164', three164, [⟨{1, 2}, {0, 1, 2}⟩]⟩,
    ⟨ctx164', [⟨{0}, {1}⟩, ⟨{1}, {2}⟩], [⟨{1, 2}, {0, 1, 2}⟩]⟩, ?_⟩
  decide +kernel

/-- `edit_attribute` raises TypeError as soon as there is an accepted implication, also a trivial one; this is why both lists
are to be empty together. -/
theorem C164_empty_violated : ∃ (bg' : List (Imp (Fin 3))) (s t : EDB (Fin 3) (Fin 3)),
    SameTheory [] bg' ∧ init env164' ctx164' [] = .ok s ∧ init env164' ctx164' bg' = .ok t ∧ s.openImps = t.openImps ∧
      (s.exec env164' (.editAttribute 0 0 {0, 1})).2 = none ∧
      (t.exec env164' (.editAttribute 0 0 {0, 1})).2 = some .typeError := by
  refine ⟨[⟨{0}, {0}⟩], ⟨ctx164', [], [⟨{1}, {0, 1, 2}⟩, ⟨{0}, {0, 1, 2}⟩]⟩,
    ⟨ctx164', [⟨{0}, {0}⟩], [⟨{1}, {0, 1, 2}⟩, ⟨{0}, {0, 1, 2}⟩]⟩, ?_, by decide +kernel⟩
  refine sameTheory_of_closed fun S => ?_
  simp [closed_specImps]

namespace EDB

/-! ### examples -/

def heap164' : Cover.ImpHeap (Fin 3)
  | 0 => ⟨{0}, {2}⟩
  | 1 => ⟨{0}, {1}⟩
  | _ => ⟨{1}, {2}⟩

def s164' : EDB (Fin 3) (Fin 3) := ⟨ctx164', three164, [⟨{1, 2}, {0, 1, 2}⟩]⟩

theorem s164'_init : init env164' ctx164' three164 = .ok s164' := by decide +kernel

/-- A call that raises, a counterexample is refused, a change of an example and an answer. -/
def ops164 : List (Op (Fin 3) (Fin 3)) :=
  [.deleteExample 0, .addExample 0 {1}, .editExample 2 2 {1, 2}, .touch]

theorem holds164' : ∀ i ∈ three164, HoldsIn ctx164'.G ctx164'.Inc i.premise i.conclusion := by
  simp only [HoldsIn, ← ctx164'_wf.incB]
  decide +kernel

end EDB

example : ∃ bg' t₀, Cover.minimize three164 = .ok bg' ∧ init env164' ctx164' bg' = .ok t₀ ∧
    Alike (run env164' s164' ops164) (run env164' t₀ ops164) ∧
    ((run env164' s164' ops164).exec env164' (.addExample 0 {0, 1})).2 =
      ((run env164' t₀ ops164).exec env164' (.addExample 0 {0, 1})).2 := by
  obtain ⟨bg', t, h1, h2, h3⟩ := C164_minimized (E := env164') rfl ctx164'_wf (by decide) (bg := three164) (by decide +kernel)
    holds164' (by decide +kernel) (.inr ⟨⟨{0}, {2}⟩, by decide +kernel, by decide +kernel⟩) s164'_init
  obtain ⟨h4, h5⟩ := h3 ops164 (by simp [ops164, OkRun, Op.Ok]) (by simp [ops164, Op.Keeps])
  exact ⟨bg', t, h1, h2, h4, h5 _ trivial trivial⟩


example : ∃ hp' t, minimizeBase heap164' [0, 1, 2] s164'.ctx s164'.openImps = .ok (hp', t) ∧
    hp' 0 = ⟨{0, 1, 2}, {2}⟩ ∧ Alike (run env164' s164' ops164) (run env164' t ops164) := by
  obtain ⟨hp', t, h1, h2, -, h3⟩ := C164_minimize_base (E := env164') rfl ctx164'_wf (by decide) (bg := three164)
    (by decide +kernel) holds164' (by decide +kernel) s164'_init (ops := []) trivial (hp := heap164') (base := [0, 1, 2])
    (by decide) s164' rfl (by decide +kernel)
  have e : (minimizeBase heap164' [0, 1, 2] s164'.ctx s164'.openImps).map (fun r => (r.1 0, r.2.bg)) =
      .ok (⟨{0, 1, 2}, {2}⟩, [⟨{0, 1, 2}, {2}⟩, ⟨{0}, {1}⟩, ⟨{1}, {2}⟩]) := by decide +kernel
  rw [h1] at e
  injection e with e
  obtain ⟨e1, e2⟩ := Prod.mk.inj e
  refine ⟨hp', t, h1, e1, (h3 ?_ ops164 (by simp [ops164, OkRun, Op.Ok]) (by simp [ops164, Op.Keeps])).1⟩
  have e3 : t.bg = [⟨{0, 1, 2}, {2}⟩, ⟨{0}, {1}⟩, ⟨{1}, {2}⟩] := e2
  rw [e3]
  decide +kernel

theorem EDB.same164 : SameTheory (β := Fin 3) [⟨{0}, {1}⟩, ⟨{1}, {2}⟩] [⟨{0}, {1, 2}⟩, ⟨{1}, {2}⟩, ⟨{0}, {2}⟩, ⟨{0}, {2}⟩] := by
  refine sameTheory_of_closed fun S => ?_
  simp only [closed_specImps, List.forall_mem_cons, Finset.singleton_subset_iff, Finset.insert_subset_iff]
  tauto

example : ctx164'.computeDgBasisSimple (SetOrder.fin 3) (SetOrder.fin 3) [⟨{0}, {1, 2}⟩, ⟨{1}, {2}⟩, ⟨{0}, {2}⟩, ⟨{0}, {2}⟩]
    (fun _ => true) = .ok [⟨{1, 2}, {0, 1, 2}⟩] := by
  rw [← (C164_simple same164 _ _ _).1]
  decide +kernel

/-- One object that has `a` and may have everything; `complete` adds `b` and `c`. -/
example : (PCtx.complete (SetOrder.fin 3) (⟨[0], [0, 1, 2], ⟨[0], [0, 1, 2], ⟨some 3, [[true, false, false]]⟩⟩,
      ⟨[0], [0, 1, 2], ⟨some 3, [[true, true, true]]⟩⟩⟩ : PCtx (Fin 1) (Fin 3))
      [⟨{0}, {1, 2}⟩, ⟨{1}, {2}⟩, ⟨{0}, {2}⟩, ⟨{0}, {2}⟩]).1.x.nd.rows = [[true, true, true]] := by
  rw [← C164_complete same164]
  decide +kernel

example : ∃ t₀, init env164' ctx164' [⟨{0}, {1, 2}⟩, ⟨{1}, {2}⟩] = .ok t₀ ∧
    Alike (run env164' s164' ops164) (run env164' t₀ ops164) := by
  obtain ⟨t, h1, h2⟩ := C164_alike (E := env164') rfl ctx164'_wf (by decide) (bg := three164) (by decide +kernel)
    (bg' := [⟨{0}, {1, 2}⟩, ⟨{1}, {2}⟩]) (by decide +kernel) holds164' (by decide +kernel) (by decide +kernel) (by
      refine sameTheory_of_closed fun S => ?_
      simp only [three164, closed_specImps, List.forall_mem_cons, Finset.singleton_subset_iff, Finset.insert_subset_iff]
      tauto) (by simp [three164]) s164'_init
  exact ⟨t, h1, (h2 ops164 (by simp [ops164, OkRun, Op.Ok]) (by simp [ops164, Op.Keeps])).1⟩
