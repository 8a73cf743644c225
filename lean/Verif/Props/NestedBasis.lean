/-
Basis computations whose condition uses the context: C166.
-/
import Verif.Model.NestedBasis
import Verif.Props.ContextState
import Verif.Lemmas.DGContext
import Verif.Lemmas.BasicExploration

set_option linter.unusedSectionVars false

open Spec

namespace Act

variable {α β : Type} [DecidableEq α] [DecidableEq β]

/-- The program calls no mutator. -/
def ReadOnly {R : Type} : Act α β R → Prop
  | .done _ => True
  | .look k => ∀ c, (k c).ReadOnly
  | .askO _ k => ∀ r, (k r).ReadOnly
  | .askA _ k => ∀ r, (k r).ReadOnly
  | .modify _ _ => False
  | .nested p k => p.ReadOnly ∧ ∀ r, (k r).ReadOnly

/-- The program calls no decorated method. -/
def Flat {R : Type} : Act α β R → Prop
  | .done _ => True
  | .look k => ∀ c, (k c).Flat
  | .askO _ k => ∀ r, (k r).Flat
  | .askA _ k => ∀ r, (k r).Flat
  | .modify _ k => ∀ r, (k r).Flat
  | .nested _ _ => False

theorem ReadOnly.bind {R S : Type} {p : Act α β R} (hp : p.ReadOnly) {f : R → Act α β S} (hf : ∀ x, (f x).ReadOnly) :
    (p.bind f).ReadOnly := by
  induction p with
  | done r => cases r with
    | ok x => exact hf x
    | error e => trivial
  | look k ih => exact fun c => ih c (hp c) hf
  | askO i k ih => exact fun c => ih c (hp c) hf
  | askA i k ih => exact fun c => ih c (hp c) hf
  | modify op k ih => exact hp.elim
  | nested p k _ ih => exact ⟨hp.1, fun c => ih c (hp.2 c) hf⟩

theorem Flat.bind {R S : Type} {p : Act α β R} (hp : p.Flat) {f : R → Act α β S} (hf : ∀ x, (f x).Flat) :
    (p.bind f).Flat := by
  induction p with
  | done r => cases r with
    | ok x => exact hf x
    | error e => trivial
  | look k ih => exact fun c => ih c (hp c) hf
  | askO i k ih => exact fun c => ih c (hp c) hf
  | askA i k ih => exact fun c => ih c (hp c) hf
  | modify op k ih => exact fun c => ih c (hp c) hf
  | nested p k _ ih => exact hp.elim

theorem readOnly_objectIntent (o : α) : (objectIntent o : Act α β _).ReadOnly := by
  intro c
  dsimp only
  cases lastIdx c.objects o with
  | ok i => exact fun _ => trivial
  | error e => trivial

theorem readOnly_attributeExtent (a : β) : (attributeExtent a : Act α β _).ReadOnly := by
  intro c
  dsimp only
  cases lastIdx c.attributes a with
  | ok i => exact fun _ => trivial
  | error e => trivial

theorem flat_objectIntent (o : α) : (objectIntent o : Act α β _).Flat := by
  intro c
  dsimp only
  cases lastIdx c.objects o with
  | ok i => exact fun _ => trivial
  | error e => trivial

theorem flat_attributeExtent (a : β) : (attributeExtent a : Act α β _).Flat := by
  intro c
  dsimp only
  cases lastIdx c.attributes a with
  | ok i => exact fun _ => trivial
  | error e => trivial

theorem readOnly_oprimeLoop (os : List α) (acc : Finset β) : (oprimeLoop os acc).ReadOnly := by
  induction os generalizing acc with
  | nil => trivial
  | cons o os ih => exact (readOnly_objectIntent o).bind fun s => ih _

theorem readOnly_aprimeLoop (as : List β) (acc : Finset α) : (aprimeLoop as acc).ReadOnly := by
  induction as generalizing acc with
  | nil => trivial
  | cons o os ih => exact (readOnly_attributeExtent o).bind fun s => ih _

theorem flat_oprimeLoop (os : List α) (acc : Finset β) : (oprimeLoop os acc).Flat := by
  induction os generalizing acc with
  | nil => trivial
  | cons o os ih => exact (flat_objectIntent o).bind fun s => ih _

theorem flat_aprimeLoop (as : List β) (acc : Finset α) : (aprimeLoop as acc).Flat := by
  induction as generalizing acc with
  | nil => trivial
  | cons o os ih => exact (flat_attributeExtent o).bind fun s => ih _

theorem readOnly_aclose (ordA : SetOrder β) (ordO : SetOrder α) (s : Finset β) : (aclose ordA ordO s).ReadOnly := by
  unfold aclose
  refine ReadOnly.bind ?_ fun objs => ?_
  · intro c; exact readOnly_aprimeLoop _ _
  · intro c; exact readOnly_oprimeLoop _ _

theorem flat_aclose (ordA : SetOrder β) (ordO : SetOrder α) (s : Finset β) : (aclose ordA ordO s).Flat := by
  unfold aclose
  refine Flat.bind ?_ fun objs => ?_
  · intro c; exact flat_aprimeLoop _ _
  · intro c; exact flat_oprimeLoop _ _

section
variable (ordA : SetOrder β) (ordO : SetOrder α) (close : Finset β → List (Imp β) → Finset β) (bg : List (Imp β))
  {cond : Finset β → Act α β Bool}

theorem readOnly_dgLoop (hc : ∀ a, (cond a).ReadOnly) (atts : List β) (fuel : ℕ) (basis : List (Imp β)) (a : Finset β)
    (i : ℕ) : (dgLoop atts ordA ordO close bg cond fuel basis a i).ReadOnly := by
  induction fuel generalizing basis a i with
  | zero => trivial
  | succ fuel ih =>
    unfold dgLoop
    split_ifs
    · refine (readOnly_aclose _ _ _).bind fun ac => ReadOnly.bind ?_ fun yes => ?_
      · split_ifs
        · exact hc a
        · trivial
      · dsimp only
        split_ifs
        all_goals first | exact ih _ _ _ | trivial
    · trivial

theorem flat_dgLoop (hc : ∀ a, (cond a).Flat) (atts : List β) (fuel : ℕ) (basis : List (Imp β)) (a : Finset β)
    (i : ℕ) : (dgLoop atts ordA ordO close bg cond fuel basis a i).Flat := by
  induction fuel generalizing basis a i with
  | zero => trivial
  | succ fuel ih =>
    unfold dgLoop
    split_ifs
    · refine (flat_aclose _ _ _).bind fun ac => Flat.bind ?_ fun yes => ?_
      · split_ifs
        · exact hc a
        · trivial
      · dsimp only
        split_ifs
        all_goals first | exact ih _ _ _ | trivial
    · trivial

end

variable [PyName α] [PyName β]

/-- What the program does if every question is answered from the table. -/
def plain {R : Type} : Act α β R → Ctx α β → Ctx α β × Py R
  | .done r, c => (c, r)
  | .look k, c => (k c).plain c
  | .askO i k, c => (k (c.intentByIndex i)).plain c
  | .askA j k, c => (k (c.extentByIndex j)).plain c
  | .modify op k, c => (k (c.exec op).2).plain (c.exec op).1
  | .nested p k, c => (k (p.plain c).2).plain (p.plain c).1

theorem plain_bind {R S : Type} (p : Act α β R) (f : R → Act α β S) (c : Ctx α β) :
    (p.bind f).plain c = match p.plain c with
      | (c', .ok x) => (f x).plain c'
      | (c', .error e) => (c', .error e) := by
  induction p generalizing c with
  | done r => cases r <;> rfl
  | look k ih => exact ih c f c
  | askO i k ih => exact ih _ f c
  | askA i k ih => exact ih _ f c
  | modify op k ih => exact ih _ f _
  | nested p k _ ih => exact ih _ f _

theorem plain_readOnly {R : Type} {p : Act α β R} (hp : p.ReadOnly) (c : Ctx α β) : (p.plain c).1 = c := by
  induction p generalizing c with
  | done r => rfl
  | look k ih => exact ih c (hp c) c
  | askO i k ih => exact ih _ (hp _) c
  | askA i k ih => exact ih _ (hp _) c
  | modify op k ih => exact hp.elim
  | nested p k ihp ih =>
    show ((k (p.plain c).2).plain (p.plain c).1).1 = c
    rw [ih _ (hp.2 _), ihp hp.1]

theorem plain_objectIntent (c : Ctx α β) (o : α) : (objectIntent o).plain c = (c, c.objectIntent o) := by
  simp only [objectIntent, Ctx.objectIntent, plain]
  cases lastIdx c.objects o with
  | ok i => rfl
  | error e => rfl

theorem plain_attributeExtent (c : Ctx α β) (a : β) : (attributeExtent a).plain c = (c, c.attributeExtent a) := by
  simp only [attributeExtent, Ctx.attributeExtent, plain]
  cases lastIdx c.attributes a with
  | ok i => rfl
  | error e => rfl

theorem plain_oprimeLoop (c : Ctx α β) (os : List α) (acc : Finset β) :
    (oprimeLoop os acc).plain c = (c, os.foldlM (fun acc o => do
      let s ← c.objectIntent o
      .ok (acc ∩ s)) acc) := by
  induction os generalizing acc with
  | nil => rfl
  | cons o os ih =>
    rw [oprimeLoop, plain_bind, plain_objectIntent, List.foldlM_cons]
    cases c.objectIntent o with
    | error e => rfl
    | ok s => exact ih _

theorem plain_aprimeLoop (c : Ctx α β) (as : List β) (acc : Finset α) :
    (aprimeLoop as acc).plain c = (c, as.foldlM (fun acc o => do
      let s ← c.attributeExtent o
      .ok (acc ∩ s)) acc) := by
  induction as generalizing acc with
  | nil => rfl
  | cons o os ih =>
    rw [aprimeLoop, plain_bind, plain_attributeExtent, List.foldlM_cons]
    cases c.attributeExtent o with
    | error e => rfl
    | ok s => exact ih _

theorem plain_aclose (c : Ctx α β) (ordA : SetOrder β) (ordO : SetOrder α) (s : Finset β) :
    (aclose ordA ordO s).plain c = (c, c.dgAclose ordA ordO s) := by
  rw [aclose, plain_bind]
  simp only [plain, plain_aprimeLoop]
  unfold Ctx.dgAclose Ctx.coAclosureSet Ctx.coAprime Ctx.coOprime
  cases List.foldlM (fun acc o => do
      let s ← c.attributeExtent o
      .ok (acc ∩ s)) c.objects.toFinset (ordA.enum s) with
  | error e => rfl
  | ok t => exact plain_oprimeLoop c _ _

theorem plain_dgLoop (c : Ctx α β) (ordA : SetOrder β) (ordO : SetOrder α)
    (close : Finset β → List (Imp β) → Finset β) (bg : List (Imp β)) {cond : Finset β → Act α β Bool}
    (hc : ∀ a, (cond a).ReadOnly) {f : Finset β → Bool} (hf : ∀ a, ((cond a).plain c).2 = .ok (f a)) (atts : List β)
    (fuel : ℕ) (basis : List (Imp β)) (a : Finset β) (i : ℕ) :
    (dgLoop atts ordA ordO close bg cond fuel basis a i).plain c =
      (c, (_root_.dgLoop atts (c.dgAclose ordA ordO) close bg f fuel basis a i).getD (.error .genericException)) := by
  have hcp : ∀ a, (cond a).plain c = (c, .ok (f a)) := fun a => Prod.ext (plain_readOnly (hc a) c) (hf a)
  induction fuel generalizing basis a i with
  | zero => rfl
  | succ fuel ih =>
    unfold dgLoop _root_.dgLoop
    split_ifs with h1
    · rw [plain_bind, plain_aclose]
      cases c.dgAclose ordA ordO a with
      | error e => rfl
      | ok ac =>
        dsimp only
        rw [plain_bind]
        have hx : (if a ≠ ac then cond a else (.done (.ok false) : Act α β Bool)).plain c =
            (c, .ok (decide (a ≠ ac ∧ f a = true))) := by
          split_ifs with h2
          · rw [hcp]; simp [h2]
          · simp [plain, h2]
        rw [hx]
        dsimp only
        simp only [decide_eq_true_eq]
        split_ifs <;> first | exact ih _ _ _ | rfl
    · rfl

theorem plain_dgBasis (c : Ctx α β) (ordA : SetOrder β) (ordO : SetOrder α)
    (close : Finset β → List (Imp β) → Finset β) (bg : List (Imp β)) {cond : Finset β → Act α β Bool}
    (hc : ∀ a, (cond a).ReadOnly) {f : Finset β → Bool} (hf : ∀ a, ((cond a).plain c).2 = .ok (f a)) :
    (dgBasis ordA ordO close bg cond).plain c = (c, c.dgBasisWith ordA ordO close bg f) :=
  plain_dgLoop c ordA ordO close bg hc hf _ _ _ _ _

end Act

namespace CSt

open Ctx

variable {α β : Type} [DecidableEq α] [DecidableEq β] [PyName α] [PyName β]

theorem fits_drop {γ : Type} {f : ℕ → Py (Finset γ)} {ms : List (Memo γ)} (h : Fits f ms) (n : ℕ) : Fits f (ms.drop n) :=
  fun m hm => h m (List.mem_of_mem_drop hm)

/-- Nothing is below: same table and cached basis, the wrappers of `s` are still there. -/
structure Above (s t : CSt α β) : Prop where
  ctx : t.ctx = s.ctx
  objBasis : t.objBasis = s.objBasis
  memoO : s.memoO.length ≤ t.memoO.length
  memoA : s.memoA.length ≤ t.memoA.length

theorem Above.trans {s t u : CSt α β} (h : Above s t) (k : Above t u) : Above s u :=
  ⟨k.ctx.trans h.ctx, k.objBasis.trans h.objBasis, h.memoO.trans k.memoO, h.memoA.trans k.memoA⟩

theorem above_push (s : CSt α β) : Above s s.push := ⟨rfl, rfl, by simp [push], by simp [push]⟩

theorem above_restore {s t : CSt α β} (h : Above s t) : Above s (s.restore t) := by
  refine ⟨h.ctx, h.objBasis, ?_, ?_⟩
  · have := h.memoO; simp only [restore, List.length_drop]; omega
  · have := h.memoA; simp only [restore, List.length_drop]; omega

theorem act_readOnly {R : Type} {p : Act α β R} (hp : p.ReadOnly) {s : CSt α β} (h : Clean s) :
    (act p s).2 = (p.plain s.ctx).2 ∧ Clean (act p s).1 ∧ Above s (act p s).1 := by
  induction p generalizing s with
  | done r => exact ⟨rfl, h, rfl, rfl, le_rfl, le_rfl⟩
  | look k ih => exact ih _ (hp _) h
  | askO i k ih =>
    obtain ⟨h1, h2, h3⟩ := memoCall_ok h.o i
    have he : (s.askO i).2 = s.ctx.intentByIndex i := h1
    obtain ⟨k1, k2, k3⟩ := ih (s.askO i).2 (hp _) (s := (s.askO i).1) ⟨h2, h.a⟩
    refine ⟨?_, k2, Above.trans (t := (s.askO i).1) ⟨rfl, rfl, h3.ge, le_rfl⟩ k3⟩
    show (act (k (s.askO i).2) (s.askO i).1).2 = _
    rw [k1, he]; rfl
  | askA i k ih =>
    obtain ⟨h1, h2, h3⟩ := memoCall_ok h.a i
    have he : (s.askA i).2 = s.ctx.extentByIndex i := h1
    obtain ⟨k1, k2, k3⟩ := ih (s.askA i).2 (hp _) (s := (s.askA i).1) ⟨h.o, h2⟩
    refine ⟨?_, k2, Above.trans (t := (s.askA i).1) ⟨rfl, rfl, le_rfl, h3.ge⟩ k3⟩
    show (act (k (s.askA i).2) (s.askA i).1).2 = _
    rw [k1, he]; rfl
  | modify op k ih => exact hp.elim
  | nested p k ihp ih =>
    obtain ⟨h1, h2, h3⟩ := ihp hp.1 (s := s.push) ⟨fits_push h.o, fits_push h.a⟩
    have hq : (p.plain s.push.ctx) = (s.ctx, (act p s.push).2) := Prod.ext (Act.plain_readOnly hp.1 _) h1.symm
    have hs := (above_push s).trans h3
    have hgoal : (Act.nested p k).plain s.ctx = (k (act p s.push).2).plain s.ctx := by
      show (k (p.plain s.ctx).2).plain (p.plain s.ctx).1 = _
      rw [show p.plain s.ctx = (s.ctx, (act p s.push).2) from hq]
    rw [hgoal]
    have hact : act (Act.nested p k) s = match (act p s.push).2 with
      | .ok x => act (k (.ok x)) (s.restore (act p s.push).1)
      | .error e => act (k (.error e)) (act p s.push).1 := by
      conv_lhs => unfold act
      rfl
    rw [hact]
    cases hr : (act p s.push).2 with
    | ok x =>
      dsimp only
      have hab := above_restore hs
      obtain ⟨k1, k2, k3⟩ := ih (.ok x) (hp.2 _) (s := s.restore (act p s.push).1)
        ⟨fits_drop h2.o _, fits_drop h2.a _⟩
      refine ⟨?_, k2, hab.trans k3⟩
      rw [k1, hab.ctx]
    | error e =>
      dsimp only
      obtain ⟨k1, k2, k3⟩ := ih (.error e) (hp.2 _) (s := (act p s.push).1) h2
      refine ⟨?_, k2, hs.trans k3⟩
      rw [k1, hs.ctx]

theorem act_flat {R : Type} {p : Act α β R} (hp : p.Flat) (c : Ctx α β) (ob : List (Imp α)) :
    act p ⟨c, ob, [], []⟩ = (⟨(p.plain c).1, ob, [], []⟩, (p.plain c).2) := by
  induction p generalizing c with
  | done r => rfl
  | look k ih => exact ih c (hp c) c
  | askO i k ih => exact ih _ (hp _) c
  | askA i k ih => exact ih _ (hp _) c
  | modify op k ih => exact ih _ (hp _) _
  | nested p k ihp ih => exact hp.elim

end CSt

namespace Act

open Ctx

variable {α β : Type} [DecidableEq α] [DecidableEq β] [PyName α] [PyName β]

/-- The rows of the context are intents of the domain. -/
def Within (D : Set (Finset β)) (c : Ctx α β) : Prop :=
  ∀ o ∈ c.objects, ∃ d ∈ D, ∀ m ∈ c.attributes, (c.Inc o m ↔ m ∈ d)

/-- A condition that stands for an expert for the domain `D`: asked about a set `a` it keeps the context within the domain
and leaves the attributes alone, and it answers True only if in the domain `a` implies its closure in the context. -/
def Expert (D : Set (Finset β)) (atts : List β) (cond : Finset β → Act α β Bool) : Prop :=
  ∀ (a : Finset β) (c : Ctx α β), c.WFw → c.objects ≠ [] → c.attributes = atts → Within D c →
    ((cond a).plain c).1.WFw ∧ ((cond a).plain c).1.objects ≠ [] ∧ ((cond a).plain c).1.attributes = atts ∧
    Within D ((cond a).plain c).1 ∧
    (((cond a).plain c).2 = .ok true → ∀ d ∈ D, a ⊆ d → attrClosure c.G c.M c.Inc a ⊆ d)

theorem dgLoop_domain {D : Set (Finset β)} (ordA : SetOrder β) (ordO : SetOrder α)
    (close : Finset β → List (Imp β) → Finset β) (bg : List (Imp β)) {atts : List β}
    {cond : Finset β → Act α β Bool} (he : Expert D atts cond) (fuel : ℕ) {basis : List (Imp β)}
    (hb : ∀ imp ∈ basis, imp.premise ⊆ atts.toFinset ∧ imp.conclusion ⊆ atts.toFinset ∧
      ∀ d ∈ D, imp.premise ⊆ d → imp.conclusion ⊆ d) (a : Finset β) (i : ℕ)
    {c : Ctx α β} (h : c.WFw) (ho : c.objects ≠ []) (ha : c.attributes = atts) (hw : Within D c)
    {c' : Ctx α β} {res : List (Imp β)}
    (hr : (dgLoop atts ordA ordO close bg cond fuel basis a i).plain c = (c', .ok res)) :
    c'.attributes = atts ∧ Within D c' ∧
    ∀ imp ∈ res, imp.premise ⊆ atts.toFinset ∧ imp.conclusion ⊆ atts.toFinset ∧
      ∀ d ∈ D, imp.premise ⊆ d → imp.conclusion ⊆ d := by
  induction fuel generalizing basis a i c with
  | zero => simp [dgLoop, plain] at hr
  | succ fuel ih =>
    unfold dgLoop at hr
    split_ifs at hr with h1
    · rw [plain_bind, plain_aclose] at hr
      cases hac : c.dgAclose ordA ordO a with
      | error e => rw [hac] at hr; simp at hr
      | ok ac =>
        rw [hac] at hr
        dsimp only at hr
        obtain ⟨hsub, hcl⟩ := h.dgAclose_returned hac
        have hM : c.M = atts.toFinset := by unfold Ctx.M; rw [ha]
        rw [plain_bind] at hr
        -- the context and the answer after the condition
        obtain ⟨c₁, y, hy, g1, g2, g3, g4, g5⟩ : ∃ c₁ y,
            (if a ≠ ac then cond a else (.done (.ok false) : Act α β Bool)).plain c = (c₁, y) ∧
            c₁.WFw ∧ c₁.objects ≠ [] ∧ c₁.attributes = atts ∧ Within D c₁ ∧
            (y = .ok true → ∀ d ∈ D, a ⊆ d → ac ⊆ d) := by
          by_cases hne : a ≠ ac
          · obtain ⟨g1, g2, g3, g4, g5⟩ := he a c h ho ha hw
            rw [if_pos hne]
            exact ⟨_, _, rfl, g1, g2, g3, g4, by rw [hcl]; exact g5⟩
          · rw [if_neg hne]
            exact ⟨_, _, rfl, h, ho, ha, hw, by simp⟩
        rw [hy] at hr
        cases y with
        | error e => simp at hr
        | ok yes =>
          dsimp only at hr
          have hb' : ∀ imp ∈ (if yes then basis ++ [⟨a, ac⟩] else basis : List (Imp β)),
              imp.premise ⊆ atts.toFinset ∧ imp.conclusion ⊆ atts.toFinset ∧
                ∀ d ∈ D, imp.premise ⊆ d → imp.conclusion ⊆ d := by
            intro imp himp
            split_ifs at himp with hyes
            · rcases List.mem_append.1 himp with himp | himp
              · exact hb imp himp
              · rw [List.mem_singleton.1 himp]
                refine ⟨hM ▸ hsub, ?_, g5 (by rw [hyes])⟩
                dsimp only
                rw [hcl, ← hM]
                intro x hx
                simp only [attrClosure, Finset.mem_filter] at hx
                exact hx.1
            · exact hb imp himp
          generalize (if yes then basis ++ [⟨a, ac⟩] else basis : List (Imp β)) = b' at hr hb'
          split_ifs at hr with h2 h3
          all_goals first
            | exact ih hb' _ _ g1 g2 g3 g4 hr
            | (simp only [plain, Prod.mk.injEq, Except.ok.injEq] at hr
               obtain ⟨rfl, rfl⟩ := hr
               exact ⟨g3, g4, hb'⟩)
    · simp only [plain, Prod.mk.injEq, Except.ok.injEq] at hr
      obtain ⟨rfl, rfl⟩ := hr
      exact ⟨ha, hw, hb⟩

/-- An expert that knows the intents of the domain: it computes the closure of the set in the table, and if there is an
intent of the domain that contradicts the implication it adds an object with this intent and answers False. -/
def askDomain (dom : List (Finset β)) (fresh : List α → α) (ordA : SetOrder β) (ordO : SetOrder α) (a : Finset β) :
    Act α β Bool :=
  .look fun c => match c.dgAclose ordA ordO a with
    | .error e => .done (.error e)
    | .ok cl => match dom.find? fun d => decide (a ⊆ d ∧ ¬ cl ⊆ d) with
      | none => .done (.ok true)
      | some d => .modify (.addObjectWithIntent d (fresh c.objects)) fun _ => .done (.ok false)

theorem flat_askDomain (dom : List (Finset β)) (fresh : List α → α) (ordA : SetOrder β) (ordO : SetOrder α)
    (a : Finset β) : (askDomain dom fresh ordA ordO a).Flat := by
  intro c
  dsimp only
  cases c.dgAclose ordA ordO a with
  | error e => trivial
  | ok cl =>
    dsimp only
    cases dom.find? fun d => decide (a ⊆ d ∧ ¬ cl ⊆ d) with
    | none => trivial
    | some d => exact fun _ => trivial

theorem expert_askDomain (dom : List (Finset β)) {fresh : List α → α} (hf : ∀ l, fresh l ∉ l) (ordA : SetOrder β)
    (ordO : SetOrder α) (atts : List β) : Expert {d | d ∈ dom} atts (askDomain dom fresh ordA ordO) := by
  intro a c h ho ha hw
  simp only [askDomain, plain]
  cases hac : c.dgAclose ordA ordO a with
  | error e => exact ⟨h, ho, ha, hw, by simp [plain]⟩
  | ok cl =>
    dsimp only
    cases hd : dom.find? fun d => decide (a ⊆ d ∧ ¬ cl ⊆ d) with
    | none =>
      refine ⟨h, ho, ha, hw, fun _ d hdD hsub => ?_⟩
      have := List.find?_eq_none.1 hd d hdD
      simp only [decide_eq_true_eq, not_and, not_not] at this
      rw [← (h.dgAclose_returned hac).2]
      exact this hsub
    | some d =>
      have hdm := List.mem_of_find?_eq_some hd
      obtain ⟨c', e1, e2, e3, e4, e5⟩ := BExp.add_object_ctx h ho (hf c.objects) d
      have hex : c.exec (.addObjectWithIntent d (fresh c.objects)) = (c', none) := e1
      simp only [plain, hex]
      refine ⟨e2, by rw [e3]; simp, e4.trans ha, ?_, by simp⟩
      intro o hoo
      rw [e3, List.mem_append, List.mem_singleton] at hoo
      by_cases hof : o = fresh c.objects
      · refine ⟨d, hdm, fun m hm => ?_⟩
        rw [e4] at hm
        rw [e5]
        simp [hof, hm]
      · obtain ⟨d', hd', hinc⟩ := hw o (hoo.resolve_right hof)
        refine ⟨d', hd', fun m hm => ?_⟩
        rw [e4] at hm
        rw [e5, ← hinc m hm]
        simp [hof]

end Act

open Ctx Act

variable {α β : Type} [DecidableEq α] [DecidableEq β] [PyName α] [PyName β]

/-! ### C166 -/

/-- The condition may ask the context and compute further bases of it (also ones that raise, if it catches the exception):
`get_attribute_implications` returns the same as without caching, and when it returns the object is as before. -/
theorem C166_nested (c : Ctx α β) (ordA : SetOrder β) (ordO : SetOrder α)
    (close : Finset β → List (Imp β) → Finset β) (bg : List (Imp β)) (cond : Finset β → Act α β Bool)
    (hc : ∀ a, (cond a).ReadOnly) (f : Finset β → Bool) (hf : ∀ a, ((cond a).plain c).2 = .ok (f a)) :
    (CSt.act (attributeImplications ordA ordO close bg cond) (CSt.new c)).2 = c.dgBasisWith ordA ordO close bg f ∧
    ∀ res, (CSt.act (attributeImplications ordA ordO close bg cond) (CSt.new c)).2 = .ok res →
      (CSt.act (attributeImplications ordA ordO close bg cond) (CSt.new c)).1 = CSt.new c := by
  have hcl : CSt.Clean (CSt.new c) := ⟨by simp [CSt.new, CSt.Fits], by simp [CSt.new, CSt.Fits]⟩
  have hro : (attributeImplications ordA ordO close bg cond).ReadOnly :=
    ⟨fun c => readOnly_dgLoop ordA ordO close bg hc _ _ _ _ _, fun _ => trivial⟩
  obtain ⟨h1, -, h3⟩ := CSt.act_readOnly hro hcl
  refine ⟨?_, fun res hres => ?_⟩
  · rw [h1]
    show ((dgBasis ordA ordO close bg cond).plain c).2 = _
    rw [plain_dgBasis c ordA ordO close bg hc hf]
  · obtain ⟨-, k2, k3⟩ := CSt.act_readOnly (p := dgBasis ordA ordO close bg cond)
      (fun c => readOnly_dgLoop ordA ordO close bg hc _ _ _ _ _) (s := (CSt.new c).push)
      ⟨CSt.fits_push hcl.o, CSt.fits_push hcl.a⟩
    simp only [attributeImplications, CSt.act] at hres ⊢
    cases hr : (CSt.act (dgBasis ordA ordO close bg cond) (CSt.new c).push).2 with
    | error e => rw [hr] at hres; simp at hres
    | ok x =>
      simp only [CSt.restore, CSt.new, List.length_nil, Nat.sub_zero, List.drop_length]
      rw [show (CSt.act (dgBasis ordA ordO close bg cond) (CSt.push ⟨c, [], [], []⟩)).1.ctx = c from k3.ctx,
        show (CSt.act (dgBasis ordA ordO close bg cond) (CSt.push ⟨c, [], [], []⟩)).1.objBasis = [] from k3.objBasis]

/-- Whatever the functions given to a basis computation do with the context, when the outermost computation returns no
cache is left: rows and columns are answered from the table as it is then. -/
theorem C166_restored {R : Type} (p : Act α β R) (c : Ctx α β) (s : CSt α β) (x : R)
    (hr : CSt.act (.nested p .done) (CSt.new c) = (s, .ok x)) :
    (∀ i, s.askO i = (s, s.ctx.intentByIndex i)) ∧ (∀ j, s.askA j = (s, s.ctx.extentByIndex j)) ∧
    (∀ o, (s.objectIntent o).2 = s.ctx.objectIntent o) ∧ ∀ a, (s.attributeExtent a).2 = s.ctx.attributeExtent a := by
  have hs : s.memoO = [] ∧ s.memoA = [] := by
    simp only [CSt.act] at hr
    cases hp : (CSt.act p (CSt.new c).push).2 with
    | error e => rw [hp] at hr; simp at hr
    | ok y =>
      rw [hp] at hr
      simp only [CSt.restore, CSt.new, List.length_nil, Nat.sub_zero, List.drop_length, Prod.mk.injEq] at hr
      rw [← hr.1]
      exact ⟨rfl, rfl⟩
  have hO : ∀ i, s.askO i = (s, s.ctx.intentByIndex i) := by
    intro i
    obtain ⟨c', ob, mo, ma⟩ := s
    simp only at hs
    simp only [CSt.askO, hs.1, memoCall]
  have hA : ∀ j, s.askA j = (s, s.ctx.extentByIndex j) := by
    intro i
    obtain ⟨c', ob, mo, ma⟩ := s
    simp only at hs
    simp only [CSt.askA, hs.2, memoCall]
  refine ⟨hO, hA, ?_, ?_⟩
  · intro o
    unfold CSt.objectIntent Ctx.objectIntent
    cases lastIdx s.ctx.objects o with
    | error e => rfl
    | ok i => exact congrArg Prod.snd (hO i)
  · intro a
    unfold CSt.attributeExtent Ctx.attributeExtent
    cases lastIdx s.ctx.attributes a with
    | error e => rfl
    | ok i => exact congrArg Prod.snd (hA i)

/-- `compute_dg_basis` called as a function, with a condition that stands for an expert of a domain and may add objects of
the domain to the context: the implications returned hold in the domain and in the context as it is at the end. Missing
from C166: the call through the method, with its caches (false, see below), and conditions that change the list of
attributes. -/
theorem C166_function_partial {c : Ctx α β} (h : c.WFw) (ho : c.objects ≠ []) (ordA : SetOrder β) (ordO : SetOrder α)
    (close : Finset β → List (Imp β) → Finset β) (bg : List (Imp β)) (cond : Finset β → Act α β Bool)
    (hc : ∀ a, (cond a).Flat) (D : Set (Finset β)) (he : Expert D c.attributes cond) (hw : Within D c)
    (s : CSt α β) (res : List (Imp β)) (hr : CSt.act (dgBasis ordA ordO close bg cond) (CSt.new c) = (s, .ok res)) :
    s.ctx.attributes = c.attributes ∧ Within D s.ctx ∧
    ∀ imp ∈ res, (∀ d ∈ D, imp.premise ⊆ d → imp.conclusion ⊆ d) ∧
      HoldsIn s.ctx.G s.ctx.Inc imp.premise imp.conclusion := by
  have hfl : (dgBasis ordA ordO close bg cond).Flat := fun c => flat_dgLoop ordA ordO close bg hc _ _ _ _ _
  rw [CSt.new, CSt.act_flat hfl] at hr
  simp only [Prod.mk.injEq] at hr
  obtain ⟨hs, hres⟩ := hr
  obtain ⟨h1, h2, h3⟩ := dgLoop_domain ordA ordO close bg he _ (basis := []) (by simp) _ _ h ho rfl hw
    (c' := ((dgBasis ordA ordO close bg cond).plain c).1) (res := res) (Prod.ext rfl hres)
  have hsc : s.ctx = ((dgBasis ordA ordO close bg cond).plain c).1 := by rw [← hs]
  rw [← hsc] at h1 h2
  refine ⟨h1, h2, fun imp himp => ⟨(h3 imp himp).2.2, ?_⟩⟩
  obtain ⟨k1, k2, k3⟩ := h3 imp himp
  intro o hoG hP m hm
  obtain ⟨d, hd, hinc⟩ := h2 o (List.mem_toFinset.1 hoG)
  have hmem : ∀ {x}, x ∈ c.attributes.toFinset → x ∈ s.ctx.attributes := fun hx => by
    rw [h1]; exact List.mem_toFinset.1 hx
  refine (hinc m (hmem (k2 hm))).2 (k3 d hd (fun x hx => ?_) hm)
  exact (hinc x (hmem (k1 hx))).1 (hP x hx)

namespace Act

instance : PyName ℕ := ⟨fun x i => x + i + 1⟩

/-- An iteration order for sets of numbers. -/
def ordNat : SetOrder ℕ :=
  ⟨fun s => (List.range (s.sup id + 1)).filter (fun x => decide (x ∈ s)), fun _ => List.nodup_range.filter _, fun s x => by
    simp only [List.mem_filter, List.mem_range, decide_eq_true_eq]
    exact ⟨fun h => h.2, fun h => ⟨Nat.lt_succ_of_le (Finset.le_sup (f := id) h), h⟩⟩⟩

/-- A name that is not in use. -/
def fresh166 (l : List ℕ) : ℕ := l.sum + 1

theorem fresh166_fresh (l : List ℕ) : fresh166 l ∉ l := by
  intro h
  have : ∀ l : List ℕ, ∀ x ∈ l, x ≤ l.sum := by
    intro l
    induction l with
    | nil => simp
    | cons y l ih =>
      intro x hx
      rw [List.sum_cons]
      rcases List.mem_cons.1 hx with rfl | hx
      · omega
      · have := ih x hx; omega
  have := this l _ h
  simp [fresh166] at this

/-- Two objects, with no attribute and with the first attribute. -/
def wit166 : Ctx ℕ (Fin 3) := ⟨[0, 1], [0, 1, 2], ⟨some 3, [[false, false, false], [true, false, false]]⟩⟩

theorem wit166_wf : wit166.WFw := by constructor <;> decide +kernel

/-- The intents of the domain. -/
def dom166 : List (Finset (Fin 3)) := [∅, {0}, {0, 1}]

theorem wit166_within : Within {d | d ∈ dom166} wit166 := by
  have hw := wit166_wf
  intro o ho
  simp only [← hw.incB]
  simp only [wit166, List.mem_cons, List.not_mem_nil, or_false] at ho
  rcases ho with rfl | rfl
  · exact ⟨∅, by simp [dom166], by decide +kernel⟩
  · exact ⟨{0}, by simp [dom166], by decide +kernel⟩

/-- A condition that computes a basis of the context, catches what it raises, and answers True iff an implication of it has
the premise `a`. -/
def askBasis (a : Finset (Fin 3)) : Act ℕ (Fin 3) Bool :=
  .nested (dgBasis (SetOrder.fin 3) ordNat simpleClosure [] fun _ => .done (.ok true)) fun r => match r with
    | .ok l => .done (.ok (l.any fun imp => imp.premise = a))
    | .error _ => .done (.ok false)

/-- A condition that raises in a nested computation and catches the exception. -/
def askRaise (_ : Finset (Fin 3)) : Act ℕ (Fin 3) Bool :=
  .nested (.askO 1 fun _ => .done (.error .typeError : Py Bool)) fun _ => .done (.ok true)

end Act

example : (∀ a, (askBasis a).ReadOnly) ∧ (∀ a, (askRaise a).ReadOnly) ∧ (∀ a, ((askRaise a).plain wit166).2 = .ok true) ∧
    ((askBasis {1}).plain wit166).2 = .ok true ∧ ((askBasis {1, 2}).plain wit166).2 = .ok false := by
  have h1 : ∀ a, ((fun _ => .done (.ok true) : Finset (Fin 3) → Act ℕ (Fin 3) Bool) a).ReadOnly := fun _ => trivial
  refine ⟨fun a => ⟨fun c => readOnly_dgLoop _ _ _ _ h1 _ _ _ _ _, fun r => ?_⟩,
    fun a => ⟨fun _ => trivial, fun _ => trivial⟩, fun a => rfl, by decide +kernel, by decide +kernel⟩
  cases r <;> trivial

example : (CSt.act (attributeImplications (SetOrder.fin 3) ordNat simpleClosure [] askRaise) (CSt.new wit166)).2 =
      .ok [⟨{2}, {0, 1, 2}⟩, ⟨{1}, {0, 1, 2}⟩] ∧
    ((CSt.act (attributeImplications (SetOrder.fin 3) ordNat simpleClosure [] askRaise) (CSt.new wit166)).1.askO 1).2 =
      .ok {0} ∧
    ((CSt.act (askRaise {0}) (CSt.new wit166)).1.memoO.length = 1) := by
  decide +kernel

example : wit166.WFw ∧ wit166.objects ≠ [] ∧ (∀ a, (askDomain dom166 fresh166 (SetOrder.fin 3) ordNat a).Flat) ∧
    Expert {d | d ∈ dom166} wit166.attributes (askDomain dom166 fresh166 (SetOrder.fin 3) ordNat) ∧
    Within {d | d ∈ dom166} wit166 ∧
    (CSt.act (dgBasis (SetOrder.fin 3) ordNat simpleClosure [] (askDomain dom166 fresh166 (SetOrder.fin 3) ordNat))
      (CSt.new wit166)).2 = .ok [⟨{2}, {0, 1, 2}⟩] ∧
    (CSt.act (dgBasis (SetOrder.fin 3) ordNat simpleClosure [] (askDomain dom166 fresh166 (SetOrder.fin 3) ordNat))
      (CSt.new wit166)).1.ctx.objects = [0, 1, 2] :=
  ⟨wit166_wf, by decide, flat_askDomain _ _ _ _, expert_askDomain _ fresh166_fresh _ _ _, wit166_within,
    by decide +kernel, by decide +kernel⟩

/-- Called as a method, with the caches of `basis_computation`, the computation does not see the objects that the expert
adds: the basis contains an implication that holds neither in the domain nor in the context at the end, though the expert
answers for all sets as they should. -/
theorem C166_method_violated :
    ∃ (c : Ctx ℕ (Fin 3)) (D : Set (Finset (Fin 3))) (cond : Finset (Fin 3) → Act ℕ (Fin 3) Bool) (s : CSt ℕ (Fin 3))
      (res : List (Imp (Fin 3))) (imp : Imp (Fin 3)),
      c.WFw ∧ c.objects ≠ [] ∧ (∀ a, (cond a).Flat) ∧ Expert D c.attributes cond ∧ Within D c ∧
      CSt.act (attributeImplications (SetOrder.fin 3) ordNat simpleClosure [] cond) (CSt.new c) = (s, .ok res) ∧
      imp ∈ res ∧ (∃ d ∈ D, imp.premise ⊆ d ∧ ¬ imp.conclusion ⊆ d) ∧
      s.ctx.WFw ∧ ¬ HoldsIn s.ctx.G s.ctx.Inc imp.premise imp.conclusion := by
  have hw : (CSt.act (attributeImplications (SetOrder.fin 3) ordNat simpleClosure []
      (askDomain dom166 fresh166 (SetOrder.fin 3) ordNat)) (CSt.new wit166)).1.ctx.WFw := by
    constructor <;> decide +kernel
  refine ⟨wit166, {d | d ∈ dom166}, askDomain dom166 fresh166 (SetOrder.fin 3) ordNat, _,
    [⟨{2}, {0, 1, 2}⟩, ⟨{0, 1}, {0, 1, 2}⟩], ⟨{0, 1}, {0, 1, 2}⟩, wit166_wf, by decide, flat_askDomain _ _ _ _,
    expert_askDomain _ fresh166_fresh _ _ _, wit166_within, Prod.ext rfl (by decide +kernel), by simp,
    ⟨{0, 1}, by simp [dom166], by decide, by decide⟩, hw, ?_⟩
  simp only [HoldsIn, ← hw.incB]
  decide +kernel

/-- Rows are cached as well: a function called during a basis computation that changes a row and then asks for it with
`get_object_intent` gets the old row, also if only a nested computation has asked for it before; and so does one that changes the row after a basis computation has raised. -/
theorem C166_rows_violated :
    ∃ (c : Ctx ℕ (Fin 3)) (op : TOp ℕ (Fin 3)), c.WFw ∧ (c.exec op).2 = none ∧ c.objectIntent 1 = .ok {0} ∧
      (c.exec op).1.objectIntent 1 = .ok {1, 2} ∧
      (CSt.act (.nested ((objectIntent 1).bind fun _ => .modify op fun _ => objectIntent 1) .done) (CSt.new c)).2 =
        .ok {0} ∧
      (CSt.act (.nested (.nested (objectIntent 1) fun _ => .modify op fun _ => objectIntent 1) .done) (CSt.new c)).2 =
        .ok {0} ∧
      (CSt.act ((Act.nested ((objectIntent 1).bind fun _ => .done (.error .typeError : Py Bool)) fun _ =>
        .modify op fun _ => objectIntent 1) : Act ℕ (Fin 3) (Finset (Fin 3))) (CSt.new c)).2 = .ok {0} :=
  ⟨wit166, .setObjectIntent [1, 2] 1, wit166_wf, by decide +kernel, by decide +kernel, by decide +kernel,
    by decide +kernel, by decide +kernel, by decide +kernel⟩
