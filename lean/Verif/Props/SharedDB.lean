/-
C155: several `ExplorationDB`s on one context.
-/
import Verif.Model.SharedDB
import Verif.Props.ExplorationRepeated

set_option linter.unusedSectionVars false

open Spec EDB Ctx

variable {α β : Type} [DecidableEq α] [DecidableEq β]

namespace EDB

/-- Same context, background and exception. -/
def Same (p q : EDB α β × Option PyErr) : Prop := q.1.ctx = p.1.ctx ∧ q.1.bg = p.1.bg ∧ q.2 = p.2

theorem Same.modifier {E : Env α β} {p q : EDB α β × Option PyErr} (h : Same p q) :
    Same (EDB.modifier E p) (EDB.modifier E q) ∧ ((EDB.modifier E p).2 = none → (EDB.modifier E q).1 = (EDB.modifier E p).1) := by
  obtain ⟨⟨c, b, o⟩, e⟩ := p
  obtain ⟨⟨c', b', o'⟩, e'⟩ := q
  obtain ⟨h1, h2, h3⟩ := h
  dsimp only at h1 h2 h3
  subst h1 h2 h3
  cases e' with
  | some e => exact ⟨⟨rfl, rfl, rfl⟩, fun h => by simp [EDB.modifier] at h⟩
  | none =>
    simp only [EDB.modifier]
    cases relBasis E c' b' with
    | ok r => exact ⟨⟨rfl, rfl, rfl⟩, fun _ => rfl⟩
    | error e => exact ⟨⟨rfl, rfl, rfl⟩, fun h => by simp at h⟩

variable [PyName α] [PyName β]

theorem Same.rename {s t : EDB α β} (h1 : t.ctx = s.ctx) (h2 : t.bg = s.bg) (n o : α) :
    Same (s.editRename n o) (t.editRename n o) := by
  unfold editRename setCtx
  rw [h1]
  split_ifs
  · exact ⟨h1, h2, rfl⟩
  · exact ⟨rfl, h2, rfl⟩
  · exact ⟨h1, h2, rfl⟩

/-- What a call does to context and background does not depend on the open implications. -/
theorem exec_same {E : Env α β} {s t : EDB α β} (h1 : t.ctx = s.ctx) (h2 : t.bg = s.bg) (op : Op α β) :
    Same (s.exec E op) (t.exec E op) ∧ ((s.exec E op).2 = none → (t.exec E op).1 = (s.exec E op).1) := by
  obtain ⟨c, b, p⟩ := s
  obtain ⟨c', b', p'⟩ := t
  dsimp only at h1 h2
  subst h1 h2
  cases op with
  | confirm i => exact Same.modifier ⟨rfl, rfl, rfl⟩
  | unconfirm i =>
    apply Same.modifier
    dsimp only
    split <;> exact ⟨rfl, rfl, rfl⟩
  | addExample n B =>
    apply Same.modifier
    unfold checkIntent setCtx
    dsimp only
    split_ifs <;> exact ⟨rfl, rfl, rfl⟩
  | deleteExample n => exact Same.modifier ⟨rfl, rfl, rfl⟩
  | deleteAttribute n => exact Same.modifier ⟨rfl, rfl, rfl⟩
  | touch => exact Same.modifier ⟨rfl, rfl, rfl⟩
  | addAttribute n A =>
    apply Same.modifier
    unfold setCtx
    dsimp only
    split_ifs <;> exact ⟨rfl, rfl, rfl⟩
  | editExample n o B =>
    apply Same.modifier
    unfold checkIntent setCtx
    dsimp only
    split
    · exact ⟨rfl, rfl, rfl⟩
    · split_ifs
      · exact ⟨rfl, rfl, rfl⟩
      · rcases c'.setObjectIntent (E.ordI.enum B) o with ⟨c2, _ | e⟩
        · exact Same.rename (s := ⟨c2, b', p⟩) (t := ⟨c2, b', p'⟩) rfl rfl n o
        · exact ⟨rfl, rfl, rfl⟩
      · exact Same.rename (s := ⟨c', b', p⟩) (t := ⟨c', b', p'⟩) rfl rfl n o
  | editAttribute n o A =>
    apply Same.modifier
    unfold setCtx
    dsimp only
    split
    · exact ⟨rfl, rfl, rfl⟩
    · split_ifs
      · exact ⟨rfl, rfl, rfl⟩
      · exact ⟨rfl, rfl, rfl⟩
      · rcases c'.setAttributeExtent (E.ordE.enum A) o with ⟨c2, _ | e⟩ <;> exact ⟨rfl, rfl, rfl⟩

end EDB

namespace DBs

variable [PyName α] [PyName β]

/-- The calls considered: only implications that are open after a `touch()` of the same database are confirmed, and the
new name in an edit is the old one or not in use. -/
def Ok (E : ℕ → EDB.Env α β) (own : ℕ → ℕ) (D : DBs α β) (k : ℕ) (op : EDB.Op α β) : Prop :=
  op.Ok ((D.exec E own k .touch).1.view own k)

/-- Every call of the history is considered. -/
def OkRun (E : ℕ → EDB.Env α β) (own : ℕ → ℕ) : DBs α β → List (ℕ × EDB.Op α β) → Prop
  | _, [] => True
  | D, (k, op) :: ops => D.Ok E own k op ∧ OkRun E own (D.exec E own k op).1 ops

theorem view_exec (E : ℕ → EDB.Env α β) (own : ℕ → ℕ) (D : DBs α β) (k : ℕ) (op : EDB.Op α β) :
    (D.exec E own k op).1.view own k = ((D.view own k).exec (E k) op).1 := by
  unfold exec view
  simp

/-- All databases have the same list as background. -/
theorem view_good {own : ℕ → ℕ} (hown : ∀ k l, own k = own l) {D : DBs α β} {k l : ℕ} (h : EDB.Good (D.view own k)) :
    EDB.Good (D.view own l) := by
  have he : own l = own k := hown l k
  refine ⟨h.wf, h.one, ?_, ?_⟩
  · show BExp.Over D.ctx.M (D.lists (own l)); rw [he]; exact h.over
  · show BExp.Valid D.ctx.G D.ctx.Inc (D.lists (own l)); rw [he]; exact h.valid

theorem touch_inv {E : ℕ → EDB.Env α β} {own : ℕ → ℕ} {D : DBs α β} {k : ℕ} (h : EDB.Good (D.view own k)) :
    ∃ s, (D.view own k).exec (E k) .touch = (s, none) ∧ s.ctx = D.ctx ∧ s.bg = D.lists (own k) ∧ EDB.Inv (E k) s :=
  h.modifier

theorem step {E : ℕ → EDB.Env α β} {own : ℕ → ℕ} {D : DBs α β} {k : ℕ} {op : EDB.Op α β} (h : EDB.Good (D.view own k))
    (hop : D.Ok E own k op) :
    EDB.Good ((D.exec E own k op).1.view own k) ∧
      ((D.exec E own k op).2 = none → EDB.Inv (E k) ((D.exec E own k op).1.view own k)) := by
  obtain ⟨s, h1, h2, h3, h4⟩ := touch_inv (E := E) h
  unfold Ok at hop
  rw [view_exec, h1] at hop
  have hst := EDB.exec_step h4 hop
  have hsame := EDB.exec_same (E := E k) (s := s) (t := D.view own k) (by rw [h2]; rfl) (by rw [h3]; rfl) op
  rw [view_exec]
  obtain ⟨⟨e1, e2, e3⟩, e4⟩ := hsame
  refine ⟨⟨?_, ?_, ?_, ?_⟩, ?_⟩
  · rw [e1]; exact hst.inv.wf
  · rw [e1]; exact hst.inv.one
  · rw [e1, e2]; exact hst.inv.over
  · rw [e1, e2]; exact hst.inv.valid
  · intro hn
    have : (s.exec (E k) op).2 = none := by rw [← e3]; exact hn
    rw [e4 this]
    exact hst.inv

theorem run_good {E : ℕ → EDB.Env α β} {own : ℕ → ℕ} (hown : ∀ k l, own k = own l) {ops : List (ℕ × EDB.Op α β)}
    {D : DBs α β} {k : ℕ} (h : EDB.Good (D.view own k)) (hf : OkRun E own D ops) :
    EDB.Good ((D.run E own ops).view own k) := by
  induction ops generalizing D k with
  | nil => exact h
  | cons x ops ih => exact ih (view_good hown (step (view_good hown h) hf.1).1) hf.2

theorem distinct_step {E : ℕ → EDB.Env α β} (hE : ∀ k, (E k).cond = fun _ => true) {own : ℕ → ℕ} {D : DBs α β} {k : ℕ}
    {op : EDB.Op α β} (h : EDB.Good (D.view own k)) (hd : EDB.Distinct (D.view own k)) (hop : D.Ok E own k op) :
    EDB.Distinct ((D.exec E own k op).1.view own k) := by
  obtain ⟨s, h1, h2, h3, h4⟩ := touch_inv (E := E) h
  unfold Ok at hop
  rw [view_exec, h1] at hop
  have hds : EDB.Distinct s := by unfold EDB.Distinct; rw [h3]; exact hd
  have := EDB.distinct_step (hE k) h4 hds hop
  have hsame := EDB.exec_same (E := E k) (s := s) (t := D.view own k) (by rw [h2]; rfl) (by rw [h3]; rfl) op
  rw [view_exec]
  unfold EDB.Distinct at this ⊢
  rw [hsame.1.2.1]
  exact this

theorem run_distinct {E : ℕ → EDB.Env α β} (hE : ∀ k, (E k).cond = fun _ => true) {own : ℕ → ℕ}
    (hown : ∀ k l, own k = own l) {ops : List (ℕ × EDB.Op α β)} {D : DBs α β} {k : ℕ} (h : EDB.Good (D.view own k))
    (hd : EDB.Distinct (D.view own k)) (hf : OkRun E own D ops) : EDB.Distinct ((D.run E own ops).view own k) := by
  have tr : ∀ {D : DBs α β} {k l : ℕ}, EDB.Distinct (D.view own k) → EDB.Distinct (D.view own l) := by
    intro D k l hh
    unfold EDB.Distinct view at hh ⊢
    dsimp only at hh ⊢
    rw [hown l k]; exact hh
  induction ops generalizing D k with
  | nil => exact hd
  | cons x ops ih =>
    exact ih (view_good hown (step (view_good hown h) hf.1).1) (tr (distinct_step hE (view_good hown h) (tr hd) hf.1)) hf.2

end DBs

open DBs

variable [PyName α] [PyName β]

/-- C155: databases on one context that share their list of implications. In every history in which an implication is
confirmed only if it is open after `touch()`, every background implication holds for every object. -/
theorem C155_shared_valid {E : ℕ → EDB.Env α β} {own : ℕ → ℕ} (hown : ∀ k l, own k = own l) {D : DBs α β}
    (h : D.ctx.WFw) (hne : D.ctx.objects ≠ []) (ho : ∀ k, ∀ i ∈ D.lists (own k), i.premise ⊆ D.ctx.M ∧ i.conclusion ⊆ D.ctx.M)
    (hv : ∀ k, ∀ i ∈ D.lists (own k), HoldsIn D.ctx.G D.ctx.Inc i.premise i.conclusion)
    {ops : List (ℕ × EDB.Op α β)} (hf : OkRun E own D ops) (D' : DBs α β) (hD : D' = D.run E own ops) (k : ℕ) :
    ∀ i ∈ D'.lists (own k), HoldsIn D'.ctx.G D'.ctx.Inc i.premise i.conclusion := by
  subst hD
  exact (run_good hown (k := k) ⟨h, hne, ho k, hv k⟩ hf).valid

/-- C155: after a call that returned, the open implications of that database are exactly the implications of the
pseudo-intents relative to its background; if there are none, an implication holds in the context exactly if it follows
from the background. -/
theorem C155_shared_open {E : ℕ → EDB.Env α β} (hE : ∀ k, (E k).cond = fun _ => true) {own : ℕ → ℕ}
    (hown : ∀ k l, own k = own l) {D : DBs α β} (h : D.ctx.WFw) (hne : D.ctx.objects ≠ [])
    (ho : ∀ k, ∀ i ∈ D.lists (own k), i.premise ⊆ D.ctx.M ∧ i.conclusion ⊆ D.ctx.M)
    (hv : ∀ k, ∀ i ∈ D.lists (own k), HoldsIn D.ctx.G D.ctx.Inc i.premise i.conclusion)
    (hd : ∀ k, (D.lists (own k)).Pairwise fun i j => i.pyEq j = false)
    {ops : List (ℕ × EDB.Op α β)} {k : ℕ} {op : EDB.Op α β} (hf : OkRun E own D ops) (hop : (D.run E own ops).Ok E own k op)
    (D' : DBs α β) (hret : (D.run E own ops).exec E own k op = (D', none)) :
    (∀ x, x ∈ D'.opens k ↔ IsPseudo D'.ctx.M (specImps (D'.lists (own k))) (attrClosure D'.ctx.G D'.ctx.M D'.ctx.Inc) x.premise ∧
      x.conclusion = attrClosure D'.ctx.G D'.ctx.M D'.ctx.Inc x.premise) ∧
    (D'.opens k = [] → ∀ P C, P ⊆ D'.ctx.M → C ⊆ D'.ctx.M →
      (HoldsIn D'.ctx.G D'.ctx.Inc P C ↔ Entails (specImps (D'.lists (own k))) P C)) := by
  have hg := run_good hown (k := k) ⟨h, hne, ho k, hv k⟩ hf
  have hdi := run_distinct hE hown (k := k) ⟨h, hne, ho k, hv k⟩ (hd k) hf
  have hst := (step hg hop).2 (by rw [hret])
  have hdd := DBs.distinct_step hE hg hdi hop
  rw [hret] at hst hdd
  dsimp only at hst hdd
  refine ⟨fun x => hst.pseudo (hE k) hdd x, fun hnil P C hP hC => ?_⟩
  have hb := hst.basis
  unfold relBasis Ctx.computeDgBasis at hb
  rw [hE k] at hb
  have := C25_basis_complete hst.wf (E k).ordA (E k).ordO _ _ (.inr ⟨_, _, rfl, hdd⟩)
    (fun i hi => ⟨(hst.over i hi).2, hst.valid i hi⟩) _ hb P C hP hC
  have hn : (D'.view own k).openImps = [] := hnil
  rwa [hn, List.nil_append] at this

/-- C155: whatever was done to the context and to the lists by anybody, `touch()` returns and makes the open implications
those of the pseudo-intents relative to the background (equal implications counted together), and they hold in the
context. -/
theorem C155_touch {E : ℕ → EDB.Env α β} {own : ℕ → ℕ} {D : DBs α β} {k : ℕ} (hE : (E k).cond = fun _ => true)
    (h : D.ctx.WFw) (hne : D.ctx.objects ≠ []) (ho : ∀ i ∈ D.lists (own k), i.conclusion ⊆ D.ctx.M) :
    ∃ D', D.exec E own k .touch = (D', none) ∧ D'.ctx = D.ctx ∧ D'.lists = D.lists ∧ (∀ l, l ≠ k → D'.opens l = D.opens l) ∧
      ∀ x, (x ∈ D'.opens k ↔ IsPseudo D.ctx.M (specImps (earlyImps (D.lists (own k)))) (attrClosure D.ctx.G D.ctx.M D.ctx.Inc)
        x.premise ∧ x.conclusion = attrClosure D.ctx.G D.ctx.M D.ctx.Inc x.premise) ∧
        (x ∈ D'.opens k → HoldsIn D.ctx.G D.ctx.Inc x.premise x.conclusion) := by
  obtain ⟨r, hr⟩ := C24_basis_returns h hne (E k).ordA (E k).ordO (linClosure (E k).ord₀ (E k).ord) (D.lists (own k))
    (.inr ⟨_, _, rfl, List.Pairwise.nil⟩) ho (E k).cond
  have hr' : relBasis (E k) D.ctx (D.lists (own k)) = .ok r := hr
  refine ⟨⟨D.ctx, D.lists, Function.update D.opens k r⟩, ?_, rfl, rfl, fun l hl => by simp [hl], fun x => ?_⟩
  · unfold DBs.exec EDB.exec touch view EDB.modifier
    simp only [hr', Function.update_eq_self]
  · simp only [Function.update_self]
    rw [hE] at hr
    exact ⟨(dg_repeated h ho hr).1 x, fun hx => (C24_basis_sound h _ _ _ _ _ r hr x hx).1⟩

namespace DBs

def dwit : DBs (Fin 3) (Fin 2) :=
  ⟨⟨[0, 1], [0, 1], ⟨some 2, [[true, true], [false, true]]⟩⟩, fun _ => [], fun _ => [⟨∅, {1}⟩]⟩

def dwitEnv : ℕ → EDB.Env (Fin 3) (Fin 2) := fun _ =>
  ⟨fun _ => true, SetOrder.fin 2, SetOrder.fin 3, SetOrder.fin 2, fun _ => SetOrder.fin 2, SetOrder.fin 2, SetOrder.fin 3⟩

theorem dwit_wf : dwit.ctx.WFw := by constructor <;> decide +kernel

end DBs

/-- Non-vacuity: two databases with one list. Database 0 adds an object; database 1 confirms what is open; then nothing is
open for database 0 once it is touched. -/
example :
    OkRun dwitEnv (fun _ => 0) dwit [(0, .addExample 2 {1}), (1, .confirm ⟨∅, {1}⟩), (0, .addExample 1 {1}), (0, .touch)] ∧
    (dwit.run dwitEnv (fun _ => 0) [(0, .addExample 2 {1}), (1, .confirm ⟨∅, {1}⟩), (0, .touch)]).opens 0 = [] ∧
    (dwit.run dwitEnv (fun _ => 0) [(0, .addExample 2 {1}), (1, .confirm ⟨∅, {1}⟩)]).opens 0 = [⟨∅, {1}⟩] := by
  refine ⟨⟨trivial, ?_, trivial, trivial, trivial⟩, by decide +kernel, by decide +kernel⟩
  show (⟨∅, {1}⟩ : Imp (Fin 2)) ∈ _
  decide +kernel

/-- C155: without `touch()` a stale implication can be confirmed. Two new databases have the same empty list and the open
implication `→ 1`; database 0 adds an object without attributes, database 1 confirms `→ 1`; no call raises, and the shared
background is false then. -/
theorem C155_stale_violated : dwit.ctx.WFw ∧
    (∀ k, init (dwitEnv k) dwit.ctx [] = .ok (dwit.view (fun _ => 0) k)) ∧
    ∃ D₁ D₂, dwit.exec dwitEnv (fun _ => 0) 0 (.addExample 2 ∅) = (D₁, none) ∧ (⟨∅, {1}⟩ : Imp (Fin 2)) ∈ D₁.opens 1 ∧
      D₁.exec dwitEnv (fun _ => 0) 1 (.confirm ⟨∅, {1}⟩) = (D₂, none) ∧
      ∃ i ∈ D₂.lists 0, ¬ HoldsIn D₂.ctx.G D₂.ctx.Inc i.premise i.conclusion := by
  refine ⟨dwit_wf, fun k => ?_, (dwit.exec dwitEnv (fun _ => 0) 0 (.addExample 2 ∅)).1,
    ((dwit.exec dwitEnv (fun _ => 0) 0 (.addExample 2 ∅)).1.exec dwitEnv (fun _ => 0) 1 (.confirm ⟨∅, {1}⟩)).1, Prod.ext rfl (by decide +kernel), by decide +kernel, Prod.ext rfl (by decide +kernel),
    ⟨∅, {1}⟩, by decide +kernel, ?_⟩
  · show init (dwitEnv 0) dwit.ctx [] = .ok ⟨dwit.ctx, [], [⟨∅, {1}⟩]⟩
    decide +kernel
  · have h : ((dwit.exec dwitEnv (fun _ => 0) 0 (.addExample 2 ∅)).1.exec dwitEnv (fun _ => 0) 1 (.confirm ⟨∅, {1}⟩)).1.ctx =
        ⟨[0, 1, 2], [0, 1], ⟨some 2, [[true, true], [false, true], [false, false]]⟩⟩ := by decide +kernel
    have hw : (⟨[0, 1, 2], [0, 1], ⟨some 2, [[true, true], [false, true], [false, false]]⟩⟩ : Ctx (Fin 3) (Fin 2)).WFw := by
      constructor <;> decide +kernel
    rw [h]
    simp only [HoldsIn, ← hw.incB]
    decide +kernel

/-- C155: with lists of their own, databases do not protect each other. Database 1 confirms `→ 1`, which holds; database 0
adds an object without attributes; no call raises, every call is one of those considered, and the background of database 1
is false then. -/
theorem C155_own_lists_violated : dwit.ctx.WFw ∧ OkRun dwitEnv id dwit [(1, .confirm ⟨∅, {1}⟩), (0, .addExample 2 ∅)] ∧
    ∃ D₁ D₂, dwit.exec dwitEnv id 1 (.confirm ⟨∅, {1}⟩) = (D₁, none) ∧
      D₁.exec dwitEnv id 0 (.addExample 2 ∅) = (D₂, none) ∧
      ∃ i ∈ D₂.lists 1, ¬ HoldsIn D₂.ctx.G D₂.ctx.Inc i.premise i.conclusion := by
  refine ⟨dwit_wf, ⟨?_, trivial, trivial⟩, (dwit.exec dwitEnv id 1 (.confirm ⟨∅, {1}⟩)).1,
    ((dwit.exec dwitEnv id 1 (.confirm ⟨∅, {1}⟩)).1.exec dwitEnv id 0 (.addExample 2 ∅)).1, Prod.ext rfl (by decide +kernel), Prod.ext rfl (by decide +kernel),
    ⟨∅, {1}⟩, by decide +kernel, ?_⟩
  · show (⟨∅, {1}⟩ : Imp (Fin 2)) ∈ _
    decide +kernel
  · have h : ((dwit.exec dwitEnv id 1 (.confirm ⟨∅, {1}⟩)).1.exec dwitEnv id 0 (.addExample 2 ∅)).1.ctx =
        ⟨[0, 1, 2], [0, 1], ⟨some 2, [[true, true], [false, true], [false, false]]⟩⟩ := by decide +kernel
    have hw : (⟨[0, 1, 2], [0, 1], ⟨some 2, [[true, true], [false, true], [false, false]]⟩⟩ : Ctx (Fin 3) (Fin 2)).WFw := by
      constructor <;> decide +kernel
    rw [h]
    simp only [HoldsIn, ← hw.incB]
    decide +kernel
