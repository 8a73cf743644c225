/-
Properties of fca/algorithms/exploration2/exploration.py: C60, C76.
-/
import Verif.Model.Exploration2
import Verif.Props.ExplorationDB

set_option linter.unusedSectionVars false

open Spec

variable {α β : Type} [DecidableEq α] [DecidableEq β] [PyName α] [PyName β]

namespace E2

open Ctx BExp

/-- The calls considered in a state: a session accepts only its current candidates, and objects get new names. -/
def Op.Ok (E : EDB.Env α β) (s : E2 α β) : Op α β → Prop
  | .create => True
  | .accept k i => ∃ L, s.candidates E k = .ok L ∧ i ∈ L
  | .reject _ _ o _ => o ∉ s.ctx.objects
  | .addObject o _ => o ∉ s.ctx.objects

/-- Every call of the history is considered. -/
def OkRun (E : EDB.Env α β) : E2 α β → List (Op α β) → Prop
  | _, [] => True
  | s, op :: ops => op.Ok E s ∧ OkRun E (s.exec op).1 ops

/-- `EDB` state of the session created last. -/
def edb (s : E2 α β) (bg : List (Imp β)) : EDB α β := ⟨s.ctx, bg, []⟩

/-- What holds between the calls. -/
structure Inv (s : E2 α β) : Prop where
  wf : s.ctx.WFw
  one : s.ctx.objects ≠ []
  last : ∀ bg, s.sessions.getLast? = some bg → EDB.Good (s.edb bg) ∧ EDB.Distinct (s.edb bg)

omit [PyName α] [PyName β] in
theorem getLast?_set_of_lt {γ : Type} {l : List γ} {k : ℕ} {x y : γ} (h : (l.set k x).getLast? = some y) :
    y = x ∧ k + 1 = l.length ∨ l.getLast? = some y := by
  rw [List.getLast?_eq_getElem?, List.length_set, List.getElem?_set] at h
  rw [List.getLast?_eq_getElem?]
  split_ifs at h with h1 h2
  · exact .inl ⟨(Option.some.inj h).symm, by omega⟩
  · exact .inr h

theorem Inv.addObject {s : E2 α β} (h : Inv s) {o : α} (ho : o ∉ s.ctx.objects) (B : Finset β) :
    Inv (s.addObject o B).1 := by
  unfold E2.addObject
  split
  · exact h
  · rename_i bg hbg
    split_ifs with hc
    · obtain ⟨hg, hd⟩ := h.last bg hbg
      obtain ⟨t, h1, h2, h3, -⟩ := hg.addExample (n := o) ho hc
      have ht : t.ctx = (s.ctx.addObjectWithIntent B o).1 := by
        have := congrArg (fun r => r.1.ctx) h1
        exact this.symm
      have hwf := h3.wf
      have hone := h3.one
      rw [ht] at hwf hone
      refine ⟨hwf, hone, ?_⟩
      intro bg' hbg'
      have hb : bg' = bg := by
        have : s.sessions.getLast? = some bg' := hbg'
        rw [hbg] at this; exact (Option.some.inj this).symm
      subst hb
      refine ⟨⟨hwf, hone, ?_, ?_⟩, hd⟩
      · have := h3.over; rw [h2, ht] at this; exact this
      · have := h3.valid; rw [h2, ht] at this; exact this
    · exact h

theorem Inv.candidates {E : EDB.Env α β} {s : E2 α β} (h : Inv s) {k : ℕ} (hk : k + 1 = s.sessions.length) :
    ∃ bg L, s.sessions[k]? = some bg ∧ s.sessions.getLast? = some bg ∧ s.candidates E k = .ok L ∧
      EDB.Inv { E with cond := fun _ => true } ⟨s.ctx, bg, L⟩ ∧ EDB.Distinct (⟨s.ctx, bg, L⟩ : EDB α β) := by
  have hlt : k < s.sessions.length := by omega
  have hget : s.sessions[k]? = some s.sessions[k] := List.getElem?_eq_getElem hlt
  have hlast : s.sessions.getLast? = some s.sessions[k] := by
    rw [List.getLast?_eq_getElem?, ← hget]; congr 1; omega
  obtain ⟨hg, hd⟩ := h.last _ hlast
  obtain ⟨t, h1, h2, h3, h4⟩ := hg.modifier (E := { E with cond := fun _ => true })
  have hb := h4.basis
  rw [h2, h3] at hb
  refine ⟨_, t.openImps, hget, hlast, ?_, ⟨⟨h.wf, h.one, hg.over, hg.valid⟩, hb⟩, hd⟩
  unfold E2.candidates
  rw [hget]
  exact hb

theorem exec_inv {E : EDB.Env α β} {s : E2 α β} (h : Inv s) {op : Op α β} (hop : op.Ok E s) : Inv (s.exec op).1 := by
  cases op with
  | create =>
    refine ⟨h.wf, h.one, ?_⟩
    intro bg hbg
    have : bg = [] := by
      have : (s.sessions ++ [[]]).getLast? = some bg := hbg
      rw [List.getLast?_concat] at this
      exact (Option.some.inj this).symm
    subst this
    exact ⟨⟨h.wf, h.one, by simp [edb, BExp.Over], by simp [edb, Valid]⟩, List.Pairwise.nil⟩
  | addObject o B => exact h.addObject hop B
  | reject k i o B =>
    show Inv (s.reject k i o B).1
    unfold reject
    split
    · exact h
    · split_ifs
      · exact h.addObject hop B
      · exact h
  | accept k i =>
    show Inv (s.accept k i).1
    unfold accept
    split
    · exact h
    · rename_i bg hbg
      refine ⟨h.wf, h.one, ?_⟩
      intro bg' hbg'
      rcases getLast?_set_of_lt hbg' with ⟨rfl, hk⟩ | hl
      · obtain ⟨bg₁, L, h1, h2, h3, h4, h5⟩ := h.candidates (E := E) hk
        rw [hbg] at h1
        have hb := Option.some.inj h1
        subst hb
        obtain ⟨L', hL', hi⟩ := hop
        rw [h3] at hL'
        have hb := Except.ok.inj hL'
        subst hb
        obtain ⟨hp1, hp2⟩ := (h4.pseudo rfl h5 i).1 hi
        rw [IsPseudo] at hp1
        refine ⟨⟨h.wf, h.one, ?_, ?_⟩, EDB.distinct_confirm h5 hp1.2.1 ?_⟩
        · intro j hj
          rcases List.mem_append.1 hj with hj | hj
          · exact h4.over j hj
          · rw [List.mem_singleton.1 hj]; exact h4.openValid.2 i hi
        · intro j hj
          rcases List.mem_append.1 hj with hj | hj
          · exact h4.valid j hj
          · rw [List.mem_singleton.1 hj]; exact h4.openValid.1 i hi
        · rw [hp2]
          intro hs
          exact hp1.2.2.1 (Finset.Subset.antisymm hs (h.wf.attrClosure_op.ext _ hp1.1))
      · exact h.last bg' hl

theorem run_inv {E : EDB.Env α β} {ops : List (Op α β)} {s : E2 α β} (h : Inv s) (hf : OkRun E s ops) :
    Inv (run s ops) := by
  induction ops generalizing s with
  | nil => exact h
  | cons op ops ih => exact ih (exec_inv h hf.1) hf.2

theorem start_inv {c : Ctx α β} (h : c.WFw) (hne : c.objects ≠ []) : Inv (⟨c, []⟩ : E2 α β) :=
  ⟨h, hne, fun bg hbg => by simp at hbg⟩

theorem sessions_exec (s : E2 α β) (op : Op α β) :
    (s.exec op).1.sessions.length = s.sessions.length + (if op matches .create then 1 else 0) := by
  have hadd : ∀ o B, (s.addObject o B).1.sessions = s.sessions := by
    intro o B; unfold addObject; split
    · rfl
    · split_ifs <;> rfl
  cases op with
  | create => simp [exec, create]
  | addObject o B => simp [exec, hadd]
  | reject k i o B =>
    simp only [exec, reject]
    split
    · simp
    · cases i.isRespected B <;> simp [hadd]
  | accept k i =>
    simp only [exec, accept]
    split <;> simp

theorem sessions_run (s : E2 α β) (ops : List (Op α β)) :
    (run s ops).sessions.length = s.sessions.length + ops.countP (fun op => op matches .create) := by
  induction ops generalizing s with
  | nil => rfl
  | cons op ops ih =>
    show (run (s.exec op).1 ops).sessions.length = _
    rw [ih, sessions_exec, List.countP_cons]
    split <;> simp_all <;> omega

def wit : Ctx (Fin 3) (Fin 2) := ⟨[0], [0, 1], ⟨some 2, [[true, true]]⟩⟩

def witEnv : EDB.Env (Fin 3) (Fin 2) :=
  ⟨fun _ => true, SetOrder.fin 2, SetOrder.fin 3, SetOrder.fin 2, fun _ => SetOrder.fin 2, SetOrder.fin 2, SetOrder.fin 3⟩

theorem wit_wf : wit.WFw := by constructor <;> decide +kernel

end E2

open E2 Ctx

/-- The implications accepted in the session created last hold for every object of the context, after every history
of calls in any sessions and of the shared context. Missing from C60: the sessions created earlier (false, see below). -/
theorem C60_last_session_partial {E : EDB.Env α β} {c : Ctx α β} (h : c.WFw) (hne : c.objects ≠ [])
    {ops : List (E2.Op α β)} (hf : E2.OkRun E ⟨c, []⟩ ops) (s : E2 α β) (hs : s = E2.run ⟨c, []⟩ ops) {k : ℕ}
    (hk : k + 1 = s.sessions.length) {bg : List (Imp β)} (hbg : s.sessions[k]? = some bg) :
    ∀ i ∈ bg, HoldsIn s.ctx.G s.ctx.Inc i.premise i.conclusion ∧
      ∀ o S, s.ctx.objectIntent o = .ok S → i.isRespected S = true := by
  subst hs
  have hI := E2.run_inv (E2.start_inv h hne) hf
  obtain ⟨bg', L, h1, -, -, h4, -⟩ := hI.candidates (E := E) hk
  rw [hbg] at h1
  have hb := Option.some.inj h1
  subst hb
  intro i hi
  refine ⟨h4.valid i hi, ?_⟩
  intro o S hS
  by_cases hm : o ∈ (E2.run ⟨c, []⟩ ops).ctx.objects
  · rw [hI.wf.objectIntent hm] at hS
    rw [← Except.ok.inj hS, Imp.isRespected_iff']
    intro hp m hmc
    have hv := h4.valid i hi o (List.mem_toFinset.2 hm)
      (fun x hx => (hI.wf.mem_upF.1 (hp hx)).2 o (Finset.mem_singleton_self _)) m hmc
    exact hI.wf.mem_upF.2 ⟨(hv.mem).2, fun o' ho' => by rw [Finset.mem_singleton.1 ho']; exact hv⟩
  · rw [objectIntent_err hm] at hS
    simp at hS

/-- The same for every session if only one was ever created. -/
theorem C60_single_session_partial {E : EDB.Env α β} {c : Ctx α β} (h : c.WFw) (hne : c.objects ≠ [])
    {ops : List (E2.Op α β)} (hf : E2.OkRun E ⟨c, []⟩ ops) (h1 : ops.countP (fun op => op matches .create) ≤ 1)
    (s : E2 α β) (hs : s = E2.run ⟨c, []⟩ ops) {k : ℕ} {bg : List (Imp β)} (hbg : s.sessions[k]? = some bg) :
    ∀ i ∈ bg, HoldsIn s.ctx.G s.ctx.Inc i.premise i.conclusion := by
  have hl : s.sessions.length = 0 + ops.countP (fun op => op matches .create) := by
    rw [hs, E2.sessions_run]; rfl
  have hk : k < s.sessions.length := (List.getElem?_eq_some_iff.1 hbg).1
  exact fun i hi => (C60_last_session_partial h hne hf s hs (k := k) (by omega) hbg i hi).1

/-- `reject_implication` of an existing session, for all arguments: an intent that satisfies the implication raises
FalseCounterexample; otherwise an intent that violates an implication accepted in the session created last raises
IllegalContextModification; both leave everything unchanged. In the remaining case the object is stored with exactly
the attributes of the intent, the other objects keep theirs and the accepted implications of all sessions stay. -/
theorem C60_reject {s : E2 α β} (h : s.ctx.WFw) (hne : s.ctx.objects ≠ []) {k : ℕ} (hk : k < s.sessions.length) {bg : List (Imp β)}
    (hbg : s.sessions.getLast? = some bg) (imp : Imp β) {o : α} (ho : o ∉ s.ctx.objects) (B : Finset β) :
    ((imp.premise ⊆ B → imp.conclusion ⊆ B) → s.reject k imp o B = (s, some .falseCounterexample)) ∧
    (¬ (imp.premise ⊆ B → imp.conclusion ⊆ B) → (∃ i ∈ bg, i.premise ⊆ B ∧ ¬ i.conclusion ⊆ B) →
      s.reject k imp o B = (s, some .illegalContextModification)) ∧
    (¬ (imp.premise ⊆ B → imp.conclusion ⊆ B) → (∀ i ∈ bg, i.premise ⊆ B → i.conclusion ⊆ B) →
      ∃ t, s.reject k imp o B = (t, none) ∧ t.sessions = s.sessions ∧ t.ctx.WFw ∧
        t.ctx.objects = s.ctx.objects ++ [o] ∧ t.ctx.attributes = s.ctx.attributes ∧
        ∀ g m, t.ctx.Inc g m ↔ (g = o ∧ m ∈ s.ctx.attributes ∧ m ∈ B) ∨ (g ≠ o ∧ s.ctx.Inc g m)) := by
  have hr : s.reject k imp o B = if !(imp.isRespected B) then s.addObject o B else (s, some .falseCounterexample) := by
    unfold E2.reject; rw [List.getElem?_eq_getElem hk]
  have ha : s.addObject o B = if (bg.all fun i => i.isRespected B) = true then
      ({ s with ctx := (s.ctx.addObjectWithIntent B o).1 }, (s.ctx.addObjectWithIntent B o).2)
      else (s, some .illegalContextModification) := by
    unfold E2.addObject; rw [hbg]
  refine ⟨fun h1 => ?_, fun h1 h2 => ?_, fun h1 h2 => ?_⟩
  · rw [hr, (Imp.isRespected_iff' imp B).2 h1]; rfl
  · have h1' : imp.isRespected B = false := by
      rw [← Bool.not_eq_true, Imp.isRespected_iff']; exact h1
    obtain ⟨i, hi, hp, hc⟩ := h2
    rw [hr, h1', ha, if_pos (show (!false) = true from rfl), if_neg]
    intro hall
    exact hc ((Imp.isRespected_iff' i B).1 (List.all_eq_true.1 hall i hi) hp)
  · have h1' : imp.isRespected B = false := by
      rw [← Bool.not_eq_true, Imp.isRespected_iff']; exact h1
    obtain ⟨c', e1, e2, e3, e4, e5⟩ := BExp.add_object_ctx h hne ho B
    refine ⟨{ s with ctx := c' }, ?_, rfl, e2, e3, e4, e5⟩
    rw [hr, h1', ha, if_pos (show (!false) = true from rfl), if_pos (List.all_eq_true.2 fun i hi => (Imp.isRespected_iff' i B).2 (h2 i hi)), e1]

/-- `add_object` of the shared `ExplorationContext`, for all arguments: before the first session it raises
AttributeError, and with an intent that violates an implication accepted in the session created last
IllegalContextModification; both leave everything unchanged. Otherwise the object is stored with exactly the attributes
of the intent. -/
theorem C60_add_object {s : E2 α β} (h : s.ctx.WFw) (hne : s.ctx.objects ≠ []) {o : α} (ho : o ∉ s.ctx.objects) (B : Finset β) :
    (s.sessions = [] → s.addObject o B = (s, some .attributeError)) ∧
    ∀ bg, s.sessions.getLast? = some bg →
      ((∃ i ∈ bg, i.premise ⊆ B ∧ ¬ i.conclusion ⊆ B) → s.addObject o B = (s, some .illegalContextModification)) ∧
      ((∀ i ∈ bg, i.premise ⊆ B → i.conclusion ⊆ B) →
        ∃ t, s.addObject o B = (t, none) ∧ t.sessions = s.sessions ∧ t.ctx.WFw ∧
          t.ctx.objects = s.ctx.objects ++ [o] ∧ t.ctx.attributes = s.ctx.attributes ∧
          ∀ g m, t.ctx.Inc g m ↔ (g = o ∧ m ∈ s.ctx.attributes ∧ m ∈ B) ∨ (g ≠ o ∧ s.ctx.Inc g m)) := by
  refine ⟨fun h0 => by unfold E2.addObject; rw [h0]; rfl, fun bg hbg => ?_⟩
  have ha : s.addObject o B = if (bg.all fun i => i.isRespected B) = true then
      ({ s with ctx := (s.ctx.addObjectWithIntent B o).1 }, (s.ctx.addObjectWithIntent B o).2)
      else (s, some .illegalContextModification) := by
    unfold E2.addObject; rw [hbg]
  refine ⟨fun h2 => ?_, fun h2 => ?_⟩
  · obtain ⟨i, hi, hp, hc⟩ := h2
    rw [ha, if_neg]
    intro hall
    exact hc ((Imp.isRespected_iff' i B).1 (List.all_eq_true.1 hall i hi) hp)
  · obtain ⟨c', e1, e2, e3, e4, e5⟩ := BExp.add_object_ctx h hne ho B
    refine ⟨{ s with ctx := c' }, ?_, rfl, e2, e3, e4, e5⟩
    rw [ha, if_pos (List.all_eq_true.2 fun i hi => (Imp.isRespected_iff' i B).2 (h2 i hi)), e1]

example : ((⟨E2.wit, []⟩ : E2 (Fin 3) (Fin 2)).addObject 1 {1}).2 = some .attributeError ∧
    ((E2.run ⟨E2.wit, []⟩ [.create]).addObject 1 {1}).2 = none := by
  decide +kernel

/-- A state and arguments for each of the three cases of `C60_reject`. -/
example : let s : E2 (Fin 3) (Fin 2) := E2.run ⟨E2.wit, []⟩ [.create, .accept 0 ⟨∅, {1}⟩]
    s.ctx.objects ≠ [] ∧ s.sessions.getLast? = some [⟨∅, {1}⟩] ∧ 1 ∉ s.ctx.objects ∧
    (s.reject 0 ⟨∅, {0}⟩ 1 {0}).2 = some .falseCounterexample ∧
    (s.reject 0 ⟨∅, {0}⟩ 1 ∅).2 = some .illegalContextModification ∧
    (s.reject 0 ⟨∅, {0}⟩ 1 {1}).2 = none := by
  decide +kernel

/-- If the session created last has no candidates, its accepted implications derive exactly what holds in the context. -/
theorem C76_no_candidates_complete {E : EDB.Env α β} {c : Ctx α β} (h : c.WFw) (hne : c.objects ≠ [])
    {ops : List (E2.Op α β)} (hf : E2.OkRun E ⟨c, []⟩ ops) (s : E2 α β) (hs : s = E2.run ⟨c, []⟩ ops) {k : ℕ}
    (hk : k + 1 = s.sessions.length) (hc : s.candidates E k = .ok []) {bg : List (Imp β)}
    (hbg : s.sessions[k]? = some bg) {P C : Finset β} (hP : P ⊆ s.ctx.M) (hC : C ⊆ s.ctx.M) :
    HoldsIn s.ctx.G s.ctx.Inc P C ↔ Entails (specImps bg) P C := by
  subst hs
  have hI := E2.run_inv (E2.start_inv h hne) hf
  obtain ⟨bg', L, h1, -, h3, h4, h5⟩ := hI.candidates (E := E) hk
  rw [hbg] at h1
  have hb := Option.some.inj h1
  subst hb
  rw [hc] at h3
  have hb := Except.ok.inj h3
  subst hb
  have := C25_basis_complete hI.wf E.ordA E.ordO _ _ (.inr ⟨_, _, rfl, h5⟩)
    (fun i hi => ⟨(h4.over i hi).2, h4.valid i hi⟩) _ h4.basis P C hP hC
  rwa [List.nil_append] at this

/-- Candidates can always be computed, and no candidate follows from the implications accepted in the session created
last. -/
theorem C76_candidates_new {E : EDB.Env α β} {c : Ctx α β} (h : c.WFw) (hne : c.objects ≠ [])
    {ops : List (E2.Op α β)} (hf : E2.OkRun E ⟨c, []⟩ ops) (s : E2 α β) (hs : s = E2.run ⟨c, []⟩ ops) {k : ℕ}
    (hk : k + 1 = s.sessions.length) {bg : List (Imp β)} (hbg : s.sessions[k]? = some bg) :
    ∃ L, s.candidates E k = .ok L ∧ ∀ i ∈ L, HoldsIn s.ctx.G s.ctx.Inc i.premise i.conclusion ∧
      ¬ Entails (specImps bg) i.premise i.conclusion := by
  subst hs
  have hI := E2.run_inv (E2.start_inv h hne) hf
  obtain ⟨bg', L, h1, -, h3, h4, h5⟩ := hI.candidates (E := E) hk
  rw [hbg] at h1
  have hb := Option.some.inj h1
  subst hb
  refine ⟨L, h3, fun i hi => ⟨h4.openValid.1 i hi, ?_⟩⟩
  obtain ⟨hp1, hp2⟩ := (h4.pseudo rfl h5 i).1 hi
  rw [IsPseudo] at hp1
  intro he
  have := he i.premise hp1.2.1 (Finset.Subset.refl _)
  rw [hp2] at this
  exact hp1.2.2.1 (Finset.Subset.antisymm this (hI.wf.attrClosure_op.ext _ hp1.1))

/-- A session accepts `∅ → {0, 1}`, rejecting the counter example `{1}`; with a second session the same counter example
is taken over into the shared context, whatever session it is given in. -/
theorem C60_two_sessions_violated :
    ((E2.run ⟨E2.wit, []⟩ [.create]).candidates E2.witEnv 0 = .ok [⟨∅, {0, 1}⟩]) ∧
    (E2.exec (E2.run ⟨E2.wit, []⟩ [.create, .accept 0 ⟨∅, {0, 1}⟩]) (.reject 0 ⟨∅, {0}⟩ 1 {1})).2 =
      some .illegalContextModification ∧
    E2.OkRun E2.witEnv ⟨E2.wit, []⟩ [.create, .accept 0 ⟨∅, {0, 1}⟩, .create, .reject 0 ⟨∅, {0}⟩ 1 {1}] ∧
    ∃ s : E2 (Fin 3) (Fin 2),
      s = E2.run ⟨E2.wit, []⟩ [.create, .accept 0 ⟨∅, {0, 1}⟩, .create, .reject 0 ⟨∅, {0}⟩ 1 {1}] ∧
      s.sessions[0]? = some [⟨∅, {0, 1}⟩] ∧ ¬ HoldsIn s.ctx.G s.ctx.Inc ∅ {0, 1} := by
  have hc : (E2.run ⟨E2.wit, []⟩ [.create]).candidates E2.witEnv 0 = .ok [⟨∅, {0, 1}⟩] := by decide +kernel
  refine ⟨hc, by decide +kernel, ⟨trivial, ⟨_, hc, by simp⟩, trivial, ?_, trivial⟩, _, rfl, by decide +kernel, ?_⟩
  · show (1 : Fin 3) ∉ _
    decide +kernel
  · have h : (E2.run ⟨E2.wit, []⟩ [.create, .accept 0 ⟨∅, {0, 1}⟩, .create, .reject 0 ⟨∅, {0}⟩ 1 {1}]).ctx =
        ⟨[0, 1], [0, 1], ⟨some 2, [[true, true], [false, true]]⟩⟩ := by decide +kernel
    have hw : (⟨[0, 1], [0, 1], ⟨some 2, [[true, true], [false, true]]⟩⟩ : Ctx (Fin 3) (Fin 2)).WFw := by
      constructor <;> decide +kernel
    rw [h]
    simp only [HoldsIn, ← hw.incB]
    decide +kernel

example : E2.wit.WFw ∧ E2.wit.objects ≠ [] ∧
    E2.OkRun E2.witEnv ⟨E2.wit, []⟩ [.create, .reject 0 ⟨∅, {0}⟩ 1 {1}, .accept 0 ⟨∅, {1}⟩] ∧
    (E2.run ⟨E2.wit, []⟩ [.create, .reject 0 ⟨∅, {0}⟩ 1 {1}, .accept 0 ⟨∅, {1}⟩]).sessions = [[⟨∅, {1}⟩]] ∧
    (E2.run ⟨E2.wit, []⟩ [.create, .reject 0 ⟨∅, {0}⟩ 1 {1}, .accept 0 ⟨∅, {1}⟩]).candidates E2.witEnv 0 = .ok [] := by
  refine ⟨E2.wit_wf, by decide, ⟨trivial, ?_, ⟨[⟨∅, {1}⟩], by decide +kernel, by simp⟩, trivial⟩, by decide +kernel,
    by decide +kernel⟩
  show (1 : Fin 3) ∉ _
  decide +kernel
