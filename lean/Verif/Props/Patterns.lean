/-
Properties of fca/algorithms/patterns.py: C61, C62, C77.
-/
import Verif.Model.Patterns
import Verif.Props.Context
import Verif.Props.Reduce
import Verif.Props.Lattice

set_option linter.unusedSectionVars false

open Spec

variable {α β : Type} [DecidableEq α] [DecidableEq β] [PyName α] [PyName β]

namespace PExp

open Ctx

/-- In the table `(G, I)` the attributes `p` occur in rows with all attributes of `M` only. -/
def OnlyFull (G : Finset α) (M : Finset β) (I : α → β → Prop) (p : Finset β) : Prop :=
  ∀ g ∈ G, (∀ m ∈ p, I g m) → ∀ m ∈ M, I g m

theorem aclosure_full {c : Ctx α β} (h : c.WF) {l : List β} (hl : ∀ a ∈ l, a ∈ c.attributes) :
    ∃ S, c.aclosure l = .ok S ∧ (S = c.attributes.toFinset ↔ OnlyFull c.G c.M c.Inc l.toFinset) := by
  refine ⟨_, h.aclosure hl, ?_⟩
  have hmem : ∀ m, m ∈ c.upF (c.downF l.toFinset) ↔ m ∈ c.attributes ∧
      ∀ g ∈ c.objects, (∀ b ∈ l, c.Inc g b) → c.Inc g m := by
    intro m
    rw [h.mem_upF]
    simp only [h.mem_downF, List.mem_toFinset, and_imp]
  constructor
  · intro he g hg hp m hm
    have : m ∈ c.upF (c.downF l.toFinset) := by rw [he]; exact hm
    exact ((hmem m).1 this).2 g (List.mem_toFinset.1 hg) (fun b hb => hp b (List.mem_toFinset.2 hb))
  · intro ho
    ext m
    rw [hmem, List.mem_toFinset]
    refine ⟨fun hh => hh.1, fun hm => ⟨hm, fun g hg hp => ?_⟩⟩
    exact ho g (List.mem_toFinset.2 hg) (fun b hb => hp b (List.mem_toFinset.1 hb)) m (List.mem_toFinset.2 hm)

theorem aclosure_err {c : Ctx α β} {l : List β} (hl : ∃ a ∈ l, a ∉ c.attributes) : c.aclosure l = .error .keyError := by
  unfold Ctx.aclosure
  rw [mapM_lastIdx_err hl]; rfl

/-- What holds between the calls. -/
structure Inv (s : PExp α β) : Prop where
  pos : s.pos.WF
  neg : s.neg.WF
  same : s.pos.M = s.neg.M
  sub : ∀ p ∈ s.confirmed, p ⊆ s.neg.M

/-- The calls considered: new objects get new names. -/
def Op.Ok (s : PExp α β) : Op α β → Prop
  | .confirm _ => True
  | .addNegative n _ _ => n ∉ s.neg.objects
  | .addPositive n _ => n ∉ s.pos.objects

/-- Every call of the history is considered and satisfies `Q`. -/
def OkRun (Q : PExp α β → Op α β → Prop) : PExp α β → List (Op α β) → Prop
  | _, [] => True
  | s, op :: ops => op.Ok s ∧ Q s op ∧ OkRun Q (s.exec op).1 ops

theorem wf_of_one {c : Ctx α β} (h : c.WFw) (hne : c.objects ≠ []) : c.WF :=
  ⟨h, .inr (h.cols hne)⟩

/-- Adding an object: nothing changes, or the row is appended. -/
theorem add_row {c : Ctx α β} (h : c.WF) {n : α} (hn : n ∉ c.objects) (B : Finset β) {m : Ctx.Mut α β}
    (hm : m = c.addObjectWithIntent B n) :
    m.1.WF ∧ m.1.attributes = c.attributes ∧ (m.1 = c ∨ m.1.objects = c.objects ++ [n] ∧
      ∀ o a, m.1.Inc o a ↔ (o = n ∧ a ∈ c.attributes ∧ a ∈ B) ∨ (o ≠ n ∧ c.Inc o a)) := by
  rcases m with ⟨c', _ | e⟩
  · have hst := h.toWFw.stores.exec (op := .addObjectWithIntent B n) hn hm.symm
    have ho : c'.objects = c.objects ++ [n] := hst.objs
    refine ⟨wf_of_one hst.wf (by rw [ho]; simp), hst.atts, .inr ⟨ho, ?_⟩⟩
    intro o a
    show c'.Inc o a ↔ _
    rw [hst.inc]
    simp only [Table.apply, List.mem_append, List.mem_singleton]
    by_cases ho : o = n
    · simp [ho]
    · simp only [ho, or_false, if_false, false_and, not_false_eq_true, true_and, false_or, ne_eq]
      rw [← h.incB]
      constructor
      · exact fun hh => hh.2.2
      · intro hi; exact ⟨((h.incB _ _).1 hi).mem.1, ((h.incB _ _).1 hi).mem.2, hi⟩
  · have hc : c' = c := Ctx.C03_failed_unchanged (op := .addObjectWithIntent B n) hm.symm
    subst hc
    exact ⟨h, rfl, .inl rfl⟩

theorem init_inv {pos neg : Ctx α β} (hp : pos.WF) (hn : neg.WF) {s : PExp α β} (hi : init pos neg = .ok s) :
    Inv s ∧ s.pos = pos ∧ s.neg = neg ∧ s.confirmed = [] := by
  have hd : ∀ {c : Ctx α β}, c.WF → c.deepcopy = .ok c := by
    intro c h
    unfold Ctx.deepcopy
    rw [ofNd_ok h.nrows h.width h.onodup h.anodup]
  unfold init at hi
  rw [hd hp, hd hn] at hi
  split_ifs at hi with he
  simp only [py_ok_bind] at hi
  have := Except.ok.inj hi
  subst this
  exact ⟨⟨hp, hn, not_not.1 he, by simp⟩, rfl, rfl, rfl⟩

/-- What `confirm_pattern` does. -/
theorem confirm_spec {s : PExp α β} (h : Inv s) (l : List β) :
    (s.confirm l = ({ s with confirmed := s.confirmed ++ [l.toFinset] }, none) ∧ l.toFinset ⊆ s.neg.M ∧
      ¬ OnlyFull s.pos.G s.pos.M s.pos.Inc l.toFinset ∧ OnlyFull s.neg.G s.neg.M s.neg.Inc l.toFinset) ∨
    (∃ e, s.confirm l = (s, some e)) ∧ ¬ (l.toFinset ⊆ s.neg.M ∧
      ¬ OnlyFull s.pos.G s.pos.M s.pos.Inc l.toFinset ∧ OnlyFull s.neg.G s.neg.M s.neg.Inc l.toFinset) := by
  by_cases hl : ∀ a ∈ l, a ∈ s.neg.attributes
  · have hl' : ∀ a ∈ l, a ∈ s.pos.attributes := by
      intro a ha
      have : a ∈ s.pos.M := by rw [h.same]; exact List.mem_toFinset.2 (hl a ha)
      exact List.mem_toFinset.1 this
    have hsub : l.toFinset ⊆ s.neg.M := fun a ha => List.mem_toFinset.2 (hl a (List.mem_toFinset.1 ha))
    obtain ⟨S, h1, h2⟩ := aclosure_full h.pos hl'
    obtain ⟨T, h3, h4⟩ := aclosure_full h.neg hl
    unfold confirm
    rw [h1, h3]
    dsimp only
    by_cases hS : S = s.pos.attributes.toFinset
    · rw [if_pos hS]
      exact .inr ⟨⟨_, rfl⟩, fun hh => hh.2.1 (h2.1 hS)⟩
    · rw [if_neg hS]
      by_cases hT : T = s.neg.attributes.toFinset
      · rw [if_neg (not_not.2 hT)]
        exact .inl ⟨rfl, hsub, fun ho => hS (h2.2 ho), h4.1 hT⟩
      · rw [if_pos hT]
        exact .inr ⟨⟨_, rfl⟩, fun hh => hT (h4.2 hh.2.2)⟩
  · push Not at hl
    have hl' : ∃ a ∈ l, a ∉ s.pos.attributes := by
      obtain ⟨a, ha, hna⟩ := hl
      refine ⟨a, ha, fun hh => hna ?_⟩
      have : a ∈ s.neg.M := by rw [← h.same]; exact List.mem_toFinset.2 hh
      exact List.mem_toFinset.1 this
    unfold confirm
    rw [aclosure_err hl']
    refine .inr ⟨⟨_, rfl⟩, fun hh => ?_⟩
    obtain ⟨a, ha, hna⟩ := hl
    exact hna (List.mem_toFinset.1 (hh.1 (List.mem_toFinset.2 ha)))

theorem addNegative_eq (s : PExp α β) (n : α) (B : Finset β) (p : Option (List β)) :
    (s.addNegative n B p).1 = s ∨
      (s.addNegative n B p).1 = { s with neg := (s.neg.addObjectWithIntent B n).1 } := by
  unfold addNegative
  split
  · split_ifs
    · exact .inl rfl
    · exact .inr rfl
  · exact .inr rfl

theorem exec_inv {s : PExp α β} (h : Inv s) {op : Op α β} (hop : op.Ok s) : Inv (s.exec op).1 := by
  cases op with
  | confirm l =>
    rcases confirm_spec h l with ⟨h1, h2, -, -⟩ | ⟨⟨e, h1⟩, -⟩
    · show Inv (s.confirm l).1
      rw [h1]
      refine ⟨h.pos, h.neg, h.same, ?_⟩
      intro p hp
      rcases List.mem_append.1 hp with hp | hp
      · exact h.sub p hp
      · rw [List.mem_singleton.1 hp]; exact h2
    · show Inv (s.confirm l).1
      rw [h1]; exact h
  | addNegative n B p =>
    show Inv (s.addNegative n B p).1
    rcases addNegative_eq s n B p with h1 | h1
    · rw [h1]; exact h
    · rw [h1]
      obtain ⟨h2, h3, -⟩ := add_row h.neg hop B rfl
      have hM : (s.neg.addObjectWithIntent B n).1.M = s.neg.M := by unfold Ctx.M; rw [h3]
      exact ⟨h.pos, h2, by rw [hM]; exact h.same, by rw [hM]; exact h.sub⟩
  | addPositive n B =>
    obtain ⟨h2, h3, -⟩ := add_row h.pos hop B rfl
    have hM : (s.pos.addObjectWithIntent B n).1.M = s.pos.M := by unfold Ctx.M; rw [h3]
    exact ⟨h2, h.neg, by show (s.pos.addObjectWithIntent B n).1.M = s.neg.M; rw [hM]; exact h.same, h.sub⟩

theorem run_inv {Q : PExp α β → Op α β → Prop} {ops : List (Op α β)} {s : PExp α β} (h : Inv s)
    (hf : OkRun Q s ops) : Inv (run s ops) := by
  induction ops generalizing s with
  | nil => exact h
  | cons op ops ih => exact ih (exec_inv h hf.1) hf.2.2

/-- The negative examples added do not contain a confirmed pattern, or have all attributes. -/
def Truthful (s : PExp α β) : Op α β → Prop
  | .addNegative _ B _ => ∀ p ∈ s.confirmed, p ⊆ B → s.neg.M ⊆ B
  | _ => True

theorem exec_onlyFull {s : PExp α β} (h : Inv s) (hs : ∀ p ∈ s.confirmed, OnlyFull s.neg.G s.neg.M s.neg.Inc p)
    {op : Op α β} (hop : op.Ok s) (ht : Truthful s op) :
    ∀ p ∈ (s.exec op).1.confirmed,
      OnlyFull (s.exec op).1.neg.G (s.exec op).1.neg.M (s.exec op).1.neg.Inc p := by
  cases op with
  | confirm l =>
    show ∀ p ∈ (s.confirm l).1.confirmed, OnlyFull (s.confirm l).1.neg.G (s.confirm l).1.neg.M (s.confirm l).1.neg.Inc p
    rcases confirm_spec h l with ⟨h1, -, -, h2⟩ | ⟨⟨e, h1⟩, -⟩
    · rw [h1]
      intro p hp
      rcases List.mem_append.1 hp with hp | hp
      · exact hs p hp
      · rw [List.mem_singleton.1 hp]; exact h2
    · rw [h1]; exact hs
  | addPositive n B => exact hs
  | addNegative n B p =>
    show ∀ q ∈ (s.addNegative n B p).1.confirmed, OnlyFull (s.addNegative n B p).1.neg.G
      (s.addNegative n B p).1.neg.M (s.addNegative n B p).1.neg.Inc q
    rcases addNegative_eq s n B p with h1 | h1
    · rw [h1]; exact hs
    · rw [h1]
      intro q hq
      obtain ⟨h2, h3, h4⟩ := add_row h.neg hop B rfl
      rcases h4 with h4 | ⟨h4, h5⟩
      · dsimp only
        rw [h4]; exact hs q hq
      · have hM : (s.neg.addObjectWithIntent B n).1.M = s.neg.M := by unfold Ctx.M; rw [h3]
        dsimp only
        rw [hM]
        intro g hg hp m hm
        rw [h5]
        have hma : m ∈ s.neg.attributes := List.mem_toFinset.1 hm
        by_cases hgn : g = n
        · refine .inl ⟨hgn, hma, ht q hq ?_ hm⟩
          intro x hx
          rcases (h5 g x).1 (hp x hx) with hh | hh
          · exact hh.2.2
          · exact absurd hgn hh.1
        · refine .inr ⟨hgn, ?_⟩
          have hg' : g ∈ s.neg.G := by
            have : g ∈ (s.neg.addObjectWithIntent B n).1.objects := List.mem_toFinset.1 hg
            rw [h4, List.mem_append, List.mem_singleton] at this
            exact List.mem_toFinset.2 (this.resolve_right hgn)
          refine hs q hq g hg' (fun x hx => ?_) m hm
          rcases (h5 g x).1 (hp x hx) with hh | hh
          · exact absurd hh.1 hgn
          · exact hh.2

theorem run_onlyFull {ops : List (Op α β)} {s : PExp α β} (h : Inv s)
    (hs : ∀ p ∈ s.confirmed, OnlyFull s.neg.G s.neg.M s.neg.Inc p) (hf : OkRun Truthful s ops) :
    ∀ p ∈ (run s ops).confirmed, OnlyFull (run s ops).neg.G (run s ops).neg.M (run s ops).neg.Inc p := by
  induction ops generalizing s with
  | nil => exact hs
  | cons op ops ih => exact ih (exec_inv h hf.1) (exec_onlyFull h hs hf.1 hf.2.1) hf.2.2

theorem exec_confirmed (s : PExp α β) (op : Op α β) : s.confirmed <+: (s.exec op).1.confirmed := by
  cases op with
  | confirm l =>
    show s.confirmed <+: (s.confirm l).1.confirmed
    unfold confirm
    split
    · exact List.prefix_rfl
    · split_ifs
      · exact List.prefix_rfl
      · split
        · exact List.prefix_rfl
        · split_ifs
          · exact List.prefix_rfl
          · exact List.prefix_append _ _
  | addPositive n B => exact List.prefix_rfl
  | addNegative n B p =>
    show s.confirmed <+: (s.addNegative n B p).1.confirmed
    rcases addNegative_eq s n B p with h1 | h1 <;> rw [h1]

theorem run_confirmed (s : PExp α β) (ops : List (Op α β)) : s.confirmed <+: (run s ops).confirmed := by
  induction ops generalizing s with
  | nil => exact List.prefix_rfl
  | cons op ops ih => exact (exec_confirmed s op).trans (ih _)

theorem isExplained_iff {s : PExp α β} {B : Finset β} : s.isExplained B = true ↔ ∃ p ∈ s.confirmed, p ⊆ B := by
  simp [isExplained]

theorem iterUnexplained_ok {s : PExp α β} (h : s.pos.WFw) :
    s.iterUnexplained = .ok ((s.pos.objects.map fun o => (o, s.pos.upF {o})).filter fun x => !(s.isExplained x.2)) := by
  have hm : ((List.range s.pos.objects.length).mapM fun i => do
      let o ← pyGet s.pos.objects i
      let B ← s.pos.intentByIndex i
      .ok (o, B) : Py (List (α × Finset β))) = .ok (s.pos.objects.map fun o => (o, s.pos.upF {o})) := by
    apply mapM_range
    intro i o hi
    rw [pyGet_ok hi, py_ok_bind, h.intentByIndex hi, py_ok_bind]
  unfold iterUnexplained
  rw [hm, py_ok_bind]

end PExp

open PExp Ctx

/-! ### C61 -/

/-- `confirm_pattern` succeeds exactly for names of attributes that occur together in a positive object lacking some
attribute, and in no negative object lacking some attribute; otherwise it raises and changes nothing. -/
theorem C61_confirm_exact {pos neg : Ctx α β} (hp : pos.WF) (hn : neg.WF) {s₀ : PExp α β}
    (hi : PExp.init pos neg = .ok s₀) {ops : List (PExp.Op α β)} (hf : PExp.OkRun (fun _ _ => True) s₀ ops)
    (s : PExp α β) (hs : s = PExp.run s₀ ops) (l : List β) :
    (s.confirm l = ({ s with confirmed := s.confirmed ++ [l.toFinset] }, none) ∨ ∃ e, s.confirm l = (s, some e)) ∧
    ((s.confirm l).2 = none ↔ l.toFinset ⊆ s.neg.M ∧
      (∃ g ∈ s.pos.G, (∀ m ∈ l, s.pos.Inc g m) ∧ ∃ m ∈ s.pos.M, ¬ s.pos.Inc g m) ∧
      ∀ g ∈ s.neg.G, (∀ m ∈ l, s.neg.Inc g m) → ∀ m ∈ s.neg.M, s.neg.Inc g m) := by
  subst hs
  have hI := PExp.run_inv (PExp.init_inv hp hn hi).1 hf
  have hpos : ¬ OnlyFull (PExp.run s₀ ops).pos.G (PExp.run s₀ ops).pos.M (PExp.run s₀ ops).pos.Inc l.toFinset ↔
      ∃ g ∈ (PExp.run s₀ ops).pos.G, (∀ m ∈ l, (PExp.run s₀ ops).pos.Inc g m) ∧
        ∃ m ∈ (PExp.run s₀ ops).pos.M, ¬ (PExp.run s₀ ops).pos.Inc g m := by
    unfold OnlyFull
    simp only [List.mem_toFinset]
    push Not
    rfl
  have hneg : OnlyFull (PExp.run s₀ ops).neg.G (PExp.run s₀ ops).neg.M (PExp.run s₀ ops).neg.Inc l.toFinset ↔
      ∀ g ∈ (PExp.run s₀ ops).neg.G, (∀ m ∈ l, (PExp.run s₀ ops).neg.Inc g m) →
        ∀ m ∈ (PExp.run s₀ ops).neg.M, (PExp.run s₀ ops).neg.Inc g m := by
    unfold OnlyFull
    simp only [List.mem_toFinset]
  rw [← hpos, ← hneg]
  rcases PExp.confirm_spec hI l with ⟨h1, h2⟩ | ⟨⟨e, h1⟩, h2⟩
  · rw [h1]
    exact ⟨.inl rfl, iff_of_true rfl h2⟩
  · rw [h1]
    exact ⟨.inr ⟨e, rfl⟩, iff_of_false (by simp) h2⟩

/-- If the negative examples added contain no pattern confirmed before (or have all attributes), no object of the negative
context contains a confirmed pattern, except for objects with all attributes. Missing from C61: other negative examples,
which `add_negative_example` does not refuse (see below). -/
theorem C61_confirmed_patterns_partial {pos neg : Ctx α β} (hp : pos.WF) (hn : neg.WF) {s₀ : PExp α β}
    (hi : PExp.init pos neg = .ok s₀) {ops : List (PExp.Op α β)} (hf : PExp.OkRun PExp.Truthful s₀ ops)
    (s : PExp α β) (hs : s = PExp.run s₀ ops) :
    ∀ p ∈ s.confirmed, p ⊆ s.neg.M ∧ ∀ g ∈ s.neg.G, (∀ m ∈ p, s.neg.Inc g m) → ∀ m ∈ s.neg.M, s.neg.Inc g m := by
  subst hs
  obtain ⟨h1, h2, h3, h4⟩ := PExp.init_inv hp hn hi
  intro p hp'
  exact ⟨(PExp.run_inv h1 hf).sub p hp', PExp.run_onlyFull h1 (by rw [h4]; simp) hf p hp'⟩

namespace PExp

def witPos : Ctx (Fin 3) (Fin 3) := ⟨[0, 1], [0, 1, 2], ⟨some 3, [[true, true, false], [false, true, true]]⟩⟩

def witNeg : Ctx (Fin 3) (Fin 3) := ⟨[0], [0, 1, 2], ⟨some 3, [[false, true, false]]⟩⟩

theorem witPos_wf : witPos.WF := ⟨by constructor <;> decide +kernel, .inr rfl⟩

theorem witNeg_wf : witNeg.WF := ⟨by constructor <;> decide +kernel, .inr rfl⟩

deriving instance DecidableEq for PExp

end PExp

example : PExp.init witPos witNeg = .ok ⟨witPos, witNeg, []⟩ ∧
    PExp.OkRun PExp.Truthful ⟨witPos, witNeg, []⟩ [.confirm [0], .addNegative 1 {1, 2} (some [2]), .addPositive 2 {2}] ∧
    (PExp.run ⟨witPos, witNeg, []⟩ [.confirm [0], .addNegative 1 {1, 2} (some [2]), .addPositive 2 {2}]).confirmed = [{0}] ∧
    (PExp.run ⟨witPos, witNeg, []⟩ [.confirm [0], .addNegative 1 {1, 2} (some [2])]).neg.objects = [0, 1] := by
  refine ⟨by decide +kernel, ⟨trivial, trivial, ?_, ?_, ?_, trivial, trivial⟩, by decide +kernel, by decide +kernel⟩
  · show (1 : Fin 3) ∉ _
    decide +kernel
  · show ∀ p ∈ _, _
    decide +kernel
  · show (2 : Fin 3) ∉ _
    decide +kernel

/-- After `{0}` was confirmed, a negative example with attribute 0 is accepted; nothing is raised and the pattern stays
confirmed. -/
theorem C61_negative_example_violated :
    PExp.init witPos witNeg = .ok ⟨witPos, witNeg, []⟩ ∧
    ((⟨witPos, witNeg, []⟩ : PExp (Fin 3) (Fin 3)).confirm [0]).2 = none ∧
    (PExp.exec (PExp.run ⟨witPos, witNeg, []⟩ [.confirm [0]]) (.addNegative 1 {0, 1} (some [0]))).2 = none ∧
    ∃ s : PExp (Fin 3) (Fin 3), s = PExp.run ⟨witPos, witNeg, []⟩ [.confirm [0], .addNegative 1 {0, 1} (some [0])] ∧
      {0} ∈ s.confirmed ∧ ∃ g ∈ s.neg.G, (∀ m ∈ ({0} : Finset (Fin 3)), s.neg.Inc g m) ∧ ∃ m ∈ s.neg.M, ¬ s.neg.Inc g m := by
  refine ⟨by decide +kernel, by decide +kernel, by decide +kernel, _, rfl, by decide +kernel, ?_⟩
  have h : (PExp.run ⟨witPos, witNeg, []⟩ [.confirm [0], .addNegative 1 {0, 1} (some [0])]).neg =
      ⟨[0, 1], [0, 1, 2], ⟨some 3, [[false, true, false], [true, true, false]]⟩⟩ := by decide +kernel
  have hw : (⟨[0, 1], [0, 1, 2], ⟨some 3, [[false, true, false], [true, true, false]]⟩⟩ :
      Ctx (Fin 3) (Fin 3)).WFw := by constructor <;> decide +kernel
  rw [h]
  simp only [← hw.incB]
  decide +kernel

/-! ### C62 -/

/-- `iterate_unexplained_examples` yields, in the order of the objects and once each, exactly the positive objects whose
intent contains no confirmed pattern, with their intents. -/
theorem C62_unexplained {pos neg : Ctx α β} (hp : pos.WF) (hn : neg.WF) {s₀ : PExp α β}
    (hi : PExp.init pos neg = .ok s₀) {ops : List (PExp.Op α β)} (hf : PExp.OkRun (fun _ _ => True) s₀ ops)
    (s : PExp α β) (hs : s = PExp.run s₀ ops) :
    ∃ L, s.iterUnexplained = .ok L ∧ (L.map Prod.fst).Sublist s.pos.objects ∧ (L.map Prod.fst).Nodup ∧
      ∀ o B, (o, B) ∈ L ↔ o ∈ s.pos.objects ∧ (∀ m, m ∈ B ↔ s.pos.Inc o m) ∧ ∀ p ∈ s.confirmed, ∃ m ∈ p, ¬ s.pos.Inc o m := by
  subst hs
  have hI := PExp.run_inv (PExp.init_inv hp hn hi).1 hf
  have hup : ∀ o ∈ (PExp.run s₀ ops).pos.objects, ∀ m, m ∈ (PExp.run s₀ ops).pos.upF {o} ↔ (PExp.run s₀ ops).pos.Inc o m := by
    intro o ho m
    rw [hI.pos.mem_upF]
    simp only [Finset.mem_singleton, forall_eq]
    exact ⟨fun hh => hh.2, fun hh => ⟨hh.mem.2, hh⟩⟩
  have hsl : ∀ l : List α, ∀ f : α → Finset β, ∀ q : α × Finset β → Bool,
      (((l.map fun o => (o, f o)).filter q).map Prod.fst).Sublist l := by
    intro l f q
    have := (List.filter_sublist (p := q) (l := l.map fun o => (o, f o))).map Prod.fst
    rw [List.map_map] at this
    simpa [Function.comp_def] using this
  refine ⟨_, PExp.iterUnexplained_ok hI.pos.toWFw, hsl _ _ _, (hsl _ _ _).nodup hI.pos.onodup, ?_⟩
  intro o B
  rw [List.mem_filter, List.mem_map]
  have hex : ∀ B : Finset β, (!((PExp.run s₀ ops).isExplained B)) = true ↔ ∀ p ∈ (PExp.run s₀ ops).confirmed, ∃ m ∈ p, m ∉ B := by
    intro B
    rw [Bool.not_eq_true', ← Bool.not_eq_true, PExp.isExplained_iff]
    simp only [Finset.subset_iff]
    push Not
    rfl
  constructor
  · rintro ⟨⟨o', ho', he⟩, hx⟩
    obtain ⟨rfl, rfl⟩ := Prod.mk.inj he
    refine ⟨ho', hup o' ho', fun p hp' => ?_⟩
    obtain ⟨m, hm, hmB⟩ := (hex _).1 hx p hp'
    exact ⟨m, hm, fun hh => hmB ((hup o' ho' m).2 hh)⟩
  · rintro ⟨ho, hB, hx⟩
    have hBe : (PExp.run s₀ ops).pos.upF {o} = B := by
      ext m; rw [hup o ho, hB]
    refine ⟨⟨o, ho, by rw [hBe]⟩, (hex _).2 fun p hp' => ?_⟩
    obtain ⟨m, hm, hmB⟩ := hx p hp'
    exact ⟨m, hm, fun hh => hmB ((hB m).1 hh)⟩

/-- `iterate_examples` yields exactly the positive objects that have all attributes of the pattern, each once and with
its attributes; an unknown attribute raises KeyError. -/
theorem C62_examples {s : PExp α β} (h : s.pos.WF) (ord : SetOrder α) (pattern : List β) :
    ((∃ m ∈ pattern, m ∉ s.pos.attributes) → s.iterExamples ord pattern = .error .keyError) ∧
    ((∀ m ∈ pattern, m ∈ s.pos.attributes) → ∃ L, s.iterExamples ord pattern = .ok L ∧ (L.map Prod.fst).Nodup ∧
      ∀ o B, (o, B) ∈ L ↔ o ∈ s.pos.objects ∧ (∀ m ∈ pattern, s.pos.Inc o m) ∧ ∀ m, m ∈ B ↔ s.pos.Inc o m) := by
  refine ⟨fun hm => ?_, fun hm => ?_⟩
  · unfold PExp.iterExamples
    rw [Ctx.aprime_err hm]
    rfl
  · have hd : ∀ o, o ∈ ord.enum (s.pos.downF pattern.toFinset) ↔ o ∈ s.pos.objects ∧ ∀ m ∈ pattern, s.pos.Inc o m := by
      intro o
      rw [ord.mem, h.mem_downF]
      simp only [List.mem_toFinset]
    have hup : ∀ o m, m ∈ s.pos.upF {o} ↔ s.pos.Inc o m := by
      intro o m
      rw [h.mem_upF]
      simp only [Finset.mem_singleton, forall_eq]
      exact ⟨fun hh => hh.2, fun hh => ⟨hh.mem.2, hh⟩⟩
    refine ⟨(ord.enum (s.pos.downF pattern.toFinset)).map fun o => (o, s.pos.upF {o}), ?_, ?_, ?_⟩
    · unfold PExp.iterExamples
      rw [h.aprime hm, py_ok_bind, mapM_ok]
      intro o ho
      rw [h.toWFw.objectIntent ((hd o).1 ho).1]
      rfl
    · rw [List.map_map]
      have : (Prod.fst ∘ fun o => (o, s.pos.upF {o})) = id := rfl
      rw [this, List.map_id]
      exact ord.nodup _
    · intro o B
      rw [List.mem_map]
      constructor
      · rintro ⟨o', ho', he⟩
        obtain ⟨rfl, rfl⟩ := Prod.mk.inj he
        exact ⟨((hd o').1 ho').1, ((hd o').1 ho').2, hup o'⟩
      · rintro ⟨h1, h2, h3⟩
        refine ⟨o, (hd o).2 ⟨h1, h2⟩, ?_⟩
        congr 1
        ext m
        rw [hup, h3]

example : PExp.iterExamples (SetOrder.fin 3) (⟨witPos, witNeg, []⟩ : PExp (Fin 3) (Fin 3)) [1] =
    .ok [(0, {0, 1}), (1, {1, 2})] ∧
    PExp.iterExamples (SetOrder.fin 3) (⟨witPos, witNeg, []⟩ : PExp (Fin 3) (Fin 3)) [1, 2] = .ok [(1, {1, 2})] := by
  decide +kernel

/-- What is explained stays explained, whatever is called. -/
theorem C62_explained_monotone (s : PExp α β) (ops : List (PExp.Op α β)) (B : Finset β)
    (h : s.isExplained B = true) : (PExp.run s ops).isExplained B = true := by
  rw [PExp.isExplained_iff] at h ⊢
  obtain ⟨p, hp, hB⟩ := h
  exact ⟨p, (PExp.run_confirmed s ops).subset hp, hB⟩

example : PExp.iterUnexplained (⟨witPos, witNeg, []⟩ : PExp (Fin 3) (Fin 3)) = .ok [(0, {0, 1}), (1, {1, 2})] ∧
    PExp.iterUnexplained (PExp.run ⟨witPos, witNeg, []⟩ [.confirm [0]]) = .ok [(1, {1, 2})] := by
  decide +kernel

/-! ### C77 -/

/-- The default generator yields, without repetition, concepts whose intents are exactly: the intents of the positive
context, restricted to the attributes left after reduction, that occur in no negative object lacking some attribute. -/
theorem C77_positive_concepts {pos neg : Ctx α β} (hp : pos.WF) (hn : neg.WF) (hM : pos.M = neg.M) (ord : SetOrder β) :
    ∃ r₁ r cs, pos.reduceAttributes = .ok r₁ ∧ r₁.reduceObjects = .ok r ∧
      PExp.positiveConcepts ord pos neg = .ok cs ∧ cs.Nodup ∧ r.M ⊆ pos.M ∧ r.G ⊆ pos.G ∧
      (∀ c ∈ cs, IsConcept r.G r.M pos.Inc c.extent c.intent) ∧
      ∀ B, (∃ c ∈ cs, c.intent = B) ↔
        (∃ D, IsIntent pos.G pos.M pos.Inc D ∧ B = D ∩ r.M) ∧
        ∀ g ∈ neg.G, (∀ m ∈ B, neg.Inc g m) → ∀ m ∈ neg.M, neg.Inc g m := by
  obtain ⟨r₁, h1, w1, a1, o1, i1, e1⟩ := Ctx.C11_reduce_attributes hp.toWFw
  obtain ⟨r, h2, w2, o2, a2, i2, -, e2⟩ := Ctx.C11_reduce_objects w1.toWFw
  obtain ⟨cs, h3, n3, m3⟩ := C34_norris w2.toWFw
  have hG1 : r₁.G = pos.G := by unfold Ctx.G; rw [o1]
  have hM2 : r.M = r₁.M := by unfold Ctx.M; rw [a2]
  have hMs : r.M ⊆ pos.M := by
    rw [hM2]; intro a ha; exact List.mem_toFinset.2 (a1.subset (List.mem_toFinset.1 ha))
  have hGs : r.G ⊆ pos.G := by
    rw [← hG1]; intro a ha; exact List.mem_toFinset.2 (o2.subset (List.mem_toFinset.1 ha))
  have hinc : ∀ o ∈ r.G, ∀ a ∈ r.M, r.Inc o a ↔ pos.Inc o a := by
    intro o ho a ha
    rw [i2 o (List.mem_toFinset.1 ho), i1 o a (by rw [hM2] at ha; exact List.mem_toFinset.1 ha)]
  have hint : ∀ x ∈ cs, x.intent ⊆ r.M := by
    intro x hx m hm
    exact (((m3 x).1 hx).1 m).1 hm |>.1
  have hfil : PExp.positiveConcepts ord pos neg = filterPy (fun c => negFull ord neg c.intent) cs := by
    unfold PExp.positiveConcepts
    rw [h1, py_ok_bind, h2, py_ok_bind, h3, py_ok_bind]
  have hneg : ∀ x ∈ cs, ∃ b, negFull ord neg x.intent = .ok b ∧ (b = true ↔ OnlyFull neg.G neg.M neg.Inc x.intent) := by
    intro x hx
    have hsub : ∀ a ∈ ord.enum x.intent, a ∈ neg.attributes := by
      intro a ha
      rw [ord.mem] at ha
      have := hMs (hint x hx ha)
      rw [hM] at this
      exact List.mem_toFinset.1 this
    obtain ⟨S, k1, k2⟩ := PExp.aclosure_full hn hsub
    rw [ord.toFinset] at k2
    refine ⟨_, by unfold negFull; rw [k1, py_ok_bind], ?_⟩
    rw [beq_iff_eq]; exact k2
  classical
  have hfil2 : filterPy (fun c => negFull ord neg c.intent) cs =
      .ok (cs.filter fun c => decide (OnlyFull neg.G neg.M neg.Inc c.intent)) := by
    apply filterPy_ok
    intro x hx
    obtain ⟨b, k1, k2⟩ := hneg x hx
    rw [k1]
    congr 1
    rw [Bool.eq_iff_iff, k2, decide_eq_true_eq]
  refine ⟨r₁, r, _, h1, h2, hfil.trans hfil2, n3.filter _, hMs, hGs, ?_, ?_⟩
  · intro x hx
    have hc := (m3 x).1 (List.mem_filter.1 hx).1
    have hsubi : x.intent ⊆ r.M := fun m hm => ((hc.1 m).1 hm).1
    have hsube : x.extent ⊆ r.G := fun g hg => ((hc.2 g).1 hg).1
    refine ⟨fun m => ?_, fun g => ?_⟩
    · rw [hc.1]
      exact and_congr_right fun hm => forall₂_congr fun g hg => hinc g (hsube hg) m hm
    · rw [hc.2]
      exact and_congr_right fun hg => forall₂_congr fun m hm => hinc g hg m (hsubi hm)
  · intro B
    have hintent : (∃ x ∈ cs, x.intent = B) ↔ ∃ D, IsIntent pos.G pos.M pos.Inc D ∧ B = D ∩ r.M := by
      have hk : (∃ x ∈ cs, x.intent = B) ↔ IsIntent r.G r.M r.Inc B := by
        constructor
        · rintro ⟨x, hx, rfl⟩; exact ⟨_, (m3 x).1 hx⟩
        · rintro ⟨A, hA⟩; exact ⟨⟨A, B⟩, (m3 _).2 hA, rfl⟩
      rw [hk, e2]
      constructor
      · rintro ⟨A, hA⟩
        obtain ⟨D, hD⟩ := (e1 A).1 ⟨B, hA⟩
        refine ⟨D, ⟨A, hD⟩, ?_⟩
        ext m
        rw [hA.1, Finset.mem_inter, hD.1, hM2]
        constructor
        · rintro ⟨hm, hall⟩
          refine ⟨⟨hMs (by rw [hM2]; exact hm), fun g hg => ?_⟩, hm⟩
          rw [← i1 g m (List.mem_toFinset.1 hm)]; exact hall g hg
        · rintro ⟨⟨_, hall⟩, hm⟩
          refine ⟨hm, fun g hg => ?_⟩
          rw [i1 g m (List.mem_toFinset.1 hm)]; exact hall g hg
      · rintro ⟨D, ⟨A, hD⟩, rfl⟩
        obtain ⟨B, hB⟩ := (e1 A).2 ⟨D, hD⟩
        have : D ∩ r.M = B := by
          ext m
          rw [hB.1, Finset.mem_inter, hD.1, hM2]
          constructor
          · rintro ⟨⟨_, hall⟩, hm⟩
            refine ⟨hm, fun g hg => ?_⟩
            rw [i1 g m (List.mem_toFinset.1 hm)]; exact hall g hg
          · rintro ⟨hm, hall⟩
            refine ⟨⟨hMs (by rw [hM2]; exact hm), fun g hg => ?_⟩, hm⟩
            rw [← i1 g m (List.mem_toFinset.1 hm)]; exact hall g hg
        rw [this]
        exact ⟨A, hB⟩
    rw [← hintent]
    constructor
    · rintro ⟨x, hx, rfl⟩
      rw [List.mem_filter, decide_eq_true_eq] at hx
      exact ⟨⟨x, hx.1, rfl⟩, hx.2⟩
    · rintro ⟨⟨x, hx, rfl⟩, hx2⟩
      exact ⟨x, List.mem_filter.2 ⟨hx, decide_eq_true hx2⟩, rfl⟩

/-- With the default generator `get_unconfirmed_patterns_with_examples` never reports a pattern: it returns an empty list
if the generator yields nothing and raises TypeError otherwise. -/
theorem C77_default_generator_violated {s : PExp α β} (hp : s.pos.WF) (hn : s.neg.WF) (hM : s.pos.M = s.neg.M)
    (ord : SetOrder β) :
    ∃ cs, PExp.positiveConcepts ord s.pos s.neg = .ok cs ∧
      s.unconfirmed (s.defaultGen ord) = if cs = [] then .ok [] else .error .typeError := by
  obtain ⟨_, _, cs, -, -, h1, -⟩ := C77_positive_concepts hp hn hM ord
  refine ⟨cs, h1, ?_⟩
  unfold PExp.unconfirmed PExp.defaultGen
  rw [PExp.iterUnexplained_ok hp.toWFw, h1]
  cases cs with
  | nil => rfl
  | cons x cs => rfl

/-- Here the pattern `{0}` and two unexplained examples are present, and the call raises. -/
theorem C77_default_generator_raises_violated :
    PExp.unconfirmed (⟨witPos, witNeg, []⟩ : PExp (Fin 3) (Fin 3)) (PExp.defaultGen (SetOrder.fin 3) ⟨witPos, witNeg, []⟩) =
      .error .typeError := by
  decide +kernel

/-- For a generator of pairs: the result lists, sorted by falling number of examples, exactly the patterns of the
generator that contain no confirmed pattern, with the number of unexplained positive objects having the pattern. -/
theorem C77_pairs_partial {s : PExp α β} (hp : s.pos.WF) (gen : List (Finset β × ℕ)) :
    ∃ L, s.unconfirmed (.ok (gen.map fun x => .pair x.1 x.2)) = .ok L ∧ L.Pairwise (fun x y => y.2 ≤ x.2) ∧
      (L.map Prod.fst).Perm ((gen.map Prod.fst).filter fun p => ∀ q ∈ s.confirmed, ¬ q ⊆ p) ∧
      ∀ x ∈ L, ∃ S : Finset α, x.2 = S.card ∧ ∀ o, o ∈ S ↔
        o ∈ s.pos.G ∧ (∀ m ∈ x.1, s.pos.Inc o m) ∧ ∀ q ∈ s.confirmed, ∃ m ∈ q, ¬ s.pos.Inc o m := by
  set unex := (s.pos.objects.map fun o => (o, s.pos.upF {o})).filter fun x => !(s.isExplained x.2) with hun
  have hex : ∀ B : Finset β, (!(s.isExplained B)) = decide (∀ q ∈ s.confirmed, ¬ q ⊆ B) := by
    intro B
    rw [Bool.eq_iff_iff, Bool.not_eq_true', ← Bool.not_eq_true, PExp.isExplained_iff, decide_eq_true_eq]
    push Not
    rfl
  have hloop : ∀ gen : List (Finset β × ℕ), s.unconfirmedLoop unex (gen.map fun x => .pair x.1 x.2) =
      .ok (((gen.map Prod.fst).filter fun p => ∀ q ∈ s.confirmed, ¬ q ⊆ p).map fun p =>
        (p, (unex.filter fun x => decide (p ⊆ x.2)).length)) := by
    intro gen
    induction gen with
    | nil => rfl
    | cons x gen ih =>
      rw [List.map_cons, PExp.unconfirmedLoop, ih, py_ok_bind, hex, List.map_cons, List.filter_cons]
      split_ifs <;> rfl
  refine ⟨(((gen.map Prod.fst).filter fun p => ∀ q ∈ s.confirmed, ¬ q ⊆ p).map fun p =>
    (p, (unex.filter fun x => decide (p ⊆ x.2)).length)).insertionSort fun x y => y.2 ≤ x.2, ?_, ?_, ?_, ?_⟩
  · unfold PExp.unconfirmed
    rw [PExp.iterUnexplained_ok hp.toWFw, py_ok_bind, py_ok_bind, hloop, py_ok_bind]
  · have : Std.Total (fun x y : Finset β × ℕ => y.2 ≤ x.2) := ⟨fun x y => le_total y.2 x.2⟩
    have : IsTrans (Finset β × ℕ) (fun x y => y.2 ≤ x.2) := ⟨fun x y z h1 h2 => h2.trans h1⟩
    exact List.pairwise_insertionSort _ _
  · refine ((List.perm_insertionSort _ _).map Prod.fst).trans ?_
    rw [List.map_map]
    simp [Function.comp_def]
  · intro x hx
    rw [(List.perm_insertionSort _ _).mem_iff, List.mem_map] at hx
    obtain ⟨p, -, rfl⟩ := hx
    dsimp only
    have hnd : (unex.map Prod.fst).Nodup := by
      have := (List.filter_sublist (p := fun x : α × Finset β => !(s.isExplained x.2))
        (l := s.pos.objects.map fun o => (o, s.pos.upF {o}))).map Prod.fst
      rw [List.map_map] at this
      have h2 : s.pos.objects.map (Prod.fst ∘ fun o => (o, s.pos.upF {o})) = s.pos.objects := by
        simp [Function.comp_def]
      rw [h2] at this
      exact this.nodup hp.onodup
    have hnd2 : ((unex.filter fun x => decide (p ⊆ x.2)).map Prod.fst).Nodup :=
      (List.filter_sublist.map Prod.fst).nodup hnd
    rw [← List.length_map Prod.fst, ← List.toFinset_card_of_nodup hnd2]
    refine ⟨_, rfl, fun o => ?_⟩
    have hsub : o ∈ s.pos.objects → ∀ q : Finset β, q ⊆ s.pos.upF {o} ↔ ∀ m ∈ q, s.pos.Inc o m := by
      intro ho q
      rw [Finset.subset_iff]
      refine forall₂_congr fun m _ => ?_
      rw [hp.mem_upF]
      simp only [Finset.mem_singleton, forall_eq]
      exact ⟨fun hh => hh.2, fun hh => ⟨hh.mem.2, hh⟩⟩
    have key : o ∈ ((unex.filter fun x => decide (p ⊆ x.2)).map Prod.fst).toFinset ↔
        o ∈ s.pos.objects ∧ p ⊆ s.pos.upF {o} ∧ ∀ q ∈ s.confirmed, ¬ q ⊆ s.pos.upF {o} := by
      simp only [List.mem_toFinset, List.mem_map, List.mem_filter, hun, hex, decide_eq_true_eq]
      constructor
      · rintro ⟨y, ⟨⟨⟨o', ho', rfl⟩, hx⟩, hy⟩, rfl⟩
        exact ⟨ho', hy, hx⟩
      · rintro ⟨ho, h1, h2⟩
        exact ⟨_, ⟨⟨⟨o, ho, rfl⟩, h2⟩, h1⟩, rfl⟩
    rw [key]
    unfold Ctx.G
    rw [List.mem_toFinset]
    refine and_congr_right fun ho => ?_
    rw [hsub ho]
    refine and_congr_right fun _ => forall₂_congr fun q _ => ?_
    rw [hsub ho]
    push Not
    rfl

example : PExp.unconfirmed (⟨witPos, witNeg, [{0}]⟩ : PExp (Fin 3) (Fin 3))
    (.ok ([({2}, 1), ({0, 2}, 0), ({1, 2}, 4)].map fun x => .pair x.1 x.2)) = .ok [({2}, 1), ({1, 2}, 1)] := by
  decide +kernel

example : PExp.positiveConcepts (SetOrder.fin 3) witPos witNeg =
    .ok [⟨∅, {0, 1, 2}⟩, ⟨{0}, {0, 1}⟩, ⟨{1}, {1, 2}⟩] := by
  decide +kernel
