/-
Property C162: the generators of a pattern exploration, consumed while the exploration changes.
-/
import Verif.Model.PatternsLive
import Verif.Props.PatternSession

set_option linter.unusedSectionVars false

variable {α β : Type} [DecidableEq α] [DecidableEq β] [PyName α] [PyName β]

open Spec Ctx

namespace PExp

/-- `t` is a later state than `s`: patterns were confirmed, objects appended, nothing else changed. -/
structure Later (s t : PExp α β) : Prop where
  confirmed : s.confirmed <+: t.confirmed
  pos : s.pos.objects <+: t.pos.objects
  posInc : ∀ o ∈ s.pos.objects, ∀ m, t.pos.Inc o m ↔ s.pos.Inc o m
  neg : s.neg.objects <+: t.neg.objects
  negInc : ∀ o ∈ s.neg.objects, ∀ m, t.neg.Inc o m ↔ s.neg.Inc o m
  posAtts : t.pos.attributes = s.pos.attributes
  negAtts : t.neg.attributes = s.neg.attributes

theorem Later.refl (s : PExp α β) : Later s s :=
  ⟨List.prefix_rfl, List.prefix_rfl, fun _ _ _ => Iff.rfl, List.prefix_rfl, fun _ _ _ => Iff.rfl, rfl, rfl⟩

theorem Later.trans {s t u : PExp α β} (h : Later s t) (k : Later t u) : Later s u :=
  ⟨h.confirmed.trans k.confirmed, h.pos.trans k.pos,
    fun o ho m => (k.posInc o (h.pos.subset ho) m).trans (h.posInc o ho m), h.neg.trans k.neg,
    fun o ho m => (k.negInc o (h.neg.subset ho) m).trans (h.negInc o ho m),
    k.posAtts.trans h.posAtts, k.negAtts.trans h.negAtts⟩

theorem Later.explained {s t : PExp α β} (h : Later s t) {B : Finset β} (hB : s.isExplained B = true) :
    t.isExplained B = true := by
  rw [isExplained_iff] at hB ⊢
  obtain ⟨p, hp, hB⟩ := hB
  exact ⟨p, h.confirmed.subset hp, hB⟩

theorem Later.notFull {s t : PExp α β} (h : Later s t) {p : Finset β}
    (hp : OnlyFull t.neg.G t.neg.M t.neg.Inc p) : OnlyFull s.neg.G s.neg.M s.neg.Inc p := by
  intro g hg hgp m hm
  have hg' := List.mem_toFinset.1 hg
  rw [← h.negInc g hg']
  refine hp g (List.mem_toFinset.2 (h.neg.subset hg')) (fun a ha => ?_) m (by unfold Ctx.M; rw [h.negAtts]; exact hm)
  rw [h.negInc g hg']
  exact hgp a ha

theorem row_later {c : Ctx α β} (h : c.WF) {n : α} (hn : n ∉ c.objects) (B : Finset β) :
    c.objects <+: (c.addObjectWithIntent B n).1.objects ∧
    (∀ o ∈ c.objects, ∀ m, (c.addObjectWithIntent B n).1.Inc o m ↔ c.Inc o m) ∧
    (c.addObjectWithIntent B n).1.attributes = c.attributes := by
  obtain ⟨-, h2, h3⟩ := add_row h hn B rfl
  rcases h3 with h3 | ⟨h3, h4⟩
  · rw [h3]; exact ⟨List.prefix_rfl, fun _ _ _ => Iff.rfl, rfl⟩
  · rw [h3]
    refine ⟨List.prefix_append _ _, fun o ho m => ?_, h2⟩
    rw [h4]
    have : o ≠ n := fun he => hn (he ▸ ho)
    simp [this]

theorem exec_later {s : PExp α β} (h : Inv s) {op : Op α β} (hop : op.Ok s) : Later s (s.exec op).1 := by
  cases op with
  | confirm l =>
    show Later s (s.confirm l).1
    rcases confirm_spec h l with ⟨h1, -⟩ | ⟨⟨e, h1⟩, -⟩
    · rw [h1]
      exact ⟨List.prefix_append _ _, List.prefix_rfl, fun _ _ _ => Iff.rfl, List.prefix_rfl, fun _ _ _ => Iff.rfl, rfl, rfl⟩
    · rw [h1]; exact Later.refl s
  | addNegative n B p =>
    show Later s (s.addNegative n B p).1
    rcases addNegative_eq s n B p with h1 | h1
    · rw [h1]; exact Later.refl s
    · rw [h1]
      obtain ⟨k1, k2, k3⟩ := row_later h.neg hop B
      exact ⟨List.prefix_rfl, List.prefix_rfl, fun _ _ _ => Iff.rfl, k1, k2, rfl, k3⟩
  | addPositive n B =>
    obtain ⟨k1, k2, k3⟩ := row_later h.pos hop B
    exact ⟨List.prefix_rfl, k1, k2, List.prefix_rfl, fun _ _ _ => Iff.rfl, k3, rfl⟩

theorem run_later {Q : PExp α β → Op α β → Prop} {ops : List (Op α β)} {s : PExp α β} (h : Inv s)
    (hf : OkRun Q s ops) : Later s (run s ops) := by
  induction ops generalizing s with
  | nil => exact Later.refl s
  | cons op ops ih => exact (exec_later h hf.1).trans (ih (exec_inv h hf.1) hf.2.2)

/-- The consumer calls methods of the exploration, giving new objects new names; which calls may depend on everything. -/
def Calls {γ : Type} (client : List γ → PExp α β → PExp α β) : Prop :=
  ∀ ys s, Inv s → ∃ ops, OkRun (fun _ _ => True) s ops ∧ client ys s = run s ops

/-- The states in which the items were yielded, from `s` to `t`: each is what the consumer left after the item before. -/
def Thread {γ : Type} (client : List γ → PExp α β → PExp α β) :
    List γ → PExp α β → List (γ × PExp α β) → PExp α β → Prop
  | _, s, [], t => t = s
  | pre, s, z :: zs, t => z.2 = s ∧ Thread client (pre ++ [z.1]) (client (pre ++ [z.1]) s) zs t

theorem Calls.step {γ : Type} {client : List γ → PExp α β → PExp α β} (hc : Calls client) (ys : List γ)
    {s : PExp α β} (h : Inv s) : Inv (client ys s) ∧ Later s (client ys s) := by
  obtain ⟨ops, h1, h2⟩ := hc ys s h
  rw [h2]
  exact ⟨run_inv h h1, run_later h h1⟩

theorem Thread.later {γ : Type} {client : List γ → PExp α β → PExp α β} (hc : Calls client)
    {zs : List (γ × PExp α β)} : ∀ {pre : List γ} {s t : PExp α β}, Inv s → Thread client pre s zs t →
      Inv t ∧ Later s t ∧ ∀ z ∈ zs, Inv z.2 ∧ Later s z.2 ∧ Later z.2 t := by
  induction zs with
  | nil => intro pre s t h ht; cases ht; exact ⟨h, Later.refl _, by simp⟩
  | cons z zs ih =>
    intro pre s t h ht
    obtain ⟨h1, h2⟩ := ht
    obtain ⟨k1, k2⟩ := hc.step (pre ++ [z.1]) h
    obtain ⟨i1, i2, i3⟩ := ih k1 h2
    refine ⟨i1, k2.trans i2, ?_⟩
    intro w hw
    rcases List.mem_cons.1 hw with rfl | hw
    · rw [h1]; exact ⟨h, Later.refl _, k2.trans i2⟩
    · obtain ⟨j1, j2, j3⟩ := i3 w hw
      exact ⟨j1, k2.trans j2, j3⟩

theorem upF_later {s t : PExp α β} (hs : Inv s) (ht : Inv t) (h : Later s t) {o : α} (ho : o ∈ s.pos.objects) :
    t.pos.upF {o} = s.pos.upF {o} := by
  ext m
  rw [ht.pos.mem_upF, hs.pos.mem_upF]
  simp only [Finset.mem_singleton, forall_eq]
  rw [h.posInc o ho, h.posAtts]

theorem unexplainedFrom_spec {client : List (α × Finset β) → PExp α β → PExp α β} (hc : Calls client) {s₀ : PExp α β}
    (h₀ : Inv s₀) (os : List α) : ∀ (i : ℕ) (ys : List ((α × Finset β) × PExp α β)) (s : PExp α β), Inv s →
    Later s₀ s → s₀.pos.objects.drop i = os →
    ∃ zs t, unexplainedFrom client os i ys s = ⟨.ok (), ys ++ zs, t⟩ ∧ Thread client (ys.map Prod.fst) s zs t ∧
      (zs.map fun z => z.1.1).Sublist os ∧
      (∀ z ∈ zs, z.1.2 = s₀.pos.upF {z.1.1} ∧ z.2.isExplained z.1.2 = false) ∧
      (∀ o ∈ os, (o, s₀.pos.upF {o}) ∈ zs.map Prod.fst ∨ t.isExplained (s₀.pos.upF {o}) = true) := by
  induction os with
  | nil => intro i ys s h hl _; exact ⟨[], s, by simp [unexplainedFrom], rfl, List.Sublist.refl _, by simp, by simp⟩
  | cons o os ih =>
    intro i ys s h hl hd
    have hoi : s₀.pos.objects[i]? = some o := by
      have := congrArg (·[0]?) hd
      simpa [List.getElem?_drop] using this
    have hd' : s₀.pos.objects.drop (i + 1) = os := by
      have := congrArg (List.drop 1) hd
      simpa [List.drop_drop, Nat.add_comm] using this
    have ho : o ∈ s₀.pos.objects := List.mem_of_getElem? hoi
    have hoi' : s.pos.objects[i]? = some o := by
      obtain ⟨r, hr⟩ := hl.pos
      rw [← hr]
      rw [List.getElem?_append_left (List.getElem?_eq_some_iff.1 hoi).1]
      exact hoi
    unfold unexplainedFrom
    rw [h.pos.toWFw.intentByIndex hoi', upF_later h₀ h hl ho]
    dsimp only
    cases he : s.isExplained (s₀.pos.upF {o}) with
    | true =>
      rw [if_pos rfl]
      obtain ⟨zs, t, i1, i2, i3, i4, i5⟩ := ih (i + 1) ys s h hl hd'
      refine ⟨zs, t, i1, i2, i3.trans (List.sublist_cons_self _ _), i4, ?_⟩
      intro o' ho'
      rcases List.mem_cons.1 ho' with rfl | ho'
      · exact .inr ((Thread.later hc h i2).2.1.explained he)
      · exact i5 o' ho'
    | false =>
      rw [if_neg (by simp)]
      obtain ⟨k1, k2⟩ := hc.step ((ys ++ [((o, s₀.pos.upF {o}), s)]).map Prod.fst) h
      obtain ⟨zs, t, i1, i2, i3, i4, i5⟩ := ih (i + 1) (ys ++ [((o, s₀.pos.upF {o}), s)]) _ k1 (hl.trans k2) hd'
      refine ⟨((o, s₀.pos.upF {o}), s) :: zs, t, ?_, ⟨rfl, ?_⟩, ?_, ?_, ?_⟩
      · rw [i1]; simp
      · rw [List.map_append] at i2; exact i2
      · exact i3.cons_cons o
      · intro z hz
        rcases List.mem_cons.1 hz with rfl | hz
        · exact ⟨rfl, he⟩
        · exact i4 z hz
      · intro o' ho'
        rcases List.mem_cons.1 ho' with rfl | ho'
        · exact .inl (by simp)
        · rcases i5 o' ho' with hh | hh
          · exact .inl (List.mem_cons_of_mem _ hh)
          · exact .inr hh

theorem mem_upF_one {c : Ctx α β} (h : c.WF) (o : α) (m : β) : m ∈ c.upF {o} ↔ c.Inc o m := by
  rw [h.mem_upF]
  simp only [Finset.mem_singleton, forall_eq]
  exact ⟨fun hh => hh.2, fun hh => ⟨hh.mem.2, hh⟩⟩

end PExp

open PExp

/-- C162: `iterate_unexplained_examples` consumed by any program that calls methods of the exploration between the steps.
The generator does not raise; it yields positive objects of the beginning, in their order and each at most once, with their
attributes; what is yielded contains no pattern confirmed before that step; what is not yielded is explained in the end.
Nothing is yielded that `list(...)` at the beginning would not contain. -/
theorem C162_unexplained {s : PExp α β} (h : Inv s) {client : List (α × Finset β) → PExp α β → PExp α β}
    (hc : Calls client) :
    (unexplainedLive client s).ended = .ok () ∧
    Thread client [] s (unexplainedLive client s).yields (unexplainedLive client s).final ∧
    ((unexplainedLive client s).yields.map fun z => z.1.1).Sublist s.pos.objects ∧
    (∀ z ∈ (unexplainedLive client s).yields, (∀ m, m ∈ z.1.2 ↔ s.pos.Inc z.1.1 m) ∧
      (∀ p ∈ z.2.confirmed, ¬ p ⊆ z.1.2) ∧ Later s z.2 ∧ Later z.2 (unexplainedLive client s).final) ∧
    (∀ o ∈ s.pos.objects, (∃ z ∈ (unexplainedLive client s).yields, z.1.1 = o) ∨
      ∃ p ∈ (unexplainedLive client s).final.confirmed, ∀ m ∈ p, s.pos.Inc o m) ∧
    ∃ L, s.iterUnexplained = .ok L ∧ ∀ z ∈ (unexplainedLive client s).yields, z.1 ∈ L := by
  obtain ⟨zs, t, h1, h2, h3, h4, h5⟩ := unexplainedFrom_spec hc h s.pos.objects 0 [] s h (Later.refl s) (by simp)
  have he : unexplainedLive client s = ⟨.ok (), zs, t⟩ := by
    unfold unexplainedLive; rw [h1]; simp
  rw [he]
  obtain ⟨-, -, hl⟩ := Thread.later hc h h2
  refine ⟨rfl, h2, h3, ?_, ?_, _, iterUnexplained_ok h.pos.toWFw, ?_⟩
  · intro z hz
    obtain ⟨k1, k2⟩ := h4 z hz
    refine ⟨fun m => by rw [k1]; exact mem_upF_one h.pos _ _, ?_, (hl z hz).2.1, (hl z hz).2.2⟩
    intro p hp hpz
    rw [isExplained_iff.2 ⟨p, hp, hpz⟩] at k2
    cases k2
  · intro o ho
    rcases h5 o ho with hh | hh
    · obtain ⟨z, hz, hz'⟩ := List.mem_map.1 hh
      exact .inl ⟨z, hz, by rw [hz']⟩
    · rw [isExplained_iff] at hh
      obtain ⟨p, hp, hpB⟩ := hh
      exact .inr ⟨p, hp, fun m hm => (mem_upF_one h.pos _ _).1 (hpB hm)⟩
  · intro z hz
    obtain ⟨k1, k2⟩ := h4 z hz
    have hz1 : z.1.1 ∈ s.pos.objects := h3.subset (List.mem_map_of_mem hz)
    refine List.mem_filter.2 ⟨List.mem_map.2 ⟨z.1.1, hz1, by rw [← k1]⟩, ?_⟩
    cases hx : s.isExplained z.1.2 with
    | false => rfl
    | true => rw [(hl z hz).2.1.explained hx] at k2; cases k2

/-- If the consumer explained every example it was given, by some confirmed pattern, before it took the next one, then every
positive object of the beginning is explained in the end. -/
theorem C162_explains {s : PExp α β} (h : Inv s) {client : List (α × Finset β) → PExp α β → PExp α β}
    (hc : Calls client) (hx : ∀ l₁ z l₂, (unexplainedLive client s).yields = l₁ ++ z :: l₂ →
      ∃ p ∈ (client ((l₁ ++ [z]).map Prod.fst) z.2).confirmed, p ⊆ z.1.2) :
    ∀ o ∈ s.pos.objects, ∃ p ∈ (unexplainedLive client s).final.confirmed, ∀ m ∈ p, s.pos.Inc o m := by
  obtain ⟨-, h2, h3, h4, h5, -⟩ := C162_unexplained h hc
  intro o ho
  rcases h5 o ho with ⟨z, hz, rfl⟩ | hh
  · have key : ∀ (l₁ l₂ : List ((α × Finset β) × PExp α β)) (pre : List (α × Finset β)) (u t : PExp α β), PExp.Inv u →
        Thread client pre u (l₁ ++ z :: l₂) t → Later (client (pre ++ (l₁ ++ [z]).map Prod.fst) z.2) t := by
      intro l₁ l₂
      induction l₁ with
      | nil =>
        intro pre u t hu ht
        obtain ⟨a, b⟩ := ht
        obtain ⟨k1, k2⟩ := hc.step (pre ++ [z.1]) hu
        rw [a]
        exact (Thread.later hc k1 b).2.1
      | cons w zs ih =>
        intro pre u t hu ht
        obtain ⟨a, b⟩ := ht
        obtain ⟨k1, k2⟩ := hc.step (pre ++ [w.1]) hu
        have := ih _ _ _ k1 b
        simpa using this
    obtain ⟨l₁, l₂, hl⟩ := List.append_of_mem hz
    rw [hl] at h2
    have k := key l₁ l₂ [] _ _ h h2
    obtain ⟨g1, -, g3, -⟩ := h4 z hz
    obtain ⟨p, hp, hpB⟩ := hx l₁ z l₂ hl
    rw [List.nil_append] at k
    exact ⟨p, k.confirmed.subset hp, fun m hm => (g1 m).1 (hpB hm)⟩
  · exact hh

/-- A consumer that changes nothing gets what `list(...)` gives. -/
theorem C162_idle {s : PExp α β} (h : Inv s) :
    ∃ L, s.iterUnexplained = .ok L ∧ unexplainedLive (fun _ t => t) s = ⟨.ok (), L.map (·, s), s⟩ := by
  refine ⟨_, iterUnexplained_ok h.pos.toWFw, ?_⟩
  have key : ∀ os i (ys : List ((α × Finset β) × PExp α β)), s.pos.objects.drop i = os →
      unexplainedFrom (fun _ t => t) os i ys s = ⟨.ok (), ys ++ ((os.map fun o => (o, s.pos.upF {o})).filter
        fun x => !(s.isExplained x.2)).map (·, s), s⟩ := by
    intro os
    induction os with
    | nil => intro i ys _; simp [unexplainedFrom]
    | cons o os ih =>
      intro i ys hd
      have hoi : s.pos.objects[i]? = some o := by
        have := congrArg (·[0]?) hd
        simpa [List.getElem?_drop] using this
      have hd' : s.pos.objects.drop (i + 1) = os := by
        have := congrArg (List.drop 1) hd
        simpa [List.drop_drop, Nat.add_comm] using this
      unfold unexplainedFrom
      rw [h.pos.toWFw.intentByIndex hoi]
      dsimp only
      cases he : s.isExplained (s.pos.upF {o}) with
      | true => rw [if_pos rfl, ih _ _ hd', List.map_cons, List.filter_cons_of_neg (by simp [he])]
      | false =>
        rw [if_neg (by simp), ih _ _ hd', List.map_cons, List.filter_cons_of_pos (by simp [he])]
        simp
  unfold unexplainedLive
  rw [key _ 0 [] (by simp)]
  simp

/-- C162: `iterate_examples` yields the examples there were when it was called, with their attributes, whatever methods
of the exploration are called before the first step and between the steps. -/
theorem C162_examples {s s' : PExp α β} (h : Inv s) {ops : List (Op α β)} (ho : OkRun (fun _ _ => True) s ops)
    (hs' : s' = run s ops) (ord : SetOrder α) {client : List (α × Finset β) → PExp α β → PExp α β}
    (hc : Calls client) (pattern : List β) (hp : ∀ m ∈ pattern, m ∈ s.pos.attributes) :
    (examplesLive ord client s s' pattern).ended = .ok () ∧
    s.iterExamples ord pattern = .ok ((examplesLive ord client s s' pattern).yields.map Prod.fst) ∧
    Thread client [] s' (examplesLive ord client s s' pattern).yields (examplesLive ord client s s' pattern).final := by
  have hI' : Inv s' := by rw [hs']; exact run_inv h ho
  have hL' : Later s s' := by rw [hs']; exact run_later h ho
  have hd : ∀ o, o ∈ ord.enum (s.pos.downF pattern.toFinset) → o ∈ s.pos.objects := by
    intro o ho
    rw [ord.mem, h.pos.mem_downF] at ho
    exact ho.1
  have key : ∀ (os : List α) (ys : List ((α × Finset β) × PExp α β)) (t : PExp α β), Inv t → Later s t →
      (∀ o ∈ os, o ∈ s.pos.objects) →
      ∃ zs u, examplesFrom client os ys t = ⟨.ok (), ys ++ zs, u⟩ ∧ Thread client (ys.map Prod.fst) t zs u ∧
        zs.map Prod.fst = os.map fun o => (o, s.pos.upF {o}) := by
    intro os
    induction os with
    | nil => intro ys t ht hl _; exact ⟨[], t, by simp [examplesFrom], rfl, rfl⟩
    | cons o os ih =>
      intro ys t ht hl hos
      have ho := hos o (by simp)
      unfold examplesFrom
      rw [ht.pos.toWFw.objectIntent (hl.pos.subset ho), upF_later h ht hl ho]
      dsimp only
      obtain ⟨k1, k2⟩ := hc.step ((ys ++ [((o, s.pos.upF {o}), t)]).map Prod.fst) ht
      obtain ⟨zs, u, i1, i2, i3⟩ := ih (ys ++ [((o, s.pos.upF {o}), t)]) _ k1 (hl.trans k2)
        fun o' ho' => hos o' (List.mem_cons_of_mem _ ho')
      refine ⟨((o, s.pos.upF {o}), t) :: zs, u, by rw [i1]; simp, ⟨rfl, ?_⟩, by simp [i3]⟩
      rw [List.map_append] at i2; exact i2
  obtain ⟨zs, u, k1, k2, k3⟩ := key (ord.enum (s.pos.downF pattern.toFinset)) [] s' hI' hL' hd
  have he : examplesLive ord client s s' pattern = ⟨.ok (), zs, u⟩ := by
    unfold examplesLive
    rw [h.pos.aprime hp]
    dsimp only
    rw [k1]; simp
  rw [he]
  refine ⟨rfl, ?_, k2⟩
  unfold PExp.iterExamples
  rw [h.pos.aprime hp, py_ok_bind, k3, mapM_ok]
  intro o ho
  rw [h.pos.toWFw.objectIntent (hd o ho)]
  rfl

namespace PExp

theorem negFull_spec {s : PExp α β} (h : Inv s) (ord : SetOrder β) {B : Finset β} (hB : B ⊆ s.neg.M) :
    ∃ b, negFull ord s.neg B = .ok b ∧ (b = true ↔ OnlyFull s.neg.G s.neg.M s.neg.Inc B) := by
  obtain ⟨S, k1, k2⟩ := aclosure_full h.neg (l := ord.enum B) (by
    intro a ha
    rw [ord.mem] at ha
    exact List.mem_toFinset.1 (hB ha))
  rw [ord.toFinset] at k2
  refine ⟨_, by unfold negFull; rw [k1, py_ok_bind], ?_⟩
  rw [beq_iff_eq]; exact k2

theorem positiveFrom_spec (ord : SetOrder β) {client : List (Concept α β) → PExp α β → PExp α β} (hc : Calls client)
    (xs : List (Concept α β)) : ∀ (ys : List (Concept α β × PExp α β)) (s : PExp α β), Inv s →
    (∀ x ∈ xs, x.intent ⊆ s.neg.M) →
    ∃ zs t, positiveFrom ord client xs ys s = ⟨.ok (), ys ++ zs, t⟩ ∧ Thread client (ys.map Prod.fst) s zs t ∧
      (zs.map Prod.fst).Sublist xs ∧ (∀ z ∈ zs, OnlyFull z.2.neg.G z.2.neg.M z.2.neg.Inc z.1.intent) ∧
      ∀ x ∈ xs, x ∈ zs.map Prod.fst ∨ ¬ OnlyFull t.neg.G t.neg.M t.neg.Inc x.intent := by
  induction xs with
  | nil => intro ys s h _; exact ⟨[], s, by simp [positiveFrom], rfl, List.Sublist.refl _, by simp, by simp⟩
  | cons x xs ih =>
    intro ys s h hx
    obtain ⟨b, k1, k2⟩ := negFull_spec h ord (hx x (by simp))
    unfold positiveFrom
    rw [k1]
    cases b with
    | false =>
      dsimp only
      obtain ⟨zs, t, i1, i2, i3, i4, i5⟩ := ih ys s h fun y hy => hx y (List.mem_cons_of_mem _ hy)
      refine ⟨zs, t, i1, i2, i3.trans (List.sublist_cons_self _ _), i4, ?_⟩
      intro y hy
      rcases List.mem_cons.1 hy with rfl | hy
      · exact .inr fun hh => absurd (k2.2 ((Thread.later hc h i2).2.1.notFull hh)) (by simp)
      · exact i5 y hy
    | true =>
      dsimp only
      obtain ⟨j1, j2⟩ := hc.step ((ys ++ [(x, s)]).map Prod.fst) h
      obtain ⟨zs, t, i1, i2, i3, i4, i5⟩ := ih (ys ++ [(x, s)]) _ j1 fun y hy => by
        unfold Ctx.M
        rw [j2.negAtts]
        exact hx y (List.mem_cons_of_mem _ hy)
      refine ⟨(x, s) :: zs, t, by rw [i1]; simp, ⟨rfl, by rw [List.map_append] at i2; exact i2⟩, i3.cons_cons x, ?_, ?_⟩
      · intro z hz
        rcases List.mem_cons.1 hz with rfl | hz
        · exact k2.1 rfl
        · exact i4 z hz
      · intro y hy
        rcases List.mem_cons.1 hy with rfl | hy
        · exact .inl (by simp)
        · rcases i5 y hy with hh | hh
          · exact .inl (List.mem_cons_of_mem _ hh)
          · exact .inr hh

/-- The concepts `iterate_positive_concepts` goes through. -/
theorem reduced_concepts {pos : Ctx α β} (hp : pos.WF) :
    ∃ r₁ r cs, pos.reduceAttributes = .ok r₁ ∧ r₁.reduceObjects = .ok r ∧ norris r = .ok cs ∧ cs.Nodup ∧
      r.M ⊆ pos.M ∧ (∀ x ∈ cs, x.intent ⊆ r.M) ∧ ∀ x, x ∈ cs ↔ IsConcept r.G r.M r.Inc x.extent x.intent := by
  obtain ⟨r₁, h1, w1, a1, o1, i1, e1⟩ := Ctx.C11_reduce_attributes hp.toWFw
  obtain ⟨r, h2, w2, o2, a2, i2, -, e2⟩ := Ctx.C11_reduce_objects w1.toWFw
  obtain ⟨cs, h3, n3, m3⟩ := C34_norris w2.toWFw
  have hM2 : r.M = r₁.M := by unfold Ctx.M; rw [a2]
  refine ⟨r₁, r, cs, h1, h2, h3, n3, ?_, fun x hx m hm => (((m3 x).1 hx).1 m).1 hm |>.1, m3⟩
  rw [hM2]; intro a ha; exact List.mem_toFinset.2 (a1.subset (List.mem_toFinset.1 ha))

theorem positiveLive_eq {s : PExp α β} (ord : SetOrder β) (client : List (Concept α β) → PExp α β → PExp α β)
    {r₁ r : Ctx α β} {cs : List (Concept α β)} (h1 : s.pos.reduceAttributes = .ok r₁) (h2 : r₁.reduceObjects = .ok r)
    (h3 : norris r = .ok cs) : positiveLive ord client s = positiveFrom ord client cs [] s := by
  unfold positiveLive
  rw [h1, py_ok_bind, h2, py_ok_bind, h3]

end PExp

/-- C162: `iterate_positive_concepts` consumed by any program that calls methods of the exploration between the steps. It
goes through the concepts of the reduced positive context of the beginning; a concept is yielded if its intent occurs in no
negative object lacking some attribute at that step, and a concept that was not yielded occurs in such an object in the
end. -/
theorem C162_positive_concepts {s : PExp α β} (h : PExp.Inv s) (ord : SetOrder β)
    {client : List (Concept α β) → PExp α β → PExp α β} (hc : Calls client) :
    ∃ r₁ r cs, s.pos.reduceAttributes = .ok r₁ ∧ r₁.reduceObjects = .ok r ∧ norris r = .ok cs ∧
    (positiveLive ord client s).ended = .ok () ∧
    Thread client [] s (positiveLive ord client s).yields (positiveLive ord client s).final ∧
    ((positiveLive ord client s).yields.map Prod.fst).Sublist cs ∧
    (∀ z ∈ (positiveLive ord client s).yields,
      ∀ g ∈ z.2.neg.G, (∀ m ∈ z.1.intent, z.2.neg.Inc g m) → ∀ m ∈ z.2.neg.M, z.2.neg.Inc g m) ∧
    ∀ x ∈ cs, x ∈ (positiveLive ord client s).yields.map Prod.fst ∨
      ∃ g ∈ (positiveLive ord client s).final.neg.G, (∀ m ∈ x.intent, (positiveLive ord client s).final.neg.Inc g m) ∧
        ∃ m ∈ (positiveLive ord client s).final.neg.M, ¬ (positiveLive ord client s).final.neg.Inc g m := by
  obtain ⟨r₁, r, cs, h1, h2, h3, -, h5, h6, -⟩ := reduced_concepts h.pos
  obtain ⟨zs, t, k1, k2, k3, k4, k5⟩ := positiveFrom_spec ord hc cs [] s h fun x hx =>
    h.same ▸ (h6 x hx).trans h5
  refine ⟨r₁, r, cs, h1, h2, h3, ?_⟩
  rw [positiveLive_eq ord client h1 h2 h3, k1]
  refine ⟨rfl, by simpa using k2, by simpa using k3, fun z hz => k4 z (by simpa using hz), ?_⟩
  intro x hx
  rcases k5 x hx with hh | hh
  · exact .inl (by simpa using hh)
  · refine .inr ?_
    unfold OnlyFull at hh
    push Not at hh
    exact hh

namespace PExp

/-- The consumer that asks the expert about every pattern it is given: `for c in e.iterate_patterns_with_examples(): …`
with `ask` for `c.intent`. -/
def asking (e : PExp α β → List β → Py (List (α × Finset β))) (ord : SetOrder β) (ys : List (Concept α β))
    (s : PExp α β) : PExp α β :=
  match ys.getLast? with
  | none => s
  | some x => (s.ask (some e) (ord.enum x.intent)).1

theorem refutes_of_notFull {D : Domain α β} {s : PExp α β} (h : SInv D s) {p : Finset β} (hp : p ⊆ s.neg.M)
    (ho : ¬ OnlyFull s.neg.G s.neg.M s.neg.Inc p) : D.Refutes s.neg.M p := by
  unfold OnlyFull at ho
  push Not at ho
  obtain ⟨g, hg, hgp, m, hm, hgm⟩ := ho
  obtain ⟨B, hB, hB'⟩ := h.dom g (List.mem_toFinset.1 hg)
  exact ⟨g, B, hB, fun a ha => (hB' a (List.mem_toFinset.1 (hp ha))).1 (hgp a ha), fun hh =>
    hgm ((hB' m (List.mem_toFinset.1 hm)).2 (hh hm))⟩

end PExp

/-- C162: the loop over `iterate_positive_concepts` in which an honest expert is asked about every pattern. The
patterns confirmed are exactly the intents of the reduced positive context that occur in a positive object lacking some
attribute and in no object of the domain lacking some attribute: those that the generator leaves out because of
counterexamples added in the meantime would not be confirmed. -/
theorem C162_pattern_loop {s : PExp α β} {D : Domain α β} (h : SInv D s)
    {e : PExp α β → List β → Py (List (α × Finset β))} (he : Honest D e) (ord : SetOrder β)
    [DecidablePred fun x : Concept α β => (∃ g ∈ s.pos.G, (∀ m ∈ x.intent, s.pos.Inc g m) ∧ ∃ m ∈ s.pos.M, ¬ s.pos.Inc g m) ∧
        ∀ g B, D g B → x.intent ⊆ B → s.neg.M ⊆ B] :
    ∃ r₁ r cs, s.pos.reduceAttributes = .ok r₁ ∧ r₁.reduceObjects = .ok r ∧ norris r = .ok cs ∧
    (positiveLive ord (asking e ord) s).ended = .ok () ∧
    SInv D (positiveLive ord (asking e ord) s).final ∧ (positiveLive ord (asking e ord) s).final.pos = s.pos ∧
    (positiveLive ord (asking e ord) s).final.confirmed = s.confirmed ++ (cs.filter fun x => decide
      ((∃ g ∈ s.pos.G, (∀ m ∈ x.intent, s.pos.Inc g m) ∧ ∃ m ∈ s.pos.M, ¬ s.pos.Inc g m) ∧
        ∀ g B, D g B → x.intent ⊆ B → s.neg.M ⊆ B)).map Concept.intent := by
  obtain ⟨r₁, r, cs, h1, h2, h3, -, h5, h6, -⟩ := reduced_concepts h.inv.pos
  refine ⟨r₁, r, cs, h1, h2, h3, ?_⟩
  rw [positiveLive_eq ord _ h1 h2 h3]
  have hR : ∀ p : Finset β, ¬ D.Refutes s.neg.M p ↔ ∀ g B, D g B → p ⊆ B → s.neg.M ⊆ B := by
    intro p
    unfold Domain.Refutes
    push Not
    rfl
  have hP : ∀ p : Finset β, ¬ OnlyFull s.pos.G s.pos.M s.pos.Inc p ↔
      ∃ g ∈ s.pos.G, (∀ m ∈ p, s.pos.Inc g m) ∧ ∃ m ∈ s.pos.M, ¬ s.pos.Inc g m := by
    intro p
    unfold OnlyFull
    push Not
    rfl
  have key : ∀ (xs : List (Concept α β)) (ys : List (Concept α β × PExp α β)) (t : PExp α β), SInv D t → t.pos = s.pos →
      t.neg.attributes = s.neg.attributes → (∀ x ∈ xs, x.intent ⊆ s.neg.M) →
      (positiveFrom ord (asking e ord) xs ys t).ended = .ok () ∧
      SInv D (positiveFrom ord (asking e ord) xs ys t).final ∧
      (positiveFrom ord (asking e ord) xs ys t).final.pos = s.pos ∧
      (positiveFrom ord (asking e ord) xs ys t).final.confirmed = t.confirmed ++ (xs.filter fun x => decide
        ((∃ g ∈ s.pos.G, (∀ m ∈ x.intent, s.pos.Inc g m) ∧ ∃ m ∈ s.pos.M, ¬ s.pos.Inc g m) ∧
          ∀ g B, D g B → x.intent ⊆ B → s.neg.M ⊆ B)).map Concept.intent := by
    intro xs
    induction xs with
    | nil => intro ys t ht tp ta _; exact ⟨rfl, ht, tp, by simp [positiveFrom]⟩
    | cons x xs ih =>
      intro ys t ht tp ta hx
      have hM : t.neg.M = s.neg.M := by unfold Ctx.M; rw [ta]
      have hxM : x.intent ⊆ t.neg.M := by rw [hM]; exact hx x (by simp)
      have hx' : ∀ y ∈ xs, y.intent ⊆ s.neg.M := fun y hy => hx y (List.mem_cons_of_mem _ hy)
      obtain ⟨b, k1, k2⟩ := negFull_spec ht.inv ord hxM
      unfold positiveFrom
      rw [k1]
      cases b with
      | false =>
        dsimp only
        obtain ⟨i1, i2, i3, i4⟩ := ih ys t ht tp ta hx'
        refine ⟨i1, i2, i3, ?_⟩
        rw [i4, List.filter_cons_of_neg]
        intro hh
        have hr := refutes_of_notFull ht hxM fun ho => absurd (k2.2 ho) (by simp)
        rw [hM] at hr
        exact (hR _).2 (of_decide_eq_true hh).2 hr
      | true =>
        dsimp only
        have ha : asking e ord ((ys ++ [(x, t)]).map Prod.fst) t = (t.ask (some e) (ord.enum x.intent)).1 := by
          unfold asking
          rw [List.map_append, List.map_singleton, List.getLast?_concat]
        rw [ha]
        have hx2 : (ord.enum x.intent).toFinset = x.intent := ord.toFinset _
        obtain ⟨a1, a2, a3, a4⟩ := ask_ok he ht (ord.enum x.intent) (by rw [hx2]; exact hxM)
        obtain ⟨i1, i2, i3, i4⟩ := ih (ys ++ [(x, t)]) _ a1 (a2.trans tp) (a3.trans ta) hx'
        refine ⟨i1, i2, i3, ?_⟩
        rw [i4]
        rw [hM, tp, hx2, hP, hR] at a4
        rcases a4 with ⟨c1, c2, -, c3⟩ | ⟨c1, -, c3⟩
        · rw [c3, List.filter_cons_of_pos (by simpa using ⟨by simpa using c1, c2⟩)]
          simp
        · rw [c3, List.filter_cons_of_neg (by
            intro hh
            exact c1 (of_decide_eq_true hh))]
  exact key cs [] s h rfl rfl fun x hx => h.inv.same ▸ (h6 x hx).trans h5

namespace PExp

/-- An honest expert that is a generator: every step gives a new object of the domain that has the pattern, or the end, and
the end is reached only when the negative context refutes the pattern if the domain does. `Of p st`: the generator
state `st` belongs to the question `p`. -/
structure LiveHonest (D : Domain α β) {σ : Type} (x : LiveExpert α β σ) (Of : List β → σ → Prop) : Prop where
  start : ∀ s p, SInv D s → Of p (x.start s p)
  gives : ∀ s p st, SInv D s → Of p st → p.toFinset ⊆ s.neg.M →
    ((x.next st s).1 = none ∧ (D.Refutes s.neg.M p.toFinset → ¬ OnlyFull s.neg.G s.neg.M s.neg.Inc p.toFinset)) ∨
    ∃ g B st', x.next st s = (some (.ok (g, B)), st') ∧ D g B ∧ p.toFinset ⊆ B ∧ g ∉ s.neg.objects ∧ Of p st'

theorem newLive_ok {D : Domain α β} {N : Finset α} (hN : ∀ g B, D g B → g ∈ N) {σ : Type} {x : LiveExpert α β σ}
    {Of : List β → σ → Prop} (hx : LiveHonest D x Of) (p : List β) (fuel : ℕ) : ∀ (st : σ) (s : PExp α β), SInv D s →
    Of p st → p.toFinset ⊆ s.neg.M → (N \ s.neg.objects.toFinset).card < fuel →
    ∃ c', newLive x p fuel st s = some ({ s with neg := c' }, none) ∧ SInv D ({ s with neg := c' } : PExp α β) ∧
      c'.attributes = s.neg.attributes ∧ s.neg.objects <+: c'.objects ∧
      (OnlyFull c'.G c'.M c'.Inc p.toFinset ↔ ¬ D.Refutes s.neg.M p.toFinset) := by
  induction fuel with
  | zero => intro st s _ _ _ hf; omega
  | succ fuel ih =>
    intro st s h ho hp hf
    unfold newLive
    rcases hx.gives s p st h ho hp with ⟨h1, h2⟩ | ⟨g, B, st', h1, h2, h3, h4, h5⟩
    · rcases hst : x.next st s with ⟨a, st'⟩
      rw [hst] at h1
      simp only at h1
      subst h1
      dsimp only
      refine ⟨s.neg, rfl, h, rfl, List.prefix_rfl, fun h3 h4 => h2 h4 h3, fun h3 => ?_⟩
      by_contra hc
      exact h3 (refutes_of_notFull h hp hc)
    · rw [h1]
      dsimp only
      obtain ⟨c₁, e1, e2, e3, e4, e5, e6, e7⟩ := addAll_ok D [(g, B)] h.inv h.dom (p := p)
        (by
          show (s.neg.objects ++ [g]).Nodup
          rw [List.nodup_append]
          refine ⟨h.inv.neg.onodup, by simp, ?_⟩
          rintro a ha b hb rfl
          exact h4 (List.mem_singleton.1 hb ▸ ha))
        (by
          intro y hy
          rw [List.mem_singleton.1 hy]; exact ⟨h2, h3⟩)
      have ha : s.addNegative g B (some p) = ({ s with neg := c₁ }, none) := by
        unfold addAll at e1
        rcases hr : s.addNegative g B (some p) with ⟨s', _ | er⟩
        · simp only [hr] at e1
          unfold addAll at e1
          exact e1
        · simp only [hr] at e1
          cases (Prod.mk.inj e1).2
      rw [ha]
      dsimp only
      have hM : c₁.M = s.neg.M := by unfold Ctx.M; rw [e3]
      obtain ⟨c', i1, i2, i3, i4, i5⟩ := ih st' { s with neg := c₁ } ⟨e2, e4⟩ h5 (by show _ ⊆ c₁.M; rw [hM]; exact hp) (by
        show (N \ c₁.objects.toFinset).card < fuel
        have : N \ c₁.objects.toFinset ⊂ N \ s.neg.objects.toFinset := by
          rw [Finset.ssubset_iff_of_subset]
          · refine ⟨g, Finset.mem_sdiff.2 ⟨hN g B h2, by simpa using h4⟩, ?_⟩
            rw [e5]
            simp
          · intro a ha
            rw [Finset.mem_sdiff, e5] at ha
            rw [Finset.mem_sdiff]
            refine ⟨ha.1, fun hh => ha.2 ?_⟩
            rw [List.mem_toFinset] at hh ⊢
            exact List.mem_append_left _ hh
        have := Finset.card_lt_card this
        omega)
      refine ⟨c', i1, i2, i3.trans e3, ?_, ?_⟩
      · refine List.IsPrefix.trans ?_ i4
        show _ <+: c₁.objects
        rw [e5]; exact List.prefix_append _ _
      · rw [i5]
        show ¬ D.Refutes c₁.M _ ↔ _
        rw [hM]

theorem askLive_ok {D : Domain α β} {N : Finset α} (hN : ∀ g B, D g B → g ∈ N) {σ : Type} {x : LiveExpert α β σ}
    {Of : List β → σ → Prop} (hx : LiveHonest D x Of) {fuel : ℕ} (hf : N.card < fuel) {s : PExp α β} (h : SInv D s)
    (p : List β) (hp : p.toFinset ⊆ s.neg.M) :
    ∃ r, askLive x fuel s p = some r ∧ SInv D r.1 ∧ r.1.pos = s.pos ∧ r.1.neg.attributes = s.neg.attributes ∧
    ((¬ OnlyFull s.pos.G s.pos.M s.pos.Inc p.toFinset ∧ ¬ D.Refutes s.neg.M p.toFinset ∧
      r.2 = none ∧ r.1.confirmed = s.confirmed ++ [p.toFinset]) ∨
     (¬ (¬ OnlyFull s.pos.G s.pos.M s.pos.Inc p.toFinset ∧ ¬ D.Refutes s.neg.M p.toFinset) ∧
      r.2 ≠ none ∧ r.1.confirmed = s.confirmed)) := by
  obtain ⟨c', e1, e2, e3, -, e5⟩ := newLive_ok hN hx p fuel (x.start s p) s h (hx.start s p h) hp
    (lt_of_le_of_lt (Finset.card_le_card Finset.sdiff_subset) hf)
  have hM : c'.M = s.neg.M := by unfold Ctx.M; rw [e3]
  refine ⟨_, by unfold askLive; rw [e1], ?_⟩
  rcases confirm_spec e2.inv p with ⟨h1, h2, h3, h4⟩ | ⟨⟨er, h1⟩, h2⟩
  · rw [h1]
    refine ⟨⟨⟨e2.inv.pos, e2.inv.neg, e2.inv.same, ?_⟩, e2.dom⟩, rfl, e3, .inl ⟨h3, e5.1 h4, rfl, rfl⟩⟩
    intro q hq
    rcases List.mem_append.1 hq with hq | hq
    · exact e2.inv.sub q hq
    · rw [List.mem_singleton.1 hq]; exact h2
  · rw [h1]
    refine ⟨e2, rfl, e3, .inr ⟨fun hh => h2 ⟨?_, hh.1, e5.2 hh.2⟩, by simp, rfl⟩⟩
    show p.toFinset ⊆ c'.M
    rw [hM]; exact hp

/-- An expert that searches the list `U` at every step for an object that has the pattern, lacks some attribute and is not
in the negative context yet. -/
def found (U : List (α × Finset β)) (p : List β) (s : PExp α β) : Option (α × Finset β) :=
  U.find? fun y => decide (p.toFinset ⊆ y.2) && decide (y.1 ∉ s.neg.objects) &&
    !decide (s.neg.attributes.toFinset ⊆ y.2)

def searching (U : List (α × Finset β)) : LiveExpert α β (List β) where
  start _ p := p
  next p s := ((found U p s).map .ok, p)

/-- The same, but it ends when the negative context refutes the pattern, as `aclosure` shows. -/
def searchingOne (U : List (α × Finset β)) : LiveExpert α β (List β) where
  start _ p := p
  next p s :=
    match s.neg.aclosure p with
    | .error e => (some (.error e), p)
    | .ok S => if S = s.neg.attributes.toFinset then ((found U p s).map .ok, p) else (none, p)

theorem found_gives {U : List (α × Finset β)} (hU : (U.map Prod.fst).Nodup) {s : PExp α β}
    (h : SInv (fun g B => (g, B) ∈ U) s) {p : List β} (hp : p.toFinset ⊆ s.neg.M) :
    (found U p s = none ∧ (Domain.Refutes (fun g B => (g, B) ∈ U) s.neg.M p.toFinset →
      ¬ OnlyFull s.neg.G s.neg.M s.neg.Inc p.toFinset)) ∨
    ∃ y, found U p s = some y ∧ y ∈ U ∧ p.toFinset ⊆ y.2 ∧ y.1 ∉ s.neg.objects := by
  cases hf : found U p s with
  | none =>
    refine .inl ⟨rfl, fun hr ho => ?_⟩
    obtain ⟨y, h1, h2, h3, h4⟩ := listed_new hU h hr ho hp
    unfold found at hf
    rw [List.find?_eq_none] at hf
    have h4' : ¬ s.neg.attributes.toFinset ⊆ y.2 := h4
    exact hf y h1 (by simp [h2, h3, h4'])
  | some y =>
    have h1 := List.find?_some hf
    have h2 := List.mem_of_find?_eq_some hf
    simp only [Bool.and_eq_true, decide_eq_true_eq] at h1
    exact .inr ⟨y, rfl, h2, h1.1.1, h1.1.2⟩

theorem searching_honest {U : List (α × Finset β)} (hU : (U.map Prod.fst).Nodup) :
    LiveHonest (fun g B => (g, B) ∈ U) (searching U) (fun p st => st = p) := by
  refine ⟨fun _ _ _ => rfl, ?_⟩
  rintro s p st h rfl hp
  rcases found_gives hU h hp with ⟨h1, h2⟩ | ⟨y, h1, h2, h3, h4⟩
  · refine .inl ⟨?_, h2⟩
    show (found U st s).map _ = none
    rw [h1]; rfl
  · refine .inr ⟨y.1, y.2, st, ?_, h2, h3, h4, rfl⟩
    show ((found U st s).map _, _) = _
    rw [h1]; rfl

theorem searchingOne_honest {U : List (α × Finset β)} (hU : (U.map Prod.fst).Nodup) :
    LiveHonest (fun g B => (g, B) ∈ U) (searchingOne U) (fun p st => st = p) := by
  refine ⟨fun _ _ _ => rfl, ?_⟩
  rintro s p st h rfl hp
  obtain ⟨S, k1, k2⟩ := aclosure_full h.inv.neg (l := st) fun a ha =>
    List.mem_toFinset.1 (hp (List.mem_toFinset.2 ha))
  by_cases hS : S = s.neg.attributes.toFinset
  · have hn : (searchingOne U).next st s = ((found U st s).map .ok, st) := by
      simp only [searchingOne, k1, if_pos hS]
    rw [hn]
    rcases found_gives hU h hp with ⟨h1, h2⟩ | ⟨y, h1, h2, h3, h4⟩
    · exact .inl ⟨by rw [h1]; rfl, h2⟩
    · exact .inr ⟨y.1, y.2, st, by rw [h1]; rfl, h2, h3, h4, rfl⟩
  · have hn : (searchingOne U).next st s = (none, st) := by
      simp only [searchingOne, k1, if_neg hS]
    rw [hn]
    exact .inl ⟨rfl, fun _ ho => hS (k2.2 ho)⟩

theorem newLive_ofList (e : PExp α β → List β → Py (List (α × Finset β))) (p : List β) (xs : List (α × Finset β)) :
    ∀ (fuel : ℕ) (s : PExp α β), xs.length < fuel →
      newLive (LiveExpert.ofList e) p fuel (.ok xs) s = some (s.addAll p xs) := by
  induction xs with
  | nil =>
    intro fuel s hf
    obtain ⟨k, rfl⟩ : ∃ k, fuel = k + 1 := ⟨fuel - 1, by simp at hf; omega⟩
    rfl
  | cons y ys ih =>
    intro fuel s hf
    obtain ⟨k, rfl⟩ : ∃ k, fuel = k + 1 := ⟨fuel - 1, by simp at hf; omega⟩
    have hk : ys.length < k := by simp at hf; omega
    unfold newLive addAll
    show (match s.addNegative y.1 y.2 (some p) with
      | (s', none) => newLive (LiveExpert.ofList e) p k (.ok ys) s'
      | r => some r) = _
    rcases s.addNegative y.1 y.2 (some p) with ⟨s', _ | er⟩
    · exact ih k s' hk
    · rfl

end PExp

/-- C162: `iterate_new_objects` with an honest expert that is a generator reading the exploration while its objects are
added, over a domain with finitely many names. The loop ends, and the patterns confirmed are exactly those that occur in a
positive object lacking some attribute and in no object of the domain lacking some attribute. -/
theorem C162_live_expert {pos neg : Ctx α β} (hp : pos.WF) (hn : neg.WF) {s₀ : PExp α β}
    (hi : PExp.init pos neg = .ok s₀) {D : Domain α β} (hD : FromDomain D neg) {N : Finset α}
    (hN : ∀ g B, D g B → g ∈ N) {σ : Type} {x : LiveExpert α β σ} {Of : List β → σ → Prop} (hx : LiveHonest D x Of)
    {fuel : ℕ} (hf : N.card < fuel) (patterns : List (List β)) (hs : ∀ p ∈ patterns, p.toFinset ⊆ neg.M)
    [DecidablePred fun p : List β =>
      (∃ g ∈ pos.G, (∀ m ∈ p, pos.Inc g m) ∧ ∃ m ∈ pos.M, ¬ pos.Inc g m) ∧
        ∀ g B, D g B → p.toFinset ⊆ B → neg.M ⊆ B] :
    ∃ s, sessionLive x fuel s₀ patterns = some s ∧ s.pos = pos ∧ s.neg.WF ∧ s.neg.attributes = neg.attributes ∧
    (∀ g ∈ s.neg.objects, ∃ B, D g B ∧ ∀ m ∈ s.neg.attributes, (s.neg.Inc g m ↔ m ∈ B)) ∧
    s.confirmed = (patterns.filter fun p => decide
      ((∃ g ∈ pos.G, (∀ m ∈ p, pos.Inc g m) ∧ ∃ m ∈ pos.M, ¬ pos.Inc g m) ∧
        ∀ g B, D g B → p.toFinset ⊆ B → neg.M ⊆ B)).map List.toFinset := by
  obtain ⟨i1, i2, i3, i4⟩ := PExp.init_inv hp hn hi
  have hR : ∀ p : Finset β, ¬ D.Refutes neg.M p ↔ ∀ g B, D g B → p ⊆ B → neg.M ⊆ B := by
    intro p
    unfold Domain.Refutes
    push Not
    rfl
  have hP : ∀ p : List β, ¬ OnlyFull pos.G pos.M pos.Inc p.toFinset ↔
      ∃ g ∈ pos.G, (∀ m ∈ p, pos.Inc g m) ∧ ∃ m ∈ pos.M, ¬ pos.Inc g m := by
    intro p
    unfold OnlyFull
    simp only [List.mem_toFinset]
    push Not
    rfl
  have key : ∀ (l : List (List β)), (∀ p ∈ l, p.toFinset ⊆ neg.M) → ∀ t : PExp α β, SInv D t → t.pos = pos →
      t.neg.attributes = neg.attributes →
      ∃ s, sessionLive x fuel t l = some s ∧ SInv D s ∧ s.pos = pos ∧ s.neg.attributes = neg.attributes ∧
        s.confirmed = t.confirmed ++ (l.filter fun p => decide
          ((∃ g ∈ pos.G, (∀ m ∈ p, pos.Inc g m) ∧ ∃ m ∈ pos.M, ¬ pos.Inc g m) ∧
            ∀ g B, D g B → p.toFinset ⊆ B → neg.M ⊆ B)).map List.toFinset := by
    intro l
    induction l with
    | nil => intro _ t ht h1 h2; exact ⟨t, rfl, ht, h1, h2, by simp⟩
    | cons p l ih =>
      intro hl t ht h1 h2
      have hM : t.neg.M = neg.M := by unfold Ctx.M; rw [h2]
      obtain ⟨r, a0, a1, a2, a3, a4⟩ := askLive_ok hN hx hf ht p (by rw [hM]; exact hl p (by simp))
      obtain ⟨s, b0, b1, b2, b3, b4⟩ := ih (fun q hq => hl q (List.mem_cons_of_mem _ hq)) _ a1 (a2.trans h1) (a3.trans h2)
      refine ⟨s, by unfold sessionLive; rw [a0]; exact b0, b1, b2, b3, ?_⟩
      rw [b4]
      rw [hM, h1, hP, hR] at a4
      rcases a4 with ⟨c1, c2, -, c3⟩ | ⟨c1, -, c3⟩
      · rw [c3, List.filter_cons_of_pos (by simpa using ⟨by simpa using c1, c2⟩)]
        simp
      · rw [c3, List.filter_cons_of_neg (by
          intro hh
          exact c1 (of_decide_eq_true hh))]
  obtain ⟨s, k0, k1, k2, k3, k4⟩ := key patterns hs s₀ ⟨i1, i3 ▸ hD⟩ i2 (by rw [i3])
  exact ⟨s, k0, k2, k1.inv.neg, k3, k1.dom, by rw [k4, i4, List.nil_append]⟩

/-- An expert that returns a list is a special case: the loop over the generator is `addAll`, the question `ask`. -/
theorem C162_list_expert (e : PExp α β → List β → Py (List (α × Finset β))) (s : PExp α β) (p : List β) {fuel : ℕ}
    (hf : ∀ xs, e s p = .ok xs → xs.length < fuel) (hf0 : 0 < fuel) :
    askLive (LiveExpert.ofList e) fuel s p = some (s.ask (some e) p) := by
  unfold askLive ask iterateNew
  show (match newLive (LiveExpert.ofList e) p fuel (e s p) s with
    | none => none
    | some (s', none) => some (s'.confirm p)
    | some r => some r) = _
  dsimp only
  rcases he : e s p with er | xs
  · obtain ⟨k, rfl⟩ : ∃ k, fuel = k + 1 := ⟨fuel - 1, by omega⟩
    rfl
  · rw [newLive_ofList e p xs fuel s (hf xs he)]
    dsimp only
    rcases s.addAll p xs with ⟨s', _ | er⟩ <;> rfl

/-! ### Witnesses -/

example : LiveHonest (fun g B => (g, B) ∈ witDom) (searching witDom) (fun p st => st = p) ∧
    LiveHonest (fun g B => (g, B) ∈ witDom) (searchingOne witDom) (fun p st => st = p) ∧
    (∀ g B, (g, B) ∈ witDom → g ∈ (Finset.univ : Finset (Fin 3))) ∧
    (sessionLive (searching witDom) 4 ⟨witPos, witNeg, []⟩ [[1, 2], [0, 1], [1]]).map
      (fun s => (s.neg.objects, s.confirmed)) = some ([0, 1], [{0, 1}]) ∧
    (sessionLive (searchingOne witDom) 4 ⟨witPos, witNeg, []⟩ [[1, 2], [0, 1], [1]]).map
      (fun s => (s.neg.objects, s.confirmed)) = some ([0, 1], [{0, 1}]) :=
  ⟨searching_honest witDom_nodup, searchingOne_honest witDom_nodup, fun _ _ _ => Finset.mem_univ _,
    by decide +kernel, by decide +kernel⟩

/-- The two experts add different objects: the first goes on until nothing is left. -/
example : (askLive (searching [(1, {1, 2}), (2, {1})]) 4 (⟨witPos, witNeg, []⟩ : PExp (Fin 3) (Fin 3)) [1]).map
      (fun r => (r.1.neg.objects, r.2)) = some ([0, 1, 2], some .notANegativePattern) ∧
    (askLive (searchingOne [(1, {1, 2}), (2, {1})]) 4 (⟨witPos, witNeg, []⟩ : PExp (Fin 3) (Fin 3)) [1]).map
      (fun r => (r.1.neg.objects, r.2)) = some ([0], some .notANegativePattern) := by
  decide +kernel

/-- Consumers: one that confirms the intent of each example, one that confirms a pattern of several examples, one that adds
a positive example, which is not yielded any more. -/
example : (unexplainedLive (fun ys s => match ys.getLast? with
      | some x => (s.confirm ((SetOrder.fin 3).enum x.2)).1
      | none => s) (⟨witPos, witNeg, []⟩ : PExp (Fin 3) (Fin 3))).final.confirmed = [{0, 1}, {1, 2}] ∧
    (unexplainedLive (fun _ s => (s.confirm [0]).1)
      (⟨⟨[0, 1], [0, 1, 2], ⟨some 3, [[true, true, false], [true, false, false]]⟩⟩, witNeg, []⟩ :
        PExp (Fin 3) (Fin 3))).yields.map Prod.fst = [(0, {0, 1})] ∧
    (unexplainedLive (fun ys s => if ys.length = 1 then (s.addPositive 2 {2}).1 else s)
      (⟨witPos, witNeg, []⟩ : PExp (Fin 3) (Fin 3))).yields.map Prod.fst = [(0, {0, 1}), (1, {1, 2})] ∧
    (unexplainedLive (fun ys s => if ys.length = 1 then (s.addPositive 2 {2}).1 else s)
      (⟨witPos, witNeg, []⟩ : PExp (Fin 3) (Fin 3))).final.pos.objects = [0, 1, 2] := by
  decide +kernel

/-- The hypotheses of `C162_explains` for the first consumer. -/
example : Calls (fun (ys : List (Fin 3 × Finset (Fin 3))) (s : PExp (Fin 3) (Fin 3)) => match ys.getLast? with
      | some x => (s.confirm ((SetOrder.fin 3).enum x.2)).1
      | none => s) ∧
    ∃ z₁ z₂ : (Fin 3 × Finset (Fin 3)) × PExp (Fin 3) (Fin 3),
      (unexplainedLive (fun ys s => match ys.getLast? with
        | some x => (s.confirm ((SetOrder.fin 3).enum x.2)).1
        | none => s) (⟨witPos, witNeg, []⟩ : PExp (Fin 3) (Fin 3))).yields = [z₁, z₂] ∧
      (z₁.2.confirm ((SetOrder.fin 3).enum z₁.1.2)).1.confirmed = [z₁.1.2] ∧
      (z₂.2.confirm ((SetOrder.fin 3).enum z₂.1.2)).1.confirmed = [z₁.1.2, z₂.1.2] := by
  refine ⟨?_, ((0, {0, 1}), ⟨witPos, witNeg, []⟩), ((1, {1, 2}), ⟨witPos, witNeg, [{0, 1}]⟩), by decide +kernel,
    by decide +kernel, by decide +kernel⟩
  intro ys s _
  cases hy : ys.getLast? with
  | none => exact ⟨[], trivial, by dsimp only; rw [hy]; rfl⟩
  | some x => exact ⟨[.confirm ((SetOrder.fin 3).enum x.2)], ⟨trivial, trivial, trivial⟩, by dsimp only; rw [hy]; rfl⟩

/-- The third consumer satisfies the hypothesis of the theorems. -/
example : Calls (fun (ys : List (Fin 3 × Finset (Fin 3))) (s : PExp (Fin 3) (Fin 3)) =>
    if ys.length = 1 ∧ (2 : Fin 3) ∉ s.pos.objects then (s.addPositive 2 {2}).1 else (s.confirm [0]).1) := by
  intro ys s _
  by_cases h : ys.length = 1 ∧ (2 : Fin 3) ∉ s.pos.objects
  · exact ⟨[.addPositive 2 {2}], ⟨h.2, trivial, trivial⟩, by simp only [if_pos h]; rfl⟩
  · exact ⟨[.confirm [0]], ⟨trivial, trivial, trivial⟩, by simp only [if_neg h]; rfl⟩

example : (examplesLive (SetOrder.fin 3) (fun ys s => if ys.length = 1 then (s.addPositive 2 {1}).1 else s)
      (⟨witPos, witNeg, []⟩ : PExp (Fin 3) (Fin 3)) ⟨witPos, witNeg, []⟩ [1]).yields.map Prod.fst =
    [(0, {0, 1}), (1, {1, 2})] := by
  decide +kernel

/-- The negative context is read at every step. -/
example : (positiveLive (SetOrder.fin 3) (fun _ s => s) (⟨witPos, witNeg, []⟩ : PExp (Fin 3) (Fin 3))).yields.map
      (fun z => z.1.intent) = [{0, 1, 2}, {0, 1}, {1, 2}] ∧
    (positiveLive (SetOrder.fin 3) (fun ys s => if ys.length = 1 then (s.addNegative 1 {0, 1} none).1 else s)
      (⟨witPos, witNeg, []⟩ : PExp (Fin 3) (Fin 3))).yields.map (fun z => z.1.intent) = [{0, 1, 2}, {1, 2}] := by
  decide +kernel

/-! ### Violations -/

namespace PExp

def redPos : Ctx (Fin 3) (Fin 3) := ⟨[0], [0, 1, 2], ⟨some 3, [[true, true, false]]⟩⟩

def redNeg : Ctx (Fin 3) (Fin 3) := ⟨[0, 1], [0, 1, 2], ⟨some 3, [[true, false, false], [false, true, false]]⟩⟩

theorem redPos_wf : redPos.WF := ⟨by constructor <;> decide +kernel, .inr rfl⟩

theorem redNeg_wf : redNeg.WF := ⟨by constructor <;> decide +kernel, .inr rfl⟩

end PExp

/-- The generator misses patterns, because it goes through the intents of the *reduced* positive context: attributes 0 and
1 have the same positive objects, so only one of them is left, and alone it is refuted; together they would be confirmed,
the loop with an honest expert confirms nothing and the example stays unexplained. -/
theorem C162_reduced_patterns_violated : ∃ (s : PExp (Fin 3) (Fin 3)) (U : List (Fin 3 × Finset (Fin 3))),
    PExp.init redPos redNeg = .ok s ∧ SInv (fun g B => (g, B) ∈ U) s ∧
    Honest (fun g B => (g, B) ∈ U) (listExpert U) ∧
    (positiveLive (SetOrder.fin 3) (asking (listExpert U) (SetOrder.fin 3)) s).final.confirmed = [] ∧
    (s.ask (some (listExpert U)) [0, 1]).2 = none ∧ (s.ask (some (listExpert U)) [0, 1]).1.confirmed = [{0, 1}] ∧
    s.pos.objects = [0] ∧ s.pos.Inc 0 0 ∧ s.pos.Inc 0 1 := by
  refine ⟨⟨redPos, redNeg, []⟩, [(0, {0}), (1, {1})], by decide +kernel, ⟨⟨redPos_wf, redNeg_wf, by decide +kernel, by simp⟩, ?_⟩,
    listExpert_honest (by decide +kernel), by decide +kernel, by decide +kernel, by decide +kernel, rfl, ?_, ?_⟩
  · have : ∀ g ∈ redNeg.objects, ∃ x ∈ ([(0, {0}), (1, {1})] : List (Fin 3 × Finset (Fin 3))), x.1 = g ∧
        ∀ m ∈ redNeg.attributes, (redNeg.Inc g m ↔ m ∈ x.2) := by
      simp only [← redNeg_wf.incB]
      decide +kernel
    intro g hg
    obtain ⟨x, h1, rfl, h2⟩ := this g hg
    exact ⟨x.2, h1, h2⟩
  · show redPos.Inc 0 0
    rw [← redPos_wf.incB]; decide +kernel
  · show redPos.Inc 0 1
    rw [← redPos_wf.incB]; decide +kernel

/-- A consumer of `iterate_examples` that deletes an object of the positive context which was not yielded yet makes the
generator raise KeyError. -/
theorem C162_examples_deleted_violated :
    (examplesLive (SetOrder.fin 3) (fun _ s => { s with pos := (s.pos.deleteObject 1).1 })
      (⟨witPos, witNeg, []⟩ : PExp (Fin 3) (Fin 3)) ⟨witPos, witNeg, []⟩ [1]).ended = .error .keyError ∧
    PExp.iterExamples (SetOrder.fin 3) (⟨witPos, witNeg, []⟩ : PExp (Fin 3) (Fin 3)) [1] =
      .ok [(0, {0, 1}), (1, {1, 2})] := by
  decide +kernel

/-- Without a bound on the names the loop need not end: an expert that always has another new object with the pattern. -/
theorem C162_endless_expert_violated [Infinite α] {s : PExp α β} (h : PExp.Inv s) (p : List β) :
    ∃ x : LiveExpert α β Unit, (∀ t, ∃ g, x.next () t = (some (.ok (g, p.toFinset)), ()) ∧ g ∉ t.neg.objects) ∧
      ∀ fuel, askLive x fuel s p = none := by
  classical
  refine ⟨⟨fun _ _ => (), fun _ t => (some (.ok ((Infinite.exists_notMem_finset t.neg.objects.toFinset).choose, p.toFinset)), ())⟩,
    fun t => ⟨_, rfl, ?_⟩, ?_⟩
  · have := (Infinite.exists_notMem_finset t.neg.objects.toFinset).choose_spec
    simpa using this
  · intro fuel
    have key : ∀ fuel (s : PExp α β), PExp.Inv s → newLive
        (⟨fun _ _ => (), fun _ t => (some (.ok ((Infinite.exists_notMem_finset t.neg.objects.toFinset).choose, p.toFinset)), ())⟩ :
          LiveExpert α β Unit) p fuel () s = none := by
      intro fuel
      induction fuel with
      | zero => intro s _; rfl
      | succ fuel ih =>
        intro s h
        unfold newLive
        dsimp only
        have hn := (Infinite.exists_notMem_finset s.neg.objects.toFinset).choose_spec
        rw [List.mem_toFinset] at hn
        obtain ⟨c', e1, e2, e3, -⟩ := add_negative_row h hn (Finset.Subset.refl p.toFinset)
        rw [e1]
        dsimp only
        have hM : c'.M = s.neg.M := by unfold Ctx.M; rw [e3]
        exact ih _ ⟨h.pos, e2, by show s.pos.M = c'.M; rw [hM]; exact h.same, by
          show ∀ p ∈ s.confirmed, p ⊆ c'.M
          rw [hM]; exact h.sub⟩
    unfold askLive
    rw [key fuel s h]
