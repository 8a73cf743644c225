/-
Property C152: pattern exploration with an expert.
-/
import Verif.Props.Patterns

set_option linter.unusedSectionVars false

variable {α β : Type} [DecidableEq α] [DecidableEq β] [PyName α] [PyName β]

open Spec Ctx

namespace PExp

/-- The domain: which objects with which attributes are negative examples. -/
abbrev Domain (α β : Type) := α → Finset β → Prop

/-- The pattern occurs in the domain only in objects that have all attributes of `M`. -/
def Domain.Refutes (D : Domain α β) (M : Finset β) (p : Finset β) : Prop := ∃ g B, D g B ∧ p ⊆ B ∧ ¬ M ⊆ B

/-- Every object of the context is from the domain. -/
def FromDomain (D : Domain α β) (c : Ctx α β) : Prop :=
  ∀ g ∈ c.objects, ∃ B, D g B ∧ ∀ m ∈ c.attributes, (c.Inc g m ↔ m ∈ B)

/-- The states of a session over the domain. -/
structure SInv (D : Domain α β) (s : PExp α β) : Prop where
  inv : Inv s
  dom : FromDomain D s.neg

/-- An honest expert returns new objects of the domain that have the pattern; if the domain refutes the pattern and no
object of the negative context does, one of the objects returned does. Nothing is asked of it in states that do not
occur. -/
structure Honest (D : Domain α β) (e : PExp α β → List β → Py (List (α × Finset β))) : Prop where
  returns : ∀ s p, SInv D s → ∃ xs, e s p = .ok xs
  fresh : ∀ s p xs, SInv D s → e s p = .ok xs → (s.neg.objects ++ xs.map Prod.fst).Nodup
  dom : ∀ s p xs, SInv D s → e s p = .ok xs → ∀ x ∈ xs, D x.1 x.2 ∧ p.toFinset ⊆ x.2
  refutes : ∀ s p xs, SInv D s → e s p = .ok xs → D.Refutes s.neg.M p.toFinset →
    OnlyFull s.neg.G s.neg.M s.neg.Inc p.toFinset → p.toFinset ⊆ s.neg.M → ∃ x ∈ xs, ¬ s.neg.M ⊆ x.2

/-- The expert who knows the list `U` and shows everything with the pattern that is not there yet. -/
def listExpert (U : List (α × Finset β)) (s : PExp α β) (p : List β) : Py (List (α × Finset β)) :=
  .ok (U.filter fun x => decide (p.toFinset ⊆ x.2) && decide (x.1 ∉ s.neg.objects))

/-- The expert who shows the first object that refutes the pattern, if any, and nothing else. -/
def firstExpert (U : List (α × Finset β)) (s : PExp α β) (p : List β) : Py (List (α × Finset β)) :=
  .ok ((U.find? fun x => decide (p.toFinset ⊆ x.2) && decide (x.1 ∉ s.neg.objects) &&
    !decide (s.neg.attributes.toFinset ⊆ x.2)).toList)

theorem listed_new {U : List (α × Finset β)} (hU : (U.map Prod.fst).Nodup) {s : PExp α β}
    (h : SInv (fun g B => (g, B) ∈ U) s) {p : List β} (hr : Domain.Refutes (fun g B => (g, B) ∈ U) s.neg.M p.toFinset)
    (ho : OnlyFull s.neg.G s.neg.M s.neg.Inc p.toFinset) (hp : p.toFinset ⊆ s.neg.M) :
    ∃ x ∈ U, p.toFinset ⊆ x.2 ∧ x.1 ∉ s.neg.objects ∧ ¬ s.neg.M ⊆ x.2 := by
  obtain ⟨g, B, hB, hpB, hMB⟩ := hr
  refine ⟨(g, B), hB, hpB, fun hg => hMB ?_, hMB⟩
  obtain ⟨B', hB', hi⟩ := h.dom g hg
  have : B' = B := by
    have := List.inj_on_of_nodup_map hU hB' hB rfl
    exact (Prod.mk.inj this).2
  subst this
  intro m hm
  exact (hi m (List.mem_toFinset.1 hm)).1 (ho g (List.mem_toFinset.2 hg)
    (fun a ha => (hi a (List.mem_toFinset.1 (hp ha))).2 (hpB ha)) m hm)

/-- Both experts are honest, whatever the list. -/
theorem listExpert_honest {U : List (α × Finset β)} (hU : (U.map Prod.fst).Nodup) :
    Honest (fun g B => (g, B) ∈ U) (listExpert U) := by
  refine ⟨fun s p _ => ⟨_, rfl⟩, ?_, ?_, ?_⟩
  · intro s p xs h hxs
    cases hxs
    refine List.nodup_append.2 ⟨h.inv.neg.onodup, hU.sublist (List.filter_sublist.map _), ?_⟩
    rintro a ha b hb rfl
    obtain ⟨x, hx, rfl⟩ := List.mem_map.1 hb
    have := (List.mem_filter.1 hx).2
    simp only [Bool.and_eq_true, decide_eq_true_eq] at this
    exact this.2 ha
  · intro s p xs h hxs x hx
    cases hxs
    have := (List.mem_filter.1 hx)
    simp only [Bool.and_eq_true, decide_eq_true_eq] at this
    exact ⟨this.1, this.2.1⟩
  · intro s p xs h hxs hr ho hp
    cases hxs
    obtain ⟨x, h1, h2, h3, h4⟩ := listed_new hU h hr ho hp
    exact ⟨x, List.mem_filter.2 ⟨h1, by simp [h2, h3]⟩, h4⟩

theorem firstExpert_honest {U : List (α × Finset β)} (hU : (U.map Prod.fst).Nodup) :
    Honest (fun g B => (g, B) ∈ U) (firstExpert U) := by
  have hmem : ∀ (s : PExp α β) (p : List β) xs, firstExpert U s p = .ok xs → ∀ x ∈ xs,
      x ∈ U ∧ p.toFinset ⊆ x.2 ∧ x.1 ∉ s.neg.objects ∧ ¬ s.neg.attributes.toFinset ⊆ x.2 := by
    intro s p xs hxs x hx
    cases hxs
    rw [Option.mem_toList] at hx
    have h1 := List.find?_some hx
    have h2 := List.mem_of_find?_eq_some hx
    simp only [Bool.and_eq_true, decide_eq_true_eq, Bool.not_eq_true', decide_eq_false_iff_not] at h1
    exact ⟨h2, h1.1.1, h1.1.2, h1.2⟩
  refine ⟨fun s p _ => ⟨_, rfl⟩, ?_, ?_, ?_⟩
  · intro s p xs h hxs
    have := hmem s p xs hxs
    refine List.nodup_append.2 ⟨h.inv.neg.onodup, ?_, ?_⟩
    · cases hxs
      cases U.find? _ <;> simp
    · rintro a ha b hb rfl
      obtain ⟨x, hx, rfl⟩ := List.mem_map.1 hb
      exact (this x hx).2.2.1 ha
  · intro s p xs h hxs x hx
    exact ⟨(hmem s p xs hxs x hx).1, (hmem s p xs hxs x hx).2.1⟩
  · intro s p xs h hxs hr ho hp
    obtain ⟨x, h1, h2, h3, h4⟩ := listed_new hU h hr ho hp
    have h4' : ¬ s.neg.attributes.toFinset ⊆ x.2 := h4
    cases hf : U.find? fun x => decide (p.toFinset ⊆ x.2) && decide (x.1 ∉ s.neg.objects) &&
      !decide (s.neg.attributes.toFinset ⊆ x.2) with
    | none =>
      rw [List.find?_eq_none] at hf
      exact absurd (by simp [h2, h3, h4']) (hf x h1)
    | some y =>
      have hy : y ∈ xs := by
        unfold firstExpert at hxs
        rw [hf] at hxs
        cases hxs; simp
      exact ⟨y, hy, (hmem s p xs hxs y hy).2.2.2⟩

theorem add_negative_row {s : PExp α β} (h : Inv s) {n : α} (hn : n ∉ s.neg.objects) {B : Finset β} {p : List β}
    (hp : p.toFinset ⊆ B) :
    ∃ c', s.addNegative n B (some p) = ({ s with neg := c' }, none) ∧ c'.WF ∧ c'.attributes = s.neg.attributes ∧
      c'.objects = s.neg.objects ++ [n] ∧
      ∀ o a, c'.Inc o a ↔ (o = n ∧ a ∈ s.neg.attributes ∧ a ∈ B) ∨ (o ≠ n ∧ s.neg.Inc o a) := by
  obtain ⟨c', hc'⟩ := addObject_returns h.neg.toWFw (row := s.neg.attributes.map fun a => decide (a ∈ B))
    (by simp) n
  have hc : s.neg.addObjectWithIntent B n = (c', none) := hc'
  have hst := h.neg.toWFw.stores.exec (op := .addObjectWithIntent B n) hn hc
  have ho : c'.objects = s.neg.objects ++ [n] := hst.objs
  obtain ⟨h1, h2, h3⟩ := add_row h.neg hn B hc.symm
  refine ⟨c', ?_, h1, h2, ho, ?_⟩
  · unfold addNegative
    dsimp only
    rw [if_neg (by rw [not_not, Finset.sdiff_eq_empty_iff_subset]; exact hp), hc]
  · rcases h3 with h3 | h3
    · exfalso
      have : c' = s.neg := h3
      rw [this] at ho
      simpa using congrArg List.length ho
    · exact h3.2

theorem addAll_ok (D : Domain α β) {p : List β} (xs : List (α × Finset β)) :
    ∀ {s : PExp α β}, Inv s → FromDomain D s.neg → (s.neg.objects ++ xs.map Prod.fst).Nodup →
    (∀ x ∈ xs, D x.1 x.2 ∧ p.toFinset ⊆ x.2) →
    ∃ c', s.addAll p xs = ({ s with neg := c' }, none) ∧ Inv ({ s with neg := c' } : PExp α β) ∧
      c'.attributes = s.neg.attributes ∧ FromDomain D c' ∧ c'.objects = s.neg.objects ++ xs.map Prod.fst ∧
      (∀ o ∈ s.neg.objects, ∀ a, c'.Inc o a ↔ s.neg.Inc o a) ∧
      ∀ x ∈ xs, ∀ a ∈ s.neg.attributes, (c'.Inc x.1 a ↔ a ∈ x.2) := by
  induction xs with
  | nil =>
    intro s h hD _ _
    exact ⟨s.neg, rfl, h, rfl, hD, by simp, fun _ _ _ => Iff.rfl, by simp⟩
  | cons x xs ih =>
    intro s h hD hnd hx
    have hxn : x.1 ∉ s.neg.objects := by
      intro hx
      rw [List.map_cons, List.nodup_append] at hnd
      exact hnd.2.2 _ hx _ (by simp) rfl
    obtain ⟨c₁, e1, e2, e3, e4, e5⟩ := add_negative_row h hxn (hx x (by simp)).2
    have hM : c₁.M = s.neg.M := by unfold Ctx.M; rw [e3]
    have hI : Inv ({ s with neg := c₁ } : PExp α β) :=
      ⟨h.pos, e2, by show s.pos.M = c₁.M; rw [hM]; exact h.same, by show ∀ p ∈ s.confirmed, p ⊆ c₁.M; rw [hM]; exact h.sub⟩
    have hD₁ : FromDomain D c₁ := by
      intro g hg
      rw [e4, List.mem_append, List.mem_singleton] at hg
      rw [e3]
      by_cases hgx : g = x.1
      · subst hgx
        refine ⟨x.2, (hx x (by simp)).1, fun m hm => ?_⟩
        rw [e5]
        simp [hm]
      · obtain ⟨B, hB, hB'⟩ := hD g (hg.resolve_right hgx)
        refine ⟨B, hB, fun m hm => ?_⟩
        rw [e5, ← hB' m hm]
        simp [hgx]
    obtain ⟨c', i1, i2, i3, i4, i5, i6, i7⟩ := ih hI hD₁ (by
      show (c₁.objects ++ _).Nodup
      rw [e4, List.append_assoc]; exact hnd) fun y hy => hx y (List.mem_cons_of_mem _ hy)
    dsimp only at i1 i2 i3 i5 i6 i7
    refine ⟨c', ?_, i2, i3.trans e3, i4, by rw [i5, e4]; simp, ?_, ?_⟩
    · unfold addAll
      rw [e1]
      exact i1
    · intro o ho a
      rw [i6 o (by rw [e4]; exact List.mem_append_left _ ho), e5]
      constructor
      · rintro (⟨rfl, -⟩ | ⟨-, hh⟩)
        · exact absurd ho hxn
        · exact hh
      · exact fun hh => .inr ⟨fun he => hxn (he ▸ ho), hh⟩
    · intro y hy a ha
      rcases List.mem_cons.1 hy with rfl | hy
      · rw [i6 y.1 (by rw [e4]; simp), e5]
        simp [ha]
      · exact i7 y hy a (by rw [e3]; exact ha)

theorem ask_ok {D : Domain α β} {e : PExp α β → List β → Py (List (α × Finset β))} (he : Honest D e) {s : PExp α β}
    (h : SInv D s) (p : List β) (hp : p.toFinset ⊆ s.neg.M) :
    SInv D (s.ask (some e) p).1 ∧ (s.ask (some e) p).1.pos = s.pos ∧
    (s.ask (some e) p).1.neg.attributes = s.neg.attributes ∧
    ((¬ OnlyFull s.pos.G s.pos.M s.pos.Inc p.toFinset ∧ ¬ D.Refutes s.neg.M p.toFinset ∧
      (s.ask (some e) p).2 = none ∧ (s.ask (some e) p).1.confirmed = s.confirmed ++ [p.toFinset]) ∨
     (¬ (¬ OnlyFull s.pos.G s.pos.M s.pos.Inc p.toFinset ∧ ¬ D.Refutes s.neg.M p.toFinset) ∧
      (s.ask (some e) p).2 ≠ none ∧ (s.ask (some e) p).1.confirmed = s.confirmed)) := by
  obtain ⟨xs, hxs⟩ := he.returns s p h
  obtain ⟨c', e1, e2, e3, e4, e5, e6, e7⟩ := addAll_ok D xs h.inv h.dom (he.fresh s p xs h hxs) (he.dom s p xs h hxs)
  have hM : c'.M = s.neg.M := by unfold Ctx.M; rw [e3]
  have hask : s.ask (some e) p = ({ s with neg := c' } : PExp α β).confirm p := by
    unfold ask iterateNew
    dsimp only
    rw [hxs]
    dsimp only
    rw [e1]
  have key : OnlyFull c'.G c'.M c'.Inc p.toFinset ↔ ¬ D.Refutes s.neg.M p.toFinset := by
    constructor
    · intro ho hr
      have h1 : OnlyFull s.neg.G s.neg.M s.neg.Inc p.toFinset := by
        intro g hg hgp m hm
        have hg' := List.mem_toFinset.1 hg
        rw [← e6 g hg']
        refine ho g (List.mem_toFinset.2 (by rw [e5]; exact List.mem_append_left _ hg')) (fun a ha => ?_) m
          (by rw [hM]; exact hm)
        rw [e6 g hg']
        exact hgp a ha
      obtain ⟨x, hx, hxM⟩ := he.refutes s p xs h hxs hr h1 hp
      refine hxM fun m hm => (e7 x hx m (List.mem_toFinset.1 hm)).1 ?_
      refine ho x.1 (List.mem_toFinset.2 (by rw [e5]; exact List.mem_append_right _ (List.mem_map_of_mem hx)))
        (fun a ha => ?_) m (by rw [hM]; exact hm)
      exact (e7 x hx a (List.mem_toFinset.1 (hp ha))).2 ((he.dom s p xs h hxs x hx).2 ha)
    · intro hr g hg hgp m hm
      obtain ⟨B, hB, hB'⟩ := e4 g (List.mem_toFinset.1 hg)
      have hpB : p.toFinset ⊆ B := fun a ha =>
        (hB' a (by rw [e3]; exact List.mem_toFinset.1 (hp ha))).1 (hgp a ha)
      have hMB : s.neg.M ⊆ B := by
        by_contra hc
        exact hr ⟨g, B, hB, hpB, hc⟩
      exact (hB' m (List.mem_toFinset.1 hm)).2 (hMB (hM ▸ hm))
  rw [hask]
  rcases confirm_spec e2 p with ⟨h1, h2, h3, h4⟩ | ⟨⟨er, h1⟩, h2⟩
  · rw [h1]
    refine ⟨⟨⟨e2.pos, e2.neg, e2.same, ?_⟩, e4⟩, rfl, e3, .inl ⟨h3, key.1 h4, rfl, rfl⟩⟩
    intro q hq
    rcases List.mem_append.1 hq with hq | hq
    · exact e2.sub q hq
    · rw [List.mem_singleton.1 hq]; exact h2
  · rw [h1]
    refine ⟨⟨e2, e4⟩, rfl, e3, .inr ⟨fun hh => h2 ⟨?_, hh.1, key.2 hh.2⟩, by simp, rfl⟩⟩
    show p.toFinset ⊆ c'.M
    rw [hM]; exact hp

end PExp

open PExp

/-- C152: an honest expert, patterns over the attributes. The confirmed patterns are exactly those asked about that occur
in a positive object lacking some attribute and in no object of the domain lacking some attribute, in the order of the
questions; the negative context contains objects of the domain only. -/
theorem C152_session {pos neg : Ctx α β} (hp : pos.WF) (hn : neg.WF) {s₀ : PExp α β} (hi : PExp.init pos neg = .ok s₀)
    {D : Domain α β} (hD : FromDomain D neg) {e : PExp α β → List β → Py (List (α × Finset β))} (he : Honest D e)
    (patterns : List (List β)) (hs : ∀ p ∈ patterns, p.toFinset ⊆ neg.M) (s : PExp α β)
    (hs' : s = s₀.session (some e) patterns) [DecidablePred fun p : List β =>
      (∃ g ∈ pos.G, (∀ m ∈ p, pos.Inc g m) ∧ ∃ m ∈ pos.M, ¬ pos.Inc g m) ∧
        ∀ g B, D g B → p.toFinset ⊆ B → neg.M ⊆ B] :
    s.pos = pos ∧ s.neg.WF ∧ s.neg.attributes = neg.attributes ∧
    (∀ g ∈ s.neg.objects, ∃ B, D g B ∧ ∀ m ∈ s.neg.attributes, (s.neg.Inc g m ↔ m ∈ B)) ∧
    s.confirmed = (patterns.filter fun p => decide
      ((∃ g ∈ pos.G, (∀ m ∈ p, pos.Inc g m) ∧ ∃ m ∈ pos.M, ¬ pos.Inc g m) ∧
        ∀ g B, D g B → p.toFinset ⊆ B → neg.M ⊆ B)).map List.toFinset := by
  obtain ⟨i1, i2, i3, i4⟩ := PExp.init_inv hp hn hi
  have hR : ∀ p : Finset β, ¬ D.Refutes neg.M p ↔ ∀ g B, D g B → p ⊆ B → neg.M ⊆ B := by
    intro p
    unfold Domain.Refutes
    push Not
    rfl
  have hP : ∀ p : List β, ¬ OnlyFull pos.G pos.M pos.Inc p.toFinset ↔
      ∃ g ∈ pos.G, (∀ m ∈ p, pos.Inc g m) ∧ ∃ m ∈ pos.M, ¬ pos.Inc g m := by
    intro p
    unfold OnlyFull
    simp only [List.mem_toFinset]
    push Not
    rfl
  have key : ∀ (l : List (List β)), (∀ p ∈ l, p.toFinset ⊆ neg.M) → ∀ t : PExp α β, SInv D t → t.pos = pos →
      t.neg.attributes = neg.attributes →
      SInv D (t.session (some e) l) ∧ (t.session (some e) l).pos = pos ∧
        (t.session (some e) l).neg.attributes = neg.attributes ∧
        (t.session (some e) l).confirmed = t.confirmed ++ (l.filter fun p => decide
          ((∃ g ∈ pos.G, (∀ m ∈ p, pos.Inc g m) ∧ ∃ m ∈ pos.M, ¬ pos.Inc g m) ∧
            ∀ g B, D g B → p.toFinset ⊆ B → neg.M ⊆ B)).map List.toFinset := by
    intro l
    induction l with
    | nil => intro _ t ht h1 h2; exact ⟨ht, h1, h2, by simp [session]⟩
    | cons p l ih =>
      intro hl t ht h1 h2
      have hM : t.neg.M = neg.M := by unfold Ctx.M; rw [h2]
      obtain ⟨a1, a2, a3, a4⟩ := PExp.ask_ok he ht p (by rw [hM]; exact hl p (by simp))
      obtain ⟨b1, b2, b3, b4⟩ := ih (fun q hq => hl q (List.mem_cons_of_mem _ hq)) _ a1 (a2.trans h1) (a3.trans h2)
      refine ⟨b1, b2, b3, ?_⟩
      show ((t.ask (some e) p).1.session (some e) l).confirmed = _
      rw [b4]
      rw [hM, h1, hP, hR] at a4
      rcases a4 with ⟨c1, c2, -, c3⟩ | ⟨c1, -, c3⟩
      · rw [c3, List.filter_cons_of_pos (by simpa using ⟨by simpa using c1, c2⟩)]
        simp
      · rw [c3, List.filter_cons_of_neg (by
          intro hh
          exact c1 (of_decide_eq_true hh))]
  subst hs'
  obtain ⟨k1, k2, k3, k4⟩ := key patterns hs s₀ ⟨i1, i3 ▸ hD⟩ i2 (by rw [i3])
  exact ⟨k2, k1.inv.neg, k3, k1.dom, by rw [k4, i4, List.nil_append]⟩

/-- The default: without an expert, asking raises TypeError and changes nothing. -/
theorem C152_no_expert_violated (s : PExp α β) (p : List β) :
    s.iterateNew none p = .error .typeError ∧ s.ask none p = (s, some .typeError) := ⟨rfl, rfl⟩

/-- Which honest expert is asked does not matter for what is confirmed. -/
theorem C152_experts_agree {pos neg : Ctx α β} (hp : pos.WF) (hn : neg.WF) {s₀ : PExp α β}
    (hi : PExp.init pos neg = .ok s₀) {D : Domain α β} (hD : FromDomain D neg)
    {e e' : PExp α β → List β → Py (List (α × Finset β))} (he : Honest D e) (he' : Honest D e')
    (patterns : List (List β)) (hs : ∀ p ∈ patterns, p.toFinset ⊆ neg.M) :
    (s₀.session (some e) patterns).confirmed = (s₀.session (some e') patterns).confirmed := by
  classical
  rw [(C152_session hp hn hi hD he patterns hs _ rfl).2.2.2.2,
    (C152_session hp hn hi hD he' patterns hs _ rfl).2.2.2.2]

/-! ### Witnesses -/

namespace PExp

/-- The domain: the object of `witNeg` and two more. -/
def witDom : List (Fin 3 × Finset (Fin 3)) := [(0, {1}), (1, {1, 2}), (2, {0, 1, 2})]

theorem witDom_from : FromDomain (fun g B => (g, B) ∈ witDom) witNeg := by
  have hw := witNeg_wf
  have : ∀ g ∈ witNeg.objects, ∃ x ∈ witDom, x.1 = g ∧ ∀ m ∈ witNeg.attributes, (witNeg.Inc g m ↔ m ∈ x.2) := by
    simp only [← hw.incB]
    decide +kernel
  intro g hg
  obtain ⟨x, h1, rfl, h2⟩ := this g hg
  exact ⟨x.2, h1, h2⟩

theorem witDom_nodup : (witDom.map Prod.fst).Nodup := by decide +kernel

end PExp

/-- Three questions: the first pattern is refuted by an object of the expert, the second is confirmed although it is in
an object with all attributes, the third is refuted by the object already there. -/
example : Honest (fun g B => (g, B) ∈ witDom) (listExpert witDom) ∧ Honest (fun g B => (g, B) ∈ witDom) (firstExpert witDom) ∧
    ((⟨witPos, witNeg, []⟩ : PExp (Fin 3) (Fin 3)).session (some (listExpert witDom)) [[1, 2], [0, 1], [1]]).confirmed =
      [{0, 1}] ∧
    ((⟨witPos, witNeg, []⟩ : PExp (Fin 3) (Fin 3)).session (some (listExpert witDom)) [[1, 2], [0, 1], [1]]).neg.objects =
      [0, 1, 2] ∧
    ((⟨witPos, witNeg, []⟩ : PExp (Fin 3) (Fin 3)).session (some (firstExpert witDom)) [[1, 2], [0, 1], [1]]).neg.objects =
      [0, 1] ∧
    ((⟨witPos, witNeg, []⟩ : PExp (Fin 3) (Fin 3)).ask (some (listExpert witDom)) [1, 2]).2 =
      some .notANegativePattern :=
  ⟨listExpert_honest witDom_nodup, firstExpert_honest witDom_nodup, by decide +kernel, by decide +kernel,
    by decide +kernel, by decide +kernel⟩

/-- An expert who shows nothing gets patterns confirmed that the domain refutes. -/
theorem C152_silent_expert_violated : ∃ (s₀ : PExp (Fin 3) (Fin 3)) (U : List (Fin 3 × Finset (Fin 3))) (p : List (Fin 3)),
    PExp.init witPos witNeg = .ok s₀ ∧ FromDomain (fun g B => (g, B) ∈ U) witNeg ∧
    (s₀.ask (some fun _ _ => .ok []) p).1.confirmed = [p.toFinset] ∧
    ∃ x ∈ U, p.toFinset ⊆ x.2 ∧ ¬ witNeg.M ⊆ x.2 :=
  ⟨⟨witPos, witNeg, []⟩, witDom, [1, 2], by decide +kernel, witDom_from, by decide +kernel, by decide +kernel⟩
