/-
Property C173: the implication cover and the incremental basis depend on the intents of the context only, and the courses
of BasicExploration and BasicPatternExploration do not depend on the order in which Python iterates over sets
(fca/algorithms/implication_covers.py, aibasis.py, exploration.py, patterns.py).
-/
import Verif.Props.CoverExact
import Verif.Props.BasisIntents
import Verif.Props.AIBasisTests
import Verif.Props.HashOrder
import Verif.Props.BasicExploration
import Verif.Props.Patterns

set_option linter.unusedSectionVars false

open Spec HashOrder

/-! ### Cover and incremental basis -/

namespace Ctx

variable {α α' β : Type} [DecidableEq α] [DecidableEq α'] [DecidableEq β]

/-- Contexts with the same attributes have the same closures exactly if they have the same intents. -/
theorem closures_iff_intents {c : Ctx α β} {d : Ctx α' β} (hc : c.WFw) (hd : d.WFw) (hM : c.M = d.M) :
    (∀ S, S ⊆ c.M → attrClosure c.G c.M c.Inc S = attrClosure d.G d.M d.Inc S) ↔
      ∀ B, IsIntent c.G c.M c.Inc B ↔ IsIntent d.G d.M d.Inc B := by
  constructor
  · intro key B
    rw [isIntent_iff, isIntent_iff, ← hM]
    exact and_congr_right fun hB => by rw [key B hB, hM]
  · intro hB S hS
    refine closureOp_eq hc.attrClosure_op (hM ▸ hd.attrClosure_op) (fun s hs => ?_) hS
    have := hB s
    rw [isIntent_iff, isIntent_iff, ← hM] at this
    rw [← hM]
    exact ⟨fun h => (this.1 ⟨hs, h⟩).2, fun h => (this.2 ⟨hs, h⟩).2⟩

end Ctx

namespace Cover

variable {α α' β : Type} [DecidableEq α] [DecidableEq α'] [DecidableEq β]

/-- The closures of two contexts with the same attributes are the same if their covers are. -/
theorem cover_closure {c : Ctx α β} {d : Ctx α' β} (hc : c.WFw) (hd : d.WFw) (hM : c.M = d.M)
    (hb : d.attributes ≠ []) {ord ord' : ℕ → SetOrder β}
    {B B' : List (Imp β)} (hB : computeCover c ord = .ok B) (hB' : computeCover d ord' = .ok B')
    (hp : ∀ k, k ∈ B.map Imp.key → k ∈ B'.map Imp.key) {S : Finset β} (hS : S ⊆ c.M) :
    attrClosure c.G c.M c.Inc S ⊆ attrClosure d.G d.M d.Inc S := by
  obtain ⟨B₂, e2, -, m2⟩ := C167_cover hd hb ord'
  obtain ⟨B₃, e3, d1, -⟩ := C73_cover_direct hc ord
  rw [hB] at e3; rw [hB'] at e2
  cases e2; cases e3
  have hopd := hd.attrClosure_op
  have hSd : S ⊆ d.M := hM ▸ hS
  rcases d1 S hS with h1 | ⟨b, hb, hbS, h1⟩
  · rw [h1]
    exact hopd.ext S hSd
  · have h3 := ((m2 b.premise b.reduced).1 (hp _ (List.mem_map.2 ⟨b, hb, rfl⟩))).2
    rw [h1]
    refine Finset.union_subset (hopd.ext S hSd) fun x hx => ?_
    by_cases hxp : x ∈ b.premise
    · exact hopd.ext S hSd (hbS hxp)
    · have : x ∈ b.reduced := by
        unfold Imp.reduced
        exact Finset.mem_sdiff.2 ⟨hx, hxp⟩
      rw [h3] at this
      exact hopd.mono _ _ hbS hSd (Finset.mem_sdiff.1 this).1

/-- Two contexts with the same attributes have the same cover, up to its order, exactly if they have the same intents. -/
theorem C173_cover {c : Ctx α β} {d : Ctx α' β} (hc : c.WFw) (hd : d.WFw) (hM : c.M = d.M) (ord ord' : ℕ → SetOrder β) :
    ∃ B B', computeCover c ord = .ok B ∧ computeCover d ord' = .ok B' ∧
      ((B.map Imp.key).Perm (B'.map Imp.key) ↔ ∀ I, IsIntent c.G c.M c.Inc I ↔ IsIntent d.G d.M d.Inc I) := by
  by_cases ha : c.attributes = []
  · have hb : d.attributes = [] := by
      rw [← List.toFinset_eq_empty_iff] at ha ⊢
      exact hM.symm.trans ha
    refine ⟨_, _, C167_no_attributes hc ha ord, C167_no_attributes hd hb ord', ?_⟩
    refine iff_of_true (List.Perm.refl _) ?_
    rw [← Ctx.closures_iff_intents hc hd hM]
    intro S hS
    have hMe : c.M = ∅ := by unfold Ctx.M; rw [ha]; rfl
    have h1 := hc.attrClosure_op.into S hS
    have h2 := hd.attrClosure_op.into S (hM ▸ hS)
    rw [← hM] at h2
    rw [hMe, Finset.subset_empty] at h1 h2
    rw [hMe, h1, ← hM, hMe, h2]
  · have hb : d.attributes ≠ [] := by
      intro hb
      apply ha
      rw [← List.toFinset_eq_empty_iff] at hb ⊢
      exact hM.trans hb
    obtain ⟨B, e1, n1, m1⟩ := C167_cover hc ha ord
    obtain ⟨B', e2, n2, m2⟩ := C167_cover hd hb ord'
    refine ⟨B, B', e1, e2, ?_⟩
    rw [← Ctx.closures_iff_intents hc hd hM]
    constructor
    · intro hp S hS
      refine Finset.Subset.antisymm (cover_closure hc hd hM hb e1 e2 (fun k hk => hp.mem_iff.1 hk) hS) ?_
      exact cover_closure hd hc hM.symm ha e2 e1 (fun k hk => hp.mem_iff.2 hk) (hM ▸ hS)
    · intro hcl
      rw [List.perm_ext_iff_of_nodup n1 n2]
      rintro ⟨P, R⟩
      rw [m1, m2, ← hM]
      rw [← hM] at hcl
      constructor
      · rintro ⟨h1, h2⟩
        exact ⟨(leftMinimal_congr hcl h1.1).1 h1, by rw [← hcl P h1.1]; exact h2⟩
      · rintro ⟨h1, h2⟩
        exact ⟨(leftMinimal_congr hcl h1.1).2 h1, by rw [hcl P h1.1]; exact h2⟩

section derived
variable [PyName α] [PyName β]

/-- Clarifying and reducing the objects and giving them in another order leave the cover as it is, up to its order. -/
theorem C173_cover_derived {c : Ctx α β} (hc : c.WFw) (ord ord' : ℕ → SetOrder β) {B : List (Imp β)}
    (hB : computeCover c ord = .ok B) :
    (∃ d B', c.clarifyObjects = .ok d ∧ computeCover d ord' = .ok B' ∧ (B.map Imp.key).Perm (B'.map Imp.key)) ∧
    (∃ d B', c.reduceObjects = .ok d ∧ computeCover d ord' = .ok B' ∧ (B.map Imp.key).Perm (B'.map Imp.key)) ∧
    ∀ d : Ctx α β, d.WFw → (∀ o, o ∈ d.objects ↔ o ∈ c.objects) → (∀ a, a ∈ d.attributes ↔ a ∈ c.attributes) →
      (∀ o a, d.Inc o a ↔ c.Inc o a) → ∃ B', computeCover d ord' = .ok B' ∧ (B.map Imp.key).Perm (B'.map Imp.key) := by
  have aux : ∀ {d : Ctx α β}, d.WFw → c.M = d.M → (∀ I, IsIntent c.G c.M c.Inc I ↔ IsIntent d.G d.M d.Inc I) →
      ∃ B', computeCover d ord' = .ok B' ∧ (B.map Imp.key).Perm (B'.map Imp.key) := by
    intro d hd hM hI
    obtain ⟨B₁, B', e1, e2, h⟩ := C173_cover hc hd hM ord ord'
    rw [hB] at e1; cases e1
    exact ⟨B', e2, h.2 hI⟩
  refine ⟨?_, ?_, ?_⟩
  · obtain ⟨d, h1, h2, h3, -, -, -, -, -, h4⟩ := Ctx.C10_clarify hc
    obtain ⟨B', h5⟩ := aux h2.toWFw (by unfold Ctx.M; rw [h3]) fun I => (h4 I).symm
    exact ⟨d, B', h1, h5⟩
  · obtain ⟨d, h1, h2, -, h3, -, -, h4⟩ := Ctx.C11_reduce_objects hc
    obtain ⟨B', h5⟩ := aux h2.toWFw (by unfold Ctx.M; rw [h3]) fun I => (h4 I).symm
    exact ⟨d, B', h1, h5⟩
  · intro d hd hG hM hI
    have hMM : c.M = d.M := by ext a; simp [Ctx.M, hM]
    have hGG : c.G = d.G := by ext a; simp [Ctx.G, hG]
    have hII : c.Inc = d.Inc := by ext o a; exact (hI o a).symm
    exact aux hd hMM fun I => by rw [hMM, hGG, hII]

end derived

end Cover

namespace AI

variable {α α' β : Type} [DecidableEq α] [DecidableEq α'] [DecidableEq β]

/-- The incremental bases of two contexts with the same attributes have the same consequences exactly if the contexts have
the same intents, however the lists of sets are sorted; if the sorts leave no set behind a proper superset the bases are
then equal up to their order. -/
theorem C173_incremental {c : Ctx α β} {d : Ctx α' β} (hc : c.WFw) (hd : d.WFw) (hM : c.M = d.M)
    (hne : c.objects ≠ []) (hne' : d.objects ≠ [])
    (sort : List (Pre α β) → List (Pre α β)) (sort' : List (Pre α' β) → List (Pre α' β))
    (hsort : ∀ l, (sort l).Perm l) (hsort' : ∀ l, (sort' l).Perm l) :
    ∃ b b', computeCanonicalBasis sort simpleClosure c = .ok b ∧ computeCanonicalBasis sort' simpleClosure d = .ok b' ∧
      ((∀ S, simpleClosure S b = simpleClosure S b') ↔
        ∀ I, IsIntent c.G c.M c.Inc I ↔ IsIntent d.G d.M d.Inc I) ∧
      ((∀ l, (sort l).Pairwise fun p q => ¬ q.set ⊂ p.set) → (∀ l, (sort' l).Pairwise fun p q => ¬ q.set ⊂ p.set) →
        (∀ I, IsIntent c.G c.M c.Inc I ↔ IsIntent d.G d.M d.Inc I) → b.Perm b') := by
  obtain ⟨b, h1, h2, h3⟩ := C32_canonical_sound_complete hc (hc.cols hne) sort _ hsort simpleClosure_isLeast
  obtain ⟨b', k1, k2, k3⟩ := C32_canonical_sound_complete hd (hd.cols hne') sort' _ hsort' simpleClosure_isLeast
  refine ⟨b, b', h1, k1, ?_, ?_⟩
  · rw [← Ctx.closures_iff_intents hc hd hM]
    have g1 : ∀ s, simpleClosure s b = s ∪ attrClosure c.G c.M c.Inc (s ∩ c.M) := fun s =>
      least_of_complete hc.attrClosure_op (fun i hi => ⟨(h2 i hi).1, (h2 i hi).2.1⟩) (fun S hS => (h3 S hS).1)
        (simpleClosure_isLeast s b)
    have g2 : ∀ s, simpleClosure s b' = s ∪ attrClosure d.G d.M d.Inc (s ∩ d.M) := fun s =>
      least_of_complete hd.attrClosure_op (fun i hi => ⟨(k2 i hi).1, (k2 i hi).2.1⟩) (fun S hS => (k3 S hS).1)
        (simpleClosure_isLeast s b')
    constructor
    · intro hs S hS
      have := hs S
      rw [g1, g2, ← hM, Finset.inter_eq_left.2 hS, Finset.union_eq_right.2 (hc.attrClosure_op.ext _ hS), hM,
        Finset.union_eq_right.2 (hd.attrClosure_op.ext _ (hM ▸ hS)), ← hM] at this
      rw [this, hM]
    · intro hcl S
      rw [g1, g2, hcl _ Finset.inter_subset_right, hM]
  · intro ho ho' hI
    rw [← Ctx.closures_iff_intents hc hd hM] at hI
    obtain ⟨b₁, e1, m1, n1⟩ := C32_canonical_simple_partial hc hne sort hsort ho
    obtain ⟨b₂, e2, m2, n2⟩ := C32_canonical_simple_partial hd hne' sort' hsort' ho'
    rw [h1] at e1; rw [k1] at e2
    cases e1; cases e2
    rw [List.perm_ext_iff_of_nodup n1.of_map n2.of_map]
    intro i
    rw [m1, m2, ← hM, IsPseudo.congr_cl hI, ← hM]
    rw [← hM] at hI
    refine and_congr_right fun hi => ?_
    rw [IsPseudo] at hi
    rw [hI _ hi.1]

end AI

/-! ### Explorations -/

namespace BExp

variable {α β : Type} [DecidableEq α] [DecidableEq β] [PyName α] [PyName β]

theorem exec_order {E E' : Env α β} (hA : E.sortA = E'.sortA) (hO : E.sortO = E'.sortO) (s : BExp α β) (op : Op α β) :
    s.exec E op = s.exec E' op := by
  obtain ⟨sA, sO, oA, oO⟩ := E
  obtain ⟨sA', sO', oA', oO'⟩ := E'
  dsimp only at hA hO
  subst hA hO
  cases op with
  | editObject B n =>
    show editObject _ s B n = editObject _ s B n
    unfold editObject
    dsimp only
    rw [(C168_mutators s.ctx).1 (sameSet_enum oA oA' B) n]
    rfl
  | editAttribute A n =>
    show editAttribute _ s A n = editAttribute _ s A n
    unfold editAttribute
    dsimp only
    rw [(C168_mutators s.ctx).2 (sameSet_enum oO oO' A) n]
    rfl
  | _ => rfl

/-- A `BasicExploration` takes the same course, with the same exceptions, whatever the order in which the sets given to its
methods are traversed: for every context it is made of and every history of calls. -/
theorem C173_basic_exploration {E E' : Env α β} (hA : E.sortA = E'.sortA) (hO : E.sortO = E'.sortO) (c : Ctx α β) :
    init E c = init E' c ∧
    ∀ (s : BExp α β) (ops : List (Op α β)), run E s ops = run E' s ops ∧
      ∀ op, (run E s ops).exec E op = (run E' s ops).exec E' op := by
  refine ⟨?_, fun s ops => ?_⟩
  · unfold init attrBasis objBasis
    rw [hA, hO]
  · have : run E s ops = run E' s ops := by
      unfold run
      congr 1
      funext s op
      rw [exec_order hA hO]
    exact ⟨this, fun op => by rw [this, exec_order hA hO]⟩

end BExp

namespace PExp

variable {α β : Type} [DecidableEq α] [DecidableEq β]

theorem confirm_same {s : PExp α β} (hp : s.pos.WF) (hn : s.neg.WF) {l l' : List β} (h : SameSet l l') :
    s.confirm l = s.confirm l' := by
  unfold confirm
  rw [(C168_primes hp h (fun x => Iff.rfl) (A := []) (A' := [])).2.2.2.1,
    (C168_primes hn h (fun x => Iff.rfl) (A := []) (A' := [])).2.2.2.1, h.toFinset]

/-- The positive concepts come in the same order, and the examples of a pattern are the same, up to their order, whatever
the iteration orders of the sets involved; a set of a pattern may be given in any order. -/
theorem C173_patterns {s : PExp α β} [PyName α] [PyName β] (hp : s.pos.WF) (hn : s.neg.WF) :
    (∀ {l l' : List β}, SameSet l l' → s.confirm l = s.confirm l' ∧
      ∀ ord ord' : SetOrder α, (∃ e, s.iterExamples ord l = .error e ∧ s.iterExamples ord' l' = .error e) ∨
        ∃ x x', s.iterExamples ord l = .ok x ∧ s.iterExamples ord' l' = .ok x' ∧ x.Perm x') ∧
    ∀ ord ord' : SetOrder β, positiveConcepts ord s.pos s.neg = positiveConcepts ord' s.pos s.neg ∧
      s.defaultGen ord = s.defaultGen ord' := by
  refine ⟨fun {l l'} h => ⟨confirm_same hp hn h, fun ord ord' => ?_⟩, fun ord ord' => ?_⟩
  · obtain ⟨a1, a2⟩ := C62_examples hp ord l
    obtain ⟨b1, b2⟩ := C62_examples hp ord' l'
    by_cases hl : ∃ m ∈ l, m ∉ s.pos.attributes
    · obtain ⟨m, hm, hn⟩ := hl
      exact .inl ⟨_, a1 ⟨m, hm, hn⟩, b1 ⟨m, (h m).1 hm, hn⟩⟩
    · push Not at hl
      obtain ⟨L, c1, c2, c3⟩ := a2 hl
      obtain ⟨L', d1, d2, d3⟩ := b2 fun m hm => hl m ((h m).2 hm)
      refine .inr ⟨L, L', c1, d1, ?_⟩
      rw [List.perm_ext_iff_of_nodup c2.of_map d2.of_map]
      rintro ⟨o, B⟩
      rw [c3, d3]
      simp only [h _]
  · have : positiveConcepts ord s.pos s.neg = positiveConcepts ord' s.pos s.neg := by
      unfold positiveConcepts negFull
      have : (fun c : Concept α β => negFull ord s.neg c.intent) = fun c => negFull ord' s.neg c.intent := by
        funext c
        unfold negFull
        rw [(C168_primes hn (sameSet_enum ord ord' c.intent) (fun x => Iff.rfl) (A := []) (A' := [])).2.2.2.1]
      unfold negFull at this
      rw [this]
    exact ⟨this, by unfold defaultGen; rw [this]⟩

/-- The same call with the sets in another iteration order. -/
def Op.Same : Op α β → Op α β → Prop
  | .confirm p, .confirm p' => SameSet p p'
  | .addNegative n B p, .addNegative n' B' p' => n = n' ∧ B = B' ∧
    match p, p' with
    | none, none => True
    | some p, some p' => SameSet p p'
    | _, _ => False
  | .addPositive n B, .addPositive n' B' => n = n' ∧ B = B'
  | _, _ => False

variable [PyName α] [PyName β]

theorem exec_same {s : PExp α β} (hp : s.pos.WF) (hn : s.neg.WF) {op op' : Op α β} (h : op.Same op') :
    s.exec op = s.exec op' := by
  cases op <;> cases op' <;> simp only [Op.Same] at h
  · exact confirm_same hp hn h
  · obtain ⟨rfl, rfl, h⟩ := h
    rename_i n B p p'
    cases p <;> cases p' <;> simp only at h
    · rfl
    · unfold exec addNegative
      dsimp only
      rw [h.toFinset]
  · obtain ⟨rfl, rfl⟩ := h
    rfl

/-- A `BasicPatternExploration` takes the same course, with the same exceptions, whatever the iteration order of the
patterns given to its methods. -/
theorem C173_pattern_exploration {pos neg : Ctx α β} (hp : pos.WF) (hn : neg.WF) {s₀ : PExp α β}
    (hi : init pos neg = .ok s₀) {ops ops' : List (Op α β)} (hops : OkRun (fun _ _ => True) s₀ ops)
    (h : List.Forall₂ Op.Same ops ops') :
    run s₀ ops = run s₀ ops' ∧ ∀ op op', op.Same op' → (run s₀ ops).exec op = (run s₀ ops').exec op' := by
  have hs := (init_inv hp hn hi).1
  clear hi
  induction h generalizing s₀ with
  | nil => exact ⟨rfl, fun op op' h => exec_same hs.pos hs.neg h⟩
  | cons h1 _ ih =>
    have := ih hops.2.2 (exec_inv hs hops.1)
    rw [exec_same hs.pos hs.neg h1] at this
    show run _ _ = run _ _ ∧ ∀ op op', op.Same op' → (run _ _).exec op = (run _ _).exec op'
    unfold run at this ⊢
    rw [List.foldl_cons, List.foldl_cons, exec_same hs.pos hs.neg h1]
    exact this

end PExp

/-! ### Examples -/

namespace IntentsOnly

/-- Objects `{0}`, `{1}`, `{0, 1}`. -/
def cA : Ctx (Fin 3) (Fin 3) := ⟨[0, 1, 2], [0, 1, 2], ⟨some 3, [[true, false, false], [false, true, false], [true, true, false]]⟩⟩

/-- The same intents with other objects, one of them twice, and another order of the attributes. -/
def cB : Ctx (Fin 4) (Fin 3) := ⟨[3, 1, 0, 2], [2, 0, 1],
  ⟨some 3, [[false, true, true], [false, true, false], [false, true, false], [false, false, true]]⟩⟩

/-- Other intents: `{0, 1}` is missing. -/
def cC : Ctx (Fin 2) (Fin 3) := ⟨[0, 1], [0, 1, 2], ⟨some 3, [[true, false, false], [false, true, false]]⟩⟩

theorem cA_wf : cA.WFw := by constructor <;> decide +kernel
theorem cB_wf : cB.WFw := by constructor <;> decide +kernel
theorem cC_wf : cC.WFw := by constructor <;> decide +kernel

/-- `C173_cover` in both directions: the same cover for `cA` and `cB`, another one for `cC`. -/
example : cA.M = cB.M ∧ cA.M = cC.M ∧
    (Cover.computeCover cA (fun _ => .fin 3)).map (·.map Imp.key) = .ok [({2}, {0, 1})] ∧
    (Cover.computeCover cB (fun _ => .finRev 3)).map (·.map Imp.key) = .ok [({2}, {0, 1})] ∧
    (Cover.computeCover cC (fun _ => .fin 3)).map (·.map Imp.key) = .ok [({2}, {0, 1}), ({0, 1}, {2})] := by
  decide +kernel

/-- `AI.cardSort` is a sort as in the last part of `C173_incremental`: `AI.cardSort_ok`. -/
example : AI.computeCanonicalBasis AI.cardSort simpleClosure cA = .ok [⟨{2}, {0, 1, 2}⟩] ∧
    AI.computeCanonicalBasis AI.cardSort simpleClosure cB = .ok [⟨{2}, {0, 1, 2}⟩] := by decide +kernel

/-- `AI.bad` with its first two attributes exchanged. -/
def badSwap : Ctx (Fin 2) (Fin 5) := ⟨[0, 1], [1, 0, 2, 3, 4],
  ⟨some 5, [[false, false, false, true, false], [true, false, true, true, true]]⟩⟩

end IntentsOnly

/-- With `list.sort` of CPython the incremental basis is no function of the intents: the same table with two attributes
exchanged has a basis with another number of implications. -/
theorem AI.C173_incremental_violated : AI.bad.WFw ∧ IntentsOnly.badSwap.WFw ∧
    (∀ a, a ∈ AI.bad.attributes ↔ a ∈ IntentsOnly.badSwap.attributes) ∧ AI.bad.objects = IntentsOnly.badSwap.objects ∧
    (∀ o a, AI.bad.Inc o a ↔ IntentsOnly.badSwap.Inc o a) ∧
    ∃ b b', AI.computeCanonicalBasis (AI.pySortShort AI.Pre.lt) simpleClosure AI.bad = .ok b ∧
      AI.computeCanonicalBasis (AI.pySortShort AI.Pre.lt) simpleClosure IntentsOnly.badSwap = .ok b' ∧
      b.length = 6 ∧ b'.length = 5 := by
  have h : IntentsOnly.badSwap.WFw := by constructor <;> decide +kernel
  refine ⟨AI.bad_wf, h, by decide +kernel, by decide +kernel, ?_, ?_⟩
  · simp only [← h.incB, ← AI.bad_wf.incB]
    decide +kernel
  · exact ⟨[⟨∅, {3}⟩, ⟨{3, 4}, {1, 2, 3, 4}⟩, ⟨{1, 2, 3}, {1, 2, 3, 4}⟩, ⟨{0, 3}, {0, 1, 2, 3, 4}⟩,
      ⟨{1, 3}, {1, 2, 3, 4}⟩, ⟨{2, 3}, {1, 2, 3, 4}⟩], [⟨∅, {3}⟩, ⟨{3, 4}, {1, 2, 3, 4}⟩,
      ⟨{1, 3}, {1, 2, 3, 4}⟩, ⟨{2, 3}, {1, 2, 3, 4}⟩, ⟨{0, 3}, {0, 1, 2, 3, 4}⟩], by decide +kernel, by decide +kernel, rfl, rfl⟩

namespace IntentsOnly

open BExp in
/-- An edit whose set is traversed in two orders. -/
example : ∀ s : BExp (Fin 2) (Fin 2),
    run ⟨id, id, .fin 2, .fin 2⟩ s [.editObject {0, 1} 0] = run ⟨id, id, .finRev 2, .finRev 2⟩ s [.editObject {0, 1} 0] :=
  fun s => ((C173_basic_exploration (E := ⟨id, id, .fin 2, .fin 2⟩) (E' := ⟨id, id, .finRev 2, .finRev 2⟩) rfl rfl s.ctx).2
    s _).1

/-- A history in which two patterns are given in two orders; the first is confirmed. -/
example : ∃ s₀ : PExp (Fin 3) (Fin 3), PExp.init PExp.witPos PExp.witNeg = .ok s₀ ∧
    PExp.OkRun (fun _ _ => True) s₀ [.confirm [0, 1], .addNegative 2 {0, 1, 2} (some [1, 2])] ∧
    List.Forall₂ (PExp.Op.Same (α := Fin 3) (β := Fin 3)) [.confirm [0, 1], .addNegative 2 {0, 1, 2} (some [1, 2])]
      [.confirm [1, 0, 1], .addNegative 2 {0, 1, 2} (some [2, 1])] ∧
    (PExp.run s₀ [.confirm [1, 0, 1], .addNegative 2 {0, 1, 2} (some [2, 1])]).confirmed = [{0, 1}] := by
  refine ⟨⟨PExp.witPos, PExp.witNeg, []⟩, by decide +kernel, ?_, ?_, by decide +kernel⟩
  · exact ⟨trivial, trivial, by show (2 : Fin 3) ∉ _; decide +kernel, trivial, trivial⟩
  · refine .cons ?_ (.cons ⟨rfl, rfl, ?_⟩ .nil)
    · intro x; revert x; decide
    · intro x; revert x; decide

end IntentsOnly
