/-
Lemmas on fca/algorithms/factors.py.
-/
import Verif.Model.Factors
import Verif.SpecFactors
import Verif.Lemmas.DGContext
import Verif.Lemmas.Lattice
import Verif.Props.Context
import Mathlib.Tactic.Ring
import Mathlib.Tactic.Linarith
import Mathlib.Tactic.Positivity
import Mathlib.Algebra.Order.Field.Basic
import Mathlib.Tactic.FieldSimp

set_option linter.unusedSectionVars false

variable {α β : Type} [DecidableEq α] [DecidableEq β]

open Spec

theorem pyMaxKey_none {κ γ : Type} [LinearOrder κ] {l : List (κ × γ)} : pyMaxKey l = none ↔ l = [] := by
  cases l <;> simp [pyMaxKey]

theorem pyMaxKey_some {κ γ : Type} [LinearOrder κ] {l : List (κ × γ)} {x : κ × γ} (h : pyMaxKey l = some x) :
    x ∈ l ∧ ∀ y ∈ l, y.1 ≤ x.1 := by
  cases l with
  | nil => simp [pyMaxKey] at h
  | cons a l =>
    simp only [pyMaxKey, Option.some.injEq] at h
    subst h
    induction l generalizing a with
    | nil => simp
    | cons b l ih =>
      simp only [List.foldl_cons]
      obtain ⟨h1, h2⟩ := ih (if a.1 < b.1 then b else a)
      constructor
      · rw [List.mem_cons] at h1
        rcases h1 with h1 | h1
        · rw [h1]; split <;> simp
        · simp [h1]
      · intro y hy
        rw [List.mem_cons, List.mem_cons] at hy
        have hs := h2 (if a.1 < b.1 then b else a) (by simp)
        rcases hy with rfl | rfl | hy
        · refine le_trans ?_ hs
          split
          · next h => exact h.le
          · exact le_rfl
        · refine le_trans ?_ hs
          split
          · exact le_rfl
          · next h => exact not_lt.1 h
        · exact h2 y (by simp [hy])

namespace Ctx

theorem WFw.toWF {c : Ctx α β} (h : c.WFw) (hne : c.objects ≠ []) : c.WF :=
  ⟨h, .inr (h.cols hne)⟩

theorem WFw.downF_insert {c : Ctx α β} (h : c.WFw) (D : Finset β) (j : β) :
    c.downF D ∩ c.downF {j} = c.downF (insert j D) := by
  ext g
  rw [Finset.mem_inter, h.mem_downF, h.mem_downF, h.mem_downF]
  constructor
  · rintro ⟨⟨h1, h2⟩, -, h3⟩
    refine ⟨h1, fun m hm => ?_⟩
    rcases Finset.mem_insert.1 hm with rfl | hm
    · exact h3 m (by simp)
    · exact h2 m hm
  · rintro ⟨h1, h2⟩
    exact ⟨⟨h1, fun m hm => h2 m (by simp [hm])⟩, h1, fun m hm => h2 m (by simp_all)⟩

theorem WFw.enum_oprime {c : Ctx α β} (h : c.WFw) (ord : SetOrder α) {A : Finset α}
    (hA : A ⊆ c.objects.toFinset) : c.oprime (ord.enum A) = .ok (c.upF A) := by
  rw [h.oprime, ord.toFinset]
  intro o ho
  simpa using hA ((ord.mem _ _).1 ho)

theorem WF.enum_aprime {c : Ctx α β} (h : c.WF) (ord : SetOrder β) {B : Finset β}
    (hB : B ⊆ c.attributes.toFinset) : c.aprime (ord.enum B) = .ok (c.downF B) := by
  rw [h.aprime, ord.toFinset]
  intro o ho
  simpa using hB ((ord.mem _ _).1 ho)

end Ctx

/-- Rectangle of the concept generated by the attribute set `B`, restricted to `U`. -/
def genU (c : Ctx α β) (U : Finset (α × β)) (B : Finset β) : Finset (α × β) :=
  (c.downF B ×ˢ c.upF (c.downF B)) ∩ U

theorem oplus_ok {c : Ctx α β} (h : c.WFw) (hne : c.objects ≠ []) (ordO : SetOrder α) (D : Finset β) {y : β}
    (hy : y ∈ c.attributes) (U : Finset (α × β)) :
    oplus c ordO (c.downF D) y U = .ok (genU c U (insert y D)) := by
  unfold oplus
  rw [h.attributeExtent (h.cols hne) hy, py_ok_bind, h.downF_insert]
  simp only
  rw [h.enum_oprime ordO (c.downF_subset _)]
  rfl

theorem alg2Best_ok {c : Ctx α β} (h : c.WFw) (hne : c.objects ≠ []) (ordA : SetOrder β) (ordO : SetOrder α)
    (U : Finset (α × β)) {cand D : Finset β} (hc : cand ⊆ c.attributes.toFinset)
    (hD : D ⊆ c.attributes.toFinset) :
    (cand \ D = ∅ ∧ alg2Best c ordA ordO U cand D = .ok none) ∨
    ∃ j ∈ cand \ D, alg2Best c ordA ordO U cand D = .ok (some ((genU c U (insert j D)).card, j)) ∧
      ∀ j' ∈ cand \ D, (genU c U (insert j' D)).card ≤ (genU c U (insert j D)).card := by
  have e : alg2Best c ordA ordO U cand D = .ok (pyMaxKey ((ordA.enum (cand \ D)).map fun j =>
      ((genU c U (insert j D)).card, j))) := by
    unfold alg2Best
    rw [(h.toWF hne).enum_aprime ordA hD, py_ok_bind]
    rw [mapM_ok (g := fun j => ((genU c U (insert j D)).card, j))]
    · rfl
    · intro j hj
      have hj' := hc (Finset.mem_sdiff.1 ((ordA.mem _ _).1 hj)).1
      rw [oplus_ok h hne ordO D (by simpa using hj') U]
      rfl
  rw [e]
  cases hm : pyMaxKey ((ordA.enum (cand \ D)).map fun j => ((genU c U (insert j D)).card, j)) with
  | none =>
    left
    rw [pyMaxKey_none, List.map_eq_nil_iff] at hm
    refine ⟨?_, rfl⟩
    rw [← ordA.toFinset (cand \ D), hm]; rfl
  | some x =>
    right
    obtain ⟨h1, h2⟩ := pyMaxKey_some hm
    rw [List.mem_map] at h1
    obtain ⟨j, hj, rfl⟩ := h1
    refine ⟨j, (ordA.mem _ _).1 hj, rfl, fun j' hj' => ?_⟩
    exact h2 _ (List.mem_map.2 ⟨j', (ordA.mem _ _).2 hj', rfl⟩)

theorem alg2Next_ok {c : Ctx α β} (h : c.WFw) (hne : c.objects ≠ []) (ordA : SetOrder β) (ordO : SetOrder α)
    {B : Finset β} (hB : B ⊆ c.attributes.toFinset) :
    alg2Next c ordA ordO B = .ok (c.downF B, c.upF (c.downF B)) := by
  unfold alg2Next
  rw [(h.toWF hne).enum_aprime ordA hB, py_ok_bind, h.enum_oprime ordO (c.downF_subset _)]
  rfl

theorem isConcept_gen {c : Ctx α β} (h : c.WFw) {B : Finset β} (hB : B ⊆ c.attributes.toFinset) :
    IsConcept c.G c.M c.Inc (c.downF B) (c.upF (c.downF B)) := by
  refine ⟨fun m => ?_, fun g => ?_⟩
  · rw [h.mem_upF]; simp
  · constructor
    · intro hg; exact ⟨c.downF_subset _ hg, fun m hm => (h.mem_upF.1 hm).2 g hg⟩
    · rintro ⟨hg, hm⟩
      refine h.mem_downF.2 ⟨by simpa using hg, fun m hmB => hm m ?_⟩
      exact h.aclF_ext hB hmB

/-- The inner loop ends; it returns a concept with the crosses of `U` in its rectangle, or stays at its
starting values; no further attribute would add crosses. -/
theorem alg2Inner_ok {c : Ctx α β} (h : c.WFw) (hne : c.objects ≠ []) (ordA : Finset β → SetOrder β)
    (ordO : SetOrder α) (U : Finset (α × β)) (fuel : ℕ) (D : Finset β) (C : Finset α) (rem : Finset (α × β))
    (hD : D ⊆ c.attributes.toFinset)
    (hg : (D = ∅ ∧ rem = ∅) ∨ (IsConcept c.G c.M c.Inc C D ∧ rem = (C ×ˢ D) ∩ U ∧ rem.card ≠ 0))
    (hf : (c.attributes.toFinset \ D).card < fuel) :
    ∃ C' D' rem', alg2Inner c ordA ordO U fuel D rem.card C rem = some (.ok (C', D', rem')) ∧
      ((D' = ∅ ∧ rem' = ∅) ∨ (IsConcept c.G c.M c.Inc C' D' ∧ rem' = (C' ×ˢ D') ∩ U ∧ rem'.card ≠ 0)) ∧
      ∀ j ∈ c.attributes.toFinset \ D', (genU c U (insert j D')).card ≤ rem'.card := by
  induction fuel generalizing D C rem with
  | zero => omega
  | succ fuel ih =>
    unfold alg2Inner
    rcases alg2Best_ok h hne (ordA D) ordO U (cand := c.attributes.toFinset) (subset_refl _) hD with
      ⟨he, hb⟩ | ⟨j, hj, hb, hmax⟩
    · rw [hb]
      refine ⟨C, D, rem, rfl, hg, ?_⟩
      rw [he]; simp
    · rw [hb]
      simp only
      by_cases hV : rem.card < (genU c U (insert j D)).card
      · rw [if_pos hV]
        have hjM : j ∈ c.attributes.toFinset := (Finset.mem_sdiff.1 hj).1
        have hjD : j ∉ D := (Finset.mem_sdiff.1 hj).2
        have hB : insert j D ⊆ c.attributes.toFinset := Finset.insert_subset hjM hD
        rw [alg2Next_ok h hne (ordA D) ordO hB]
        simp only
        apply ih
        · exact c.upF_subset _
        · refine .inr ⟨isConcept_gen h hB, rfl, ?_⟩
          have : genU c U (insert j D) = (c.downF (insert j D) ×ˢ c.upF (c.downF (insert j D))) ∩ U := rfl
          rw [← this]; omega
        · have hlt : (c.attributes.toFinset \ c.upF (c.downF (insert j D))).card <
              (c.attributes.toFinset \ D).card := by
            apply Finset.card_lt_card
            have hsub : insert j D ⊆ c.upF (c.downF (insert j D)) := h.aclF_ext hB
            rw [Finset.ssubset_iff_of_subset]
            · refine ⟨j, hj, ?_⟩
              rw [Finset.mem_sdiff, not_and, not_not]
              exact fun _ => hsub (by simp)
            · exact Finset.sdiff_subset_sdiff (subset_refl _) ((Finset.subset_insert _ _).trans hsub)
          omega
      · rw [if_neg hV]
        refine ⟨C, D, rem, rfl, hg, fun j' hj' => ?_⟩
        exact (hmax j' hj').trans (not_lt.1 hV)

theorem mem_crosses {c : Ctx α β} (p : α × β) : p ∈ crosses c.G c.M c.Inc ↔ c.Inc p.1 p.2 := by
  unfold crosses
  simp only [Finset.mem_filter, Finset.mem_product, List.mem_toFinset, and_iff_right_iff_imp]
  exact fun hp => hp.mem

theorem mem_uncovered {c : Ctx α β} {rs : List (Finset α × Finset β)} (p : α × β) :
    p ∈ uncovered c.G c.M c.Inc rs ↔ c.Inc p.1 p.2 ∧ ¬ InSome rs p := by
  unfold uncovered
  simp only [Finset.mem_filter, mem_crosses]

theorem inSome_append {rs ss : List (Finset α × Finset β)} {p : α × β} :
    InSome (rs ++ ss) p ↔ InSome rs p ∨ InSome ss p := by
  simp only [InSome, List.mem_append]
  constructor
  · rintro ⟨z, hz | hz, h⟩
    · exact .inl ⟨z, hz, h⟩
    · exact .inr ⟨z, hz, h⟩
  · rintro (⟨z, hz, h⟩ | ⟨z, hz, h⟩)
    · exact ⟨z, .inl hz, h⟩
    · exact ⟨z, .inr hz, h⟩

theorem inSome_single {y : Finset α × Finset β} {p : α × β} :
    InSome [y] p ↔ p.1 ∈ y.1 ∧ p.2 ∈ y.2 := by
  simp [InSome]

open Classical in
/-- Covered and uncovered crosses. -/
theorem coveredFraction_eq {c : Ctx α β} (rs : List (Finset α × Finset β)) :
    coveredFraction c.G c.M c.Inc rs =
      (((crosses c.G c.M c.Inc).card : ℚ) - (uncovered c.G c.M c.Inc rs).card) / (crosses c.G c.M c.Inc).card := by
  unfold coveredFraction uncovered
  have := Finset.card_filter_add_card_filter_not (s := crosses c.G c.M c.Inc) (fun p => InSome rs p)
  have h2 : (((crosses c.G c.M c.Inc).filter fun p => InSome rs p).card : ℚ) +
    ((crosses c.G c.M c.Inc).filter fun p => ¬ InSome rs p).card = (crosses c.G c.M c.Inc).card := by
    exact_mod_cast this
  rw [← h2]; simp

/-- One step: the crosses of `U` in the rectangle of a factor. -/
theorem uncovered_step {c : Ctx α β} (rs : List (Finset α × Finset β)) (A : Finset α) (B : Finset β) :
    ((A ×ˢ B) ∩ uncovered c.G c.M c.Inc rs).card = newCrosses c.G c.M c.Inc rs (A, B) ∧
    uncovered c.G c.M c.Inc rs \ ((A ×ˢ B) ∩ uncovered c.G c.M c.Inc rs) =
      uncovered c.G c.M c.Inc (rs ++ [(A, B)]) := by
  classical
  constructor
  · unfold newCrosses
    congr 1
    ext p
    simp only [Finset.mem_inter, Finset.mem_product, mem_uncovered, Finset.mem_filter, mem_crosses]
    tauto
  · ext p
    simp only [Finset.mem_sdiff, Finset.mem_inter, Finset.mem_product, mem_uncovered, inSome_append, inSome_single]
    tauto

/-- The rectangle of a concept. -/
def rectOf (y : Concept α β × ℚ) : Finset α × Finset β := (y.1.extent, y.1.intent)

theorem alg2Loop_ok {c : Ctx α β} (h : c.WFw) (hne : c.objects ≠ [])
    (ordA : Finset (α × β) → Finset β → SetOrder β) (ordO : SetOrder α) (fid : ℚ)
    (hn : (crosses c.G c.M c.Inc).card ≠ 0) (fuel : ℕ) (pre : List (Finset α × Finset β))
    (hf : (uncovered c.G c.M c.Inc pre).card < fuel) :
    ∃ ys r, alg2Loop c ordA ordO fid (crosses c.G c.M c.Inc).card fuel (uncovered c.G c.M c.Inc pre) =
        some (ys, r) ∧
      ys.length ≤ (uncovered c.G c.M c.Inc pre).card ∧
      (∀ (i : ℕ) y, ys[i]? = some y →
        IsConcept c.G c.M c.Inc y.1.extent y.1.intent ∧
        0 < newCrosses c.G c.M c.Inc (pre ++ (ys.take i).map rectOf) (rectOf y) ∧
        y.2 = (newCrosses c.G c.M c.Inc (pre ++ (ys.take i).map rectOf) (rectOf y) : ℚ) /
          (crosses c.G c.M c.Inc).card ∧
        coveredFraction c.G c.M c.Inc (pre ++ (ys.take i).map rectOf) < fid) ∧
      (ys.map Prod.snd).sum = coveredFraction c.G c.M c.Inc (pre ++ ys.map rectOf) -
        coveredFraction c.G c.M c.Inc pre ∧
      (fid ≤ 1 → r = .ok () ∧ fid ≤ coveredFraction c.G c.M c.Inc (pre ++ ys.map rectOf)) ∧
      (1 < fid → r = .error .assertionError ∧ coveredFraction c.G c.M c.Inc (pre ++ ys.map rectOf) = 1) := by
  set n := (crosses c.G c.M c.Inc).card with hndef
  have hnpos : (0 : ℚ) < n := by exact_mod_cast Nat.pos_of_ne_zero hn
  induction fuel generalizing pre with
  | zero => omega
  | succ fuel ih =>
    set U := uncovered c.G c.M c.Inc pre with hU
    have hcf : coveredFraction c.G c.M c.Inc pre = ((n : ℚ) - U.card) / n := coveredFraction_eq pre
    have hdiv : pyDiv ((n : ℤ) - U.card) n = .ok (((n : ℚ) - U.card) / n) := by
      unfold pyDiv
      rw [if_neg (by exact_mod_cast hn)]
      push_cast; rfl
    unfold alg2Loop
    rw [hdiv]
    simp only
    by_cases hq : ((n : ℚ) - U.card) / n < fid
    · rw [if_pos hq]
      obtain ⟨C, D, rem, hin, hgood, hmax⟩ := alg2Inner_ok h hne (ordA U) ordO U (c.attributes.length + 2) ∅ ∅ ∅
        (by simp) (.inl ⟨rfl, rfl⟩) (by
          have := List.toFinset_card_le c.attributes
          simp only [Finset.sdiff_empty]; omega)
      rw [Finset.card_empty] at hin
      rw [hin]
      simp only
      by_cases hU0 : U = ∅
      · have hr0 : rem = ∅ := by
          rcases hgood with ⟨-, hr⟩ | ⟨-, hr, -⟩
          · exact hr
          · rw [hr, hU0]; simp
        rw [if_pos (by rw [hr0]; rfl)]
        have hone : coveredFraction c.G c.M c.Inc pre = 1 := by
          rw [hcf, hU0]; simp [hnpos.ne']
        refine ⟨[], _, rfl, by simp, by simp, by simp, ?_, ?_⟩
        · intro hf1
          rw [← hcf, hone] at hq
          exact absurd hq (not_lt.2 hf1)
        · intro _
          exact ⟨rfl, by simpa using hone⟩
      · obtain ⟨⟨g, m⟩, hgm⟩ := Finset.nonempty_iff_ne_empty.2 hU0
        have hI : c.Inc g m := ((mem_uncovered (g, m)).1 hgm).1
        have hrem : IsConcept c.G c.M c.Inc C D ∧ rem = (C ×ˢ D) ∩ U ∧ rem.card ≠ 0 := by
          rcases hgood with ⟨hD, hr⟩ | hc
          · exfalso
            have hmM : m ∈ c.attributes.toFinset := by simpa using hI.mem.2
            have := hmax m (by rw [hD]; simpa using hI.mem.2)
            rw [hr, hD, Finset.card_empty, Nat.le_zero, Finset.card_eq_zero] at this
            have hmem : (g, m) ∈ genU c U (insert m ∅) := by
              simp only [genU, Finset.mem_inter, Finset.mem_product]
              refine ⟨⟨h.mem_downF.2 ⟨hI.mem.1, by simpa using hI⟩, ?_⟩, hgm⟩
              exact h.aclF_ext (by simpa using hI.mem.2) (by simp)
            rw [this] at hmem; simp at hmem
          · exact hc
        obtain ⟨hcon, hre, hr0⟩ := hrem
        rw [if_neg hr0]
        obtain ⟨s1, s2⟩ := uncovered_step (c := c) pre C D
        rw [← hU, ← hre] at s1 s2
        have hlt : (uncovered c.G c.M c.Inc (pre ++ [(C, D)])).card < U.card := by
          rw [← s2]
          apply Finset.card_lt_card
          refine Finset.sdiff_ssubset ?_ (Finset.card_ne_zero.1 hr0)
          rw [hre]; exact Finset.inter_subset_right
        obtain ⟨ys, r, e1, e2, e3, e4, e5, e6⟩ := ih (pre ++ [(C, D)]) (by omega)
        rw [s2, e1]
        simp only
        refine ⟨_, _, rfl, by simp only [List.length_cons]; omega, ?_, ?_, ?_, ?_⟩
        · intro i y hy
          cases i with
          | zero =>
            simp only [List.getElem?_cons_zero, Option.some.injEq] at hy
            subst hy
            simp only [List.take_zero, List.map_nil, List.append_nil, rectOf]
            rw [← s1, hcf]
            exact ⟨hcon, Nat.pos_of_ne_zero hr0, rfl, hq⟩
          | succ i =>
            simp only [List.getElem?_cons_succ] at hy
            have := e3 i y hy
            simpa [rectOf, List.append_assoc] using this
        · rw [List.map_cons, List.sum_cons, e4, List.map_cons]
          have hc2 := coveredFraction_eq (c := c) (pre ++ [(C, D)])
          rw [← hndef, ← s2] at hc2
          have hsub : rem ⊆ U := by rw [hre]; exact Finset.inter_subset_right
          rw [Finset.card_sdiff_of_subset hsub, Nat.cast_sub (Finset.card_le_card hsub)] at hc2
          rw [hc2, hcf, List.append_assoc]
          simp only [rectOf, List.cons_append, List.nil_append]
          ring
        · intro hf1
          have := e5 hf1
          simpa [rectOf, List.append_assoc] using this
        · intro hf1
          have := e6 hf1
          simpa [rectOf, List.append_assoc] using this
    · rw [if_neg hq]
      refine ⟨[], _, rfl, by simp, by simp, by simp, ?_, ?_⟩
      · intro _
        refine ⟨rfl, ?_⟩
        rw [List.map_nil, List.append_nil, hcf]; exact not_lt.1 hq
      · intro h1
        exfalso
        apply hq
        refine lt_of_le_of_lt ?_ h1
        rw [div_le_one hnpos]
        have : (0 : ℚ) ≤ U.card := by positivity
        linarith
