/-
Properties C134 and C135: how good the factors of `algorithm2` are.
-/
import Verif.Props.Factors
import Mathlib.Algebra.Order.BigOperators.Group.Finset
import Mathlib.Algebra.BigOperators.Ring.Finset
import Mathlib.Data.Rat.Floor

set_option linter.unusedSectionVars false

variable {α β : Type} [DecidableEq α] [DecidableEq β]

open Spec

/-! ### The loops -/

/-- The inner loop never gets worse, and its result is as good as each of the candidates of its first
round and as each of the candidates of its last round. -/
theorem alg2Inner_greedy {c : Ctx α β} (h : c.WFw) (hne : c.objects ≠ []) (ordA : Finset β → SetOrder β)
    (ordO : SetOrder α) (U : Finset (α × β)) (fuel : ℕ) (D : Finset β) (C : Finset α) (rem : Finset (α × β))
    (hD : D ⊆ c.attributes.toFinset) {C' : Finset α} {D' : Finset β} {rem' : Finset (α × β)}
    (e : alg2Inner c ordA ordO U fuel D rem.card C rem = some (.ok (C', D', rem'))) :
    rem.card ≤ rem'.card ∧
    (∀ j ∈ c.attributes.toFinset \ D, (genU c U (insert j D)).card ≤ rem'.card) ∧
    ∀ j ∈ c.attributes.toFinset \ D', (genU c U (insert j D')).card ≤ rem'.card := by
  induction fuel generalizing D C rem with
  | zero => simp [alg2Inner] at e
  | succ fuel ih =>
    unfold alg2Inner at e
    rcases alg2Best_ok h hne (ordA D) ordO U (cand := c.attributes.toFinset) (subset_refl _) hD with
      ⟨he, hb⟩ | ⟨j, hj, hb, hmax⟩
    · rw [hb] at e
      simp only [Option.some.injEq, Except.ok.injEq, Prod.mk.injEq] at e
      obtain ⟨rfl, rfl, rfl⟩ := e
      rw [he]; simp
    · rw [hb] at e
      simp only at e
      by_cases hV : rem.card < (genU c U (insert j D)).card
      · rw [if_pos hV] at e
        have hB : insert j D ⊆ c.attributes.toFinset :=
          Finset.insert_subset (Finset.mem_sdiff.1 hj).1 hD
        rw [alg2Next_ok h hne (ordA D) ordO hB] at e
        simp only at e
        obtain ⟨h1, -, h3⟩ := ih _ _ _ (c.upF_subset _) e
        have h1' : (genU c U (insert j D)).card ≤ rem'.card := h1
        exact ⟨by omega, fun j' hj' => (hmax j' hj').trans h1', h3⟩
      · rw [if_neg hV] at e
        simp only [Option.some.injEq, Except.ok.injEq, Prod.mk.injEq] at e
        obtain ⟨rfl, rfl, rfl⟩ := e
        have hm := fun j' hj' => (hmax j' hj').trans (not_lt.1 hV)
        exact ⟨le_rfl, hm, hm⟩

theorem alg2Loop_greedy {c : Ctx α β} (h : c.WFw) (hne : c.objects ≠ [])
    (ordA : Finset (α × β) → Finset β → SetOrder β) (ordO : SetOrder α) (fid : ℚ) (n : ℕ) (fuel : ℕ)
    (pre : List (Finset α × Finset β)) {ys : List (Concept α β × ℚ)} {r : Py Unit}
    (e : alg2Loop c ordA ordO fid n fuel (uncovered c.G c.M c.Inc pre) = some (ys, r))
    (i : ℕ) (y : Concept α β × ℚ) (hy : ys[i]? = some y) :
    (∀ j ∈ c.attributes, (genU c (uncovered c.G c.M c.Inc (pre ++ (ys.take i).map rectOf)) {j}).card ≤
      newCrosses c.G c.M c.Inc (pre ++ (ys.take i).map rectOf) (rectOf y)) ∧
    ∀ j ∈ c.attributes, (genU c (uncovered c.G c.M c.Inc (pre ++ (ys.take i).map rectOf))
      (insert j y.1.intent)).card ≤ newCrosses c.G c.M c.Inc (pre ++ (ys.take i).map rectOf) (rectOf y) := by
  induction fuel generalizing pre ys r i with
  | zero => simp [alg2Loop] at e
  | succ fuel ih =>
    set U := uncovered c.G c.M c.Inc pre with hU
    unfold alg2Loop at e
    cases hd : pyDiv ((n : ℤ) - U.card) n with
    | error x =>
      rw [hd] at e
      simp only [Option.some.injEq, Prod.mk.injEq] at e
      rw [← e.1] at hy; simp at hy
    | ok q =>
      rw [hd] at e
      simp only at e
      by_cases hq : q < fid
      · rw [if_pos hq] at e
        obtain ⟨C, D, rem, hin, hgood, -⟩ := alg2Inner_ok h hne (ordA U) ordO U (c.attributes.length + 2) ∅ ∅ ∅
          (by simp) (.inl ⟨rfl, rfl⟩) (by
            have := List.toFinset_card_le c.attributes
            simp only [Finset.sdiff_empty]; omega)
        obtain ⟨-, hfirst, hlast⟩ := alg2Inner_greedy h hne (ordA U) ordO U _ ∅ ∅ ∅ (by simp) hin
        rw [Finset.card_empty] at hin
        rw [hin] at e
        simp only at e
        by_cases hr0 : rem.card = 0
        · rw [if_pos hr0] at e
          simp only [Option.some.injEq, Prod.mk.injEq] at e
          rw [← e.1] at hy; simp at hy
        · rw [if_neg hr0] at e
          have hrem : IsConcept c.G c.M c.Inc C D ∧ rem = (C ×ˢ D) ∩ U ∧ rem.card ≠ 0 := by
            rcases hgood with ⟨-, hr⟩ | hc
            · rw [hr] at hr0; simp at hr0
            · exact hc
          obtain ⟨hcon, hre, -⟩ := hrem
          obtain ⟨s1, s2⟩ := uncovered_step (c := c) pre C D
          rw [← hU, ← hre] at s1 s2
          rw [s2] at e
          cases hl : alg2Loop c ordA ordO fid n fuel (uncovered c.G c.M c.Inc (pre ++ [(C, D)])) with
          | none => rw [hl] at e; simp at e
          | some z =>
            obtain ⟨zs, r'⟩ := z
            rw [hl] at e
            simp only [Option.some.injEq, Prod.mk.injEq] at e
            obtain ⟨rfl, rfl⟩ := e
            cases i with
            | zero =>
              simp only [List.getElem?_cons_zero, Option.some.injEq] at hy
              subst hy
              simp only [List.take_zero, List.map_nil, List.append_nil, rectOf]
              rw [← s1, ← hU]
              refine ⟨fun j hj => by simpa using hfirst j (by simpa using hj), fun j hj => ?_⟩
              by_cases hjD : j ∈ D
              · rw [Finset.insert_eq_of_mem hjD, hre]
                apply Finset.card_le_card
                have hC : c.downF D = C := by
                  ext g; rw [h.mem_downF, hcon.2 g]; simp [Ctx.G]
                have hDD : c.upF C = D := by
                  ext m; rw [h.mem_upF, hcon.1 m]; simp [Ctx.M]
                simp only [genU, hC, hDD]
                exact subset_rfl
              · exact hlast j (by simpa using ⟨hj, hjD⟩)
            | succ i =>
              simp only [List.getElem?_cons_succ] at hy
              have := ih (pre ++ [(C, D)]) hl i hy
              simpa [rectOf, List.append_assoc] using this
      · rw [if_neg hq] at e
        simp only [Option.some.injEq, Prod.mk.injEq] at e
        rw [← e.1] at hy; simp at hy

theorem algorithm2_greedy {c : Ctx α β} (h : c.WFw) (hx : ∃ g m, c.Inc g m)
    (ordA : Finset (α × β) → Finset β → SetOrder β) (ordO : SetOrder α) (fid : ℚ)
    {ys : List (Concept α β × ℚ)} {r : Py Unit} (e : algorithm2 c ordA ordO fid = some (ys, r))
    {i : ℕ} {y : Concept α β × ℚ} (hy : ys[i]? = some y) :
    (∀ j ∈ c.attributes, (genU c (uncovered c.G c.M c.Inc ((ys.take i).map rectOf)) {j}).card ≤
      newCrosses c.G c.M c.Inc ((ys.take i).map rectOf) (rectOf y)) ∧
    ∀ j ∈ c.attributes, (genU c (uncovered c.G c.M c.Inc ((ys.take i).map rectOf))
      (insert j y.1.intent)).card ≤ newCrosses c.G c.M c.Inc ((ys.take i).map rectOf) (rectOf y) := by
  obtain ⟨g, m, hI⟩ := hx
  have hne : c.objects ≠ [] := List.ne_nil_of_mem hI.mem.1
  obtain ⟨ps, hp, -, hmem⟩ := Ctx.mem_pairs h
  have hU : ps.toFinset = uncovered c.G c.M c.Inc [] := by
    ext ⟨o, a⟩
    rw [List.mem_toFinset, hmem, mem_uncovered]
    simp [InSome]
  unfold algorithm2 at e
  rw [hp] at e
  simp only at e
  rw [hU] at e
  simpa using alg2Loop_greedy h hne ordA ordO fid _ _ [] e i y hy

/-! ### C134 -/

/-- The new crosses of the concept generated by `B`, from the specification's point of view. -/
theorem newCrosses_gen {c : Ctx α β} (h : c.WFw) (rs : List (Finset α × Finset β)) {A : Finset α} {B K : Finset β}
    (hc : IsConcept c.G c.M c.Inc A B) (hA : A = c.downF K) :
    newCrosses c.G c.M c.Inc rs (A, B) = (genU c (uncovered c.G c.M c.Inc rs) K).card := by
  have hB : c.upF A = B := by
    ext m; rw [h.mem_upF, hc.1 m]; simp [Ctx.M]
  rw [← (uncovered_step (c := c) rs A B).1, genU, ← hA, hB]

/-- Each factor is as good as every attribute concept and as every concept that one more attribute leads
to: neither has more crosses that the earlier factors do not cover. -/
theorem C134_locally_best {c : Ctx α β} (h : c.WFw) (hx : ∃ g m, c.Inc g m)
    (ordA : Finset (α × β) → Finset β → SetOrder β) (ordO : SetOrder α) (fid : ℚ)
    {ys : List (Concept α β × ℚ)} {r : Py Unit} (e : algorithm2 c ordA ordO fid = some (ys, r))
    {i : ℕ} {y : Concept α β × ℚ} (hy : ys[i]? = some y)
    {A : Finset α} {B : Finset β} (hc : IsConcept c.G c.M c.Inc A B)
    (hm : ∃ m ∈ c.M, (∀ g, g ∈ A ↔ g ∈ c.G ∧ c.Inc g m) ∨ (∀ g, g ∈ A ↔ g ∈ y.1.extent ∧ c.Inc g m)) :
    newCrosses c.G c.M c.Inc ((ys.take i).map rectOf) (A, B) ≤
      newCrosses c.G c.M c.Inc ((ys.take i).map rectOf) (rectOf y) := by
  obtain ⟨m, hm, hA | hA⟩ := hm
  · rw [newCrosses_gen h _ hc (K := {m})]
    · exact (algorithm2_greedy h hx ordA ordO fid e hy).1 m (by simpa [Ctx.M] using hm)
    · ext g; rw [hA, h.mem_downF]; simp [Ctx.G]
  · rw [newCrosses_gen h _ hc (K := insert m y.1.intent)]
    · exact (algorithm2_greedy h hx ordA ordO fid e hy).2 m (by simpa [Ctx.M] using hm)
    · obtain ⟨ys', r', e', -, e3, -⟩ := algorithm2_main h hx ordA ordO fid
      rw [e] at e'
      simp only [Option.some.injEq, Prod.mk.injEq] at e'
      obtain ⟨rfl, rfl⟩ := e'
      have hcy := (e3 i y hy).1
      ext g; rw [hA, h.mem_downF, hcy.2 g]
      simp [Ctx.G]; tauto

/-- The new crosses of a rectangle of crosses are at most those of a factor times the width. -/
theorem newCrosses_le_width {c : Ctx α β} (h : c.WFw) (rs : List (Finset α × Finset β)) {k : ℕ}
    (hk : ∀ j ∈ c.attributes, (genU c (uncovered c.G c.M c.Inc rs) {j}).card ≤ k)
    {S : Finset (α × β)} {B : Finset β} (hS : S ⊆ uncovered c.G c.M c.Inc rs)
    (hSB : ∀ p ∈ S, p.2 ∈ B) (hB : B ⊆ c.attributes.toFinset) : S.card ≤ B.card * k := by
  have hsub : S ⊆ B.biUnion fun j => genU c (uncovered c.G c.M c.Inc rs) {j} := by
    rintro ⟨g, m⟩ hp
    have hI : c.Inc g m := ((mem_uncovered _).1 (hS hp)).1
    rw [Finset.mem_biUnion]
    refine ⟨m, hSB _ hp, ?_⟩
    simp only [genU, Finset.mem_inter, Finset.mem_product]
    refine ⟨⟨h.mem_downF.2 ⟨hI.mem.1, by simpa using hI⟩, ?_⟩, hS hp⟩
    exact h.aclF_ext (B := {m}) (by simpa using hI.mem.2) (by simp)
  refine (Finset.card_le_card hsub).trans (Finset.card_biUnion_le.trans ?_)
  have := Finset.sum_le_card_nsmul B (fun j => (genU c (uncovered c.G c.M c.Inc rs) {j}).card) k
    fun j hj => hk j (by simpa using hB hj)
  simpa using this

/-- No concept at all has more than `|intent|` times as many new crosses as the factor chosen. -/
theorem C134_any_concept {c : Ctx α β} (h : c.WFw) (hx : ∃ g m, c.Inc g m)
    (ordA : Finset (α × β) → Finset β → SetOrder β) (ordO : SetOrder α) (fid : ℚ)
    {ys : List (Concept α β × ℚ)} {r : Py Unit} (e : algorithm2 c ordA ordO fid = some (ys, r))
    {i : ℕ} {y : Concept α β × ℚ} (hy : ys[i]? = some y)
    {A : Finset α} {B : Finset β} (hc : IsConcept c.G c.M c.Inc A B) :
    newCrosses c.G c.M c.Inc ((ys.take i).map rectOf) (A, B) ≤
      B.card * newCrosses c.G c.M c.Inc ((ys.take i).map rectOf) (rectOf y) := by
  rw [← (uncovered_step (c := c) _ A B).1]
  refine newCrosses_le_width h _ (algorithm2_greedy h hx ordA ordO fid e hy).1 Finset.inter_subset_right
    (fun p hp => ?_) fun m hm => ?_
  · exact (Finset.mem_product.1 (Finset.mem_inter.1 hp).1).2
  · simpa [Ctx.M] using ((hc.1 m).1 hm).1

theorem uncovered_take_succ {c : Ctx α β} {ys : List (Concept α β × ℚ)} {i : ℕ} {y : Concept α β × ℚ}
    (hy : ys[i]? = some y) :
    (uncovered c.G c.M c.Inc ((ys.take (i + 1)).map rectOf)).card +
      newCrosses c.G c.M c.Inc ((ys.take i).map rectOf) (rectOf y) =
    (uncovered c.G c.M c.Inc ((ys.take i).map rectOf)).card := by
  have ht : (ys.take (i + 1)).map rectOf = (ys.take i).map rectOf ++ [(rectOf y)] := by
    rw [List.take_add_one, hy]; simp
  obtain ⟨s1, s2⟩ := uncovered_step (c := c) ((ys.take i).map rectOf) (rectOf y).1 (rectOf y).2
  rw [ht, ← s1]
  rw [show ((rectOf y).1, (rectOf y).2) = rectOf y from rfl] at s2
  rw [← s2]
  exact Finset.card_sdiff_add_card_eq_card Finset.inter_subset_right

/-- Each factor takes at least the `|M|`-th part of the crosses left over. -/
theorem C134_share {c : Ctx α β} (h : c.WFw) (hx : ∃ g m, c.Inc g m)
    (ordA : Finset (α × β) → Finset β → SetOrder β) (ordO : SetOrder α) (fid : ℚ)
    {ys : List (Concept α β × ℚ)} {r : Py Unit} (e : algorithm2 c ordA ordO fid = some (ys, r))
    {i : ℕ} {y : Concept α β × ℚ} (hy : ys[i]? = some y) :
    (1 - coveredFraction c.G c.M c.Inc ((ys.take i).map rectOf)) / c.attributes.length ≤ y.2 := by
  have hn : (0 : ℚ) < (crosses c.G c.M c.Inc).card := by
    obtain ⟨g, m, hI⟩ := hx
    have : 0 < (crosses c.G c.M c.Inc).card := Finset.card_pos.2 ⟨(g, m), (mem_crosses _).2 hI⟩
    exact_mod_cast this
  have hM : (0 : ℚ) < c.attributes.length := by
    obtain ⟨g, m, hI⟩ := hx
    exact_mod_cast List.length_pos_of_mem hI.mem.2
  obtain ⟨ys', r', e', -, e3, -⟩ := algorithm2_main h hx ordA ordO fid
  rw [e] at e'
  simp only [Option.some.injEq, Prod.mk.injEq] at e'
  obtain ⟨rfl, rfl⟩ := e'
  rw [(e3 i y hy).2.2.1, coveredFraction_eq, div_le_div_iff₀ hM hn]
  have hw := newCrosses_le_width h ((ys.take i).map rectOf) (algorithm2_greedy h hx ordA ordO fid e hy).1
    (S := uncovered c.G c.M c.Inc ((ys.take i).map rectOf)) (B := c.attributes.toFinset) subset_rfl
    (fun p hp => by simpa using ((mem_uncovered p).1 hp).1.mem.2) subset_rfl
  rw [List.toFinset_card_of_nodup h.anodup] at hw
  have hw' : ((uncovered c.G c.M c.Inc ((ys.take i).map rectOf)).card : ℚ) ≤
    c.attributes.length * newCrosses c.G c.M c.Inc ((ys.take i).map rectOf) (rectOf y) := by exact_mod_cast hw
  rw [sub_mul, div_mul_cancel₀ _ hn.ne']
  linarith

/-- The crosses left over shrink geometrically: after `i` factors at most the fraction `(1 - 1/|M|) ^ i` is
uncovered. -/
theorem C134_geometric {c : Ctx α β} (h : c.WFw) (hx : ∃ g m, c.Inc g m)
    (ordA : Finset (α × β) → Finset β → SetOrder β) (ordO : SetOrder α) (fid : ℚ)
    {ys : List (Concept α β × ℚ)} {r : Py Unit} (e : algorithm2 c ordA ordO fid = some (ys, r))
    {i : ℕ} (hi : i ≤ ys.length) :
    1 - (1 - 1 / (c.attributes.length : ℚ)) ^ i ≤ coveredFraction c.G c.M c.Inc ((ys.take i).map rectOf) := by
  have hn : (0 : ℚ) < (crosses c.G c.M c.Inc).card := by
    obtain ⟨g, m, hI⟩ := hx
    have : 0 < (crosses c.G c.M c.Inc).card := Finset.card_pos.2 ⟨(g, m), (mem_crosses _).2 hI⟩
    exact_mod_cast this
  have hM : (1 : ℚ) ≤ c.attributes.length := by
    obtain ⟨g, m, hI⟩ := hx
    exact_mod_cast List.length_pos_of_mem hI.mem.2
  induction i with
  | zero =>
    simp only [pow_zero, sub_self]
    unfold coveredFraction; positivity
  | succ i ih =>
    have ih := ih (by omega)
    have hy : ys[i]? = some ys[i] := List.getElem?_eq_getElem (by omega)
    have hs := C134_share h hx ordA ordO fid e hy
    obtain ⟨ys', r', e', -, e3, -⟩ := algorithm2_main h hx ordA ordO fid
    rw [e] at e'
    simp only [Option.some.injEq, Prod.mk.injEq] at e'
    obtain ⟨rfl, rfl⟩ := e'
    rw [(e3 i _ hy).2.2.1] at hs
    have hstep : coveredFraction c.G c.M c.Inc ((ys.take (i + 1)).map rectOf) =
        coveredFraction c.G c.M c.Inc ((ys.take i).map rectOf) +
        (newCrosses c.G c.M c.Inc ((ys.take i).map rectOf) (rectOf ys[i]) : ℚ) / (crosses c.G c.M c.Inc).card := by
      have := uncovered_take_succ (c := c) hy
      rw [coveredFraction_eq, coveredFraction_eq, ← this]
      push_cast
      ring
    rw [hstep, pow_succ]
    set q : ℚ := 1 - 1 / (c.attributes.length : ℚ)
    set f := coveredFraction c.G c.M c.Inc ((ys.take i).map rectOf)
    have hq : 0 ≤ q := by
      have : 1 / (c.attributes.length : ℚ) ≤ 1 := by rw [div_le_one (by linarith)]; exact hM
      simp only [q]; linarith
    have h1 : (1 - f) * q ≤ q ^ i * q := mul_le_mul_of_nonneg_right (by linarith) hq
    have h2 : (1 - f) / (c.attributes.length : ℚ) = (1 - f) - (1 - f) * q := by simp only [q]; ring
    rw [h2] at hs
    linarith

/-- With fidelity `f` the factors before the last one leave more than `1 - f` uncovered, so their number `k`
satisfies `1 - f < (1 - 1/|M|) ^ k`; with fidelity 1 they leave a cross, so `1 ≤ |I| (1 - 1/|M|) ^ k`. -/
theorem C134_number {c : Ctx α β} (h : c.WFw) (hx : ∃ g m, c.Inc g m)
    (ordA : Finset (α × β) → Finset β → SetOrder β) (ordO : SetOrder α) (fid : ℚ)
    {ys : List (Concept α β × ℚ)} {r : Py Unit} (e : algorithm2 c ordA ordO fid = some (ys, r)) (hys : ys ≠ []) :
    1 - fid < (1 - 1 / (c.attributes.length : ℚ)) ^ (ys.length - 1) ∧
    1 ≤ ((crosses c.G c.M c.Inc).card : ℚ) * (1 - 1 / (c.attributes.length : ℚ)) ^ (ys.length - 1) := by
  have hlen : 0 < ys.length := List.length_pos_iff.2 hys
  have hy : ys[ys.length - 1]? = some ys[ys.length - 1] := List.getElem?_eq_getElem (by omega)
  have hg := C134_geometric h hx ordA ordO fid e (i := ys.length - 1) (by omega)
  obtain ⟨ys', r', e', -, e3, -⟩ := algorithm2_main h hx ordA ordO fid
  rw [e] at e'
  simp only [Option.some.injEq, Prod.mk.injEq] at e'
  obtain ⟨rfl, rfl⟩ := e'
  obtain ⟨-, hpos, -, hlt⟩ := e3 _ _ hy
  refine ⟨by linarith, ?_⟩
  have hn : (0 : ℚ) < (crosses c.G c.M c.Inc).card := by
    obtain ⟨g, m, hI⟩ := hx
    have : 0 < (crosses c.G c.M c.Inc).card := Finset.card_pos.2 ⟨(g, m), (mem_crosses _).2 hI⟩
    exact_mod_cast this
  have hu : 1 ≤ (uncovered c.G c.M c.Inc ((ys.take (ys.length - 1)).map rectOf)).card := by
    have := uncovered_take_succ (c := c) hy
    omega
  have hu' : (1 : ℚ) ≤ (uncovered c.G c.M c.Inc ((ys.take (ys.length - 1)).map rectOf)).card := by exact_mod_cast hu
  rw [coveredFraction_eq, sub_div, div_self hn.ne'] at hg
  have h3 : ((uncovered c.G c.M c.Inc ((ys.take (ys.length - 1)).map rectOf)).card : ℚ) /
      (crosses c.G c.M c.Inc).card ≤ (1 - 1 / (c.attributes.length : ℚ)) ^ (ys.length - 1) := by linarith
  rw [div_le_iff₀ hn] at h3
  linarith

/-! ### C135 -/

/-- Two concepts cover all crosses of the context with the rows `{0, 1, 2}` and `{0, 1, 3}`. -/
def cxtTwo : Ctx (Fin 2) (Fin 4) :=
  ⟨[0, 1], [0, 1, 2, 3], ⟨some 4, [[true, true, true, false], [true, true, false, true]]⟩⟩

theorem cxtTwo_wf : cxtTwo.WFw := by constructor <;> decide +kernel

theorem cxtTwo_inc {g : Fin 2} {m : Fin 4} : cxtTwo.Inc g m ↔ (m = 0 ∨ m = 1 ∨ (g = 0 ∧ m = 2) ∨ (g = 1 ∧ m = 3)) := by
  rw [← cxtTwo_wf.incB]
  revert g m; decide +kernel

theorem cxtTwo_concept {K : Finset (Fin 4)} (hK : K ⊆ cxtTwo.attributes.toFinset) {A : Finset (Fin 2)}
    {B : Finset (Fin 4)} (hA : cxtTwo.downF K = A) (hB : cxtTwo.upF A = B) :
    IsConcept cxtTwo.G cxtTwo.M cxtTwo.Inc A B := by
  have := isConcept_gen cxtTwo_wf hK
  rwa [hA, hB] at this

/-- The factors need not be optimal: whatever the iteration order of the sets, `algorithm2` yields at least
three factors, although the concepts of the two objects cover all crosses. There are more factors than objects. -/
theorem C135_optimal_violated (ordA : Finset (Fin 2 × Fin 4) → Finset (Fin 4) → SetOrder (Fin 4))
    (ordO : SetOrder (Fin 2)) :
    (∃ ys, algorithm2 cxtTwo ordA ordO 1 = some (ys, .ok ()) ∧ 3 ≤ ys.length) ∧
    IsConcept cxtTwo.G cxtTwo.M cxtTwo.Inc {0} {0, 1, 2} ∧ IsConcept cxtTwo.G cxtTwo.M cxtTwo.Inc {1} {0, 1, 3} ∧
    ∀ g m, cxtTwo.Inc g m ↔ InSome [({0}, {0, 1, 2}), ({1}, {0, 1, 3})] (g, m) := by
  have hx : ∃ g m, cxtTwo.Inc g m := ⟨0, 0, cxtTwo_inc.2 (.inl rfl)⟩
  refine ⟨?_, cxtTwo_concept (K := {2}) (by decide +kernel) (by decide +kernel) (by decide +kernel),
    cxtTwo_concept (K := {3}) (by decide +kernel) (by decide +kernel) (by decide +kernel), fun g m => ?_⟩
  · obtain ⟨ys, e, hcov, -⟩ := C47_exact_cover cxtTwo_wf hx ordA ordO
    refine ⟨ys, e, ?_⟩
    obtain ⟨y2, hy2, hg2, hm2⟩ := (hcov 0 2).1 (cxtTwo_inc.2 (by decide))
    obtain ⟨y3, hy3, hg3, hm3⟩ := (hcov 1 3).1 (cxtTwo_inc.2 (by decide))
    obtain ⟨i, hi⟩ := List.mem_iff_getElem?.1 hy2
    obtain ⟨k, hk⟩ := List.mem_iff_getElem?.1 hy3
    have hil := (List.getElem?_eq_some_iff.1 hi).1
    have hkl := (List.getElem?_eq_some_iff.1 hk).1
    have hik : i ≠ k := by
      rintro rfl
      rw [hi] at hk
      obtain rfl := Option.some.inj hk
      have := (hcov 0 3).2 ⟨y2, hy2, hg2, hm3⟩
      rw [cxtTwo_inc] at this
      revert this; decide
    -- the first factor contains neither of the two crosses
    have h0 : ∀ y, ys[0]? = some y → y.1.extent = {0, 1} := by
      intro y hy
      have hb := C134_locally_best cxtTwo_wf hx ordA ordO 1 e hy
        (cxtTwo_concept (K := {0}) (by decide +kernel) (A := {0, 1}) (B := {0, 1}) (by decide +kernel)
          (by decide +kernel))
        ⟨0, by decide, .inl fun g => by
          rw [cxtTwo_inc]; revert g; decide⟩
      have hw : ∀ (A : Finset (Fin 2)) (B : Finset (Fin 4)), newCrosses cxtTwo.G cxtTwo.M cxtTwo.Inc [] (A, B) =
          ((A ×ˢ B).filter fun p => p.2 = 0 ∨ p.2 = 1 ∨ (p.1 = 0 ∧ p.2 = 2) ∨ (p.1 = 1 ∧ p.2 = 3)).card := by
        intro A B
        rw [← (uncovered_step (c := cxtTwo) [] A B).1]
        congr 1
        ext ⟨g, m⟩
        rw [Finset.mem_inter, mem_uncovered, Finset.mem_filter, cxtTwo_inc]
        simp [InSome]
      simp only [List.take_zero, List.map_nil] at hb
      rw [hw, rectOf, hw] at hb
      have hsub : ∀ g ∈ y.1.extent, ∀ m ∈ y.1.intent, m = 0 ∨ m = 1 ∨ (g = 0 ∧ m = 2) ∨ (g = 1 ∧ m = 3) :=
        fun g hg m hm => cxtTwo_inc.1 ((hcov g m).2 ⟨y, List.mem_of_getElem? hy, hg, hm⟩)
      revert hb hsub
      generalize y.1.extent = A
      generalize y.1.intent = B
      revert A B
      decide +kernel
    have hne : ∀ j y, ys[j]? = some y → (∃ m : Fin 4, m ∈ y.1.intent ∧ (m = 2 ∨ m = 3)) → j ≠ 0 := by
      rintro j y hy ⟨m, hm, hmm⟩ rfl
      have hE := h0 y hy
      have h1 : ∀ g, cxtTwo.Inc g m := fun g =>
        (hcov g m).2 ⟨y, List.mem_of_getElem? hy, by rw [hE]; revert g; decide, hm⟩
      have a := cxtTwo_inc.1 (h1 0)
      have b := cxtTwo_inc.1 (h1 1)
      clear h1 hm
      revert a b hmm; revert m; decide
    have := hne i y2 hi ⟨2, hm2, .inl rfl⟩
    have := hne k y3 hk ⟨3, hm3, .inr rfl⟩
    omega
  · rw [cxtTwo_inc]
    simp only [InSome, List.mem_cons, List.not_mem_nil, or_false, exists_eq_or_imp, exists_eq_left]
    revert g m; decide

/-- The hypotheses of `C134` are met; this is one of the runs. -/
example : algorithm2 cxtTwo (fun _ _ => SetOrder.fin 4) (SetOrder.fin 2) 1 =
    some ([(⟨{0, 1}, {0, 1}⟩, 2 / 3), (⟨{0}, {0, 1, 2}⟩, 1 / 6), (⟨{1}, {0, 1, 3}⟩, 1 / 6)], .ok ()) := by
  decide +kernel

def cxtFour : Ctx (Fin 4) (Fin 4) :=
  ⟨[0, 1, 2, 3], [0, 1, 2, 3], ⟨some 4, [[true, true, false, false], [false, true, true, false],
    [true, false, true, false], [true, true, false, true]]⟩⟩

theorem cxtFour_wf : cxtFour.WFw := by constructor <;> decide +kernel

/-- There may be more factors than attributes, although the attribute concepts cover all crosses. -/
theorem C135_attributes_violated :
    ∃ ys, algorithm2 cxtFour (fun _ _ => SetOrder.fin 4) (SetOrder.fin 4) 1 = some (ys, .ok ()) ∧
      cxtFour.attributes.length < ys.length :=
  ⟨_, (by decide +kernel : algorithm2 cxtFour (fun _ _ => SetOrder.fin 4) (SetOrder.fin 4) 1 =
    some ([(⟨{0, 3}, {0, 1}⟩, 4 / 9), (⟨{1, 2}, {2}⟩, 2 / 9), (⟨{0, 2, 3}, {0}⟩, 1 / 9),
      (⟨{0, 1, 3}, {1}⟩, 1 / 9), (⟨{3}, {0, 1, 3}⟩, 1 / 9)], .ok ())), by decide⟩

def cxtSix : Ctx (Fin 6) (Fin 4) :=
  ⟨[0, 1, 2, 3, 4, 5], [0, 1, 2, 3], ⟨some 4, [[true, true, true, true], [true, true, true, false],
    [true, true, false, true], [true, false, false, true], [false, true, false, true], [true, false, false, true]]⟩⟩

theorem cxtSix_wf : cxtSix.WFw := by constructor <;> decide +kernel

/-- The fractions reported need not decrease: the second factor covers more new crosses than the first, for
two opposite iteration orders. -/
theorem C135_decreasing_violated (ordA : SetOrder (Fin 4)) (hA : ordA = SetOrder.fin 4 ∨ ordA = SetOrder.finRev 4) :
    ∃ y z ys, algorithm2 cxtSix (fun _ _ => ordA) (SetOrder.fin 6) 1 = some (y :: z :: ys, .ok ()) ∧ y.2 < z.2 := by
  refine ⟨(⟨{0, 1}, {0, 1, 2}⟩, 3 / 8), (⟨{0, 2, 3, 5}, {0, 3}⟩, 7 / 16), [(⟨{0, 2, 4}, {1, 3}⟩, 3 / 16)], ?_,
    by norm_num⟩
  rcases hA with rfl | rfl <;> decide +kernel

/-- If a single concept covers all crosses, `algorithm2` yields exactly that concept. -/
theorem C135_one_partial {c : Ctx α β} (h : c.WFw) (hx : ∃ g m, c.Inc g m)
    (ordA : Finset (α × β) → Finset β → SetOrder β) (ordO : SetOrder α)
    {A : Finset α} {B : Finset β} (hc : IsConcept c.G c.M c.Inc A B)
    (hcov : ∀ g m, c.Inc g m → g ∈ A ∧ m ∈ B) :
    algorithm2 c ordA ordO 1 = some ([(⟨A, B⟩, 1)], .ok ()) := by
  obtain ⟨ys, r, e1, -, e3, e4, e5, -⟩ := algorithm2_main h hx ordA ordO 1
  obtain ⟨rfl, hfin⟩ := e5 le_rfl
  obtain ⟨g₀, m₀, hI⟩ := hx
  have hn : (0 : ℚ) < (crosses c.G c.M c.Inc).card := by
    have : 0 < (crosses c.G c.M c.Inc).card := Finset.card_pos.2 ⟨(g₀, m₀), (mem_crosses _).2 hI⟩
    exact_mod_cast this
  have hu0 : (uncovered c.G c.M c.Inc []) = crosses c.G c.M c.Inc := by
    ext p; rw [mem_uncovered, mem_crosses]; simp [InSome]
  obtain _ | ⟨y, ys⟩ := ys
  · rw [List.map_nil, coveredFraction_eq, hu0] at hfin
    simp at hfin; linarith
  · have hy : (y :: ys)[0]? = some y := rfl
    have hb := C134_locally_best h ⟨g₀, m₀, hI⟩ ordA ordO 1 e1 hy hc
      ⟨m₀, by simpa [Ctx.M] using hI.mem.2, .inl fun g => ⟨fun hg => ⟨((hc.2 g).1 hg).1,
        ((hc.2 g).1 hg).2 m₀ (hcov _ _ hI).2⟩, fun hg => (hcov _ _ hg.2).1⟩⟩
    simp only [List.take_zero, List.map_nil] at hb
    obtain ⟨hcy, -, hy2, -⟩ := e3 0 y hy
    simp only [List.take_zero, List.map_nil] at hy2
    have hall : newCrosses c.G c.M c.Inc [] (A, B) = (crosses c.G c.M c.Inc).card := by
      rw [← (uncovered_step (c := c) [] A B).1, hu0]
      congr 1
      rw [Finset.inter_eq_right]
      intro p hp
      exact Finset.mem_product.2 (hcov _ _ ((mem_crosses p).1 hp))
    have hge : newCrosses c.G c.M c.Inc [] (rectOf y) = (crosses c.G c.M c.Inc).card := by
      refine le_antisymm ?_ (hall ▸ hb)
      rw [show rectOf y = ((rectOf y).1, (rectOf y).2) from rfl, ← (uncovered_step (c := c) [] _ _).1, hu0]
      exact Finset.card_le_card Finset.inter_subset_right
    have hsub : ∀ g m, c.Inc g m → g ∈ y.1.extent ∧ m ∈ y.1.intent := by
      intro g m hgm
      have hs := (uncovered_step (c := c) [] (rectOf y).1 (rectOf y).2).1
      rw [show ((rectOf y).1, (rectOf y).2) = rectOf y from rfl, hge, hu0] at hs
      have := Finset.eq_of_subset_of_card_le (Finset.inter_subset_right
        (s₁ := (rectOf y).1 ×ˢ (rectOf y).2) (s₂ := crosses c.G c.M c.Inc)) hs.ge
      have hp : (g, m) ∈ (rectOf y).1 ×ˢ (rectOf y).2 ∩ crosses c.G c.M c.Inc := by
        rw [this]; exact (mem_crosses _).2 hgm
      exact Finset.mem_product.1 (Finset.mem_inter.1 hp).1
    have hgB : ∀ g ∈ A, g ∈ y.1.extent := fun g hg =>
      (hsub g m₀ (((hc.2 g).1 hg).2 m₀ (hcov _ _ hI).2)).1
    have hmB : ∀ m ∈ B, m ∈ y.1.intent := fun m hm =>
      (hsub g₀ m (((hc.1 m).1 hm).2 g₀ (hcov _ _ hI).1)).2
    have hA : y.1.extent = A := Finset.Subset.antisymm
      (fun g hg => (hc.2 g).2 ⟨((hcy.2 g).1 hg).1, fun m hm => ((hcy.2 g).1 hg).2 m (hmB m hm)⟩) hgB
    have hB : y.1.intent = B := Finset.Subset.antisymm
      (fun m hm => (hc.1 m).2 ⟨((hcy.1 m).1 hm).1, fun g hg => ((hcy.1 m).1 hm).2 g (hgB g hg)⟩) hmB
    have hys : ys = [] := by
      obtain _ | ⟨z, ys⟩ := ys
      · rfl
      · exfalso
        obtain ⟨-, -, -, hlt⟩ := e3 1 z rfl
        have := uncovered_take_succ (c := c) hy
        simp only [List.take_zero, List.map_nil, hge, hu0] at this
        have h0 : (uncovered c.G c.M c.Inc (((y :: z :: ys).take 1).map rectOf)).card = 0 := by
          simpa using this
        rw [coveredFraction_eq, h0] at hlt
        simp [hn.ne'] at hlt
    subst hys
    rw [e1]
    have : y = (⟨A, B⟩, 1) := by
      obtain ⟨⟨E, D⟩, q⟩ := y
      simp only at hA hB hy2
      rw [hge, div_self hn.ne'] at hy2
      rw [hA, hB, hy2]
    rw [this]

/-- A context whose crosses form one rectangle, beside an empty row and an empty column. -/
def cxtBlock : Ctx (Fin 3) (Fin 3) :=
  ⟨[0, 1, 2], [0, 1, 2], ⟨some 3, [[true, false, true], [false, false, false], [true, false, true]]⟩⟩

example (ordA : Finset (Fin 3 × Fin 3) → Finset (Fin 3) → SetOrder (Fin 3)) (ordO : SetOrder (Fin 3)) :
    algorithm2 cxtBlock ordA ordO 1 = some ([(⟨{0, 2}, {0, 2}⟩, 1)], .ok ()) := by
  have hw : cxtBlock.WFw := by constructor <;> decide +kernel
  refine C135_one_partial hw ⟨0, 0, 0, 0, _, rfl, rfl, rfl, rfl⟩ ordA ordO ?_ fun g m hgm => ?_
  · have := isConcept_gen hw (B := {0}) (by decide +kernel)
    rwa [show cxtBlock.downF {0} = {0, 2} by decide +kernel,
      show cxtBlock.upF {0, 2} = {0, 2} by decide +kernel] at this
  · rw [← hw.incB] at hgm
    revert g m; decide +kernel
