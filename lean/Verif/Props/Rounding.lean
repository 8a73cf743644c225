/-
Properties C160, C161: factors and indices computed with rounded quotients.
-/
import Verif.Lemmas.Rounding
import Verif.Props.Factors
import Verif.Props.Stability

set_option linter.unusedSectionVars false

variable {α β : Type} [DecidableEq α] [DecidableEq β]

open Spec

/-! ### `algorithm2` -/

theorem alg2LoopF_ok (R : Rounding) {c : Ctx α β} (h : c.WFw) (hne : c.objects ≠ [])
    (ordA : Finset (α × β) → Finset β → SetOrder β) (ordO : SetOrder α) (fid : ℚ)
    (hn : (crosses c.G c.M c.Inc).card ≠ 0) (fuel : ℕ) (pre : List (Finset α × Finset β))
    (hf : (uncovered c.G c.M c.Inc pre).card < fuel) :
    ∃ ys r, alg2LoopF R c ordA ordO fid (crosses c.G c.M c.Inc).card fuel (uncovered c.G c.M c.Inc pre) =
        some (ys, r) ∧
      ys.length ≤ (uncovered c.G c.M c.Inc pre).card ∧
      (∀ (i : ℕ) y, ys[i]? = some y →
        IsConcept c.G c.M c.Inc y.1.extent y.1.intent ∧
        0 < newCrosses c.G c.M c.Inc (pre ++ (ys.take i).map rectOf) (rectOf y) ∧
        y.2 = R.rnd ((newCrosses c.G c.M c.Inc (pre ++ (ys.take i).map rectOf) (rectOf y) : ℚ) /
          (crosses c.G c.M c.Inc).card) ∧
        R.rnd (coveredFraction c.G c.M c.Inc (pre ++ (ys.take i).map rectOf)) < fid) ∧
      (fid ≤ 1 → r = .ok () ∧ fid ≤ R.rnd (coveredFraction c.G c.M c.Inc (pre ++ ys.map rectOf))) ∧
      (1 < fid → r = .error .assertionError ∧ coveredFraction c.G c.M c.Inc (pre ++ ys.map rectOf) = 1) := by
  set n := (crosses c.G c.M c.Inc).card with hndef
  have hnpos : (0 : ℚ) < n := by exact_mod_cast Nat.pos_of_ne_zero hn
  induction fuel generalizing pre with
  | zero => omega
  | succ fuel ih =>
    set U := uncovered c.G c.M c.Inc pre with hU
    have hcf : coveredFraction c.G c.M c.Inc pre = ((n : ℚ) - U.card) / n := coveredFraction_eq pre
    have hdiv : pyDivF R ((n : ℤ) - U.card) n = .ok (R.rnd (((n : ℚ) - U.card) / n)) := by
      unfold pyDivF
      rw [if_neg (by exact_mod_cast hn)]
      push_cast; rfl
    unfold alg2LoopF
    rw [hdiv]
    simp only
    by_cases hq : R.rnd (((n : ℚ) - U.card) / n) < fid
    · rw [if_pos hq]
      obtain ⟨C, D, rem, hin, hgood, hmax⟩ := alg2Inner_ok h hne (ordA U) ordO U (c.attributes.length + 2) ∅ ∅ ∅
        (by simp) (.inl ⟨rfl, rfl⟩) (by
          have := List.toFinset_card_le c.attributes
          simp only [Finset.sdiff_empty]; omega)
      rw [Finset.card_empty] at hin
      rw [hin]
      simp only
      by_cases hU0 : U = ∅
      · have hr0 : rem = ∅ := by
          rcases hgood with ⟨-, hr⟩ | ⟨-, hr, -⟩
          · exact hr
          · rw [hr, hU0]; simp
        rw [if_pos (by rw [hr0]; rfl)]
        have hone : coveredFraction c.G c.M c.Inc pre = 1 := by
          rw [hcf, hU0]; simp [hnpos.ne']
        refine ⟨[], _, rfl, by simp, by simp, ?_, ?_⟩
        · intro hf1
          rw [← hcf, hone, R.rnd_one] at hq
          exact absurd hq (not_lt.2 hf1)
        · intro _
          exact ⟨rfl, by simpa using hone⟩
      · obtain ⟨⟨g, m⟩, hgm⟩ := Finset.nonempty_iff_ne_empty.2 hU0
        have hI : c.Inc g m := ((mem_uncovered (g, m)).1 hgm).1
        have hrem : IsConcept c.G c.M c.Inc C D ∧ rem = (C ×ˢ D) ∩ U ∧ rem.card ≠ 0 := by
          rcases hgood with ⟨hD, hr⟩ | hc
          · exfalso
            have hmM : m ∈ c.attributes.toFinset := by simpa using hI.mem.2
            have := hmax m (by rw [hD]; simpa using hI.mem.2)
            rw [hr, hD, Finset.card_empty, Nat.le_zero, Finset.card_eq_zero] at this
            have hmem : (g, m) ∈ genU c U (insert m ∅) := by
              simp only [genU, Finset.mem_inter, Finset.mem_product]
              refine ⟨⟨h.mem_downF.2 ⟨hI.mem.1, by simpa using hI⟩, ?_⟩, hgm⟩
              exact h.aclF_ext (by simpa using hI.mem.2) (by simp)
            rw [this] at hmem; simp at hmem
          · exact hc
        obtain ⟨hcon, hre, hr0⟩ := hrem
        rw [if_neg hr0]
        obtain ⟨s1, s2⟩ := uncovered_step (c := c) pre C D
        rw [← hU, ← hre] at s1 s2
        have hlt : (uncovered c.G c.M c.Inc (pre ++ [(C, D)])).card < U.card := by
          rw [← s2]
          apply Finset.card_lt_card
          refine Finset.sdiff_ssubset ?_ (Finset.card_ne_zero.1 hr0)
          rw [hre]; exact Finset.inter_subset_right
        obtain ⟨ys, r, e1, e2, e3, e5, e6⟩ := ih (pre ++ [(C, D)]) (by omega)
        rw [s2, e1]
        simp only
        refine ⟨_, _, rfl, by simp only [List.length_cons]; omega, ?_, ?_, ?_⟩
        · intro i y hy
          cases i with
          | zero =>
            simp only [List.getElem?_cons_zero, Option.some.injEq] at hy
            subst hy
            simp only [List.take_zero, List.map_nil, List.append_nil, rectOf]
            rw [← s1, hcf]
            exact ⟨hcon, Nat.pos_of_ne_zero hr0, rfl, hq⟩
          | succ i =>
            simp only [List.getElem?_cons_succ] at hy
            have := e3 i y hy
            simpa [rectOf, List.append_assoc] using this
        · intro hf1
          have := e5 hf1
          simpa [rectOf, List.append_assoc] using this
        · intro hf1
          have := e6 hf1
          simpa [rectOf, List.append_assoc] using this
    · rw [if_neg hq]
      refine ⟨[], _, rfl, by simp, by simp, ?_, ?_⟩
      · intro _
        refine ⟨rfl, ?_⟩
        rw [List.map_nil, List.append_nil, hcf]; exact not_lt.1 hq
      · intro h1
        exfalso
        apply hq
        refine lt_of_le_of_lt (R.rnd_le_one ?_) h1
        rw [div_le_one hnpos]
        have : (0 : ℚ) ≤ U.card := by positivity
        linarith

/-- `algorithm2` on a context with a cross, with quotients rounded in any way, for every fidelity and all tie-breaks:
the run ends, after at most as many factors as crosses. Each factor is a formal concept with a new cross, reported with the
rounded fraction of the new crosses, and is looked for because the rounded fraction of the crosses covered so far was below
the fidelity. The run ends without an exception, once that fraction is reached, if the fidelity is at most 1, and with an
AssertionError, after all crosses are covered, if it is greater. -/
theorem C160_factors (R : Rounding) {c : Ctx α β} (h : c.WFw) (hx : ∃ g m, c.Inc g m)
    (ordA : Finset (α × β) → Finset β → SetOrder β) (ordO : SetOrder α) (fid : ℚ) :
    ∃ ys r, algorithm2F R c ordA ordO fid = some (ys, r) ∧
      ys.length ≤ (crosses c.G c.M c.Inc).card ∧
      (∀ (i : ℕ) y, ys[i]? = some y →
        IsConcept c.G c.M c.Inc y.1.extent y.1.intent ∧
        0 < newCrosses c.G c.M c.Inc ((ys.take i).map rectOf) (rectOf y) ∧
        y.2 = R.rnd ((newCrosses c.G c.M c.Inc ((ys.take i).map rectOf) (rectOf y) : ℚ) /
          (crosses c.G c.M c.Inc).card) ∧
        R.rnd (coveredFraction c.G c.M c.Inc ((ys.take i).map rectOf)) < fid) ∧
      (fid ≤ 1 → r = .ok () ∧ fid ≤ R.rnd (coveredFraction c.G c.M c.Inc (ys.map rectOf))) ∧
      (1 < fid → r = .error .assertionError ∧ coveredFraction c.G c.M c.Inc (ys.map rectOf) = 1) := by
  obtain ⟨g, m, hI⟩ := hx
  have hne : c.objects ≠ [] := List.ne_nil_of_mem hI.mem.1
  obtain ⟨ps, hp, -, hmem⟩ := Ctx.mem_pairs h
  have hU : ps.toFinset = uncovered c.G c.M c.Inc [] := by
    ext ⟨o, a⟩
    rw [List.mem_toFinset, hmem, mem_uncovered]
    simp [InSome]
  have hU' : uncovered c.G c.M c.Inc [] = crosses c.G c.M c.Inc := by
    ext p
    rw [mem_uncovered, mem_crosses]; simp [InSome]
  have hn : (crosses c.G c.M c.Inc).card ≠ 0 := by
    rw [Finset.card_ne_zero]; exact ⟨(g, m), (mem_crosses _).2 hI⟩
  obtain ⟨ys, r, e1, e2, e3, e5, e6⟩ := alg2LoopF_ok R h hne ordA ordO fid hn
    ((crosses c.G c.M c.Inc).card + 1) [] (by rw [hU']; omega)
  refine ⟨ys, r, ?_, ?_, ?_, ?_, ?_⟩
  · unfold algorithm2F
    rw [hp]
    simp only
    rw [hU]
    conv_lhs => rw [show (uncovered c.G c.M c.Inc []).card = (crosses c.G c.M c.Inc).card by rw [hU']]
    exact e1
  · rwa [hU'] at e2
  · simpa using e3
  · simpa using e5
  · simpa using e6


theorem coveredFraction_card {c : Ctx α β} (rs : List (Finset α × Finset β)) :
    ∃ k, k ≤ (crosses c.G c.M c.Inc).card ∧
      coveredFraction c.G c.M c.Inc rs = (k : ℚ) / (crosses c.G c.M c.Inc).card := by
  classical
  exact ⟨_, Finset.card_filter_le _ _, rfl⟩

theorem coveredFraction_one {c : Ctx α β} {rs : List (Finset α × Finset β)}
    (hn : (crosses c.G c.M c.Inc).card ≠ 0) (h : coveredFraction c.G c.M c.Inc rs = 1) (p : α × β)
    (hp : c.Inc p.1 p.2) : InSome rs p := by
  rw [coveredFraction_eq, div_eq_one_iff_eq (by exact_mod_cast hn)] at h
  have h0 : (uncovered c.G c.M c.Inc rs).card = 0 := by
    have : ((uncovered c.G c.M c.Inc rs).card : ℚ) = 0 := by linarith
    exact_mod_cast this
  by_contra hc
  have := Finset.card_eq_zero.1 h0 ▸ (mem_uncovered p).2 ⟨hp, hc⟩
  simp at this

/-- With fidelity 1, on a context with at most `2 ^ 53` crosses, the factors cover every cross, however quotients are
rounded. -/
theorem C160_exact_cover (R : Rounding) {c : Ctx α β} (h : c.WFw) (hx : ∃ g m, c.Inc g m)
    (hb : (crosses c.G c.M c.Inc).card ≤ 2 ^ 53)
    (ordA : Finset (α × β) → Finset β → SetOrder β) (ordO : SetOrder α) :
    ∃ ys, algorithm2F R c ordA ordO 1 = some (ys, .ok ()) ∧
      (∀ g m, c.Inc g m ↔ ∃ y ∈ ys, g ∈ y.1.extent ∧ m ∈ y.1.intent) ∧
      ys.length ≤ (crosses c.G c.M c.Inc).card := by
  obtain ⟨ys, r, e1, e2, e3, e5, -⟩ := C160_factors R h hx ordA ordO 1
  obtain ⟨rfl, hc⟩ := e5 le_rfl
  have hn : (crosses c.G c.M c.Inc).card ≠ 0 := by
    obtain ⟨g, m, hI⟩ := hx
    rw [Finset.card_ne_zero]; exact ⟨(g, m), (mem_crosses _).2 hI⟩
  obtain ⟨k, hk, hke⟩ := coveredFraction_card (c := c) (ys.map rectOf)
  have hone : coveredFraction c.G c.M c.Inc (ys.map rectOf) = 1 := by
    rcases hk.lt_or_eq with hlt | heq
    · rw [hke] at hc
      exact absurd (R.rnd_lt_one hlt hb) (not_lt.2 hc)
    · rw [hke, heq, div_self (by exact_mod_cast hn)]
  refine ⟨ys, e1, fun g m => ⟨fun hI => ?_, ?_⟩, e2⟩
  · obtain ⟨q, hq, hg, hm⟩ := coveredFraction_one hn hone (g, m) hI
    obtain ⟨y, hy, rfl⟩ := List.mem_map.1 hq
    exact ⟨y, hy, hg, hm⟩
  · rintro ⟨y, hy, hg, hm⟩
    obtain ⟨i, hi⟩ := List.mem_iff_getElem?.1 hy
    exact (((e3 i y hi).1.2 g).1 hg).2 m hm

/-- With the fidelity a positive double `m * 2 ^ e`, at most 1, the fraction covered in the end is greater than the double
before it (with `m` of 53 digits: short of the fidelity by less than `2 ^ (-52)` of it). -/
theorem C160_reach (R : Rounding) {c : Ctx α β} (h : c.WFw) (hx : ∃ g m, c.Inc g m)
    (ordA : Finset (α × β) → Finset β → SetOrder β) (ordO : SetOrder α)
    {m e : ℤ} (h0 : 0 < m) (hm : m < 2 ^ 53) (he : -1074 ≤ e) (he' : e ≤ 971) (hle : (m : ℚ) * 2 ^ e ≤ 1) :
    ∃ ys, algorithm2F R c ordA ordO (m * 2 ^ e) = some (ys, .ok ()) ∧
      ((m - 1 : ℤ) : ℚ) * 2 ^ e < coveredFraction c.G c.M c.Inc (ys.map rectOf) := by
  obtain ⟨ys, r, e1, -, -, e5, -⟩ := C160_factors R h hx ordA ordO (m * 2 ^ e)
  obtain ⟨rfl, hc⟩ := e5 hle
  exact ⟨ys, e1, R.rnd_reach h0 hm he he' hc⟩

/-- A factor with its fraction rounded. -/
def rndFactor (R : Rounding) (y : Concept α β × ℚ) : Concept α β × ℚ := (y.1, R.rnd y.2)

theorem alg2LoopF_prefix (R : Rounding) (c : Ctx α β) (ordA : Finset (α × β) → Finset β → SetOrder β)
    (ordO : SetOrder α) {fid : ℚ} (hfid : R.rnd fid = fid) (n : ℕ) (fuel : ℕ) (U : Finset (α × β))
    {ys : List (Concept α β × ℚ)} {r : Py Unit} (e : alg2Loop c ordA ordO fid n fuel U = some (ys, r)) :
    ∃ k r', k ≤ ys.length ∧ alg2LoopF R c ordA ordO fid n fuel U = some ((ys.take k).map (rndFactor R), r') ∧
      (r' = r ∧ k = ys.length ∨ r' = .ok ()) := by
  induction fuel generalizing U ys r with
  | zero => simp [alg2Loop] at e
  | succ fuel ih =>
    unfold alg2Loop at e
    unfold alg2LoopF
    unfold pyDiv at e
    unfold pyDivF
    by_cases hn : (n : ℤ) = 0
    · rw [if_pos hn] at e ⊢
      simp only [Option.some.injEq, Prod.mk.injEq] at e ⊢
      obtain ⟨rfl, rfl⟩ := e
      exact ⟨0, _, by simp, by simp, .inl ⟨rfl, rfl⟩⟩
    · rw [if_neg hn] at e ⊢
      simp only at e ⊢
      set q : ℚ := (((n : ℤ) - U.card : ℤ) : ℚ) / ((n : ℤ) : ℚ) with hq
      by_cases hF : R.rnd q < fid
      · have hE : q < fid := by
          by_contra hc
          exact absurd hF (not_lt.2 (R.le_rnd hfid (not_lt.1 hc)))
        rw [if_pos hF]
        rw [if_pos hE] at e
        cases hin : alg2Inner c (ordA U) ordO U (c.attributes.length + 2) ∅ 0 ∅ ∅ with
        | none => rw [hin] at e; simp at e
        | some x =>
          cases x with
          | error er =>
            rw [hin] at e
            simp only [Option.some.injEq, Prod.mk.injEq] at e ⊢
            obtain ⟨rfl, rfl⟩ := e
            exact ⟨0, _, by simp, by simp, .inl ⟨rfl, rfl⟩⟩
          | ok x =>
            obtain ⟨C, D, rem⟩ := x
            rw [hin] at e
            simp only at e ⊢
            by_cases h0 : rem.card = 0
            · rw [if_pos h0] at e ⊢
              simp only [Option.some.injEq, Prod.mk.injEq] at e ⊢
              obtain ⟨rfl, rfl⟩ := e
              exact ⟨0, _, by simp, by simp, .inl ⟨rfl, rfl⟩⟩
            · rw [if_neg h0] at e ⊢
              cases hl : alg2Loop c ordA ordO fid n fuel (U \ rem) with
              | none => rw [hl] at e; simp at e
              | some x =>
                obtain ⟨zs, rr⟩ := x
                rw [hl] at e
                simp only [Option.some.injEq, Prod.mk.injEq] at e
                obtain ⟨rfl, rfl⟩ := e
                obtain ⟨k, r', hk, hF', hr⟩ := ih (U \ rem) hl
                refine ⟨k + 1, r', by simpa using hk, ?_, ?_⟩
                · rw [hF']
                  simp [rndFactor]
                · rcases hr with ⟨h1, h2⟩ | h1
                  · exact .inl ⟨h1, by simp [h2]⟩
                  · exact .inr h1
      · rw [if_neg hF]
        exact ⟨0, .ok (), by simp, by simp, .inr rfl⟩

/-- With a double as fidelity the run with rounding is an initial part of the run with exact quotients (all of C46-C48,
C134, C135 is about the latter): the same concepts, with rounded fractions, possibly ending earlier and then normally. -/
theorem C160_prefix (R : Rounding) (c : Ctx α β) (ordA : Finset (α × β) → Finset β → SetOrder β) (ordO : SetOrder α)
    {fid : ℚ} (hfid : R.rnd fid = fid) {ys : List (Concept α β × ℚ)} {r : Py Unit}
    (e : algorithm2 c ordA ordO fid = some (ys, r)) :
    ∃ k r', k ≤ ys.length ∧ algorithm2F R c ordA ordO fid = some ((ys.take k).map (rndFactor R), r') ∧
      (r' = r ∧ k = ys.length ∨ r' = .ok ()) := by
  unfold algorithm2 at e
  unfold algorithm2F
  cases hp : c.pairs with
  | error er =>
    rw [hp] at e
    simp only [Option.some.injEq, Prod.mk.injEq] at e ⊢
    obtain ⟨rfl, rfl⟩ := e
    exact ⟨0, _, by simp, by simp, .inl ⟨rfl, rfl⟩⟩
  | ok ps =>
    rw [hp] at e
    exact alg2LoopF_prefix R c ordA ordO hfid _ _ _ e

/-- With fidelity 1, on a context with at most `2 ^ 53` crosses, the run is that with exact quotients, up to the rounding
of the reported fractions. -/
theorem C160_same (R : Rounding) {c : Ctx α β} (h : c.WFw) (hx : ∃ g m, c.Inc g m)
    (hb : (crosses c.G c.M c.Inc).card ≤ 2 ^ 53)
    (ordA : Finset (α × β) → Finset β → SetOrder β) (ordO : SetOrder α) :
    ∃ ys, algorithm2 c ordA ordO 1 = some (ys, .ok ()) ∧
      algorithm2F R c ordA ordO 1 = some (ys.map (rndFactor R), .ok ()) := by
  obtain ⟨ys, r, e1, -, e3, -, e5, -⟩ := algorithm2_main h hx ordA ordO 1
  obtain ⟨rfl, -⟩ := e5 le_rfl
  obtain ⟨k, r', hk, e2, -⟩ := C160_prefix R c ordA ordO R.rnd_one e1
  obtain ⟨zs, z1, z2, -⟩ := C160_exact_cover R h hx hb ordA ordO
  rw [z1] at e2
  simp only [Option.some.injEq, Prod.mk.injEq] at e2
  obtain ⟨rfl, rfl⟩ := e2
  refine ⟨ys, e1, ?_⟩
  rw [z1]
  suffices k = ys.length by rw [this, List.take_length]
  by_contra hne
  have hlt : k < ys.length := by omega
  obtain ⟨-, hpos, -⟩ := e3 k ys[k] (List.getElem?_eq_getElem hlt)
  unfold newCrosses at hpos
  obtain ⟨⟨g, m⟩, hp⟩ := Finset.card_pos.1 hpos
  rw [@Finset.mem_filter, mem_crosses] at hp
  obtain ⟨hI, -, -, hno⟩ := hp
  obtain ⟨z, hz, hg, hm⟩ := (z2 g m).1 hI
  obtain ⟨y, hy, rfl⟩ := List.mem_map.1 hz
  exact hno ⟨rectOf y, List.mem_map.2 ⟨y, hy, rfl⟩, hg, hm⟩

/-! ### `algorithm2_w_condition` -/

/-- A factor of `algorithm2_w_condition` with its fractions rounded. -/
def rndWFactor (R : Rounding) (y : Concept α β × ℚ × ℚ) : Concept α β × ℚ × ℚ := (y.1, R.rnd y.2.1, R.rnd y.2.2)

theorem wLoopF_prefix (R : Rounding) (c : Ctx α β) (p : WParams) (ordA : Finset (α × β) → Finset β → SetOrder β)
    (ordO : SetOrder α) (hfid : R.rnd p.fidelity = p.fidelity) (n : ℕ) (fuel : ℕ) (U : Finset (α × β))
    (removed : Finset β) {ys : List (Concept α β × ℚ × ℚ)} {r : Py Unit}
    (e : wLoop c p ordA ordO n fuel U removed = some (ys, r)) :
    ∃ k r', k ≤ ys.length ∧ wLoopF R c p ordA ordO n fuel U removed = some ((ys.take k).map (rndWFactor R), r') ∧
      (r' = r ∧ k = ys.length ∨ r' = .ok ()) := by
  induction fuel generalizing U removed ys r with
  | zero => simp [wLoop] at e
  | succ fuel ih =>
    unfold wLoop at e
    unfold wLoopF
    set q : ℚ := ((n : ℚ) - U.card) / n with hq
    by_cases hF : R.rnd q < p.fidelity
    · have hE : q < p.fidelity := by
        by_contra hc
        exact absurd hF (not_lt.2 (R.le_rnd hfid (not_lt.1 hc)))
      rw [if_pos hF]
      rw [if_pos hE] at e
      cases hin : wInner c p (ordA U) ordO U removed (U.image Prod.snd \ removed) (c.attributes.length + 2) ∅
          c.objects.toFinset 0 ∅ with
      | none => rw [hin] at e; simp at e
      | some x =>
        rw [hin] at e
        cases x with
        | error er =>
          simp only [Option.some.injEq, Prod.mk.injEq] at e ⊢
          obtain ⟨rfl, rfl⟩ := e
          exact ⟨0, _, by simp, by simp, .inl ⟨rfl, rfl⟩⟩
        | ok x =>
          cases x with
          | ret =>
            simp only [Option.some.injEq, Prod.mk.injEq] at e ⊢
            obtain ⟨rfl, rfl⟩ := e
            exact ⟨0, _, by simp, by simp, .inl ⟨rfl, rfl⟩⟩
          | restart U' removed' => exact ih U' removed' e
          | factor C D rem =>
            simp only at e ⊢
            cases hl : wLoop c p ordA ordO n fuel (U \ rem) removed with
            | none => rw [hl] at e; simp at e
            | some x =>
              obtain ⟨zs, rr⟩ := x
              rw [hl] at e
              simp only [Option.some.injEq, Prod.mk.injEq] at e
              obtain ⟨rfl, rfl⟩ := e
              obtain ⟨k, r', hk, hF', hr⟩ := ih (U \ rem) removed hl
              refine ⟨k + 1, r', by simpa using hk, ?_, ?_⟩
              · rw [hF']
                simp [rndWFactor]
              · rcases hr with ⟨h1, h2⟩ | h1
                · exact .inl ⟨h1, by simp [h2]⟩
                · exact .inr h1
    · rw [if_neg hF]
      exact ⟨0, .ok (), by simp, by simp, .inr rfl⟩

/-- With a double as fidelity a run of `algorithm2_w_condition` with rounding is an initial part of the run with exact
quotients, with rounded fractions, and every factor meets the conditions of C51. -/
theorem C160_condition_prefix (R : Rounding) {c : Ctx α β} (h : c.WFw) (p : WParams)
    (ordA : Finset (α × β) → Finset β → SetOrder β) (ordO : SetOrder α) (hfid : R.rnd p.fidelity = p.fidelity) :
    ∃ ys r k r', algorithm2WCondition c p ordA ordO = some (ys, r) ∧ k ≤ ys.length ∧
      algorithm2WConditionF R c p ordA ordO = some ((ys.take k).map (rndWFactor R), r') ∧
      (r' = r ∧ k = ys.length ∨ r' = .ok ()) ∧ (r' = .ok () ∨ r' = .error .genericException) ∧
      ∀ y ∈ (ys.take k).map (rndWFactor R), IsConcept c.G c.M c.Inc y.1.extent y.1.intent ∧
        p.minSize ≤ y.1.extent.card ∧ p.minSize ≤ y.1.intent.card ∧
        (p.objsGeAtts = true → y.1.intent.card ≤ y.1.extent.card) := by
  obtain ⟨ys, r, e, hr, -, hall⟩ := C51_conditions h p ordA ordO
  have key : ∃ k r', k ≤ ys.length ∧ algorithm2WConditionF R c p ordA ordO = some ((ys.take k).map (rndWFactor R), r') ∧
      (r' = r ∧ k = ys.length ∨ r' = .ok ()) := by
    have e' := e
    unfold algorithm2WCondition at e'
    unfold algorithm2WConditionF
    cases hp : c.pairs with
    | error er =>
      rw [hp] at e'
      simp only [Option.some.injEq, Prod.mk.injEq] at e' ⊢
      obtain ⟨rfl, rfl⟩ := e'
      exact ⟨0, _, by simp, by simp, .inl ⟨rfl, rfl⟩⟩
    | ok ps =>
      rw [hp] at e'
      simp only at e' ⊢
      by_cases h0 : ps.toFinset.card = 0
      · rw [if_pos h0] at e' ⊢
        simp only [Option.some.injEq, Prod.mk.injEq] at e' ⊢
        obtain ⟨rfl, rfl⟩ := e'
        exact ⟨0, _, by simp, by simp, .inl ⟨rfl, rfl⟩⟩
      · rw [if_neg h0] at e' ⊢
        exact wLoopF_prefix R c p ordA ordO hfid _ _ _ _ e'
  obtain ⟨k, r', hk, hF, hr'⟩ := key
  refine ⟨ys, r, k, r', e, hk, hF, hr', ?_, ?_⟩
  · rcases hr' with ⟨rfl, -⟩ | rfl
    · exact hr
    · exact .inl rfl
  · intro y hy
    obtain ⟨z, hz, rfl⟩ := List.mem_map.1 hy
    exact hall z (List.mem_of_mem_take hz)

theorem wInner_restart_sub (c : Ctx α β) (p : WParams) (ordA : Finset β → SetOrder β) (ordO : SetOrder α)
    (U : Finset (α × β)) (removed avail : Finset β) (fuel : ℕ) (D : Finset β) (C : Finset α) (V : ℕ)
    (rem : Finset (α × β)) {U' : Finset (α × β)} {removed' : Finset β}
    (e : wInner c p ordA ordO U removed avail fuel D C V rem = some (.ok (.restart U' removed'))) : U' ⊆ U := by
  induction fuel generalizing D C V rem with
  | zero => simp [wInner] at e
  | succ fuel ih =>
    unfold wInner at e
    split at e
    · simp at e
    · simp at e
    · split at e
      · split at e
        · simp at e
        · split at e
          · simp only [Option.some.injEq, Except.ok.injEq, WOut.restart.injEq] at e
            rw [← e.1]
            exact Finset.filter_subset _ _
          · split at e
            · simp at e
            · exact ih _ _ _ _ e
      · split at e
        · split at e <;> simp at e
        · simp at e

theorem wLoopF_same (R : Rounding) (c : Ctx α β) (p : WParams) (ordA : Finset (α × β) → Finset β → SetOrder β)
    (ordO : SetOrder α) (n : ℕ)
    (hs : ∀ u ≤ n, R.rnd (((n : ℚ) - (u : ℕ)) / n) < p.fidelity ↔ ((n : ℚ) - u) / n < p.fidelity) (fuel : ℕ)
    (U : Finset (α × β)) (hU : U.card ≤ n) (removed : Finset β) :
    wLoopF R c p ordA ordO n fuel U removed =
      (wLoop c p ordA ordO n fuel U removed).map fun x => (x.1.map (rndWFactor R), x.2) := by
  induction fuel generalizing U removed with
  | zero => rfl
  | succ fuel ih =>
    unfold wLoop wLoopF
    by_cases hq : ((n : ℚ) - U.card) / n < p.fidelity
    · rw [if_pos hq, if_pos ((hs _ hU).2 hq)]
      cases hin : wInner c p (ordA U) ordO U removed (U.image Prod.snd \ removed) (c.attributes.length + 2) ∅
          c.objects.toFinset 0 ∅ with
      | none => rfl
      | some x =>
        cases x with
        | error er => rfl
        | ok x =>
          cases x with
          | ret => rfl
          | restart U' removed' =>
            exact ih U' ((Finset.card_le_card (wInner_restart_sub _ _ _ _ _ _ _ _ _ _ _ _ hin)).trans hU) removed'
          | factor C D rem =>
            simp only
            rw [ih (U \ rem) ((Finset.card_le_card Finset.sdiff_subset).trans hU) removed]
            cases wLoop c p ordA ordO n fuel (U \ rem) removed with
            | none => rfl
            | some x => rfl
    · rw [if_neg hq, if_neg (fun hc => hq ((hs _ hU).1 hc))]
      rfl

/-- With fidelity 1, on a context with at most `2 ^ 53` crosses, the run of `algorithm2_w_condition` is that with exact
quotients, up to the rounding of the reported fractions. -/
theorem C160_condition_same (R : Rounding) {c : Ctx α β} (h : c.WFw) (p : WParams) (hfid : p.fidelity = 1)
    (hb : (crosses c.G c.M c.Inc).card ≤ 2 ^ 53)
    (ordA : Finset (α × β) → Finset β → SetOrder β) (ordO : SetOrder α) :
    algorithm2WConditionF R c p ordA ordO =
      (algorithm2WCondition c p ordA ordO).map fun x => (x.1.map (rndWFactor R), x.2) := by
  obtain ⟨ps, hp, -, hmem⟩ := Ctx.mem_pairs h
  unfold algorithm2WCondition algorithm2WConditionF
  rw [hp]
  simp only
  have hps : ps.toFinset = crosses c.G c.M c.Inc := by
    ext ⟨o, a⟩
    rw [List.mem_toFinset, hmem, mem_crosses]
  by_cases h0 : ps.toFinset.card = 0
  · rw [if_pos h0, if_pos h0]; rfl
  · rw [if_neg h0, if_neg h0]
    refine wLoopF_same R c p ordA ordO _ (fun u hu => ?_) _ _ le_rfl _
    rw [hfid]
    have hn : (0 : ℚ) < ps.toFinset.card := by exact_mod_cast Nat.pos_of_ne_zero h0
    have hcast : ((ps.toFinset.card : ℚ) - (u : ℕ)) = ((ps.toFinset.card - u : ℕ) : ℚ) := by
      rw [Nat.cast_sub hu]
    rw [hcast]
    constructor
    · intro hF
      by_contra hc
      exact absurd hF (not_lt.2 (R.le_rnd R.rnd_one (not_lt.1 hc)))
    · intro hE
      rw [div_lt_one hn] at hE
      exact R.rnd_lt_one (by exact_mod_cast hE) (by rw [hps]; exact hb)

/-! ### The rounding of CPython -/

/-- The fractions, which lie between 0 and 1, are reported with an error of at most `2 ^ (-53)`. -/
theorem C160_error {x : ℚ} (h0 : 0 ≤ x) (h1 : x ≤ 1) : |x - Rounding.double.rnd x| ≤ 1 / 2 ^ 53 := by
  show |x - toDouble x| ≤ _
  unfold toDouble
  rcases h0.lt_or_eq with hx | rfl
  · rw [if_pos hx]
    have hl : lastPlace x ≤ -52 := by
      have := Int.log_mono_right (b := 2) hx h1
      rw [Int.log_one_right] at this
      unfold lastPlace
      omega
    unfold toDoublePos
    have hp := zpow2_pos (lastPlace x)
    have hn := halfEven_near (x / 2 ^ lastPlace x)
    have hxe : x = x / 2 ^ lastPlace x * 2 ^ lastPlace x := by rw [div_mul_cancel₀ _ hp.ne']
    have hle : (2 : ℚ) ^ lastPlace x ≤ 2 ^ (-52 : ℤ) := zpow_le_zpow_right₀ (by norm_num) hl
    calc |x - halfEven (x / 2 ^ lastPlace x) * 2 ^ lastPlace x|
        = |x / 2 ^ lastPlace x - halfEven (x / 2 ^ lastPlace x)| * 2 ^ lastPlace x := by
          rw [← abs_of_pos hp, ← abs_mul, abs_of_pos hp, sub_mul, ← hxe]
      _ ≤ 1 / 2 * 2 ^ (-52 : ℤ) := by gcongr
      _ = 1 / 2 ^ 53 := by norm_num
  · simp

/-- The identity on five objects. -/
def cxtI5 : Ctx (Fin 5) (Fin 5) :=
  ⟨[0, 1, 2, 3, 4], [0, 1, 2, 3, 4], ⟨some 5, [[true, false, false, false, false], [false, true, false, false, false],
    [false, false, true, false, false], [false, false, false, true, false], [false, false, false, false, true]]⟩⟩

theorem cxtI5_wf : cxtI5.WFw := by constructor <;> decide +kernel

theorem cxtI5_cross : ∃ g m, cxtI5.Inc g m := ⟨0, 0, 0, 0, _, rfl, rfl, rfl, rfl⟩

/-- "Stop when the fidelity level is covered" holds for the rounded fraction only: with `fidelity=0.2`, a double greater than
1/5, the run on the identity on five objects ends with 1/5 of the crosses covered. With exact quotients it would go on. -/
theorem C160_fidelity_violated :
    ∃ ys, algorithm2F .double cxtI5 (fun _ _ => SetOrder.fin 5) (SetOrder.fin 5) (toDouble (1 / 5)) =
        some (ys, .ok ()) ∧
      coveredFraction cxtI5.G cxtI5.M cxtI5.Inc (ys.map rectOf) < toDouble (1 / 5) ∧
      ∃ zs, algorithm2 cxtI5 (fun _ _ => SetOrder.fin 5) (SetOrder.fin 5) (toDouble (1 / 5)) = some (zs, .ok ()) ∧
        zs.length = 2 := by
  refine ⟨[(⟨{0}, {0}⟩, toDouble (1 / 5))], by decide +kernel, ?_,
    [(⟨{0}, {0}⟩, 1 / 5), (⟨{1}, {1}⟩, 1 / 5)], by decide +kernel, rfl⟩
  obtain ⟨ys, r, e1, -, -, e4, -⟩ := algorithm2_main cxtI5_wf cxtI5_cross (fun _ _ => SetOrder.fin 5) (SetOrder.fin 5) (1 / 5)
  have e2 : algorithm2 cxtI5 (fun _ _ => SetOrder.fin 5) (SetOrder.fin 5) (1 / 5) =
      some ([(⟨{0}, {0}⟩, 1 / 5)], .ok ()) := by decide +kernel
  rw [e1] at e2
  simp only [Option.some.injEq, Prod.mk.injEq] at e2
  obtain ⟨rfl, rfl⟩ := e2
  have : coveredFraction cxtI5.G cxtI5.M cxtI5.Inc
      ([((⟨{0}, {0}⟩ : Concept (Fin 5) (Fin 5)), toDouble (1 / 5))].map rectOf) = 1 / 5 := by
    rw [show [((⟨{0}, {0}⟩ : Concept (Fin 5) (Fin 5)), toDouble (1 / 5))].map rectOf =
      [((⟨{0}, {0}⟩ : Concept (Fin 5) (Fin 5)), (1 / 5 : ℚ))].map rectOf from rfl, ← e4]
    simp
  rw [this]
  decide +kernel

/-- The hypotheses of the other statements are met, with the rounding of CPython. -/
example : ∃ ys, algorithm2F .double cxtF (fun _ _ => SetOrder.fin 3) (SetOrder.fin 3) 1 = some (ys, .ok ()) ∧
    ys.map Prod.snd = [toDouble (3 / 5), toDouble (1 / 5), toDouble (1 / 5)] :=
  ⟨[(⟨{0, 1, 2}, {1}⟩, toDouble (3 / 5)), (⟨{0}, {0, 1}⟩, toDouble (1 / 5)), (⟨{1}, {1, 2}⟩, toDouble (1 / 5))],
    by decide +kernel, rfl⟩

example : ∃ ys, algorithm2F .double cxtF (fun _ _ => SetOrder.fin 3) (SetOrder.fin 3)
    (((6305039478318694 : ℤ) : ℚ) * 2 ^ (-53 : ℤ)) = some (ys, .ok ()) ∧
    ((6305039478318694 - 1 : ℤ) : ℚ) * 2 ^ (-53 : ℤ) < coveredFraction cxtF.G cxtF.M cxtF.Inc (ys.map rectOf) :=
  C160_reach .double cxtF_wf cxtF_cross _ _ (by norm_num) (by norm_num) (by norm_num) (by norm_num) (by norm_num)

example : toDouble (7 / 10) = ((6305039478318694 : ℤ) : ℚ) * 2 ^ (-53 : ℤ) ∧
    Rounding.double.rnd (toDouble (7 / 10)) = toDouble (7 / 10) := by
  constructor <;> decide +kernel

example : algorithm2WConditionF .double cxtF ⟨1, true, 1, true⟩ (fun _ _ => SetOrder.fin 3) (SetOrder.fin 3) =
    some ([(⟨{0, 1, 2}, {1}⟩, toDouble (3 / 5), toDouble (3 / 5))], .ok ()) := by
  decide +kernel
