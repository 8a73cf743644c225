/-
Properties C72 (positive part), C104: what `algorithm2_w_condition` covers and reports.
-/
import Verif.Props.Factors
import Mathlib.Data.Fintype.Prod

set_option linter.unusedSectionVars false

variable {α β : Type} [DecidableEq α] [DecidableEq β]

open Spec

/-- The pairs removed with a factor (fca/algorithms/factors.py:230-236). -/
def wRem (c : Ctx α β) (p : WParams) (U : Finset (α × β)) (C : Finset α) (D : Finset β) : Finset (α × β) :=
  if p.allowRepetitions then (C ×ˢ D) ∩ U
  else ((C ×ˢ c.attributes.toFinset) ∪ (c.objects.toFinset ×ˢ D)) ∩ U

/-- A minimal size of at most 1 and no comparison of the sizes. -/
def WParams.Loose (p : WParams) : Prop := p.minSize ≤ 1 ∧ p.objsGeAtts = false

theorem genU_single_pos {c : Ctx α β} (h : c.WFw) {U : Finset (α × β)} (hU : ∀ q ∈ U, c.Inc q.1 q.2) {g : α} {j : β}
    (hg : (g, j) ∈ U) : 0 < (genU c U (insert j ∅)).card := by
  have hI := hU _ hg
  rw [Finset.card_pos]
  refine ⟨(g, j), Finset.mem_inter.2 ⟨Finset.mem_product.2 ⟨?_, ?_⟩, hg⟩⟩
  · refine h.mem_downF.2 ⟨hI.mem.1, fun m hm => ?_⟩
    have : m = j := by simpa using hm
    exact this ▸ hI
  · refine h.aclF_ext ?_ (by simp)
    intro x hx
    have : x = j := by simpa using hx
    rw [this, List.mem_toFinset]; exact hI.mem.2

/-- The inner loop in detail. -/
theorem wInner_detail {c : Ctx α β} (h : c.WFw) (hne : c.objects ≠ []) (p : WParams) (ordA : Finset β → SetOrder β)
    (ordO : SetOrder α) (U : Finset (α × β)) (hUI : ∀ q ∈ U, c.Inc q.1 q.2) (removed avail : Finset β)
    (havU : ∀ j ∈ avail, ∃ g, (g, j) ∈ U) (fuel : ℕ) (D : Finset β) (C : Finset α) (V : ℕ) (rem : Finset (α × β))
    (hg : (D = ∅ ∧ V = 0) ∨ (IsConcept c.G c.M c.Inc C D ∧ rem = wRem c p U C D ∧ V = ((C ×ˢ D) ∩ U).card ∧
      (∃ j ∈ avail, j ∈ D) ∧ (p.Loose → 0 < V)))
    (hf : (c.attributes.toFinset \ D).card < fuel) :
    (wInner c p ordA ordO U removed avail fuel D C V rem = some (.error .genericException) ∧ ¬ p.Loose) ∨
    (wInner c p ordA ordO U removed avail fuel D C V rem = some (.ok .ret) ∧
      ∃ C' D', IsConcept c.G c.M c.Inc C' D' ∧ avail ⊆ D') ∨
    (∃ B, wInner c p ordA ordO U removed avail fuel D C V rem =
      some (.ok (.restart (U.filter fun u => u.2 ∉ B) (removed ∪ B))) ∧ (U.filter fun u => u.2 ∉ B) ⊂ U ∧ ¬ p.Loose) ∨
    ∃ C' D', wInner c p ordA ordO U removed avail fuel D C V rem = some (.ok (.factor C' D' (wRem c p U C' D'))) ∧
      IsConcept c.G c.M c.Inc C' D' ∧ p.good C' D' = true ∧ wRem c p U C' D' ≠ ∅ ∧ ∃ j ∈ avail, j ∈ D' := by
  have hav : avail ⊆ c.attributes.toFinset := by
    intro j hj
    obtain ⟨g, hg⟩ := havU j hj
    rw [List.mem_toFinset]; exact (hUI _ hg).mem.2
  induction fuel generalizing D C V rem with
  | zero => omega
  | succ fuel ih =>
    have hD : D ⊆ c.attributes.toFinset := by
      rcases hg with ⟨rfl, -⟩ | ⟨hc, -⟩
      · simp
      · intro m hm; have := (hc.1 m).1 hm; exact this.1
    unfold wInner
    rcases alg2Best_ok h hne (ordA D) ordO U hav hD with ⟨he, hb⟩ | ⟨j, hj, hb, -⟩
    · rw [hb]
      refine .inr (.inl ⟨rfl, ?_⟩)
      have hsub : avail ⊆ D := Finset.sdiff_eq_empty_iff_subset.1 he
      rcases hg with ⟨rfl, -⟩ | ⟨hc, -⟩
      · exact ⟨_, _, isConcept_gen h (B := ∅) (by simp), hsub.trans (by simp)⟩
      · exact ⟨C, D, hc, hsub⟩
    · rw [hb]
      simp only
      have hjA := (Finset.mem_sdiff.1 hj).1
      have hjD := (Finset.mem_sdiff.1 hj).2
      have hB : insert j D ⊆ c.attributes.toFinset := Finset.insert_subset (hav hjA) hD
      obtain ⟨g, hgU⟩ := havU j hjA
      have hpos : D = ∅ → 0 < (genU c U (insert j D)).card := by
        rintro rfl; exact genU_single_pos h hUI hgU
      by_cases hup : V < (genU c U (insert j D)).card ∨ p.good C D = false
      · have hloose : p.Loose → 0 < (genU c U (insert j D)).card := by
          intro hl
          rcases hg with ⟨h0, -⟩ | ⟨hc, -, hV, -, hl0⟩
          · exact hpos h0
          · rcases hup with hup | hup
            · omega
            · exfalso
              have h0 := hl0 hl
              rw [hV, Finset.card_pos] at h0
              obtain ⟨q, hq⟩ := h0
              obtain ⟨hq1, hq2⟩ := Finset.mem_product.1 (Finset.mem_inter.1 hq).1
              have h1 : 0 < C.card := Finset.card_pos.2 ⟨_, hq1⟩
              have h2 : 0 < D.card := Finset.card_pos.2 ⟨_, hq2⟩
              have := hl.1
              unfold WParams.good at hup
              rw [if_neg (by rw [hl.2]; decide), Bool.and_eq_false_iff, decide_eq_false_iff_not,
                decide_eq_false_iff_not] at hup
              omega
        rw [if_pos hup, (h.toWF hne).enum_aprime (ordA D) hB]
        simp only
        by_cases hs : ((c.downF (insert j D)).card : ℤ) < p.minSize ∨ avail \ D = ∅
        · rw [if_pos hs]
          refine .inr (.inr (.inl ⟨insert j D, rfl, ?_, ?_⟩))
          · rw [Finset.filter_ssubset]
            exact ⟨(g, j), hgU, by simp⟩
          · intro hl
            have h0 := hloose hl
            rw [Finset.card_pos] at h0
            obtain ⟨q, hq⟩ := h0
            have hq1 := (Finset.mem_product.1 (Finset.mem_inter.1 hq).1).1
            have h1 : 0 < (c.downF (insert j D)).card := Finset.card_pos.2 ⟨_, hq1⟩
            have := hl.1
            rcases hs with hs | hs
            · omega
            · rw [hs] at hj; simp at hj
        · rw [if_neg hs, h.enum_oprime ordO (c.downF_subset _)]
          simp only
          apply ih
          · refine .inr ⟨isConcept_gen h hB, rfl, rfl, ⟨j, hjA, ?_⟩, hloose⟩
            exact h.aclF_ext hB (by simp)
          · have hlt : (c.attributes.toFinset \ c.upF (c.downF (insert j D))).card <
                (c.attributes.toFinset \ D).card := by
              apply Finset.card_lt_card
              have hsub : insert j D ⊆ c.upF (c.downF (insert j D)) := h.aclF_ext hB
              rw [Finset.ssubset_iff_of_subset]
              · refine ⟨j, Finset.mem_sdiff.2 ⟨hav hjA, hjD⟩, ?_⟩
                rw [Finset.mem_sdiff, not_and, not_not]
                exact fun _ => hsub (by simp)
              · exact Finset.sdiff_subset_sdiff (subset_refl _) ((Finset.subset_insert _ _).trans hsub)
            omega
      · rw [if_neg hup]
        rw [not_or, Bool.not_eq_false] at hup
        rw [if_pos hup.2]
        rcases hg with ⟨h0, hV⟩ | ⟨hc, hr, hV, hjm, hl0⟩
        · exact absurd (hpos h0) (by omega)
        · by_cases hr0 : rem.card = 0
          · rw [if_pos hr0]
            refine .inl ⟨rfl, fun hl => ?_⟩
            have h0 := hl0 hl
            rw [hV, Finset.card_pos] at h0
            obtain ⟨q, hq⟩ := h0
            rw [Finset.card_eq_zero, hr] at hr0
            have hq' := Finset.mem_inter.1 hq
            have hqI := (hUI _ hq'.2).mem
            have : q ∈ wRem c p U C D := by
              unfold wRem
              split
              · exact hq
              · refine Finset.mem_inter.2 ⟨Finset.mem_union.2 (.inl (Finset.mem_product.2 ⟨?_, ?_⟩)), hq'.2⟩
                · exact (Finset.mem_product.1 hq'.1).1
                · rw [List.mem_toFinset]; exact hqI.2
            rw [hr0] at this; simp at this
          · rw [if_neg hr0]
            subst hr
            exact .inr (.inr (.inr ⟨C, D, rfl, hc, hup.2, fun h0 => hr0 (by rw [h0]; rfl), hjm⟩))

/-- The rectangle of a yielded value. -/
def rectOf3 (y : Concept α β × ℚ × ℚ) : Finset α × Finset β := (y.1.extent, y.1.intent)

theorem wRem_contains {c : Ctx α β} (p : WParams) {U : Finset (α × β)} (hUI : ∀ q ∈ U, c.Inc q.1 q.2)
    {C : Finset α} {D : Finset β} {q : α × β} (hq : q ∈ U) (h1 : q.1 ∈ C) (h2 : q.2 ∈ D) : q ∈ wRem c p U C D := by
  unfold wRem
  split
  · exact Finset.mem_inter.2 ⟨Finset.mem_product.2 ⟨h1, h2⟩, hq⟩
  · refine Finset.mem_inter.2 ⟨Finset.mem_union.2 (.inl (Finset.mem_product.2 ⟨h1, ?_⟩)), hq⟩
    rw [List.mem_toFinset]; exact (hUI _ hq).mem.2

theorem wRem_subset {c : Ctx α β} (p : WParams) (U : Finset (α × β)) (C : Finset α) (D : Finset β) :
    wRem c p U C D ⊆ U := by
  unfold wRem; split <;> exact Finset.inter_subset_right

theorem wLoop_detail {c : Ctx α β} (h : c.WFw) (hne : c.objects ≠ []) (p : WParams)
    (ordA : Finset (α × β) → Finset β → SetOrder β) (ordO : SetOrder α)
    (hn : (crosses c.G c.M c.Inc).card ≠ 0) (fuel : ℕ) (U : Finset (α × β)) (removed : Finset β)
    (pre : List (Finset α × Finset β)) (hU : U ⊆ uncovered c.G c.M c.Inc pre)
    (hloose : p.Loose → p.allowRepetitions = true → U = uncovered c.G c.M c.Inc pre)
    (hrem : p.Loose → removed = ∅)
    (hsep : p.allowRepetitions = false → ∀ q ∈ U, ∀ r ∈ pre, q.1 ∉ r.1 ∧ q.2 ∉ r.2)
    (hf : U.card < fuel) :
    ∃ ys r, wLoop c p ordA ordO (crosses c.G c.M c.Inc).card fuel U removed = some (ys, r) ∧
      (p.Loose → r = .ok ()) ∧
      (∀ (i : ℕ) y, ys[i]? = some y →
        0 < y.2.1 ∧ y.2.2 ≤ 1 ∧
        coveredFraction c.G c.M c.Inc (pre ++ (ys.take (i + 1)).map rectOf3) ≤ y.2.2 ∧
        ((((crosses c.G c.M c.Inc).card : ℚ) - U.card) / (crosses c.G c.M c.Inc).card + y.2.1 ≤ y.2.2) ∧
        (p.allowRepetitions = true → y.2.1 * (crosses c.G c.M c.Inc).card ≤
          newCrosses c.G c.M c.Inc (pre ++ (ys.take i).map rectOf3) (rectOf3 y)) ∧
        (p.allowRepetitions = false →
          ∃ m ∈ y.1.intent, ∀ r ∈ pre ++ (ys.take i).map rectOf3, m ∉ r.2) ∧
        (p.Loose → p.allowRepetitions = true →
          y.2.1 * (crosses c.G c.M c.Inc).card =
            newCrosses c.G c.M c.Inc (pre ++ (ys.take i).map rectOf3) (rectOf3 y) ∧
          y.2.2 = coveredFraction c.G c.M c.Inc (pre ++ (ys.take (i + 1)).map rectOf3))) ∧
      (∀ (i : ℕ) y y', ys[i]? = some y → ys[i + 1]? = some y' → y.2.2 < p.fidelity ∧ y.2.2 + y'.2.1 ≤ y'.2.2) ∧
      (p.Loose → p.allowRepetitions = true →
        p.fidelity ≤ coveredFraction c.G c.M c.Inc (pre ++ ys.map rectOf3) ∨
        ∃ C D, IsConcept c.G c.M c.Inc C D ∧
          ∀ q ∈ uncovered c.G c.M c.Inc (pre ++ ys.map rectOf3), q.2 ∈ D) := by
  have hn' : (0 : ℚ) < (crosses c.G c.M c.Inc).card := by exact_mod_cast Nat.pos_of_ne_zero hn
  induction fuel generalizing U removed pre with
  | zero => omega
  | succ fuel ih =>
    have hUI : ∀ q ∈ U, c.Inc q.1 q.2 := fun q hq => ((mem_uncovered q).1 (hU hq)).1
    unfold wLoop
    by_cases hq : (((crosses c.G c.M c.Inc).card : ℚ) - U.card) / (crosses c.G c.M c.Inc).card < p.fidelity
    · rw [if_pos hq]
      have hcard : (c.attributes.toFinset \ ∅).card < c.attributes.length + 2 := by
        have := List.toFinset_card_le c.attributes
        simp only [Finset.sdiff_empty]; omega
      rcases wInner_detail h hne p (ordA U) ordO U hUI removed (U.image Prod.snd \ removed)
        (by
          intro j hj
          obtain ⟨q, hq, rfl⟩ := Finset.mem_image.1 (Finset.mem_sdiff.1 hj).1
          exact ⟨q.1, hq⟩)
        (c.attributes.length + 2) ∅ c.objects.toFinset 0 ∅ (.inl ⟨rfl, rfl⟩) hcard with
        ⟨e, hl⟩ | ⟨e, C, D, hcon, hav⟩ | ⟨B, e, hlt, hl⟩ | ⟨C, D, e, hc, hgood, hr, j, hjA, hjD⟩
      · rw [e]
        exact ⟨[], _, rfl, fun h => absurd h hl, by simp, by simp, fun h => absurd h hl⟩
      · rw [e]
        refine ⟨[], _, rfl, fun _ => rfl, by simp, by simp, fun hl ha => .inr ⟨C, D, hcon, fun q hq => hav ?_⟩⟩
        rw [List.map_nil, List.append_nil, ← hloose hl ha] at hq
        rw [hrem hl, Finset.sdiff_empty]
        exact Finset.mem_image_of_mem _ hq
      · rw [e]
        have hcc := Finset.card_lt_card hlt
        obtain ⟨ys, r, h1, -, h3, h4, -⟩ := ih (U.filter fun u => u.2 ∉ B) (removed ∪ B) pre (hlt.subset.trans hU)
          (fun h => absurd h hl) (fun h => absurd h hl) (fun ha q hq => hsep ha q (hlt.subset hq)) (by omega)
        refine ⟨ys, r, h1, fun h => absurd h hl, fun i y hy => ?_, h4, fun h => absurd h hl⟩
        obtain ⟨a1, a2, a3, a4, a5, a6, a7⟩ := h3 i y hy
        refine ⟨a1, a2, a3, le_trans ?_ a4, a5, a6, a7⟩
        gcongr
      · rw [e]
        have hsubR := wRem_subset p U C D (c := c)
        have hlt : (U \ wRem c p U C D).card < U.card :=
          Finset.card_lt_card (Finset.sdiff_ssubset hsubR (Finset.nonempty_iff_ne_empty.2 hr))
        have hcs : (U \ wRem c p U C D).card + (wRem c p U C D).card = U.card :=
          Finset.card_sdiff_add_card_eq_card hsubR
        have hUle : (U.card : ℚ) ≤ (crosses c.G c.M c.Inc).card := by
          exact_mod_cast Finset.card_le_card (fun q hq => (mem_crosses q).2 (hUI q hq))
        have hstep := uncovered_step (c := c) pre C D
        have hUn : U \ wRem c p U C D ⊆ uncovered c.G c.M c.Inc (pre ++ [(C, D)]) := by
          intro q hq
          obtain ⟨hq1, hq2⟩ := Finset.mem_sdiff.1 hq
          rw [mem_uncovered, inSome_append, inSome_single]
          refine ⟨hUI q hq1, ?_⟩
          rintro (hs | hs)
          · exact ((mem_uncovered q).1 (hU hq1)).2 hs
          · exact hq2 (wRem_contains p hUI hq1 hs.1 hs.2)
        have hUeq : p.Loose → p.allowRepetitions = true →
            U \ wRem c p U C D = uncovered c.G c.M c.Inc (pre ++ [(C, D)]) := by
          intro hl ha
          rw [← hstep.2, ← hloose hl ha]
          unfold wRem; rw [if_pos ha]
        obtain ⟨ys, r, h1, h2, h3, h4, h5⟩ := ih (U \ wRem c p U C D) removed (pre ++ [(C, D)]) hUn hUeq hrem
          (by
            intro ha q hq r hr
            obtain ⟨hq1, hq2⟩ := Finset.mem_sdiff.1 hq
            rcases List.mem_append.1 hr with hr | hr
            · exact hsep ha q hq1 r hr
            · have : r = (C, D) := by simpa using hr
              subst this
              have hqI := (hUI q hq1).mem
              unfold wRem at hq2
              rw [if_neg (by rw [ha]; decide)] at hq2
              constructor
              · intro hc1
                refine hq2 (Finset.mem_inter.2 ⟨Finset.mem_union.2 (.inl (Finset.mem_product.2 ⟨hc1, ?_⟩)), hq1⟩)
                rw [List.mem_toFinset]; exact hqI.2
              · intro hc2
                refine hq2 (Finset.mem_inter.2 ⟨Finset.mem_union.2 (.inr (Finset.mem_product.2 ⟨?_, hc2⟩)), hq1⟩)
                rw [List.mem_toFinset]; exact hqI.1) (by omega)
        simp only [h1]
        have hcq : ((U \ wRem c p U C D).card : ℚ) + (wRem c p U C D).card = U.card := by exact_mod_cast hcs
        have hrpos : (0 : ℚ) < (wRem c p U C D).card := by
          exact_mod_cast Finset.card_pos.2 (Finset.nonempty_iff_ne_empty.2 hr)
        refine ⟨_, r, rfl, h2, ?_, ?_, ?_⟩
        · intro i y hy
          cases i with
          | zero =>
            simp only [List.getElem?_cons_zero, Option.some.injEq] at hy
            subst hy
            have hnew : p.allowRepetitions = true →
                wRem c p U C D = (C ×ˢ D) ∩ U := by
              intro ha; unfold wRem; rw [if_pos ha]
            refine ⟨div_pos hrpos hn', ?_, ?_, ?_, ?_, ?_, ?_⟩
            · rw [div_le_one hn']
              have : (0 : ℚ) ≤ (U \ wRem c p U C D).card := Nat.cast_nonneg _
              show (_ : ℚ) - _ ≤ _
              linarith
            · simp only [List.take_succ_cons, List.take_zero, List.map_cons, List.map_nil]
              rw [coveredFraction_eq]
              gcongr
              exact hUn
            · show (_ : ℚ) / _ + _ / _ ≤ _ / _
              rw [← add_div]
              apply le_of_eq
              congr 1
              linarith
            · intro ha
              simp only [List.take_zero, List.map_nil, List.append_nil]
              rw [div_mul_cancel₀ _ hn'.ne']
              show _ ≤ (newCrosses c.G c.M c.Inc pre (C, D) : ℚ)
              rw [← hstep.1, hnew ha]
              exact_mod_cast Finset.card_le_card (Finset.inter_subset_inter_left hU)
            · intro ha
              simp only [List.take_zero, List.map_nil, List.append_nil]
              obtain ⟨q, hqU, hqj⟩ := Finset.mem_image.1 (Finset.mem_sdiff.1 hjA).1
              exact ⟨j, hjD, fun r hr => hqj ▸ (hsep ha q hqU r hr).2⟩
            · intro hl ha
              simp only [List.take_succ_cons, List.take_zero, List.map_cons, List.map_nil, List.append_nil]
              constructor
              · rw [div_mul_cancel₀ _ hn'.ne']
                show _ = (newCrosses c.G c.M c.Inc pre (C, D) : ℚ)
                rw [← hstep.1, hnew ha, hloose hl ha]
              · rw [coveredFraction_eq, hUeq hl ha]
                rfl
          | succ i =>
            simp only [List.getElem?_cons_succ] at hy
            obtain ⟨a1, a2, a3, a4, a5, a6, a7⟩ := h3 i y hy
            simp only [List.append_assoc, List.singleton_append] at a3 a5 a6 a7
            refine ⟨a1, a2, a3, le_trans ?_ a4, a5, a6, a7⟩
            gcongr
        · intro i y y' hy hy'
          cases i with
          | zero =>
            simp only [List.getElem?_cons_zero, Option.some.injEq] at hy
            subst hy
            simp only [List.getElem?_cons_succ] at hy'
            refine ⟨?_, (h3 0 y' hy').2.2.2.1⟩
            by_contra hge
            cases fuel with
            | zero => omega
            | succ fuel =>
              unfold wLoop at h1
              rw [if_neg hge] at h1
              simp only [Option.some.injEq, Prod.mk.injEq] at h1
              rw [← h1.1] at hy'; simp at hy'
          | succ i =>
            simp only [List.getElem?_cons_succ] at hy hy'
            exact h4 i y y' hy hy'
        · intro hl ha
          have := h5 hl ha
          simp only [List.append_assoc, List.singleton_append] at this
          exact this
    · rw [if_neg hq]
      refine ⟨[], _, rfl, fun _ => rfl, by simp, by simp, fun hl ha => .inl ?_⟩
      rw [List.map_nil, List.append_nil, coveredFraction_eq, ← hloose hl ha]
      exact not_lt.1 hq

/-- Fidelity, gains and reported coverage of a run on a context with a cross. -/
theorem wCondition_main {c : Ctx α β} (h : c.WFw) (hx : ∃ g m, c.Inc g m) (p : WParams)
    (ordA : Finset (α × β) → Finset β → SetOrder β) (ordO : SetOrder α) :
    ∃ ys r, algorithm2WCondition c p ordA ordO = some (ys, r) ∧
      (p.Loose → r = .ok ()) ∧
      (∀ (i : ℕ) y, ys[i]? = some y →
        0 < y.2.1 ∧ y.2.2 ≤ 1 ∧
        coveredFraction c.G c.M c.Inc ((ys.take (i + 1)).map rectOf3) ≤ y.2.2 ∧
        (p.allowRepetitions = true → y.2.1 * (crosses c.G c.M c.Inc).card ≤
          newCrosses c.G c.M c.Inc ((ys.take i).map rectOf3) (rectOf3 y)) ∧
        (p.allowRepetitions = false → ∃ m ∈ y.1.intent, ∀ r ∈ (ys.take i).map rectOf3, m ∉ r.2) ∧
        (p.Loose → p.allowRepetitions = true →
          y.2.1 * (crosses c.G c.M c.Inc).card =
            newCrosses c.G c.M c.Inc ((ys.take i).map rectOf3) (rectOf3 y) ∧
          y.2.2 = coveredFraction c.G c.M c.Inc ((ys.take (i + 1)).map rectOf3))) ∧
      (∀ (i : ℕ) y y', ys[i]? = some y → ys[i + 1]? = some y' → y.2.2 < p.fidelity ∧ y.2.2 + y'.2.1 ≤ y'.2.2) ∧
      (p.Loose → p.allowRepetitions = true →
        p.fidelity ≤ coveredFraction c.G c.M c.Inc (ys.map rectOf3) ∨
        ∃ C D, IsConcept c.G c.M c.Inc C D ∧
          ∀ q ∈ uncovered c.G c.M c.Inc (ys.map rectOf3), q.2 ∈ D) := by
  obtain ⟨g, m, hI⟩ := hx
  obtain ⟨ps, hp, -, hmem⟩ := Ctx.mem_pairs h
  have hne : c.objects ≠ [] := List.ne_nil_of_mem hI.mem.1
  have hps : ps.toFinset = crosses c.G c.M c.Inc := by
    ext ⟨o, a⟩
    rw [List.mem_toFinset, hmem, mem_crosses]
  have hn : (crosses c.G c.M c.Inc).card ≠ 0 := by
    rw [Finset.card_ne_zero]; exact ⟨(g, m), (mem_crosses _).2 hI⟩
  have hun : crosses c.G c.M c.Inc = uncovered c.G c.M c.Inc [] := by
    ext q; rw [mem_uncovered, mem_crosses]; simp [InSome]
  unfold algorithm2WCondition
  rw [hp]
  simp only [hps]
  rw [if_neg hn]
  obtain ⟨ys, r, h1, h2, h3, h4, h5⟩ := wLoop_detail h hne p ordA ordO hn ((crosses c.G c.M c.Inc).card + 1)
    (crosses c.G c.M c.Inc) ∅ [] hun.subset (fun _ _ => hun) (fun _ => rfl) (by simp) (by omega)
  refine ⟨ys, r, h1, h2, fun i y hy => ?_, h4, h5⟩
  obtain ⟨a1, a2, a3, -, a5, a6, a7⟩ := h3 i y hy
  exact ⟨a1, a2, a3, a5, a6, a7⟩

/-! ### C104 -/

/-- Every run of `algorithm2_w_condition` on a context with a cross, all parameters and tie-breaks. The gain reported
with a factor is positive; if repetitions are allowed it is at most the number of crosses first covered by the factor.
The reported coverage is at least the fraction covered so far and at most 1; it grows at least by the next gain and
stays below `fidelity` until the last factor. Without repetitions every factor has an attribute that occurs in no
earlier one. -/
theorem C104_reports_partial {c : Ctx α β} (h : c.WFw) (hx : ∃ g m, c.Inc g m) (p : WParams)
    (ordA : Finset (α × β) → Finset β → SetOrder β) (ordO : SetOrder α) {ys : List (Concept α β × ℚ × ℚ)}
    {r : Py Unit} (hr : algorithm2WCondition c p ordA ordO = some (ys, r)) :
    (∀ (i : ℕ) y, ys[i]? = some y →
      0 < y.2.1 ∧ y.2.2 ≤ 1 ∧
      coveredFraction c.G c.M c.Inc ((ys.take (i + 1)).map rectOf3) ≤ y.2.2 ∧
      (p.allowRepetitions = true → y.2.1 * (crosses c.G c.M c.Inc).card ≤
        newCrosses c.G c.M c.Inc ((ys.take i).map rectOf3) (rectOf3 y)) ∧
      (p.allowRepetitions = false → ∃ m ∈ y.1.intent, ∀ z ∈ ys.take i, m ∉ z.1.intent)) ∧
    ∀ (i : ℕ) y y', ys[i]? = some y → ys[i + 1]? = some y' → y.2.2 < p.fidelity ∧ y.2.2 + y'.2.1 ≤ y'.2.2 := by
  obtain ⟨ys', r', h1, -, h3, h4, -⟩ := wCondition_main h hx p ordA ordO
  rw [hr] at h1
  obtain ⟨rfl, rfl⟩ := Prod.mk.injEq .. ▸ Option.some.inj h1
  refine ⟨fun i y hy => ?_, h4⟩
  obtain ⟨a1, a2, a3, a5, a6, -⟩ := h3 i y hy
  refine ⟨a1, a2, a3, a5, fun ha => ?_⟩
  obtain ⟨m, hm, hm'⟩ := a6 ha
  exact ⟨m, hm, fun z hz => hm' _ (List.mem_map_of_mem hz)⟩

/-- With a minimal size of at most 1, no comparison of sizes and repetitions allowed all numbers are exact. -/
theorem C104_exact_partial {c : Ctx α β} (h : c.WFw) (hx : ∃ g m, c.Inc g m) (p : WParams)
    (hm : p.minSize ≤ 1) (hge : p.objsGeAtts = false) (ha : p.allowRepetitions = true)
    (ordA : Finset (α × β) → Finset β → SetOrder β) (ordO : SetOrder α) :
    ∃ ys, algorithm2WCondition c p ordA ordO = some (ys, .ok ()) ∧ ∀ (i : ℕ) y, ys[i]? = some y →
      y.2.1 * (crosses c.G c.M c.Inc).card = newCrosses c.G c.M c.Inc ((ys.take i).map rectOf3) (rectOf3 y) ∧
      y.2.2 = coveredFraction c.G c.M c.Inc ((ys.take (i + 1)).map rectOf3) := by
  obtain ⟨ys, r, h1, h2, h3, -, -⟩ := wCondition_main h hx p ordA ordO
  rw [h2 ⟨hm, hge⟩] at h1
  exact ⟨ys, h1, fun i y hy => (h3 i y hy).2.2.2.2.2 ⟨hm, hge⟩ ha⟩

/-- With a minimal size of at most 1 and no comparison of sizes no exception is raised. -/
theorem C104_no_exception_partial {c : Ctx α β} (h : c.WFw) (p : WParams) (hm : p.minSize ≤ 1)
    (hge : p.objsGeAtts = false) (ordA : Finset (α × β) → Finset β → SetOrder β) (ordO : SetOrder α) :
    ∃ ys, algorithm2WCondition c p ordA ordO = some (ys, .ok ()) := by
  by_cases hx : ∃ g m, c.Inc g m
  · obtain ⟨ys, r, h1, h2, -⟩ := wCondition_main h hx p ordA ordO
    rw [h2 ⟨hm, hge⟩] at h1
    exact ⟨ys, h1⟩
  · obtain ⟨ps, hp, -, hmem⟩ := Ctx.mem_pairs h
    unfold algorithm2WCondition
    rw [hp]
    have : ps.toFinset = ∅ := by
      rw [Finset.eq_empty_iff_forall_notMem]
      rintro ⟨g, m⟩ hq
      exact hx ⟨g, m, (hmem g m).1 (by simpa using hq)⟩
    simp only [this, Finset.card_empty, if_true]
    exact ⟨[], rfl⟩

/-! ### C72, positive part -/

/-- With a minimal size of at most 1, no comparison of sizes and repetitions allowed: a run ends normally, with the
requested fraction covered or with all uncovered crosses in the columns of one concept. Missing: the other
parameters, and coverage of those crosses, which fail. -/
theorem C72_condition_fidelity_partial {c : Ctx α β} (h : c.WFw) (hx : ∃ g m, c.Inc g m) (p : WParams)
    (hm : p.minSize ≤ 1) (hge : p.objsGeAtts = false) (ha : p.allowRepetitions = true)
    (ordA : Finset (α × β) → Finset β → SetOrder β) (ordO : SetOrder α) :
    ∃ ys, algorithm2WCondition c p ordA ordO = some (ys, .ok ()) ∧
      (p.fidelity ≤ coveredFraction c.G c.M c.Inc (ys.map rectOf3) ∨
        ∃ C D, IsConcept c.G c.M c.Inc C D ∧ ∀ q ∈ uncovered c.G c.M c.Inc (ys.map rectOf3), q.2 ∈ D) := by
  obtain ⟨ys, r, h1, h2, -, -, h5⟩ := wCondition_main h hx p ordA ordO
  rw [h2 ⟨hm, hge⟩] at h1
  exact ⟨ys, h1, h5 ⟨hm, hge⟩ ha⟩

/-! ### C104 fails in general -/

/-- Two objects with the attributes 0, 1, 2 and objects with one of the attributes 0, 1, 3. -/
def cxtStuck : Ctx (Fin 5) (Fin 4) :=
  ⟨[0, 1, 2, 3, 4], [0, 1, 2, 3], ⟨some 4, [[true, true, true, false], [true, true, true, false],
    [true, false, false, false], [false, true, false, false], [false, false, false, true]]⟩⟩

/-- C104 fails: after the first factor `algorithm2_w_condition` with minimal size 2 raises its 'Algorithm stuck'
exception. -/
theorem C104_stuck_violated :
    algorithm2WCondition cxtStuck ⟨1, true, 2, false⟩ (fun _ _ => SetOrder.fin 4) (SetOrder.fin 5) =
      some ([(⟨{0, 1}, {0, 1, 2}⟩, 2 / 3, 2 / 3)], .error .genericException) := by
  decide +kernel

/-- An object with five attributes of its own beside a rectangle. -/
def cxtGiveUp : Ctx (Fin 3) (Fin 7) :=
  ⟨[0, 1, 2], [0, 1, 2, 3, 4, 5, 6], ⟨some 7, [[true, true, false, false, false, false, false],
    [true, true, false, false, false, false, false], [false, false, true, true, true, true, true]]⟩⟩

/-- C104 fails: with minimal size 2 the reported coverage counts a cross of an attribute that was given up: 5/9
reported, 4/9 covered. -/
theorem C104_coverage_violated :
    ∃ r, algorithm2WCondition cxtGiveUp ⟨1 / 2, true, 2, false⟩ (fun _ _ => SetOrder.fin 7) (SetOrder.fin 3) =
        some ([(⟨{0, 1}, {0, 1}⟩, 4 / 9, 5 / 9)], r) ∧
      coveredFraction cxtGiveUp.G cxtGiveUp.M cxtGiveUp.Inc [({0, 1}, {0, 1})] = 4 / 9 := by
  have hw : cxtGiveUp.WFw := by constructor <;> decide +kernel
  refine ⟨.ok (), by decide +kernel, ?_⟩
  obtain ⟨ps, hp, -, hmem⟩ := Ctx.mem_pairs hw
  have hps : ps = [(0, 0), (0, 1), (1, 0), (1, 1), (2, 2), (2, 3), (2, 4), (2, 5), (2, 6)] := by
    have : cxtGiveUp.pairs = .ok [(0, 0), (0, 1), (1, 0), (1, 1), (2, 2), (2, 3), (2, 4), (2, 5), (2, 6)] := by
      decide +kernel
    rw [this] at hp
    exact (Except.ok.inj hp).symm
  have hc : crosses cxtGiveUp.G cxtGiveUp.M cxtGiveUp.Inc = ps.toFinset := by
    ext ⟨o, a⟩
    rw [List.mem_toFinset, hmem, mem_crosses]
  have hf : ∀ d : DecidablePred (InSome [(({0, 1} : Finset (Fin 3)), ({0, 1} : Finset (Fin 7)))]),
      (@Finset.filter _ (InSome [({0, 1}, {0, 1})]) d ps.toFinset) =
        [((0 : Fin 3), (0 : Fin 7)), (0, 1), (1, 0), (1, 1)].toFinset := by
    intro d
    ext q
    rw [Finset.mem_filter, inSome_single, hps]
    revert q
    decide +kernel
  unfold coveredFraction
  rw [hc, hf, hps]
  decide +kernel

/-! ### Concrete cases -/

/-- C72_condition_fidelity_partial and C104_exact_partial are met. -/
example : ∃ ys, algorithm2WCondition cxtF ⟨1, true, 1, false⟩ (fun _ _ => SetOrder.fin 3) (SetOrder.fin 3) =
    some (ys, .ok ()) ∧ ∀ (i : ℕ) y, ys[i]? = some y →
      y.2.1 * (crosses cxtF.G cxtF.M cxtF.Inc).card =
        newCrosses cxtF.G cxtF.M cxtF.Inc ((ys.take i).map rectOf3) (rectOf3 y) ∧
      y.2.2 = coveredFraction cxtF.G cxtF.M cxtF.Inc ((ys.take (i + 1)).map rectOf3) :=
  C104_exact_partial cxtF_wf cxtF_cross ⟨1, true, 1, false⟩ (by decide) rfl rfl _ _

/-- C104_reports_partial without repetitions. -/
example : algorithm2WCondition cxtStuck ⟨1, false, 1, false⟩ (fun _ _ => SetOrder.fin 4) (SetOrder.fin 5) =
    some ([(⟨{0, 1}, {0, 1, 2}⟩, 8 / 9, 8 / 9)], .ok ()) := by
  decide +kernel
