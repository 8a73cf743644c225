/-
Property C50, continued: what `algorithm2_weighted` yields when names of objects and attributes overlap.
-/
import Verif.Props.Factors

set_option linter.unusedSectionVars false

open Spec

variable {ν : Type} [DecidableEq ν]

/-- The score of fca/algorithms/factors.py:132-136, said about the crosses `s`: the number of their objects
times the number of their attributes, relative to the size of the table. -/
def tableShare (c : Ctx ν ν) (s : Finset (ν × ν)) : ℚ :=
  ((s.image Prod.fst).card * (s.image Prod.snd).card : ℚ) / (c.objects.length * c.attributes.length)

/-- `q` is the share of the crosses of `U` in the rectangle of a set `E` of objects that all have the attribute
`j` of `B`, and of the attributes common to `E`. -/
def ScoredBy (c : Ctx ν ν) (U : Finset (ν × ν)) (B : Finset ν) (q : ℚ) : Prop :=
  ∃ j ∈ B, ∃ E : Finset ν, E ⊆ c.G ∧ (∀ g ∈ E, c.Inc g j) ∧ ∃ s : Finset (ν × ν),
    (∀ p, p ∈ s ↔ p ∈ U ∧ p.1 ∈ E ∧ p.2 ∈ c.M ∧ ∀ g ∈ E, c.Inc g p.2) ∧ q = tableShare c s ∧ 0 < q

theorem weightedInner_ok {c : Ctx ν ν} (h : c.WFw) (hne : c.objects ≠ []) (hna : c.attributes ≠ [])
    (ordA : Finset ν → SetOrder ν) (ordO : SetOrder ν) (U : Finset (ν × ν)) (fuel : ℕ) (D : Finset ν) (V : ℚ)
    (C : Finset ν) (rem : Finset (ν × ν)) (js : ℚ) (hD : D ⊆ c.attributes.toFinset) (hV : 0 ≤ V)
    (hg : rem = ∅ ∨ (IsConcept c.G c.M c.Inc C D ∧ rem = (C ×ˢ D) ∩ U ∧ ScoredBy c U D js))
    (hf : (c.attributes.toFinset \ D).card < fuel) :
    weightedInner c ordA ordO U fuel D V C rem js = some (.error .keyError) ∨
    ∃ C' D' rem' js', weightedInner c ordA ordO U fuel D V C rem js = some (.ok (C', D', rem', js')) ∧
      (rem' = ∅ ∨ (IsConcept c.G c.M c.Inc C' D' ∧ rem' = (C' ×ˢ D') ∩ U ∧ ScoredBy c U D' js')) := by
  induction fuel generalizing D V C rem js with
  | zero => omega
  | succ fuel ih =>
    unfold weightedInner
    by_cases hDo : D ⊆ c.objects.toFinset
    swap
    · left
      obtain ⟨x, hx, hxo⟩ := Finset.not_subset.1 hDo
      rw [Ctx.oprime_err ⟨x, ((ordA D).mem _ _).2 hx, by simpa using hxo⟩]
      rfl
    rw [h.enum_oprime _ hDo, py_ok_bind]
    set S : ν → Finset (ν × ν) := fun j =>
      ((c.upF D ∩ c.downF {j}) ×ˢ c.upF (c.upF D ∩ c.downF {j})) ∩ U with hS
    rw [mapM_ok (g := fun j => (tableShare c (S j), j))]
    swap
    · intro j hj
      have hj' : j ∈ c.attributes := by
        have := ((ordA D).mem _ _).1 hj
        simpa using (Finset.mem_sdiff.1 this).1
      unfold oplus
      rw [h.attributeExtent (h.cols hne) hj', py_ok_bind]
      simp only
      rw [h.enum_oprime ordO (Finset.inter_subset_right.trans (c.downF_subset _))]
      simp only [py_ok_bind]
      unfold wScore pyDiv
      rw [if_neg]
      · simp only [py_ok_bind, tableShare, hS]; push_cast; rfl
      · have h1 : c.objects.length ≠ 0 := by simpa using hne
        have h2 : c.attributes.length ≠ 0 := by simpa using hna
        exact mul_ne_zero (by exact_mod_cast h1) (by exact_mod_cast h2)
    rw [py_ok_bind]
    cases hm : pyMaxKey (((ordA D).enum (c.attributes.toFinset \ D)).map fun j => (tableShare c (S j), j)) with
    | none => exact .inr ⟨C, D, rem, js, rfl, hg⟩
    | some x =>
      have hx := (pyMaxKey_some hm).1
      rw [List.mem_map] at hx
      obtain ⟨j, hj, rfl⟩ := hx
      have hj' := ((ordA D).mem _ _).1 hj
      have hjM : j ∈ c.attributes.toFinset := (Finset.mem_sdiff.1 hj').1
      have hB : insert j D ⊆ c.attributes.toFinset := Finset.insert_subset hjM hD
      simp only
      by_cases hlt : V < tableShare c (S j)
      · rw [if_pos hlt, alg2Next_ok h hne (ordA D) ordO hB]
        simp only
        have hsub : insert j D ⊆ c.upF (c.downF (insert j D)) := h.aclF_ext hB
        apply ih
        · exact c.upF_subset _
        · positivity
        · refine .inr ⟨isConcept_gen h hB, rfl, j, hsub (by simp), c.upF D ∩ c.downF {j}, ?_, ?_, S j, ?_, rfl,
            hV.trans_lt hlt⟩
          · exact Finset.inter_subset_right.trans (c.downF_subset _)
          · intro g hg
            exact (h.mem_downF.1 (Finset.mem_inter.1 hg).2).2 j (by simp)
          · intro p
            simp only [hS, Finset.mem_inter, Finset.mem_product, h.mem_upF (A := c.upF D ∩ c.downF {j}),
              Ctx.M, List.mem_toFinset]
            tauto
        · have hlt : (c.attributes.toFinset \ c.upF (c.downF (insert j D))).card <
              (c.attributes.toFinset \ D).card := by
            apply Finset.card_lt_card
            rw [Finset.ssubset_iff_of_subset]
            · refine ⟨j, hj', ?_⟩
              rw [Finset.mem_sdiff, not_and, not_not]
              exact fun _ => hsub (by simp)
            · exact Finset.sdiff_subset_sdiff (subset_refl _) ((Finset.subset_insert _ _).trans hsub)
          omega
      · rw [if_neg hlt]
        exact .inr ⟨C, D, rem, js, rfl, hg⟩

theorem weightedLoop_ok {c : Ctx ν ν} (h : c.WFw) (hne : c.objects ≠ []) (hna : c.attributes ≠ [])
    (ordA : Finset (ν × ν) → Finset ν → SetOrder ν) (ordO : SetOrder ν) (fid : ℚ)
    (hn : (crosses c.G c.M c.Inc).card ≠ 0) (fuel : ℕ) (pre : List (Finset ν × Finset ν))
    (hf : (uncovered c.G c.M c.Inc pre).card < fuel) :
    ∃ ys r, weightedLoop c ordA ordO fid (crosses c.G c.M c.Inc).card fuel (uncovered c.G c.M c.Inc pre) =
        some (ys, r) ∧
      (∀ (i : ℕ) y, ys[i]? = some y →
        IsConcept c.G c.M c.Inc y.1.extent y.1.intent ∧
        0 < newCrosses c.G c.M c.Inc (pre ++ (ys.take i).map rectOf) (rectOf y) ∧
        coveredFraction c.G c.M c.Inc (pre ++ (ys.take i).map rectOf) < fid ∧
        ScoredBy c (uncovered c.G c.M c.Inc (pre ++ (ys.take i).map rectOf)) y.1.intent y.2) ∧
      (r = .ok () ∧ fid ≤ coveredFraction c.G c.M c.Inc (pre ++ ys.map rectOf) ∨
        (r = .error .assertionError ∨ r = .error .keyError) ∧
          coveredFraction c.G c.M c.Inc (pre ++ ys.map rectOf) < fid) := by
  set n := (crosses c.G c.M c.Inc).card with hndef
  induction fuel generalizing pre with
  | zero => omega
  | succ fuel ih =>
    set U := uncovered c.G c.M c.Inc pre with hU
    have hcf : coveredFraction c.G c.M c.Inc pre = ((n : ℚ) - U.card) / n := coveredFraction_eq pre
    have hdiv : pyDiv ((n : ℤ) - U.card) n = .ok (((n : ℚ) - U.card) / n) := by
      unfold pyDiv
      rw [if_neg (by exact_mod_cast hn)]
      push_cast; rfl
    unfold weightedLoop
    rw [hdiv]
    simp only
    by_cases hq : ((n : ℚ) - U.card) / n < fid
    swap
    · rw [if_neg hq]
      exact ⟨[], _, rfl, by simp, .inl ⟨rfl, by simpa [hcf] using hq⟩⟩
    rw [if_pos hq]
    have hq' : coveredFraction c.G c.M c.Inc pre < fid := by rw [hcf]; exact hq
    rcases weightedInner_ok h hne hna (ordA U) ordO U (c.attributes.length + 2) ∅ 0 ∅ ∅ 0 (by simp) le_rfl
        (.inl rfl) (by
          have := List.toFinset_card_le c.attributes
          simp only [Finset.sdiff_empty]; omega) with hin | ⟨C, D, rem, js, hin, hgood⟩
    · rw [hin]
      exact ⟨[], _, rfl, by simp, .inr ⟨.inr rfl, by simpa using hq'⟩⟩
    rw [hin]
    simp only
    by_cases hr : rem.card = 0
    · rw [if_pos hr]
      exact ⟨[], _, rfl, by simp, .inr ⟨.inl rfl, by simpa using hq'⟩⟩
    rw [if_neg hr]
    obtain ⟨hcon, hrem, hsc⟩ := hgood.resolve_left (fun h0 => hr (by rw [h0]; rfl))
    obtain ⟨s1, s2⟩ := uncovered_step (c := c) pre C D
    rw [← hU] at s1 s2
    rw [← hrem] at s1 s2
    have hsub : rem ⊆ U := by rw [hrem]; exact Finset.inter_subset_right
    obtain ⟨ys, r, e1, e2, e3⟩ := ih (pre ++ [(C, D)]) (by
      rw [← s2, Finset.card_sdiff_of_subset hsub]
      have := Finset.card_le_card hsub
      omega)
    rw [s2, e1]
    refine ⟨(⟨C, D⟩, js) :: ys, r, rfl, ?_, ?_⟩
    · intro i y hy
      cases i with
      | zero =>
        simp only [List.getElem?_cons_zero, Option.some.injEq] at hy
        subst hy
        simp only [List.take_zero, List.map_nil, List.append_nil, rectOf]
        rw [← s1]
        exact ⟨hcon, Nat.pos_of_ne_zero hr, hq', hsc⟩
      | succ i =>
        simp only [List.getElem?_cons_succ] at hy
        have := e2 i y hy
        simpa [rectOf, List.append_assoc] using this
    · simpa [rectOf, List.append_assoc] using e3

/-- Whatever the names are, also when objects and attributes share some: on a context with a cross
`algorithm2_weighted` ends. Each value is a formal concept that has a cross no earlier one has, the
request was not met before it, and its number is the share of the table taken by the crosses left in
the rectangle of some objects that have one attribute of its intent. The generator ends normally exactly
when the request is met, otherwise by AssertionError or by the KeyError for an attribute name used as
an object. -/
theorem C50_yields_partial {c : Ctx ν ν} (h : c.WFw) (hx : ∃ g m, c.Inc g m)
    (ordA : Finset (ν × ν) → Finset ν → SetOrder ν) (ordO : SetOrder ν) (fid : ℚ) :
    ∃ ys r, algorithm2Weighted c ordA ordO fid = some (ys, r) ∧
      (∀ (i : ℕ) y, ys[i]? = some y →
        IsConcept c.G c.M c.Inc y.1.extent y.1.intent ∧
        0 < newCrosses c.G c.M c.Inc ((ys.take i).map rectOf) (rectOf y) ∧
        coveredFraction c.G c.M c.Inc ((ys.take i).map rectOf) < fid ∧
        ScoredBy c (uncovered c.G c.M c.Inc ((ys.take i).map rectOf)) y.1.intent y.2) ∧
      (r = .ok () ∧ fid ≤ coveredFraction c.G c.M c.Inc (ys.map rectOf) ∨
        (r = .error .assertionError ∨ r = .error .keyError) ∧
          coveredFraction c.G c.M c.Inc (ys.map rectOf) < fid) := by
  obtain ⟨g, m, hI⟩ := hx
  have hne : c.objects ≠ [] := List.ne_nil_of_mem hI.mem.1
  have hna : c.attributes ≠ [] := List.ne_nil_of_mem hI.mem.2
  obtain ⟨ps, hp, -, hmem⟩ := Ctx.mem_pairs h
  have hU : ps.toFinset = uncovered c.G c.M c.Inc [] := by
    ext ⟨o, a⟩
    rw [List.mem_toFinset, hmem, mem_uncovered]
    simp [InSome]
  have hU' : uncovered c.G c.M c.Inc [] = crosses c.G c.M c.Inc := by
    ext p
    rw [mem_uncovered, mem_crosses]; simp [InSome]
  have hn : (crosses c.G c.M c.Inc).card ≠ 0 := by
    rw [Finset.card_ne_zero]; exact ⟨(g, m), (mem_crosses _).2 hI⟩
  obtain ⟨ys, r, e1, e2, e3⟩ := weightedLoop_ok h hne hna ordA ordO fid hn
    ((crosses c.G c.M c.Inc).card + 1) [] (by rw [hU']; omega)
  refine ⟨ys, r, ?_, by simpa using e2, by simpa using e3⟩
  unfold algorithm2Weighted
  rw [hp]
  simp only
  rw [hU]
  conv_lhs => rw [show (uncovered c.G c.M c.Inc []).card = (crosses c.G c.M c.Inc).card by rw [hU']]
  exact e1

/-! ### Concrete cases -/

/-- A relation on one set: the same names for objects and attributes. -/
def cxtO : Ctx (Fin 2) (Fin 2) := ⟨[0, 1], [0, 1], ⟨some 2, [[true, true], [false, true]]⟩⟩

theorem cxtO_wf : cxtO.WFw := by constructor <;> decide +kernel

/-- Here values are yielded. -/
example : algorithm2Weighted cxtO (fun _ _ => SetOrder.fin 2) (SetOrder.fin 2) (1 / 2) =
    some ([(⟨{0}, {0, 1}⟩, 1 / 2)], .ok ()) := by decide +kernel

example : ∃ ys r, algorithm2Weighted cxtO (fun _ _ => SetOrder.fin 2) (SetOrder.fin 2) 1 = some (ys, r) ∧
    (r = .ok () ∧ 1 ≤ coveredFraction cxtO.G cxtO.M cxtO.Inc (ys.map rectOf) ∨
        (r = .error .assertionError ∨ r = .error .keyError) ∧
          coveredFraction cxtO.G cxtO.M cxtO.Inc (ys.map rectOf) < 1) :=
  let ⟨ys, r, e1, _, e3⟩ := C50_yields_partial cxtO_wf ⟨0, 1, 0, 1, _, rfl, rfl, rfl, rfl⟩
    (fun _ _ => SetOrder.fin 2) (SetOrder.fin 2) 1
  ⟨ys, r, e1, e3⟩
