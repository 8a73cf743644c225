/-
Property C161: indices of concepts computed with rounded quotients, and filtering by them.
-/
import Verif.Props.Rounding

set_option linter.unusedSectionVars false

variable {α β : Type} [DecidableEq α] [DecidableEq β]

open Spec

/-! ### Stability -/

/-- A dict with all values rounded. -/
def rndDict (R : Rounding) (st : Concept α β → Option ℚ) (x : Concept α β) : Option ℚ := (st x).map R.rnd

theorem stabLoopF_eq (R : Rounding) (below : Concept α β → Concept α β → Bool) (size : Concept α β → ℕ)
    (ord : ℕ → SetOrder (Concept α β)) (fuel : ℕ) (rem : List (Concept α β)) (cnt sub : Concept α β → ℤ)
    (work : Finset (Concept α β)) (stab : Concept α β → Option ℚ) :
    stabLoopF R below size ord fuel rem cnt sub work (rndDict R stab) =
      (stabLoop below size ord fuel rem cnt sub work stab).map fun r => r.map (rndDict R) := by
  induction fuel generalizing rem cnt sub work stab with
  | zero => rfl
  | succ fuel ih =>
    unfold stabLoop stabLoopF
    by_cases hr : rem = []
    · rw [if_pos hr, if_pos hr]; rfl
    · rw [if_neg hr, if_neg hr]
      cases (ord fuel).enum work with
      | nil => rfl
      | cons b _ =>
        simp only
        by_cases hb : b ∈ rem
        · rw [if_pos hb, if_pos hb, ← ih]
          congr 1
          funext x
          unfold rndDict
          by_cases hx : x = b
          · subst hx; simp
          · simp [Function.update_of_ne hx]
        · rw [if_neg hb, if_neg hb]; rfl

theorem istabilityF_eq (R : Rounding) (ord : ℕ → SetOrder (Concept α β)) (cs : List (Concept α β)) :
    istabilityF R ord cs = (istability ord cs).map fun r => r.map (rndDict R) := by
  unfold istabilityF istability
  cases csBottom cs with
  | error e => rfl
  | ok b => exact stabLoopF_eq R _ _ ord _ _ _ _ _ (fun _ => none)

theorem estabilityF_eq (R : Rounding) (ord : ℕ → SetOrder (Concept α β)) (cs : List (Concept α β)) :
    estabilityF R ord cs = (estability ord cs).map fun r => r.map (rndDict R) := by
  unfold estabilityF estability
  cases csTop cs with
  | error e => rfl
  | ok b => exact stabLoopF_eq R _ _ ord _ _ _ _ _ (fun _ => none)

theorem generatingSubsets_bound {γ δ : Type} (M : Finset δ) (I : γ → δ → Prop) (A : Finset γ) (B : Finset δ) :
    generatingSubsets M I A B ≤ 2 ^ A.card := by
  classical
  unfold generatingSubsets
  rw [← Finset.card_powerset]
  exact Finset.card_filter_le _ _

/-- A stability over at most 53 elements is a double. -/
theorem rnd_stability (R : Rounding) {N k : ℕ} (h : N ≤ 2 ^ k) (hk : k ≤ 53) :
    R.rnd ((N : ℚ) / 2 ^ k) = (N : ℚ) / 2 ^ k := by
  have hN : N ≤ 2 ^ 53 := h.trans (Nat.pow_le_pow_right (by norm_num) hk)
  have := R.rnd_dyadic N k (by rw [abs_of_nonneg (by positivity)]; exact_mod_cast hN) (by omega)
  push_cast at this
  exact this

/-- `compute_istability` on a lattice gives every concept its intensional stability, rounded once; for concepts with at
most 53 objects it is exact. -/
theorem C161_istability (R : Rounding) {c : Ctx α β} (h : c.WFw) (ord : ℕ → SetOrder (Concept α β)) :
    ∃ L st, makeLattice c = .ok L ∧ istabilityF R ord L.concepts = some (.ok st) ∧
      (∀ x ∈ L.concepts, st x = some (R.rnd (intensionalStability c.M c.Inc x.extent x.intent))) ∧
      (∀ x ∈ L.concepts, x.extent.card ≤ 53 → st x = some (intensionalStability c.M c.Inc x.extent x.intent)) ∧
      ∀ x, x ∉ L.concepts → st x = none := by
  obtain ⟨L, st, h1, h2, h3, h4⟩ := C41_istability h ord
  refine ⟨L, rndDict R st, h1, by rw [istabilityF_eq, h2]; rfl, fun x hx => by rw [rndDict, h3 x hx]; rfl,
    fun x hx hc => ?_, fun x hx => by rw [rndDict, h4 x hx]; rfl⟩
  rw [rndDict, h3 x hx]
  exact congrArg some (rnd_stability R (generatingSubsets_bound _ _ _ _) hc)

/-- The same for `compute_estability` and concepts with at most 53 attributes. -/
theorem C161_estability (R : Rounding) {c : Ctx α β} (h : c.WFw) (ord : ℕ → SetOrder (Concept α β)) :
    ∃ L st, makeLattice c = .ok L ∧ estabilityF R ord L.concepts = some (.ok st) ∧
      (∀ x ∈ L.concepts, st x = some (R.rnd (extensionalStability c.G c.Inc x.extent x.intent))) ∧
      (∀ x ∈ L.concepts, x.intent.card ≤ 53 → st x = some (extensionalStability c.G c.Inc x.extent x.intent)) ∧
      ∀ x, x ∉ L.concepts → st x = none := by
  obtain ⟨L, st, h1, h2, h3, h4⟩ := C42_estability h ord
  refine ⟨L, rndDict R st, h1, by rw [estabilityF_eq, h2]; rfl, fun x hx => by rw [rndDict, h3 x hx]; rfl,
    fun x hx hc => ?_, fun x hx => by rw [rndDict, h4 x hx]; rfl⟩
  rw [rndDict, h3 x hx]
  exact congrArg some (rnd_stability R (generatingSubsets_bound _ _ _ _) hc)

/-! ### The other indices -/

/-- An item with its value rounded. -/
def rndItem (R : Rounding) (it : Concept α β × ℚ) : Concept α β × ℚ := (it.1, R.rnd it.2)

theorem pyDivF_eq (R : Rounding) (a b : ℤ) : pyDivF R a b = (pyDiv a b).map R.rnd := by
  unfold pyDivF pyDiv
  split <;> rfl

theorem indexF_eq (R : Rounding) (f g : Concept α β → Py ℚ) (h : ∀ x, g x = (f x).map R.rnd)
    (cs : List (Concept α β)) :
    (cs.mapM fun x => do
      let q ← g x
      .ok (x, q) : Py (List (Concept α β × ℚ))) =
    (cs.mapM fun x => do
      let q ← f x
      .ok (x, q) : Py (List (Concept α β × ℚ))).map (List.map (rndItem R)) := by
  induction cs with
  | nil => rfl
  | cons x cs ih =>
    rw [List.mapM_cons, List.mapM_cons, h, ih]
    cases f x with
    | error e => rfl
    | ok q =>
      cases (cs.mapM fun x => do
        let q ← f x
        .ok (x, q) : Py (List (Concept α β × ℚ))) <;> rfl

theorem separationF_eq (R : Rounding) (c : Ctx α β) (ordO : SetOrder α) (ordA : SetOrder β) (cs : List (Concept α β)) :
    separationF R c ordO ordA cs = (separation c ordO ordA cs).map (List.map (rndItem R)) := by
  refine indexF_eq R _ _ (fun x => ?_) cs
  unfold separationOfF separationOf
  simp only
  cases (ordA.enum x.intent).mapM c.attributeExtent with
  | error e => rfl
  | ok ea =>
    cases (ordO.enum x.extent).mapM c.objectIntent with
    | error e => rfl
    | ok eo =>
      simp only [py_ok_bind]
      split
      · exact congrArg Except.ok R.rnd_one.symm
      · exact pyDivF_eq R _ _

theorem extentSizeF_eq (R : Rounding) (c : Ctx α β) (cs : List (Concept α β)) :
    extentSizeF R c cs = (extentSize c cs).map (List.map (rndItem R)) :=
  indexF_eq R _ _ (fun _ => pyDivF_eq R _ _) cs

theorem intentSizeF_eq (R : Rounding) (c : Ctx α β) (cs : List (Concept α β)) :
    intentSizeF R c cs = (intentSize c cs).map (List.map (rndItem R)) :=
  indexF_eq R _ _ (fun _ => pyDivF_eq R _ _) cs

theorem map_rndItem_fst (R : Rounding) (items : List (Concept α β × ℚ)) :
    (items.map (rndItem R)).map Prod.fst = items.map Prod.fst := by
  rw [List.map_map]; rfl

theorem mem_rndItem {R : Rounding} {items : List (Concept α β × ℚ)} {x : Concept α β} {q : ℚ} :
    (x, q) ∈ items.map (rndItem R) ↔ ∃ q₀, (x, q₀) ∈ items ∧ q = R.rnd q₀ := by
  rw [List.mem_map]
  constructor
  · rintro ⟨⟨y, q₀⟩, hy, he⟩
    simp only [rndItem, Prod.mk.injEq] at he
    obtain ⟨rfl, rfl⟩ := he
    exact ⟨q₀, hy, rfl⟩
  · rintro ⟨q₀, hq, rfl⟩
    exact ⟨(x, q₀), hq, rfl⟩

theorem div_ge_tiny {a n : ℕ} (ha : 0 < a) (hn : 0 < n) (h : n ≤ 2 ^ 64) : (2 : ℚ) ^ (-1074 : ℤ) ≤ (a : ℚ) / n := by
  have hn0 : (0 : ℚ) < n := by exact_mod_cast hn
  have h1 : (1 : ℚ) ≤ a := by exact_mod_cast ha
  have h2 : (n : ℚ) ≤ 2 ^ (64 : ℤ) := by
    rw [show (64 : ℤ) = ((64 : ℕ) : ℤ) from rfl, zpow_natCast]; exact_mod_cast h
  rw [le_div_iff₀ hn0]
  calc (2 : ℚ) ^ (-1074 : ℤ) * n ≤ 2 ^ (-1074 : ℤ) * 2 ^ (64 : ℤ) := by gcongr
    _ = 2 ^ (-1010 : ℤ) := by rw [← zpow_add₀ (by norm_num)]; rfl
    _ ≤ 2 ^ (0 : ℤ) := zpow_le_zpow_right₀ (by norm_num) (by norm_num)
    _ ≤ a := by simpa using h1

/-- `compute_separation_index` on a lattice (of a context with objects, or without attributes) gives every concept the
exact index rounded once. It is positive, at most 1, and 1 only for the concepts whose exact index is 1, if at most
`2 ^ 53` crosses lie in the rows and columns of the concept. -/
theorem C161_separation (R : Rounding) {c : Ctx α β} (h : c.WFw) (hne : c.objects ≠ [] ∨ c.attributes = [])
    (ordO : SetOrder α) (ordA : SetOrder β) :
    ∃ L items, makeLattice c = .ok L ∧ separationF R c ordO ordA L.concepts = .ok items ∧
      items.map Prod.fst = L.concepts ∧
      ∀ x q, (x, q) ∈ items →
        ((x.extent = ∅ ∨ x.intent = ∅) → q = 1) ∧
        (x.extent ≠ ∅ → x.intent ≠ ∅ →
          q = R.rnd (((x.extent.card * x.intent.card : ℕ) : ℚ) / crossesTouching c.G c.M c.Inc x.extent x.intent) ∧
          (crossesTouching c.G c.M c.Inc x.extent x.intent ≤ 2 ^ 53 →
            0 < q ∧ q ≤ 1 ∧
            (q = 1 ↔ x.extent.card * x.intent.card = crossesTouching c.G c.M c.Inc x.extent x.intent))) := by
  obtain ⟨L, items, h1, h2, h3, h4⟩ := C43_separation_partial h hne ordO ordA
  refine ⟨L, items.map (rndItem R), h1, by rw [separationF_eq, h2]; rfl, by rw [map_rndItem_fst, h3], ?_⟩
  intro x q hq
  obtain ⟨q₀, hq₀, rfl⟩ := mem_rndItem.1 hq
  obtain ⟨e1, e2, e3⟩ := h4 x q₀ hq₀
  refine ⟨fun he => by rw [e1, if_pos he, R.rnd_one], fun hx hi => ?_⟩
  rw [if_neg (by tauto)] at e1
  refine ⟨by rw [e1], fun hb => ?_⟩
  have hxL : x ∈ L.concepts := by rw [← h3]; exact List.mem_map.2 ⟨_, hq₀, rfl⟩
  obtain ⟨L', h1', -, -, -, hcon, -⟩ := makeLattice_ok h
  rw [h1] at h1'; cases h1'
  have hle := square_le_crosses x ((hcon x).1 hxL)
  have hsq : 0 < x.extent.card * x.intent.card :=
    Nat.mul_pos (Finset.card_pos.2 (Finset.nonempty_iff_ne_empty.2 hx))
      (Finset.card_pos.2 (Finset.nonempty_iff_ne_empty.2 hi))
  refine ⟨R.rnd_pos ?_, R.rnd_le_one e3, ?_⟩
  · rw [e1]
    exact div_ge_tiny hsq (by omega) (hb.trans (by norm_num))
  · constructor
    · intro h1
      by_contra hc
      have := R.rnd_lt_one (lt_of_le_of_ne hle hc) hb
      rw [← e1] at this
      linarith
    · intro he
      rw [e1, he, div_self (by exact_mod_cast (by omega : crossesTouching c.G c.M c.Inc x.extent x.intent ≠ 0)),
        R.rnd_one]

/-- `compute_extent_size` and `compute_intent_size` on a lattice: ZeroDivisionError exactly without objects / attributes;
otherwise every concept gets the relative size of its extent / intent rounded once, between 0 and 1. With at most `2 ^ 51`
objects / attributes the rounded sizes are in the order of the sizes, without new ties, and 1 only for all objects /
attributes. -/
theorem C161_sizes (R : Rounding) {c : Ctx α β} (h : c.WFw) :
    ∃ L, makeLattice c = .ok L ∧
      (c.objects = [] → extentSizeF R c L.concepts = .error .zeroDivisionError) ∧
      (c.attributes = [] → intentSizeF R c L.concepts = .error .zeroDivisionError) ∧
      (c.objects ≠ [] → ∃ items, extentSizeF R c L.concepts = .ok items ∧ items.map Prod.fst = L.concepts ∧
        (∀ x q, (x, q) ∈ items → q = R.rnd ((x.extent.card : ℚ) / c.G.card) ∧ 0 ≤ q ∧ q ≤ 1) ∧
        (c.G.card ≤ 2 ^ 51 → ∀ x q y r, (x, q) ∈ items → (y, r) ∈ items →
          (q < r ↔ x.extent.card < y.extent.card))) ∧
      (c.attributes ≠ [] → ∃ items, intentSizeF R c L.concepts = .ok items ∧ items.map Prod.fst = L.concepts ∧
        (∀ x q, (x, q) ∈ items → q = R.rnd ((x.intent.card : ℚ) / c.M.card) ∧ 0 ≤ q ∧ q ≤ 1) ∧
        (c.M.card ≤ 2 ^ 51 → ∀ x q y r, (x, q) ∈ items → (y, r) ∈ items →
          (q < r ↔ x.intent.card < y.intent.card))) := by
  obtain ⟨L, h1, h2, h3, h4, h5⟩ := C44_sizes h
  obtain ⟨L', h1', -, -, -, hcon, -⟩ := makeLattice_ok h
  rw [h1] at h1'; cases h1'
  have gen : ∀ (γ : Type) (G : Finset γ) (f : Concept α β → Finset γ), (∀ x ∈ L.concepts, f x ⊆ G) → G.card ≠ 0 →
      ∀ items : List (Concept α β × ℚ), items.map Prod.fst = L.concepts →
      (∀ x q, (x, q) ∈ items → q = ((f x).card : ℚ) / G.card ∧ 0 ≤ q ∧ q ≤ 1) →
      (∀ x q, (x, q) ∈ items.map (rndItem R) → q = R.rnd (((f x).card : ℚ) / G.card) ∧ 0 ≤ q ∧ q ≤ 1) ∧
        (G.card ≤ 2 ^ 51 → ∀ x q y r, (x, q) ∈ items.map (rndItem R) → (y, r) ∈ items.map (rndItem R) →
          (q < r ↔ (f x).card < (f y).card)) := by
    intro γ G f hf hG items hitems hq
    have hR : ∀ x q, (x, q) ∈ items.map (rndItem R) →
        q = R.rnd (((f x).card : ℚ) / G.card) ∧ 0 ≤ q ∧ q ≤ 1 := by
      intro x q hx
      obtain ⟨q₀, hq₀, rfl⟩ := mem_rndItem.1 hx
      obtain ⟨e1, e2, e3⟩ := hq x q₀ hq₀
      exact ⟨by rw [e1], R.rnd_nonneg e2, R.rnd_le_one e3⟩
    refine ⟨hR, fun hb x q y r hx hy => ?_⟩
    rw [(hR x q hx).1, (hR y r hy).1]
    have hin : ∀ x q, (x, q) ∈ items.map (rndItem R) → (f x).card ≤ 2 ^ 51 := by
      intro x q hx
      obtain ⟨q₀, hq₀, -⟩ := mem_rndItem.1 hx
      have : x ∈ L.concepts := by rw [← hitems]; exact List.mem_map.2 ⟨_, hq₀, rfl⟩
      exact (Finset.card_le_card (hf x this)).trans hb
    constructor
    · intro hlt
      by_contra hc
      refine absurd hlt (not_lt.2 (R.mono ?_))
      have : ((f y).card : ℚ) ≤ (f x).card := by exact_mod_cast not_lt.1 hc
      gcongr
    · intro hlt
      exact R.rnd_strict hlt (hin y r hy) (Nat.pos_of_ne_zero hG) (hb.trans (by norm_num))
  refine ⟨L, h1, fun ho => by rw [extentSizeF_eq, h2 ho]; rfl, fun ha => by rw [intentSizeF_eq, h3 ha]; rfl, ?_, ?_⟩
  · intro ho
    obtain ⟨items, i1, i2, i3, -⟩ := h4 ho
    obtain ⟨g1, g2⟩ := gen α c.G Concept.extent (fun x hx g hg => ((((hcon x).1 hx).2 g).1 hg).1)
      (by rw [Finset.card_ne_zero]
          obtain ⟨g, l, hl⟩ := List.exists_cons_of_ne_nil ho
          exact ⟨g, by simp [Ctx.G, hl]⟩) items i2 i3
    exact ⟨items.map (rndItem R), by rw [extentSizeF_eq, i1]; rfl, by rw [map_rndItem_fst, i2], g1, g2⟩
  · intro ha
    obtain ⟨items, i1, i2, i3, -⟩ := h5 ha
    obtain ⟨g1, g2⟩ := gen β c.M Concept.intent (fun x hx g hg => ((((hcon x).1 hx).1 g).1 hg).1)
      (by rw [Finset.card_ne_zero]
          obtain ⟨g, l, hl⟩ := List.exists_cons_of_ne_nil ha
          exact ⟨g, by simp [Ctx.M, hl]⟩) items i2 i3
    exact ⟨items.map (rndItem R), by rw [intentSizeF_eq, i1]; rfl, by rw [map_rndItem_fst, i2], g1, g2⟩

/-! ### Filtering -/

/-- `filter_concepts` in mode "value" with a double as threshold, on any index rounded once: all concepts whose exact index
reaches the threshold are kept, in order; any other that is kept has an exact index below the threshold that is rounded to
the threshold. -/
theorem C161_filter (R : Rounding) (items : List (Concept α β × ℚ)) (hne : items ≠ []) {v : ℚ} (hv : R.rnd v = v) :
    ∃ r r₀, filterConcepts (items.map (rndItem R)) .value v = .ok r ∧ filterConcepts items .value v = .ok r₀ ∧
      r₀.Sublist r ∧ r.Sublist (items.map Prod.fst) ∧
      (∀ x, (∃ q, (x, q) ∈ items ∧ v ≤ q) → x ∈ r) ∧
      ∀ x ∈ r, ∃ q, (x, q) ∈ items ∧ (v ≤ q ∨ q < v ∧ R.rnd q = v) := by
  obtain ⟨r, h1, h2, h3, -⟩ := C45_filter_partial (items.map (rndItem R)) (by simpa using hne) v
  obtain ⟨r₀, g1, g2, g3, -⟩ := C45_filter_partial items hne v
  refine ⟨r, r₀, h1, g1, ?_, by rw [map_rndItem_fst] at h2; exact h2, ?_, ?_⟩
  · unfold filterConcepts at h1 g1
    rw [if_neg (by simpa using hne)] at h1
    rw [if_neg hne] at g1
    simp only [Except.ok.injEq] at h1 g1
    rw [← h1, ← g1, List.filter_map, List.map_map]
    have : (Prod.fst ∘ rndItem R : Concept α β × ℚ → Concept α β) = Prod.fst := rfl
    rw [this]
    refine List.Sublist.map _ (List.monotone_filter_right items fun it hit => ?_)
    rw [decide_eq_true_eq] at hit
    exact decide_eq_true (R.le_rnd hv hit)
  · rintro x ⟨q, hq, hvq⟩
    exact (h3 x).2 ⟨R.rnd q, mem_rndItem.2 ⟨q, hq, rfl⟩, R.le_rnd hv hvq⟩
  · intro x hx
    obtain ⟨q, hq, hvq⟩ := (h3 x).1 hx
    obtain ⟨q₀, hq₀, rfl⟩ := mem_rndItem.1 hq
    refine ⟨q₀, hq₀, ?_⟩
    rcases le_or_gt v q₀ with hle | hlt
    · exact .inl hle
    · have := R.mono hlt.le
      rw [hv] at this
      exact .inr ⟨hlt, le_antisymm this hvq⟩

/-- If the exact values are doubles, filtering is exact. -/
theorem C161_filter_exact (R : Rounding) (items : List (Concept α β × ℚ)) (h : ∀ x q, (x, q) ∈ items → R.rnd q = q)
    (mode : FilterMode) (v : ℚ) : filterConcepts (items.map (rndItem R)) mode v = filterConcepts items mode v := by
  congr 1
  conv_rhs => rw [← List.map_id items]
  apply List.map_congr_left
  rintro ⟨x, q⟩ hx
  simp [rndItem, h x q hx]

/-- Filtering the lattice by intensional stability with a double as threshold keeps exactly the concepts whose
stability reaches it, if no extent has more than 53 objects. -/
theorem C161_value_istability (R : Rounding) {c : Ctx α β} (h : c.WFw) (ord : ℕ → SetOrder (Concept α β))
    (hb : c.objects.length ≤ 53) (v : ℚ) :
    ∃ L st, makeLattice c = .ok L ∧ istabilityF R ord L.concepts = some (.ok st) ∧
      ∀ items, (∀ x q, (x, q) ∈ items ↔ st x = some q) →
        ∃ r, filterConcepts items .value v = .ok r ∧
          ∀ x, x ∈ r ↔ IsConcept c.G c.M c.Inc x.extent x.intent ∧
            v ≤ intensionalStability c.M c.Inc x.extent x.intent := by
  obtain ⟨L, st, h1, h2, h3⟩ := C45_value_istability h ord v
  refine ⟨L, st, h1, ?_, h3⟩
  obtain ⟨L', st', g1, g2, -, g4, g5⟩ := C161_istability R h ord
  obtain ⟨L'', st'', k1, k2, k3, k4⟩ := C41_istability h ord
  rw [h1] at g1 k1; cases g1; cases k1
  rw [h2] at k2; cases k2
  obtain ⟨L', h1', -, -, -, hcon, -⟩ := makeLattice_ok h
  rw [h1] at h1'; cases h1'
  rw [g2]
  congr 2
  funext x
  by_cases hx : x ∈ L.concepts
  · rw [g4 x hx, k3 x hx]
    have : x.extent ⊆ c.objects.toFinset := fun g hg => ((((hcon x).1 hx).2 g).1 hg).1
    exact (Finset.card_le_card this).trans ((List.toFinset_card_le _).trans hb)
  · rw [g5 x hx, k4 x hx]

/-- Filtering by exact and by rounded values differs: with the relative size of the extent and the threshold 0.2, a
concept with one of five objects is kept, though 1/5 is less than the double 0.2. -/
theorem C161_filter_violated : ∃ L items,
    makeLattice cxtI5 = .ok L ∧ extentSize cxtI5 L.concepts = .ok items ∧
    extentSizeF .double cxtI5 L.concepts = .ok (items.map (rndItem .double)) ∧
    ((⟨{0}, {0}⟩ : Concept (Fin 5) (Fin 5)), (1 / 5 : ℚ)) ∈ items ∧
    ∃ r r₀, filterConcepts (items.map (rndItem .double)) .value (toDouble (1 / 5)) = .ok r ∧ ⟨{0}, {0}⟩ ∈ r ∧
      filterConcepts items .value (toDouble (1 / 5)) = .ok r₀ ∧ ⟨{0}, {0}⟩ ∉ r₀ := by
  obtain ⟨L, h1, -, -, h4, -⟩ := C44_sizes cxtI5_wf
  obtain ⟨items, i1, i2, i3, -⟩ := h4 (by decide)
  obtain ⟨L', h1', -, -, -, hcon, -⟩ := makeLattice_ok cxtI5_wf
  rw [h1] at h1'; cases h1'
  have hmem : (⟨{0}, {0}⟩ : Concept (Fin 5) (Fin 5)) ∈ L.concepts := by
    rw [hcon]
    have h := isConcept_gen cxtI5_wf (B := {0}) (by decide +kernel)
    rwa [show cxtI5.downF {0} = {0} by decide +kernel, show cxtI5.upF {0} = {0} by decide +kernel] at h
  have hval : ∀ q, ((⟨{0}, {0}⟩ : Concept (Fin 5) (Fin 5)), q) ∈ items → q = 1 / 5 := by
    intro q hq
    rw [(i3 _ _ hq).1, show cxtI5.G.card = 5 by decide +kernel]
    norm_num
  have hit : ((⟨{0}, {0}⟩ : Concept (Fin 5) (Fin 5)), (1 / 5 : ℚ)) ∈ items := by
    rw [← i2] at hmem
    obtain ⟨⟨x, q⟩, hx, he⟩ := List.mem_map.1 hmem
    simp only at he
    subst he
    rwa [hval q hx] at hx
  have hne : items ≠ [] := List.ne_nil_of_mem hit
  obtain ⟨r, k1, -, k3, -⟩ := C45_filter_partial (items.map (rndItem .double)) (by simpa using hne) (toDouble (1 / 5))
  obtain ⟨r₀, g1, -, g3, -⟩ := C45_filter_partial items hne (toDouble (1 / 5))
  refine ⟨L, items, h1, i1, by rw [extentSizeF_eq, i1]; rfl, hit, r, r₀, k1, ?_, g1, ?_⟩
  · exact (k3 _).2 ⟨_, mem_rndItem.2 ⟨_, hit, rfl⟩, le_rfl⟩
  · intro hr
    obtain ⟨q, hq, hle⟩ := (g3 _).1 hr
    rw [hval q hq] at hle
    exact absurd hle (by decide +kernel)

/-- 54 objects with the first of two attributes and without the second. -/
def cxtL54 : Ctx (Fin 54) (Fin 2) := ⟨List.finRange 54, [0, 1], ⟨some 2, List.replicate 54 [true, false]⟩⟩

theorem cxtL54_wf : cxtL54.WFw := by constructor <;> decide +kernel

theorem cxtL54_inc {g : Fin 54} {m : Fin 2} : cxtL54.Inc g m ↔ m = 0 := by
  have h1 : ∀ g : Fin 54, g ∈ cxtL54.downF {0} := by decide +kernel
  have h2 : cxtL54.downF {1} = ∅ := by decide +kernel
  constructor
  · intro h
    by_contra hm
    have hm1 : m = 1 := by omega
    subst hm1
    have : g ∈ cxtL54.downF {1} := cxtL54_wf.mem_downF.2 ⟨h.mem.1, by simpa using h⟩
    rw [h2] at this
    simp at this
  · rintro rfl
    simpa using (cxtL54_wf.mem_downF.1 (h1 g)).2

/-- With more than 53 objects exactness is lost: the concept of all 54 objects of `cxtL54` has a stability less than 1 (the
empty set of objects does not generate its intent), but `compute_istability` reports 1. -/
theorem C161_stability_violated (ord : ℕ → SetOrder (Concept (Fin 54) (Fin 2))) :
    ∃ L st, makeLattice cxtL54 = .ok L ∧ istabilityF .double ord L.concepts = some (.ok st) ∧
      (⟨Finset.univ, {0}⟩ : Concept (Fin 54) (Fin 2)) ∈ L.concepts ∧ st ⟨Finset.univ, {0}⟩ = some 1 ∧
      intensionalStability cxtL54.M cxtL54.Inc Finset.univ {0} < 1 := by
  obtain ⟨L, st, h1, h2, h3, -⟩ := C161_istability .double cxtL54_wf ord
  obtain ⟨L', h1', -, -, -, hcon, -⟩ := makeLattice_ok cxtL54_wf
  rw [h1] at h1'; cases h1'
  have hM : ∀ m : Fin 2, m ∈ cxtL54.M := by decide +kernel
  have hG : ∀ g : Fin 54, g ∈ cxtL54.G := by decide +kernel
  have hmem : (⟨Finset.univ, {0}⟩ : Concept (Fin 54) (Fin 2)) ∈ L.concepts := by
    rw [hcon]
    refine ⟨fun m => ?_, fun g => ?_⟩
    · simp only [Finset.mem_singleton, Finset.mem_univ, forall_true_left, cxtL54_inc, hM, true_and]
      exact ⟨fun h _ => h, fun h => h 0⟩
    · simp [cxtL54_inc, hG]
  have hgen : generatingSubsets cxtL54.M cxtL54.Inc (Finset.univ : Finset (Fin 54)) {0} = 2 ^ 54 - 1 := by
    unfold generatingSubsets
    trans ((Finset.univ : Finset (Fin 54)).powerset.erase ∅).card
    · congr 1
      ext S
      simp only [Finset.mem_filter, Finset.mem_erase, Finset.mem_singleton, hM, true_and, cxtL54_inc]
      constructor
      · rintro ⟨h, hS⟩
        refine ⟨fun h0 => ?_, h⟩
        subst h0
        have := (hS 1).2 (by simp)
        simp at this
      · rintro ⟨h0, h⟩
        obtain ⟨g, hg⟩ := Finset.nonempty_iff_ne_empty.2 h0
        exact ⟨h, fun m => ⟨fun hm _ _ => hm, fun hm => hm g hg⟩⟩
    · rw [Finset.card_erase_of_mem (Finset.empty_mem_powerset _), Finset.card_powerset, Finset.card_univ,
        Fintype.card_fin]
  have hst : intensionalStability cxtL54.M cxtL54.Inc (Finset.univ : Finset (Fin 54)) {0} =
      ((2 ^ 54 - 1 : ℕ) : ℚ) / 2 ^ 54 := by
    unfold intensionalStability
    rw [hgen, Finset.card_univ, Fintype.card_fin]
  refine ⟨L, st, h1, h2, hmem, ?_, ?_⟩
  · rw [h3 _ hmem, hst]
    decide +kernel
  · rw [hst]
    norm_num

/-! ### Concrete cases -/

example : showStab csS (istabilityF .double (fun _ => ordC2) csS) = some [some 1, some (1 / 2)] := by decide +kernel
example : showStab csS (estabilityF .double (fun _ => ordC2) csS) = some [some (1 / 2), some 1] := by decide +kernel

example : (do
    let L ← makeLattice cxtS
    separationF .double cxtS (SetOrder.fin 2) (SetOrder.finRev 2) L.concepts : Py _) =
    .ok [(⟨{0}, {0, 1}⟩, toDouble (2 / 3)), (⟨{0, 1}, {1}⟩, toDouble (2 / 3))] := by decide +kernel

example : toDouble (2 / 3) ≠ 2 / 3 ∧ toDouble (1 / 2) = 1 / 2 := by constructor <;> decide +kernel

example : (do
    let L ← makeLattice cxtS
    let it ← extentSizeF .double cxtS L.concepts
    filterConcepts it .value (3 / 4) : Py _) = .ok [⟨{0, 1}, {1}⟩] := by decide +kernel
