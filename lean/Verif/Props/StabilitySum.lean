/-
Property C132: the stabilities of all concepts together, and their bounds by neighbours
(fca/algorithms/filtering/stability.py).
-/
import Verif.Props.Stability
import Verif.Props.Diagram
import Mathlib.Algebra.BigOperators.Group.Finset.Basic
import Mathlib.Algebra.Order.BigOperators.Group.Finset
import Mathlib.Algebra.BigOperators.Field
import Mathlib.Data.Rat.BigOperators

set_option linter.unusedSectionVars false

open Spec

section
variable {α β : Type} [DecidableEq α] [DecidableEq β] {G : Finset α} {M : Finset β} {I : α → β → Prop}

theorem isConcept_swap {A : Finset α} {B : Finset β} :
    IsConcept G M I A B ↔ IsConcept M G (fun m g => I g m) B A := and_comm

theorem concept_extent_subset {A : Finset α} {B : Finset β} (h : IsConcept G M I A B) : A ⊆ G :=
  fun g hg => ((h.2 g).1 hg).1

/-- Concepts are ordered by their extents as by their intents. -/
theorem concept_intent_ssubset {A A₂ : Finset α} {B B₂ : Finset β} (h : IsConcept G M I A B)
    (h₂ : IsConcept G M I A₂ B₂) (hs : A₂ ⊂ A) : B ⊂ B₂ := by
  refine Finset.ssubset_iff_subset_ne.2 ⟨fun m hm => ?_, ?_⟩
  · obtain ⟨k1, k2⟩ := (h.1 m).1 hm
    exact (h₂.1 m).2 ⟨k1, fun g hg => k2 g (hs.1 hg)⟩
  · rintro rfl
    refine hs.2 fun g hg => ?_
    exact (h₂.2 g).2 ((h.2 g).1 hg)

/-- Every set of objects generates a concept. -/
theorem exists_concept (S : Finset α) (hS : S ⊆ G) :
    ∃ A B, IsConcept G M I A B ∧ S ⊆ A ∧ ∀ m, m ∈ B ↔ m ∈ M ∧ ∀ g ∈ S, I g m := by
  classical
  refine ⟨G.filter fun g => ∀ m ∈ M, (∀ g' ∈ S, I g' m) → I g m, M.filter fun m => ∀ g ∈ S, I g m, ⟨fun m => ?_, fun g => ?_⟩,
    fun g hg => ?_, fun m => by simp⟩
  · simp only [Finset.mem_filter]
    constructor
    · rintro ⟨h1, h2⟩; exact ⟨h1, fun g hg => hg.2 m h1 h2⟩
    · rintro ⟨h1, h2⟩; exact ⟨h1, fun g hg => h2 g ⟨hS hg, fun m' _ h => h g hg⟩⟩
  · simp only [Finset.mem_filter, and_imp]
  · simp only [Finset.mem_filter]
    exact ⟨hS hg, fun m _ h => h g hg⟩

/-- Every set of objects is counted for exactly one concept. -/
theorem generatingSubsets_sum (C : Finset (Finset α × Finset β)) (hC : ∀ p, p ∈ C ↔ IsConcept G M I p.1 p.2) :
    ∑ p ∈ C, generatingSubsets M I p.1 p.2 = 2 ^ G.card := by
  classical
  have hex : ∀ S, S ⊆ G → ∃ p : Finset α × Finset β, IsConcept G M I p.1 p.2 ∧ S ⊆ p.1 ∧ ∀ m, m ∈ p.2 ↔ m ∈ M ∧ ∀ g ∈ S, I g m :=
    fun S hS => by
      obtain ⟨A, B, h⟩ := exists_concept (M := M) (I := I) S hS
      exact ⟨(A, B), h⟩
  let f : Finset α → Finset α × Finset β := fun S => if hS : S ⊆ G then (hex S hS).choose else (∅, ∅)
  have hf : ∀ S, S ⊆ G → IsConcept G M I (f S).1 (f S).2 ∧ S ⊆ (f S).1 ∧ ∀ m, m ∈ (f S).2 ↔ m ∈ M ∧ ∀ g ∈ S, I g m := by
    intro S hS
    simp only [f, dif_pos hS]
    exact (hex S hS).choose_spec
  rw [← Finset.card_powerset, Finset.card_eq_sum_card_fiberwise (f := f) (t := C) fun S hS => by
    rw [Finset.mem_coe, hC]; exact (hf S (Finset.mem_powerset.1 hS)).1]
  refine Finset.sum_congr rfl fun p hp => ?_
  have hp' := (hC p).1 hp
  unfold generatingSubsets
  congr 1
  ext S
  simp only [Finset.mem_filter, Finset.mem_powerset]
  constructor
  · rintro ⟨h1, h2⟩
    have hSG := h1.trans (concept_extent_subset hp')
    obtain ⟨k1, k2, k3⟩ := hf S hSG
    have hB : (f S).2 = p.2 := by
      ext m; rw [k3, h2]
    refine ⟨hSG, Prod.ext ?_ hB⟩
    ext g
    rw [k1.2, hp'.2, hB]
  · rintro ⟨h1, h2⟩
    obtain ⟨k1, k2, k3⟩ := hf S h1
    rw [h2] at k2 k3
    exact ⟨k2, k3⟩

theorem generatingSubsets_pos {A : Finset α} {B : Finset β} (h : IsConcept G M I A B) : 1 ≤ generatingSubsets M I A B := by
  classical
  unfold generatingSubsets
  exact Finset.card_pos.2 ⟨A, by simp only [Finset.mem_filter, Finset.mem_powerset]; exact ⟨subset_rfl, h.1⟩⟩

theorem generatingSubsets_le {A : Finset α} {B : Finset β} : generatingSubsets M I A B ≤ 2 ^ A.card := by
  classical
  unfold generatingSubsets
  rw [← Finset.card_powerset]
  exact Finset.card_filter_le _ _

theorem generatingSubsets_eq {A : Finset α} {B : Finset β} (h : IsConcept G M I A B) :
    generatingSubsets M I A B = 2 ^ A.card ↔ B = M := by
  classical
  unfold generatingSubsets
  rw [← Finset.card_powerset, Finset.card_filter_eq_iff]
  constructor
  · intro hk
    ext m
    rw [hk ∅ (by simp)]
    simp
  · rintro rfl S hS m
    refine ⟨fun hm => ⟨hm, fun g hg => ?_⟩, fun hm => hm.1⟩
    exact ((h.2 g).1 (Finset.mem_powerset.1 hS hg)).2 m hm

/-- Subsets of a smaller extent do not generate the intent. -/
theorem generatingSubsets_add_le {A A₂ : Finset α} {B B₂ : Finset β} (h : IsConcept G M I A B)
    (h₂ : IsConcept G M I A₂ B₂) (hs : A₂ ⊂ A) : generatingSubsets M I A B + 2 ^ A₂.card ≤ 2 ^ A.card := by
  classical
  unfold generatingSubsets
  rw [← Finset.card_powerset, ← Finset.card_powerset, ← Finset.card_union_of_disjoint]
  · refine Finset.card_le_card (Finset.union_subset (Finset.filter_subset _ _) ?_)
    exact Finset.powerset_mono.2 hs.1
  · rw [Finset.disjoint_left]
    intro S hS hS₂
    simp only [Finset.mem_filter, Finset.mem_powerset] at hS hS₂
    refine (concept_intent_ssubset h h₂ hs).2 fun m hm => ?_
    obtain ⟨k1, k2⟩ := (h₂.1 m).1 hm
    exact (hS.2 m).2 ⟨k1, fun g hg => k2 g (hS₂ hg)⟩

/-- All others are subsets of one of the largest smaller extents. -/
theorem le_generatingSubsets_add {A : Finset α} {B : Finset β} (h : IsConcept G M I A B) {γ : Type} (T : Finset γ)
    (ext : γ → Finset α) (hT : ∀ A₂ B₂, IsConcept G M I A₂ B₂ → A₂ ⊂ A → ∃ y ∈ T, A₂ ⊆ ext y) :
    2 ^ A.card ≤ generatingSubsets M I A B + ∑ y ∈ T, 2 ^ (ext y).card := by
  classical
  unfold generatingSubsets
  have : ∑ y ∈ T, 2 ^ (ext y).card = ∑ y ∈ T, (ext y).powerset.card := Finset.sum_congr rfl fun y _ => by
    rw [Finset.card_powerset]
  rw [this, ← Finset.card_powerset]
  refine le_trans ?_ (Nat.add_le_add_left (Finset.card_biUnion_le (s := T) (t := fun y => (ext y).powerset)) _)
  refine le_trans (Finset.card_le_card fun S hS => ?_) (Finset.card_union_le _ _)
  rw [Finset.mem_union, Finset.mem_filter]
  by_cases hg : ∀ m, m ∈ B ↔ m ∈ M ∧ ∀ g ∈ S, I g m
  · exact Or.inl ⟨hS, hg⟩
  · right
    rw [Finset.mem_powerset] at hS
    obtain ⟨A₂, B₂, k1, k2, k3⟩ := exists_concept (M := M) (I := I) S (hS.trans (concept_extent_subset h))
    have hBB : B ⊆ B₂ := fun m hm => (k3 m).2 ⟨((h.1 m).1 hm).1, fun g hg => ((h.1 m).1 hm).2 g (hS hg)⟩
    have hsub : A₂ ⊆ A := fun g hg => (h.2 g).2 ⟨((k1.2 g).1 hg).1, fun m hm => ((k1.2 g).1 hg).2 m (hBB hm)⟩
    have hne : A₂ ≠ A := by
      rintro rfl
      refine hg fun m => ?_
      rw [← k3, k1.1, h.1]
    obtain ⟨y, hy, hy'⟩ := hT A₂ B₂ k1 (Finset.ssubset_iff_subset_ne.2 ⟨hsub, hne⟩)
    exact Finset.mem_biUnion.2 ⟨y, hy, Finset.mem_powerset.2 (k2.trans hy')⟩

end

variable {α β : Type} [DecidableEq α] [DecidableEq β]

/-- The concepts of a list as pairs. -/
theorem sum_pairs {γ δ : Type} [DecidableEq γ] [DecidableEq δ] {cs : List (Concept α β)} (hnd : cs.Nodup)
    (f : Concept α β → Finset γ × Finset δ) (hf : Function.Injective f) (w : Finset γ × Finset δ → ℕ) :
    ∑ p ∈ (cs.map f).toFinset, w p = (cs.map fun x => w (f x)).sum := by
  rw [List.sum_toFinset _ (hnd.map hf), List.map_map]
  rfl

theorem rat_bounds {g a : ℕ} (h1 : 1 ≤ g) (h2 : g ≤ 2 ^ a) :
    (0 : ℚ) < (g : ℚ) / 2 ^ a ∧ (g : ℚ) / 2 ^ a ≤ 1 ∧ ((g : ℚ) / 2 ^ a = 1 ↔ g = 2 ^ a) := by
  have hp : (0 : ℚ) < 2 ^ a := by positivity
  refine ⟨div_pos (by exact_mod_cast h1) hp, (div_le_one hp).2 (by exact_mod_cast h2), ?_⟩
  rw [div_eq_one_iff_eq hp.ne']
  exact_mod_cast Iff.rfl

/-- Neighbours below: every smaller member of the list lies below one. -/
theorem exists_child {cs : List (Concept α β)} {x y : Concept α β} (hx : x ∈ cs) (hy : y ∈ cs) (h : x.intent ⊂ y.intent) :
    ∃ z ∈ cs, Covers Concept.intent cs x z ∧ z.intent ⊆ y.intent := by
  have := covers_chain cs _ y x hy hx h le_rfl
  obtain ⟨z, hz, hzx⟩ := Relation.TransGen.tail'_iff.1 this
  refine ⟨z, hzx.1, hzx.2, ?_⟩
  rcases (covers_reach cs hy).1 hz with rfl | ⟨-, hz⟩
  · exact subset_rfl
  · exact hz.1

/-- Neighbours above. -/
theorem exists_parent {cs : List (Concept α β)} {x y : Concept α β} (hx : x ∈ cs) (hy : y ∈ cs) (h : y.intent ⊂ x.intent) :
    ∃ z ∈ cs, Covers Concept.intent cs z x ∧ y.intent ⊆ z.intent := by
  have := covers_chain cs _ x y hx hy h le_rfl
  obtain ⟨z, hxz, hz⟩ := Relation.TransGen.head'_iff.1 this
  refine ⟨z, hxz.2.1, hxz.2, ?_⟩
  rcases (covers_reach cs hxz.2.1).1 hz with rfl | ⟨-, hz⟩
  · exact subset_rfl
  · exact hz.1

theorem concept_eq_of_intent {G : Finset α} {M : Finset β} {I : α → β → Prop} {x y : Concept α β}
    (hx : IsConcept G M I x.extent x.intent) (hy : IsConcept G M I y.extent y.intent) (h : x.intent = y.intent) : x = y := by
  cases x; cases y
  simp only at h hx hy
  subst h
  congr 1
  ext g
  rw [hx.2, hy.2]

theorem concept_eq_of_extent {G : Finset α} {M : Finset β} {I : α → β → Prop} {x y : Concept α β}
    (hx : IsConcept G M I x.extent x.intent) (hy : IsConcept G M I y.extent y.intent) (h : x.extent = y.extent) : x = y := by
  cases x; cases y
  simp only at h hx hy
  subst h
  congr 1
  ext m
  rw [hx.1, hy.1]

namespace Ctx

/-- Intensional stability of all concepts: weighted with the number of subsets of the extents they add up to the number
of sets of objects; each is positive and at most 1, and 1 for the bottom concept only; the concepts below give the
bounds. -/
theorem C132_istability {c : Ctx α β} (h : c.WFw) (ord : ℕ → SetOrder (Concept α β)) :
    ∃ L st, makeLattice c = .ok L ∧ istability ord L.concepts = some (.ok st) ∧
      (L.concepts.map fun x => (st x).getD 0 * 2 ^ x.extent.card).sum = 2 ^ c.objects.length ∧
      ∀ x ∈ L.concepts, ∃ q T, st x = some q ∧ L.children x = .ok T ∧ 0 < q ∧ q ≤ 1 ∧ (q = 1 ↔ x = L.bottom) ∧
        1 - ∑ y ∈ T, (2 ^ y.extent.card / 2 ^ x.extent.card : ℚ) ≤ q ∧
        ∀ y ∈ L.concepts, y.extent ⊂ x.extent → q ≤ 1 - 2 ^ y.extent.card / 2 ^ x.extent.card := by
  obtain ⟨L, st, h1, h2, h3, -⟩ := C41_istability h ord
  obtain ⟨L', h1', -, hnd, -, hmem, -, -, -, -⟩ := makeLattice_ok h
  rw [h1] at h1'; cases h1'
  obtain ⟨L', h1', -, hbm, -, hbot, -⟩ := C37_top_bottom h
  rw [h1] at h1'; cases h1'
  obtain ⟨L', h1', hch, -⟩ := C38_parents_children h
  rw [h1] at h1'; cases h1'
  refine ⟨L, st, h1, h2, ?_, fun x hx => ?_⟩
  · have hG : c.G.card = c.objects.length := List.toFinset_card_of_nodup h.onodup
    have key := generatingSubsets_sum (G := c.G) (M := c.M) (I := c.Inc)
      ((L.concepts.map fun x => (x.extent, x.intent)).toFinset) (fun p => by
        rw [List.mem_toFinset, List.mem_map]
        constructor
        · rintro ⟨x, hx, rfl⟩; exact (hmem x).1 hx
        · intro hp; exact ⟨⟨p.1, p.2⟩, (hmem _).2 hp, rfl⟩)
    rw [sum_pairs hnd (fun x => (x.extent, x.intent)) (fun x y hxy => by
      cases x; cases y; simpa using hxy) (fun p => generatingSubsets c.M c.Inc p.1 p.2), hG] at key
    have e : (L.concepts.map fun x => (st x).getD 0 * 2 ^ x.extent.card) =
        (L.concepts.map fun x => generatingSubsets c.M c.Inc x.extent x.intent).map fun n : ℕ => (n : ℚ) := by
      rw [List.map_map]
      refine List.map_congr_left fun x hx => ?_
      rw [h3 x hx]
      simp only [Option.getD_some, Function.comp, intensionalStability]
      exact div_mul_cancel₀ _ (by positivity)
    rw [e, ← Nat.cast_list_sum, key]
    push_cast
    rfl
  · have hc := (hmem x).1 hx
    obtain ⟨S, T, -, hT, -, hT'⟩ := hch x hx
    obtain ⟨b1, b2, b3⟩ := rat_bounds (generatingSubsets_pos hc) (generatingSubsets_le (M := c.M) (I := c.Inc) (A := x.extent) (B := x.intent))
    have hp : (0 : ℚ) < 2 ^ x.extent.card := by positivity
    refine ⟨_, T, h3 x hx, hT, b1, b2, ?_, ?_, ?_⟩
    · unfold intensionalStability
      rw [b3, generatingSubsets_eq hc]
      constructor
      · intro hM
        exact concept_eq_of_intent hc ((hmem _).1 hbm) (hM.trans hbot.symm)
      · rintro rfl; exact hbot
    · have := le_generatingSubsets_add hc T (fun y => y.extent) (fun A₂ B₂ k hk => by
        obtain ⟨z, hz, hxz, hzy⟩ := exists_child hx ((hmem ⟨A₂, B₂⟩).2 k) (concept_intent_ssubset hc k hk)
        obtain ⟨S', -, hS', -, hS'', -⟩ := hch z hz
        refine ⟨z, (hT' z).2 ⟨hz, S', hS', (hS'' x).2 hxz⟩, fun g hg => ?_⟩
        exact (((hmem z).1 hz).2 g).2 ⟨((k.2 g).1 hg).1, fun m hm => ((k.2 g).1 hg).2 m (hzy hm)⟩)
      unfold intensionalStability
      rw [← Finset.sum_div, sub_le_iff_le_add, ← add_div, le_div_iff₀ hp, one_mul]
      exact_mod_cast this
    · intro y hy hyx
      have := generatingSubsets_add_le hc ((hmem y).1 hy) hyx
      unfold intensionalStability
      rw [le_sub_iff_add_le, ← add_div, div_le_one hp]
      exact_mod_cast this

/-- Extensional stability, in the same way: weighted with the number of subsets of the intents they add up to the number of
sets of attributes; 1 for the top concept only; the concepts above give the bounds. -/
theorem C132_estability {c : Ctx α β} (h : c.WFw) (ord : ℕ → SetOrder (Concept α β)) :
    ∃ L st, makeLattice c = .ok L ∧ estability ord L.concepts = some (.ok st) ∧
      (L.concepts.map fun x => (st x).getD 0 * 2 ^ x.intent.card).sum = 2 ^ c.attributes.length ∧
      ∀ x ∈ L.concepts, ∃ q T, st x = some q ∧ L.parentsOf x = .ok T ∧ 0 < q ∧ q ≤ 1 ∧ (q = 1 ↔ x = L.top) ∧
        1 - ∑ y ∈ T, (2 ^ y.intent.card / 2 ^ x.intent.card : ℚ) ≤ q ∧
        ∀ y ∈ L.concepts, y.intent ⊂ x.intent → q ≤ 1 - 2 ^ y.intent.card / 2 ^ x.intent.card := by
  obtain ⟨L, st, h1, h2, h3, -⟩ := C42_estability h ord
  obtain ⟨L', h1', -, hnd, -, hmem, -, -, -, -⟩ := makeLattice_ok h
  rw [h1] at h1'; cases h1'
  obtain ⟨L', h1', hbm, -, hbot, -, -⟩ := C37_top_bottom h
  rw [h1] at h1'; cases h1'
  obtain ⟨L', h1', hch, -⟩ := C38_parents_children h
  rw [h1] at h1'; cases h1'
  refine ⟨L, st, h1, h2, ?_, fun x hx => ?_⟩
  · have hG : c.M.card = c.attributes.length := List.toFinset_card_of_nodup h.anodup
    have key := generatingSubsets_sum (G := c.M) (M := c.G) (I := fun m g => c.Inc g m)
      ((L.concepts.map fun x => (x.intent, x.extent)).toFinset) (fun p => by
        rw [List.mem_toFinset, List.mem_map]
        constructor
        · rintro ⟨x, hx, rfl⟩; exact isConcept_swap.1 ((hmem x).1 hx)
        · intro hp; exact ⟨⟨p.2, p.1⟩, (hmem _).2 (isConcept_swap.2 hp), rfl⟩)
    rw [sum_pairs hnd (fun x => (x.intent, x.extent)) (fun x y hxy => by
      cases x; cases y; simpa [and_comm] using hxy) (fun p => generatingSubsets c.G (fun m g => c.Inc g m) p.1 p.2), hG] at key
    have e : (L.concepts.map fun x => (st x).getD 0 * 2 ^ x.intent.card) =
        (L.concepts.map fun x => generatingSubsets c.G (fun m g => c.Inc g m) x.intent x.extent).map fun n : ℕ => (n : ℚ) := by
      rw [List.map_map]
      refine List.map_congr_left fun x hx => ?_
      rw [h3 x hx]
      simp only [Option.getD_some, Function.comp, extensionalStability]
      exact div_mul_cancel₀ _ (by positivity)
    rw [e, ← Nat.cast_list_sum, key]
    push_cast
    rfl
  · have hc := isConcept_swap.1 ((hmem x).1 hx)
    obtain ⟨T, -, hT, -, hT', -⟩ := hch x hx
    obtain ⟨b1, b2, b3⟩ := rat_bounds (generatingSubsets_pos hc) (generatingSubsets_le (M := c.G) (I := fun m g => c.Inc g m) (A := x.intent) (B := x.extent))
    have hp : (0 : ℚ) < 2 ^ x.intent.card := by positivity
    refine ⟨_, T, h3 x hx, hT, b1, b2, ?_, ?_, ?_⟩
    · unfold extensionalStability
      rw [b3, generatingSubsets_eq hc]
      constructor
      · intro hM
        exact concept_eq_of_extent ((hmem x).1 hx) ((hmem _).1 hbm) (hM.trans hbot.symm)
      · rintro rfl; exact hbot
    · have := le_generatingSubsets_add hc T (fun y => y.intent) (fun A₂ B₂ k hk => by
        obtain ⟨z, hz, hzx, hyz⟩ := exists_parent hx ((hmem ⟨B₂, A₂⟩).2 (isConcept_swap.2 k)) hk
        exact ⟨z, (hT' z).2 hzx, hyz⟩)
      unfold extensionalStability
      rw [← Finset.sum_div, sub_le_iff_le_add, ← add_div, le_div_iff₀ hp, one_mul]
      exact_mod_cast this
    · intro y hy hyx
      have := generatingSubsets_add_le hc (isConcept_swap.1 ((hmem y).1 hy)) hyx
      unfold extensionalStability
      rw [le_sub_iff_add_le, ← add_div, div_le_one hp]
      exact_mod_cast this

/-- The extensional stabilities are the intensional ones of the transposed context. -/
theorem C132_transpose [PyName α] [PyName β] {c : Ctx α β} (h : c.WFw) (ord : ℕ → SetOrder (Concept α β))
    (ord' : ℕ → SetOrder (Concept β α)) :
    ∃ d L L' st st', c.transpose = .ok d ∧ makeLattice c = .ok L ∧ makeLattice d = .ok L' ∧
      estability ord L.concepts = some (.ok st) ∧ istability ord' L'.concepts = some (.ok st') ∧
      ∀ x, st' ⟨x.intent, x.extent⟩ = st x := by
  obtain ⟨d, hd, -, -⟩ := h.transpose
  obtain ⟨hwf, h1, h2, h3⟩ := h.transpose_inc hd
  obtain ⟨L, st, k1, k2, k3, k4⟩ := C42_estability h ord
  obtain ⟨L', st', l1, l2, l3, l4⟩ := C41_istability hwf.toWFw ord'
  obtain ⟨L₁, e1, -, -, -, m1, -⟩ := makeLattice_ok h
  rw [k1] at e1; cases e1
  obtain ⟨L₁, e1, -, -, -, m2, -⟩ := makeLattice_ok hwf.toWFw
  rw [l1] at e1; cases e1
  have hG : d.G = c.M := by unfold G M; rw [h1]
  have hM : d.M = c.G := by unfold G M; rw [h2]
  have hI : d.Inc = fun m g => c.Inc g m := by ext m g; exact h3 m g
  have hmem : ∀ x : Concept α β, (⟨x.intent, x.extent⟩ : Concept β α) ∈ L'.concepts ↔ x ∈ L.concepts := by
    intro x
    rw [m1, m2, hG, hM, hI]
    exact isConcept_swap.symm
  refine ⟨d, L, L', st, st', hd, k1, l1, k2, l2, fun x => ?_⟩
  by_cases hx : x ∈ L.concepts
  · rw [k3 x hx, l3 _ ((hmem x).2 hx), hM, hI]
    rfl
  · rw [k4 x hx, l4 _ fun hn => hx ((hmem x).1 hn)]

/-! ### Concrete case -/

/-- The context `cxtS`: stabilities 1 and 1/2, extents with one and two objects, four sets of objects. -/
example : _root_.cxtS.WFw ∧ norris _root_.cxtS = .ok csS ∧
    showStab csS (istability (fun _ => ordC2) csS) = some [some 1, some (1 / 2)] ∧
    (csS.map fun x => x.extent.card) = [1, 2] ∧ (1 * 2 ^ 1 + 1 / 2 * 2 ^ 2 : ℚ) = 2 ^ _root_.cxtS.objects.length := by
  exact ⟨by constructor <;> decide +kernel, by decide +kernel, by decide +kernel, by decide +kernel, by decide +kernel⟩

end Ctx
