/-
Property C137: the reduced context is determined by the concept lattice (`reduce_objects`, `reduce_attributes`,
fca/context.py; `ConceptLattice`, fca/concept_lattice.py).
-/
import Verif.Props.ReduceExact
import Verif.Props.StabilitySum
import Mathlib.Data.Set.Card

set_option linter.unusedSectionVars false

open Spec

/-! ### Specification -/

namespace Spec
variable {α β : Type}

/-- The row of an object that does not have all attributes is the intersection of rows of other objects. -/
def Redundant (G : Finset α) (M : Finset β) (I : α → β → Prop) : Prop :=
  ∃ g ∈ G, (∃ m ∈ M, ¬ I g m) ∧ ∀ m ∈ M, ¬ I g m → ∃ g' ∈ G, g' ≠ g ∧ (∀ b ∈ M, I g b → I g' b) ∧ ¬ I g' m

/-- `m` separates the row of `g` from all larger rows. -/
def RowIrreducible (G : Finset α) (M : Finset β) (I : α → β → Prop) (g : α) : Prop :=
  ∃ m ∈ M, ¬ I g m ∧ ∀ g' ∈ G, (∀ b ∈ M, I g b → I g' b) → (∃ b ∈ M, I g' b ∧ ¬ I g b) → I g' m

/-- Among the sets of a family that properly contain `B` there is a least one. -/
def HasNext (P : Finset β → Prop) (B : Finset β) : Prop :=
  ∃ B₀, P B₀ ∧ B ⊂ B₀ ∧ ∀ B', P B' → B ⊂ B' → B₀ ⊆ B'

/-- `B` is the row of `g`. -/
def IsRow (M : Finset β) (I : α → β → Prop) (g : α) (B : Finset β) : Prop := ∀ m, m ∈ B ↔ m ∈ M ∧ I g m

end Spec

/-! ### Irreducible rows and irreducible intents -/

section
variable {α β : Type} [DecidableEq α] [DecidableEq β] {G : Finset α} {M : Finset β} {I : α → β → Prop}

theorem isRow_isIntent {g : α} (hg : g ∈ G) {B : Finset β} (h : IsRow M I g B) : IsIntent G M I B := by
  obtain ⟨A, B', h1, h2, h3⟩ := exists_concept (G := G) (M := M) (I := I) {g} (by simpa using hg)
  have : B' = B := by
    ext m
    rw [h3, h]
    simp
  exact ⟨A, this ▸ h1⟩

theorem exists_row (M : Finset β) (I : α → β → Prop) (g : α) : ∃ B, IsRow M I g B := by
  classical
  exact ⟨M.filter (I g), fun m => by simp⟩

theorem IsRow.eq {g : α} {B B' : Finset β} (h : IsRow M I g B) (h' : IsRow M I g B') : B = B' := by
  ext m; rw [h, h']

/-- An intent has a next larger intent exactly if it is an irreducible row. -/
theorem hasNext_iff {B : Finset β} (hB : IsIntent G M I B) :
    HasNext (IsIntent G M I) B ↔ ∃ g ∈ G, RowIrreducible G M I g ∧ IsRow M I g B := by
  obtain ⟨A, hAB⟩ := hB
  constructor
  · rintro ⟨B₀, ⟨A₀, h0⟩, hlt, hmin⟩
    obtain ⟨m, hm0, hm⟩ := Finset.exists_of_ssubset hlt
    have hmM := ((h0.1 m).1 hm0).1
    have : ¬ ∀ g ∈ A, I g m := fun hc => hm ((hAB.1 m).2 ⟨hmM, hc⟩)
    push Not at this
    obtain ⟨g, hg, hgm⟩ := this
    have hgG := ((hAB.2 g).1 hg).1
    have key : ∀ g' ∈ G, (∀ b ∈ B, I g' b) → ¬ IsRow M I g' B → I g' m := by
      intro g' hg' hsup hne
      obtain ⟨R, hR⟩ := exists_row M I g'
      have hlt' : B ⊂ R := by
        refine Finset.ssubset_iff_subset_ne.2 ⟨fun b hb => (hR b).2 ⟨((hAB.1 b).1 hb).1, hsup b hb⟩, ?_⟩
        rintro rfl
        exact hne hR
      exact ((hR m).1 (hmin R (isRow_isIntent hg' hR) hlt' hm0)).2
    have hrow : IsRow M I g B := by
      by_contra hne
      exact hgm (key g hgG ((hAB.2 g).1 hg).2 hne)
    refine ⟨g, hgG, ⟨m, hmM, hgm, fun g' hg' hsup hstrict => ?_⟩, hrow⟩
    refine key g' hg' (fun b hb => hsup b ((hrow b).1 hb).1 ((hrow b).1 hb).2) fun hr => ?_
    obtain ⟨b, hb, hb1, hb2⟩ := hstrict
    exact hb2 ((hrow b).1 ((hr b).2 ⟨hb, hb1⟩)).2
  · rintro ⟨g, hg, ⟨m, hm, hgm, hirr⟩, hrow⟩
    classical
    obtain ⟨A₀, B₀, h0, hS, hB0⟩ := exists_concept (G := G) (M := M) (I := I)
      (G.filter fun g' => (∀ b ∈ M, I g b → I g' b) ∧ ∃ b ∈ M, I g' b ∧ ¬ I g b) (Finset.filter_subset _ _)
    simp only [Finset.mem_filter, and_imp] at hB0
    refine ⟨B₀, ⟨A₀, h0⟩, Finset.ssubset_iff_subset_ne.2 ⟨fun b hb => ?_, ?_⟩, ?_⟩
    · rw [hB0]
      exact ⟨((hrow b).1 hb).1, fun g' _ h1 _ => h1 b ((hrow b).1 hb).1 ((hrow b).1 hb).2⟩
    · rintro rfl
      exact hgm ((hrow m).1 ((hB0 m).2 ⟨hm, fun g' h1 h2 h3 => hirr g' h1 h2 h3⟩)).2
    · rintro B' ⟨A', h'⟩ hlt b hb
      rw [hB0] at hb
      rw [h'.1]
      refine ⟨hb.1, fun g' hg' => ?_⟩
      obtain ⟨hg'G, hg'B⟩ := (h'.2 g').1 hg'
      refine hb.2 g' hg'G (fun x hx hgx => hg'B x (hlt.1 ((hrow x).2 ⟨hx, hgx⟩))) ?_
      obtain ⟨x, hx, hx'⟩ := Finset.exists_of_ssubset hlt
      have hxM := ((h'.1 x).1 hx).1
      exact ⟨x, hxM, hg'B x hx, fun hc => hx' ((hrow x).2 ⟨hxM, hc⟩)⟩

/-- Without redundant objects every row that is not full is irreducible and occurs once. -/
theorem rowIrreducible_of {g : α} (hg : g ∈ G) (hr : ¬ Redundant G M I) (hf : ∃ m ∈ M, ¬ I g m) :
    RowIrreducible G M I g ∧ ∀ g' ∈ G, ∀ B, IsRow M I g B → IsRow M I g' B → g' = g := by
  unfold Redundant at hr
  push Not at hr
  obtain ⟨m, hm, hgm, h⟩ := hr g hg hf
  have h' : ∀ g' ∈ G, (∀ b ∈ M, I g b → I g' b) → g' ≠ g → I g' m := fun g' h1 h2 h3 => h g' h1 h3 h2
  refine ⟨⟨m, hm, hgm, fun g' h1 h2 h3 => h' g' h1 h2 ?_⟩, fun g' h1 B h2 h3 => ?_⟩
  · rintro rfl
    obtain ⟨b, -, hb, hb'⟩ := h3
    exact hb' hb
  · by_contra hne
    have := h' g' h1 (fun b hb hgb => ((h3 b).1 ((h2 b).2 ⟨hb, hgb⟩)).2) hne
    exact hgm ((h2 m).1 ((h3 m).2 ⟨hm, this⟩)).2

/-- Redundancy of objects depends on the extents only. -/
theorem redundant_extents {β' : Type} [DecidableEq β'] {M' : Finset β'} {I' : α → β' → Prop}
    (h : ∀ A, IsExtent G M I A → IsExtent G M' I' A) (h' : ∀ A, IsExtent G M' I' A → IsExtent G M I A)
    (hr : Redundant G M I) : Redundant G M' I' := by
  -- the extent of one attribute
  have ext1 : ∀ {γ : Type} [DecidableEq γ] (N : Finset γ) (J : α → γ → Prop), ∀ m ∈ N, ∃ A B, IsConcept G N J A B ∧
      ∀ g, g ∈ A ↔ g ∈ G ∧ J g m := by
    intro γ _ N J m hm
    obtain ⟨B, A, h1, -, h3⟩ := exists_concept (G := N) (M := G) (I := fun m g => J g m) {m} (by simpa using hm)
    exact ⟨A, B, isConcept_swap.2 h1, fun g => by rw [h3]; simp⟩
  obtain ⟨g, hg, ⟨m0, hm0, hf⟩, hall⟩ := hr
  -- an extent without `g` lies in the extent of an attribute that `g` does not have
  have sep : ∀ {γ : Type} [DecidableEq γ] (N : Finset γ) (J : α → γ → Prop) A, IsExtent G N J A → g ∉ A →
      ∃ m ∈ N, ¬ J g m ∧ ∀ x ∈ A, J x m := by
    rintro γ _ N J A ⟨B, hc⟩ hgA
    by_contra hcon
    push Not at hcon
    refine hgA ((hc.2 g).2 ⟨hg, fun m hm => ?_⟩)
    by_contra hgm
    obtain ⟨x, hx, hxm⟩ := hcon m ((hc.1 m).1 hm).1 hgm
    exact hxm (((hc.1 m).1 hm).2 x hx)
  have conv : ∀ m' ∈ M', ¬ I' g m' → ∃ m ∈ M, ¬ I g m ∧ ∀ x ∈ G, I' x m' → I x m := by
    intro m' hm' hgm'
    obtain ⟨A, B, hc, hA⟩ := ext1 M' I' m' hm'
    obtain ⟨m, hm, h1, h2⟩ := sep M I A (h' A ⟨B, hc⟩) fun hc => hgm' ((hA g).1 hc).2
    exact ⟨m, hm, h1, fun x hx hxm => h2 x ((hA x).2 ⟨hx, hxm⟩)⟩
  refine ⟨g, hg, ?_, fun m' hm' hgm' => ?_⟩
  · obtain ⟨A, B, hc, hA⟩ := ext1 M I m0 hm0
    obtain ⟨m, hm, h1, -⟩ := sep M' I' A (h A ⟨B, hc⟩) fun hc => hf ((hA g).1 hc).2
    exact ⟨m, hm, h1⟩
  · obtain ⟨m, hm, hgm, hsub⟩ := conv m' hm' hgm'
    obtain ⟨g', hg', hne, hsup, hn⟩ := hall m hm hgm
    refine ⟨g', hg', hne, fun b' hb' hgb' => ?_, fun hc => hn (hsub g' hg' hc)⟩
    obtain ⟨A, B, hc, hA⟩ := ext1 M' I' b' hb'
    obtain ⟨B', hc'⟩ := h' A ⟨B, hc⟩
    refine ((hA g').1 ((hc'.2 g').2 ⟨hg', fun m hm => ?_⟩)).2
    exact hsup m ((hc'.1 m).1 hm).1 (((hc'.1 m).1 hm).2 g ((hA g).2 ⟨hg, hgb'⟩))

end

/-! ### One child, one parent -/

section
variable {α β : Type} [DecidableEq α] [DecidableEq β] {G : Finset α} {M : Finset β} {I : α → β → Prop}

theorem concepts_anti {x y : Concept α β} (hx : IsConcept G M I x.extent x.intent) (hy : IsConcept G M I y.extent y.intent) :
    x.extent ⊆ y.extent ↔ y.intent ⊆ x.intent := by
  constructor
  · intro hs m hm
    exact (hx.1 m).2 ⟨((hy.1 m).1 hm).1, fun g hg => ((hy.1 m).1 hm).2 g (hs hg)⟩
  · intro hs g hg
    exact (hy.2 g).2 ⟨((hx.2 g).1 hg).1, fun m hm => ((hx.2 g).1 hg).2 m (hs hm)⟩

theorem one_child_iff {cs : List (Concept α β)} (hcs : ∀ x, x ∈ cs ↔ IsConcept G M I x.extent x.intent) {x : Concept α β}
    (hx : x ∈ cs) (T : Finset (Concept α β)) (hT : ∀ d, d ∈ T ↔ d ∈ cs ∧ Covers Concept.intent cs x d) :
    T.card = 1 ↔ HasNext (IsIntent G M I) x.intent := by
  rw [Finset.card_eq_one]
  constructor
  · rintro ⟨y, rfl⟩
    obtain ⟨hy, hxy⟩ := (hT y).1 (by simp)
    refine ⟨y.intent, ⟨_, (hcs y).1 hy⟩, hxy.2.1, ?_⟩
    rintro B' ⟨A', h'⟩ hlt
    obtain ⟨z, hz, hc, hs⟩ := exists_child (y := ⟨A', B'⟩) hx ((hcs ⟨A', B'⟩).2 h') hlt
    have := (hT z).2 ⟨hz, hc⟩
    rw [Finset.mem_singleton] at this
    exact this ▸ hs
  · rintro ⟨B₀, ⟨A₀, h0⟩, hlt, hmin⟩
    refine ⟨⟨A₀, B₀⟩, ?_⟩
    have h0' := (hcs ⟨A₀, B₀⟩).2 h0
    ext d
    rw [Finset.mem_singleton, hT]
    constructor
    · rintro ⟨hd, -, hxd, hno⟩
      have hs := hmin d.intent ⟨_, (hcs d).1 hd⟩ hxd
      refine concept_eq_of_intent ((hcs d).1 hd) h0 ?_
      by_contra hne
      exact hno ⟨_, h0', hlt, Finset.ssubset_iff_subset_ne.2 ⟨hs, fun he => hne he.symm⟩⟩
    · rintro rfl
      refine ⟨h0', hx, hlt, ?_⟩
      rintro ⟨k, hk, hk1, hk2⟩
      exact hk2.2 (hmin k.intent ⟨_, (hcs k).1 hk⟩ hk1)

theorem one_parent_iff {cs : List (Concept α β)} (hcs : ∀ x, x ∈ cs ↔ IsConcept G M I x.extent x.intent) {x : Concept α β}
    (hx : x ∈ cs) (S : Finset (Concept α β)) (hS : ∀ p, p ∈ S ↔ Covers Concept.intent cs p x) :
    S.card = 1 ↔ HasNext (IsExtent G M I) x.extent := by
  have anti : ∀ {x y : Concept α β}, x ∈ cs → y ∈ cs → (x.extent ⊂ y.extent ↔ y.intent ⊂ x.intent) := by
    intro x y hx hy
    rw [Finset.ssubset_def, Finset.ssubset_def, concepts_anti ((hcs x).1 hx) ((hcs y).1 hy),
      concepts_anti ((hcs y).1 hy) ((hcs x).1 hx)]
  rw [Finset.card_eq_one]
  constructor
  · rintro ⟨y, rfl⟩
    obtain ⟨hy, hxy⟩ := (hS y).1 (by simp)
    refine ⟨y.extent, ⟨_, (hcs y).1 hy⟩, (anti hx hy).2 hxy.1, ?_⟩
    rintro A' ⟨B', h'⟩ hlt
    have hz' := (hcs ⟨A', B'⟩).2 h'
    obtain ⟨z, hz, hc, hs⟩ := exists_parent (y := ⟨A', B'⟩) hx hz' ((anti hx hz').1 hlt)
    have := (hS z).2 hc
    rw [Finset.mem_singleton] at this
    exact this ▸ (concepts_anti ((hcs z).1 hz) h').2 hs
  · rintro ⟨A₀, ⟨B₀, h0⟩, hlt, hmin⟩
    refine ⟨⟨A₀, B₀⟩, ?_⟩
    have h0' := (hcs ⟨A₀, B₀⟩).2 h0
    ext d
    rw [Finset.mem_singleton, hS]
    constructor
    · rintro ⟨hd, hxd, hno⟩
      have hs := hmin d.extent ⟨_, (hcs d).1 hd⟩ ((anti hx hd).2 hxd)
      refine concept_eq_of_extent ((hcs d).1 hd) h0 ?_
      by_contra hne
      exact hno ⟨_, h0', (anti h0' hd).1 (Finset.ssubset_iff_subset_ne.2 ⟨hs, fun he => hne he.symm⟩), (anti hx h0').1 hlt⟩
    · rintro rfl
      refine ⟨h0', (anti hx h0').1 hlt, ?_⟩
      rintro ⟨k, hk, hk1, hk2⟩
      exact ((anti hk h0').2 hk1).2 (hmin k.extent ⟨_, (hcs k).1 hk⟩ ((anti hx hk).2 hk2))

end

/-! ### Counting -/

section
variable {α β : Type} [DecidableEq α] [DecidableEq β] {G : Finset α} {M : Finset β} {I : α → β → Prop}

open Classical in
theorem next_subset_rows :
    {B | IsIntent G M I B ∧ HasNext (IsIntent G M I) B} ⊆
      (fun g => M.filter (I g)) '' {g | g ∈ G ∧ ∃ m ∈ M, ¬ I g m} := by
  rintro B ⟨hB, hn⟩
  obtain ⟨g, hg, ⟨m, hm, hgm, -⟩, hrow⟩ := (hasNext_iff hB).1 hn
  refine ⟨g, ⟨hg, m, hm, hgm⟩, ?_⟩
  ext b
  rw [hrow]
  simp

theorem nonfull_finite : {g | g ∈ G ∧ ∃ m ∈ M, ¬ I g m}.Finite := G.finite_toSet.subset fun _ h => h.1

/-- There are at least as many rows that are not full as intents with a next one. -/
theorem next_count_le :
    {B | IsIntent G M I B ∧ HasNext (IsIntent G M I) B}.ncard ≤ {g | g ∈ G ∧ ∃ m ∈ M, ¬ I g m}.ncard := by
  classical
  exact (Set.ncard_le_ncard next_subset_rows (nonfull_finite.image _)).trans (Set.ncard_image_le nonfull_finite)

theorem next_count_eq (hr : ¬ Redundant G M I) :
    {B | IsIntent G M I B ∧ HasNext (IsIntent G M I) B}.ncard = {g | g ∈ G ∧ ∃ m ∈ M, ¬ I g m}.ncard := by
  classical
  have hrow : ∀ g, IsRow M I g (M.filter (I g)) := fun g m => by simp
  have : {B | IsIntent G M I B ∧ HasNext (IsIntent G M I) B} =
      (fun g => M.filter (I g)) '' {g | g ∈ G ∧ ∃ m ∈ M, ¬ I g m} := by
    refine subset_antisymm next_subset_rows ?_
    rintro _ ⟨g, ⟨hg, hf⟩, rfl⟩
    have hi := isRow_isIntent (G := G) hg (hrow g)
    exact ⟨hi, (hasNext_iff hi).2 ⟨g, hg, (rowIrreducible_of hg hr hf).1, hrow g⟩⟩
  rw [this]
  refine Set.InjOn.ncard_image ?_
  rintro g ⟨hg, hf⟩ g' ⟨hg', hf'⟩ he
  simp only at he
  exact ((rowIrreducible_of hg hr hf).2 g' hg' _ (hrow g) (he ▸ hrow g')).symm

/-- If no two of these rows are equal and there are no more of them, none is redundant. -/
theorem not_redundant_of_count (hinj : ∀ g ∈ G, ∀ g' ∈ G, (∀ m ∈ M, I g m ↔ I g' m) → g = g')
    (h : {g | g ∈ G ∧ ∃ m ∈ M, ¬ I g m}.ncard ≤ {B | IsIntent G M I B ∧ HasNext (IsIntent G M I) B}.ncard) :
    ¬ Redundant G M I := by
  classical
  have hrow : ∀ g, IsRow M I g (M.filter (I g)) := fun g m => by simp
  have heq := Set.eq_of_subset_of_ncard_le (next_subset_rows (G := G) (M := M) (I := I))
    ((Set.ncard_image_le nonfull_finite).trans h) (nonfull_finite.image _)
  rintro ⟨g, hg, hf, hall⟩
  have hmem : M.filter (I g) ∈ {B | IsIntent G M I B ∧ HasNext (IsIntent G M I) B} := by
    rw [heq]; exact ⟨g, ⟨hg, hf⟩, rfl⟩
  obtain ⟨g₁, hg₁, ⟨m, hm, hgm, hirr⟩, hr₁⟩ := (hasNext_iff hmem.1).1 hmem.2
  have hg1 : g₁ = g := hinj g₁ hg₁ g hg fun b hb => by
    have := (hr₁ b).symm.trans (hrow g b)
    simpa [hb] using this
  subst hg1
  obtain ⟨g', hg', hne, hsup, hn⟩ := hall m hm hgm
  refine hn (hirr g' hg' hsup ?_)
  by_contra hcon
  push Not at hcon
  exact hne (hinj g' hg' g₁ hg fun b hb => ⟨hcon b hb, hsup b hb⟩)

end

/-! ### Orders that are the same -/

/-- The concepts of two lattices correspond to each other, with the same order. -/
def SameLattice {α β α' β' : Type} [DecidableEq α] [DecidableEq β] [DecidableEq α'] [DecidableEq β']
    (L : CLattice α β) (L' : CLattice α' β') : Prop :=
  ∃ f : {x // x ∈ L.concepts} ≃ {x // x ∈ L'.concepts}, ∀ x y, x.1.extent ⊆ y.1.extent ↔ (f x).1.extent ⊆ (f y).1.extent

section
variable {α β α' β' α'' β'' : Type} [DecidableEq α] [DecidableEq β] [DecidableEq α'] [DecidableEq β'] [DecidableEq α'']
  [DecidableEq β'']

theorem SameLattice.symm {L : CLattice α β} {L' : CLattice α' β'} (h : SameLattice L L') : SameLattice L' L := by
  obtain ⟨f, hf⟩ := h
  exact ⟨f.symm, fun x y => by rw [hf]; simp⟩

theorem SameLattice.trans {L : CLattice α β} {L' : CLattice α' β'} {L'' : CLattice α'' β''} (h : SameLattice L L')
    (h' : SameLattice L' L'') : SameLattice L L'' := by
  obtain ⟨f, hf⟩ := h
  obtain ⟨f', hf'⟩ := h'
  exact ⟨f.trans f', fun x y => by rw [hf, hf']; rfl⟩

variable {G : Finset α} {M : Finset β} {I : α → β → Prop} {G' : Finset α'} {M' : Finset β'} {I' : α' → β' → Prop}

/-- A correspondence of the intents. -/
theorem sameLattice_of_intents {L : CLattice α β} {L' : CLattice α' β'}
    (hL : ∀ x, x ∈ L.concepts ↔ IsConcept G M I x.extent x.intent)
    (hL' : ∀ x, x ∈ L'.concepts ↔ IsConcept G' M' I' x.extent x.intent)
    (p : Finset β → Finset β') (q : Finset β' → Finset β) (hp : ∀ B, IsIntent G M I B → IsIntent G' M' I' (p B))
    (hq : ∀ B, IsIntent G' M' I' B → IsIntent G M I (q B)) (hqp : ∀ B, IsIntent G M I B → q (p B) = B)
    (hpq : ∀ B, IsIntent G' M' I' B → p (q B) = B) (hpm : ∀ B C, B ⊆ C → p B ⊆ p C) (hqm : ∀ B C, B ⊆ C → q B ⊆ q C) :
    SameLattice L L' := by
  have h1 : ∀ x : {x // x ∈ L.concepts}, ∃ y : {y // y ∈ L'.concepts}, y.1.intent = p x.1.intent := by
    rintro ⟨x, hx⟩
    obtain ⟨A, hA⟩ := hp _ ⟨_, (hL x).1 hx⟩
    exact ⟨⟨⟨A, p x.intent⟩, (hL' _).2 hA⟩, rfl⟩
  have h2 : ∀ y : {y // y ∈ L'.concepts}, ∃ x : {x // x ∈ L.concepts}, x.1.intent = q y.1.intent := by
    rintro ⟨x, hx⟩
    obtain ⟨A, hA⟩ := hq _ ⟨_, (hL' x).1 hx⟩
    exact ⟨⟨⟨A, q x.intent⟩, (hL _).2 hA⟩, rfl⟩
  choose f hf using h1
  choose g hg using h2
  refine ⟨⟨f, g, fun x => Subtype.ext ?_, fun y => Subtype.ext ?_⟩, fun x y => ?_⟩
  · refine concept_eq_of_intent ((hL _).1 (g (f x)).2) ((hL _).1 x.2) ?_
    rw [hg, hf, hqp _ ⟨_, (hL _).1 x.2⟩]
  · refine concept_eq_of_intent ((hL' _).1 (f (g y)).2) ((hL' _).1 y.2) ?_
    rw [hf, hg, hpq _ ⟨_, (hL' _).1 y.2⟩]
  · change _ ↔ (f x).1.extent ⊆ (f y).1.extent
    rw [concepts_anti ((hL _).1 x.2) ((hL _).1 y.2), concepts_anti ((hL' _).1 (f x).2) ((hL' _).1 (f y).2), hf, hf]
    refine ⟨hpm _ _, fun h => ?_⟩
    have := hqm _ _ h
    rwa [hqp _ ⟨_, (hL _).1 x.2⟩, hqp _ ⟨_, (hL _).1 y.2⟩] at this

/-- Equal extents. -/
theorem sameLattice_of_extents {L : CLattice α β} {L' : CLattice α β'} {G' : Finset α} {I' : α → β' → Prop}
    (hL : ∀ x, x ∈ L.concepts ↔ IsConcept G M I x.extent x.intent)
    (hL' : ∀ x, x ∈ L'.concepts ↔ IsConcept G' M' I' x.extent x.intent)
    (h : ∀ A, IsExtent G M I A ↔ IsExtent G' M' I' A) : SameLattice L L' := by
  have h1 : ∀ x : {x // x ∈ L.concepts}, ∃ y : {y // y ∈ L'.concepts}, y.1.extent = x.1.extent := by
    rintro ⟨x, hx⟩
    obtain ⟨B, hB⟩ := (h _).1 ⟨_, (hL x).1 hx⟩
    exact ⟨⟨⟨x.extent, B⟩, (hL' _).2 hB⟩, rfl⟩
  have h2 : ∀ y : {y // y ∈ L'.concepts}, ∃ x : {x // x ∈ L.concepts}, x.1.extent = y.1.extent := by
    rintro ⟨x, hx⟩
    obtain ⟨B, hB⟩ := (h _).2 ⟨_, (hL' x).1 hx⟩
    exact ⟨⟨⟨x.extent, B⟩, (hL _).2 hB⟩, rfl⟩
  choose f hf using h1
  choose g hg using h2
  refine ⟨⟨f, g, fun x => Subtype.ext ?_, fun y => Subtype.ext ?_⟩, fun x y => ?_⟩
  · refine concept_eq_of_extent ((hL _).1 (g (f x)).2) ((hL _).1 x.2) ?_
    rw [hg, hf]
  · refine concept_eq_of_extent ((hL' _).1 (f (g y)).2) ((hL' _).1 y.2) ?_
    rw [hf, hg]
  · change _ ↔ (f x).1.extent ⊆ (f y).1.extent
    rw [hf, hf]

/-- Which concepts have a next intent or extent is a matter of the order. -/
theorem next_concepts {cs : List (Concept α β)} (hcs : ∀ x, x ∈ cs ↔ IsConcept G M I x.extent x.intent)
    {x : Concept α β} (hx : x ∈ cs) :
    (HasNext (IsIntent G M I) x.intent ↔ ∃ y : {y // y ∈ cs}, (y.1.extent ⊆ x.extent ∧ ¬ x.extent ⊆ y.1.extent) ∧
      ∀ z : {z // z ∈ cs}, (z.1.extent ⊆ x.extent ∧ ¬ x.extent ⊆ z.1.extent) → z.1.extent ⊆ y.1.extent) ∧
    (HasNext (IsExtent G M I) x.extent ↔ ∃ y : {y // y ∈ cs}, (x.extent ⊆ y.1.extent ∧ ¬ y.1.extent ⊆ x.extent) ∧
      ∀ z : {z // z ∈ cs}, (x.extent ⊆ z.1.extent ∧ ¬ z.1.extent ⊆ x.extent) → y.1.extent ⊆ z.1.extent) := by
  have an : ∀ {x y : Concept α β}, x ∈ cs → y ∈ cs → (x.extent ⊆ y.extent ↔ y.intent ⊆ x.intent) := fun hx hy =>
    concepts_anti ((hcs _).1 hx) ((hcs _).1 hy)
  constructor
  · constructor
    · rintro ⟨B, ⟨A, h0⟩, hlt, hmin⟩
      have hy := (hcs ⟨A, B⟩).2 h0
      refine ⟨⟨_, hy⟩, ⟨(an hy hx).2 hlt.1, fun h => hlt.2 ((an hx hy).1 h)⟩, fun z hz => ?_⟩
      exact (an z.2 hy).2 (hmin _ ⟨_, (hcs _).1 z.2⟩ ⟨(an z.2 hx).1 hz.1, fun h => hz.2 ((an hx z.2).2 h)⟩)
    · rintro ⟨y, ⟨h1, h2⟩, hmin⟩
      refine ⟨y.1.intent, ⟨_, (hcs _).1 y.2⟩, ⟨(an y.2 hx).1 h1, fun h => h2 ((an hx y.2).2 h)⟩, ?_⟩
      rintro B' ⟨A', h'⟩ hlt
      have hz := (hcs ⟨A', B'⟩).2 h'
      exact (an hz y.2).1 (hmin ⟨_, hz⟩ ⟨(an hz hx).2 hlt.1, fun h => hlt.2 ((an hx hz).1 h)⟩)
  · constructor
    · rintro ⟨A, ⟨B, h0⟩, hlt, hmin⟩
      have hy := (hcs ⟨A, B⟩).2 h0
      exact ⟨⟨_, hy⟩, hlt, fun z hz => hmin _ ⟨_, (hcs _).1 z.2⟩ hz⟩
    · rintro ⟨y, h1, hmin⟩
      refine ⟨y.1.extent, ⟨_, (hcs _).1 y.2⟩, h1, ?_⟩
      rintro A' ⟨B', h'⟩ hlt
      exact hmin ⟨⟨A', B'⟩, (hcs ⟨A', B'⟩).2 h'⟩ hlt

theorem next_iso {L : CLattice α β} {L' : CLattice α' β'}
    (hL : ∀ x, x ∈ L.concepts ↔ IsConcept G M I x.extent x.intent)
    (hL' : ∀ x, x ∈ L'.concepts ↔ IsConcept G' M' I' x.extent x.intent)
    (f : {x // x ∈ L.concepts} ≃ {x // x ∈ L'.concepts})
    (hf : ∀ x y, x.1.extent ⊆ y.1.extent ↔ (f x).1.extent ⊆ (f y).1.extent) (x : {x // x ∈ L.concepts}) :
    (HasNext (IsIntent G M I) x.1.intent ↔ HasNext (IsIntent G' M' I') (f x).1.intent) ∧
    (HasNext (IsExtent G M I) x.1.extent ↔ HasNext (IsExtent G' M' I') (f x).1.extent) := by
  rw [(next_concepts hL x.2).1, (next_concepts hL' (f x).2).1, (next_concepts hL x.2).2, (next_concepts hL' (f x).2).2]
  constructor
  · rw [f.exists_congr_left]
    refine exists_congr fun y => ?_
    simp only [hf, f.apply_symm_apply]
    refine and_congr_right fun _ => ?_
    rw [f.forall_congr_left]
    simp only [f.apply_symm_apply]
  · rw [f.exists_congr_left]
    refine exists_congr fun y => ?_
    simp only [hf, f.apply_symm_apply]
    refine and_congr_right fun _ => ?_
    rw [f.forall_congr_left]
    simp only [f.apply_symm_apply]

end

namespace Ctx
variable {α β α' β' : Type} [DecidableEq α] [DecidableEq β] [DecidableEq α'] [DecidableEq β']

/-- The objects that do not have all attributes. -/
def ProperObjects (c : Ctx α β) : Set α := {o | o ∈ c.objects ∧ ∃ a ∈ c.attributes, ¬ c.Inc o a}

/-- The attributes that not all objects have. -/
def ProperAttributes (c : Ctx α β) : Set β := {a | a ∈ c.attributes ∧ ∃ o ∈ c.objects, ¬ c.Inc o a}

/-- No row and no column can be removed without changing the lattice. -/
def Irredundant (c : Ctx α β) : Prop := ¬ Redundant c.G c.M c.Inc ∧ ¬ Redundant c.M c.G fun a o => c.Inc o a

end Ctx

/-- `children` has one element. -/
def CLattice.OneChild {α β : Type} [DecidableEq α] [DecidableEq β] (L : CLattice α β) (x : Concept α β) : Prop :=
  ∃ T, L.children x = .ok T ∧ T.card = 1

/-- `parents` has one element. -/
def CLattice.OneParent {α β : Type} [DecidableEq α] [DecidableEq β] (L : CLattice α β) (x : Concept α β) : Prop :=
  ∃ S, L.parentsOf x = .ok S ∧ S.card = 1

namespace Ctx
variable {α β α' β' : Type} [DecidableEq α] [DecidableEq β] [DecidableEq α'] [DecidableEq β']

theorem lattice_next {c : Ctx α β} (h : c.WFw) :
    ∃ L, makeLattice c = .ok L ∧ (∀ x, x ∈ L.concepts ↔ IsConcept c.G c.M c.Inc x.extent x.intent) ∧
      ∀ x ∈ L.concepts, (L.OneChild x ↔ HasNext (IsIntent c.G c.M c.Inc) x.intent) ∧
        (L.OneParent x ↔ HasNext (IsExtent c.G c.M c.Inc) x.extent) := by
  obtain ⟨L, h1, -, -, -, h3, -⟩ := makeLattice_ok h
  obtain ⟨L', h1', hch, -⟩ := C38_parents_children h
  rw [h1] at h1'; cases h1'
  refine ⟨L, h1, h3, fun x hx => ?_⟩
  obtain ⟨S, T, hS, hT, hS', hT'⟩ := hch x hx
  constructor
  · rw [← one_child_iff h3 hx T fun d => ?_]
    · exact ⟨fun ⟨T', h1, h2⟩ => by rw [hT] at h1; cases h1; exact h2, fun h => ⟨T, hT, h⟩⟩
    · rw [hT']
      refine and_congr_right fun hd => ?_
      obtain ⟨S', T', k1, -, k2, -⟩ := hch d hd
      rw [← k2]
      exact ⟨fun ⟨S'', h1, h2⟩ => by rw [k1] at h1; cases h1; exact h2, fun h => ⟨S', k1, h⟩⟩
  · rw [← one_parent_iff h3 hx S hS']
    exact ⟨fun ⟨S', h1, h2⟩ => by rw [hS] at h1; cases h1; exact h2, fun h => ⟨S, hS, h⟩⟩

theorem hasReducible_iff {c : Ctx α β} : HasReducible c ↔ Redundant c.G c.M c.Inc := by
  unfold HasReducible Redundant G M
  simp only [List.mem_toFinset]
  refine exists_congr fun g => and_congr_right fun hg => and_congr_right fun _ => ?_
  refine forall₃_congr fun m hm _ => exists_congr fun g' => and_congr_right fun _ => and_congr_right fun _ => ?_
  refine and_congr_left fun _ => ⟨fun h b _ => h b, fun h b hb => h b hb.mem.2 hb⟩

/-- A concept has exactly one child if and only if it is the concept of an object whose row is not full and not the
intersection of larger rows; exactly one parent, if and only if it is that of such an attribute. -/
theorem C137_one_child [PyName α] [PyName β] {c : Ctx α β} (h : c.WFw) :
    ∃ L, makeLattice c = .ok L ∧
      (∀ x ∈ L.concepts, L.OneChild x ↔ ∃ o ∈ c.ProperObjects, ¬ c.Reducible o ∧ ∀ a, a ∈ x.intent ↔ c.Inc o a) ∧
      ∀ t, c.transpose = .ok t →
        ∀ x ∈ L.concepts, L.OneParent x ↔ ∃ a ∈ c.ProperAttributes, ¬ t.Reducible a ∧ ∀ o, o ∈ x.extent ↔ c.Inc o a := by
  obtain ⟨L, h1, h2, h3⟩ := lattice_next h
  have red : ∀ {α β : Type} [DecidableEq α] [DecidableEq β] (c : Ctx α β) (o : α),
      RowIrreducible c.G c.M c.Inc o ↔ (∃ a ∈ c.attributes, ¬ c.Inc o a) ∧ ¬ c.Reducible o := by
    intro α β _ _ c o
    unfold RowIrreducible Reducible G M
    simp only [List.mem_toFinset]
    constructor
    · rintro ⟨m, hm, hom, hall⟩
      refine ⟨⟨m, hm, hom⟩, fun hc => ?_⟩
      obtain ⟨o', ho', k1, k2, k3⟩ := hc.2 m hm hom
      exact k3 (hall o' ho' k1 k2)
    · rintro ⟨hf, hr⟩
      push Not at hr
      obtain ⟨m, hm, hom, hall⟩ := hr hf
      exact ⟨m, hm, hom, fun g hg k1 ⟨b, hb, k2, k3⟩ => hall g hg k1 ⟨b, hb, k2, k3⟩⟩
  have row : ∀ {α β : Type} [DecidableEq α] [DecidableEq β] (c : Ctx α β) (o : α) (B : Finset β),
      IsRow c.M c.Inc o B ↔ ∀ a, a ∈ B ↔ c.Inc o a := by
    intro α β _ _ c o B
    unfold IsRow M
    simp only [List.mem_toFinset]
    exact forall_congr' fun a => by rw [and_iff_right_of_imp fun h => h.mem.2]
  refine ⟨L, h1, fun x hx => ?_, fun t ht x hx => ?_⟩
  · rw [(h3 x hx).1, hasNext_iff ⟨_, (h2 x).1 hx⟩]
    refine exists_congr fun o => ?_
    rw [red, row]
    unfold ProperObjects G
    simp only [List.mem_toFinset, Set.mem_ofPred_eq]
    tauto
  · obtain ⟨-, hto, hta, hti⟩ := h.transpose_inc ht
    have he : IsExtent c.G c.M c.Inc = IsIntent t.G t.M t.Inc := by
      ext A; rw [extent_transpose hto hta hti]
    rw [(h3 x hx).2, he, hasNext_iff (by rw [extent_transpose hto hta hti]; exact ⟨_, (h2 x).1 hx⟩)]
    refine exists_congr fun a => ?_
    rw [red, row]
    unfold ProperAttributes G
    simp only [List.mem_toFinset, Set.mem_ofPred_eq, hto, hta, hti]
    tauto

theorem count_oneChild {c : Ctx α β} {L : CLattice α β}
    (h2 : ∀ x, x ∈ L.concepts ↔ IsConcept c.G c.M c.Inc x.extent x.intent)
    (h3 : ∀ x ∈ L.concepts, (L.OneChild x ↔ HasNext (IsIntent c.G c.M c.Inc) x.intent)) :
    {x | x ∈ L.concepts ∧ L.OneChild x}.ncard =
      {B | IsIntent c.G c.M c.Inc B ∧ HasNext (IsIntent c.G c.M c.Inc) B}.ncard := by
  have : {B | IsIntent c.G c.M c.Inc B ∧ HasNext (IsIntent c.G c.M c.Inc) B} =
      Concept.intent '' {x | x ∈ L.concepts ∧ L.OneChild x} := by
    ext B
    constructor
    · rintro ⟨⟨A, hA⟩, hn⟩
      have hx := (h2 ⟨A, B⟩).2 hA
      exact ⟨⟨A, B⟩, ⟨hx, (h3 _ hx).2 hn⟩, rfl⟩
    · rintro ⟨x, ⟨hx, h1⟩, rfl⟩
      exact ⟨⟨_, (h2 x).1 hx⟩, (h3 x hx).1 h1⟩
  rw [this]
  symm
  refine Set.InjOn.ncard_image ?_
  rintro x ⟨hx, -⟩ y ⟨hy, -⟩ he
  exact concept_eq_of_intent ((h2 x).1 hx) ((h2 y).1 hy) he

theorem count_oneParent {c : Ctx α β} {L : CLattice α β}
    (h2 : ∀ x, x ∈ L.concepts ↔ IsConcept c.G c.M c.Inc x.extent x.intent)
    (h3 : ∀ x ∈ L.concepts, (L.OneParent x ↔ HasNext (IsExtent c.G c.M c.Inc) x.extent)) :
    {x | x ∈ L.concepts ∧ L.OneParent x}.ncard =
      {A | IsExtent c.G c.M c.Inc A ∧ HasNext (IsExtent c.G c.M c.Inc) A}.ncard := by
  have : {A | IsExtent c.G c.M c.Inc A ∧ HasNext (IsExtent c.G c.M c.Inc) A} =
      Concept.extent '' {x | x ∈ L.concepts ∧ L.OneParent x} := by
    ext A
    constructor
    · rintro ⟨⟨B, hB⟩, hn⟩
      have hx := (h2 ⟨A, B⟩).2 hB
      exact ⟨⟨A, B⟩, ⟨hx, (h3 _ hx).2 hn⟩, rfl⟩
    · rintro ⟨x, ⟨hx, h1⟩, rfl⟩
      exact ⟨⟨_, (h2 x).1 hx⟩, (h3 x hx).1 h1⟩
  rw [this]
  symm
  refine Set.InjOn.ncard_image ?_
  rintro x ⟨hx, -⟩ y ⟨hy, -⟩ he
  exact concept_eq_of_extent ((h2 x).1 hx) ((h2 y).1 hy) he

theorem properObjects_eq (c : Ctx α β) : c.ProperObjects = {g | g ∈ c.G ∧ ∃ m ∈ c.M, ¬ c.Inc g m} := by
  unfold ProperObjects G M
  simp only [List.mem_toFinset]

theorem properAttributes_eq (c : Ctx α β) : c.ProperAttributes = {a | a ∈ c.M ∧ ∃ o ∈ c.G, ¬ c.Inc o a} := by
  unfold ProperAttributes G M
  simp only [List.mem_toFinset]

theorem isExtent_swap {G : Finset α} {M : Finset β} {I : α → β → Prop} :
    IsExtent G M I = IsIntent M G fun a o => I o a := by
  ext A
  exact exists_congr fun B => isConcept_swap

section
variable [PyName α] [PyName β]

theorem reduceObjects_rows {c d : Ctx α β} (h : c.WFw) (hd : c.reduceObjects = .ok d) :
    ∀ g ∈ d.G, ∀ g' ∈ d.G, (∀ m ∈ d.M, d.Inc g m ↔ d.Inc g' m) → g = g' := by
  obtain ⟨d', R, hd', hat, hinc, hsub, hobj, -⟩ := C12_exact h
  rw [hd] at hd'; cases hd'
  intro g hg g' hg' hrow
  unfold G M at *
  rw [List.mem_toFinset] at hg hg'
  simp only [List.mem_toFinset, hat] at hrow
  have he : c.numberOf g = c.numberOf g' := by
    unfold numberOf
    congr 1
    refine List.map_congr_left fun a ha => ?_
    rw [Bool.eq_iff_iff, @decide_eq_true_eq _ (_), @decide_eq_true_eq _ (_), ← hinc g hg, ← hinc g' hg', hrow a ha]
  have h1 := ((hobj g (hsub.subset hg)).1 hg).2 g' (hsub.subset hg') he.symm
  have h2 := ((hobj g' (hsub.subset hg')).1 hg').2 g (hsub.subset hg) he
  exact (List.idxOf_inj (hsub.subset hg)).1 (le_antisymm h2 h1)

/-- `reduce_objects` keeps an object for every concept with one child. A context with the same intents has at least as
many objects that do not have all attributes as there are such concepts; the result has exactly as many if and only if no
row of it is an intersection of others, in particular if no number of a row can be mistaken for a position. -/
theorem C137_objects {c : Ctx α β} (h : c.WFw) :
    ∃ L d, makeLattice c = .ok L ∧ c.reduceObjects = .ok d ∧
      (∀ x ∈ L.concepts, L.OneChild x → ∃ o ∈ d.ProperObjects, ∀ a, a ∈ x.intent ↔ d.Inc o a) ∧
      (∀ (k : Ctx α' β), k.WFw → (∀ B, IsIntent k.G k.M k.Inc B ↔ IsIntent c.G c.M c.Inc B) →
        {x | x ∈ L.concepts ∧ L.OneChild x}.ncard ≤ k.ProperObjects.ncard) ∧
      {x | x ∈ L.concepts ∧ L.OneChild x}.ncard ≤ d.ProperObjects.ncard ∧
      ({x | x ∈ L.concepts ∧ L.OneChild x}.ncard = d.ProperObjects.ncard ↔ ¬ HasReducible d) ∧
      ((∀ r ∈ c.nd.rows, list2int r = 0 ∨ c.objects.length ≤ list2int r) →
        {x | x ∈ L.concepts ∧ L.OneChild x}.ncard = d.ProperObjects.ncard) := by
  obtain ⟨L, h1, h2, h3⟩ := lattice_next h
  obtain ⟨d, hd, hdw, hsub, hat, hinc, -, hint⟩ := C11_reduce_objects h
  have hcount := count_oneChild h2 fun x hx => (h3 x hx).1
  have hfun : IsIntent d.G d.M d.Inc = IsIntent c.G c.M c.Inc := by ext B; exact hint B
  have hiff : {x | x ∈ L.concepts ∧ L.OneChild x}.ncard = d.ProperObjects.ncard ↔ ¬ HasReducible d := by
    rw [hcount, properObjects_eq, hasReducible_iff, ← hfun]
    exact ⟨fun he => not_redundant_of_count (reduceObjects_rows h hd) he.ge, next_count_eq⟩
  refine ⟨L, d, h1, hd, fun x hx hone => ?_, fun k hk hki => ?_, ?_, hiff, fun hcode =>
    hiff.2 (C12_complete_partial h hd hcode)⟩
  · have hn := (h3 x hx).1.1 hone
    have hi : IsIntent c.G c.M c.Inc x.intent := ⟨_, (h2 x).1 hx⟩
    rw [← hfun] at hn hi
    obtain ⟨o, ho, ⟨m, hm, hom, -⟩, hrow⟩ := (hasNext_iff hi).1 hn
    refine ⟨o, by rw [properObjects_eq]; exact ⟨ho, m, hm, hom⟩, fun a => ?_⟩
    rw [hrow]
    exact and_iff_right_of_imp fun h => List.mem_toFinset.2 h.mem.2
  · have hfk : IsIntent k.G k.M k.Inc = IsIntent c.G c.M c.Inc := by ext B; exact hki B
    rw [hcount, properObjects_eq, ← hfk]
    exact next_count_le
  · rw [hcount, properObjects_eq, ← hfun]
    exact next_count_le

/-- The same for `reduce_attributes` and the concepts with one parent. -/
theorem C137_attributes {c : Ctx α β} (h : c.WFw) :
    ∃ L d t, makeLattice c = .ok L ∧ c.reduceAttributes = .ok d ∧ c.transpose = .ok t ∧
      (∀ x ∈ L.concepts, L.OneParent x → ∃ a ∈ d.ProperAttributes, ∀ o, o ∈ x.extent ↔ d.Inc o a) ∧
      (∀ (k : Ctx α β'), k.WFw → (∀ A, IsExtent k.G k.M k.Inc A ↔ IsExtent c.G c.M c.Inc A) →
        {x | x ∈ L.concepts ∧ L.OneParent x}.ncard ≤ k.ProperAttributes.ncard) ∧
      {x | x ∈ L.concepts ∧ L.OneParent x}.ncard ≤ d.ProperAttributes.ncard ∧
      ({x | x ∈ L.concepts ∧ L.OneParent x}.ncard = d.ProperAttributes.ncard ↔
        ¬ Redundant d.M d.G fun a o => d.Inc o a) ∧
      ((∀ r ∈ t.nd.rows, list2int r = 0 ∨ c.attributes.length ≤ list2int r) →
        {x | x ∈ L.concepts ∧ L.OneParent x}.ncard = d.ProperAttributes.ncard) := by
  obtain ⟨L, h1, h2, h3⟩ := lattice_next h
  obtain ⟨d, hd, hdw, hsub, hob, hinc, hext⟩ := C11_reduce_attributes h
  obtain ⟨t, ht, -⟩ := h.transpose
  obtain ⟨htw, hto, hta, hti⟩ := h.transpose_inc ht
  obtain ⟨r, hr, hrw, -⟩ := C11_reduce_objects htw.toWFw
  have hrd : r.transpose = .ok d := by
    simpa only [reduceAttributes, ht, py_ok_bind, hr] using hd
  obtain ⟨-, hdo, hda, hdi⟩ := hrw.toWFw.transpose_inc hrd
  have hrG : r.G = d.M := by unfold G M; rw [hda]
  have hrM : r.M = d.G := by unfold G M; rw [hdo]
  have hrI : r.Inc = fun a o => d.Inc o a := by ext a o; rw [hdi]
  have hcount := count_oneParent h2 fun x hx => (h3 x hx).2
  have hfun : IsExtent d.G d.M d.Inc = IsExtent c.G c.M c.Inc := by ext B; exact hext B
  have hrows := reduceObjects_rows htw.toWFw hr
  rw [hrG, hrM, hrI] at hrows
  have hiff : {x | x ∈ L.concepts ∧ L.OneParent x}.ncard = d.ProperAttributes.ncard ↔
      ¬ Redundant d.M d.G fun a o => d.Inc o a := by
    rw [hcount, properAttributes_eq, ← hfun, isExtent_swap]
    exact ⟨fun he => not_redundant_of_count hrows he.ge, next_count_eq⟩
  refine ⟨L, d, t, h1, hd, ht, fun x hx hone => ?_, fun k hk hki => ?_, ?_, hiff, fun hcode => hiff.2 ?_⟩
  · have hn := (h3 x hx).2.1 hone
    have hi : IsExtent c.G c.M c.Inc x.extent := ⟨_, (h2 x).1 hx⟩
    rw [← hfun, isExtent_swap] at hn hi
    obtain ⟨a, ha, ⟨o, ho, hoa, -⟩, hrow⟩ := (hasNext_iff hi).1 hn
    refine ⟨a, by rw [properAttributes_eq]; exact ⟨ha, o, ho, hoa⟩, fun g => ?_⟩
    rw [hrow]
    exact and_iff_right_of_imp fun h => List.mem_toFinset.2 h.mem.1
  · have hfk : IsExtent k.G k.M k.Inc = IsExtent c.G c.M c.Inc := by ext B; exact hki B
    rw [hcount, properAttributes_eq, ← hfk, isExtent_swap]
    exact next_count_le
  · rw [hcount, properAttributes_eq, ← hfun, isExtent_swap]
    exact next_count_le
  · have := C12_complete_partial htw.toWFw hr (by rw [hto]; exact hcode)
    rwa [hasReducible_iff, hrG, hrM, hrI] at this

end

/-! ### The reduced context -/

/-- Two contexts without redundant rows and columns whose lattices are the same are the same, up to the names, the order of
rows and columns, and full rows and columns. -/
theorem C137_unique {c : Ctx α β} {c' : Ctx α' β'} (h : c.WFw) (h' : c'.WFw) {L : CLattice α β} {L' : CLattice α' β'}
    (hL : makeLattice c = .ok L) (hL' : makeLattice c' = .ok L') (hc : c.Irredundant) (hc' : c'.Irredundant)
    (hs : SameLattice L L') :
    ∃ (φ : c.ProperObjects ≃ c'.ProperObjects) (ψ : c.ProperAttributes ≃ c'.ProperAttributes),
      ∀ o a, c.Inc o.1 a.1 ↔ c'.Inc (φ o).1 (ψ a).1 := by
  obtain ⟨_, h1, h2, -⟩ := lattice_next h
  rw [hL] at h1; cases h1
  obtain ⟨_, h1, h2', -⟩ := lattice_next h'
  rw [hL'] at h1; cases h1
  obtain ⟨f, hf⟩ := hs
  -- the concept of an object
  have gam : ∀ {α β : Type} [DecidableEq α] [DecidableEq β] (c : Ctx α β) (L : CLattice α β),
      (∀ x, x ∈ L.concepts ↔ IsConcept c.G c.M c.Inc x.extent x.intent) → ¬ Redundant c.G c.M c.Inc →
      ∃ γ : c.ProperObjects ≃ {x : {x // x ∈ L.concepts} // HasNext (IsIntent c.G c.M c.Inc) x.1.intent},
        ∀ o, IsRow c.M c.Inc o.1 (γ o).1.1.intent := by
    intro α β _ _ c L hL hr
    have hex : ∀ o : c.ProperObjects, ∃ x : {x : {x // x ∈ L.concepts} // HasNext (IsIntent c.G c.M c.Inc) x.1.intent},
        IsRow c.M c.Inc o.1 x.1.1.intent := by
      rintro ⟨o, ho⟩
      rw [properObjects_eq] at ho
      obtain ⟨B, hB⟩ := exists_row c.M c.Inc o
      have hi := isRow_isIntent (G := c.G) ho.1 hB
      have hn := (hasNext_iff hi).2 ⟨o, ho.1, (rowIrreducible_of ho.1 hr ho.2).1, hB⟩
      obtain ⟨A, hA⟩ := hi
      exact ⟨⟨⟨⟨A, B⟩, (hL _).2 hA⟩, hn⟩, hB⟩
    choose γ hγ using hex
    refine ⟨Equiv.ofBijective γ ⟨fun o o' he => ?_, fun x => ?_⟩, hγ⟩
    · have ho := (Set.ext_iff.1 (c.properObjects_eq) _).1 o.2
      have ho' := (Set.ext_iff.1 (c.properObjects_eq) _).1 o'.2
      exact (Subtype.ext ((rowIrreducible_of ho.1 hr ho.2).2 o'.1 ho'.1 _ (hγ o) (he ▸ hγ o'))).symm
    · obtain ⟨o, ho, ⟨m, hm, hom, -⟩, hrow⟩ := (hasNext_iff ⟨_, (hL _).1 x.1.2⟩).1 x.2
      refine ⟨⟨o, by rw [properObjects_eq]; exact ⟨ho, m, hm, hom⟩⟩, Subtype.ext (Subtype.ext ?_)⟩
      exact concept_eq_of_intent ((hL _).1 (γ _).1.2) ((hL _).1 x.1.2) (IsRow.eq (hγ _) hrow)
  have mu : ∀ {α β : Type} [DecidableEq α] [DecidableEq β] (c : Ctx α β) (L : CLattice α β),
      (∀ x, x ∈ L.concepts ↔ IsConcept c.G c.M c.Inc x.extent x.intent) →
      ¬ Redundant c.M c.G (fun a o => c.Inc o a) →
      ∃ γ : c.ProperAttributes ≃ {x : {x // x ∈ L.concepts} // HasNext (IsExtent c.G c.M c.Inc) x.1.extent},
        ∀ a, IsRow c.G (fun a o => c.Inc o a) a.1 (γ a).1.1.extent := by
    intro α β _ _ c L hL hr
    have hex : ∀ o : c.ProperAttributes, ∃ x : {x : {x // x ∈ L.concepts} // HasNext (IsExtent c.G c.M c.Inc) x.1.extent},
        IsRow c.G (fun a o => c.Inc o a) o.1 x.1.1.extent := by
      rintro ⟨o, ho⟩
      rw [properAttributes_eq] at ho
      obtain ⟨B, hB⟩ := exists_row c.G (fun a o => c.Inc o a) o
      have hi := isRow_isIntent (G := c.M) ho.1 hB
      have hn := (hasNext_iff hi).2 ⟨o, ho.1, (rowIrreducible_of ho.1 hr ho.2).1, hB⟩
      rw [← isExtent_swap] at hi hn
      obtain ⟨A, hA⟩ := hi
      exact ⟨⟨⟨⟨B, A⟩, (hL _).2 hA⟩, hn⟩, hB⟩
    choose γ hγ using hex
    refine ⟨Equiv.ofBijective γ ⟨fun o o' he => ?_, fun x => ?_⟩, hγ⟩
    · have ho := (Set.ext_iff.1 (c.properAttributes_eq) _).1 o.2
      have ho' := (Set.ext_iff.1 (c.properAttributes_eq) _).1 o'.2
      exact (Subtype.ext ((rowIrreducible_of ho.1 hr ho.2).2 o'.1 ho'.1 _ (hγ o) (he ▸ hγ o'))).symm
    · obtain ⟨⟨x, hx⟩, hn⟩ := x
      have hn' : HasNext (IsExtent c.G c.M c.Inc) x.extent := hn
      have hi : IsExtent c.G c.M c.Inc x.extent := ⟨_, (hL _).1 hx⟩
      rw [isExtent_swap] at hn' hi
      obtain ⟨o, ho, ⟨m, hm, hom, -⟩, hrow⟩ := (hasNext_iff hi).1 hn'
      refine ⟨⟨o, by rw [properAttributes_eq]; exact ⟨ho, m, hm, hom⟩⟩, Subtype.ext (Subtype.ext ?_)⟩
      exact concept_eq_of_extent ((hL _).1 (γ _).1.2) ((hL _).1 hx) (IsRow.eq (hγ _) hrow)
  obtain ⟨γ, hγ⟩ := gam c L h2 hc.1
  obtain ⟨γ', hγ'⟩ := gam c' L' h2' hc'.1
  obtain ⟨μ, hμ⟩ := mu c L h2 hc.2
  obtain ⟨μ', hμ'⟩ := mu c' L' h2' hc'.2
  let fo : {x : {x // x ∈ L.concepts} // HasNext (IsIntent c.G c.M c.Inc) x.1.intent} ≃
      {x : {x // x ∈ L'.concepts} // HasNext (IsIntent c'.G c'.M c'.Inc) x.1.intent} :=
    f.subtypeEquiv fun x => (next_iso h2 h2' f hf x).1
  let fa : {x : {x // x ∈ L.concepts} // HasNext (IsExtent c.G c.M c.Inc) x.1.extent} ≃
      {x : {x // x ∈ L'.concepts} // HasNext (IsExtent c'.G c'.M c'.Inc) x.1.extent} :=
    f.subtypeEquiv fun x => (next_iso h2 h2' f hf x).2
  -- an object has an attribute exactly if its concept is below that of the attribute
  have inc : ∀ {α β : Type} [DecidableEq α] [DecidableEq β] (c : Ctx α β) (x y : Concept α β) (o : α) (a : β),
      IsConcept c.G c.M c.Inc x.extent x.intent → IsConcept c.G c.M c.Inc y.extent y.intent → o ∈ c.objects →
      a ∈ c.attributes → IsRow c.M c.Inc o x.intent → IsRow c.G (fun a o => c.Inc o a) a y.extent →
      (c.Inc o a ↔ x.extent ⊆ y.extent) := by
    intro α β _ _ c x y o a hx hy ho ha hrx hry
    constructor
    · intro hi g hg
      rw [hry]
      exact ⟨((hx.2 g).1 hg).1, ((hx.2 g).1 hg).2 a ((hrx a).2 ⟨List.mem_toFinset.2 ha, hi⟩)⟩
    · intro hs
      exact ((hry o).1 (hs ((hx.2 o).2 ⟨List.mem_toFinset.2 ho, fun m hm => ((hrx m).1 hm).2⟩))).2
  refine ⟨γ.trans (fo.trans γ'.symm), μ.trans (fa.trans μ'.symm), fun o a => ?_⟩
  rw [inc c _ _ o.1 a.1 ((h2 _).1 (γ o).1.2) ((h2 _).1 (μ a).1.2) o.2.1 a.2.1 (hγ o) (hμ a), hf]
  have k1 := hγ' (γ'.symm (fo (γ o)))
  have k2 := hμ' (μ'.symm (fa (μ a)))
  rw [Equiv.apply_symm_apply] at k1 k2
  exact (inc c' _ _ _ _ ((h2' _).1 (fo (γ o)).1.2) ((h2' _).1 (fa (μ a)).1.2) (γ'.symm (fo (γ o))).2.1
    (μ'.symm (fa (μ a))).2.1 k1 k2).symm

/-- Conversely, for any two contexts: if the rows and columns that are not full correspond to each other, the lattices are
the same. -/
theorem C137_same_lattice {c : Ctx α β} {c' : Ctx α' β'} (h : c.WFw) (h' : c'.WFw)
    (φ : c.ProperObjects ≃ c'.ProperObjects) (ψ : c.ProperAttributes ≃ c'.ProperAttributes)
    (hinc : ∀ o a, c.Inc o.1 a.1 ↔ c'.Inc (φ o).1 (ψ a).1) :
    ∃ L L', makeLattice c = .ok L ∧ makeLattice c' = .ok L' ∧ SameLattice L L' := by
  classical
  obtain ⟨L, h1, h2, -⟩ := lattice_next h
  obtain ⟨L', h1', h2', -⟩ := lattice_next h'
  refine ⟨L, L', h1, h1', ?_⟩
  -- the attributes that correspond to those in a set
  let p : ∀ {α β α' β' : Type} [DecidableEq α] [DecidableEq β] [DecidableEq α'] [DecidableEq β'] (c : Ctx α β)
    (c' : Ctx α' β') (_ : c.ProperAttributes ≃ c'.ProperAttributes), Finset β → Finset β' :=
    fun c c' ψ B => c'.M.filter fun a' => ∀ ha : a' ∈ c'.ProperAttributes, (ψ.symm ⟨a', ha⟩).1 ∈ B
  have chr : ∀ {α β : Type} [DecidableEq α] [DecidableEq β] (c : Ctx α β) (B : Finset β), IsIntent c.G c.M c.Inc B ↔
      B ⊆ c.M ∧ ∀ a ∈ c.M, a ∉ B → ∃ g ∈ c.G, (∀ b ∈ B, c.Inc g b) ∧ ¬ c.Inc g a := by
    intro α β _ _ c B
    constructor
    · rintro ⟨A, hA⟩
      refine ⟨fun b hb => ((hA.1 b).1 hb).1, fun a ha hn => ?_⟩
      by_contra hcon
      push Not at hcon
      exact hn ((hA.1 a).2 ⟨ha, fun g hg => hcon g ((hA.2 g).1 hg).1 ((hA.2 g).1 hg).2⟩)
    · rintro ⟨hs, hsep⟩
      refine ⟨c.G.filter fun g => ∀ b ∈ B, c.Inc g b, fun a => ⟨fun ha => ⟨hs ha, fun g hg => ?_⟩, ?_⟩, fun g => ?_⟩
      · exact (Finset.mem_filter.1 hg).2 a ha
      · rintro ⟨ha, hall⟩
        by_contra hn
        obtain ⟨g, hg, k1, k2⟩ := hsep a ha hn
        exact k2 (hall g (Finset.mem_filter.2 ⟨hg, k1⟩))
      · rw [Finset.mem_filter]
  have into : ∀ {α β α' β' : Type} [DecidableEq α] [DecidableEq β] [DecidableEq α'] [DecidableEq β'] (c : Ctx α β)
      (c' : Ctx α' β') (φ : c.ProperObjects ≃ c'.ProperObjects) (ψ : c.ProperAttributes ≃ c'.ProperAttributes),
      (∀ o a, c.Inc o.1 a.1 ↔ c'.Inc (φ o).1 (ψ a).1) → ∀ B, IsIntent c.G c.M c.Inc B →
      IsIntent c'.G c'.M c'.Inc (p c c' ψ B) := by
    intro α β α' β' _ _ _ _ c c' φ ψ hinc B hB
    rw [chr] at hB ⊢
    refine ⟨Finset.filter_subset _ _, fun a' ha' hn => ?_⟩
    have : ∃ hp : a' ∈ c'.ProperAttributes, (ψ.symm ⟨a', hp⟩).1 ∉ B := by
      by_contra hcon
      push Not at hcon
      exact hn (Finset.mem_filter.2 ⟨ha', hcon⟩)
    obtain ⟨hp, hnB⟩ := this
    obtain ⟨g, hg, k1, k2⟩ := hB.2 _ (List.mem_toFinset.2 (ψ.symm ⟨a', hp⟩).2.1) hnB
    have hgp : g ∈ c.ProperObjects := ⟨List.mem_toFinset.1 hg, _, (ψ.symm ⟨a', hp⟩).2.1, k2⟩
    refine ⟨(φ ⟨g, hgp⟩).1, List.mem_toFinset.2 (φ ⟨g, hgp⟩).2.1, fun b' hb' => ?_, fun hc => k2 ?_⟩
    · obtain ⟨hbM, hb⟩ := Finset.mem_filter.1 hb'
      by_cases hbp : b' ∈ c'.ProperAttributes
      · have := (hinc ⟨g, hgp⟩ (ψ.symm ⟨b', hbp⟩)).1 (k1 _ (hb hbp))
        rwa [Equiv.apply_symm_apply] at this
      · by_contra hno
        exact hbp ⟨List.mem_toFinset.1 hbM, _, (φ ⟨g, hgp⟩).2.1, hno⟩
    · rw [hinc ⟨g, hgp⟩, Equiv.apply_symm_apply]; exact hc
  have back : ∀ {α β α' β' : Type} [DecidableEq α] [DecidableEq β] [DecidableEq α'] [DecidableEq β'] (c : Ctx α β)
      (c' : Ctx α' β') (ψ : c.ProperAttributes ≃ c'.ProperAttributes), ∀ B, IsIntent c.G c.M c.Inc B →
      p c' c ψ.symm (p c c' ψ B) = B := by
    intro α β α' β' _ _ _ _ c c' ψ B hB
    obtain ⟨A, hA⟩ := hB
    ext a
    simp only [p, Finset.mem_filter, Equiv.symm_symm]
    constructor
    · rintro ⟨ha, hall⟩
      by_cases hp : a ∈ c.ProperAttributes
      · have := (hall hp).2 (ψ ⟨a, hp⟩).2
        simpa using this
      · refine (hA.1 a).2 ⟨ha, fun g hg => ?_⟩
        by_contra hno
        exact hp ⟨List.mem_toFinset.1 ha, g, List.mem_toFinset.1 ((hA.2 g).1 hg).1, hno⟩
    · intro ha
      exact ⟨((hA.1 a).1 ha).1, fun hp => ⟨List.mem_toFinset.2 (ψ ⟨a, hp⟩).2.1, fun _ => by simpa using ha⟩⟩
  have mono : ∀ {α β α' β' : Type} [DecidableEq α] [DecidableEq β] [DecidableEq α'] [DecidableEq β'] (c : Ctx α β)
      (c' : Ctx α' β') (ψ : c.ProperAttributes ≃ c'.ProperAttributes), ∀ B C, B ⊆ C → p c c' ψ B ⊆ p c c' ψ C := by
    intro α β α' β' _ _ _ _ c c' ψ B C hBC a ha
    simp only [p, Finset.mem_filter] at ha ⊢
    exact ⟨ha.1, fun hp => hBC (ha.2 hp)⟩
  refine sameLattice_of_intents h2 h2' (p c c' ψ) (p c' c ψ.symm) (into c c' φ ψ hinc)
    (into c' c φ.symm ψ.symm fun o a => ?_) (back c c' ψ) (fun B hB => ?_) (mono c c' ψ) (mono c' c ψ.symm)
  · rw [hinc]; simp
  · have := back c' c ψ.symm B hB
    rwa [Equiv.symm_symm] at this

section
variable [PyName α] [PyName β] [PyName α'] [PyName β']

/-- Reducing the objects and then the attributes keeps the lattice. What is left is free of redundant objects if and only
if `reduce_objects` has left none. -/
theorem C137_reduced {c : Ctx α β} (h : c.WFw) :
    ∃ L d e Le, makeLattice c = .ok L ∧ c.reduceObjects = .ok d ∧ d.reduceAttributes = .ok e ∧ makeLattice e = .ok Le ∧
      e.WFw ∧ SameLattice L Le ∧ (Redundant e.G e.M e.Inc ↔ HasReducible d) := by
  obtain ⟨L, h1, h2, -⟩ := lattice_next h
  obtain ⟨d, hd, hdw, -, -, -, -, hint⟩ := C11_reduce_objects h
  obtain ⟨e, he, hew, -, heo, -, hext⟩ := C11_reduce_attributes hdw.toWFw
  obtain ⟨Ld, -, k2, -⟩ := lattice_next hdw.toWFw
  obtain ⟨Le, j1, j2, -⟩ := lattice_next hew.toWFw
  have hG : e.G = d.G := by unfold G; rw [heo]
  refine ⟨L, d, e, Le, h1, hd, he, j1, hew.toWFw, ?_, ?_⟩
  · refine (sameLattice_of_intents h2 k2 id id (fun B hB => (hint B).2 hB) (fun B hB => (hint B).1 hB) (fun _ _ => rfl)
      (fun _ _ => rfl) (fun _ _ h => h) fun _ _ h => h).trans ?_
    exact sameLattice_of_extents k2 j2 fun A => (hext A).symm
  · rw [hasReducible_iff]
    have hext' : ∀ A, IsExtent d.G e.M e.Inc A ↔ IsExtent d.G d.M d.Inc A := by rw [← hG]; intro A; rw [hext, hG]
    rw [hG]
    exact ⟨redundant_extents (fun A hA => (hext' A).1 hA) fun A hA => (hext' A).2 hA,
      redundant_extents (fun A hA => (hext' A).2 hA) fun A hA => (hext' A).1 hA⟩

/-- The reduced context as a normal form: if the reductions of two contexts leave nothing redundant, the contexts have the
same lattice if and only if their reductions are the same up to the names, the order of rows and columns, and full rows
and columns. -/
theorem C137_normal_form {c : Ctx α β} {c' : Ctx α' β'} (h : c.WFw) (h' : c'.WFw) :
    ∃ L L' d d' e e', makeLattice c = .ok L ∧ makeLattice c' = .ok L' ∧
      c.reduceObjects = .ok d ∧ d.reduceAttributes = .ok e ∧ c'.reduceObjects = .ok d' ∧ d'.reduceAttributes = .ok e' ∧
      (e.Irredundant → e'.Irredundant → (SameLattice L L' ↔
        ∃ (φ : e.ProperObjects ≃ e'.ProperObjects) (ψ : e.ProperAttributes ≃ e'.ProperAttributes),
          ∀ o a, e.Inc o.1 a.1 ↔ e'.Inc (φ o).1 (ψ a).1)) := by
  obtain ⟨L, d, e, Le, h1, h2, h3, h4, h5, h6, -⟩ := C137_reduced h
  obtain ⟨L', d', e', Le', h1', h2', h3', h4', h5', h6', -⟩ := C137_reduced h'
  refine ⟨L, L', d, d', e, e', h1, h1', h2, h3, h2', h3', fun hr hr' => ⟨fun hs => ?_, ?_⟩⟩
  · exact C137_unique h5 h5' h4 h4' hr hr' ((h6.symm.trans hs).trans h6')
  · rintro ⟨φ, ψ, hi⟩
    obtain ⟨K, K', k1, k1', k2⟩ := C137_same_lattice h5 h5' φ ψ hi
    rw [h4] at k1; cases k1
    rw [h4'] at k1'; cases k1'
    exact (h6.trans k2).trans h6'.symm

end

/-! ### Examples -/

/-- The rows 0001, 1001, 0101, 0001: the first and last row and the third column are superfluous, the last column is full. -/
def cxtStd : Ctx (Fin 4) (Fin 4) :=
  ⟨[0, 1, 2, 3], [0, 1, 2, 3], ⟨some 4, [[false, false, false, true], [true, false, false, true], [false, true, false, true],
    [false, false, false, true]]⟩⟩

/-- Its reduction, with other names and the rows and columns exchanged. -/
def cxtStd' : Ctx (Fin 2) (Fin 2) := ⟨[0, 1], [0, 1], ⟨some 2, [[false, true], [true, false]]⟩⟩

theorem cxtStd_wf : cxtStd.WFw := by constructor <;> decide +kernel
theorem cxtStd'_wf : cxtStd'.WFw := by constructor <;> decide +kernel

/-- What `C137_one_child` and `C137_objects` speak about: two of the four objects are kept; two of the four concepts have
one child. -/
example : cxtStd.WFw ∧ (cxtStd.reduceObjects.map fun d => d.objects) = .ok [1, 2] ∧
    (makeLattice cxtStd).map (fun L => (L.concepts.length, (L.concepts.map fun x => (L.children x).map Finset.card).count (.ok 1))) =
      .ok (4, 2) := by
  refine ⟨cxtStd_wf, by decide +kernel, by decide +kernel⟩

/-- The reduction of `cxtStd`. -/
def cxtStdE : Ctx (Fin 4) (Fin 4) := ⟨[1, 2], [0, 1, 3], ⟨some 3, [[true, false, true], [false, true, true]]⟩⟩

theorem cxtStdE_wf : cxtStdE.WFw := by constructor <;> decide +kernel

set_option synthInstance.maxSize 1000 in
set_option synthInstance.maxHeartbeats 200000 in
theorem cxtStdE_irr : cxtStdE.Irredundant := by
  unfold Irredundant Redundant
  simp only [G, M, List.mem_toFinset, ← cxtStdE_wf.incB]
  decide +kernel

set_option synthInstance.maxSize 1000 in
set_option synthInstance.maxHeartbeats 200000 in
theorem cxtStd'_irr : cxtStd'.Irredundant := by
  unfold Irredundant Redundant
  simp only [G, M, List.mem_toFinset, ← cxtStd'_wf.incB]
  decide +kernel

/-- The hypotheses of `C137_normal_form` and of `C137_unique`: the reductions of `cxtStd` and of `cxtStd'` are `cxtStdE` and
`cxtStd'`; nothing in them is redundant, and the two lattices are the same. -/
example : cxtStd.WFw ∧ cxtStd'.WFw ∧ (cxtStd.reduceObjects >>= fun d => d.reduceAttributes) = .ok cxtStdE ∧
    (cxtStd'.reduceObjects >>= fun d => d.reduceAttributes) = .ok cxtStd' ∧ cxtStdE.Irredundant ∧ cxtStd'.Irredundant ∧
    ∃ L L', makeLattice cxtStdE = .ok L ∧ makeLattice cxtStd' = .ok L' ∧ SameLattice L L' := by
  refine ⟨cxtStd_wf, cxtStd'_wf, by decide +kernel, by decide +kernel, cxtStdE_irr, cxtStd'_irr, ?_⟩
  have o1 : ∀ o, o ∈ cxtStdE.ProperObjects ↔ o = 1 ∨ o = 2 := by
    unfold ProperObjects
    simp only [Set.mem_ofPred_eq, ← cxtStdE_wf.incB]
    decide +kernel
  have a1 : ∀ o, o ∈ cxtStdE.ProperAttributes ↔ o = 0 ∨ o = 1 := by
    unfold ProperAttributes
    simp only [Set.mem_ofPred_eq, ← cxtStdE_wf.incB]
    decide +kernel
  have o2 : ∀ o, o ∈ cxtStd'.ProperObjects := by
    unfold ProperObjects
    simp only [Set.mem_ofPred_eq, ← cxtStd'_wf.incB]
    decide +kernel
  have a2 : ∀ o, o ∈ cxtStd'.ProperAttributes := by
    unfold ProperAttributes
    simp only [Set.mem_ofPred_eq, ← cxtStd'_wf.incB]
    decide +kernel
  refine C137_same_lattice cxtStdE_wf cxtStd'_wf
    ⟨fun o => ⟨if o.1 = 1 then 0 else 1, o2 _⟩, fun o => ⟨if o.1 = 0 then 1 else 2, (o1 _).2 (by split <;> simp)⟩,
      fun o => ?_, fun o => ?_⟩
    ⟨fun a => ⟨if a.1 = 0 then 1 else 0, a2 _⟩, fun a => ⟨if a.1 = 1 then 0 else 1, (a1 _).2 (by split <;> simp)⟩,
      fun a => ?_, fun a => ?_⟩ ?_
  · obtain ⟨o, ho⟩ := o
    rcases (o1 o).1 ho with rfl | rfl <;> rfl
  · obtain ⟨o, ho⟩ := o
    refine Subtype.ext ?_
    change (if (if o = 0 then (1 : Fin 4) else 2) = 1 then (0 : Fin 2) else 1) = o
    clear ho
    revert o; decide
  · obtain ⟨o, ho⟩ := a
    rcases (a1 o).1 ho with rfl | rfl <;> rfl
  · obtain ⟨o, ho⟩ := a
    refine Subtype.ext ?_
    change (if (if o = 1 then (0 : Fin 4) else 1) = 0 then (1 : Fin 2) else 0) = o
    clear ho
    revert o; decide
  · rintro ⟨o, ho⟩ ⟨a, ha⟩
    rw [← cxtStdE_wf.incB, ← cxtStd'_wf.incB]
    change _ ↔ cxtStd'.incB (if o = 1 then 0 else 1) (if a = 0 then 1 else 0) = true
    have ho' := (o1 o).1 ho
    have ha' := (a1 a).1 ha
    dsimp only
    clear ho ha
    revert o a
    decide +kernel

end Ctx
