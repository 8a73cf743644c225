/-
Property C133: which lattices are concept lattices, and of which contexts (fca/concept_lattice.py).
-/
import Verif.Props.Lattice
import Verif.Props.StabilitySum
import Verif.Props.ConceptCount
import Verif.Props.Scaling
import Mathlib.Order.Cover
import Mathlib.Order.Interval.Set.ProjIcc
import Mathlib.Data.Int.Interval
import Mathlib.Data.Finset.Lattice.Fold
import Mathlib.SetTheory.Cardinal.Finite

set_option linter.unusedSectionVars false

open Spec

namespace Ctx
variable {α β : Type} [DecidableEq α] [DecidableEq β] {γ : Type} [Lattice γ] [BoundedOrder γ]

/-- Objects and attributes are represented by elements of a lattice: an object has an attribute exactly if its element is
below that of the attribute; an element is determined by the objects below it, and by the attributes above it. -/
structure Represented (c : Ctx α β) (g : α → γ) (m : β → γ) : Prop where
  inc : ∀ o ∈ c.objects, ∀ a ∈ c.attributes, (c.Inc o a ↔ g o ≤ m a)
  sup : ∀ x y : γ, (∀ o ∈ c.objects, g o ≤ x → g o ≤ y) → x ≤ y
  inf : ∀ x y : γ, (∀ a ∈ c.attributes, y ≤ m a → x ≤ m a) → x ≤ y

open Classical in
/-- The concept of an element: the objects below and the attributes above it. -/
noncomputable def conceptOf (c : Ctx α β) (g : α → γ) (m : β → γ) (x : γ) : Concept α β :=
  ⟨c.G.filter fun o => g o ≤ x, c.M.filter fun a => x ≤ m a⟩

section
variable {c : Ctx α β} {g : α → γ} {m : β → γ}

theorem Represented.isConcept (R : c.Represented g m) (x : γ) :
    IsConcept c.G c.M c.Inc (c.conceptOf g m x).extent (c.conceptOf g m x).intent := by
  classical
  constructor
  · intro a
    simp only [conceptOf, Finset.mem_filter]
    refine and_congr_right fun ha => ⟨?_, fun h => ?_⟩
    · rintro hx o ⟨ho, hox⟩
      exact (R.inc o (List.mem_toFinset.1 ho) a (List.mem_toFinset.1 ha)).2 (hox.trans hx)
    · refine R.sup _ _ fun o ho hox => ?_
      exact (R.inc o ho a (List.mem_toFinset.1 ha)).1 (h o ⟨List.mem_toFinset.2 ho, hox⟩)
  · intro o
    simp only [conceptOf, Finset.mem_filter]
    refine and_congr_right fun ho => ⟨?_, fun h => ?_⟩
    · rintro hx a ⟨ha, hxa⟩
      exact (R.inc o (List.mem_toFinset.1 ho) a (List.mem_toFinset.1 ha)).2 (hx.trans hxa)
    · refine R.inf _ _ fun a ha hxa => ?_
      exact (R.inc o (List.mem_toFinset.1 ho) a ha).1 (h a ⟨List.mem_toFinset.2 ha, hxa⟩)

theorem Represented.extent_subset (R : c.Represented g m) {x y : γ} :
    (c.conceptOf g m x).extent ⊆ (c.conceptOf g m y).extent ↔ x ≤ y := by
  classical
  constructor
  · intro h
    refine R.sup _ _ fun o ho hox => ?_
    have := h (Finset.mem_filter.2 ⟨List.mem_toFinset.2 ho, hox⟩)
    exact (Finset.mem_filter.1 this).2
  · intro h o ho
    simp only [conceptOf, Finset.mem_filter] at ho ⊢
    exact ⟨ho.1, ho.2.trans h⟩

theorem Represented.intent_subset (R : c.Represented g m) {x y : γ} :
    (c.conceptOf g m y).intent ⊆ (c.conceptOf g m x).intent ↔ x ≤ y := by
  classical
  constructor
  · intro h
    refine R.inf _ _ fun a ha hox => ?_
    have := h (Finset.mem_filter.2 ⟨List.mem_toFinset.2 ha, hox⟩)
    exact (Finset.mem_filter.1 this).2
  · intro h o ho
    simp only [conceptOf, Finset.mem_filter] at ho ⊢
    exact ⟨ho.1, h.trans ho.2⟩

theorem Represented.intent_ssubset (R : c.Represented g m) {x y : γ} :
    (c.conceptOf g m y).intent ⊂ (c.conceptOf g m x).intent ↔ x < y := by
  rw [ssubset_iff_subset_not_subset, R.intent_subset, R.intent_subset, lt_iff_le_not_ge]

theorem Represented.injective (R : c.Represented g m) : Function.Injective (c.conceptOf g m) := by
  intro x y h
  refine le_antisymm (R.extent_subset.1 ?_) (R.extent_subset.1 ?_) <;> rw [h]

/-- Every concept is the concept of an element: of the join of its objects. -/
theorem Represented.surjective (R : c.Represented g m) (z : Concept α β)
    (hz : IsConcept c.G c.M c.Inc z.extent z.intent) : ∃ x, z = c.conceptOf g m x := by
  classical
  refine ⟨z.extent.sup g, concept_eq_of_intent hz (R.isConcept _) ?_⟩
  ext a
  rw [hz.1]
  simp only [conceptOf, Finset.mem_filter, Finset.sup_le_iff]
  refine and_congr_right fun ha => forall₂_congr fun o ho => ?_
  exact R.inc o (List.mem_toFinset.1 (((hz.2 o).1 ho).1)) a (List.mem_toFinset.1 ha)

end

/-- The concept lattice of a context represented in a lattice is this lattice: same number of elements, same order, same
neighbours, same top and bottom. -/
theorem C133_basic_theorem {c : Ctx α β} (h : c.WFw) {g : α → γ} {m : β → γ} (R : c.Represented g m) :
    ∃ L, makeLattice c = .ok L ∧ L.concepts.length = Nat.card γ ∧
      (∀ z, z ∈ L.concepts ↔ ∃ x, z = c.conceptOf g m x) ∧
      (∀ x y, (c.conceptOf g m x).extent ⊆ (c.conceptOf g m y).extent ↔ x ≤ y) ∧
      (∀ x, ∃ S, L.parentsOf (c.conceptOf g m x) = .ok S ∧ ∀ y, c.conceptOf g m y ∈ S ↔ x ⋖ y) ∧
      L.top = c.conceptOf g m ⊤ ∧ L.bottom = c.conceptOf g m ⊥ := by
  obtain ⟨L, h1, -, hnd, -, hmem, -, -, -, -⟩ := makeLattice_ok h
  obtain ⟨L', h1', htm, hbm, htop, hbot, -⟩ := C37_top_bottom h
  rw [h1] at h1'; cases h1'
  obtain ⟨L', h1', hch, -⟩ := C38_parents_children h
  rw [h1] at h1'; cases h1'
  have hm : ∀ z, z ∈ L.concepts ↔ ∃ x, z = c.conceptOf g m x := by
    intro z
    rw [hmem]
    constructor
    · exact R.surjective z
    · rintro ⟨x, rfl⟩; exact R.isConcept x
  refine ⟨L, h1, ?_, hm, fun x y => R.extent_subset, fun x => ?_, ?_, ?_⟩
  · rw [← List.toFinset_card_of_nodup hnd, ← Fintype.card_coe, ← Nat.card_eq_fintype_card]
    symm
    refine Nat.card_congr (Equiv.ofBijective
      (fun x => ⟨c.conceptOf g m x, List.mem_toFinset.2 ((hm _).2 ⟨x, rfl⟩)⟩) ⟨fun x y hxy => ?_, fun z => ?_⟩)
    · exact R.injective (congrArg Subtype.val hxy)
    · obtain ⟨x, hx⟩ := (hm z.1).1 (List.mem_toFinset.1 z.2)
      exact ⟨x, Subtype.ext hx.symm⟩
  · obtain ⟨S, -, hS, -, hS', -⟩ := hch _ ((hm _).2 ⟨x, rfl⟩)
    refine ⟨S, hS, fun y => ?_⟩
    rw [hS']
    unfold Covers
    rw [R.intent_ssubset]
    constructor
    · rintro ⟨-, k1, k2⟩
      refine ⟨k1, fun z hz hz' => k2 ⟨c.conceptOf g m z, (hm _).2 ⟨z, rfl⟩, ?_, ?_⟩⟩ <;> rwa [R.intent_ssubset]
    · rintro ⟨k1, k2⟩
      refine ⟨(hm _).2 ⟨y, rfl⟩, k1, ?_⟩
      rintro ⟨w, hw, hw1, hw2⟩
      obtain ⟨z, rfl⟩ := (hm w).1 hw
      rw [R.intent_ssubset] at hw1 hw2
      exact k2 hw2 hw1
  · refine concept_eq_of_extent ((hmem _).1 htm) (R.isConcept _) ?_
    rw [htop]
    simp [conceptOf]
  · refine concept_eq_of_intent ((hmem _).1 hbm) (R.isConcept _) ?_
    rw [hbot]
    simp [conceptOf]

/-- Conversely, if the concepts are ordered as the elements of a lattice, the context is represented in it. -/
theorem C133_converse {c : Ctx α β} (h : c.WFw) {cs : List (Concept α β)} (hcs : norris c = .ok cs)
    (f : γ → Concept α β) (hf : ∀ z, z ∈ cs ↔ ∃ x, z = f x) (hle : ∀ x y, (f x).extent ⊆ (f y).extent ↔ x ≤ y) :
    ∃ g : α → γ, ∃ m : β → γ, c.Represented g m ∧ ∀ x, f x = c.conceptOf g m x := by
  classical
  obtain ⟨cs', hcs', -, hmem⟩ := C34_norris h
  rw [hcs] at hcs'
  obtain rfl : cs = cs' := by injection hcs'
  have hc : ∀ x, IsConcept c.G c.M c.Inc (f x).extent (f x).intent := fun x => (hmem _).1 ((hf _).2 ⟨x, rfl⟩)
  have hex : ∀ o, ∃ x, o ∈ c.objects → o ∈ (f x).extent ∧ ∀ a, a ∈ (f x).intent ↔ a ∈ c.M ∧ c.Inc o a := by
    intro o
    by_cases ho : o ∈ c.objects
    · obtain ⟨A, B, k1, k2, k3⟩ := exists_concept (M := c.M) (I := c.Inc) (G := c.G) {o}
        (by simpa using List.mem_toFinset.2 ho)
      obtain ⟨x, hx⟩ := (hf ⟨A, B⟩).1 ((hmem _).2 k1)
      refine ⟨x, fun _ => ?_⟩
      rw [← hx]
      exact ⟨k2 (by simp), fun a => by rw [k3]; simp⟩
    · exact ⟨⊤, fun h => absurd h ho⟩
  have hex' : ∀ a, ∃ x, a ∈ c.attributes → a ∈ (f x).intent ∧ ∀ o, o ∈ (f x).extent ↔ o ∈ c.G ∧ c.Inc o a := by
    intro a
    by_cases ha : a ∈ c.attributes
    · obtain ⟨B, A, k1, k2, k3⟩ := exists_concept (M := c.G) (I := fun a o => c.Inc o a) (G := c.M) {a}
        (by simpa using List.mem_toFinset.2 ha)
      obtain ⟨x, hx⟩ := (hf ⟨A, B⟩).1 ((hmem _).2 (isConcept_swap.2 k1))
      refine ⟨x, fun _ => ?_⟩
      rw [← hx]
      exact ⟨k2 (by simp), fun o => by rw [k3]; simp⟩
    · exact ⟨⊤, fun h => absurd h ha⟩
  choose g hg using hex
  choose m hm using hex'
  have hgx : ∀ o ∈ c.objects, ∀ x, g o ≤ x ↔ o ∈ (f x).extent := by
    intro o ho x
    rw [← hle]
    refine ⟨fun k => k (hg o ho).1, fun k o' ho' => ?_⟩
    rw [(hc x).2]
    obtain ⟨k1, k2⟩ := ((hc (g o)).2 o').1 ho'
    refine ⟨k1, fun a ha => k2 a (((hg o ho).2 a).2 ⟨(((hc x).1 a).1 ha).1, ?_⟩)⟩
    exact (((hc x).2 o).1 k).2 a ha
  have hmx : ∀ a ∈ c.attributes, ∀ x, x ≤ m a ↔ a ∈ (f x).intent := by
    intro a ha x
    rw [← hle]
    constructor
    · intro k
      rw [(hc x).1]
      exact ⟨List.mem_toFinset.2 ha, fun o ho => (((hm a ha).2 o).1 (k ho)).2⟩
    · intro k o ho
      rw [(hm a ha).2]
      obtain ⟨k1, k2⟩ := ((hc x).2 o).1 ho
      exact ⟨k1, k2 a k⟩
  refine ⟨g, m, ⟨fun o ho a ha => ?_, fun x y k => ?_, fun x y k => ?_⟩, fun x => ?_⟩
  · rw [hgx o ho, (hm a ha).2]
    exact ⟨fun k => ⟨List.mem_toFinset.2 ho, k⟩, fun k => k.2⟩
  · rw [← hle]
    intro o ho
    have hoG := List.mem_toFinset.1 ((((hc x).2 o).1 ho).1)
    exact (hgx o hoG y).1 (k o hoG ((hgx o hoG x).2 ho))
  · have hsub : (f y).intent ⊆ (f x).intent := by
      intro a ha
      have haM := List.mem_toFinset.1 ((((hc y).1 a).1 ha).1)
      exact (hmx a haM x).1 (k a haM ((hmx a haM y).2 ha))
    rw [← hle]
    intro o ho
    rw [(hc y).2]
    obtain ⟨k1, k2⟩ := ((hc x).2 o).1 ho
    exact ⟨k1, fun a ha => k2 a (hsub ha)⟩
  · have hext : (f x).extent = (c.conceptOf g m x).extent := by
      ext o
      simp only [conceptOf, Finset.mem_filter]
      constructor
      · intro ho
        have hoG := (((hc x).2 o).1 ho).1
        exact ⟨hoG, (hgx o (List.mem_toFinset.1 hoG) x).2 ho⟩
      · rintro ⟨hoG, ho⟩
        exact (hgx o (List.mem_toFinset.1 hoG) x).1 ho
    have hint : (f x).intent = (c.conceptOf g m x).intent := by
      ext a
      simp only [conceptOf, Finset.mem_filter]
      constructor
      · intro ha
        have haM := (((hc x).1 a).1 ha).1
        exact ⟨haM, (hmx a (List.mem_toFinset.1 haM) x).2 ha⟩
      · rintro ⟨haM, ha⟩
        exact (hmx a (List.mem_toFinset.1 haM) x).1 ha
    cases hfx : f x
    rw [hfx] at hext hint
    simp only at hext hint
    rw [hext, hint]

/-- Every finite lattice is a concept lattice: `Context([[x <= y for y in l] for x in l], l, l)` for a list `l` of its
elements. -/
theorem C133_every_lattice [DecidableEq γ] [PyName γ] [DecidableRel (α := γ) (· ≤ ·)] {l : List γ} (hl : l.Nodup)
    (hall : ∀ x, x ∈ l) :
    ∃ c : Ctx γ γ, make (l.map fun x => l.map fun y => decide (x ≤ y)) l l = .ok c ∧ c.WFw ∧
      c.Represented (id : γ → γ) id := by
  obtain ⟨c, hc, -, -, -, -, -, -, -, h1, h2⟩ := C01_constructor_stores (l.map fun x => l.map fun y => decide (x ≤ y)) l l
    (by simp) (by intro r hr; obtain ⟨x, -, rfl⟩ := List.mem_map.1 hr; simp)
  obtain ⟨hw, hI⟩ := C01_wf hl hl hc
  refine ⟨c, hc, hw.toWFw, fun o _ a _ => ?_, fun x _ k => ?_, fun _ y k => ?_⟩
  · obtain ⟨i, hi⟩ := List.getElem?_of_mem (hall o)
    obtain ⟨j, hj⟩ := List.getElem?_of_mem (hall a)
    have := hI i j o a (l.map fun y => decide (o ≤ y)) (decide (o ≤ a)) hi hj (by simp [hi]) (by simp [hj])
    simpa using this
  · exact k x (by rw [h1 hl]; exact hall x) le_rfl
  · exact k y (by rw [h2 hl]; exact hall y) le_rfl

/-- The lattice of an ordinal scale is a chain with as many concepts as there are values. -/
theorem C133_ordinal [PyName ℤ] {mn mx : ℤ} (hle : mn ≤ mx) (geq : Bool) :
    ∃ c L, ordinalScale mn mx geq = .ok c ∧ makeLattice c = .ok L ∧ (L.concepts.length : ℤ) = mx - mn + 1 ∧
      ∀ x ∈ L.concepts, ∀ y ∈ L.concepts, x.extent ⊆ y.extent ∨ y.extent ⊆ x.extent := by
  obtain ⟨c, h1, h2, h3, h4, h5⟩ := C64_ordinal mn mx geq
  have : Fact (mn ≤ mx) := ⟨hle⟩
  have hcard : (Nat.card (Set.Icc mn mx) : ℤ) = mx - mn + 1 := by
    have := Int.card_fintype_Icc_of_le (a := mn) (b := mx) (by omega)
    rw [Nat.card_eq_fintype_card, Fintype.card_congr (Equiv.refl _), this]
    omega
  have hp : ∀ v, v ∈ c.objects → ((Set.projIcc mn mx hle v : Set.Icc mn mx) : ℤ) = v := by
    intro v hv
    rw [Set.projIcc_of_mem hle ((h3 v).1 hv)]
  have hpa : ∀ v, v ∈ c.attributes → ((Set.projIcc mn mx hle v : Set.Icc mn mx) : ℤ) = v := by
    intro v hv
    have := (h4 v).1 hv
    rw [Set.projIcc_of_mem hle]
    split at this
    · exact ⟨by omega, by omega⟩
    · exact ⟨by omega, by omega⟩
  have hob : ∀ x : Set.Icc mn mx, (x : ℤ) ∈ c.objects := fun x => (h3 _).2 x.2
  cases geq with
  | false =>
    have R : c.Represented (γ := Set.Icc mn mx) (Set.projIcc mn mx hle) (Set.projIcc mn mx hle) := by
      refine ⟨fun o ho a ha => ?_, fun x y k => ?_, fun x y k => ?_⟩
      · rw [h5, ← Subtype.coe_le_coe, hp o ho, hpa a ha]
        simp [ho, ha]
      · have := k x (hob x)
        simpa using this
      · by_cases hy : (y : ℤ) = mx
        · rw [← Subtype.coe_le_coe, hy]; exact x.2.2
        · have hya : (y : ℤ) ∈ c.attributes := by
            rw [h4]
            have h1 := y.2.1
            have h2 := y.2.2
            simp only [Bool.false_eq_true, if_false]
            exact ⟨h1, by omega⟩
          have := k y hya
          simpa using this
    obtain ⟨L, k1, k2, k3, k4, -⟩ := C133_basic_theorem h2.toWFw R
    refine ⟨c, L, h1, k1, by rw [k2, hcard], fun x hx y hy => ?_⟩
    obtain ⟨x, rfl⟩ := (k3 x).1 hx
    obtain ⟨y, rfl⟩ := (k3 y).1 hy
    rw [k4, k4]
    exact le_total x y
  | true =>
    have R : c.Represented (γ := (Set.Icc mn mx)ᵒᵈ) (fun v => OrderDual.toDual (Set.projIcc mn mx hle v))
        (fun v => OrderDual.toDual (Set.projIcc mn mx hle v)) := by
      refine ⟨fun o ho a ha => ?_, fun x y k => ?_, fun x y k => ?_⟩
      · rw [h5, OrderDual.toDual_le_toDual, ← Subtype.coe_le_coe, hp o ho, hpa a ha]
        simp [ho, ha]
      · have := k (OrderDual.ofDual x : Set.Icc mn mx) (hob _)
        rw [Set.projIcc_val] at this
        exact this le_rfl
      · by_cases hy : ((OrderDual.ofDual y : Set.Icc mn mx) : ℤ) = mn
        · rw [← OrderDual.ofDual_le_ofDual, ← Subtype.coe_le_coe, hy]; exact (OrderDual.ofDual x).2.1
        · have hya : ((OrderDual.ofDual y : Set.Icc mn mx) : ℤ) ∈ c.attributes := by
            rw [h4]
            have h1 := (OrderDual.ofDual y).2.1
            have h2 := (OrderDual.ofDual y).2.2
            simp only [if_true]
            exact ⟨by omega, h2⟩
          have := k _ hya
          rw [Set.projIcc_val] at this
          exact this le_rfl
    obtain ⟨L, k1, k2, k3, k4, -⟩ := C133_basic_theorem h2.toWFw R
    refine ⟨c, L, h1, k1, by rw [k2, ← hcard]; rfl, fun x hx y hy => ?_⟩
    obtain ⟨x, rfl⟩ := (k3 x).1 hx
    obtain ⟨y, rfl⟩ := (k3 y).1 hy
    rw [k4, k4]
    exact le_total x y

/-- The lattice of a nominal scale with at least two values: top, bottom, and one concept for each value. -/
theorem C133_nominal {W : Type} [DecidableEq W] [PyName W] (ord : SetOrder W) (column : List W)
    (h2 : 2 ≤ column.toFinset.card) :
    ∃ c L, nominalScale ord column = .ok c ∧ makeLattice c = .ok L ∧ L.concepts.length = column.toFinset.card + 2 ∧
      ∀ z, z ∈ L.concepts ↔ z = ⟨column.toFinset, ∅⟩ ∨ z = ⟨∅, column.toFinset⟩ ∨ ∃ v ∈ column, z = ⟨{v}, {v}⟩ := by
  obtain ⟨c, h1, hw, h3, h4, h5⟩ := C64_nominal ord column
  obtain ⟨L, k1, -, hnd, -, hmem, -⟩ := makeLattice_ok hw.toWFw
  have hG : c.G = column.toFinset := by ext v; simp [G, h3]
  have hM : c.M = column.toFinset := by ext v; simp [M, h4, h3]
  have key : ∀ z, z ∈ L.concepts ↔ z = ⟨column.toFinset, ∅⟩ ∨ z = ⟨∅, column.toFinset⟩ ∨ ∃ v ∈ column, z = ⟨{v}, {v}⟩ := by
    intro z
    rw [hmem, hG, hM]
    unfold IsConcept
    simp only [h5]
    constructor
    · rintro ⟨k1, k2⟩
      rcases Finset.eq_empty_or_nonempty z.extent with he | ⟨v, hv⟩
      · right; left
        cases z
        simp only at he k1 k2
        subst he
        congr 1
        ext w
        rw [k1]
        simp
      · have hvc : v ∈ column := List.mem_toFinset.1 ((k2 v).1 hv).1
        by_cases hex : ∃ w ∈ z.extent, w ≠ v
        · obtain ⟨w, hw, hwv⟩ := hex
          left
          have hi : z.intent = ∅ := by
            refine Finset.eq_empty_of_forall_notMem fun m hm => ?_
            obtain ⟨-, hm⟩ := (k1 m).1 hm
            exact hwv ((hm w hw).2.trans (hm v hv).2.symm)
          cases z
          simp only at hi k1 k2
          subst hi
          congr 1
          ext w
          rw [k2]
          simp
        · push Not at hex
          right; right
          have he : z.extent = {v} := by
            ext w
            rw [Finset.mem_singleton]
            exact ⟨fun hw => hex w hw, fun hw => hw ▸ hv⟩
          refine ⟨v, hvc, ?_⟩
          cases z
          simp only at he k1 k2
          subst he
          congr 1
          ext w
          rw [k1]
          simp only [Finset.mem_singleton, forall_eq, List.mem_toFinset]
          exact ⟨fun k => k.2.2.symm, by rintro rfl; exact ⟨hvc, hvc, rfl⟩⟩
    · rintro (rfl | rfl | ⟨v, hv, rfl⟩)
      · refine ⟨fun m => ?_, fun g => by simp⟩
        simp only [Finset.notMem_empty, false_iff, not_and]
        intro _ k
        obtain ⟨x, hx, y, hy, hxy⟩ := Finset.one_lt_card.1 (lt_of_lt_of_le one_lt_two h2)
        exact hxy ((k x hx).2.trans (k y hy).2.symm)
      · refine ⟨fun m => by simp, fun g => ?_⟩
        simp only [Finset.notMem_empty, false_iff, not_and]
        intro _ k
        obtain ⟨x, hx, y, hy, hxy⟩ := Finset.one_lt_card.1 (lt_of_lt_of_le one_lt_two h2)
        exact hxy ((k x hx).2.symm.trans (k y hy).2)
      · refine ⟨fun m => ?_, fun g => ?_⟩
        · simp only [Finset.mem_singleton, forall_eq, List.mem_toFinset]
          exact ⟨by rintro rfl; exact ⟨hv, hv, rfl⟩, fun k => k.2.2.symm⟩
        · simp only [Finset.mem_singleton, forall_eq, List.mem_toFinset]
          exact ⟨by rintro rfl; exact ⟨hv, hv, rfl⟩, fun k => k.2.2⟩
  refine ⟨c, L, h1, k1, ?_, key⟩
  have hset : L.concepts.toFinset = insert ⟨column.toFinset, ∅⟩ (insert ⟨∅, column.toFinset⟩
      (column.toFinset.image fun v => (⟨{v}, {v}⟩ : Concept W W))) := by
    ext z
    rw [List.mem_toFinset, key]
    simp only [Finset.mem_insert, Finset.mem_image, List.mem_toFinset]
    refine or_congr Iff.rfl (or_congr Iff.rfl ?_)
    exact exists_congr fun v => and_congr_right fun _ => eq_comm
  have hne : column.toFinset ≠ ∅ := by
    intro he
    rw [he] at h2
    simp at h2
  rw [← List.toFinset_card_of_nodup hnd, hset, Finset.card_insert_of_notMem, Finset.card_insert_of_notMem,
    Finset.card_image_of_injective]
  · intro v w hvw
    simpa using hvw
  · simp only [Finset.mem_image, not_exists, not_and]
    intro v _ he
    injection he with he
    exact absurd he (Finset.singleton_ne_empty v)
  · simp only [Finset.mem_insert, Finset.mem_image, not_or, not_exists, not_and]
    refine ⟨fun he => ?_, fun v _ he => ?_⟩
    · injection he with he
      exact hne he
    · injection he with _ he
      exact absurd he (Finset.singleton_ne_empty v)

/-! ### Concrete cases -/

/-- Hypotheses of `C133_basic_theorem`: the divisors 1, 2, 3, 6 as subsets of two primes; two objects and two attributes. -/
example : (⟨[0, 1], [0, 1], ⟨some 2, [[true, false], [false, true]]⟩⟩ : Ctx (Fin 2) (Fin 2)).Represented
    (γ := Bool × Bool) (fun o => (o == 0, o == 1)) (fun a => (a == 0, a == 1)) := by
  refine ⟨fun o _ a _ => ?_, by decide, by decide⟩
  rw [← WFw.incB (by constructor <;> decide +kernel)]
  revert o a
  decide

example : (do
    let c ← nominalScale (SetOrder.fin 3) [1, 2, 1, 0]
    let L ← makeLattice c
    .ok L.concepts.length : Py ℕ) = .ok 5 := by decide +kernel

end Ctx
