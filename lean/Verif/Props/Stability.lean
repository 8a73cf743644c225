/-
Properties C41-C45: indices of concepts and filtering.
-/
import Verif.Lemmas.Stability
import Verif.Lemmas.DGContext
import Verif.Props.Lattice
import Verif.SpecStability
import Mathlib.Algebra.Order.Field.Rat
import Mathlib.Algebra.Order.Field.Basic
import Mathlib.Tactic.Positivity
import Mathlib.Algebra.Order.BigOperators.Group.Finset

set_option linter.unusedSectionVars false

variable {α β : Type} [DecidableEq α] [DecidableEq β]

open Spec

/-! ### Counting subsets by their closures -/

/-- The subsets of a closed set are split by their closures. -/
theorem stab_sum {γ K : Type} [DecidableEq γ] [DecidableEq K] (cs : Finset K) (ext : K → Finset γ)
    (f : Finset γ → K) (G : Finset γ) (below : K → K → Bool)
    (hbelow : ∀ c ∈ cs, ∀ d ∈ cs, below d c = true ↔ ext d ⊂ ext c)
    (hinj : ∀ c ∈ cs, ∀ d ∈ cs, ext c = ext d → c = d) (hG : ∀ c ∈ cs, ext c ⊆ G)
    (hf : ∀ S, S ⊆ G → f S ∈ cs) (hext : ∀ S, S ⊆ G → S ⊆ ext (f S))
    (hmin : ∀ S, S ⊆ G → ∀ c ∈ cs, S ⊆ ext c → ext (f S) ⊆ ext c) (N : K → ℤ)
    (hN : ∀ c, N c = (((ext c).powerset.filter fun S => f S = c).card : ℤ)) (c : K) (hc : c ∈ cs) :
    (2 : ℤ) ^ (ext c).card = N c + ∑ d ∈ cs.filter (fun d => below d c = true), N d := by
  simp only [hN]
  have hmaps : ∀ S ∈ (ext c).powerset, f S ∈ insert c (cs.filter fun d => below d c = true) := by
    intro S hS
    rw [Finset.mem_powerset] at hS
    have hSG := hS.trans (hG c hc)
    have hle := hmin S hSG c hc hS
    rw [Finset.mem_insert, Finset.mem_filter]
    by_cases he : f S = c
    · exact .inl he
    · refine .inr ⟨hf S hSG, (hbelow c hc _ (hf S hSG)).2 ?_⟩
      exact Finset.ssubset_iff_subset_ne.2 ⟨hle, fun h => he (hinj _ (hf S hSG) _ hc h)⟩
  have hcard := Finset.card_eq_sum_card_fiberwise hmaps
  rw [Finset.card_powerset] at hcard
  have hnot : c ∉ cs.filter fun d => below d c = true := by
    rw [Finset.mem_filter]
    rintro ⟨-, h⟩
    exact (ssubset_irrefl _) ((hbelow c hc c hc).1 h)
  rw [Finset.sum_insert hnot] at hcard
  have hcast : ((2 ^ (ext c).card : ℕ) : ℤ) = 2 ^ (ext c).card := by push_cast; rfl
  rw [← hcast, hcard]
  push_cast
  congr 1
  apply Finset.sum_congr rfl
  intro d hd
  rw [Finset.mem_filter] at hd
  congr 2
  ext S
  rw [Finset.mem_filter, Finset.mem_filter, Finset.mem_powerset, Finset.mem_powerset]
  refine and_congr_left fun he => ?_
  constructor
  · intro hS; have := hext S (hS.trans (hG c hc)); rwa [he] at this
  · intro hS; exact hS.trans ((hbelow c hc d hd.1).1 hd.2).subset

/-! ### Lattice facts -/

section
variable {c : Ctx α β} {cs : List (Concept α β)}

theorem lat_anti (h3 : ∀ x, x ∈ cs ↔ IsConcept c.G c.M c.Inc x.extent x.intent) :
    ∀ x ∈ cs, ∀ y ∈ cs, x.extent ⊆ y.extent ↔ y.intent ⊆ x.intent := by
  intro x hx y hy
  have hxc := (h3 _).1 hx
  have hyc := (h3 _).1 hy
  constructor
  · intro hs m hm
    exact (hxc.1 m).2 ⟨((hyc.1 m).1 hm).1, fun g hg => ((hyc.1 m).1 hm).2 g (hs hg)⟩
  · intro hs g hg
    exact (hyc.2 g).2 ⟨((hxc.2 g).1 hg).1, fun m hm => ((hxc.2 g).1 hg).2 m (hs hm)⟩

theorem lat_anti_ss (h3 : ∀ x, x ∈ cs ↔ IsConcept c.G c.M c.Inc x.extent x.intent) :
    ∀ x ∈ cs, ∀ y ∈ cs, x.extent ⊂ y.extent ↔ y.intent ⊂ x.intent := by
  intro x hx y hy
  rw [Finset.ssubset_def, Finset.ssubset_def, lat_anti h3 x hx y hy, lat_anti h3 y hy x hx]

theorem lat_eq_int (h3 : ∀ x, x ∈ cs ↔ IsConcept c.G c.M c.Inc x.extent x.intent) :
    ∀ x ∈ cs, ∀ y ∈ cs, x.intent = y.intent → x = y := by
  intro x hx y hy he
  have : x.extent = y.extent :=
    Finset.Subset.antisymm ((lat_anti h3 x hx y hy).2 he.ge) ((lat_anti h3 y hy x hx).2 he.le)
  cases x; cases y; simp_all

theorem lat_eq_ext (h3 : ∀ x, x ∈ cs ↔ IsConcept c.G c.M c.Inc x.extent x.intent) :
    ∀ x ∈ cs, ∀ y ∈ cs, x.extent = y.extent → x = y := by
  intro x hx y hy he
  have : x.intent = y.intent :=
    Finset.Subset.antisymm ((lat_anti h3 y hy x hx).1 he.ge) ((lat_anti h3 x hx y hy).1 he.le)
  cases x; cases y; simp_all

end

theorem stabInv_init {cs : List (Concept α β)} {below : Concept α β → Concept α β → Bool}
    {size : Concept α β → ℕ} {N : Concept α β → ℤ} (cnt : Concept α β → ℤ)
    (hcnt : ∀ c ∈ cs, cnt c = ((cs.filter fun d => below d c).length : ℤ)) (b : Concept α β)
    (hb : b ∈ cs) (hbm : ∀ d ∈ cs, below d b = false) (hbu : ∀ c ∈ cs, c ≠ b → below b c = true) :
    StabInv cs below size N cs cnt (fun c => 2 ^ size c) {b} (fun _ => none) where
  sublist := List.Sublist.refl _
  down := fun c hc hcr => absurd hc hcr
  hsub := by
    intro c hc
    have : cs.toFinset.filter (fun d => d ∉ cs ∧ below d c = true) = ∅ := by
      apply Finset.filter_eq_empty_iff.2
      intro d hd h; exact h.1 (List.mem_toFinset.1 hd)
    rw [this]; simp
  hcnt := hcnt
  hwork := by
    intro c
    rw [Finset.mem_singleton]
    constructor
    · rintro rfl; exact ⟨hb, hbm⟩
    · rintro ⟨hc, hm⟩
      by_contra hne
      have := hbu c hc hne
      rw [hm b hb] at this; cases this
  hstab := by intro c; simp

/-! ### C41 -/

/-- Intensional stability: for every concept the returned number is the fraction of subsets of the
extent whose common attributes are exactly the intent. It does not depend on the order in which the
work-set is popped. -/
theorem C41_istability {c : Ctx α β} (h : c.WFw) (ord : ℕ → SetOrder (Concept α β)) :
    ∃ L st, makeLattice c = .ok L ∧ istability ord L.concepts = some (.ok st) ∧
      (∀ x ∈ L.concepts, st x = some (intensionalStability c.M c.Inc x.extent x.intent)) ∧
      ∀ x, x ∉ L.concepts → st x = none := by
  obtain ⟨L, h1, -, h2, -, h3, -, -, h6, -⟩ := makeLattice_ok h
  obtain ⟨L', h1', -, hb1, -, -, hbt⟩ := C37_top_bottom h
  rw [h1] at h1'; cases h1'
  let f : Finset α → Concept α β := fun S => ⟨c.downF (c.upF S), c.upF S⟩
  have hf : ∀ S, S ⊆ c.G → f S ∈ L.concepts := by
    intro S hS
    rw [h3]
    refine ⟨fun m => ?_, fun g => ?_⟩
    · constructor
      · intro hm
        exact ⟨c.upF_subset S hm, fun g hg => (h.mem_downF.1 hg).2 m hm⟩
      · rintro ⟨hm, hI⟩
        refine h.mem_upF.2 ⟨by simpa using hm, fun g hg => hI g ?_⟩
        exact h.oclF_ext hS hg
    · change g ∈ c.downF _ ↔ _
      rw [h.mem_downF]; simp [f]
  have hG : ∀ x ∈ L.concepts, x.extent ⊆ c.G := fun x hx g hg => ((((h3 x).1 hx).2 g).1 hg).1
  have hint : ∀ x ∈ L.concepts, x.intent = c.upF x.extent := by
    intro x hx
    ext m
    rw [((h3 x).1 hx).1 m, h.mem_upF]; simp
  have hextd : ∀ x ∈ L.concepts, x.extent = c.downF x.intent := by
    intro x hx
    ext m
    rw [((h3 x).1 hx).2 m, h.mem_downF]; simp
  obtain ⟨N, hN⟩ : ∃ N : Concept α β → ℤ, ∀ x, N x = ((x.extent.powerset.filter fun S => f S = x).card : ℤ) :=
    ⟨_, fun _ => rfl⟩
  have S : StabSetup L.concepts (fun b c => decide (c.intent ⊂ b.intent)) (fun x => x.extent.card) N := by
    refine ⟨h2, fun x hx => by simp, ?_, ?_⟩
    · intro x hx y hy z hz hxy hyz
      simp only [decide_eq_true_eq] at *
      exact hyz.trans hxy
    · intro x hx
      refine stab_sum L.concepts.toFinset Concept.extent f c.G
        (fun b c => decide (c.intent ⊂ b.intent)) ?_ ?_ ?_ ?_ ?_ ?_ N hN x (by simpa using hx)
      · intro x hx y hy
        simp only [List.mem_toFinset, decide_eq_true_eq] at *
        exact (lat_anti_ss h3 y hy x hx).symm
      · intro x hx y hy
        simp only [List.mem_toFinset] at *
        exact lat_eq_ext h3 x hx y hy
      · intro x hx; exact hG x (by simpa using hx)
      · intro S hS; simpa using hf S hS
      · intro S hS; exact h.oclF_ext hS
      · intro S hS x hx hSx
        rw [List.mem_toFinset] at hx
        rw [hextd x hx, hint x hx]
        exact c.downF_anti (c.upF_anti hSx)
  have I := stabInv_init (size := fun x => x.extent.card) (N := N)
    (below := fun b c => decide (c.intent ⊂ b.intent)) (cs := L.concepts)
    (fun x => ((L.concepts.filter fun d => decide (d.extent ⊂ x.extent)).length : ℤ)) (by
      intro x hx
      congr 2
      apply List.filter_congr
      intro d hd
      exact decide_eq_decide.2 (lat_anti_ss h3 d hd x hx)) L.bottom hb1
    (by
      intro d hd
      simp only [decide_eq_false_iff_not]
      intro hs
      exact hs.not_subset (hbt d hd).2.2.2)
    (by
      intro x hx hne
      simp only [decide_eq_true_eq]
      exact Finset.ssubset_iff_subset_ne.2
        ⟨(hbt x hx).2.2.2, fun he => hne (lat_eq_int h3 x hx _ hb1 he)⟩)
  obtain ⟨st, e1, e2⟩ := stabLoop_ok S ord (L.concepts.length + 1) I (by omega)
  refine ⟨L, st, h1, ?_, ?_, ?_⟩
  · unfold istability
    rw [h6]
    simpa using e1
  · intro x hx
    rw [e2 x, if_pos hx]
    congr 1
    unfold intensionalStability generatingSubsets
    congr 1
    have : ∀ S, f S = x ↔ ∀ m, m ∈ x.intent ↔ m ∈ c.M ∧ ∀ g ∈ S, c.Inc g m := by
      intro S
      constructor
      · intro he m
        rw [← he]
        change m ∈ c.upF S ↔ _
        rw [h.mem_upF]; simp
      · intro he
        have hu : c.upF S = x.intent := by
          ext m; rw [he m, h.mem_upF]; simp
        have hd := hextd x hx
        change (⟨c.downF (c.upF S), c.upF S⟩ : Concept α β) = x
        rw [hu, ← hd]
    rw [hN]
    norm_cast
    congr 1
    ext S
    simp only [Finset.mem_filter, this S]
  · intro x hx
    rw [e2 x, if_neg hx]

/-! ### C42 -/

/-- Extensional stability: for every concept the returned number is the fraction of subsets of the
intent whose common objects are exactly the extent. -/
theorem C42_estability {c : Ctx α β} (h : c.WFw) (ord : ℕ → SetOrder (Concept α β)) :
    ∃ L st, makeLattice c = .ok L ∧ estability ord L.concepts = some (.ok st) ∧
      (∀ x ∈ L.concepts, st x = some (extensionalStability c.G c.Inc x.extent x.intent)) ∧
      ∀ x, x ∉ L.concepts → st x = none := by
  obtain ⟨L, h1, -, h2, -, h3, -, h6, -, -⟩ := makeLattice_ok h
  obtain ⟨L', h1', ht1, -, -, -, hbt⟩ := C37_top_bottom h
  rw [h1] at h1'; cases h1'
  let f : Finset β → Concept α β := fun S => ⟨c.downF S, c.upF (c.downF S)⟩
  have hf : ∀ S, S ⊆ c.M → f S ∈ L.concepts := by
    intro S hS
    rw [h3]
    refine ⟨fun m => ?_, fun g => ?_⟩
    · change m ∈ c.upF _ ↔ _
      rw [h.mem_upF]; simp [f]
    · constructor
      · intro hm
        exact ⟨c.downF_subset S hm, fun m hg => (h.mem_upF.1 hg).2 g hm⟩
      · rintro ⟨hm, hI⟩
        refine h.mem_downF.2 ⟨by simpa using hm, fun m hg => hI m ?_⟩
        exact h.aclF_ext hS hg
  have hM : ∀ x ∈ L.concepts, x.intent ⊆ c.M := fun x hx g hg => ((((h3 x).1 hx).1 g).1 hg).1
  have hint : ∀ x ∈ L.concepts, x.intent = c.upF x.extent := by
    intro x hx
    ext m
    rw [((h3 x).1 hx).1 m, h.mem_upF]; simp
  have hextd : ∀ x ∈ L.concepts, x.extent = c.downF x.intent := by
    intro x hx
    ext m
    rw [((h3 x).1 hx).2 m, h.mem_downF]; simp
  obtain ⟨N, hN⟩ : ∃ N : Concept α β → ℤ, ∀ x, N x = ((x.intent.powerset.filter fun S => f S = x).card : ℤ) :=
    ⟨_, fun _ => rfl⟩
  have S : StabSetup L.concepts (fun b c => decide (b.intent ⊂ c.intent)) (fun x => x.intent.card) N := by
    refine ⟨h2, fun x hx => by simp, ?_, ?_⟩
    · intro x hx y hy z hz hxy hyz
      simp only [decide_eq_true_eq] at *
      exact hxy.trans hyz
    · intro x hx
      refine stab_sum L.concepts.toFinset Concept.intent f c.M
        (fun b c => decide (b.intent ⊂ c.intent)) ?_ ?_ ?_ ?_ ?_ ?_ N hN x (by simpa using hx)
      · intro x hx y hy; simp
      · intro x hx y hy
        simp only [List.mem_toFinset] at *
        exact lat_eq_int h3 x hx y hy
      · intro x hx; exact hM x (by simpa using hx)
      · intro S hS; simpa using hf S hS
      · intro S hS; exact h.aclF_ext hS
      · intro S hS x hx hSx
        rw [List.mem_toFinset] at hx
        rw [hint x hx, hextd x hx]
        exact c.upF_anti (c.downF_anti hSx)
  have I := stabInv_init (size := fun x => x.intent.card) (N := N)
    (below := fun b c => decide (b.intent ⊂ c.intent)) (cs := L.concepts)
    (fun x => ((L.concepts.filter fun d => decide (d.intent ⊂ x.intent)).length : ℤ))
    (fun x _ => rfl) L.top ht1
    (by
      intro d hd
      simp only [decide_eq_false_iff_not]
      intro hs
      exact hs.not_subset (hbt d hd).2.2.1)
    (by
      intro x hx hne
      simp only [decide_eq_true_eq]
      exact Finset.ssubset_iff_subset_ne.2
        ⟨(hbt x hx).2.2.1, fun he => hne (lat_eq_int h3 _ ht1 x hx he).symm⟩)
  obtain ⟨st, e1, e2⟩ := stabLoop_ok S ord (L.concepts.length + 1) I (by omega)
  refine ⟨L, st, h1, ?_, ?_, ?_⟩
  · unfold estability
    rw [h6]
    simpa using e1
  · intro x hx
    rw [e2 x, if_pos hx]
    congr 1
    unfold extensionalStability generatingSubsets
    congr 1
    have : ∀ S, f S = x ↔ ∀ g, g ∈ x.extent ↔ g ∈ c.G ∧ ∀ m ∈ S, c.Inc g m := by
      intro S
      constructor
      · intro he m
        rw [← he]
        change m ∈ c.downF S ↔ _
        rw [h.mem_downF]; simp
      · intro he
        have hu : c.downF S = x.extent := by
          ext m; rw [he m, h.mem_downF]; simp
        have hd := hint x hx
        change (⟨c.downF S, c.upF (c.downF S)⟩ : Concept α β) = x
        rw [hu, ← hd]
    rw [hN]
    norm_cast
    congr 1
    ext S
    simp only [Finset.mem_filter, this S]
  · intro x hx
    rw [e2 x, if_neg hx]

/-! ### C43 -/

theorem sum_card_enum {γ : Type} [DecidableEq γ] (ord : SetOrder γ) (s : Finset γ) (f : γ → ℤ) :
    ((ord.enum s).map f).sum = ∑ x ∈ s, f x := by
  rw [← List.sum_toFinset f (ord.nodup s), ord.toFinset]

open Classical in
theorem crosses_eq {c : Ctx α β} (h : c.WFw) (A : Finset α) (B : Finset β) (hA : A ⊆ c.G) (hB : B ⊆ c.M)
    (hI : ∀ g ∈ A, ∀ m ∈ B, c.Inc g m) :
    (crossesTouching c.G c.M c.Inc A B : ℤ) =
      ∑ m ∈ B, ((c.downF {m}).card : ℤ) + ∑ g ∈ A, ((c.upF {g}).card : ℤ) - (B.card : ℤ) * A.card := by
  have e1 : ∑ m ∈ B, (c.downF {m}).card = ((c.G ×ˢ c.M).filter fun p => c.Inc p.1 p.2 ∧ p.2 ∈ B).card := by
    rw [Finset.card_eq_sum_card_fiberwise (f := Prod.snd) (t := B) (fun p hp => by
      simp only [Finset.coe_filter, Set.mem_ofPred_eq] at hp; exact hp.2.2)]
    apply Finset.sum_congr rfl
    intro m hm
    apply Finset.card_bij (fun g _ => (g, m))
    · intro g hg
      rw [h.mem_downF] at hg
      have := hB hm
      simp only [Finset.mem_filter, Finset.mem_product, List.mem_toFinset] at this ⊢
      exact ⟨⟨⟨hg.1, this⟩, hg.2 m (by simp), hm⟩, trivial⟩
    · intro g _ g' _ he; exact (Prod.mk.inj he).1
    · rintro ⟨g, m'⟩ hp
      simp only [Finset.mem_filter, Finset.mem_product, List.mem_toFinset] at hp
      obtain ⟨⟨⟨h1, h2⟩, h3, h4⟩, rfl⟩ := hp
      exact ⟨g, h.mem_downF.2 ⟨h1, by simpa using h3⟩, rfl⟩
  have e2 : ∑ g ∈ A, (c.upF {g}).card = ((c.G ×ˢ c.M).filter fun p => c.Inc p.1 p.2 ∧ p.1 ∈ A).card := by
    rw [Finset.card_eq_sum_card_fiberwise (f := Prod.fst) (t := A) (fun p hp => by
      simp only [Finset.coe_filter, Set.mem_ofPred_eq] at hp; exact hp.2.2)]
    apply Finset.sum_congr rfl
    intro g hg
    apply Finset.card_bij (fun m _ => (g, m))
    · intro m hm
      rw [h.mem_upF] at hm
      have := hA hg
      simp only [Finset.mem_filter, Finset.mem_product, List.mem_toFinset] at this ⊢
      exact ⟨⟨⟨this, hm.1⟩, hm.2 g (by simp), hg⟩, trivial⟩
    · intro g _ g' _ he; exact (Prod.mk.inj he).2
    · rintro ⟨g', m⟩ hp
      simp only [Finset.mem_filter, Finset.mem_product, List.mem_toFinset] at hp
      obtain ⟨⟨⟨h1, h2⟩, h3, h4⟩, rfl⟩ := hp
      exact ⟨m, h.mem_upF.2 ⟨h2, by simpa using h3⟩, rfl⟩
  have e3 := Finset.card_union_add_card_inter
    ((c.G ×ˢ c.M).filter fun p => c.Inc p.1 p.2 ∧ p.2 ∈ B)
    ((c.G ×ˢ c.M).filter fun p => c.Inc p.1 p.2 ∧ p.1 ∈ A)
  rw [← e1, ← e2] at e3
  have e4 : ((c.G ×ˢ c.M).filter fun p => c.Inc p.1 p.2 ∧ p.2 ∈ B) ∪
      ((c.G ×ˢ c.M).filter fun p => c.Inc p.1 p.2 ∧ p.1 ∈ A) =
      (c.G ×ˢ c.M).filter fun p => c.Inc p.1 p.2 ∧ (p.1 ∈ A ∨ p.2 ∈ B) := by
    ext p; simp only [Finset.mem_union, Finset.mem_filter]; tauto
  have e5 : ((c.G ×ˢ c.M).filter fun p => c.Inc p.1 p.2 ∧ p.2 ∈ B) ∩
      ((c.G ×ˢ c.M).filter fun p => c.Inc p.1 p.2 ∧ p.1 ∈ A) = A ×ˢ B := by
    ext p
    simp only [Finset.mem_inter, Finset.mem_filter, Finset.mem_product]
    constructor
    · rintro ⟨⟨-, -, h1⟩, -, -, h2⟩; exact ⟨h2, h1⟩
    · rintro ⟨h1, h2⟩
      have := hI _ h1 _ h2
      exact ⟨⟨⟨hA h1, hB h2⟩, this, h2⟩, ⟨hA h1, hB h2⟩, this, h1⟩
  rw [e4, e5, Finset.card_product] at e3
  have e6 : crossesTouching c.G c.M c.Inc A B + A.card * B.card =
    ∑ m ∈ B, (c.downF {m}).card + ∑ g ∈ A, (c.upF {g}).card := by
    unfold crossesTouching; convert e3
  have e7 := congrArg (Nat.cast (R := ℤ)) e6
  push_cast at e7
  rw [mul_comm (B.card : ℤ)]
  linarith

/-- The numbers of `compute_separation_index`. -/
theorem separationOf_ok {c : Ctx α β} (h : c.WFw) (hc : c.nd.cols = some c.attributes.length ∨ c.attributes = [])
    (ordO : SetOrder α) (ordA : SetOrder β) (x : Concept α β)
    (hx : IsConcept c.G c.M c.Inc x.extent x.intent) :
    separationOf c ordO ordA x = .ok (if x.extent = ∅ ∨ x.intent = ∅ then 1 else
      ((x.extent.card * x.intent.card : ℕ) : ℚ) / crossesTouching c.G c.M c.Inc x.extent x.intent) := by
  have hM : ∀ m ∈ x.intent, m ∈ c.attributes := fun m hm => by simpa using ((hx.1 m).1 hm).1
  have hG : ∀ g ∈ x.extent, g ∈ c.objects := fun g hg => by simpa using ((hx.2 g).1 hg).1
  have hI : ∀ g ∈ x.extent, ∀ m ∈ x.intent, c.Inc g m := fun g hg => ((hx.2 g).1 hg).2
  have hcross := crosses_eq h x.extent x.intent (fun g hg => by simpa using hG g hg)
    (fun m hm => by simpa using hM m hm) hI
  unfold separationOf
  have ea : (ordA.enum x.intent).mapM c.attributeExtent =
      .ok ((ordA.enum x.intent).map fun m => c.downF {m}) := by
    apply mapM_ok
    intro m hm
    have hm' := hM m ((ordA.mem _ _).1 hm)
    rcases hc with hc | hc
    · exact h.attributeExtent hc hm'
    · rw [hc] at hm'; simp at hm'
  have eo : (ordO.enum x.extent).mapM c.objectIntent =
      .ok ((ordO.enum x.extent).map fun g => c.upF {g}) :=
    mapM_ok fun g hg => h.objectIntent (hG g ((ordO.mem _ _).1 hg))
  rw [ea, py_ok_bind, eo, py_ok_bind, List.map_map, List.map_map]
  have s1 := sum_card_enum ordA x.intent (fun m => ((c.downF {m}).card : ℤ))
  have s2 := sum_card_enum ordO x.extent (fun g => ((c.upF {g}).card : ℤ))
  simp only [Function.comp_def]
  rw [s1, s2, ← hcross]
  by_cases he : x.extent = ∅ ∨ x.intent = ∅
  · rw [if_pos he, if_pos]
    rcases he with he | he <;> simp [he]
  · rw [if_neg he]
    rw [not_or] at he
    have h1 : 0 < x.extent.card := Finset.card_pos.2 (Finset.nonempty_iff_ne_empty.2 he.1)
    have h2 : 0 < x.intent.card := Finset.card_pos.2 (Finset.nonempty_iff_ne_empty.2 he.2)
    have hsq : (x.intent.card : ℤ) * x.extent.card ≠ 0 := by positivity
    rw [if_neg hsq]
    obtain ⟨g, hg⟩ := Finset.nonempty_iff_ne_empty.2 he.1
    obtain ⟨m, hm⟩ := Finset.nonempty_iff_ne_empty.2 he.2
    have hpos : 0 < crossesTouching c.G c.M c.Inc x.extent x.intent := by
      unfold crossesTouching
      apply Finset.card_pos.2
      refine ⟨(g, m), ?_⟩
      simp only [Finset.mem_filter, Finset.mem_product, List.mem_toFinset]
      exact ⟨⟨hG g hg, hM m hm⟩, hI g hg m hm, .inl hg⟩
    unfold pyDiv
    rw [if_neg (by positivity)]
    congr 1
    push_cast
    ring

open Classical in
theorem square_le_crosses {c : Ctx α β} (x : Concept α β)
    (hx : IsConcept c.G c.M c.Inc x.extent x.intent) :
    x.extent.card * x.intent.card ≤ crossesTouching c.G c.M c.Inc x.extent x.intent := by
  rw [← Finset.card_product]
  unfold crossesTouching
  apply Finset.card_le_card
  rintro ⟨g, m⟩ hp
  rw [Finset.mem_product] at hp
  simp only [Finset.mem_filter, Finset.mem_product]
  exact ⟨⟨((hx.2 g).1 hp.1).1, ((hx.1 m).1 hp.2).1⟩, ((hx.2 g).1 hp.1).2 m hp.2, .inl hp.1⟩

/-- C43 restricted to contexts with an object or without attributes: the index of a concept is the
size of its rectangle divided by the number of crosses in its rows or columns (1 for a concept with
empty extent or intent), and lies in (0, 1]. Missing: object-free contexts with attributes, where it
fails, see `C43_separation_violated`. -/
theorem C43_separation_partial {c : Ctx α β} (h : c.WFw) (hne : c.objects ≠ [] ∨ c.attributes = [])
    (ordO : SetOrder α) (ordA : SetOrder β) :
    ∃ L items, makeLattice c = .ok L ∧ separation c ordO ordA L.concepts = .ok items ∧
      items.map Prod.fst = L.concepts ∧
      ∀ x q, (x, q) ∈ items →
        q = (if x.extent = ∅ ∨ x.intent = ∅ then 1 else
          ((x.extent.card * x.intent.card : ℕ) : ℚ) / crossesTouching c.G c.M c.Inc x.extent x.intent) ∧
        0 < q ∧ q ≤ 1 := by
  obtain ⟨L, h1, -, h2, -, h3, -⟩ := makeLattice_ok h
  have hc : c.nd.cols = some c.attributes.length ∨ c.attributes = [] := hne.imp_left h.cols
  refine ⟨L, L.concepts.map fun x => (x, if x.extent = ∅ ∨ x.intent = ∅ then 1 else
      ((x.extent.card * x.intent.card : ℕ) : ℚ) / crossesTouching c.G c.M c.Inc x.extent x.intent),
    h1, ?_, ?_, ?_⟩
  · apply mapM_ok
    intro x hx
    rw [separationOf_ok h hc ordO ordA x ((h3 x).1 hx)]; rfl
  · rw [List.map_map]; simp [Function.comp_def]
  · intro x q hq
    rw [List.mem_map] at hq
    obtain ⟨y, hy, he⟩ := hq
    rw [Prod.mk.injEq] at he
    obtain ⟨rfl, he⟩ := he
    refine ⟨he.symm, ?_⟩
    rw [← he]
    split
    · exact ⟨one_pos, le_rfl⟩
    · next hz =>
      rw [not_or] at hz
      have e1 : 0 < y.extent.card := Finset.card_pos.2 (Finset.nonempty_iff_ne_empty.2 hz.1)
      have e2 : 0 < y.intent.card := Finset.card_pos.2 (Finset.nonempty_iff_ne_empty.2 hz.2)
      have hle := square_le_crosses y ((h3 y).1 hy)
      have hpos : 0 < y.extent.card * y.intent.card := Nat.mul_pos e1 e2
      have hq1 : (0 : ℚ) < ((y.extent.card * y.intent.card : ℕ) : ℚ) := by exact_mod_cast hpos
      have hq2 : ((y.extent.card * y.intent.card : ℕ) : ℚ) ≤
        (crossesTouching c.G c.M c.Inc y.extent y.intent : ℚ) := by exact_mod_cast hle
      have hq3 := hq1.trans_le hq2
      exact ⟨div_pos hq1 hq3, (div_le_one hq3).2 hq2⟩

/-- C43 fails on contexts built from an empty table with at least one attribute: the lattice has one
concept and computing its index raises IndexError. -/
theorem C43_separation_violated {c : Ctx α β} (h : c.WFw) (ho : c.objects = []) (hn : c.nd.cols = none)
    (ha : c.attributes ≠ []) (ordO : SetOrder α) (ordA : SetOrder β) :
    ∃ L, makeLattice c = .ok L ∧ separation c ordO ordA L.concepts = .error .indexError := by
  obtain ⟨L, h1, -, h2, -, h3, -, -, -, hne⟩ := makeLattice_ok h
  refine ⟨L, h1, ?_⟩
  unfold separation
  obtain ⟨x, l, hl⟩ := List.exists_cons_of_ne_nil hne
  have hx : IsConcept c.G c.M c.Inc x.extent x.intent := (h3 x).1 (by rw [hl]; simp)
  have hint : x.intent = c.M := by
    have he : x.extent = ∅ := by
      rw [Finset.eq_empty_iff_forall_notMem]
      intro g hg
      have := ((hx.2 g).1 hg).1
      simp [ho] at this
    ext m
    rw [hx.1 m, he]; simp
  have : separationOf c ordO ordA x = .error .indexError := by
    unfold separationOf
    have : (ordA.enum x.intent).mapM c.attributeExtent = .error .indexError := by
      cases hen : ordA.enum x.intent with
      | nil =>
        exfalso
        have hm := ordA.mem x.intent
        rw [hen, hint] at hm
        obtain ⟨a, ha'⟩ := List.exists_mem_of_ne_nil _ ha
        have := (hm a).2 (by simpa using ha')
        simp at this
      | cons m ms =>
        have hm : m ∈ c.attributes := by
          have := (ordA.mem x.intent m).1 (by rw [hen]; simp)
          rw [hint] at this; simpa using this
        rw [List.mapM_cons, Ctx.attributeExtent_none hn hm]; rfl
    rw [this]; rfl
  rw [hl, List.mapM_cons, this]; rfl

/-! ### C44 -/

theorem sizes_ok (cs : List (Concept α β)) (size : Concept α β → ℕ) (n : ℕ) (hn : n ≠ 0) :
    (cs.mapM fun x => do
      let q ← pyDiv (size x) n
      .ok (x, q) : Py (List (Concept α β × ℚ))) = .ok (cs.map fun x => (x, (size x : ℚ) / n)) := by
  apply mapM_ok
  intro x hx
  unfold pyDiv
  rw [if_neg (by exact_mod_cast hn), py_ok_bind]
  simp

theorem sizes_err (cs : List (Concept α β)) (size : Concept α β → ℕ) (hcs : cs ≠ []) :
    (cs.mapM fun x => do
      let q ← pyDiv (size x) ((0 : ℕ) : ℤ)
      .ok (x, q) : Py (List (Concept α β × ℚ))) = .error .zeroDivisionError := by
  obtain ⟨x, l, rfl⟩ := List.exists_cons_of_ne_nil hcs
  rw [List.mapM_cons]
  simp [pyDiv]

/-- `compute_extent_size` and `compute_intent_size` on a lattice raise ZeroDivisionError exactly for
contexts without objects / attributes; otherwise they give every concept the relative size of its
extent / intent, a number in [0, 1] which is monotone in the extent / intent. -/
theorem C44_sizes {c : Ctx α β} (h : c.WFw) :
    ∃ L, makeLattice c = .ok L ∧
      (c.objects = [] → extentSize c L.concepts = .error .zeroDivisionError) ∧
      (c.attributes = [] → intentSize c L.concepts = .error .zeroDivisionError) ∧
      (c.objects ≠ [] → ∃ items, extentSize c L.concepts = .ok items ∧ items.map Prod.fst = L.concepts ∧
        (∀ x q, (x, q) ∈ items → q = (x.extent.card : ℚ) / c.G.card ∧ 0 ≤ q ∧ q ≤ 1) ∧
        ∀ x q y r, (x, q) ∈ items → (y, r) ∈ items → x.extent ⊆ y.extent → q ≤ r) ∧
      (c.attributes ≠ [] → ∃ items, intentSize c L.concepts = .ok items ∧ items.map Prod.fst = L.concepts ∧
        (∀ x q, (x, q) ∈ items → q = (x.intent.card : ℚ) / c.M.card ∧ 0 ≤ q ∧ q ≤ 1) ∧
        ∀ x q y r, (x, q) ∈ items → (y, r) ∈ items → x.intent ⊆ y.intent → q ≤ r) := by
  obtain ⟨L, h1, -, h2, -, h3, -, -, -, hne⟩ := makeLattice_ok h
  have gen : ∀ (γ : Type) (_ : DecidableEq γ) (l : List γ) (f : Concept α β → Finset γ), l.Nodup → l ≠ [] →
      (∀ x ∈ L.concepts, f x ⊆ l.toFinset) →
      ∀ items, items = (L.concepts.map fun x => (x, ((f x).card : ℚ) / (l.length : ℕ))) →
      items.map Prod.fst = L.concepts ∧
      (∀ x q, (x, q) ∈ items → q = ((f x).card : ℚ) / l.toFinset.card ∧ 0 ≤ q ∧ q ≤ 1) ∧
        ∀ x q y r, (x, q) ∈ items → (y, r) ∈ items → f x ⊆ f y → q ≤ r := by
    rintro γ _ l f hnd hl hf items rfl
    have hc : l.toFinset.card = l.length := List.toFinset_card_of_nodup hnd
    have hpos : (0 : ℚ) < (l.length : ℕ) := by
      exact_mod_cast List.length_pos_iff.2 hl
    refine ⟨by rw [List.map_map]; simp [Function.comp_def], ?_, ?_⟩
    · intro x q hq
      rw [List.mem_map] at hq
      obtain ⟨y, hy, he⟩ := hq
      rw [Prod.mk.injEq] at he
      obtain ⟨rfl, rfl⟩ := he
      refine ⟨by rw [hc], by positivity, (div_le_one hpos).2 ?_⟩
      have := Finset.card_le_card (hf y hy)
      rw [hc] at this
      exact_mod_cast this
    · intro x q y r hq hr hxy
      rw [List.mem_map] at hq hr
      obtain ⟨x', -, he⟩ := hq
      obtain ⟨y', -, he'⟩ := hr
      rw [Prod.mk.injEq] at he he'
      obtain ⟨rfl, rfl⟩ := he
      obtain ⟨rfl, rfl⟩ := he'
      have := Finset.card_le_card hxy
      exact div_le_div_of_nonneg_right (by exact_mod_cast this) hpos.le
  refine ⟨L, h1, ?_, ?_, ?_, ?_⟩
  · intro ho
    unfold extentSize
    rw [ho]
    exact sizes_err L.concepts (fun x => x.extent.card) hne
  · intro ho
    unfold intentSize
    rw [ho]
    exact sizes_err L.concepts (fun x => x.intent.card) hne
  · intro ho
    refine ⟨_, sizes_ok L.concepts (fun x => x.extent.card) _ (by simpa using ho), ?_⟩
    exact gen α _ c.objects Concept.extent h.onodup ho
      (fun x hx g hg => ((((h3 x).1 hx).2 g).1 hg).1) _ rfl
  · intro ho
    refine ⟨_, sizes_ok L.concepts (fun x => x.intent.card) _ (by simpa using ho), ?_⟩
    exact gen β _ c.attributes Concept.intent h.anodup ho
      (fun x hx g hg => ((((h3 x).1 hx).1 g).1 hg).1) _ rfl

/-! ### C45 -/

/-- C45 fails: whatever the index and the option, modes 'part' and 'abs' never return. -/
theorem C45_filter_violated (items : List (Concept α β × ℚ)) (opt : ℚ) :
    ∀ r, filterConcepts items .part opt ≠ .ok r ∧ filterConcepts items .abs opt ≠ .ok r := by
  intro r
  unfold filterConcepts
  by_cases h : items = [] <;> simp [h]

/-- What remains of C45: mode 'value' on a non-empty dict returns exactly the concepts whose index is
at least the threshold, in the order of the dict. Missing: modes 'abs' and 'part'. -/
theorem C45_filter_partial (items : List (Concept α β × ℚ)) (hne : items ≠ []) (v : ℚ) :
    ∃ r, filterConcepts items .value v = .ok r ∧ r.Sublist (items.map Prod.fst) ∧
      (∀ x, x ∈ r ↔ ∃ q, (x, q) ∈ items ∧ v ≤ q) ∧
      ((items.map Prod.fst).Nodup → r.Nodup) := by
  unfold filterConcepts
  rw [if_neg hne]
  refine ⟨_, rfl, List.filter_sublist.map _, fun x => ?_, fun hn => (List.filter_sublist.map _).nodup hn⟩
  simp [and_comm]

/-- Applied to a lattice with intensional stability: the concepts above the threshold. -/
theorem C45_value_istability {c : Ctx α β} (h : c.WFw) (ord : ℕ → SetOrder (Concept α β)) (v : ℚ) :
    ∃ L st, makeLattice c = .ok L ∧ istability ord L.concepts = some (.ok st) ∧
      ∀ items, (∀ x q, (x, q) ∈ items ↔ st x = some q) →
        ∃ r, filterConcepts items .value v = .ok r ∧
          ∀ x, x ∈ r ↔ IsConcept c.G c.M c.Inc x.extent x.intent ∧
            v ≤ intensionalStability c.M c.Inc x.extent x.intent := by
  obtain ⟨L, h1, -, h2, -, h3, -, -, -, hne⟩ := makeLattice_ok h
  obtain ⟨L', st, h1', h4, h5, h6⟩ := C41_istability h ord
  rw [h1] at h1'; cases h1'
  refine ⟨L, st, h1, h4, fun items hi => ?_⟩
  have hine : items ≠ [] := by
    obtain ⟨x, hx⟩ := List.exists_mem_of_ne_nil _ hne
    have := (hi x _).2 (h5 x hx)
    exact List.ne_nil_of_mem this
  obtain ⟨r, e1, -, e2, -⟩ := C45_filter_partial items hine v
  refine ⟨r, e1, fun x => ?_⟩
  rw [e2 x, ← h3 x]
  constructor
  · rintro ⟨q, hq, hv⟩
    rw [hi] at hq
    by_cases hx : x ∈ L.concepts
    · rw [h5 x hx, Option.some.injEq] at hq
      exact ⟨hx, hq ▸ hv⟩
    · rw [h6 x hx] at hq; cases hq
  · rintro ⟨hx, hv⟩
    exact ⟨_, (hi x _).2 (h5 x hx), hv⟩

/-! ### Concrete cases -/

def subs2 : List (Finset (Fin 2)) := [∅, {0}, {1}, {0, 1}]

/-- An iteration order on sets of concepts over two objects and two attributes. -/
def ordC2 : SetOrder (Concept (Fin 2) (Fin 2)) where
  enum s := (subs2.flatMap fun a => subs2.map fun b => ⟨a, b⟩).filter (· ∈ s)
  nodup s := List.Nodup.filter _ (by decide +kernel)
  mem s x := by
    have : ∀ a b : Finset (Fin 2), (⟨a, b⟩ : Concept (Fin 2) (Fin 2)) ∈
        (subs2.flatMap fun a => subs2.map fun b => ⟨a, b⟩) := by decide +kernel
    simp only [List.mem_filter, decide_eq_true_eq, and_iff_right_iff_imp]
    exact fun _ => this x.extent x.intent

def cxtS : Ctx (Fin 2) (Fin 2) := ⟨[0, 1], [0, 1], ⟨some 2, [[true, true], [false, true]]⟩⟩

theorem cxtS_wf : cxtS.WFw := by constructor <;> decide +kernel

/-- The values on the concepts of a list, for display. -/
def showStab (cs : List (Concept (Fin 2) (Fin 2))) :
    Option (Py (Concept (Fin 2) (Fin 2) → Option ℚ)) → Option (List (Option ℚ))
  | some (.ok st) => some (cs.map st)
  | _ => none

/-- The concepts of `cxtS`. -/
def csS : List (Concept (Fin 2) (Fin 2)) := [⟨{0}, {0, 1}⟩, ⟨{0, 1}, {1}⟩]

example : norris cxtS = .ok csS := by decide +kernel

example : showStab csS (istability (fun _ => ordC2) csS) = some [some 1, some (1 / 2)] := by decide +kernel
example : showStab csS (estability (fun _ => ordC2) csS) = some [some (1 / 2), some 1] := by decide +kernel

example : (do
    let L ← makeLattice cxtS
    separation cxtS (SetOrder.fin 2) (SetOrder.finRev 2) L.concepts : Py _) =
    .ok [(⟨{0}, {0, 1}⟩, 2 / 3), (⟨{0, 1}, {1}⟩, 2 / 3)] := by decide +kernel

example : (do
    let L ← makeLattice cxtS
    let it ← extentSize cxtS L.concepts
    filterConcepts it .value (3 / 4) : Py _) = .ok [⟨{0, 1}, {1}⟩] := by decide +kernel

/-- The hypotheses of `C43_separation_violated` are met. -/
example : ∃ L, makeLattice (⟨[], [0, 1], ⟨none, []⟩⟩ : Ctx (Fin 2) (Fin 2)) = .ok L ∧
    separation ⟨[], [0, 1], ⟨none, []⟩⟩ (SetOrder.fin 2) (SetOrder.fin 2) L.concepts = .error .indexError :=
  C43_separation_violated (by constructor <;> decide +kernel) rfl rfl (by decide) _ _
