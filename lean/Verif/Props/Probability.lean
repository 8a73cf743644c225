/-
Property C90: compute_probability.
-/
import Verif.Lemmas.Probability
import Verif.Props.Lattice
import Mathlib.Data.Set.Card
import Mathlib.Tactic.NormNum

set_option linter.unusedSectionVars false

variable {α β : Type} [DecidableEq α] [DecidableEq β]

open Spec Ctx

/-! ### Facts about the specification -/

namespace Spec

theorem rowProb_nonneg {p : β → ℝ} (hp : ∀ m, 0 ≤ p m ∧ p m ≤ 1) (M s : Finset β) : 0 ≤ rowProb p M s :=
  mul_nonneg (Finset.prod_nonneg fun m _ => (hp m).1) (Finset.prod_nonneg fun m _ => sub_nonneg.2 (hp m).2)

/-- It is a probability. -/
theorem probClosed_bounds {p : β → ℝ} (hp : ∀ m, 0 ≤ p m ∧ p m ≤ 1) (M : Finset β) (n : ℕ) (B : Finset β) :
    0 ≤ probClosed p M n B ∧ probClosed p M n B ≤ 1 := by
  constructor
  · exact Finset.sum_nonneg fun T _ => Finset.prod_nonneg fun g _ => rowProb_nonneg hp M _
  · have h1 : ∑ T ∈ Fintype.piFinset (fun _ : Fin n => M.powerset), ∏ g, rowProb p M (T g) = 1 := by
      rw [← Finset.prod_univ_sum (fun _ : Fin n => M.powerset) (fun _ s => rowProb p M s)]
      simp [rowProb_total]
    rw [← h1]
    exact Finset.sum_le_sum_of_subset_of_nonneg (Finset.filter_subset _ _)
      fun T _ _ => Finset.prod_nonneg fun g _ => rowProb_nonneg hp M _

/-- The set of all attributes is always closed. -/
theorem probClosed_all (p : β → ℝ) (M : Finset β) (n : ℕ) : probClosed p M n M = 1 := by
  rw [probClosed_eq p n (Finset.Subset.refl M), Finset.sdiff_self]
  simp only [Finset.prod_empty, mul_one]
  rw [← add_pow]; simp

/-- Only the values on the attributes matter. -/
theorem probClosed_congr {p q : β → ℝ} {M B : Finset β} (n : ℕ) (hB : B ⊆ M) (h : ∀ m ∈ M, p m = q m) :
    probClosed p M n B = probClosed q M n B := by
  rw [probClosed_eq p n hB, probClosed_eq q n hB]
  refine Finset.sum_congr rfl fun k _ => ?_
  have h1 : ∏ m ∈ B, p m = ∏ m ∈ B, q m := Finset.prod_congr rfl fun m hm => h m (hB hm)
  have h2 : ∏ m ∈ M \ B, (1 - p m ^ k) = ∏ m ∈ M \ B, (1 - q m ^ k) :=
    Finset.prod_congr rfl fun m hm => by rw [h m (Finset.mem_sdiff.1 hm).1]
  rw [h1, h2]

end Spec

/-- Relative frequency of an attribute: the number of objects having it, divided by the number of objects. -/
noncomputable def Ctx.freq (c : Ctx α β) (m : β) : ℝ := ({g | c.Inc g m}.ncard : ℝ) / (c.objects.length : ℝ)

section
variable {c : Ctx α β}

theorem foldl_count (a : β) (l : List (Finset β)) (k : ℕ) :
    l.foldl (fun k o => if a ∈ o then k + 1 else k) k = k + l.countP (fun o => decide (a ∈ o)) := by
  induction l generalizing k with
  | nil => simp
  | cons o l ih =>
    rw [List.foldl_cons, ih, List.countP_cons]
    by_cases h : a ∈ o
    · simp [h]; omega
    · simp [h]

theorem ncard_inc (h : c.WFw) {a : β} (ha : a ∈ c.attributes) :
    {g | c.Inc g a}.ncard = (c.objects.map fun o => c.upF {o}).countP (fun o => decide (a ∈ o)) := by
  have hs : {g | c.Inc g a} = ((c.objects.toFinset.filter fun o => a ∈ c.upF {o} : Finset α) : Set α) := by
    ext g
    simp only [Set.mem_ofPred_eq, Finset.coe_filter, List.mem_toFinset]
    rw [h.mem_upF]
    constructor
    · intro hg; exact ⟨hg.mem.1, ha, fun o ho => by rw [Finset.mem_singleton.1 ho]; exact hg⟩
    · rintro ⟨-, -, hg⟩; exact hg g (Finset.mem_singleton_self _)
  rw [hs, Set.ncard_coe_finset, List.countP_map, List.countP_eq_length_filter,
    ← List.toFinset_card_of_nodup (h.onodup.filter _)]
  congr 1
  ext g; simp

theorem attrProb_ok (h : c.WFw) (hne : c.objects ≠ []) {a : β} (ha : a ∈ c.attributes) :
    attrProb c a = .ok (c.freq a) := by
  unfold attrProb
  have hlen : c.len = c.objects.length := h.nrows
  have hm : (List.range c.objects.length).mapM c.intentByIndex = .ok (c.objects.map fun o => c.upF {o}) := by
    have : (c.objects.map fun o => c.upF {o}) =
        (List.range c.objects.length).map fun i => if hi : i < c.objects.length then c.upF {c.objects[i]} else ∅ := by
      apply List.ext_getElem
      · simp
      · intro i h1 h2
        simp at h1
        simp [h1]
    rw [this]
    refine mapM_ok fun i hi => ?_
    have hi := List.mem_range.1 hi
    rw [dif_pos hi]
    exact h.intentByIndex (by simp [hi])
  have hz : c.objects.length ≠ 0 := fun h => hne (List.length_eq_zero_iff.1 h)
  rw [hlen, hm, py_ok_bind, if_neg hz]
  simp only [foldl_count, zero_add]
  unfold Ctx.freq
  rw [ncard_inc h ha]

theorem freq_bounds (hne : c.objects ≠ []) (m : β) : 0 ≤ c.freq m ∧ c.freq m ≤ 1 := by
  have hpos : (0 : ℝ) < c.objects.length := by
    exact_mod_cast List.length_pos_iff.2 hne
  constructor
  · exact div_nonneg (by positivity) hpos.le
  · rw [Ctx.freq, div_le_one hpos]
    have : {g | c.Inc g m}.ncard ≤ (c.objects.toFinset : Set α).ncard :=
      Set.ncard_le_ncard (fun g hg => by simpa using (Ctx.Inc.mem hg).1) (Finset.finite_toSet _)
    rw [Set.ncard_coe_finset] at this
    exact_mod_cast this.trans (List.toFinset_card_le _)

/-- All objects have an attribute of relative frequency 1. -/
theorem freq_one (h : c.WFw) (hne : c.objects ≠ []) {m : β} (h1 : c.freq m = 1) : ∀ g ∈ c.objects, c.Inc g m := by
  have hpos : (c.objects.length : ℝ) ≠ 0 := by
    have := List.length_pos_iff.2 hne
    exact_mod_cast this.ne'
  rw [Ctx.freq, div_eq_one_iff_eq hpos] at h1
  have h2 : {g | c.Inc g m}.ncard = c.objects.length := by exact_mod_cast h1
  have hsub : {g | c.Inc g m} ⊆ (c.objects.toFinset : Set α) := fun g hg => by simpa using (Ctx.Inc.mem hg).1
  have heq := Set.eq_of_subset_of_ncard_le hsub
    (by rw [h2, Set.ncard_coe_finset, List.toFinset_card_of_nodup h.onodup]) (Finset.finite_toSet _)
  intro g hg
  have : g ∈ (c.objects.toFinset : Set α) := by simpa using hg
  rw [← heq] at this
  exact this

/-- No object has an attribute of relative frequency 0. -/
theorem freq_zero (hne : c.objects ≠ []) {m : β} (h0 : ¬ 0 < c.freq m) (g : α) : ¬ c.Inc g m := by
  intro hg
  apply h0
  have hpos : (0 : ℝ) < c.objects.length := by exact_mod_cast List.length_pos_iff.2 hne
  refine div_pos ?_ hpos
  have hfin : {g | c.Inc g m}.Finite :=
    (Finset.finite_toSet c.objects.toFinset).subset fun g hg => by simpa using (Ctx.Inc.mem hg).1
  exact_mod_cast (Set.ncard_pos hfin).2 ⟨g, hg⟩

theorem lookup_zip_map {γ : Type} (f : β → γ) {l : List β} {a : β} (ha : a ∈ l) :
    (l.zip (l.map f)).lookup a = some (f a) := by
  induction l with
  | nil => simp at ha
  | cons b l ih =>
    rw [List.map_cons, List.zip_cons_cons, List.lookup_cons]
    by_cases hb : a = b
    · subst hb; simp
    · have : (a == b) = false := by simpa using hb
      rw [this]
      exact ih (by simpa [hb] using ha)

/-- The value for one intent. -/
theorem intentProb_eq (h : c.WFw) (hne : c.objects ≠ []) (ord₁ ord₂ : SetOrder β) {p : β → ℝ}
    (hp : ∀ a ∈ c.attributes, p a = c.freq a) {A : Finset α} {B : Finset β} (hc : IsConcept c.G c.M c.Inc A B) :
    intentProb ord₁ ord₂ p c.attributes c.objects.length B = probClosed c.freq c.M c.objects.length B := by
  have hBM : B ⊆ c.M := fun m hm => ((hc.1 m).1 hm).1
  have hBA : ∀ m ∈ B, m ∈ c.attributes := fun m hm => List.mem_toFinset.1 (hBM hm)
  have hAG : A ⊆ c.G := fun g hg => ((hc.2 g).1 hg).1
  obtain ⟨l, hl⟩ : ∃ l, l = ord₂.enum (c.attributes.filter fun a => decide (a ∉ B)).toFinset := ⟨_, rfl⟩
  have hmem : ∀ a, a ∈ l ↔ a ∈ c.attributes ∧ a ∉ B := by intro a; rw [hl]; simp
  have hlM : l.toFinset = c.M \ B := by
    ext a; rw [List.mem_toFinset, hmem, Finset.mem_sdiff, Ctx.M, List.mem_toFinset]
  have hnd : l.Nodup := by rw [hl]; exact ord₂.nodup _
  have hlp : ∀ a ∈ l, 0 ≤ p a ∧ p a < 1 := by
    intro a ha
    obtain ⟨ha1, ha2⟩ := (hmem a).1 ha
    rw [hp a ha1]
    refine ⟨(freq_bounds hne a).1, lt_of_le_of_ne (freq_bounds hne a).2 fun h1 => ha2 ?_⟩
    exact (hc.1 a).2 ⟨List.mem_toFinset.2 ha1, fun g hg => freq_one h hne h1 g (List.mem_toFinset.1 (hAG hg))⟩
  -- the factor of the chosen attributes
  obtain ⟨pB, hpB⟩ : ∃ pB, pB = if B.card = 0 then 1 else Real.exp (logSubset p (ord₁.enum B)) := ⟨_, rfl⟩
  have hlog : (if B.card = 0 then 0 else logSubset p (ord₁.enum B)) = Real.log pB := by
    rw [hpB]; split_ifs <;> simp
  have hle : ∀ (l : List β) (x : ℝ), (∀ a ∈ l, p a ≤ 1) → x ≤ 0 →
      l.foldl (fun ans a => match pyLog (p a) with | .ok x => ans + x | .error _ => ans) x ≤ 0 := by
    intro l
    induction l with
    | nil => intro x _ hx; exact hx
    | cons a l ih =>
      intro x hl hx
      rw [List.foldl_cons]
      refine ih _ (fun b hb => hl b (by simp [hb])) ?_
      by_cases ha : 0 < p a
      · rw [pyLog_pos ha]
        have := Real.log_nonpos ha.le (hl a (by simp))
        simp only; linarith
      · rw [pyLog_nonpos ha]; exact hx
  have hpB0 : 0 < pB := by rw [hpB]; split_ifs; exacts [one_pos, Real.exp_pos _]
  have hpB1 : pB ≤ 1 := by
    rw [hpB]; split_ifs
    · exact le_refl _
    · rw [Real.exp_le_one_iff]
      refine hle _ 0 (fun a ha => ?_) (le_refl _)
      rw [hp a (hBA a (by simpa using ha))]; exact (freq_bounds hne a).2
  have hval : intentProb ord₁ ord₂ p c.attributes c.objects.length B =
      ∑ k ∈ Finset.range (c.objects.length + 1), probSummand p l pB c.objects.length k := by
    rw [← probLoop_eq p hlp hpB0 hpB1]
    unfold intentProb
    simp only [← hpB, ← hl, hlog]
  rw [hval]
  have hprod : ∀ k, (l.map fun a => 1 - p a ^ k).prod = ∏ m ∈ c.M \ B, (1 - c.freq m ^ k) := by
    intro k
    rw [← List.prod_toFinset _ hnd, hlM]
    refine Finset.prod_congr rfl fun m hm => ?_
    rw [hp m (List.mem_toFinset.1 (Finset.mem_sdiff.1 hm).1)]
  by_cases hz : ∀ a ∈ B, 0 < c.freq a
  · rw [probClosed_eq _ _ hBM]
    have hpB' : pB = ∏ m ∈ B, c.freq m := by
      rw [hpB]
      split_ifs with h0
      · rw [Finset.card_eq_zero.1 h0, Finset.prod_empty]
      · rw [exp_logSubset p (fun a ha => by
          have ha' : a ∈ B := by simpa using ha
          rw [hp a (hBA a ha')]; exact hz a ha'), ← List.prod_toFinset _ (ord₁.nodup _), ord₁.toFinset]
        exact Finset.prod_congr rfl fun m hm => hp m (hBA m hm)
    refine Finset.sum_congr rfl fun k _ => ?_
    unfold probSummand
    rw [hprod, hpB']
  · push Not at hz
    obtain ⟨a, ha, ha0⟩ := hz
    have hBall : B = c.M := by
      refine Finset.Subset.antisymm hBM fun m hm => (hc.1 m).2 ⟨hm, fun g hg => ?_⟩
      exact absurd (((hc.2 g).1 hg).2 a ha) (freq_zero hne (not_lt.2 ha0) g)
    subst hBall
    rw [probClosed_all]
    have : ∀ k, probSummand p l pB c.objects.length k =
        pB ^ k * (1 - pB) ^ (c.objects.length - k) * (c.objects.length.choose k) := by
      intro k
      unfold probSummand
      rw [hprod, Finset.sdiff_self, Finset.prod_empty, mul_one]
    rw [Finset.sum_congr rfl fun k _ => this k, ← add_pow]
    simp

end

/-! ### C90 -/

/-- For a context with an object, `compute_probability` gives every concept of its lattice, in the order of the lattice,
the probability that its intent is closed in a random table with the same number of objects whose cells are drawn
independently with the relative frequencies of the attributes. -/
theorem C90_probability {c : Ctx α β} (h : c.WFw) (hne : c.objects ≠ []) (ord₁ ord₂ : SetOrder β) :
    ∃ L, makeLattice c = .ok L ∧ computeProbability ord₁ ord₂ L =
      .ok (L.concepts.map fun x => (x, probClosed c.freq c.M c.objects.length x.intent)) := by
  obtain ⟨L, h1, h2, -, -, h3, -⟩ := makeLattice_ok h
  refine ⟨L, h1, ?_⟩
  have hlen : c.len = c.objects.length := h.nrows
  unfold computeProbability
  rw [h2, mapM_ok (g := c.freq) fun a ha => attrProb_ok h hne ha, py_ok_bind, hlen]
  refine congrArg Except.ok (List.map_congr_left fun x hx => ?_)
  rw [intentProb_eq h hne ord₁ ord₂ (fun a ha => by rw [lookup_zip_map _ ha]; rfl) ((h3 x).1 hx)]

/-- The values are between 0 and 1, and the concept with all attributes has the value 1. -/
theorem C90_bounds {c : Ctx α β} (h : c.WFw) (hne : c.objects ≠ []) (ord₁ ord₂ : SetOrder β) :
    ∃ L vs, makeLattice c = .ok L ∧ computeProbability ord₁ ord₂ L = .ok vs ∧
      ∀ x v, (x, v) ∈ vs → 0 ≤ v ∧ v ≤ 1 ∧ (x.intent = c.M → v = 1) := by
  obtain ⟨L, h1, h2⟩ := C90_probability h hne ord₁ ord₂
  refine ⟨L, _, h1, h2, fun x v hv => ?_⟩
  obtain ⟨y, -, hy⟩ := List.mem_map.1 hv
  obtain ⟨rfl, rfl⟩ := Prod.mk.inj hy
  have hb := probClosed_bounds (freq_bounds hne) c.M c.objects.length y.intent
  exact ⟨hb.1, hb.2, fun hm => by rw [hm, probClosed_all]⟩

/-- Without objects, but with an attribute, the relative frequencies raise ZeroDivisionError. -/
theorem C90_objectfree_violated {c : Ctx α β} (h : c.WFw) (ho : c.objects = []) (ha : c.attributes ≠ [])
    (ord₁ ord₂ : SetOrder β) :
    ∃ L, makeLattice c = .ok L ∧ computeProbability ord₁ ord₂ L = .error .zeroDivisionError := by
  obtain ⟨L, h1, h2, -⟩ := makeLattice_ok h
  refine ⟨L, h1, ?_⟩
  have hlen : c.len = 0 := by
    have : c.len = c.objects.length := h.nrows
    rw [this, ho]; rfl
  obtain ⟨a, l, hal⟩ := List.exists_cons_of_ne_nil ha
  unfold computeProbability
  rw [h2, hal, List.mapM_cons]
  have : attrProb c a = .error .zeroDivisionError := by
    unfold attrProb; rw [hlen]; simp
  rw [this]; rfl

/-- A context for `C90_probability`: two objects, two attributes, one cross in each row and column. -/
example : (⟨[0, 1], [0, 1], ⟨some 2, [[true, false], [false, true]]⟩⟩ : Ctx (Fin 2) (Fin 2)).WFw := by
  constructor <;> decide +kernel

/-- The probability for one of its attributes. -/
example : probClosed (fun _ => 1 / 2) ({0, 1} : Finset (Fin 2)) 2 {0} = 7 / 16 := by
  rw [probClosed_eq _ _ (by decide)]
  have : ({0, 1} : Finset (Fin 2)) \ {0} = {1} := by decide
  simp only [this, Finset.prod_singleton, Finset.sum_range_succ, Finset.sum_range_zero]
  norm_num

/-- A context for `C90_objectfree_violated`. -/
example : (⟨[], [0], ⟨none, []⟩⟩ : Ctx (Fin 2) (Fin 2)).WFw := by constructor <;> decide +kernel
