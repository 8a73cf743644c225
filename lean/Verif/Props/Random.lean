/-
Properties C108, C109: random contexts; the comparison of tuples.
-/
import Verif.Model.Random
import Verif.Props.CsvFiles
import Mathlib.MeasureTheory.Constructions.Pi
import Mathlib.MeasureTheory.Measure.Lebesgue.Basic

set_option linter.unusedSectionVars false

/-! ### C108 -/

section random
variable {K : Type} [LinearOrder K]

theorem randomRows_length (rnd : ℕ → K) (d : K) (m k n : ℕ) : (randomRows rnd d m k n).length = n := by
  induction n generalizing k with
  | zero => rfl
  | succ n ih => simp [randomRows, ih]

theorem randomRows_get (rnd : ℕ → K) (d : K) (m k n i : ℕ) (hi : i < n) :
    (randomRows rnd d m k n)[i]? = some ((List.range m).map fun j => decide (d > rnd (k + i * m + j))) := by
  induction n generalizing k i with
  | zero => omega
  | succ n ih =>
    cases i with
    | zero => simp [randomRows]
    | succ i =>
      rw [randomRows, List.getElem?_cons_succ, ih (k + m) i (by omega)]
      simp only [Option.some.injEq]
      apply List.map_congr_left
      intro j _
      rw [show k + m + i * m + j = k + (i + 1) * m + j by ring]

theorem randomRows_row (rnd : ℕ → K) (d : K) (m k n : ℕ) : ∀ r ∈ randomRows rnd d m k n, r.length = m := by
  intro r hr
  obtain ⟨i, hi, rfl⟩ := List.getElem_of_mem hr
  rw [randomRows_length] at hi
  have := randomRows_get rnd d m k n i hi
  rw [List.getElem?_eq_getElem (by rw [randomRows_length]; exact hi), Option.some.injEq] at this
  rw [this]; simp

theorem numberedNames_nodup (c : Char) (n : ℤ) : (numberedNames c n).Nodup :=
  List.Nodup.map (fun _ _ h => Csv.natStr_inj (List.cons.inj h).2) List.nodup_range

/-- The context returned: given numbers of objects and attributes (none for negative numbers), different names, no name
shared between objects and attributes; a cross at `(i, j)` exactly if the random number of that cell is below `d`. -/
theorem C108_context (rnd : ℕ → K) (n m : ℤ) (d : K) :
    ∃ c, makeRandom rnd n m d = .ok c ∧ c.WF ∧ c.objects.length = n.toNat ∧ c.attributes.length = m.toNat ∧
      (∀ x ∈ c.objects, x ∉ c.attributes) ∧
      ∀ i < n.toNat, ∀ j < m.toNat, ∃ g a, c.objects[i]? = some g ∧ c.attributes[j]? = some a ∧
        (c.Inc g a ↔ rnd (i * m.toNat + j) < d) := by
  have h1 : (randomRows rnd d m.toNat 0 n.toNat).length = (numberedNames 'g' n).length := by
    simp [randomRows_length, numberedNames]
  have h2 : ∀ r ∈ randomRows rnd d m.toNat 0 n.toNat, r.length = (numberedNames 'm' m).length := by
    simpa [numberedNames] using randomRows_row rnd d m.toNat 0 n.toNat
  have hw := Ctx.wf_mk' h1 h2 (numberedNames_nodup 'g' n) (numberedNames_nodup 'm' m)
  refine ⟨_, Ctx.make_nodup h1 h2 (numberedNames_nodup 'g' n) (numberedNames_nodup 'm' m), hw, ?_, ?_, ?_, ?_⟩
  · simp [Ctx.mk', numberedNames]
  · simp [Ctx.mk', numberedNames]
  · intro x hx hx'
    obtain ⟨i, -, rfl⟩ := List.mem_map.1 hx
    obtain ⟨j, -, hj⟩ := List.mem_map.1 hx'
    exact absurd (List.cons.inj hj).1 (by decide)
  · intro i hi j hj
    refine ⟨'g' :: natStr i, 'm' :: natStr j, by simp [Ctx.mk', numberedNames, hi],
      by simp [Ctx.mk', numberedNames, hj], ?_⟩
    constructor
    · rintro ⟨i', j', r, hi', hj', hr, hc⟩
      have e1 : i' = i := by
        simp only [Ctx.mk', numberedNames, List.getElem?_map, Option.map_eq_some_iff] at hi'
        obtain ⟨x, hx, hx'⟩ := hi'
        have := Csv.natStr_inj (List.cons.inj hx').2
        obtain ⟨hlt, hx⟩ := List.getElem?_eq_some_iff.1 hx
        rw [List.getElem_range] at hx
        omega
      have e2 : j' = j := by
        simp only [Ctx.mk', numberedNames, List.getElem?_map, Option.map_eq_some_iff] at hj'
        obtain ⟨x, hx, hx'⟩ := hj'
        have := Csv.natStr_inj (List.cons.inj hx').2
        obtain ⟨hlt, hx⟩ := List.getElem?_eq_some_iff.1 hx
        rw [List.getElem_range] at hx
        omega
      subst e1 e2
      simp only [Ctx.mk'] at hr
      rw [randomRows_get _ _ _ _ _ _ hi, Option.some.injEq] at hr
      rw [← hr] at hc
      simpa [hj] using hc
    · intro hlt
      refine ⟨i, j, _, by simp [Ctx.mk', numberedNames, hi], by simp [Ctx.mk', numberedNames, hj],
        by simp only [Ctx.mk']; exact randomRows_get _ _ _ _ _ _ hi, ?_⟩
      simpa [hj] using hlt

end random

section measure
open MeasureTheory

/-- The distribution of one call of `random.random()`: uniform on `[0, 1)`. -/
noncomputable def uniform01 : Measure ℝ := volume.restrict (Set.Ico 0 1)

instance : IsProbabilityMeasure uniform01 := ⟨by simp [uniform01]⟩

theorem uniform01_lt {d : ℝ} (h0 : 0 ≤ d) (h1 : d ≤ 1) : uniform01 {x | x < d} = ENNReal.ofReal d := by
  have hm : MeasurableSet {x : ℝ | x < d} := measurableSet_Iio
  rw [uniform01, Measure.restrict_apply hm]
  have : {x | x < d} ∩ Set.Ico 0 1 = Set.Ico 0 d := by
    ext x
    simp only [Set.mem_inter_iff, Set.mem_ofPred_eq, Set.mem_Ico]
    constructor
    · rintro ⟨a, b, -⟩; exact ⟨b, a⟩
    · rintro ⟨a, b⟩; exact ⟨b, a, by linarith⟩
  rw [this, Real.volume_Ico, sub_zero]

theorem uniform01_ge {d : ℝ} (h0 : 0 ≤ d) (h1 : d ≤ 1) : uniform01 {x | ¬ x < d} = ENNReal.ofReal (1 - d) := by
  have hm : MeasurableSet {x : ℝ | x < d} := measurableSet_Iio
  have := prob_compl_eq_one_sub (μ := uniform01) hm
  rw [uniform01_lt h0 h1] at this
  rw [show {x : ℝ | ¬ x < d} = {x | x < d}ᶜ from rfl, this, ENNReal.ofReal_sub 1 h0, ENNReal.ofReal_one]

/-- The stream of random numbers that gives the numbers of `w` to the cells, row by row. -/
noncomputable def streamOf {n m : ℕ} (w : Fin n × Fin m → ℝ) (k : ℕ) : ℝ :=
  if h : k / m < n ∧ k % m < m then w (⟨k / m, h.1⟩, ⟨k % m, h.2⟩) else 0

theorem streamOf_cell {n m : ℕ} (w : Fin n × Fin m → ℝ) (i : Fin n) (j : Fin m) :
    streamOf w (i * m + j) = w (i, j) := by
  have hm : 0 < m := Nat.lt_of_le_of_lt (Nat.zero_le _) j.2
  have e1 : (i * m + j : ℕ) / m = i := by
    rw [Nat.add_comm, Nat.add_mul_div_right _ _ hm, Nat.div_eq_of_lt j.2, Nat.zero_add]
  have e2 : (i * m + j : ℕ) % m = j := by
    rw [Nat.add_comm, Nat.add_mul_mod_self_right, Nat.mod_eq_of_lt j.2]
  unfold streamOf
  simp only [e1, e2]
  rw [dif_pos ⟨i.2, j.2⟩]

/-- `d` is the probability of a cross, independently for all cells: if the random numbers of the cells are independent and
uniform on `[0, 1)`, every table with `k` crosses among `n * m` cells is returned with probability
`d ^ k * (1 - d) ^ (n * m - k)`. -/
theorem C108_distribution {n m : ℕ} {d : ℝ} (h0 : 0 ≤ d) (h1 : d ≤ 1) (T : Finset (Fin n × Fin m)) :
    Measure.pi (fun _ : Fin n × Fin m => uniform01)
      {w | ∃ c, makeRandom (streamOf w) n m d = .ok c ∧
        ∀ i j g a, c.objects[(i : Fin n).1]? = some g → c.attributes[(j : Fin m).1]? = some a →
          (c.Inc g a ↔ (i, j) ∈ T)} =
    ENNReal.ofReal (d ^ T.card * (1 - d) ^ (n * m - T.card)) := by
  have hset : {w : Fin n × Fin m → ℝ | ∃ c, makeRandom (streamOf w) n m d = .ok c ∧
        ∀ i j g a, c.objects[(i : Fin n).1]? = some g → c.attributes[(j : Fin m).1]? = some a →
          (c.Inc g a ↔ (i, j) ∈ T)} =
      Set.pi Set.univ fun p => if p ∈ T then {x | x < d} else {x | ¬ x < d} := by
    ext w
    obtain ⟨c, hc, -, -, -, -, hcell⟩ := C108_context (streamOf w) n m d
    simp only [Set.mem_ofPred_eq, Set.mem_pi, Set.mem_univ, forall_const]
    have key : ∀ (i : Fin n) (j : Fin m), ∃ g a, c.objects[i.1]? = some g ∧ c.attributes[j.1]? = some a ∧
        (c.Inc g a ↔ w (i, j) < d) := by
      intro i j
      obtain ⟨g, a, hg, ha, h⟩ := hcell i (by simp) j (by simp)
      refine ⟨g, a, hg, ha, ?_⟩
      rw [h, Int.toNat_natCast, streamOf_cell]
    constructor
    · rintro ⟨c', hc', h⟩ ⟨i, j⟩
      rw [hc] at hc'
      obtain rfl := Except.ok.inj hc'
      obtain ⟨g, a, hg, ha, hk⟩ := key i j
      have := h i j g a hg ha
      rw [hk] at this
      by_cases hT : (i, j) ∈ T
      · rw [if_pos hT]; exact this.2 hT
      · rw [if_neg hT]; exact fun hlt => hT (this.1 hlt)
    · intro h
      refine ⟨c, hc, fun i j g a hg ha => ?_⟩
      obtain ⟨g', a', hg', ha', hk⟩ := key i j
      rw [hg] at hg'; rw [ha] at ha'
      obtain rfl := Option.some.inj hg'
      obtain rfl := Option.some.inj ha'
      rw [hk]
      have := h (i, j)
      by_cases hT : (i, j) ∈ T
      · rw [if_pos hT] at this; exact ⟨fun _ => hT, fun _ => this⟩
      · rw [if_neg hT] at this; exact ⟨fun hlt => absurd hlt this, fun h => absurd h hT⟩
  rw [hset, Measure.pi_pi]
  have hp : ∀ p : Fin n × Fin m, uniform01 (if p ∈ T then {x | x < d} else {x | ¬ x < d}) =
      if p ∈ T then ENNReal.ofReal d else ENNReal.ofReal (1 - d) := by
    intro p
    split
    · exact uniform01_lt h0 h1
    · exact uniform01_ge h0 h1
  rw [Finset.prod_congr rfl fun p _ => hp p, Finset.prod_ite, Finset.prod_const, Finset.prod_const,
    ENNReal.ofReal_mul (by positivity), ENNReal.ofReal_pow h0, ENNReal.ofReal_pow (by linarith)]
  congr 2
  · simp
  · rw [Finset.filter_not, Finset.card_sdiff_of_subset (Finset.filter_subset _ _)]
    simp

end measure

/-! ### C109 -/

section compare
variable {β : Type} [LinearOrder β]

/-- What the comparison says: the smallest element in which the sets differ decides. -/
theorem compareTuples_iff (p r : Finset β) :
    (compareTuples p r = 0 ↔ p = r) ∧
    (compareTuples p r = 1 ↔ ∃ a ∈ p, a ∉ r ∧ ∀ b < a, (b ∈ p ↔ b ∈ r)) ∧
    (compareTuples p r = -1 ↔ ∃ a ∈ r, a ∉ p ∧ ∀ b < a, (b ∈ p ↔ b ∈ r)) := by
  have hd : ∀ b, b ∈ symmDiff p r ↔ ¬ (b ∈ p ↔ b ∈ r) := by
    intro b
    rw [Finset.mem_symmDiff]
    tauto
  unfold compareTuples
  cases hs : (symmDiff p r).sort (· ≤ ·) with
  | nil =>
    have he : ∀ b, b ∈ p ↔ b ∈ r := by
      intro b
      by_contra hb
      have := (Finset.mem_sort (· ≤ ·)).2 ((hd b).2 hb)
      rw [hs] at this; cases this
    have : p = r := Finset.ext he
    subst this
    refine ⟨by simp, ?_, ?_⟩
    · simp only [zero_ne_one, false_iff]
      rintro ⟨a, h1, h2, -⟩; exact h2 h1
    · simp only [show (0 : ℤ) ≠ -1 by decide, false_iff]
      rintro ⟨a, h1, h2, -⟩; exact h2 h1
  | cons a l =>
    have ha : a ∈ symmDiff p r := (Finset.mem_sort (· ≤ ·)).1 (by rw [hs]; simp)
    have hmin : ∀ b < a, (b ∈ p ↔ b ∈ r) := by
      intro b hb
      by_contra hc
      have hm := (Finset.mem_sort (· ≤ ·)).2 ((hd b).2 hc)
      have hp := Finset.pairwise_sort (symmDiff p r) (· ≤ ·)
      rw [hs] at hm hp
      rcases List.mem_cons.1 hm with rfl | hm
      · exact lt_irrefl _ hb
      · exact absurd (List.rel_of_pairwise_cons hp hm) (not_le.2 hb)
    have hne : p ≠ r := by
      rintro rfl; simp at ha
    have huniq : ∀ b, ¬ (b ∈ p ↔ b ∈ r) → (∀ x < b, (x ∈ p ↔ x ∈ r)) → b = a := by
      intro b hb hb'
      rcases lt_trichotomy b a with h | h | h
      · exact absurd (hmin b h) hb
      · exact h
      · exact absurd (hb' a h) ((hd a).1 ha)
    by_cases hap : a ∈ p
    · have har : a ∉ r := fun h => (hd a).1 ha ⟨fun _ => h, fun _ => hap⟩
      simp only [if_pos hap]
      refine ⟨by simp [hne], ⟨fun _ => ⟨a, hap, har, hmin⟩, fun _ => trivial⟩, ?_⟩
      simp only [show (1 : ℤ) ≠ -1 by decide, false_iff]
      rintro ⟨b, h1, h2, h3⟩
      have := huniq b (by tauto) h3
      subst this; exact h2 hap
    · have har : a ∈ r := by
        by_contra h; exact (hd a).1 ha ⟨fun h' => absurd h' hap, fun h' => absurd h' h⟩
      simp only [if_neg hap]
      refine ⟨by simp [hne], ?_, ⟨fun _ => ⟨a, har, hap, hmin⟩, fun _ => trivial⟩⟩
      simp only [show (-1 : ℤ) ≠ 1 by decide, false_iff]
      rintro ⟨b, h1, h2, h3⟩
      have := huniq b (by tauto) h3
      subst this; exact hap h1

/-- `compare_tuples` is a comparison function of a linear order in which a proper subset comes before its supersets. -/
theorem C109_compare :
    (∀ p r : Finset β, compareTuples p r = 0 ↔ p = r) ∧
    (∀ p r : Finset β, compareTuples r p = -compareTuples p r) ∧
    (∀ p r s : Finset β, compareTuples p r = -1 → compareTuples r s = -1 → compareTuples p s = -1) ∧
    (∀ p r : Finset β, compareTuples p r = 0 ∨ compareTuples p r = 1 ∨ compareTuples p r = -1) ∧
    ∀ p r : Finset β, p ⊂ r → compareTuples p r = -1 := by
  have hcase : ∀ p r : Finset β, compareTuples p r = 0 ∨ compareTuples p r = 1 ∨ compareTuples p r = -1 := by
    intro p r
    unfold compareTuples
    split
    · exact .inl rfl
    · split
      · exact .inr (.inl rfl)
      · exact .inr (.inr rfl)
  refine ⟨fun p r => (compareTuples_iff p r).1, ?_, ?_, hcase, ?_⟩
  · intro p r
    rcases hcase p r with h | h | h
    · rw [h, (compareTuples_iff r p).1.2 ((compareTuples_iff p r).1.1 h).symm]; rfl
    · rw [h]
      obtain ⟨a, h1, h2, h3⟩ := (compareTuples_iff p r).2.1.1 h
      exact (compareTuples_iff r p).2.2.2 ⟨a, h1, h2, fun b hb => (h3 b hb).symm⟩
    · rw [h]
      obtain ⟨a, h1, h2, h3⟩ := (compareTuples_iff p r).2.2.1 h
      exact (compareTuples_iff r p).2.1.2 ⟨a, h1, h2, fun b hb => (h3 b hb).symm⟩
  · intro p r s h1 h2
    obtain ⟨a, a1, a2, a3⟩ := (compareTuples_iff p r).2.2.1 h1
    obtain ⟨b, b1, b2, b3⟩ := (compareTuples_iff r s).2.2.1 h2
    refine (compareTuples_iff p s).2.2.2 ?_
    rcases lt_trichotomy a b with h | rfl | h
    · exact ⟨a, (b3 a h).1 a1, a2, fun x hx => (a3 x hx).trans (b3 x (hx.trans h))⟩
    · exact absurd a1 b2
    · exact ⟨b, b1, fun hb => b2 ((a3 b h).1 hb), fun x hx => (a3 x (hx.trans h)).trans (b3 x hx)⟩
  · intro p r h
    rcases hcase p r with h' | h' | h'
    · exact absurd ((compareTuples_iff p r).1.1 h') h.ne
    · obtain ⟨a, h1, h2, -⟩ := (compareTuples_iff p r).2.1.1 h'
      exact absurd (h.1 h1) h2
    · exact h'

end compare

/-! ### Concrete cases -/

example : (makeRandom (fun k => (k % 3 : ℕ)) 2 2 1).map (fun c => (c.objects, c.nd.rows)) =
    .ok ([['g', '0'], ['g', '1']], [[true, false], [false, true]]) := by decide +kernel

example : compareTuples ({0, 2} : Finset (Fin 3)) {0, 1} = -1 ∧ compareTuples ({1} : Finset (Fin 3)) {1, 2} = -1 ∧
    compareTuples ({0} : Finset (Fin 3)) {1, 2} = 1 :=
  ⟨(compareTuples_iff _ _).2.2.2 ⟨1, by decide⟩, (compareTuples_iff _ _).2.2.2 ⟨2, by decide⟩,
    (compareTuples_iff _ _).2.1.2 ⟨0, by decide⟩⟩

example : MeasureTheory.Measure.pi (fun _ : Fin 2 × Fin 3 => uniform01)
    {w | ∃ c, makeRandom (streamOf w) (2 : ℕ) (3 : ℕ) (1 / 4) = .ok c ∧
      ∀ i j g a, c.objects[(i : Fin 2).1]? = some g → c.attributes[(j : Fin 3).1]? = some a →
        (c.Inc g a ↔ (i, j) ∈ ({(0, 1)} : Finset (Fin 2 × Fin 3)))} = ENNReal.ofReal ((1 / 4) ^ 1 * (1 - 1 / 4) ^ 5) :=
  C108_distribution (by norm_num) (by norm_num) {(0, 1)}
