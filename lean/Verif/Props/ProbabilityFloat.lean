/-
Property C165: compute_probability in floating point.
-/
import Verif.Lemmas.ProbabilityFloat
import Verif.Props.Probability

set_option linter.unusedSectionVars false

variable {α β : Type} [DecidableEq α] [DecidableEq β]

open Spec Ctx Libm

section
variable {c : Ctx α β}

theorem freq_out {m : β} (hm : m ∉ c.attributes) : c.freq m = 0 := by
  have : {g | c.Inc g m} = ∅ := by
    ext g
    simp only [Set.mem_ofPred_eq, Set.mem_empty_iff_false, iff_false]
    exact fun hg => hm hg.mem.2
  rw [Ctx.freq, this, Set.ncard_empty]
  simp

/-- A relative frequency that is not 0 is at least `1 / n`, one that is not 1 is at most `1 - 1 / n`. -/
theorem freq_gap (hne : c.objects ≠ []) (m : β) :
    (c.freq m = 0 ∨ 1 / (c.objects.length : ℝ) ≤ c.freq m) ∧
      (c.freq m ≠ 1 → c.freq m ≤ 1 - 1 / (c.objects.length : ℝ)) := by
  have hpos : (0 : ℝ) < c.objects.length := by exact_mod_cast List.length_pos_iff.2 hne
  obtain ⟨k, hk⟩ : ∃ k, k = {g | c.Inc g m}.ncard := ⟨_, rfl⟩
  have hb := (freq_bounds hne m).2
  unfold Ctx.freq at hb ⊢
  rw [← hk] at hb ⊢
  constructor
  · rcases Nat.eq_zero_or_pos k with h | h
    · left; rw [h]; simp
    · right
      gcongr
      exact_mod_cast h
  · intro h1
    rw [le_sub_iff_add_le, ← add_div, div_le_one hpos]
    rw [div_le_one hpos] at hb
    have h2 : k ≠ c.objects.length := fun h => h1 (by rw [h, div_self hpos.ne'])
    have h3 : k ≤ c.objects.length := by exact_mod_cast hb
    exact_mod_cast (by omega : k + 1 ≤ c.objects.length)

theorem lookup_zip_map_none {γ : Type} (f : β → γ) {l : List β} {a : β} (ha : a ∉ l) :
    (l.zip (l.map f)).lookup a = none := by
  induction l with
  | nil => rfl
  | cons b l ih =>
    rw [List.map_cons, List.zip_cons_cons, List.lookup_cons]
    have hb : (a == b) = false := by
      simp only [List.mem_cons, not_or] at ha
      simpa using ha.1
    rw [hb]
    exact ih fun h => ha (by simp [h])

variable {F : Libm} {u η : ℝ}

theorem floatAttrProb_ok (h : c.WFw) (hne : c.objects ≠ []) {a : β} (ha : a ∈ c.attributes) :
    F.attrProb c a = .ok (F.rnd (c.freq a)) := by
  have h1 := attrProb_ok h hne ha
  unfold _root_.attrProb at h1
  unfold Libm.attrProb
  have hlen : c.len = c.objects.length := h.nrows
  have hz : c.len ≠ 0 := by rw [hlen]; exact fun h => hne (List.length_eq_zero_iff.1 h)
  cases hm : (List.range c.len).mapM c.intentByIndex with
  | error e => rw [hm] at h1; cases h1
  | ok os =>
    rw [hm, py_ok_bind, if_neg hz] at h1
    rw [py_ok_bind, if_neg hz, Except.ok.inj h1]

/-- The value for one intent. -/
theorem floatIntentProb_near (hF : F.Accurate u η) (h : c.WFw) (hne : c.objects ≠ []) (ord₁ ord₂ : SetOrder β)
    (hη : η * c.objects.length ≤ u)
    (hs : 33 * (c.objects.length : ℝ) ^ 2 * ((c.attributes.length : ℝ) + 9) ^ 2 * (1 + Real.log c.objects.length) * u +
      3 * ((c.objects.length : ℝ) + 1) * 2 ^ c.objects.length * η ≤ 1)
    {A : Finset α} {B : Finset β} (hc : IsConcept c.G c.M c.Inc A B) :
    |F.intentProb ord₁ ord₂ (fun a => F.rnd (c.freq a)) c.attributes c.objects.length B -
        probClosed c.freq c.M c.objects.length B| ≤
      33 * (c.objects.length : ℝ) ^ 2 * ((c.attributes.length : ℝ) + 9) ^ 2 * (1 + Real.log c.objects.length) * u +
        3 * ((c.objects.length : ℝ) + 1) * 2 ^ c.objects.length * η := by
  obtain ⟨n, hn⟩ : ∃ n, n = c.objects.length := ⟨_, rfl⟩
  obtain ⟨m, hm⟩ : ∃ m, m = c.attributes.length := ⟨_, rfl⟩
  have hn0 : n ≠ 0 := by rw [hn]; exact fun h => hne (List.length_eq_zero_iff.1 h)
  rw [← hn] at hη
  rw [← hn, ← hm] at hs ⊢
  obtain ⟨δ, hδ⟩ : ∃ δ, δ = u * (1 + Real.log n) * ((m : ℝ) + 9) ^ 2 := ⟨_, rfl⟩
  have hu := hF.upos
  have hη0 := hF.ηpos
  have hbound : 33 * (n : ℝ) ^ 2 * ((m : ℝ) + 9) ^ 2 * (1 + Real.log n) * u = 33 * ((n : ℝ) ^ 2 * δ) := by
    rw [hδ]; ring
  rw [hbound] at hs ⊢
  have hrest : 0 ≤ 3 * ((n : ℝ) + 1) * 2 ^ n * η := by positivity
  have hn1 : (1 : ℝ) ≤ n := by exact_mod_cast Nat.one_le_iff_ne_zero.2 hn0
  have hS : Sizes u η (n : ℝ) (Real.log n) δ m := ⟨hn1, rfl, hη, hδ.symm, by linarith⟩
  obtain ⟨a1, a2, a3, a4⟩ := hS.a2 hF
  obtain ⟨b1, b2, b3⟩ := hS.a3 hF
  -- the attributes outside of B
  have hBM : B ⊆ c.M := fun m hm => ((hc.1 m).1 hm).1
  have hAG : A ⊆ c.G := fun g hg => ((hc.2 g).1 hg).1
  obtain ⟨l, hl⟩ : ∃ l, l = ord₂.enum (c.attributes.filter fun a => decide (a ∉ B)).toFinset := ⟨_, rfl⟩
  have hmem : ∀ a, a ∈ l ↔ a ∈ c.attributes ∧ a ∉ B := by intro a; rw [hl]; simp
  have hnd : l.Nodup := by rw [hl]; exact ord₂.nodup _
  have hlm : l.length ≤ m := by
    rw [hm]
    exact (hnd.subperm fun a ha => ((hmem a).1 ha).1).length_le
  have hlp : ∀ a ∈ l, 0 ≤ c.freq a ∧ c.freq a ≤ 1 - 1 / (n : ℝ) := by
    intro a ha
    obtain ⟨ha1, ha2⟩ := (hmem a).1 ha
    refine ⟨(freq_bounds hne a).1, ?_⟩
    rw [hn]
    refine (freq_gap hne a).2 fun h1 => ha2 ?_
    exact (hc.1 a).2 ⟨List.mem_toFinset.2 ha1, fun g hg => freq_one h hne h1 g (List.mem_toFinset.1 (hAG hg))⟩
  have hN' : 0 < 1 / (n : ℝ) := by positivity
  have hlp' : ∀ a ∈ l, 0 ≤ c.freq a ∧ c.freq a < 1 := fun a ha => ⟨(hlp a ha).1, by linarith [(hlp a ha).2]⟩
  -- the chosen attributes
  obtain ⟨b, hb⟩ : ∃ b : List β, b = (open Classical in (ord₁.enum B).filter fun a => decide (c.freq a ≠ 0)) := ⟨_, rfl⟩
  have hbp : ∀ a ∈ b, 1 / (n : ℝ) ≤ c.freq a ∧ c.freq a ≤ 1 := by
    intro a ha
    rw [hb] at ha
    have h0 : c.freq a ≠ 0 := by simpa using (List.mem_filter.1 ha).2
    rw [hn]
    exact ⟨(freq_gap hne a).1.resolve_left h0, (freq_bounds hne a).2⟩
  have hbm : b.length ≤ m := by
    rw [hb, hm]
    refine (List.Subperm.length_le ?_)
    refine ((ord₁.nodup B).filter _).subperm fun a ha => ?_
    have : a ∈ B := by simpa using (List.mem_filter.1 ha).1
    exact List.mem_toFinset.1 (hBM this)
  obtain ⟨s, hsd⟩ : ∃ s, s = (b.map fun a => Real.log (c.freq a)).sum := ⟨_, rfl⟩
  obtain ⟨s', hsd'⟩ : ∃ s', s' = b.foldl (fun s a => F.rnd (s + F.log (F.rnd (c.freq a)))) 0 := ⟨_, rfl⟩
  have e1 : logSubset c.freq (ord₁.enum B) = s := by
    rw [hsd, hb]; exact logSubset_sum _ fun a _ => (freq_bounds hne a).1
  have e2 : F.logSubset (fun a => F.rnd (c.freq a)) (ord₁.enum B) = s' := by
    rw [hsd', hb]
    exact hS.logSubset_eq hF _ fun a _ => ⟨(freq_bounds hne a).2, by rw [hn]; exact (freq_gap hne a).1⟩
  have hb0 : B.card = 0 → b = [] := by
    intro h0
    rw [hb]
    refine List.eq_nil_iff_forall_not_mem.2 fun a ha => ?_
    have : a ∈ B := by simpa using (List.mem_filter.1 ha).1
    rw [Finset.card_eq_zero.1 h0] at this
    simp at this
  have hs1 : s ≤ 0 := by
    rw [hsd]
    exact sum_log_nonpos fun a ha => ⟨lt_of_lt_of_le hN' (hbp a ha).1, (hbp a ha).2⟩
  have hexact : ∑ k ∈ Finset.range (n + 1), probSummand c.freq l (Real.exp s) n k =
      probClosed c.freq c.M n B := by
    have h1 := intentProb_eq h hne ord₁ ord₂ (p := c.freq) (fun _ _ => rfl) hc
    rw [← hn] at h1
    rw [← h1, ← probLoop_eq c.freq hlp' (Real.exp_pos s) (Real.exp_le_one_iff.2 hs1), Real.log_exp]
    unfold _root_.intentProb
    simp only [← hl, e1]
    have h2 : (if B.card = 0 then 1 else Real.exp s) = Real.exp s := by
      split_ifs with h0
      · rw [hsd, hb0 h0]; simp
      · rfl
    have h3 : (if B.card = 0 then 0 else s) = s := by
      split_ifs with h0
      · rw [hsd, hb0 h0]; simp
      · rfl
    rw [h2, h3]
  have hfloat : F.intentProb ord₁ ord₂ (fun a => F.rnd (c.freq a)) c.attributes n B =
      F.probLoop (fun a => F.rnd (c.freq a)) l (F.exp s') s' n (List.range (n + 1)) 0 := by
    unfold Libm.intentProb
    simp only [← hl, e2]
    have h2 : (if B.card = 0 then 1 else F.exp s') = F.exp s' := by
      split_ifs with h0
      · rw [hsd', hb0 h0, List.foldl_nil, hF.exp_zero]
      · rfl
    have h3 : (if B.card = 0 then 0 else s') = s' := by
      split_ifs with h0
      · rw [hsd', hb0 h0, List.foldl_nil]
      · rfl
    rw [h2, h3]
  rw [hfloat, ← hexact]
  have hlog := hS.log_sum hF hbm hbp
  rw [← hsd, ← hsd'] at hlog
  by_cases hall : ∀ a ∈ b, c.freq a = 1
  · -- all chosen attributes have relative frequency 0 or 1
    have hs0 : s = 0 := by
      rw [hsd]
      refine List.sum_eq_zero fun x hx => ?_
      obtain ⟨a, ha, rfl⟩ := List.mem_map.1 hx
      rw [hall a ha, Real.log_one]
    have hs0' : s' = 0 := by
      rw [hsd']
      clear hsd hsd' hbp hbm hb0 hb
      induction b with
      | nil => rfl
      | cons a b ih =>
        rw [List.foldl_cons, hall a (by simp), hF.rnd_one, hF.log_one, add_zero, hF.rnd_zero]
        exact ih fun x hx => hall x (by simp [hx])
    have hpos := fun a ha => hS.mult_log hF (hlp a ha).1 (hlp a ha).2 hn0 (le_refl (n : ℝ))
    have hw := hS.mult_sum hF hlm hlp (Or.inl hn0) (le_refl (n : ℝ))
    have hone : ∀ a ∈ l, 0 < 1 - c.freq a ^ n ∧ 1 - c.freq a ^ n ≤ 1 := by
      intro a ha
      have := pow_lt_one₀ (hlp' a ha).1 (hlp' a ha).2 hn0
      have := pow_nonneg (hlp' a ha).1 n
      exact ⟨by linarith, by linarith⟩
    rw [hs0', hF.exp_zero, List.range_succ,
      hF.loop_one _ (probMult_pos _ n fun a ha => (hpos a ha).1) _ _ (fun k hk => by simpa using hk), hs0, Real.exp_zero,
      Finset.sum_range_succ, Finset.sum_eq_zero, zero_add]
    · have hp1 : probSummand c.freq l 1 n n = Real.exp (l.map fun a => Real.log (1 - c.freq a ^ n)).sum := by
        rw [exp_sum_log fun a ha => (hone a ha).1]
        unfold probSummand
        simp
      have hneg := sum_log_nonpos hone
      rw [hp1]
      have h1 := hF.exp_step hw (by linarith) hneg
      have h2 : (2 * ((n : ℝ) ^ 2 * δ) + 3 * u) * Real.exp (l.map fun a => Real.log (1 - c.freq a ^ n)).sum ≤
          (2 * ((n : ℝ) ^ 2 * δ) + 3 * u) * 1 :=
        mul_le_mul_of_nonneg_left (Real.exp_le_one_iff.2 hneg) (by positivity)
      have := hS.ηu hF
      linarith
    · intro k hk
      have hk := Finset.mem_range.1 hk
      unfold probSummand
      rw [sub_self, zero_pow (by omega)]
      simp
  · -- some chosen attribute has another one
    push Not at hall
    obtain ⟨a, ha, ha1⟩ := hall
    have hq : 1 / (n : ℝ) ≤ 1 - Real.exp s := by
      have h1 : c.freq a ≤ 1 - 1 / (n : ℝ) := by rw [hn]; exact (freq_gap hne a).2 ha1
      have h2 : Real.exp s ≤ c.freq a := by
        rw [hsd, exp_sum_log fun x hx => lt_of_lt_of_le hN' (hbp x hx).1]
        obtain ⟨b1, b2, rfl⟩ := List.append_of_mem ha
        have hle : ∀ b' : List β, (∀ x ∈ b', x ∈ b1 ++ a :: b2) →
            0 ≤ (b'.map c.freq).prod ∧ (b'.map c.freq).prod ≤ 1 := by
          intro b' hb'
          induction b' with
          | nil => simp
          | cons x b' ih =>
            obtain ⟨i1, i2⟩ := ih fun y hy => hb' y (by simp [hy])
            rw [List.map_cons, List.prod_cons]
            have hx := freq_bounds hne x
            exact ⟨mul_nonneg hx.1 i1, mul_le_one₀ hx.2 i1 i2⟩
        obtain ⟨i1, i2⟩ := hle b1 fun x hx => by simp [hx]
        obtain ⟨j1, j2⟩ := hle b2 fun x hx => by simp [hx]
        rw [List.map_append, List.prod_append, List.map_cons, List.prod_cons]
        have hx := (freq_bounds hne a).1
        have k1 : c.freq a * (b2.map c.freq).prod ≤ c.freq a * 1 := mul_le_mul_of_nonneg_left j2 hx
        have k2 := mul_le_mul_of_nonneg_right i2 (mul_nonneg hx j1)
        linarith
      linarith
    have hs0 : |s| ≤ m * Real.log n := by
      rw [hsd]
      refine (abs_sum_le fun a ha => (hS.freq_log hF (hbp a ha).1 (hbp a ha).2).2.2).trans ?_
      exact mul_le_mul_of_nonneg_right (by exact_mod_cast hbm) hS.ℓ0
    have hy := hS.pB_near hF hlog hs1
    have hb1 := (probClosed_bounds (freq_bounds hne) c.M n B).2
    rw [← hexact] at hb1
    have hsumeq : ((List.range (n + 1)).map (probSummand c.freq l (Real.exp s) n)).sum =
        ∑ k ∈ Finset.range (n + 1), probSummand c.freq l (Real.exp s) n k := rfl
    have herr : ((List.range (n + 1)).map fun k => 32 * ((n : ℝ) ^ 2 * δ) * probSummand c.freq l (Real.exp s) n k +
        3 * ((n : ℝ) + 1) * η * n.choose k + 3 * u).sum ≤ 33 * ((n : ℝ) ^ 2 * δ) + 3 * ((n : ℝ) + 1) * 2 ^ n * η := by
      show ∑ k ∈ Finset.range (n + 1), (32 * ((n : ℝ) ^ 2 * δ) * probSummand c.freq l (Real.exp s) n k +
        3 * ((n : ℝ) + 1) * η * n.choose k + 3 * u) ≤ _
      rw [Finset.sum_add_distrib, Finset.sum_add_distrib, ← Finset.mul_sum, ← Finset.mul_sum, Finset.sum_const,
        Finset.card_range, nsmul_eq_mul]
      have h1 : ∑ k ∈ Finset.range (n + 1), (n.choose k : ℝ) = 2 ^ n := by
        exact_mod_cast Nat.sum_range_choose n
      rw [h1]
      have h2 : 32 * ((n : ℝ) ^ 2 * δ) * ∑ k ∈ Finset.range (n + 1), probSummand c.freq l (Real.exp s) n k ≤
          32 * ((n : ℝ) ^ 2 * δ) * 1 := mul_le_mul_of_nonneg_left hb1 (by positivity)
      have h3 : 81 * (n * u) ≤ n * δ := by
        have := mul_le_mul_of_nonneg_left a2 (by linarith : (0 : ℝ) ≤ n); linarith
      have h4 : u * 1 ≤ u * n := mul_le_mul_of_nonneg_left hn1 hu.le
      push_cast
      linarith
    have hfin := hS.loop_lt hF hlm hlp rfl hlog hs0 hs1 hy hq (List.range (n + 1))
      (fun k hk => by simpa [Nat.lt_succ_iff] using hk) 0 0 0 (by simp) le_rfl (by rw [zero_add, hsumeq]; exact hb1)
      (by rw [zero_add]; linarith)
    rw [zero_add, zero_add, hsumeq] at hfin
    exact hfin.trans herr

theorem floatCompute_ok (hF : F.Accurate u η) (h : c.WFw) (hne : c.objects ≠ []) (ord₁ ord₂ : SetOrder β)
    {L : CLattice α β} (hL : L.context = c) :
    F.computeProbability ord₁ ord₂ L = .ok (L.concepts.map fun x =>
      (x, F.intentProb ord₁ ord₂ (fun a => F.rnd (c.freq a)) c.attributes c.objects.length x.intent)) := by
  have hlen : c.len = c.objects.length := h.nrows
  unfold Libm.computeProbability
  rw [hL, mapM_ok (g := fun a => F.rnd (c.freq a)) fun a ha => floatAttrProb_ok h hne ha, py_ok_bind, hlen]
  have hp : (fun a => ((c.attributes.zip (c.attributes.map fun a => F.rnd (c.freq a))).lookup a).getD 0) =
      fun a => F.rnd (c.freq a) := by
    funext a
    by_cases ha : a ∈ c.attributes
    · rw [lookup_zip_map _ ha]; rfl
    · rw [lookup_zip_map_none _ ha, freq_out ha, hF.rnd_zero]; rfl
  rw [hp]

end

/-! ### C165 -/

/-- With floating-point operations of relative accuracy `u` and absolute accuracy `η`, `compute_probability` gives every
concept, in the order of the lattice, its probability of being closed up to an explicit error. -/
theorem C165_error {c : Ctx α β} {F : Libm} {u η : ℝ} (hF : F.Accurate u η) (h : c.WFw) (hne : c.objects ≠ [])
    (ord₁ ord₂ : SetOrder β) (hη : η * c.objects.length ≤ u)
    (hs : 33 * (c.objects.length : ℝ) ^ 2 * ((c.attributes.length : ℝ) + 9) ^ 2 * (1 + Real.log c.objects.length) * u +
      3 * ((c.objects.length : ℝ) + 1) * 2 ^ c.objects.length * η ≤ 1) :
    ∃ L, makeLattice c = .ok L ∧ ∃ v : Concept α β → ℝ, F.computeProbability ord₁ ord₂ L = .ok (L.concepts.map fun x => (x, v x)) ∧
      ∀ x ∈ L.concepts, |v x - probClosed c.freq c.M c.objects.length x.intent| ≤
        33 * (c.objects.length : ℝ) ^ 2 * ((c.attributes.length : ℝ) + 9) ^ 2 * (1 + Real.log c.objects.length) * u +
          3 * ((c.objects.length : ℝ) + 1) * 2 ^ c.objects.length * η := by
  obtain ⟨L, h1, h2, -, -, h3, -⟩ := makeLattice_ok h
  exact ⟨L, h1, _, floatCompute_ok hF h hne ord₁ ord₂ h2, fun x hx =>
    floatIntentProb_near hF h hne ord₁ ord₂ hη hs ((h3 x).1 hx)⟩

/-- For double precision and at most 100 objects and 100 attributes the values are correct to `10⁻⁵`. -/
theorem C165_hundred {c : Ctx α β} {F : Libm} (hF : F.Accurate ((1 / 2) ^ 52) ((1 / 2) ^ 1074)) (h : c.WFw)
    (hne : c.objects ≠ []) (hn : c.objects.length ≤ 100) (hm : c.attributes.length ≤ 100) (ord₁ ord₂ : SetOrder β) :
    ∃ L, makeLattice c = .ok L ∧ ∃ v : Concept α β → ℝ, F.computeProbability ord₁ ord₂ L = .ok (L.concepts.map fun x => (x, v x)) ∧
      ∀ x ∈ L.concepts, |v x - probClosed c.freq c.M c.objects.length x.intent| ≤ 1 / 100000 := by
  have hN : (c.objects.length : ℝ) ≤ 100 := by exact_mod_cast hn
  have hM : (c.attributes.length : ℝ) ≤ 100 := by exact_mod_cast hm
  have hN1 : (1 : ℝ) ≤ c.objects.length := by exact_mod_cast List.length_pos_iff.2 hne
  have hM0 : (0 : ℝ) ≤ c.attributes.length := by positivity
  have hlog : Real.log c.objects.length ≤ 5 := by
    rw [Real.log_le_iff_le_exp (by linarith)]
    have h1 : Real.exp 5 = Real.exp 1 ^ 5 := by rw [← Real.exp_nat_mul]; norm_num
    have h2 : (2.7 : ℝ) ^ 5 ≤ Real.exp 1 ^ 5 := by
      refine pow_le_pow_left₀ (by norm_num) ?_ 5
      have := Real.exp_one_gt_d9
      norm_num at this ⊢
      linarith
    rw [h1]
    refine hN.trans (le_trans ?_ h2)
    norm_num
  have hlog0 : 0 ≤ Real.log c.objects.length := Real.log_nonneg hN1
  have htiny : ((1 : ℝ) / 2) ^ 1074 ≤ (1 / 2) ^ 200 := pow_le_pow_of_le_one (by norm_num) (by norm_num) (by norm_num)
  have hb : 33 * (c.objects.length : ℝ) ^ 2 * ((c.attributes.length : ℝ) + 9) ^ 2 * (1 + Real.log c.objects.length) *
      (1 / 2) ^ 52 + 3 * ((c.objects.length : ℝ) + 1) * 2 ^ c.objects.length * (1 / 2) ^ 1074 ≤ 1 / 100000 := by
    have h1 : 33 * (c.objects.length : ℝ) ^ 2 * ((c.attributes.length : ℝ) + 9) ^ 2 * (1 + Real.log c.objects.length) *
        (1 / 2) ^ 52 ≤ 33 * (100 : ℝ) ^ 2 * ((100 : ℝ) + 9) ^ 2 * (1 + 5) * (1 / 2) ^ 52 := by
      gcongr
    have h2 : 3 * ((c.objects.length : ℝ) + 1) * 2 ^ c.objects.length * (1 / 2) ^ 1074 ≤
        3 * ((100 : ℝ) + 1) * 2 ^ 100 * (1 / 2) ^ 200 := by
      gcongr
      norm_num
    have h3 : (33 * (100 : ℝ) ^ 2 * ((100 : ℝ) + 9) ^ 2 * (1 + 5) * (1 / 2) ^ 52) +
        3 * ((100 : ℝ) + 1) * 2 ^ 100 * (1 / 2) ^ 200 ≤ 1 / 100000 := by norm_num
    exact (add_le_add h1 h2).trans h3
  have hη : ((1 : ℝ) / 2) ^ 1074 * c.objects.length ≤ (1 / 2) ^ 52 := by
    have h1 : ((1 : ℝ) / 2) ^ 1074 * c.objects.length ≤ (1 / 2) ^ 200 * 100 := by gcongr
    have h2 : ((1 : ℝ) / 2) ^ 200 * 100 ≤ (1 / 2) ^ 52 := by norm_num
    exact h1.trans h2
  obtain ⟨L, h1, v, h2, h3⟩ := C165_error hF h hne ord₁ ord₂ hη (hb.trans (by norm_num))
  exact ⟨L, h1, v, h2, fun x hx => (h3 x hx).trans hb⟩

/-- For every context with an object, of any size, the call returns a value that is not negative for every concept. -/
theorem C165_nonneg {c : Ctx α β} {F : Libm} {u η : ℝ} (hF : F.Accurate u η) (h : c.WFw) (hne : c.objects ≠ [])
    (ord₁ ord₂ : SetOrder β) :
    ∃ L, makeLattice c = .ok L ∧ ∃ v : Concept α β → ℝ, F.computeProbability ord₁ ord₂ L = .ok (L.concepts.map fun x => (x, v x)) ∧
      ∀ x ∈ L.concepts, 0 ≤ v x := by
  obtain ⟨L, h1, h2, -⟩ := makeLattice_ok h
  exact ⟨L, h1, _, floatCompute_ok hF h hne ord₁ ord₂ h2, fun x _ => hF.intentProb_nonneg _ _ _ _ _ _⟩

/-- With at least 1100 objects and one attribute that half of them have, all summands underflow in `exp` before they are
multiplied with the binomial coefficient: the concept with all attributes has the value 0 instead of 1. -/
theorem C165_underflow_violated {c : Ctx α β} {F : Libm} {u η : ℝ} (hF : F.Accurate u η) (hu : u ≤ 1 / 10000) (hη : η ≤ u)
    (hexp : ∀ x, x ≤ -746 → F.exp x = 0) (h : c.WFw) (hn : 1100 ≤ c.objects.length) {a : β} (ha : c.attributes = [a])
    (hfreq : c.freq a = 1 / 2) (ord₁ ord₂ : SetOrder β) :
    ∃ L, makeLattice c = .ok L ∧ ∃ v : Concept α β → ℝ, F.computeProbability ord₁ ord₂ L = .ok (L.concepts.map fun x => (x, v x)) ∧
      ∃ x ∈ L.concepts, x.intent = c.M ∧ v x = 0 ∧ probClosed c.freq c.M c.objects.length x.intent = 1 := by
  have hne : c.objects ≠ [] := fun h0 => by rw [h0] at hn; simp at hn
  obtain ⟨L, h1, h2, -, -, h3, -⟩ := makeLattice_ok h
  refine ⟨L, h1, _, floatCompute_ok hF h hne ord₁ ord₂ h2, ?_⟩
  have hM : c.M = {a} := by unfold Ctx.M; rw [ha]; rfl
  classical
  refine ⟨⟨c.G.filter fun g => ∀ m ∈ c.M, c.Inc g m, c.M⟩, (h3 _).2 ⟨?_, ?_⟩, rfl, ?_, probClosed_all _ _ _⟩
  · intro m
    simp only [Finset.mem_filter]
    exact ⟨fun hm => ⟨hm, fun g hg => hg.2 m hm⟩, fun hm => hm.1⟩
  · intro g; simp
  · simp only [hM]
    have henum : ord₁.enum ({a} : Finset β) = [a] := by
      have h4 := ord₁.nodup {a}
      have h5 : ∀ x, x ∈ ord₁.enum ({a} : Finset β) ↔ x = a := by intro x; simp
      have h6 : List.Perm (ord₁.enum ({a} : Finset β)) [a] :=
        (List.perm_ext_iff_of_nodup h4 (by simp)).2 fun x => by rw [h5]; simp
      exact List.perm_singleton.1 h6
    have hnot : ord₂.enum (c.attributes.filter fun b => decide (b ∉ ({a} : Finset β))).toFinset = [] := by
      refine List.eq_nil_iff_forall_not_mem.2 fun x hx => ?_
      rw [ha] at hx
      simp at hx
    obtain ⟨e1, e2, e3⟩ := hF.half_exponent hu hη
    have hpos : 0 < F.rnd (1 / 2) := by
      have h := hF.rnd_near (1 / 2)
      rw [abs_of_pos (by norm_num : (0 : ℝ) < 1 / 2)] at h
      have := (abs_le.1 h).1
      linarith
    have hlog : F.logSubset (fun b => F.rnd (c.freq b)) [a] = F.rnd (0 + F.log (F.rnd (1 / 2))) := by
      unfold Libm.logSubset
      rw [List.foldl_cons, List.foldl_nil]
      simp only [hfreq, Libm.pyLog_pos hpos]
    unfold Libm.intentProb
    simp only [henum, hnot, hlog, Finset.card_singleton, one_ne_zero, if_false]
    have key : ∀ ks : List ℕ, (∀ k ∈ ks, k ≤ c.objects.length) →
        F.probLoop (fun b => F.rnd (c.freq b)) [] (F.exp (F.rnd (0 + F.log (F.rnd (1 / 2)))))
          (F.rnd (0 + F.log (F.rnd (1 / 2)))) c.objects.length ks 0 = 0 := by
      intro ks
      induction ks with
      | nil => intro _; rfl
      | cons k ks ih =>
        intro hks
        have hk := hks k (by simp)
        unfold Libm.probLoop
        have hm : F.probMult (fun b => F.rnd (c.freq b)) k [] = some 0 := rfl
        rw [hm]
        simp only
        rw [if_neg fun h => e1 h.1]
        have ht : F.probTerm (F.exp (F.rnd (0 + F.log (F.rnd (1 / 2))))) (F.rnd (0 + F.log (F.rnd (1 / 2))))
            c.objects.length k 0 = 0 := by
          unfold Libm.probTerm
          rw [Libm.pyLog_pos e2]
          refine hexp _ ?_
          have hk' : (k : ℝ) ≤ c.objects.length := by exact_mod_cast hk
          have hn' : (1100 : ℝ) ≤ c.objects.length := by exact_mod_cast hn
          refine (e3 k (c.objects.length - k) (by positivity) (by linarith) (by linarith)).trans ?_
          norm_num
          linarith
        rw [ht, hF.binom_zero, add_zero, hF.rnd_zero]
        exact ih fun j hj => hks j (by simp [hj])
    exact key _ fun k hk => by simpa [Nat.lt_succ_iff] using hk

/-! ### Cases -/

/-- The exact operations. -/
theorem exact_accurate : (⟨id, Real.log, Real.exp, fun x k => x ^ k⟩ : Libm).Accurate ((1 / 2) ^ 52) ((1 / 2) ^ 1074) where
  upos := by positivity
  ηpos := by positivity
  rnd_mono := monotone_id
  rnd_near x := by simp only [id, sub_self, abs_zero]; positivity
  rnd_zero := rfl
  rnd_one := rfl
  log_near x _ := by simp only [sub_self, abs_zero]; positivity
  log_one := Real.log_one
  exp_near x _ := by simp only [sub_self, abs_zero]; positivity
  exp_zero := Real.exp_zero
  exp_nonneg x := (Real.exp_pos x).le
  pow_near x k hx _ := by simp only [sub_self, abs_zero]; positivity
  pow_zero x := pow_zero x

/-- Fixed-point arithmetic with 40 binary digits after the point. -/
noncomputable def fixedPoint (x : ℝ) : ℝ := ⌊x * 2 ^ 40⌋ / 2 ^ 40

theorem fixedPoint_near (x : ℝ) : |fixedPoint x - x| ≤ (1 / 2) ^ 40 := by
  unfold fixedPoint
  have h1 := Int.floor_le (x * 2 ^ 40)
  have h2 := Int.lt_floor_add_one (x * 2 ^ 40)
  have h3 : (0 : ℝ) < 2 ^ 40 := by positivity
  have h4 : ((1 : ℝ) / 2) ^ 40 = 1 / 2 ^ 40 := by rw [one_div, one_div, inv_pow]
  rw [h4, abs_le]
  constructor
  · rw [neg_le_sub_iff_le_add, ← add_div, le_div_iff₀ h3]; linarith
  · have : (⌊x * 2 ^ 40⌋ : ℝ) / 2 ^ 40 ≤ x := by rw [div_le_iff₀ h3]; exact h1
    have : (0 : ℝ) ≤ 1 / 2 ^ 40 := by positivity
    linarith

/-- Operations with rounding to fixed-point numbers. -/
theorem fixed_accurate : (⟨fixedPoint, fun x => fixedPoint (Real.log x), fun x => fixedPoint (Real.exp x),
    fun x k => fixedPoint (x ^ k)⟩ : Libm).Accurate ((1 / 2) ^ 30) ((1 / 2) ^ 40) := by
  have hone : fixedPoint 1 = 1 := by unfold fixedPoint; norm_num
  have hzero : fixedPoint 0 = 0 := by unfold fixedPoint; norm_num
  have hnear : ∀ x y : ℝ, 0 ≤ y → |fixedPoint x - x| ≤ y + (1 / 2) ^ 40 := fun x y hy => by
    have := fixedPoint_near x
    linarith
  constructor
  · positivity
  · positivity
  · intro x y hxy
    show fixedPoint x ≤ fixedPoint y
    unfold fixedPoint
    have : (⌊x * 2 ^ 40⌋ : ℝ) ≤ ⌊y * 2 ^ 40⌋ := by
      exact_mod_cast Int.floor_le_floor (mul_le_mul_of_nonneg_right hxy (by positivity))
    gcongr
  · exact fun x => hnear x _ (by positivity)
  · exact hzero
  · exact hone
  · exact fun x _ => hnear _ _ (by positivity)
  · simpa using hzero
  · exact fun x _ => hnear _ _ (by positivity)
  · simpa using hone
  · intro x
    show 0 ≤ fixedPoint (Real.exp x)
    unfold fixedPoint
    have : (0 : ℤ) ≤ ⌊Real.exp x * 2 ^ 40⌋ := Int.floor_nonneg.2 (by positivity)
    have : (0 : ℝ) ≤ ⌊Real.exp x * 2 ^ 40⌋ := by exact_mod_cast this
    positivity
  · exact fun x k hx _ => hnear _ _ (by positivity)
  · intro x; simpa using hone

/-- The remaining hypotheses of `C165_error` for two objects and two attributes with this arithmetic. -/
example : 33 * ((2 : ℕ) : ℝ) ^ 2 * (((2 : ℕ) : ℝ) + 9) ^ 2 * (1 + Real.log (2 : ℕ)) * (1 / 2) ^ 30 +
    3 * (((2 : ℕ) : ℝ) + 1) * 2 ^ 2 * (1 / 2) ^ 40 ≤ 1 / 10000 ∧ ((1 : ℝ) / 2) ^ 40 * (2 : ℕ) ≤ (1 / 2) ^ 30 := by
  have h := Real.log_two_lt_d9
  norm_num at h ⊢
  linarith

example : (⟨[0, 1], [0, 1], ⟨some 2, [[true, false], [false, true]]⟩⟩ : Ctx (Fin 2) (Fin 2)).WFw := by
  constructor <;> decide +kernel

/-- Operations that are exact except that `exp` underflows. -/
theorem flush_accurate : (⟨id, Real.log, fun x => if x ≤ -746 then 0 else Real.exp x, fun x k => x ^ k⟩ : Libm).Accurate
    (1 / 10000) (Real.exp (-746)) ∧ Real.exp (-746) ≤ 1 / 10000 := by
  constructor
  · refine ⟨by norm_num, (Real.exp_pos _).le, monotone_id, ?_, rfl, rfl, ?_, Real.log_one, ?_, ?_, ?_, ?_, fun x => pow_zero x⟩
    · intro x; simp only [id, sub_self, abs_zero]; positivity
    · intro x _; simp only [sub_self, abs_zero]; positivity
    · intro x _
      simp only
      split_ifs with hx
      · rw [zero_sub, abs_neg, abs_of_pos (Real.exp_pos x)]
        have := Real.exp_le_exp.2 hx
        have := Real.exp_pos x
        linarith
      · rw [sub_self, abs_zero]; positivity
    · simp only; rw [if_neg (by norm_num), Real.exp_zero]
    · intro x
      simp only
      split_ifs
      · exact le_refl _
      · exact (Real.exp_pos x).le
    · intro x k hx _; simp only [sub_self, abs_zero]; positivity
  · rw [Real.exp_neg]
    have h := Real.quadratic_le_exp_of_nonneg (x := 746) (by norm_num)
    norm_num at h
    rw [one_div]
    exact inv_anti₀ (by norm_num) (by linarith)

/-- `2 * h` objects, one attribute that the first `h` objects have. -/
def halfCtx (h : ℕ) : Ctx ℕ Unit :=
  ⟨List.range (2 * h), [()], ⟨some 1, (List.range (2 * h)).map fun i => [decide (i < h)]⟩⟩

/-- The contexts of `C165_underflow_violated`. -/
theorem halfCtx_ok {h : ℕ} (h0 : h ≠ 0) : (halfCtx h).WFw ∧ (halfCtx h).freq () = 1 / 2 := by
  have hw : (halfCtx h).WFw := by
    refine ⟨List.nodup_range, by simp [halfCtx], by simp [halfCtx], ?_, fun _ => rfl⟩
    intro r hr
    obtain ⟨i, -, rfl⟩ := List.mem_map.1 hr
    rfl
  refine ⟨hw, ?_⟩
  have hinc : {g | (halfCtx h).Inc g ()} = ((Finset.range h : Finset ℕ) : Set ℕ) := by
    ext g
    simp only [Set.mem_ofPred_eq, Finset.coe_range, Set.mem_Iio]
    constructor
    · rintro ⟨i, j, r, h1, h2, h3, h4⟩
      simp only [halfCtx, List.getElem?_map] at h1 h3
      have hi : g = i := by
        rw [List.getElem?_eq_some_iff] at h1
        obtain ⟨_, h1⟩ := h1
        simpa using h1.symm
      subst hi
      rw [h1] at h3
      simp only [Option.map_some, Option.some.injEq] at h3
      subst h3
      rw [List.getElem?_eq_some_iff] at h4
      obtain ⟨hj, h4⟩ := h4
      simp at hj
      subst hj
      simpa using h4
    · intro hg
      have hg2 : g < 2 * h := by omega
      have hget : (List.range (2 * h))[g]? = some g := by rw [List.getElem?_range hg2]
      refine ⟨g, 0, [decide (g < h)], hget, rfl, ?_, ?_⟩
      · simp only [halfCtx, List.getElem?_map, hget, Option.map_some]
      · simp [hg]
  rw [Ctx.freq, hinc, Set.ncard_coe_finset, Finset.card_range]
  simp only [halfCtx, List.length_range]
  push_cast
  have : (h : ℝ) ≠ 0 := by exact_mod_cast h0
  field_simp

/-- The value 0 instead of 1, for every even number of objects from 1100 on. -/
example {h : ℕ} (hh : 550 ≤ h) (ord₁ ord₂ : SetOrder Unit) :
    ∃ L, makeLattice (halfCtx h) = .ok L ∧
      ∃ v : Concept ℕ Unit → ℝ, (⟨id, Real.log, fun x => if x ≤ -746 then 0 else Real.exp x, fun x k => x ^ k⟩ : Libm).computeProbability
          ord₁ ord₂ L = .ok (L.concepts.map fun x => (x, v x)) ∧
        ∃ x ∈ L.concepts, x.intent = (halfCtx h).M ∧ v x = 0 ∧
          probClosed (halfCtx h).freq (halfCtx h).M (halfCtx h).objects.length x.intent = 1 :=
  C165_underflow_violated flush_accurate.1 le_rfl flush_accurate.2 (fun x hx => if_pos hx) (halfCtx_ok (by omega)).1
    (by simp [halfCtx]; omega) rfl (halfCtx_ok (by omega)).2 ord₁ ord₂
