/-
Floating-point operations that are accurate on a bounded range only: no intermediate value of compute_probability leaves it.
-/
import Verif.Lemmas.ProbabilityFloat
import Mathlib.Data.List.Induction

set_option linter.unusedSectionVars false

variable {α β : Type} [DecidableEq α] [DecidableEq β]

/-- As `Libm.Accurate`, but the rounding is accurate only for exact results of absolute value at most `Ω`. Beyond, where the
operation overflows, only the sign is known. -/
structure Libm.AccurateTo (F : Libm) (u η Ω : ℝ) : Prop where
  upos : 0 < u
  ηpos : 0 ≤ η
  rnd_mono : ∀ x y, |x| ≤ Ω → |y| ≤ Ω → x ≤ y → F.rnd x ≤ F.rnd y
  rnd_near : ∀ x, |x| ≤ Ω → |F.rnd x - x| ≤ u * |x| + η
  rnd_nonneg : ∀ x, 0 ≤ x → 0 ≤ F.rnd x
  rnd_zero : F.rnd 0 = 0
  rnd_one : F.rnd 1 = 1
  log_near : ∀ x, 0 < x → |F.log x - Real.log x| ≤ u * |Real.log x| + η
  log_one : F.log 1 = 0
  exp_near : ∀ x, x ≤ 1 → |F.exp x - Real.exp x| ≤ u * Real.exp x + η
  exp_zero : F.exp 0 = 1
  exp_nonneg : ∀ x, 0 ≤ F.exp x
  pow_near : ∀ x k, 0 ≤ x → x ≤ 1 → |F.pow x k - x ^ k| ≤ u * x ^ k + η
  pow_zero : ∀ x, F.pow x 0 = 1

namespace Libm

/-- The operations without overflow: beyond `Ω` the rounding is exact, up to monotonicity. -/
noncomputable def extend (F : Libm) (Ω : ℝ) : Libm where
  rnd x := open Classical in
    if |x| ≤ Ω then F.rnd x else if 0 < x then max x (F.rnd Ω) else min x (F.rnd (-Ω))
  log := F.log
  exp := F.exp
  pow := F.pow

variable {F : Libm} {u η Ω : ℝ}

theorem extend_rnd {x : ℝ} (hx : |x| ≤ Ω) : (F.extend Ω).rnd x = F.rnd x := by
  unfold extend; simp only; rw [if_pos hx]

theorem AccurateTo.extend (hF : F.AccurateTo u η Ω) (hΩ : 1 ≤ Ω) : (F.extend Ω).Accurate u η := by
  have hp : |Ω| ≤ Ω := by rw [abs_of_nonneg (by linarith)]
  have hn : |-Ω| ≤ Ω := by rw [abs_neg]; exact hp
  have hlo : ∀ x, |x| ≤ Ω → F.rnd x ≤ F.rnd Ω := fun x hx => hF.rnd_mono _ _ hx hp (abs_le.1 hx).2
  have hhi : ∀ x, |x| ≤ Ω → F.rnd (-Ω) ≤ F.rnd x := fun x hx => hF.rnd_mono _ _ hn hx (abs_le.1 hx).1
  have hbig : ∀ x : ℝ, ¬ |x| ≤ Ω → 0 < x → Ω < x := fun x hx h0 => by rw [abs_of_pos h0] at hx; exact not_le.1 hx
  have hsmall : ∀ x : ℝ, ¬ |x| ≤ Ω → ¬ 0 < x → x < -Ω := fun x hx h0 => by
    rw [abs_of_nonpos (not_lt.1 h0)] at hx; linarith [not_le.1 hx]
  refine ⟨hF.upos, hF.ηpos, ?_, ?_, ?_, ?_, hF.log_near, hF.log_one, hF.exp_near, hF.exp_zero, hF.exp_nonneg, hF.pow_near,
    hF.pow_zero⟩
  · intro x y hxy
    unfold Libm.extend
    simp only
    split_ifs with h1 h2 h3 h4 h5 h6 h7 h8
    · exact hF.rnd_mono _ _ h1 h2 hxy
    · exact (hlo x h1).trans (le_max_right _ _)
    · have := hsmall y h2 h3
      have := (abs_le.1 h1).1
      linarith
    · have := hbig x h1 h4
      have := (abs_le.1 h5).2
      linarith
    · exact max_le_max hxy le_rfl
    · linarith [not_lt.1 h6]
    · exact (min_le_right _ _).trans (hhi y h7)
    · have := hsmall x h1 h4
      exact (min_le_left _ _).trans (hxy.trans (le_max_left _ _))
    · exact min_le_min hxy le_rfl
  · intro x
    unfold Libm.extend
    simp only
    have hu := hF.upos
    have hη := hF.ηpos
    split_ifs with h1 h2
    · exact hF.rnd_near x h1
    · have hx := hbig x h1 h2
      have h3 := (abs_le.1 (hF.rnd_near Ω hp)).2
      rw [abs_of_nonneg (by linarith : 0 ≤ Ω)] at h3
      rw [abs_of_pos h2, abs_of_nonneg (sub_nonneg.2 (le_max_left _ _)), sub_le_iff_le_add]
      have h4 := mul_le_mul_of_nonneg_left hx.le hu.le
      have h5 : 0 ≤ u * x := by positivity
      exact max_le (by linarith) (by linarith)
    · have hx := hsmall x h1 h2
      have h3 := (abs_le.1 (hF.rnd_near (-Ω) hn)).1
      rw [abs_neg, abs_of_nonneg (by linarith : 0 ≤ Ω)] at h3
      rw [abs_of_nonpos (not_lt.1 h2), abs_of_nonpos (sub_nonpos.2 (min_le_left _ _)), neg_sub, sub_le_iff_le_add]
      have h4 := mul_le_mul_of_nonneg_left hx.le hu.le
      have h5 : 0 ≤ u * -x := mul_nonneg hu.le (by linarith)
      rcases min_choice x (F.rnd (-Ω)) with h | h <;> rw [h] <;> linarith
  · rw [extend_rnd (by rw [abs_zero]; linarith)]; exact hF.rnd_zero
  · rw [extend_rnd (by rw [abs_one]; exact hΩ)]; exact hF.rnd_one

/-! ### No value leaves the range -/

section
variable {N ℓ δ : ℝ} {m : ℕ}

theorem Accurate.rnd_abs (hF : F.Accurate u η) (hu : u ≤ 1) (hη : η ≤ 1) (x : ℝ) : |F.rnd x| ≤ 2 * |x| + 1 := by
  have h1 := hF.rnd_near x
  have h2 : |F.rnd x| ≤ |F.rnd x - x| + |x| := by
    have := abs_add_le (F.rnd x - x) x
    rwa [sub_add_cancel] at this
  have h3 := mul_le_mul_of_nonneg_right hu (abs_nonneg x)
  linarith

/-- The sum of the logarithms. -/
theorem Sizes.logSubset_agree (hG : (F.extend Ω).Accurate u η) (hS : Sizes u η N ℓ δ m)
    (hΩ : ((m : ℝ) + 1) * (1 + ℓ) ≤ Ω) {p : β → ℝ} (l : List β) (hl : l.length ≤ m)
    (hp : ∀ a ∈ l, p a ≤ 1 ∧ (p a = 0 ∨ 1 / N ≤ p a)) :
    F.logSubset (fun a => (F.extend Ω).rnd (p a)) l = (F.extend Ω).logSubset (fun a => (F.extend Ω).rnd (p a)) l := by
  obtain ⟨a1, a2, a3, a4⟩ := hS.a2 hG
  obtain ⟨b1, b2, b3⟩ := hS.a3 hG
  have hu := hG.upos
  have h0 := hS.ℓ0
  induction l using List.reverseRecOn with
  | nil => rfl
  | append_singleton l a ih =>
    rw [List.length_append, List.length_singleton] at hl
    have hpl : ∀ x ∈ l, p x ≤ 1 ∧ (p x = 0 ∨ 1 / N ≤ p x) := fun x hx => hp x (by simp [hx])
    have ih := ih (by omega) hpl
    have hb : |(F.extend Ω).logSubset (fun a => (F.extend Ω).rnd (p a)) l| ≤ δ + m * ℓ := by
      rw [hS.logSubset_eq hG l hpl]
      obtain ⟨b, hbd⟩ : ∃ b : List β, b = (open Classical in l.filter fun a => decide (p a ≠ 0)) := ⟨_, rfl⟩
      rw [← hbd]
      have hbm : b.length ≤ m := by
        have : b.length ≤ l.length := by rw [hbd]; exact List.length_filter_le _ _
        omega
      have hbp : ∀ a ∈ b, 1 / N ≤ p a ∧ p a ≤ 1 := by
        intro a ha
        rw [hbd] at ha
        have h1 := List.mem_filter.1 ha
        have h2 := hpl a h1.1
        exact ⟨h2.2.resolve_left (by simpa using h1.2), h2.1⟩
      have h1 := hS.log_sum hG hbm hbp
      have h2 : |(b.map fun a => Real.log (p a)).sum| ≤ m * ℓ :=
        (abs_sum_le fun a ha => (hS.freq_log hG (hbp a ha).1 (hbp a ha).2).2.2).trans
          (mul_le_mul_of_nonneg_right (by exact_mod_cast hbm) h0)
      have h3 := abs_sub_abs_le_abs_sub (b.foldl (fun s a => (F.extend Ω).rnd (s + (F.extend Ω).log ((F.extend Ω).rnd (p a)))) 0)
        (b.map fun a => Real.log (p a)).sum
      linarith
    unfold Libm.logSubset at ih hb ⊢
    rw [List.foldl_append, List.foldl_append, ih]
    simp only [List.foldl_cons, List.foldl_nil]
    obtain ⟨h1, h2⟩ := hp a (by simp)
    by_cases hz : p a = 0
    · rw [hz, hG.rnd_zero, pyLog_nonpos (lt_irrefl _), pyLog_nonpos (lt_irrefl _)]
    · obtain ⟨f1, f2, f3⟩ := hS.freq_log hG (h2.resolve_left hz) h1
      rw [pyLog_pos f1, pyLog_pos f1]
      refine (extend_rnd (F := F) ?_).symm
      refine le_trans ?_ hΩ
      refine (abs_add_le _ _).trans ?_
      have h3 : |F.log ((F.extend Ω).rnd (p a))| ≤ ℓ + 6 * (u * (1 + ℓ)) := by
        have h4 := abs_sub_abs_le_abs_sub ((F.extend Ω).log ((F.extend Ω).rnd (p a))) (Real.log (p a))
        change |(F.extend Ω).log ((F.extend Ω).rnd (p a))| ≤ _
        linarith
      have hm0 : (0 : ℝ) ≤ m := by positivity
      have h5 : (m + 1 : ℝ) * (1 + ℓ) = m * ℓ + ℓ + m + 1 := by ring
      change |List.foldl _ 0 l| + |F.log ((F.extend Ω).rnd (p a))| ≤ _
      linarith

/-- The product of the factors of the other attributes. -/
theorem Sizes.probMult_agree (hG : (F.extend Ω).Accurate u η) (hS : Sizes u η N ℓ δ m)
    (hΩ : ((m : ℝ) + 1) * (1 + ℓ) ≤ Ω) (hΩ3 : 3 ≤ Ω) {p : β → ℝ} (l : List β) (hl : l.length ≤ m)
    (hp : ∀ a ∈ l, 0 ≤ p a ∧ p a ≤ 1 - 1 / N) (k : ℕ) (hkN : (k : ℝ) ≤ N) :
    F.probMult (fun a => (F.extend Ω).rnd (p a)) k l = (F.extend Ω).probMult (fun a => (F.extend Ω).rnd (p a)) k l := by
  obtain ⟨a1, a2, a3, a4⟩ := hS.a2 hG
  obtain ⟨b1, b2, b3⟩ := hS.a3 hG
  have hu := hG.upos
  have hηu := hS.ηu hG
  have h0 := hS.ℓ0
  have hN : 0 < N := by linarith [hS.one_le]
  by_cases hk : k = 0
  · subst hk
    cases l with
    | nil => rfl
    | cons a l =>
      rw [hG.probMult_zero _ (by simp)]
      refine probMult_none _ _ ?_
      have h1 : F.pow ((F.extend Ω).rnd (p a)) 0 = 1 := hG.pow_zero _
      have h2 := hG.rnd_zero
      rw [extend_rnd (by rw [abs_zero]; linarith)] at h2
      rw [h1, sub_self, h2]
      exact lt_irrefl _
  have hpos := fun x h1 h2 => hS.mult_log hG (x := x) h1 h2 hk hkN
  have hin : ∀ x, 0 ≤ x → x ≤ 1 - 1 / N →
      F.rnd (1 - F.pow ((F.extend Ω).rnd x) k) = (F.extend Ω).rnd (1 - (F.extend Ω).pow ((F.extend Ω).rnd x) k) := by
    intro x h1 h2
    refine (extend_rnd (F := F) ?_).symm
    refine le_trans ?_ hΩ3
    have h3 : 0 ≤ (F.extend Ω).rnd x := by rw [← hG.rnd_zero]; exact hG.rnd_mono h1
    have h4 : (F.extend Ω).rnd x ≤ 1 := by
      rw [← hG.rnd_one]; refine hG.rnd_mono (h2.trans ?_)
      have : 0 < 1 / N := by positivity
      linarith
    have h5 := abs_le.1 (hG.pow_near _ k h3 h4)
    have h6 := pow_le_one₀ (n := k) h3 h4
    have h7 := pow_nonneg h3 k
    have h8 := mul_le_mul_of_nonneg_left h6 hu.le
    change |1 - (F.extend Ω).pow ((F.extend Ω).rnd x) k| ≤ 3
    rw [abs_le]
    constructor <;> linarith [h5.1, h5.2]
  induction l using List.reverseRecOn with
  | nil => rfl
  | append_singleton l a ih =>
    rw [List.length_append, List.length_singleton] at hl
    have hpl : ∀ x ∈ l, 0 ≤ p x ∧ p x ≤ 1 - 1 / N := fun x hx => hp x (by simp [hx])
    have ih := ih (by omega) hpl
    have hpa := hp a (by simp)
    have hsome := probMult_pos (F := F.extend Ω) (fun a => (F.extend Ω).rnd (p a)) k (l := l)
      fun x hx => (hpos _ (hpl x hx).1 (hpl x hx).2).1
    have hsum := hS.mult_sum hG (p := p) (l := l) (by omega) hpl (Or.inl hk) hkN
    have h2 : |(l.map fun a => Real.log (1 - p a ^ k)).sum| ≤ m * ℓ :=
      (abs_sum_le fun a ha => (hpos _ (hpl a ha).1 (hpl a ha).2).2.2).trans
        (mul_le_mul_of_nonneg_right (by exact_mod_cast (by omega : l.length ≤ m)) h0)
    obtain ⟨w, hw⟩ : ∃ w, w = l.foldl (fun s a => (F.extend Ω).rnd (s + (F.extend Ω).log
      ((F.extend Ω).rnd (1 - (F.extend Ω).pow ((F.extend Ω).rnd (p a)) k)))) 0 := ⟨_, rfl⟩
    rw [← hw] at hsome hsum
    have h3 := abs_sub_abs_le_abs_sub w (l.map fun a => Real.log (1 - p a ^ k)).sum
    obtain ⟨f1, f2, f3⟩ := hpos _ hpa.1 hpa.2
    have h4 := abs_sub_abs_le_abs_sub ((F.extend Ω).log ((F.extend Ω).rnd (1 - (F.extend Ω).pow ((F.extend Ω).rnd (p a)) k)))
      (Real.log (1 - p a ^ k))
    rw [hsome] at ih
    unfold Libm.probMult at ih hsome ⊢
    rw [List.foldl_append, List.foldl_append, ih, hsome]
    simp only [List.foldl_cons, List.foldl_nil]
    rw [hin _ hpa.1 hpa.2, pyLog_pos f1, pyLog_pos f1]
    refine congrArg some (extend_rnd (F := F) ?_).symm
    refine le_trans ?_ hΩ
    refine (abs_add_le _ _).trans ?_
    have hm0 : (0 : ℝ) ≤ m := by positivity
    have h5 : (m + 1 : ℝ) * (1 + ℓ) = m * ℓ + ℓ + m + 1 := by ring
    have h6 : 81 * (N ^ 2 * (u * (1 + ℓ))) ≤ N ^ 2 * δ := by
      have := mul_le_mul_of_nonneg_left a1 (by positivity : 0 ≤ N ^ 2)
      linarith
    have h7 : 0 ≤ N ^ 2 * (u * (1 + ℓ)) := by positivity
    change |w| + |(F.extend Ω).log ((F.extend Ω).rnd (1 - (F.extend Ω).pow ((F.extend Ω).rnd (p a)) k))| ≤ _
    linarith

/-- The exponent. -/
theorem Sizes.probTerm_agree (hG : (F.extend Ω).Accurate u η) (hS : Sizes u η N ℓ δ m)
    (hΩ : 14 * (N * (((m : ℝ) + 1) * (1 + ℓ))) ≤ Ω) {n k : ℕ} (hn : (n : ℝ) = N) (hk : k ≤ n)
    {s s' y w : ℝ} (hs : |s' - s| ≤ δ) (hs0 : |s| ≤ m * ℓ) (hs1 : s ≤ 0) (hy : |y - Real.exp s| ≤ 3 * δ)
    (hq : 1 / N ≤ 1 - Real.exp s) (hw : |w| ≤ m * ℓ + 1) :
    F.probTerm y s' n k w = (F.extend Ω).probTerm y s' n k w := by
  obtain ⟨a1, a2, a3, a4⟩ := hS.a2 hG
  obtain ⟨b1, b2, b3⟩ := hS.a3 hG
  have hu := hG.upos
  have hηu := hS.ηu hG
  have h0 := hS.ℓ0
  have hN1 := hS.one_le
  have hm0 : (0 : ℝ) ≤ m := by positivity
  obtain ⟨W, hW⟩ : ∃ W, W = ((m : ℝ) + 1) * (1 + ℓ) := ⟨_, rfl⟩
  rw [← hW] at hΩ
  have hW' : W = m * ℓ + ℓ + m + 1 := by rw [hW]; ring
  have hmℓ : 0 ≤ m * ℓ := by positivity
  have hNW : 1 * W ≤ N * W := mul_le_mul_of_nonneg_right hN1 (by linarith)
  have hkN : (k : ℝ) ≤ N := by rw [← hn]; exact_mod_cast hk
  have hk0 : (0 : ℝ) ≤ k := by positivity
  obtain ⟨q1, q2, q3, q4⟩ := hS.q_log hG hy (Real.exp_pos s).le hq
  have hbase : F.rnd (1 - y) = (F.extend Ω).rnd (1 - y) := by
    refine (extend_rnd (F := F) ?_).symm
    have h1 := abs_le.1 hy
    have h2 := Real.exp_pos s
    have h3 := Real.exp_le_one_iff.2 hs1
    rw [abs_le]
    constructor <;> linarith [h1.1, h1.2]
  obtain ⟨q', hq'⟩ : ∃ q', q' = (F.extend Ω).log ((F.extend Ω).rnd (1 - y)) := ⟨_, rfl⟩
  rw [← hq'] at q3
  unfold Libm.probTerm
  rw [hbase, pyLog_pos q2, pyLog_pos q2]
  change F.exp (F.rnd (F.rnd (F.rnd (k * s') + F.rnd (((n : ℝ) - k) * F.log ((F.extend Ω).rnd (1 - y)))) + w)) =
    F.exp ((F.extend Ω).rnd ((F.extend Ω).rnd ((F.extend Ω).rnd (k * s') +
      (F.extend Ω).rnd (((n : ℝ) - k) * (F.extend Ω).log ((F.extend Ω).rnd (1 - y)))) + w))
  change _ = F.exp ((F.extend Ω).rnd ((F.extend Ω).rnd ((F.extend Ω).rnd (k * s') +
      (F.extend Ω).rnd (((n : ℝ) - k) * F.log ((F.extend Ω).rnd (1 - y)))) + w))
  change q' = F.log ((F.extend Ω).rnd (1 - y)) at hq'
  rw [← hq']
  have e1 : |k * s'| ≤ N * W := by
    rw [abs_mul, abs_of_nonneg hk0]
    refine mul_le_mul hkN ?_ (abs_nonneg _) (by linarith)
    have := abs_sub_abs_le_abs_sub s' s
    linarith
  have e2 : |((n : ℝ) - k) * q'| ≤ N * W := by
    rw [abs_mul, hn, abs_of_nonneg (by linarith)]
    refine mul_le_mul (by linarith) ?_ (abs_nonneg _) (by linarith)
    have := abs_sub_abs_le_abs_sub q' (Real.log (1 - Real.exp s))
    linarith
  have r1 := hG.rnd_abs (by linarith) (by linarith) (k * s')
  have r2 := hG.rnd_abs (by linarith) (by linarith) (((n : ℝ) - k) * q')
  have e3 := abs_add_le ((F.extend Ω).rnd (k * s')) ((F.extend Ω).rnd (((n : ℝ) - k) * q'))
  have r3 := hG.rnd_abs (by linarith) (by linarith) ((F.extend Ω).rnd (k * s') + (F.extend Ω).rnd (((n : ℝ) - k) * q'))
  have e4 := abs_add_le ((F.extend Ω).rnd ((F.extend Ω).rnd (k * s') + (F.extend Ω).rnd (((n : ℝ) - k) * q'))) w
  rw [← extend_rnd (F := F) (Ω := Ω) (x := k * s') (by linarith),
    ← extend_rnd (F := F) (Ω := Ω) (x := ((n : ℝ) - k) * q') (by linarith),
    ← extend_rnd (F := F) (Ω := Ω) (x := (F.extend Ω).rnd (k * s') + (F.extend Ω).rnd (((n : ℝ) - k) * q')) (by linarith),
    ← extend_rnd (F := F) (Ω := Ω) (x := (F.extend Ω).rnd ((F.extend Ω).rnd (k * s') +
      (F.extend Ω).rnd (((n : ℝ) - k) * q')) + w) (by linarith)]

/-- The multiplications with the quotients of the binomial coefficient. -/
theorem Sizes.binom_agree (hG : (F.extend Ω).Accurate u η) (hS : Sizes u η N ℓ δ m) {n k : ℕ} (hn : (n : ℝ) = N) (hk : k ≤ n)
    (hΩ : 18 * (N * 2 ^ n) ≤ Ω) {t x : ℝ} (hx : 0 ≤ x) (hx1 : x ≤ 1) (h : |t - x| ≤ x * (31 * (N ^ 2 * δ)) + η) :
    F.probBinom n k t = (F.extend Ω).probBinom n k t := by
  obtain ⟨a1, a2, a3, a4⟩ := hS.a2 hG
  obtain ⟨b1, b2, b3⟩ := hS.a3 hG
  have hu := hG.upos
  have hη := hG.ηpos
  have hηu := hS.ηu hG
  have hN1 := hS.one_le
  have hN : 0 ≤ N := by linarith
  have hNu : 81 * (N * u) ≤ N * δ := by
    have := mul_le_mul_of_nonneg_left a2 hN; linarith
  have hkN : (k : ℝ) ≤ N := by rw [← hn]; exact_mod_cast hk
  obtain ⟨q1, q2, q3⟩ := quotients hk
  have hD : 0 ≤ N ^ 2 * δ := by positivity
  have hchoose : (n.choose k : ℝ) ≤ 2 ^ n := by exact_mod_cast Nat.choose_le_two_pow n k
  have hpow : ∀ j : ℕ, j ≤ k → (1 + 4 * u) ^ j ≤ 2 := by
    intro j hj
    have hjN : (j : ℝ) ≤ N := le_trans (by exact_mod_cast hj) hkN
    have h3 : (1 + 4 * u) ^ j ≤ Real.exp (4 * (N * u)) := by
      calc (1 + 4 * u) ^ j ≤ (Real.exp (4 * u)) ^ j :=
            pow_le_pow_left₀ (by linarith) (by linarith [Real.add_one_le_exp (4 * u)]) j
        _ = Real.exp (j * (4 * u)) := by rw [← Real.exp_nat_mul]
        _ ≤ Real.exp (4 * (N * u)) := Real.exp_le_exp.2 (by
            have := mul_le_mul_of_nonneg_right hjN hu.le; linarith)
    have h4 : 0 ≤ N * u := by positivity
    have h5 := Real.abs_exp_sub_one_le (x := 4 * (N * u)) (by rw [abs_of_nonneg (by linarith)]; linarith)
    rw [abs_of_nonneg (by linarith : (0 : ℝ) ≤ 4 * (N * u))] at h5
    have := (abs_le.1 h5).2
    linarith
  have hq : ∀ q ∈ (List.range' (n - k + 1) (n + 1 - (n - k + 1))).zip (List.range' 1 (k + 1 - 1)), (q.1 : ℝ) / q.2 ≤ N := by
    intro q hq
    obtain ⟨i, hi, rfl⟩ := List.mem_iff_getElem.1 hq
    simp only [List.length_zip, List.length_range'] at hi
    simp only [List.getElem_zip, List.getElem_range', one_mul]
    have h2 : (1 : ℝ) ≤ ((1 + i : ℕ) : ℝ) := by push_cast; linarith [(Nat.cast_nonneg i : (0 : ℝ) ≤ i)]
    rw [div_le_iff₀ (by linarith)]
    have h3 : ((n - k + 1 + i : ℕ) : ℝ) ≤ N := by rw [← hn]; exact_mod_cast (by omega)
    exact h3.trans (le_mul_of_one_le_right hN h2)
  unfold Libm.probBinom
  generalize (List.range' (n - k + 1) (n + 1 - (n - k + 1))).zip (List.range' 1 (k + 1 - 1)) = full at *
  have key : ∀ l : List (ℕ × ℕ), l <+: full → l.foldl (fun t q => F.rnd (t * F.rnd ((q.1 : ℝ) / (q.2 : ℝ)))) t =
      l.foldl (fun t q => (F.extend Ω).rnd (t * (F.extend Ω).rnd ((q.1 : ℝ) / (q.2 : ℝ)))) t := by
    intro l
    induction l using List.reverseRecOn with
    | nil => intro _; rfl
    | append_singleton l q ih =>
      intro hpre
      have hpl : l <+: full := (List.prefix_append l [q]).trans hpre
      have ih := ih hpl
      have hqm : q ∈ full := hpre.subset (by simp)
      have hlk : l.length ≤ k := by rw [← q3]; exact hpl.length_le
      rw [List.foldl_append, List.foldl_append, ih]
      simp only [List.foldl_cons, List.foldl_nil]
      have hfold := hG.binom_fold hηu (by linarith) l (fun q hq => q2 q (hpl.subset hq)) t x (1 + 31 * (N ^ 2 * δ)) η hx
        (by linarith) hη (by rw [add_sub_cancel_left]; exact h)
      obtain ⟨P, hP⟩ : ∃ P, P = (l.map fun q => (q.1 : ℝ) / (q.2 : ℝ)).prod := ⟨_, rfl⟩
      obtain ⟨r, hr⟩ : ∃ r, r = l.foldl (fun t q => (F.extend Ω).rnd (t * (F.extend Ω).rnd ((q.1 : ℝ) / (q.2 : ℝ)))) t :=
        ⟨_, rfl⟩
      rw [← hP, ← hr] at hfold
      rw [← hr]
      have hprod : ∀ l' : List (ℕ × ℕ), (∀ q ∈ l', 1 ≤ (q.1 : ℝ) / (q.2 : ℝ)) →
          1 ≤ (l'.map fun q => (q.1 : ℝ) / (q.2 : ℝ)).prod := by
        intro l'
        induction l' with
        | nil => intro _; simp
        | cons a l' ih' =>
          intro h'
          rw [List.map_cons, List.prod_cons]
          exact one_le_mul_of_one_le_of_one_le (h' a (by simp)) (ih' fun b hb => h' b (by simp [hb]))
      have hP1 : 1 ≤ P := by rw [hP]; exact hprod l fun q hq => q2 q (hpl.subset hq)
      have hP2 : P ≤ 2 ^ n := by
        obtain ⟨l2, hl2⟩ := hpl
        refine le_trans ?_ hchoose
        rw [← q1, ← hl2, List.map_append, List.prod_append, ← hP]
        exact le_mul_of_one_le_right (by linarith) (hprod l2 fun q hq => q2 q (by rw [← hl2]; simp [hq]))
      have hpw := hpow _ hlk
      have hpw1 : 1 ≤ (1 + 4 * u) ^ l.length := one_le_pow₀ (by linarith)
      have hlη : (l.length : ℝ) * η ≤ u := by
        have h1 : (l.length : ℝ) ≤ N := le_trans (by exact_mod_cast hlk) hkN
        have h2 := mul_le_mul_of_nonneg_right h1 hη
        have := hS.ηN
        linarith
      have hr6 : |r| ≤ 6 * 2 ^ n := by
        have h1 : |r| ≤ P * ((1 + 4 * u) ^ l.length * (x * (1 + 31 * (N ^ 2 * δ)) + (η + l.length * η))) := by
          have h2 := abs_sub_abs_le_abs_sub r (x * P)
          rw [abs_of_nonneg (mul_nonneg hx (by linarith))] at h2
          have h3 : P * ((1 + 4 * u) ^ l.length * (x * (1 + 31 * (N ^ 2 * δ)) + (η + l.length * η))) =
            x * P + (x * P * ((1 + 31 * (N ^ 2 * δ)) * (1 + 4 * u) ^ l.length - 1) +
              (η + l.length * η) * ((1 + 4 * u) ^ l.length * P)) := by ring
          rw [h3]
          linarith
        refine h1.trans ?_
        have h4 : x * (1 + 31 * (N ^ 2 * δ)) ≤ 1 * 2 := mul_le_mul hx1 (by linarith) (by linarith) (by norm_num)
        have h5 : 0 ≤ x * (1 + 31 * (N ^ 2 * δ)) + (η + l.length * η) := by positivity
        have h6 : (1 + 4 * u) ^ l.length * (x * (1 + 31 * (N ^ 2 * δ)) + (η + l.length * η)) ≤ 2 * 3 :=
          mul_le_mul hpw (by linarith) h5 (by norm_num)
        have h7 : P * ((1 + 4 * u) ^ l.length * (x * (1 + 31 * (N ^ 2 * δ)) + (η + l.length * η))) ≤ 2 ^ n * (2 * 3) :=
          mul_le_mul hP2 h6 (mul_nonneg (by linarith) h5) (by positivity)
        linarith
      have hpn : (1 : ℝ) ≤ 2 ^ n := one_le_pow₀ (by norm_num)
      have hNp : N * 1 ≤ N * 2 ^ n := mul_le_mul_of_nonneg_left hpn hN
      have hq0 : (0 : ℝ) ≤ (q.1 : ℝ) / (q.2 : ℝ) := by positivity
      have hqa : |(q.1 : ℝ) / (q.2 : ℝ)| ≤ N := by rw [abs_of_nonneg hq0]; exact hq q hqm
      have hrq : |(F.extend Ω).rnd ((q.1 : ℝ) / (q.2 : ℝ))| ≤ 3 * N := by
        have := hG.rnd_abs (by linarith) (by linarith) ((q.1 : ℝ) / (q.2 : ℝ))
        linarith
      rw [← extend_rnd (F := F) (Ω := Ω) (x := (q.1 : ℝ) / (q.2 : ℝ)) (by linarith)]
      refine (extend_rnd (F := F) ?_).symm
      rw [abs_mul]
      refine (mul_le_mul hr6 hrq (abs_nonneg _) (by positivity)).trans ?_
      linarith
  exact key full (List.prefix_refl _)

end

end Libm
