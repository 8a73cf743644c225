/-
Error analysis of the floating-point model of compute_probability.
-/
import Verif.Model.ProbabilityFloat
import Verif.Lemmas.Probability
import Mathlib.Analysis.Complex.Exponential
import Mathlib.Analysis.Complex.ExponentialBounds
import Mathlib.Analysis.SpecialFunctions.Exp
import Mathlib.Tactic.Linarith
import Mathlib.Tactic.Positivity

set_option linter.unusedSectionVars false

variable {α β : Type} [DecidableEq α] [DecidableEq β]

/-- What is assumed of the floating-point operations: monotone rounding that is exact on 0 and 1; relative error at most `u`
up to an absolute error `η` (underflow); exact values at the usual places. -/
structure Libm.Accurate (F : Libm) (u η : ℝ) : Prop where
  upos : 0 < u
  ηpos : 0 ≤ η
  rnd_mono : Monotone F.rnd
  rnd_near : ∀ x, |F.rnd x - x| ≤ u * |x| + η
  rnd_zero : F.rnd 0 = 0
  rnd_one : F.rnd 1 = 1
  log_near : ∀ x, 0 < x → |F.log x - Real.log x| ≤ u * |Real.log x| + η
  log_one : F.log 1 = 0
  exp_near : ∀ x, x ≤ 1 → |F.exp x - Real.exp x| ≤ u * Real.exp x + η
  exp_zero : F.exp 0 = 1
  exp_nonneg : ∀ x, 0 ≤ F.exp x
  pow_near : ∀ x k, 0 ≤ x → x ≤ 1 → |F.pow x k - x ^ k| ≤ u * x ^ k + η
  pow_zero : ∀ x, F.pow x 0 = 1

namespace Libm

/-! ### perturbation -/

theorem log_perturb {x y r : ℝ} (hx : 0 < x) (h : |y - x| ≤ r * x) (hr : r ≤ 1 / 2) :
    0 < y ∧ |Real.log y - Real.log x| ≤ 2 * r := by
  obtain ⟨h1, h2⟩ := abs_le.1 h
  have hr0 : 0 ≤ r := by
    by_contra hneg
    have : r * x < 0 := mul_neg_of_neg_of_pos (not_le.1 hneg) hx
    linarith [abs_nonneg (y - x)]
  have hy : 0 < y := by nlinarith
  refine ⟨hy, ?_⟩
  rw [← Real.log_div hy.ne' hx.ne', abs_le]
  have hq : 0 < y / x := div_pos hy hx
  have hu : y / x ≤ 1 + r := by rw [div_le_iff₀ hx]; nlinarith
  have hl : 1 - r ≤ y / x := by rw [le_div_iff₀ hx]; nlinarith
  constructor
  · have := Real.one_sub_inv_le_log_of_pos hq
    have h3 : (y / x)⁻¹ ≤ 1 + 2 * r := by
      rw [inv_le_comm₀ hq (by linarith), inv_le_iff_one_le_mul₀ (by linarith)]
      nlinarith
    linarith
  · have := Real.log_le_sub_one_of_pos hq
    linarith

theorem exp_perturb {s t E : ℝ} (h : |t - s| ≤ E) (hE : E ≤ 1) : |Real.exp t - Real.exp s| ≤ 2 * E * Real.exp s := by
  have h1 : Real.exp t - Real.exp s = (Real.exp (t - s) - 1) * Real.exp s := by
    rw [Real.exp_sub, sub_mul, div_mul_cancel₀ _ (Real.exp_pos s).ne', one_mul]
  rw [h1, abs_mul, abs_of_pos (Real.exp_pos s)]
  refine mul_le_mul_of_nonneg_right ?_ (Real.exp_pos s).le
  have := Real.abs_exp_sub_one_le (h.trans hE)
  linarith

theorem pow_perturb {x y : ℝ} (hx : 0 ≤ x) (hx1 : x ≤ 1) (hy : 0 ≤ y) (hy1 : y ≤ 1) (k : ℕ) :
    |y ^ k - x ^ k| ≤ k * |y - x| := by
  induction k with
  | zero => simp
  | succ k ih =>
    have h1 : y ^ (k + 1) - x ^ (k + 1) = y ^ k * (y - x) + x * (y ^ k - x ^ k) := by ring
    rw [h1]
    refine (abs_add_le _ _).trans ?_
    rw [abs_mul, abs_mul, abs_of_nonneg (pow_nonneg hy k), abs_of_nonneg hx]
    have h2 : y ^ k * |y - x| ≤ 1 * |y - x| := mul_le_mul_of_nonneg_right (pow_le_one₀ hy hy1) (abs_nonneg _)
    have h3 : x * |y ^ k - x ^ k| ≤ 1 * |y ^ k - x ^ k| := mul_le_mul_of_nonneg_right hx1 (abs_nonneg _)
    push_cast
    linarith

variable {F : Libm} {u η : ℝ}

/-- One rounded operation after operands with errors. -/
theorem Accurate.step (hF : F.Accurate u η) {x y e B : ℝ} (h : |x - y| ≤ e) (hB : |y| ≤ B) :
    |F.rnd x - y| ≤ e + u * (B + e) + η := by
  have h1 := hF.rnd_near x
  have h2 : |x| ≤ B + e := by
    have := abs_sub_abs_le_abs_sub x y
    linarith
  have h3 : u * |x| ≤ u * (B + e) := mul_le_mul_of_nonneg_left h2 hF.upos.le
  have h4 : |F.rnd x - y| ≤ |F.rnd x - x| + |x - y| := abs_sub_le _ _ _
  linarith

/-- A sum with rounding after every addition, against the exact sum. -/
theorem Accurate.sum (hF : F.Accurate u η) {ℓ e Q : ℝ} (he : 0 ≤ e) (hℓ : 0 ≤ ℓ) (hQ0 : 0 ≤ Q) (f g : β → ℝ) :
    ∀ (l : List β), (∀ a ∈ l, |f a - g a| ≤ e ∧ |g a| ≤ ℓ) → ∀ s t d : ℝ, |s - t| ≤ d →
      |t| + d + l.length * (ℓ + (e + u * Q + η)) ≤ Q →
      |l.foldl (fun s a => F.rnd (s + f a)) s - (t + (l.map g).sum)| ≤ d + l.length * (e + u * Q + η) := by
  intro l
  induction l with
  | nil => intro _ s t d hd _; simpa using hd
  | cons a l ih =>
    intro h s t d hd hQ
    obtain ⟨h1, h2⟩ := h a (by simp)
    have hd0 : 0 ≤ d := (abs_nonneg _).trans hd
    have hu := hF.upos.le
    have hη := hF.ηpos
    have hL : (0 : ℝ) ≤ l.length := by positivity
    have hr0 : 0 ≤ u * Q := mul_nonneg hu hQ0
    have hLL : 0 ≤ (l.length : ℝ) * (ℓ + (e + u * Q + η)) := by positivity
    rw [List.length_cons] at hQ
    push_cast at hQ
    have h3 : |s + f a - (t + g a)| ≤ d + e := by
      rw [show s + f a - (t + g a) = (s - t) + (f a - g a) by ring]
      exact (abs_add_le _ _).trans (add_le_add hd h1)
    have h4 : |t + g a| ≤ |t| + ℓ := (abs_add_le _ _).trans (add_le_add le_rfl h2)
    have h5 := hF.step h3 h4
    have h6 : u * (|t| + ℓ + (d + e)) ≤ u * Q := by
      refine mul_le_mul_of_nonneg_left ?_ hu
      nlinarith
    rw [List.foldl_cons, List.map_cons, List.sum_cons, ← add_assoc]
    refine (ih (fun b hb => h b (by simp [hb])) _ _ (d + (e + u * Q + η)) (by linarith) ?_).trans ?_
    · nlinarith
    · rw [List.length_cons]; push_cast; linarith

/-! ### The sizes -/

/-- `N` objects with logarithm `ℓ`, at most `m` attributes, and the unit `δ` of the errors. -/
structure Sizes (u η N ℓ δ : ℝ) (m : ℕ) : Prop where
  one_le : 1 ≤ N
  log_eq : ℓ = Real.log N
  ηN : η * N ≤ u
  δ_eq : u * (1 + ℓ) * ((m : ℝ) + 9) ^ 2 = δ
  small : 33 * N ^ 2 * δ ≤ 1

section
variable {N ℓ δ : ℝ} {m : ℕ}

theorem Sizes.ℓ0 (hS : Sizes u η N ℓ δ m) : 0 ≤ ℓ := by rw [hS.log_eq]; exact Real.log_nonneg hS.one_le

theorem Sizes.ηu (hF : F.Accurate u η) (hS : Sizes u η N ℓ δ m) : η ≤ u := by
  have := mul_le_mul_of_nonneg_left hS.one_le hF.ηpos
  linarith [hS.ηN]

theorem Sizes.a1 (hS : Sizes u η N ℓ δ m) :
    (m : ℝ) ^ 2 * (u * (1 + ℓ)) + 18 * (m * (u * (1 + ℓ))) + 81 * (u * (1 + ℓ)) = δ := by
  rw [← hS.δ_eq]; ring

theorem Sizes.w0 (hF : F.Accurate u η) (hS : Sizes u η N ℓ δ m) : 0 ≤ u * ℓ := mul_nonneg hF.upos.le hS.ℓ0

theorem Sizes.a2 (hF : F.Accurate u η) (hS : Sizes u η N ℓ δ m) :
    81 * (u * (1 + ℓ)) ≤ δ ∧ 81 * u ≤ δ ∧ 81 * (u * ℓ) ≤ δ ∧ 0 < δ := by
  have h0 := hS.w0 hF
  have hu := hF.upos
  have hm : (0 : ℝ) ≤ m := by positivity
  have h1 : 0 ≤ (m : ℝ) ^ 2 * (u * (1 + ℓ)) + 18 * (m * (u * (1 + ℓ))) := by
    have : 0 ≤ u * (1 + ℓ) := by linarith
    positivity
  have := hS.a1
  refine ⟨?_, ?_, ?_, ?_⟩ <;> linarith

theorem Sizes.a3 (hF : F.Accurate u η) (hS : Sizes u η N ℓ δ m) :
    δ ≤ N * δ ∧ N * δ ≤ N ^ 2 * δ ∧ 33 * (N ^ 2 * δ) ≤ 1 := by
  have h := hS.one_le
  have hd := (hS.a2 hF).2.2.2
  have h2 : 1 * (N * δ) ≤ N * (N * δ) := mul_le_mul_of_nonneg_right h (mul_nonneg (by linarith) hd.le)
  refine ⟨by nlinarith, by linarith, by linarith [hS.small]⟩

/-- The logarithm of a number with a relative error. -/
theorem Sizes.log_step (hF : F.Accurate u η) (hS : Sizes u η N ℓ δ m) {x y r : ℝ} (hx : 1 / N ≤ x) (hx1 : x ≤ 1)
    (h : |y - x| ≤ r * x) (hr : r ≤ 1 / 2) :
    0 < y ∧ |F.log y - Real.log x| ≤ 2 * r + u * (ℓ + 2 * r) + η ∧ |Real.log x| ≤ ℓ := by
  have hN : 0 < N := by linarith [hS.one_le]
  have hx0 : 0 < x := lt_of_lt_of_le (by positivity) hx
  obtain ⟨hy, h1⟩ := log_perturb hx0 h hr
  have h2 : |Real.log x| ≤ ℓ := by
    rw [abs_of_nonpos (Real.log_nonpos hx0.le hx1), hS.log_eq]
    have := Real.log_le_log (by positivity) hx
    rw [one_div, Real.log_inv] at this
    linarith
  refine ⟨hy, ?_, h2⟩
  have h3 := hF.log_near y hy
  have h4 : |Real.log y| ≤ ℓ + 2 * r := by
    have := abs_sub_abs_le_abs_sub (Real.log y) (Real.log x)
    linarith
  have h5 := mul_le_mul_of_nonneg_left h4 hF.upos.le
  have h6 := abs_sub_le (F.log y) (Real.log y) (Real.log x)
  linarith

/-- A relative frequency. -/
theorem Sizes.freq_log (hF : F.Accurate u η) (hS : Sizes u η N ℓ δ m) {x : ℝ} (hx : 1 / N ≤ x) (hx1 : x ≤ 1) :
    0 < F.rnd x ∧ |F.log (F.rnd x) - Real.log x| ≤ 6 * (u * (1 + ℓ)) ∧ |Real.log x| ≤ ℓ := by
  have hN : 0 < N := by linarith [hS.one_le]
  have hx0 : 0 < x := lt_of_lt_of_le (by positivity) hx
  obtain ⟨a1, a2, a3, a4⟩ := hS.a2 hF
  obtain ⟨b1, b2, b3⟩ := hS.a3 hF
  have hu := hF.upos
  have h1 : |F.rnd x - x| ≤ 2 * u * x := by
    have h := hF.rnd_near x
    rw [abs_of_pos hx0] at h
    have h2 : η ≤ u * x := by
      rw [div_le_iff₀ hN] at hx
      have h3 : η * 1 ≤ η * (x * N) := mul_le_mul_of_nonneg_left hx hF.ηpos
      have h4 : η * N * x ≤ u * x := mul_le_mul_of_nonneg_right hS.ηN hx0.le
      linarith
    linarith
  obtain ⟨h2, h3, h4⟩ := hS.log_step hF hx hx1 h1 (by linarith)
  refine ⟨h2, ?_, h4⟩
  have h5 : u * (ℓ + 2 * (2 * u)) ≤ u * (ℓ + 1) := mul_le_mul_of_nonneg_left (by linarith) hu.le
  have h6 := hS.ηu hF
  have h7 := hS.w0 hF
  linarith

/-- The sum of the logarithms of the relative frequencies. -/
theorem Sizes.log_sum (hF : F.Accurate u η) (hS : Sizes u η N ℓ δ m) {p : β → ℝ} {l : List β} (hl : l.length ≤ m)
    (hp : ∀ a ∈ l, 1 / N ≤ p a ∧ p a ≤ 1) :
    |l.foldl (fun s a => F.rnd (s + F.log (F.rnd (p a)))) 0 - (l.map fun a => Real.log (p a)).sum| ≤ δ := by
  obtain ⟨a1, a2, a3, a4⟩ := hS.a2 hF
  obtain ⟨b1, b2, b3⟩ := hS.a3 hF
  have hu := hF.upos
  have hη := hS.ηu hF
  have h0 := hS.ℓ0
  have hw := hS.w0 hF
  have hm : (l.length : ℝ) ≤ m := by exact_mod_cast hl
  have hl0 : (0 : ℝ) ≤ l.length := by positivity
  have hm0 : (0 : ℝ) ≤ m := by positivity
  have key := hS.a1
  have e1 : (l.length : ℝ) * (6 * (u * (1 + ℓ)) + u * (m * ℓ + 1) + η) ≤ δ := by
    have h1 : 6 * (u * (1 + ℓ)) + u * (m * ℓ + 1) + η ≤ 8 * (u * (1 + ℓ)) + m * (u * ℓ) := by linarith
    have h2 : 0 ≤ 8 * (u * (1 + ℓ)) + m * (u * ℓ) := by
      have := mul_nonneg hm0 hw
      linarith
    have h3 : (l.length : ℝ) * (6 * (u * (1 + ℓ)) + u * (m * ℓ + 1) + η) ≤ m * (8 * (u * (1 + ℓ)) + m * (u * ℓ)) :=
      (mul_le_mul_of_nonneg_left h1 hl0).trans (mul_le_mul_of_nonneg_right hm h2)
    have h4 : (m : ℝ) ^ 2 * (u * ℓ) ≤ m ^ 2 * (u * (1 + ℓ)) := mul_le_mul_of_nonneg_left (by linarith) (by positivity)
    have h5 : 0 ≤ (m : ℝ) * (u * (1 + ℓ)) := mul_nonneg hm0 (by linarith)
    linarith
  have h := hF.sum (Q := m * ℓ + 1) (e := 6 * (u * (1 + ℓ))) (ℓ := ℓ) (by linarith) h0 (by positivity)
    (fun a => F.log (F.rnd (p a))) (fun a => Real.log (p a)) l
    (fun a ha => (hS.freq_log hF (hp a ha).1 (hp a ha).2).2) 0 0 0 (by simp) (by
      have : (l.length : ℝ) * ℓ ≤ m * ℓ := mul_le_mul_of_nonneg_right hm h0
      rw [mul_add, abs_zero]; linarith)
  simp only [zero_add] at h
  exact h.trans e1

theorem Accurate.exp_step (hF : F.Accurate u η) {s t E : ℝ} (h : |t - s| ≤ E) (hE : E ≤ 1) (hs : s ≤ 0) :
    |F.exp t - Real.exp s| ≤ (2 * E + 3 * u) * Real.exp s + η := by
  have ht : t ≤ 1 := by
    have := (abs_le.1 h).2
    linarith
  have h1 := hF.exp_near t ht
  have h2 := exp_perturb h hE
  have h3 := abs_sub_le (F.exp t) (Real.exp t) (Real.exp s)
  have h4 : Real.exp t ≤ 3 * Real.exp s := by
    have h5 := (abs_le.1 h2).2
    have h6 : 2 * E * Real.exp s ≤ 2 * Real.exp s := mul_le_mul_of_nonneg_right (by linarith) (Real.exp_pos s).le
    linarith
  have h5 := mul_le_mul_of_nonneg_left h4 hF.upos.le
  linarith

/-- The probability of the chosen attributes. -/
theorem Sizes.pB_near (hF : F.Accurate u η) (hS : Sizes u η N ℓ δ m) {s t : ℝ} (h : |t - s| ≤ δ) (hs : s ≤ 0) :
    |F.exp t - Real.exp s| ≤ 3 * δ := by
  obtain ⟨a1, a2, a3, a4⟩ := hS.a2 hF
  obtain ⟨b1, b2, b3⟩ := hS.a3 hF
  have h1 := hF.exp_step h (by linarith) hs
  have h2 : (2 * δ + 3 * u) * Real.exp s ≤ (2 * δ + 3 * u) * 1 :=
    mul_le_mul_of_nonneg_left (Real.exp_le_one_iff.2 hs) (by linarith [hF.upos])
  have := hS.ηu hF
  linarith

/-- The logarithm of the complementary probability. -/
theorem Sizes.q_log (hF : F.Accurate u η) (hS : Sizes u η N ℓ δ m) {x y : ℝ} (h : |y - x| ≤ 3 * δ) (hx : 0 ≤ x)
    (hx1 : 1 / N ≤ 1 - x) :
    y ≠ 1 ∧ 0 < F.rnd (1 - y) ∧ |F.log (F.rnd (1 - y)) - Real.log (1 - x)| ≤ 9 * (N * δ) ∧ |Real.log (1 - x)| ≤ ℓ := by
  obtain ⟨a1, a2, a3, a4⟩ := hS.a2 hF
  obtain ⟨b1, b2, b3⟩ := hS.a3 hF
  have hu := hF.upos
  have hη := hS.ηu hF
  have hN : 0 < N := by linarith [hS.one_le]
  have hq : 1 ≤ (1 - x) * N := by rwa [div_le_iff₀ hN] at hx1
  have hq0 : 0 < 1 - x := lt_of_lt_of_le (by positivity) hx1
  have h1 : |(1 - y) - (1 - x)| ≤ 3 * δ := by rw [show (1 - y) - (1 - x) = -(y - x) by ring, abs_neg]; exact h
  have h2 := hF.step (B := 1) h1 (by rw [abs_of_pos hq0]; linarith)
  have h3 : u * (1 + 3 * δ) ≤ u * 4 := mul_le_mul_of_nonneg_left (by linarith) hu.le
  have h4 : |F.rnd (1 - y) - (1 - x)| ≤ (4 * (N * δ)) * (1 - x) := by
    have h5 : 4 * δ * 1 ≤ 4 * δ * ((1 - x) * N) := mul_le_mul_of_nonneg_left hq (by linarith)
    linarith
  obtain ⟨h5, h6, h7⟩ := hS.log_step hF hx1 (by linarith) h4 (by linarith)
  refine ⟨?_, h5, ?_, h7⟩
  · rintro rfl
    rw [sub_self, hF.rnd_zero] at h5
    exact lt_irrefl _ h5
  · have h8 : u * (ℓ + 2 * (4 * (N * δ))) ≤ u * (ℓ + 1) := mul_le_mul_of_nonneg_left (by linarith) hu.le
    linarith

/-- The factor of an attribute outside of the chosen ones. -/
theorem Sizes.mult_log (hF : F.Accurate u η) (hS : Sizes u η N ℓ δ m) {x : ℝ} (hx : 0 ≤ x) (hx1 : x ≤ 1 - 1 / N)
    {k : ℕ} (hk : k ≠ 0) (hkN : (k : ℝ) ≤ N) :
    0 < F.rnd (1 - F.pow (F.rnd x) k) ∧
      |F.log (F.rnd (1 - F.pow (F.rnd x) k)) - Real.log (1 - x ^ k)| ≤ 16 * (N ^ 2 * (u * (1 + ℓ))) ∧
      |Real.log (1 - x ^ k)| ≤ ℓ := by
  obtain ⟨a1, a2, a3, a4⟩ := hS.a2 hF
  obtain ⟨b1, b2, b3⟩ := hS.a3 hF
  have hu := hF.upos
  have hη := hS.ηu hF
  have hη0 := hF.ηpos
  have hw := hS.w0 hF
  have h1N := hS.one_le
  have hN : 0 < N := by linarith
  have hN' : 0 < 1 / N := by positivity
  have hxx : x ≤ 1 := by linarith
  have hr0 : 0 ≤ F.rnd x := by rw [← hF.rnd_zero]; exact hF.rnd_mono hx
  have hr1 : F.rnd x ≤ 1 := by rw [← hF.rnd_one]; exact hF.rnd_mono hxx
  have hxk : x ^ k ≤ x := pow_le_of_le_one hx hxx hk
  have hxk0 : 0 ≤ x ^ k := pow_nonneg hx k
  have hy : 1 / N ≤ 1 - x ^ k := by linarith
  have hy1 : 1 ≤ (1 - x ^ k) * N := by rwa [div_le_iff₀ hN] at hy
  have h1 : |F.rnd x - x| ≤ 2 * u := by
    have h := hF.rnd_near x
    rw [abs_of_nonneg hx] at h
    have : u * x ≤ u * 1 := mul_le_mul_of_nonneg_left hxx hu.le
    linarith
  have h2 : |F.rnd x ^ k - x ^ k| ≤ N * (2 * u) :=
    (pow_perturb hx hxx hr0 hr1 k).trans (mul_le_mul hkN h1 (abs_nonneg _) hN.le)
  have h3 : |F.pow (F.rnd x) k - F.rnd x ^ k| ≤ 2 * u := by
    have h := hF.pow_near _ k hr0 hr1
    have : u * F.rnd x ^ k ≤ u * 1 := mul_le_mul_of_nonneg_left (pow_le_one₀ hr0 hr1) hu.le
    linarith
  have hNu : u * 1 ≤ u * N := mul_le_mul_of_nonneg_left h1N hu.le
  have h4 : |(1 - F.pow (F.rnd x) k) - (1 - x ^ k)| ≤ 4 * (N * u) := by
    rw [show (1 - F.pow (F.rnd x) k) - (1 - x ^ k) = -(F.pow (F.rnd x) k - x ^ k) by ring, abs_neg]
    have := abs_sub_le (F.pow (F.rnd x) k) (F.rnd x ^ k) (x ^ k)
    linarith
  have h5 := hF.step (B := 1) h4 (by rw [abs_of_nonneg (by linarith)]; linarith)
  have hNd : 81 * (N * u) ≤ N * δ := by
    have := mul_le_mul_of_nonneg_left a2 hN.le
    linarith
  have hNd2 : 81 * (N ^ 2 * u) ≤ N ^ 2 * δ := by
    have := mul_le_mul_of_nonneg_left a2 (sq_nonneg N)
    linarith
  have h6 : u * (1 + 4 * (N * u)) ≤ u * 2 := mul_le_mul_of_nonneg_left (by linarith) hu.le
  have h7 : |F.rnd (1 - F.pow (F.rnd x) k) - (1 - x ^ k)| ≤ (7 * (N ^ 2 * u)) * (1 - x ^ k) := by
    have : 7 * (N * u) * 1 ≤ 7 * (N * u) * ((1 - x ^ k) * N) := mul_le_mul_of_nonneg_left hy1 (by positivity)
    nlinarith
  obtain ⟨h8, h9, h10⟩ := hS.log_step hF hy (by linarith) h7 (by linarith)
  refine ⟨h8, ?_, h10⟩
  have h11 : u * (ℓ + 2 * (7 * (N ^ 2 * u))) ≤ u * (ℓ + 1) := mul_le_mul_of_nonneg_left (by linarith) hu.le
  have hN2 : 1 ≤ N ^ 2 := one_le_pow₀ h1N
  have h12 : 1 * (u * (1 + ℓ)) ≤ N ^ 2 * (u * (1 + ℓ)) := mul_le_mul_of_nonneg_right hN2 (by linarith)
  have h13 : N ^ 2 * u ≤ N ^ 2 * (u * (1 + ℓ)) := mul_le_mul_of_nonneg_left (by linarith) (by positivity)
  linarith

/-- The sum of these logarithms. -/
theorem Sizes.mult_sum (hF : F.Accurate u η) (hS : Sizes u η N ℓ δ m) {p : β → ℝ} {l : List β} (hl : l.length ≤ m)
    (hp : ∀ a ∈ l, 0 ≤ p a ∧ p a ≤ 1 - 1 / N) {k : ℕ} (hk : k ≠ 0 ∨ l = []) (hkN : (k : ℝ) ≤ N) :
    |l.foldl (fun s a => F.rnd (s + F.log (F.rnd (1 - F.pow (F.rnd (p a)) k)))) 0 -
      (l.map fun a => Real.log (1 - p a ^ k)).sum| ≤ N ^ 2 * δ := by
  obtain ⟨a1, a2, a3, a4⟩ := hS.a2 hF
  obtain ⟨b1, b2, b3⟩ := hS.a3 hF
  have hu := hF.upos
  have hη := hS.ηu hF
  have h0 := hS.ℓ0
  have hw := hS.w0 hF
  have hm : (l.length : ℝ) ≤ m := by exact_mod_cast hl
  have hl0 : (0 : ℝ) ≤ l.length := by positivity
  have hm0 : (0 : ℝ) ≤ m := by positivity
  have key := hS.a1
  have hN2 : 1 ≤ N ^ 2 := one_le_pow₀ hS.one_le
  have e1 : (l.length : ℝ) * (16 * (N ^ 2 * (u * (1 + ℓ))) + u * (m * ℓ + 1) + η) ≤ N ^ 2 * δ := by
    have hb : 0 ≤ m * (u * ℓ) := mul_nonneg hm0 hw
    have h1 : 16 * (N ^ 2 * (u * (1 + ℓ))) + u * (m * ℓ + 1) + η ≤ N ^ 2 * (18 * (u * (1 + ℓ)) + m * (u * ℓ)) := by
      have : 1 * (2 * (u * (1 + ℓ)) + m * (u * ℓ)) ≤ N ^ 2 * (2 * (u * (1 + ℓ)) + m * (u * ℓ)) :=
        mul_le_mul_of_nonneg_right hN2 (by linarith)
      linarith
    have h2 : 0 ≤ N ^ 2 * (18 * (u * (1 + ℓ)) + m * (u * ℓ)) := mul_nonneg (by linarith) (by linarith)
    have h3 := (mul_le_mul_of_nonneg_left h1 hl0).trans (mul_le_mul_of_nonneg_right hm h2)
    have h4 : (m : ℝ) ^ 2 * (u * ℓ) ≤ m ^ 2 * (u * (1 + ℓ)) := mul_le_mul_of_nonneg_left (by linarith) (by positivity)
    have h5 : 0 ≤ (m : ℝ) * (u * (1 + ℓ)) := mul_nonneg hm0 (by linarith)
    have h6 : (m : ℝ) * (18 * (u * (1 + ℓ)) + m * (u * ℓ)) ≤ δ := by linarith
    have h7 := mul_le_mul_of_nonneg_left h6 (by linarith : 0 ≤ N ^ 2)
    linarith
  have h := hF.sum (Q := m * ℓ + 1) (e := 16 * (N ^ 2 * (u * (1 + ℓ)))) (ℓ := ℓ)
    (mul_nonneg (by norm_num) (mul_nonneg (by linarith) (by linarith))) h0 (by positivity)
    (fun a => F.log (F.rnd (1 - F.pow (F.rnd (p a)) k))) (fun a => Real.log (1 - p a ^ k)) l
    (fun a ha => (hS.mult_log hF (hp a ha).1 (hp a ha).2 (hk.resolve_right (List.ne_nil_of_mem ha)) hkN).2)
    0 0 0 (by simp) (by
      have : (l.length : ℝ) * ℓ ≤ m * ℓ := mul_le_mul_of_nonneg_right hm h0
      rw [mul_add, abs_zero]; linarith)
  simp only [zero_add] at h
  exact h.trans e1

/-- A sum of numbers bounded by `ℓ`. -/
theorem abs_sum_le {l : List β} {g : β → ℝ} (hg : ∀ a ∈ l, |g a| ≤ ℓ) : |(l.map g).sum| ≤ l.length * ℓ := by
  induction l with
  | nil => simp
  | cons a l ih =>
    have h1 := hg a (by simp)
    have h2 := ih fun b hb => hg b (by simp [hb])
    rw [List.map_cons, List.sum_cons, List.length_cons]
    push_cast
    have := abs_add_le (g a) (l.map g).sum
    linarith

/-- The exponent of a summand. -/
theorem Sizes.exponent (hF : F.Accurate u η) (hS : Sizes u η N ℓ δ m) {s s' q q' w w' : ℝ} {k j : ℝ}
    (hk : 0 ≤ k) (hkN : k ≤ N) (hj : 0 ≤ j) (hjN : j ≤ N)
    (hs : |s' - s| ≤ δ) (hs0 : |s| ≤ m * ℓ) (hq : |q' - q| ≤ 9 * (N * δ)) (hq0 : |q| ≤ ℓ)
    (hw : |w' - w| ≤ N ^ 2 * δ) (hw0 : |w| ≤ m * ℓ) :
    |F.rnd (F.rnd (F.rnd (k * s') + F.rnd (j * q')) + w') - (k * s + j * q + w)| ≤ 15 * (N ^ 2 * δ) := by
  obtain ⟨a1, a2, a3, a4⟩ := hS.a2 hF
  obtain ⟨b1, b2, b3⟩ := hS.a3 hF
  have hu := hF.upos
  have hη := hS.ηu hF
  have h0 := hS.ℓ0
  have hwl := hS.w0 hF
  have hm0 : (0 : ℝ) ≤ m := by positivity
  have key := hS.a1
  have h1N := hS.one_le
  have hN : 0 ≤ N := by linarith
  have hml : 18 * (m * (u * ℓ)) ≤ δ := by
    have h4 : 0 ≤ (m : ℝ) ^ 2 * (u * (1 + ℓ)) := mul_nonneg (by positivity) (by linarith)
    have h5 : (m : ℝ) * (u * ℓ) ≤ m * (u * (1 + ℓ)) := mul_le_mul_of_nonneg_left (by linarith) hm0
    linarith
  have hNml : 18 * (N * (m * (u * ℓ))) ≤ N * δ := by
    have := mul_le_mul_of_nonneg_left hml hN; linarith
  have hNl : 81 * (N * (u * ℓ)) ≤ N * δ := by
    have := mul_le_mul_of_nonneg_left a3 hN; linarith
  -- k * s
  have c0 : |k * s| ≤ N * (m * ℓ) := by
    rw [abs_mul, abs_of_nonneg hk]; exact mul_le_mul hkN hs0 (abs_nonneg _) hN
  have c1 : |k * s' - k * s| ≤ N * δ := by
    rw [← mul_sub, abs_mul, abs_of_nonneg hk]; exact mul_le_mul hkN hs (abs_nonneg _) hN
  have c2 := hF.step c1 c0
  have c3 : u * (N * (m * ℓ) + N * δ) ≤ N * (m * (u * ℓ)) + u * 1 := by
    have : u * (N * δ) ≤ u * 1 := mul_le_mul_of_nonneg_left (by linarith) hu.le
    linarith
  have c4 : |F.rnd (k * s') - k * s| ≤ 2 * (N * δ) := by linarith
  -- j * q
  have d0 : |j * q| ≤ N * ℓ := by
    rw [abs_mul, abs_of_nonneg hj]; exact mul_le_mul hjN hq0 (abs_nonneg _) hN
  have d1 : |j * q' - j * q| ≤ 9 * (N ^ 2 * δ) := by
    rw [← mul_sub, abs_mul, abs_of_nonneg hj]
    have := mul_le_mul hjN hq (abs_nonneg _) hN
    linarith
  have d2 := hF.step d1 d0
  have d3 : u * (N * ℓ + 9 * (N ^ 2 * δ)) ≤ N * (u * ℓ) + u * 1 := by
    have : u * (9 * (N ^ 2 * δ)) ≤ u * 1 := mul_le_mul_of_nonneg_left (by linarith) hu.le
    linarith
  have d4 : |F.rnd (j * q') - j * q| ≤ 10 * (N ^ 2 * δ) := by linarith
  -- their sum
  have e1 : |F.rnd (k * s') + F.rnd (j * q') - (k * s + j * q)| ≤ 12 * (N ^ 2 * δ) := by
    rw [show F.rnd (k * s') + F.rnd (j * q') - (k * s + j * q) = (F.rnd (k * s') - k * s) + (F.rnd (j * q') - j * q) by ring]
    have := abs_add_le (F.rnd (k * s') - k * s) (F.rnd (j * q') - j * q)
    linarith
  have e0 : |k * s + j * q| ≤ N * (m * ℓ) + N * ℓ := (abs_add_le _ _).trans (add_le_add c0 d0)
  have e2 := hF.step e1 e0
  have e3 : u * (N * (m * ℓ) + N * ℓ + 12 * (N ^ 2 * δ)) ≤ N * (m * (u * ℓ)) + N * (u * ℓ) + u * 1 := by
    have : u * (12 * (N ^ 2 * δ)) ≤ u * 1 := mul_le_mul_of_nonneg_left (by linarith) hu.le
    linarith
  have e4 : |F.rnd (F.rnd (k * s') + F.rnd (j * q')) - (k * s + j * q)| ≤ 13 * (N ^ 2 * δ) := by linarith
  -- with the last summand
  have f1 : |F.rnd (F.rnd (k * s') + F.rnd (j * q')) + w' - (k * s + j * q + w)| ≤ 14 * (N ^ 2 * δ) := by
    rw [show F.rnd (F.rnd (k * s') + F.rnd (j * q')) + w' - (k * s + j * q + w) =
      (F.rnd (F.rnd (k * s') + F.rnd (j * q')) - (k * s + j * q)) + (w' - w) by ring]
    have := abs_add_le (F.rnd (F.rnd (k * s') + F.rnd (j * q')) - (k * s + j * q)) (w' - w)
    linarith
  have f0 : |k * s + j * q + w| ≤ N * (m * ℓ) + N * ℓ + m * ℓ := (abs_add_le _ _).trans (add_le_add e0 hw0)
  have f2 := hF.step f1 f0
  have f3 : u * (N * (m * ℓ) + N * ℓ + m * ℓ + 14 * (N ^ 2 * δ)) ≤
      N * (m * (u * ℓ)) + N * (u * ℓ) + m * (u * ℓ) + u * 1 := by
    have : u * (14 * (N ^ 2 * δ)) ≤ u * 1 := mul_le_mul_of_nonneg_left (by linarith) hu.le
    linarith
  linarith

/-- The multiplications with the quotients of the binomial coefficient. -/
theorem Accurate.binom_fold (hF : F.Accurate u η) (hηu : η ≤ u) (hu4 : u ≤ 1 / 4) :
    ∀ (l : List (ℕ × ℕ)), (∀ q ∈ l, 1 ≤ (q.1 : ℝ) / q.2) → ∀ t x G h : ℝ, 0 ≤ x → 1 ≤ G → 0 ≤ h →
      |t - x| ≤ x * (G - 1) + h →
      |l.foldl (fun t q => F.rnd (t * F.rnd ((q.1 : ℝ) / (q.2 : ℝ)))) t -
        x * (l.map fun q => (q.1 : ℝ) / q.2).prod| ≤
        x * (l.map fun q => (q.1 : ℝ) / q.2).prod * (G * (1 + 4 * u) ^ l.length - 1) +
          (h + l.length * η) * ((1 + 4 * u) ^ l.length * (l.map fun q => (q.1 : ℝ) / q.2).prod) := by
  intro l
  induction l with
  | nil => intro _ t x G h hx hG hh ht; simpa using ht
  | cons q l ih =>
    intro hl t x G h hx hG hh ht
    have hu := hF.upos
    have hη := hF.ηpos
    have hc := hl q (by simp)
    obtain ⟨c, hcq⟩ : ∃ c, c = (q.1 : ℝ) / q.2 := ⟨_, rfl⟩
    rw [← hcq] at hc
    have hc0 : 0 ≤ c := by linarith
    -- the rounded quotient
    have h1 : |F.rnd c - c| ≤ 2 * u * c := by
      have h := hF.rnd_near c
      rw [abs_of_nonneg hc0] at h
      have : u * 1 ≤ u * c := mul_le_mul_of_nonneg_left hc hu.le
      linarith
    have h2 : |t * F.rnd c - t * c| ≤ 2 * u * c * |t| := by
      rw [← mul_sub, abs_mul, mul_comm]; exact mul_le_mul_of_nonneg_right h1 (abs_nonneg _)
    have h3 := hF.step h2 (abs_mul t c).le
    rw [abs_of_nonneg hc0] at h3
    have h4 : |F.rnd (t * F.rnd c) - t * c| ≤ 4 * u * (c * |t|) + η := by
      have h5 : u * (2 * u * c * |t|) ≤ u * (c * |t|) := by
        refine mul_le_mul_of_nonneg_left ?_ hu.le
        have : 0 ≤ c * |t| := mul_nonneg hc0 (abs_nonneg _)
        nlinarith
      linarith
    have ht' : |t| ≤ x * G + h := by
      have := abs_sub_abs_le_abs_sub t x
      rw [abs_of_nonneg hx] at this
      linarith
    have h5 : |F.rnd (t * F.rnd c) - x * c| ≤ (x * c) * (G * (1 + 4 * u) - 1) + (c * (h * (1 + 4 * u)) + η) := by
      have h6 : |t * c - x * c| ≤ (x * (G - 1) + h) * c := by
        rw [← sub_mul, abs_mul, abs_of_nonneg hc0]; exact mul_le_mul_of_nonneg_right ht hc0
      have h7 := abs_sub_le (F.rnd (t * F.rnd c)) (t * c) (x * c)
      have h8 : 4 * u * (c * |t|) ≤ 4 * u * (c * (x * G + h)) :=
        mul_le_mul_of_nonneg_left (mul_le_mul_of_nonneg_left ht' hc0) (by linarith)
      linarith
    have hG' : 1 ≤ G * (1 + 4 * u) := by nlinarith
    have h9 := ih (fun r hr => hl r (by simp [hr])) (F.rnd (t * F.rnd c)) (x * c) (G * (1 + 4 * u))
      (c * (h * (1 + 4 * u)) + η) (mul_nonneg hx hc0) hG' (by positivity) h5
    rw [List.foldl_cons, List.map_cons, List.prod_cons, List.length_cons, ← hcq]
    have hP : 0 ≤ (1 + 4 * u) ^ l.length * (l.map fun q => (q.1 : ℝ) / q.2).prod := by
      refine mul_nonneg (by positivity) (List.prod_nonneg fun y hy => ?_)
      obtain ⟨r, -, rfl⟩ := List.mem_map.1 hy
      positivity
    have h10 : c * (h * (1 + 4 * u)) + η + l.length * η ≤ (h + (l.length + 1) * η) * ((1 + 4 * u) * c) := by
      have h11 : 1 ≤ (1 + 4 * u) * c := by nlinarith
      have h12 : (1 + (l.length : ℝ)) * η * 1 ≤ (1 + (l.length : ℝ)) * η * ((1 + 4 * u) * c) :=
        mul_le_mul_of_nonneg_left h11 (by positivity)
      linarith
    have h13 := mul_le_mul_of_nonneg_right h10 hP
    push_cast
    rw [pow_succ, ← mul_assoc x c]
    refine h9.trans ?_
    have h14 : G * (1 + 4 * u) * (1 + 4 * u) ^ l.length = G * ((1 + 4 * u) ^ l.length * (1 + 4 * u)) := by ring
    rw [h14]
    have h15 : (h + (↑l.length + 1) * η) * ((1 + 4 * u) * c) * ((1 + 4 * u) ^ l.length * (l.map fun q => (q.1 : ℝ) / q.2).prod) =
      (h + (↑l.length + 1) * η) * ((1 + 4 * u) ^ l.length * (1 + 4 * u) * (c * (l.map fun q => (q.1 : ℝ) / q.2).prod)) := by
      ring
    rw [← h15]
    linarith

/-- The quotients multiply to the binomial coefficient, and each is at least 1. -/
theorem quotients {n k : ℕ} (hk : k ≤ n) :
    (((List.range' (n - k + 1) (n + 1 - (n - k + 1))).zip (List.range' 1 (k + 1 - 1))).map
      fun q => (q.1 : ℝ) / (q.2 : ℝ)).prod = n.choose k ∧
    (∀ q ∈ (List.range' (n - k + 1) (n + 1 - (n - k + 1))).zip (List.range' 1 (k + 1 - 1)), 1 ≤ (q.1 : ℝ) / q.2) ∧
    ((List.range' (n - k + 1) (n + 1 - (n - k + 1))).zip (List.range' 1 (k + 1 - 1))).length = k := by
  refine ⟨?_, ?_, ?_⟩
  · have h := probBinom_eq hk 1
    have key : ∀ (l : List (ℕ × ℕ)) (t : ℝ), l.foldl (fun t q => t * ((q.1 : ℝ) / (q.2 : ℝ))) t =
        t * (l.map fun q => (q.1 : ℝ) / (q.2 : ℝ)).prod := by
      intro l
      induction l with
      | nil => intro t; simp
      | cons a l ih => intro t; rw [List.foldl_cons, ih, List.map_cons, List.prod_cons, mul_assoc]
    rw [_root_.probBinom, key, one_mul, one_mul] at h
    exact h
  · intro q hq
    obtain ⟨i, hi, rfl⟩ := List.mem_iff_getElem.1 hq
    simp only [List.getElem_zip, List.getElem_range', one_mul]
    have h2 : (0 : ℝ) < ((1 + i : ℕ) : ℝ) := by positivity
    rw [le_div_iff₀ h2, one_mul]
    have : 1 + i ≤ n - k + 1 + i := by omega
    exact_mod_cast this
  · simp; omega

theorem Sizes.binom (hF : F.Accurate u η) (hS : Sizes u η N ℓ δ m) {n k : ℕ} (hn : (n : ℝ) = N) (hk : k ≤ n)
    {t x : ℝ} (hx : 0 ≤ x) (h : |t - x| ≤ x * (31 * (N ^ 2 * δ)) + η) :
    |F.probBinom n k t - x * n.choose k| ≤
      32 * (N ^ 2 * δ) * (x * n.choose k) + 3 * (N + 1) * η * n.choose k := by
  obtain ⟨a1, a2, a3, a4⟩ := hS.a2 hF
  obtain ⟨b1, b2, b3⟩ := hS.a3 hF
  have hu := hF.upos
  have hη := hF.ηpos
  have hN : 0 ≤ N := by linarith [hS.one_le]
  obtain ⟨q1, q2, q3⟩ := quotients hk
  have hD : 0 ≤ N ^ 2 * δ := by positivity
  have h1 := hF.binom_fold (hS.ηu hF) (by linarith) _ q2 t x (1 + 31 * (N ^ 2 * δ)) η hx (by linarith) hη
    (by rw [add_sub_cancel_left]; exact h)
  rw [q1, q3] at h1
  have hkN : (k : ℝ) ≤ N := by rw [← hn]; exact_mod_cast hk
  have hNu : 81 * (N * u) ≤ N * δ := by
    have := mul_le_mul_of_nonneg_left a2 hN; linarith
  have h2 : (1 + 4 * u) ^ k ≤ 1 + 8 * (N * u) := by
    have h3 : (1 + 4 * u) ^ k ≤ Real.exp (4 * (N * u)) := by
      calc (1 + 4 * u) ^ k ≤ (Real.exp (4 * u)) ^ k :=
            pow_le_pow_left₀ (by linarith) (by linarith [Real.add_one_le_exp (4 * u)]) k
        _ = Real.exp (k * (4 * u)) := by rw [← Real.exp_nat_mul]
        _ ≤ Real.exp (4 * (N * u)) := Real.exp_le_exp.2 (by
            have := mul_le_mul_of_nonneg_right hkN hu.le; linarith)
    have h4 : 0 ≤ N * u := by positivity
    have h5 := Real.abs_exp_sub_one_le (x := 4 * (N * u)) (by rw [abs_of_nonneg (by linarith)]; linarith)
    rw [abs_of_nonneg (by linarith : (0 : ℝ) ≤ 4 * (N * u))] at h5
    have := (abs_le.1 h5).2
    linarith
  have h3 : (1 + 31 * (N ^ 2 * δ)) * (1 + 4 * u) ^ k - 1 ≤ 32 * (N ^ 2 * δ) := by
    have h4 := mul_le_mul_of_nonneg_left h2 (by linarith : 0 ≤ 1 + 31 * (N ^ 2 * δ))
    have h5 : 31 * (N ^ 2 * δ) * (8 * (N * u)) ≤ 1 * (8 * (N * u)) :=
      mul_le_mul_of_nonneg_right (by linarith) (by positivity)
    linarith
  have hC : (0 : ℝ) ≤ n.choose k := by positivity
  have h4 : x * (n.choose k) * ((1 + 31 * (N ^ 2 * δ)) * (1 + 4 * u) ^ k - 1) ≤ x * (n.choose k) * (32 * (N ^ 2 * δ)) :=
    mul_le_mul_of_nonneg_left h3 (mul_nonneg hx hC)
  have h5 : (η + k * η) * ((1 + 4 * u) ^ k * n.choose k) ≤ ((N + 1) * η) * (3 * n.choose k) := by
    refine mul_le_mul ?_ (mul_le_mul_of_nonneg_right (by linarith) hC) (by positivity) (by positivity)
    have := mul_le_mul_of_nonneg_right hkN hη
    linarith
  unfold Libm.probBinom
  linarith

theorem pyLog_pos {x : ℝ} (h : 0 < x) : F.pyLog x = .ok (F.log x) := by simp [Libm.pyLog, h]

theorem pyLog_nonpos {x : ℝ} (h : ¬ 0 < x) : F.pyLog x = .error .valueError := by simp [Libm.pyLog, h]

theorem probMult_pos (p : β → ℝ) (k : ℕ) {l : List β} (h : ∀ a ∈ l, 0 < F.rnd (1 - F.pow (p a) k)) :
    F.probMult p k l = some (l.foldl (fun s a => F.rnd (s + F.log (F.rnd (1 - F.pow (p a) k)))) 0) := by
  have key : ∀ (l : List β) (x : ℝ), (∀ a ∈ l, 0 < F.rnd (1 - F.pow (p a) k)) →
      l.foldl (fun acc a => match acc with
        | none => none
        | some mult => match F.pyLog (F.rnd (1 - F.pow (p a) k)) with
          | .ok x => some (F.rnd (mult + x))
          | .error _ => none) (some x) =
        some (l.foldl (fun s a => F.rnd (s + F.log (F.rnd (1 - F.pow (p a) k)))) x) := by
    intro l
    induction l with
    | nil => intro x _; rfl
    | cons a l ih =>
      intro x h
      have ha := h a (by simp)
      rw [List.foldl_cons, List.foldl_cons]
      simp only [pyLog_pos ha]
      exact ih _ fun b hb => h b (by simp [hb])
  exact key l 0 h

theorem probMult_none (p : β → ℝ) (k : ℕ) {a : β} {l : List β} (h : ¬ 0 < F.rnd (1 - F.pow (p a) k)) :
    F.probMult p k (a :: l) = none := by
  unfold Libm.probMult
  rw [List.foldl_cons]
  simp only [pyLog_nonpos h]
  induction l with
  | nil => rfl
  | cons b l ih => rw [List.foldl_cons]; exact ih

theorem Accurate.probMult_zero (hF : F.Accurate u η) (p : β → ℝ) {l : List β} (h : l ≠ []) :
    F.probMult p 0 l = none := by
  obtain ⟨a, l, rfl⟩ := List.exists_cons_of_ne_nil h
  exact probMult_none p 0 (by rw [hF.pow_zero, sub_self, hF.rnd_zero]; exact lt_irrefl _)

theorem Accurate.binom_zero (hF : F.Accurate u η) (n k : ℕ) : F.probBinom n k 0 = 0 := by
  unfold Libm.probBinom
  generalize (List.range' (n - k + 1) (n + 1 - (n - k + 1))).zip (List.range' 1 (k + 1 - 1)) = l
  induction l with
  | nil => rfl
  | cons q l ih => rw [List.foldl_cons, zero_mul, hF.rnd_zero]; exact ih

/-- The summands are not negative. -/
theorem summand_nonneg {p : β → ℝ} {l : List β} (hp : ∀ a ∈ l, 0 ≤ p a ∧ p a ≤ 1) {pB : ℝ} (h0 : 0 ≤ pB) (h1 : pB ≤ 1)
    (n k : ℕ) : 0 ≤ probSummand p l pB n k := by
  unfold probSummand
  have : 0 ≤ 1 - pB := by linarith
  have h2 : 0 ≤ (l.map fun a => 1 - p a ^ k).prod := by
    refine List.prod_nonneg fun y hy => ?_
    obtain ⟨a, ha, rfl⟩ := List.mem_map.1 hy
    exact sub_nonneg.2 (pow_le_one₀ (hp a ha).1 (hp a ha).2)
  positivity

theorem exp_sum_log {l : List β} {g : β → ℝ} (hg : ∀ a ∈ l, 0 < g a) :
    Real.exp (l.map fun a => Real.log (g a)).sum = (l.map g).prod := by
  induction l with
  | nil => simp
  | cons a l ih =>
    rw [List.map_cons, List.sum_cons, Real.exp_add, Real.exp_log (hg a (by simp)), ih fun b hb => hg b (by simp [hb]),
      List.map_cons, List.prod_cons]

theorem sum_log_nonpos {l : List β} {g : β → ℝ} (hg : ∀ a ∈ l, 0 < g a ∧ g a ≤ 1) :
    (l.map fun a => Real.log (g a)).sum ≤ 0 := by
  induction l with
  | nil => simp
  | cons a l ih =>
    rw [List.map_cons, List.sum_cons]
    have h1 := Real.log_nonpos (hg a (by simp)).1.le (hg a (by simp)).2
    have h2 := ih fun b hb => hg b (by simp [hb])
    linarith

/-- One summand. -/
theorem Sizes.term (hF : F.Accurate u η) (hS : Sizes u η N ℓ δ m) {p : β → ℝ} {l : List β} (hl : l.length ≤ m)
    (hp : ∀ a ∈ l, 0 ≤ p a ∧ p a ≤ 1 - 1 / N) {n k : ℕ} (hn : (n : ℝ) = N) (hk : k ≤ n) (hkl : k ≠ 0 ∨ l = [])
    {s s' y : ℝ} (hs : |s' - s| ≤ δ) (hs0 : |s| ≤ m * ℓ) (hs1 : s ≤ 0) (hy : |y - Real.exp s| ≤ 3 * δ)
    (hq : 1 / N ≤ 1 - Real.exp s) :
    ∃ w, F.probMult (fun a => F.rnd (p a)) k l = some w ∧
      |F.probBinom n k (F.probTerm y s' n k w) - probSummand p l (Real.exp s) n k| ≤
        32 * (N ^ 2 * δ) * probSummand p l (Real.exp s) n k + 3 * (N + 1) * η * n.choose k := by
  obtain ⟨a1, a2, a3, a4⟩ := hS.a2 hF
  obtain ⟨b1, b2, b3⟩ := hS.a3 hF
  have hu := hF.upos
  have hkN : (k : ℝ) ≤ N := by rw [← hn]; exact_mod_cast hk
  have hN : 0 < N := by linarith [hS.one_le]
  have hN' : 0 < 1 / N := by positivity
  have hpos := fun a ha => hS.mult_log hF (hp a ha).1 (hp a ha).2 (hkl.resolve_right (List.ne_nil_of_mem ha)) hkN
  refine ⟨_, probMult_pos _ _ fun a ha => (hpos a ha).1, ?_⟩
  have hw := hS.mult_sum hF hl hp hkl hkN
  obtain ⟨w', hw'⟩ : ∃ w', w' = l.foldl (fun s a => F.rnd (s + F.log (F.rnd (1 - F.pow (F.rnd (p a)) k)))) 0 := ⟨_, rfl⟩
  rw [← hw'] at hw ⊢
  obtain ⟨w, hww⟩ : ∃ w, w = (l.map fun a => Real.log (1 - p a ^ k)).sum := ⟨_, rfl⟩
  rw [← hww] at hw
  have hw0 : |w| ≤ m * ℓ := by
    rw [hww]
    refine (abs_sum_le fun a ha => (hpos a ha).2.2).trans ?_
    exact mul_le_mul_of_nonneg_right (by exact_mod_cast hl) hS.ℓ0
  have hone : ∀ a ∈ l, 0 < 1 - p a ^ k ∧ 1 - p a ^ k ≤ 1 := by
    intro a ha
    have hk0 := hkl.resolve_right (List.ne_nil_of_mem ha)
    have h2 := (hp a ha).2
    have := pow_le_of_le_one (hp a ha).1 (by linarith) hk0
    have := pow_nonneg (hp a ha).1 k
    exact ⟨by linarith, by linarith⟩
  have hw1 : w ≤ 0 := by rw [hww]; exact sum_log_nonpos hone
  have hwe : Real.exp w = (l.map fun a => 1 - p a ^ k).prod := by rw [hww]; exact exp_sum_log fun a ha => (hone a ha).1
  obtain ⟨q1, q2, q3, q4⟩ := hS.q_log hF hy (Real.exp_pos s).le hq
  have hq0 : 0 < 1 - Real.exp s := lt_of_lt_of_le hN' hq
  have hj : ((n : ℝ) - k) = ((n - k : ℕ) : ℝ) := by push_cast [Nat.cast_sub hk]; ring
  have hE := hS.exponent hF (k := k) (j := (n : ℝ) - k) (by positivity) hkN (by rw [hn]; linarith)
    (by rw [hn]; have : (0 : ℝ) ≤ k := by positivity
        linarith) hs hs0 q3 q4 hw hw0
  have hsum : probSummand p l (Real.exp s) n k =
      Real.exp (k * s + ((n : ℝ) - k) * Real.log (1 - Real.exp s) + w) * n.choose k := by
    unfold probSummand
    rw [Real.exp_add, Real.exp_add, hj, Real.exp_nat_mul, Real.exp_nat_mul, Real.exp_log hq0, hwe]
  have hneg : k * s + ((n : ℝ) - k) * Real.log (1 - Real.exp s) + w ≤ 0 := by
    have h1 : (k : ℝ) * s ≤ 0 := mul_nonpos_of_nonneg_of_nonpos (by positivity) hs1
    have h2 : ((n : ℝ) - k) * Real.log (1 - Real.exp s) ≤ 0 := by
      rw [hj]
      exact mul_nonpos_of_nonneg_of_nonpos (by positivity)
        (Real.log_nonpos hq0.le (by linarith [Real.exp_pos s]))
    linarith
  have hterm : F.probTerm y s' n k w' = F.exp (F.rnd (F.rnd (F.rnd (k * s') +
      F.rnd (((n : ℝ) - k) * F.log (F.rnd (1 - y)))) + w')) := by
    unfold Libm.probTerm
    rw [pyLog_pos q2]
  rw [hsum, hterm]
  refine hS.binom hF hn hk (Real.exp_pos _).le ?_
  have h1 := hF.exp_step hE (by linarith) hneg
  have h2 : 0 < Real.exp (k * s + ((n : ℝ) - k) * Real.log (1 - Real.exp s) + w) := Real.exp_pos _
  have h3 : (2 * (15 * (N ^ 2 * δ)) + 3 * u) * Real.exp (k * s + ((n : ℝ) - k) * Real.log (1 - Real.exp s) + w) ≤
      (31 * (N ^ 2 * δ)) * Real.exp (k * s + ((n : ℝ) - k) * Real.log (1 - Real.exp s) + w) :=
    mul_le_mul_of_nonneg_right (by linarith) h2.le
  linarith

/-- The loop when the probability of the chosen attributes is less than 1. -/
theorem Sizes.loop_lt (hF : F.Accurate u η) (hS : Sizes u η N ℓ δ m) {p : β → ℝ} {l : List β} (hl : l.length ≤ m)
    (hp : ∀ a ∈ l, 0 ≤ p a ∧ p a ≤ 1 - 1 / N) {n : ℕ} (hn : (n : ℝ) = N)
    {s s' y : ℝ} (hs : |s' - s| ≤ δ) (hs0 : |s| ≤ m * ℓ) (hs1 : s ≤ 0) (hy : |y - Real.exp s| ≤ 3 * δ)
    (hq : 1 / N ≤ 1 - Real.exp s) :
    ∀ (ks : List ℕ), (∀ k ∈ ks, k ≤ n) → ∀ ans A d : ℝ, |ans - A| ≤ d → 0 ≤ A →
      A + (ks.map (probSummand p l (Real.exp s) n)).sum ≤ 1 →
      d + (ks.map fun k => 32 * (N ^ 2 * δ) * probSummand p l (Real.exp s) n k + 3 * (N + 1) * η * n.choose k + 3 * u).sum
        ≤ 1 →
      |F.probLoop (fun a => F.rnd (p a)) l y s' n ks ans - (A + (ks.map (probSummand p l (Real.exp s) n)).sum)| ≤
        d + (ks.map fun k =>
          32 * (N ^ 2 * δ) * probSummand p l (Real.exp s) n k + 3 * (N + 1) * η * n.choose k + 3 * u).sum := by
  obtain ⟨a1, a2, a3, a4⟩ := hS.a2 hF
  obtain ⟨b1, b2, b3⟩ := hS.a3 hF
  have hu := hF.upos
  have hη := hF.ηpos
  have hηu := hS.ηu hF
  have hN : 0 < N := by linarith [hS.one_le]
  have hN' : 0 < 1 / N := by positivity
  have hD : 0 ≤ N ^ 2 * δ := by positivity
  have hsn : ∀ k, 0 ≤ probSummand p l (Real.exp s) n k := fun k =>
    summand_nonneg (fun a ha => ⟨(hp a ha).1, by linarith [(hp a ha).2]⟩) (Real.exp_pos s).le (by linarith) n k
  have hen : ∀ k, 0 ≤ 32 * (N ^ 2 * δ) * probSummand p l (Real.exp s) n k + 3 * (N + 1) * η * n.choose k := by
    intro k
    have := hsn k
    positivity
  intro ks
  induction ks with
  | nil => intro _ ans A d hd _ _ _; simpa [Libm.probLoop] using hd
  | cons k ks ih =>
    intro hks ans A d hd hA hsum herr
    have hk := hks k (by simp)
    have ih' := ih fun j hj => hks j (by simp [hj])
    rw [List.map_cons, List.sum_cons] at hsum herr ⊢
    have hd0 : 0 ≤ d := (abs_nonneg _).trans hd
    have hrest : 0 ≤ (ks.map (probSummand p l (Real.exp s) n)).sum :=
      List.sum_nonneg fun x hx => by obtain ⟨j, -, rfl⟩ := List.mem_map.1 hx; exact hsn j
    have hrest' : 0 ≤ (ks.map fun k =>
        32 * (N ^ 2 * δ) * probSummand p l (Real.exp s) n k + 3 * (N + 1) * η * n.choose k + 3 * u).sum :=
      List.sum_nonneg fun x hx => by obtain ⟨j, -, rfl⟩ := List.mem_map.1 hx; linarith [hen j]
    rw [List.map_cons, List.sum_cons]
    by_cases hz : k = 0 ∧ l ≠ []
    · obtain ⟨rfl, hlne⟩ := hz
      have h0 : probSummand p l (Real.exp s) n 0 = 0 := by
        obtain ⟨a, l', rfl⟩ := List.exists_cons_of_ne_nil hlne
        simp [probSummand]
      unfold Libm.probLoop
      rw [hF.probMult_zero _ hlne]
      simp only
      have := hen 0
      rw [h0, zero_add] at hsum ⊢
      rw [h0] at this herr
      exact (ih' ans A d hd hA hsum (by linarith)).trans (by linarith)
    · have hkl : k ≠ 0 ∨ l = [] := by
        by_cases hk0 : k = 0
        · exact Or.inr (not_not.1 fun h => hz ⟨hk0, h⟩)
        · exact Or.inl hk0
      obtain ⟨w, w1, w2⟩ := hS.term hF hl hp hn hk hkl hs hs0 hs1 hy hq
      have hy1 := (hS.q_log hF hy (Real.exp_pos s).le hq).1
      unfold Libm.probLoop
      rw [w1]
      simp only
      rw [if_neg fun h => hy1 h.1]
      obtain ⟨T, hT⟩ : ∃ T, T = F.probBinom n k (F.probTerm y s' n k w) := ⟨_, rfl⟩
      rw [← hT] at w2 ⊢
      have h1 : |ans + T - (A + probSummand p l (Real.exp s) n k)| ≤
          d + (32 * (N ^ 2 * δ) * probSummand p l (Real.exp s) n k + 3 * (N + 1) * η * n.choose k) := by
        rw [show ans + T - (A + probSummand p l (Real.exp s) n k) = (ans - A) + (T - probSummand p l (Real.exp s) n k) by ring]
        exact (abs_add_le _ _).trans (add_le_add hd w2)
      have h2 : |A + probSummand p l (Real.exp s) n k| ≤ 1 := by
        rw [abs_of_nonneg (by linarith [hsn k])]; linarith
      have h3 := hF.step h1 h2
      have h4 : u * (1 + (d + (32 * (N ^ 2 * δ) * probSummand p l (Real.exp s) n k + 3 * (N + 1) * η * n.choose k))) ≤ u * 2 :=
        mul_le_mul_of_nonneg_left (by linarith) hu.le
      rw [← add_assoc A]
      refine (ih' _ (A + probSummand p l (Real.exp s) n k) (d + (32 * (N ^ 2 * δ) * probSummand p l (Real.exp s) n k +
        3 * (N + 1) * η * n.choose k + 3 * u)) (by linarith) (by linarith [hsn k]) (by linarith) (by linarith)).trans ?_
      linarith

/-- The loop when the probability of the chosen attributes is 1. -/
theorem Accurate.loop_one (hF : F.Accurate u η) (p : β → ℝ) {l : List β} {n : ℕ} {w : ℝ}
    (hw : F.probMult p n l = some w) (s' : ℝ) :
    ∀ (ks : List ℕ), (∀ k ∈ ks, k < n) → F.probLoop p l 1 s' n (ks ++ [n]) 0 = F.exp w := by
  intro ks
  induction ks with
  | nil =>
    intro _
    rw [List.nil_append]
    unfold Libm.probLoop
    rw [hw]
    simp
  | cons k ks ih =>
    intro hks
    have hk := hks k (by simp)
    rw [List.cons_append]
    unfold Libm.probLoop
    split
    · exact ih fun j hj => hks j (by simp [hj])
    · rename_i mult _
      rw [if_neg fun h => hk.ne' h.2]
      have ht : F.probTerm 1 s' n k mult = 0 := by
        unfold Libm.probTerm
        rw [sub_self, hF.rnd_zero, pyLog_nonpos (lt_irrefl _)]
      rw [ht, hF.binom_zero, add_zero, hF.rnd_zero]
      exact ih fun j hj => hks j (by simp [hj])

/-- The sum of the logarithms: frequencies 0 are skipped. -/
theorem Sizes.logSubset_eq (hF : F.Accurate u η) (hS : Sizes u η N ℓ δ m) {p : β → ℝ} (l : List β)
    (hp : ∀ a ∈ l, p a ≤ 1 ∧ (p a = 0 ∨ 1 / N ≤ p a)) :
    F.logSubset (fun a => F.rnd (p a)) l =
      (open Classical in l.filter fun a => decide (p a ≠ 0)).foldl (fun s a => F.rnd (s + F.log (F.rnd (p a)))) 0 := by
  have key : ∀ (l : List β) (x : ℝ), (∀ a ∈ l, p a ≤ 1 ∧ (p a = 0 ∨ 1 / N ≤ p a)) →
      l.foldl (fun ans a => match F.pyLog (F.rnd (p a)) with | .ok x => F.rnd (ans + x) | .error _ => ans) x =
      (open Classical in l.filter fun a => decide (p a ≠ 0)).foldl (fun s a => F.rnd (s + F.log (F.rnd (p a)))) x := by
    intro l
    induction l with
    | nil => intro x _; rfl
    | cons a l ih =>
      intro x h
      have ih' := fun x => ih x fun b hb => h b (by simp [hb])
      obtain ⟨h1, h2⟩ := h a (by simp)
      rw [List.foldl_cons]
      by_cases h0 : p a = 0
      · rw [List.filter_cons_of_neg (by simp [h0]), ← ih' x, h0, hF.rnd_zero, pyLog_nonpos (lt_irrefl _)]
      · rw [List.filter_cons_of_pos (by simp [h0]), List.foldl_cons, ← ih',
          pyLog_pos (hS.freq_log hF (h2.resolve_left h0) h1).1]
  exact key l 0 hp

end

end Libm

/-! ### Signs -/

namespace Libm
variable {F : Libm} {u η : ℝ}

theorem Accurate.rnd_nonneg (hF : F.Accurate u η) {x : ℝ} (hx : 0 ≤ x) : 0 ≤ F.rnd x := by
  rw [← hF.rnd_zero]; exact hF.rnd_mono hx

theorem Accurate.intentProb_nonneg (hF : F.Accurate u η) (ord₁ ord₂ : SetOrder β) (p : β → ℝ) (keys : List β) (n : ℕ)
    (B : Finset β) : 0 ≤ F.intentProb ord₁ ord₂ p keys n B := by
  have hbin : ∀ k t, 0 ≤ t → 0 ≤ F.probBinom n k t := by
    intro k
    unfold Libm.probBinom
    generalize (List.range' (n - k + 1) (n + 1 - (n - k + 1))).zip (List.range' 1 (k + 1 - 1)) = l
    induction l with
    | nil => intro t ht; exact ht
    | cons q l ih =>
      intro t ht
      rw [List.foldl_cons]
      exact ih _ (hF.rnd_nonneg (mul_nonneg ht (hF.rnd_nonneg (by positivity))))
  have key : ∀ (notB : List β) (pB logpB : ℝ) (ks : List ℕ) (ans : ℝ), 0 ≤ ans →
      0 ≤ F.probLoop p notB pB logpB n ks ans := by
    intro notB pB logpB ks
    induction ks with
    | nil => intro ans h; exact h
    | cons k ks ih =>
      intro ans h
      unfold Libm.probLoop
      split
      · exact ih ans h
      · split_ifs
        · exact hF.exp_nonneg _
        · refine ih _ (hF.rnd_nonneg (add_nonneg h (hbin k _ ?_)))
          unfold Libm.probTerm
          split
          · exact hF.exp_nonneg _
          · exact le_refl _
  exact key _ _ _ _ _ le_rfl

/-- Rounding a negative number. -/
theorem Accurate.rnd_le (hF : F.Accurate u η) (hu : u ≤ 1 / 10000) (hη : η ≤ u) {x b : ℝ} (hx : x ≤ -b) (hb : 0 ≤ b) :
    F.rnd x ≤ -(b * (9999 / 10000)) + 1 / 10000 := by
  refine (hF.rnd_mono hx).trans ?_
  have h := (abs_le.1 (hF.rnd_near (-b))).2
  rw [abs_neg, abs_of_nonneg hb] at h
  have := mul_le_mul_of_nonneg_right hu hb
  linarith

/-- The logarithm of a number near 1/2. -/
theorem Accurate.log_half (hF : F.Accurate u η) (hu : u ≤ 1 / 10000) (hη : η ≤ u) {x e : ℝ} (h : |x - 1 / 2| ≤ e)
    (he : e ≤ 1 / 100) : 0 < x ∧ |F.log x - -Real.log 2| ≤ 4 * e + 2 / 10000 := by
  obtain ⟨h1, h2⟩ := log_perturb (x := 1 / 2) (y := x) (r := 2 * e) (by norm_num) (by linarith) (by linarith)
  refine ⟨h1, ?_⟩
  have h3 : Real.log (1 / 2) = -Real.log 2 := by rw [one_div, Real.log_inv]
  rw [h3] at h2
  have h4 := hF.log_near x h1
  have h5 := Real.log_two_lt_d9
  have h6 := Real.log_two_gt_d9
  norm_num at h5 h6
  have h7 : |Real.log x| ≤ 1 := by
    have h8 := abs_sub_abs_le_abs_sub (Real.log x) (-Real.log 2)
    rw [abs_neg, abs_of_pos (by linarith : 0 < Real.log 2)] at h8
    linarith
  have h8 := mul_le_mul_of_nonneg_left h7 hF.upos.le
  have h9 := abs_sub_le (F.log x) (Real.log x) (-Real.log 2)
  linarith

/-- With one attribute of relative frequency 1/2 all exponents are below `-0.68 * n`. -/
theorem Accurate.half_exponent (hF : F.Accurate u η) (hu : u ≤ 1 / 10000) (hη : η ≤ u) :
    F.exp (F.rnd (0 + F.log (F.rnd (1 / 2)))) ≠ 1 ∧
    0 < F.rnd (1 - F.exp (F.rnd (0 + F.log (F.rnd (1 / 2))))) ∧
    ∀ k j : ℝ, 0 ≤ k → 0 ≤ j → 1 ≤ k + j →
      F.rnd (F.rnd (F.rnd (k * F.rnd (0 + F.log (F.rnd (1 / 2)))) +
        F.rnd (j * F.log (F.rnd (1 - F.exp (F.rnd (0 + F.log (F.rnd (1 / 2)))))))) + 0) ≤ -(0.68 * (k + j)) := by
  have l1 := Real.log_two_lt_d9
  have l2 := Real.log_two_gt_d9
  norm_num at l1 l2
  have hu0 := hF.upos
  have p1 : |F.rnd (1 / 2) - 1 / 2| ≤ 15 / 100000 := by
    have h := hF.rnd_near (1 / 2)
    rw [abs_of_pos (by norm_num : (0 : ℝ) < 1 / 2)] at h
    linarith
  obtain ⟨-, p2⟩ := hF.log_half hu hη p1 (by norm_num)
  obtain ⟨s, hs⟩ : ∃ s, s = F.rnd (0 + F.log (F.rnd (1 / 2))) := ⟨_, rfl⟩
  have hs' : |s - -Real.log 2| ≤ 11 / 10000 := by
    have h := hF.step (B := 1) (x := 0 + F.log (F.rnd (1 / 2))) (y := -Real.log 2)
      (e := 4 * (15 / 100000) + 2 / 10000) (by rw [zero_add]; exact p2)
      (by rw [abs_neg, abs_of_pos (by linarith)]; linarith)
    rw [← hs] at h
    linarith
  have hhalf : Real.exp (-Real.log 2) = 1 / 2 := by
    rw [Real.exp_neg, Real.exp_log (by norm_num), one_div]
  rw [← hs]
  obtain ⟨y, hy⟩ : ∃ y, y = F.exp s := ⟨_, rfl⟩
  have hy' : |y - 1 / 2| ≤ 14 / 10000 := by
    have h := hF.exp_step hs' (by norm_num) (by linarith)
    rw [hhalf, ← hy] at h
    linarith
  rw [← hy]
  have hz : |F.rnd (1 - y) - 1 / 2| ≤ 17 / 10000 := by
    have h := hF.step (B := 1) (x := 1 - y) (y := 1 / 2) (e := 14 / 10000)
      (by rw [show 1 - y - 1 / 2 = -(y - 1 / 2) by ring, abs_neg]; exact hy')
      (by rw [abs_of_pos (by norm_num)]; norm_num)
    linarith
  obtain ⟨q1, q2⟩ := hF.log_half hu hη hz (by norm_num)
  refine ⟨?_, q1, ?_⟩
  · rintro rfl
    norm_num [abs_le] at hy'
  · intro k j hk hj hkj
    have s1 : k * s ≤ -(686 / 1000 * k) := by
      have := (abs_le.1 hs').2
      nlinarith
    have s2 : j * F.log (F.rnd (1 - y)) ≤ -(686 / 1000 * j) := by
      have := (abs_le.1 q2).2
      nlinarith
    have r1 := hF.rnd_le hu hη s1 (by positivity)
    have r2 := hF.rnd_le hu hη s2 (by positivity)
    have r3 := hF.rnd_le hu hη (x := F.rnd (k * s) + F.rnd (j * F.log (F.rnd (1 - y))))
      (b := 686 / 1000 * (k + j) * (9999 / 10000) - 2 / 10000) (by linarith) (by linarith)
    have r4 := hF.rnd_le hu hη (x := F.rnd (F.rnd (k * s) + F.rnd (j * F.log (F.rnd (1 - y)))) + 0)
      (b := (686 / 1000 * (k + j) * (9999 / 10000) - 2 / 10000) * (9999 / 10000) - 1 / 10000) (by linarith) (by linarith)
    norm_num
    rw [add_zero] at r4
    linarith

end Libm

/-- The exact sum of logarithms. -/
theorem logSubset_sum {p : β → ℝ} (l : List β) (hp : ∀ a ∈ l, 0 ≤ p a) :
    logSubset p l = ((open Classical in l.filter fun a => decide (p a ≠ 0)).map fun a => Real.log (p a)).sum := by
  have key : ∀ (l : List β) (x : ℝ), (∀ a ∈ l, 0 ≤ p a) →
      l.foldl (fun ans a => match pyLog (p a) with | .ok x => ans + x | .error _ => ans) x =
      x + ((open Classical in l.filter fun a => decide (p a ≠ 0)).map fun a => Real.log (p a)).sum := by
    intro l
    induction l with
    | nil => intro x _; simp
    | cons a l ih =>
      intro x h
      have ih' := fun x => ih x fun b hb => h b (by simp [hb])
      rw [List.foldl_cons]
      by_cases h0 : p a = 0
      · rw [List.filter_cons_of_neg (by simp [h0]), ← ih' x, h0, pyLog_nonpos (lt_irrefl _)]
      · rw [List.filter_cons_of_pos (by simp [h0]), List.map_cons, List.sum_cons, ← add_assoc, ← ih',
          pyLog_pos (lt_of_le_of_ne (h a (by simp)) (Ne.symm h0))]
  have := key l 0 hp
  rw [zero_add] at this
  exact this
