/-
Facts about roundings to doubles, and the rounding of CPython as an instance.
-/
import Verif.Model.Rounding
import Mathlib.Tactic.Linarith
import Mathlib.Tactic.FieldSimp
import Mathlib.Tactic.NormNum
import Mathlib.Tactic.Positivity
import Mathlib.Tactic.Ring

set_option linter.unusedSectionVars false

/-! ### Rounding to the nearest integer -/

theorem halfEven_int (n : ℤ) : halfEven n = n := by
  unfold halfEven
  rw [Int.floor_intCast, if_pos (by norm_num)]

theorem halfEven_floor (q : ℚ) : ⌊q⌋ ≤ halfEven q ∧ halfEven q ≤ ⌊q⌋ + 1 := by
  unfold halfEven
  split_ifs <;> omega

theorem halfEven_mono : Monotone halfEven := by
  intro x y h
  have hf := Int.floor_mono h
  rcases hf.lt_or_eq with hlt | heq
  · have := (halfEven_floor x).2
    have := (halfEven_floor y).1
    omega
  · unfold halfEven
    rw [heq]
    have : x - ⌊y⌋ ≤ y - ⌊y⌋ := by linarith
    split_ifs <;> first | omega | (exfalso; linarith)

/-- The distance to the nearest integer is at most one half. -/
theorem halfEven_near (q : ℚ) : |q - halfEven q| ≤ 1 / 2 := by
  have h1 := Int.floor_le q
  have h2 := Int.lt_floor_add_one q
  unfold halfEven
  rw [abs_le]
  split_ifs <;> push_cast <;> constructor <;> linarith

/-! ### Rounding to the nearest double -/

theorem zpow2_pos (e : ℤ) : (0 : ℚ) < 2 ^ e := by positivity

theorem lastPlace_mono {x y : ℚ} (hx : 0 < x) (h : x ≤ y) : lastPlace x ≤ lastPlace y := by
  have := Int.log_mono_right (b := 2) hx h
  unfold lastPlace
  omega

/-- `m * 2 ^ e` in places of `2 ^ f`, `f ≤ e`, is an integer. -/
theorem place_int (m : ℤ) {e f : ℤ} (h : f ≤ e) : ((m : ℚ) * 2 ^ e) / 2 ^ f = ((m * 2 ^ (e - f).toNat : ℤ) : ℚ) := by
  have : (2 : ℚ) ^ e = 2 ^ (e - f).toNat * 2 ^ f := by
    rw [← zpow_natCast, ← zpow_add₀ (by norm_num)]
    congr 1
    omega
  rw [this]
  push_cast
  field_simp

theorem toDoublePos_mono {x y : ℚ} (hx : 0 < x) (h : x ≤ y) : toDoublePos x ≤ toDoublePos y := by
  have hy : 0 < y := lt_of_lt_of_le hx h
  unfold toDoublePos
  rcases (lastPlace_mono hx h).lt_or_eq with hlt | heq
  · have he : lastPlace y = Int.log 2 y - 52 := by unfold lastPlace at *; omega
    have hl : Int.log 2 x < Int.log 2 y := by unfold lastPlace at *; omega
    set p : ℚ := 2 ^ Int.log 2 y with hp
    have hpy : p ≤ y := by
      have := Int.zpow_log_le_self (b := 2) (by norm_num) hy
      simpa [hp] using this
    have hxp : x ≤ p := by
      have := Int.lt_zpow_succ_log_self (b := 2) (by norm_num) x
      refine le_of_lt (lt_of_lt_of_le (by simpa using this) ?_)
      exact zpow_le_zpow_right₀ (by norm_num) (by omega)
    have h1 : (halfEven (x / 2 ^ lastPlace x) : ℚ) * 2 ^ lastPlace x ≤ p := by
      have hint := place_int 1 (e := Int.log 2 y) (f := lastPlace x) (by omega)
      rw [Int.cast_one, one_mul, ← hp] at hint
      have hm : halfEven (x / 2 ^ lastPlace x) ≤ halfEven (p / 2 ^ lastPlace x) :=
        halfEven_mono (by gcongr)
      rw [hint, halfEven_int] at hm
      calc (halfEven (x / 2 ^ lastPlace x) : ℚ) * 2 ^ lastPlace x
          ≤ ((1 * 2 ^ (Int.log 2 y - lastPlace x).toNat : ℤ) : ℚ) * 2 ^ lastPlace x := by
            gcongr
        _ = p := by rw [← hint, div_mul_cancel₀ _ (zpow2_pos _).ne']
    have h2 : p ≤ (halfEven (y / 2 ^ lastPlace y) : ℚ) * 2 ^ lastPlace y := by
      have hint := place_int 1 (e := Int.log 2 y) (f := lastPlace y) (by omega)
      rw [Int.cast_one, one_mul, ← hp] at hint
      have hm : halfEven (p / 2 ^ lastPlace y) ≤ halfEven (y / 2 ^ lastPlace y) :=
        halfEven_mono (by gcongr)
      rw [hint, halfEven_int] at hm
      calc p = ((1 * 2 ^ (Int.log 2 y - lastPlace y).toNat : ℤ) : ℚ) * 2 ^ lastPlace y := by
            rw [← hint, div_mul_cancel₀ _ (zpow2_pos _).ne']
        _ ≤ _ := by gcongr
    exact h1.trans h2
  · rw [heq]
    have hm : halfEven (x / 2 ^ lastPlace y) ≤ halfEven (y / 2 ^ lastPlace y) := halfEven_mono (by gcongr)
    gcongr

theorem toDoublePos_nonneg {x : ℚ} (hx : 0 < x) : 0 ≤ toDoublePos x := by
  unfold toDoublePos
  have : halfEven ((0 : ℤ) : ℚ) ≤ halfEven (x / 2 ^ lastPlace x) := halfEven_mono (by
    rw [Int.cast_zero]; positivity)
  rw [halfEven_int] at this
  have h0 : (0 : ℚ) ≤ halfEven (x / 2 ^ lastPlace x) := by exact_mod_cast this
  positivity

theorem toDouble_mono : Monotone toDouble := by
  intro x y h
  unfold toDouble
  by_cases hx : 0 < x
  · rw [if_pos hx, if_pos (lt_of_lt_of_le hx h)]
    exact toDoublePos_mono hx h
  · rw [if_neg hx]
    by_cases hy : 0 < y
    · rw [if_pos hy]
      have := toDoublePos_nonneg hy
      split_ifs with hx'
      · have := toDoublePos_nonneg (x := -x) (by linarith)
        linarith
      · exact this
    · rw [if_neg hy]
      by_cases hy' : y < 0
      · rw [if_pos hy', if_pos (lt_of_le_of_lt h hy')]
        have := toDoublePos_mono (x := -y) (y := -x) (by linarith) (by linarith)
        linarith
      · rw [if_neg hy']
        split_ifs with hx'
        · have := toDoublePos_nonneg (x := -x) (by linarith)
          linarith
        · exact le_rfl

theorem toDoublePos_exact {m e : ℤ} (h0 : 0 < m) (hm : m < 2 ^ 53) (he : -1074 ≤ e) :
    toDoublePos (m * 2 ^ e) = m * 2 ^ e := by
  have hx : (0 : ℚ) < m * 2 ^ e := by have : (0 : ℚ) < m := by exact_mod_cast h0
                                      positivity
  have hl : Int.log 2 ((m : ℚ) * 2 ^ e) < e + 53 := by
    rw [← Int.lt_zpow_iff_log_lt (by norm_num) hx, zpow_add₀ (by norm_num), mul_comm]
    have : (m : ℚ) < 2 ^ (53 : ℤ) := by
      rw [show (53 : ℤ) = ((53 : ℕ) : ℤ) from rfl, zpow_natCast]; exact_mod_cast hm
    norm_num at this ⊢
    gcongr
  have hp : lastPlace ((m : ℚ) * 2 ^ e) ≤ e := by unfold lastPlace; omega
  unfold toDoublePos
  rw [place_int m hp, halfEven_int, ← place_int m hp, div_mul_cancel₀ _ (zpow2_pos _).ne']

/-- The rounding of CPython: to nearest, ties to even. -/
def Rounding.double : Rounding where
  rnd := toDouble
  mono := toDouble_mono
  exact := by
    intro m e hm he _
    unfold toDouble
    rcases lt_trichotomy m 0 with h | h | h
    · have hneg : (m : ℚ) * 2 ^ e < 0 := by
        have : (m : ℚ) < 0 := by exact_mod_cast h
        have := zpow2_pos e
        nlinarith
      rw [if_neg (by linarith), if_pos hneg]
      have := toDoublePos_exact (m := -m) (e := e) (by omega) (by rw [abs_of_neg h] at hm; exact hm) he
      push_cast at this
      rw [show -((m : ℚ) * 2 ^ e) = -m * 2 ^ e by ring, this]
      ring
    · subst h; simp
    · have hpos : (0 : ℚ) < (m : ℚ) * 2 ^ e := by
        have : (0 : ℚ) < m := by exact_mod_cast h
        positivity
      rw [if_pos hpos]
      exact toDoublePos_exact h (by rw [abs_of_pos h] at hm; exact hm) he

/-! ### Any rounding -/

namespace Rounding

variable (R : Rounding)

theorem rnd_zero : R.rnd 0 = 0 := by
  have := R.exact 0 0 (by norm_num) (by norm_num) (by norm_num)
  simpa using this

theorem rnd_one : R.rnd 1 = 1 := by
  have := R.exact 1 0 (by norm_num) (by norm_num) (by norm_num)
  simpa using this

theorem rnd_nonneg {x : ℚ} (h : 0 ≤ x) : 0 ≤ R.rnd x := by
  have := R.mono h
  rwa [R.rnd_zero] at this

theorem rnd_le_one {x : ℚ} (h : x ≤ 1) : R.rnd x ≤ 1 := by
  have := R.mono h
  rwa [R.rnd_one] at this

/-- `m * 2 ^ e` with `|m| ≤ 2 ^ 53` is exact. -/
theorem exact_le (m e : ℤ) (hm : |m| ≤ 2 ^ 53) (he : -1074 ≤ e) (he' : e ≤ 900) : R.rnd (m * 2 ^ e) = m * 2 ^ e := by
  rcases hm.lt_or_eq with h | h
  · exact R.exact m e h he (by omega)
  · have key : ∀ s : ℤ, |s| < 2 ^ 53 → m = s * 2 ^ 53 → R.rnd (m * 2 ^ e) = m * 2 ^ e := by
      intro s hs hms
      have := R.exact s (53 + e) hs (by omega) (by omega)
      rw [zpow_add₀ (by norm_num), ← mul_assoc] at this
      have hc : (m : ℚ) = s * 2 ^ (53 : ℤ) := by
        rw [hms, show (53 : ℤ) = ((53 : ℕ) : ℤ) from rfl, zpow_natCast]; push_cast; ring
      rwa [hc]
    rcases abs_choice m with h' | h'
    · exact key 1 (by norm_num) (by omega)
    · exact key (-1) (by norm_num) (by omega)

/-- Quotients by powers of two are exact as long as the numerator has 53 binary digits. -/
theorem rnd_dyadic (a : ℤ) (k : ℕ) (ha : |a| ≤ 2 ^ 53) (hk : k ≤ 1074) :
    R.rnd ((a : ℚ) / ((2 ^ k : ℕ) : ℚ)) = (a : ℚ) / ((2 ^ k : ℕ) : ℚ) := by
  have := R.exact_le a (-(k : ℤ)) ha (by omega) (by omega)
  rw [zpow_neg, zpow_natCast, ← div_eq_mul_inv] at this
  push_cast
  exact this

/-- A proper quotient with a denominator up to `2 ^ 53` is not rounded to 1. -/
theorem rnd_lt_one {a n : ℕ} (h : a < n) (hn : n ≤ 2 ^ 53) : R.rnd ((a : ℚ) / n) < 1 := by
  have he := R.exact (2 ^ 53 - 1) (-53) (by norm_num) (by norm_num) (by norm_num)
  have hle : (a : ℚ) / n ≤ ((2 ^ 53 - 1 : ℤ) : ℚ) * 2 ^ (-53 : ℤ) := by
    have hn0 : (0 : ℚ) < n := by exact_mod_cast (by omega : 0 < n)
    rw [div_le_iff₀ hn0, zpow_neg]
    have h1 : (a : ℚ) + 1 ≤ n := by exact_mod_cast h
    have h2 : (n : ℚ) ≤ 9007199254740992 := by norm_num at hn; exact_mod_cast hn
    norm_num
    linarith
  refine lt_of_le_of_lt (R.mono hle) ?_
  rw [he]
  norm_num

/-- A quotient that is not tiny is not rounded to 0. -/
theorem rnd_pos {x : ℚ} (h : (2 : ℚ) ^ (-1074 : ℤ) ≤ x) : 0 < R.rnd x := by
  have he := R.exact 1 (-1074) (by norm_num) (by norm_num) (by norm_num)
  rw [Int.cast_one, one_mul] at he
  refine lt_of_lt_of_le ?_ (R.mono h)
  rw [he]
  positivity

/-- Different quotients with the same denominator stay different. -/
theorem rnd_strict {a b n : ℕ} (h : a < b) (hb : b ≤ 2 ^ 51) (hn : 0 < n) (hn' : n ≤ 2 ^ 64) :
    R.rnd ((a : ℚ) / n) < R.rnd ((b : ℚ) / n) := by
  have hn0 : (0 : ℚ) < n := by exact_mod_cast hn
  set e : ℤ := Int.log 2 (1 / (2 * n) : ℚ) with he
  have hpos : (0 : ℚ) < 1 / (2 * n) := by positivity
  have e1 : (2 : ℚ) ^ e ≤ 1 / (2 * n) := by
    have := Int.zpow_log_le_self (b := 2) (by norm_num) hpos
    simpa [he] using this
  have e2 : 1 / (2 * n) < (2 : ℚ) ^ (e + 1) := by
    have := Int.lt_zpow_succ_log_self (b := 2) (by norm_num) (1 / (2 * n) : ℚ)
    simpa [he] using this
  rw [zpow_add₀ (by norm_num), zpow_one] at e2
  have he1 : -65 ≤ e := by
    rw [he, ← Int.zpow_le_iff_le_log (by norm_num) hpos]
    rw [zpow_neg, le_div_iff₀ (by positivity)]
    rw [show (65 : ℤ) = ((65 : ℕ) : ℤ) from rfl, zpow_natCast]
    rw [inv_mul_le_iff₀ (by positivity), mul_one]
    have : (n : ℚ) ≤ 2 ^ 64 := by exact_mod_cast hn'
    push_cast
    calc (2 : ℚ) * n ≤ 2 * 2 ^ 64 := by linarith
      _ = 2 ^ 65 := by rw [← pow_succ']
  have he2 : e ≤ 0 := by
    by_contra hc
    have : (2 : ℚ) ^ (0 : ℤ) ≤ 2 ^ e := zpow_le_zpow_right₀ (by norm_num) (by omega)
    rw [zpow_zero] at this
    have h1 : (1 : ℚ) ≤ 1 / (2 * n) := this.trans e1
    rw [le_div_iff₀ (by positivity)] at h1
    have : (1 : ℚ) ≤ n := by exact_mod_cast hn
    linarith
  set m : ℤ := ⌈(a : ℚ) / n / 2 ^ e⌉ with hm
  have hp := zpow2_pos e
  have m1 : (a : ℚ) / n ≤ m * 2 ^ e := by
    have := Int.le_ceil ((a : ℚ) / n / 2 ^ e)
    rwa [← hm, div_le_iff₀ hp] at this
  have m2 : (m : ℚ) * 2 ^ e < (a : ℚ) / n + 2 ^ e := by
    have := Int.ceil_lt_add_one ((a : ℚ) / n / 2 ^ e)
    rw [← hm, ← sub_lt_iff_lt_add, lt_div_iff₀ hp] at this
    linarith
  have hab : (a : ℚ) / n + 1 / n ≤ (b : ℚ) / n := by
    rw [← add_div]
    have : (a : ℚ) + 1 ≤ b := by exact_mod_cast h
    gcongr
  have hhalf : (1 : ℚ) / n = 2 * (1 / (2 * n)) := by field_simp
  have m3 : ((m + 1 : ℤ) : ℚ) * 2 ^ e ≤ (b : ℚ) / n := by push_cast; linarith
  have m0 : 0 ≤ m := by
    rw [hm]; apply Int.ceil_nonneg; positivity
  have m4 : m + 1 < 2 ^ 53 := by
    have hbn : (b : ℚ) / n < 4 * b * 2 ^ e := by
      have : (b : ℚ) / n = b * (1 / n) := by ring
      rw [this, hhalf]
      have hb0 : (0 : ℚ) < b := by exact_mod_cast (by omega : 0 < b)
      nlinarith
    have h1 : ((m + 1 : ℤ) : ℚ) * 2 ^ e < 4 * b * 2 ^ e := lt_of_le_of_lt m3 hbn
    have h2 : ((m + 1 : ℤ) : ℚ) < 4 * b := lt_of_mul_lt_mul_right h1 hp.le
    have h3 : m + 1 < 4 * (b : ℤ) := by exact_mod_cast h2
    omega
  have x1 := R.exact m e (by rw [abs_of_nonneg m0]; omega) (by omega) (by omega)
  have x2 := R.exact (m + 1) e (by rw [abs_of_nonneg (by omega)]; omega) (by omega) (by omega)
  calc R.rnd ((a : ℚ) / n) ≤ m * 2 ^ e := by rw [← x1]; exact R.mono m1
    _ < ((m + 1 : ℤ) : ℚ) * 2 ^ e := by push_cast; linarith
    _ ≤ R.rnd ((b : ℚ) / n) := by rw [← x2]; exact R.mono m3

/-- If rounding carries `x` up to the positive double `m * 2 ^ e`, then `x` is above the double before it. -/
theorem rnd_reach {x : ℚ} {m e : ℤ} (h0 : 0 < m) (hm : m < 2 ^ 53) (he : -1074 ≤ e) (he' : e ≤ 971)
    (h : (m : ℚ) * 2 ^ e ≤ R.rnd x) : ((m - 1 : ℤ) : ℚ) * 2 ^ e < x := by
  by_contra hc
  have := R.mono (not_lt.1 hc)
  rw [R.exact (m - 1) e (by rw [abs_of_nonneg (by omega)]; omega) he he'] at this
  have hp := zpow2_pos e
  push_cast at this
  linarith

/-- With a double on the right a comparison with the rounded value follows from that with the exact one. -/
theorem le_rnd {x v : ℚ} (hv : R.rnd v = v) (h : v ≤ x) : v ≤ R.rnd x := by
  have := R.mono h
  rwa [hv] at this

end Rounding
