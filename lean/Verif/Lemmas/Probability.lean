/-
Lemmas on the probability of being closed and on the loops of compute_probability.
-/
import Verif.SpecProbability
import Verif.Model.Probability
import Verif.Lemmas.Context
import Mathlib.Data.Nat.Choose.Sum
import Mathlib.Tactic.Ring

set_option linter.unusedSectionVars false

namespace Spec
variable {β : Type} [DecidableEq β]

/-- The rows containing `C` have probability `∏ p`. -/
theorem rowProb_sum (p : β → ℝ) {M C : Finset β} (hC : C ⊆ M) :
    ∑ s ∈ M.powerset, (if C ⊆ s then rowProb p M s else 0) = ∏ m ∈ C, p m := by
  have h := Finset.prod_add p (fun m => if m ∈ C then 0 else 1 - p m) M
  have hl : ∏ m ∈ M, (p m + if m ∈ C then 0 else 1 - p m) = ∏ m ∈ C, p m := by
    rw [← Finset.prod_subset hC]
    · exact Finset.prod_congr rfl fun m hm => by simp [hm]
    · intro m _ hm; simp [hm]
  rw [← hl, h]
  refine Finset.sum_congr rfl fun s hs => ?_
  unfold rowProb
  split_ifs with hCs
  · congr 1
    refine Finset.prod_congr rfl fun m hm => ?_
    rw [if_neg fun hmC => (Finset.mem_sdiff.1 hm).2 (hCs hmC)]
  · obtain ⟨m, hm, hms⟩ := Finset.not_subset.1 hCs
    rw [Finset.prod_eq_zero (i := m) (Finset.mem_sdiff.2 ⟨hC hm, hms⟩) (by simp [hm]), mul_zero]

theorem rowProb_total (p : β → ℝ) (M : Finset β) : ∑ s ∈ M.powerset, rowProb p M s = 1 := by
  have := rowProb_sum p (Finset.empty_subset M)
  simpa using this

/-- Rows in which `B` forces `U`. -/
theorem rowProb_imp (p : β → ℝ) {M B U : Finset β} (hB : B ⊆ M) (hU : U ⊆ M) (hd : Disjoint B U) :
    ∑ s ∈ M.powerset, (if B ⊆ s → U ⊆ s then rowProb p M s else 0) =
      (∏ m ∈ B, p m) * (∏ m ∈ U, p m) + (1 - ∏ m ∈ B, p m) := by
  have h1 := rowProb_sum p (Finset.union_subset hB hU)
  rw [Finset.prod_union hd] at h1
  rw [← h1, ← rowProb_sum p hB, ← rowProb_total p M, ← Finset.sum_sub_distrib, ← Finset.sum_add_distrib]
  refine Finset.sum_congr rfl fun s _ => ?_
  by_cases h2 : B ⊆ s <;> by_cases h3 : U ⊆ s <;> simp [h2, h3, Finset.union_subset_iff]

theorem one_sub_prod (f : β → ℝ) (s : Finset β) :
    ∏ m ∈ s, (1 - f m) = ∑ U ∈ s.powerset, (-1) ^ U.card * ∏ m ∈ U, f m := by
  rw [Finset.prod_sub]
  exact Finset.sum_congr rfl fun U _ => by simp

theorem closed_indicator {n : ℕ} {M B : Finset β} (T : Fin n → Finset β) :
    (if ClosedIn M B T then (1 : ℝ) else 0) =
      ∑ U ∈ (M \ B).powerset, (-1) ^ U.card * (if ∀ g, B ⊆ T g → U ⊆ T g then (1 : ℝ) else 0) := by
  have h := one_sub_prod (fun m => if ∀ g, B ⊆ T g → m ∈ T g then (1 : ℝ) else 0) (M \ B)
  have hl : ∏ m ∈ M \ B, (1 - if ∀ g, B ⊆ T g → m ∈ T g then (1 : ℝ) else 0) = if ClosedIn M B T then (1 : ℝ) else 0 := by
    split_ifs with hc
    · refine Finset.prod_eq_one fun m hm => ?_
      obtain ⟨hm, hmB⟩ := Finset.mem_sdiff.1 hm
      rw [if_neg fun hall => hmB (hc m hm hall), sub_zero]
    · unfold ClosedIn at hc
      push Not at hc
      obtain ⟨m, hm, hall, hmB⟩ := hc
      exact Finset.prod_eq_zero (i := m) (Finset.mem_sdiff.2 ⟨hm, hmB⟩) (by rw [if_pos hall, sub_self])
  rw [← hl, h]
  refine Finset.sum_congr rfl fun U _ => ?_
  congr 1
  split_ifs with hU
  · exact Finset.prod_eq_one fun m hm => by rw [if_pos fun g hg => hU g hg hm]
  · push Not at hU
    obtain ⟨g, hg, hUg⟩ := hU
    obtain ⟨m, hm, hmg⟩ := Finset.not_subset.1 hUg
    exact Finset.prod_eq_zero hm (by rw [if_neg fun hall => hmg (hall g hg)])

/-- The probability of being closed as a sum over the number of rows that contain `B`. -/
theorem probClosed_eq (p : β → ℝ) {M B : Finset β} (n : ℕ) (hB : B ⊆ M) :
    probClosed p M n B = ∑ k ∈ Finset.range (n + 1),
      (∏ m ∈ B, p m) ^ k * (1 - ∏ m ∈ B, p m) ^ (n - k) * (∏ m ∈ M \ B, (1 - p m ^ k)) * (n.choose k) := by
  have h1 : probClosed p M n B = ∑ U ∈ (M \ B).powerset, (-1) ^ U.card *
      ((∏ m ∈ B, p m) * (∏ m ∈ U, p m) + (1 - ∏ m ∈ B, p m)) ^ n := by
    unfold probClosed
    rw [Finset.sum_filter]
    have h2 : ∀ T : Fin n → Finset β, (if ClosedIn M B T then ∏ g, rowProb p M (T g) else 0) =
        ∑ U ∈ (M \ B).powerset, (-1) ^ U.card * ∏ g, (if B ⊆ T g → U ⊆ T g then rowProb p M (T g) else 0) := by
      intro T
      rw [show (if ClosedIn M B T then ∏ g, rowProb p M (T g) else 0) =
        (if ClosedIn M B T then (1 : ℝ) else 0) * ∏ g, rowProb p M (T g) by split_ifs <;> simp, closed_indicator,
        Finset.sum_mul]
      refine Finset.sum_congr rfl fun U _ => ?_
      rw [mul_assoc]; congr 1
      split_ifs with hU
      · rw [one_mul]; exact Finset.prod_congr rfl fun g _ => by rw [if_pos (hU g)]
      · push Not at hU
        obtain ⟨g, hg, hUg⟩ := hU
        rw [zero_mul, Finset.prod_eq_zero (i := g) (Finset.mem_univ _) (by rw [if_neg fun h => hUg (h hg)])]
    rw [Finset.sum_congr rfl fun T _ => h2 T, Finset.sum_comm]
    refine Finset.sum_congr rfl fun U hU => ?_
    rw [← Finset.mul_sum]
    congr 1
    have hUM := Finset.mem_powerset.1 hU
    rw [← Finset.prod_univ_sum (fun _ : Fin n => M.powerset)
      (fun _ s => if B ⊆ s → U ⊆ s then rowProb p M s else 0)]
    rw [Finset.prod_congr rfl fun g _ => rowProb_imp p hB (hUM.trans Finset.sdiff_subset)
      (Finset.disjoint_left.2 fun m hm hmU => (Finset.mem_sdiff.1 (hUM hmU)).2 hm)]
    simp
  rw [h1]
  have h3 : ∀ k ∈ Finset.range (n + 1), (∏ m ∈ B, p m) ^ k * (1 - ∏ m ∈ B, p m) ^ (n - k) *
      (∏ m ∈ M \ B, (1 - p m ^ k)) * (n.choose k) = ∑ U ∈ (M \ B).powerset, (-1) ^ U.card *
        (((∏ m ∈ B, p m) * (∏ m ∈ U, p m)) ^ k * (1 - ∏ m ∈ B, p m) ^ (n - k) * (n.choose k)) := by
    intro k _
    rw [one_sub_prod, Finset.mul_sum, Finset.sum_mul]
    refine Finset.sum_congr rfl fun U _ => ?_
    rw [Finset.prod_pow, mul_pow]; ring
  rw [Finset.sum_congr rfl h3, Finset.sum_comm]
  refine Finset.sum_congr rfl fun U _ => ?_
  rw [← Finset.mul_sum, add_pow]
end Spec

/-! ### The loops -/

theorem pyLog_pos {x : ℝ} (h : 0 < x) : pyLog x = .ok (Real.log x) := by simp [pyLog, h]

theorem pyLog_nonpos {x : ℝ} (h : ¬ 0 < x) : pyLog x = .error .valueError := by simp [pyLog, h]

variable {β : Type} [DecidableEq β]

theorem exp_logSubset (p : β → ℝ) {l : List β} (hp : ∀ a ∈ l, 0 < p a) :
    Real.exp (logSubset p l) = (l.map p).prod := by
  have key : ∀ (l : List β) (x : ℝ), (∀ a ∈ l, 0 < p a) →
      Real.exp (l.foldl (fun ans a => match pyLog (p a) with | .ok x => ans + x | .error _ => ans) x) =
        Real.exp x * (l.map p).prod := by
    intro l
    induction l with
    | nil => intro x _; simp
    | cons a l ih =>
      intro x h
      have ha := h a (by simp)
      rw [List.foldl_cons, pyLog_pos ha]
      show Real.exp (l.foldl _ (x + Real.log (p a))) = _
      rw [ih _ (fun b hb => h b (by simp [hb])), Real.exp_add, Real.exp_log ha, List.map_cons, List.prod_cons, mul_assoc]
  have := key l 0 hp
  rw [Real.exp_zero, one_mul] at this
  exact this

theorem probMult_pos (p : β → ℝ) (k : ℕ) {l : List β} (h : ∀ a ∈ l, 0 < 1 - p a ^ k) :
    ∃ m, probMult p k l = some m ∧ Real.exp m = (l.map fun a => 1 - p a ^ k).prod := by
  have key : ∀ (l : List β) (x : ℝ), (∀ a ∈ l, 0 < 1 - p a ^ k) → ∃ m,
      l.foldl (fun acc a => match acc with
        | none => none
        | some mult => match pyLog (1 - p a ^ k) with | .ok x => some (mult + x) | .error _ => none) (some x) = some m ∧
      Real.exp m = Real.exp x * (l.map fun a => 1 - p a ^ k).prod := by
    intro l
    induction l with
    | nil => intro x _; exact ⟨x, rfl, by simp⟩
    | cons a l ih =>
      intro x h
      have ha := h a (by simp)
      obtain ⟨m, h1, h2⟩ := ih (x + Real.log (1 - p a ^ k)) (fun b hb => h b (by simp [hb]))
      refine ⟨m, ?_, ?_⟩
      · rw [List.foldl_cons]; simp only [pyLog_pos ha]; exact h1
      · rw [h2, Real.exp_add, Real.exp_log ha, List.map_cons, List.prod_cons, mul_assoc]
  obtain ⟨m, h1, h2⟩ := key l 0 h
  exact ⟨m, h1, by simpa using h2⟩

theorem probMult_zero (p : β → ℝ) {l : List β} (h : l ≠ []) : probMult p 0 l = none := by
  obtain ⟨a, l, rfl⟩ := List.exists_cons_of_ne_nil h
  unfold probMult
  rw [List.foldl_cons]
  have h0 : pyLog (1 - p a ^ 0) = .error .valueError := pyLog_nonpos (by simp)
  simp only [h0]
  induction l with
  | nil => rfl
  | cons b l ih => rw [List.foldl_cons]; exact ih (by simp)

theorem probBinom_eq {n k : ℕ} (hk : k ≤ n) (t : ℝ) : probBinom n k t = t * (n.choose k) := by
  have key : ∀ j a t, ((List.range' (a + 1) j).zip (List.range' 1 j)).foldl
      (fun t (q : ℕ × ℕ) => t * ((q.1 : ℝ) / (q.2 : ℝ))) t = t * ((a + j).choose j : ℝ) := by
    intro j a
    induction j with
    | zero => intro t; simp
    | succ j ih =>
      intro t
      rw [List.range'_concat, List.range'_concat, List.zip_append (by simp), List.foldl_append, ih]
      simp only [one_mul, List.zip_cons_cons, List.zip_nil_right, List.foldl_cons, List.foldl_nil]
      have := Nat.add_one_mul_choose_eq (a + j) j
      have hr : ((a + j + 1 : ℕ) : ℝ) * ((a + j).choose j : ℝ) = ((a + j + 1).choose (j + 1) : ℝ) * ((j + 1 : ℕ) : ℝ) := by
        exact_mod_cast this
      have hj : ((j + 1 : ℕ) : ℝ) ≠ 0 := by positivity
      rw [show a + (j + 1) = a + j + 1 by omega, mul_assoc]
      congr 1
      rw [show a + 1 + j = a + j + 1 by omega, show 1 + j = j + 1 by omega, mul_div_assoc', div_eq_iff hj, mul_comm, hr]
  unfold probBinom
  have h1 : n + 1 - (n - k + 1) = k := by omega
  have h2 : k + 1 - 1 = k := by omega
  rw [h1, h2, key k (n - k) t, show n - k + k = n by omega]

/-- The summand for `k`. -/
noncomputable def probSummand (p : β → ℝ) (l : List β) (pB : ℝ) (n k : ℕ) : ℝ :=
  pB ^ k * (1 - pB) ^ (n - k) * (l.map fun a => 1 - p a ^ k).prod * (n.choose k)

theorem probTerm_eq {pB : ℝ} (h0 : 0 < pB) (h1 : pB < 1) {n k : ℕ} (hk : k ≤ n) (mult : ℝ) :
    probTerm pB (Real.log pB) n k mult = pB ^ k * (1 - pB) ^ (n - k) * Real.exp mult := by
  unfold probTerm
  have h2 : 0 < 1 - pB := by linarith
  rw [pyLog_pos h2]
  simp only
  have h3 : ((n : ℝ) - k) = ((n - k : ℕ) : ℝ) := by push_cast [Nat.cast_sub hk]; ring
  rw [h3, Real.exp_add, Real.exp_add, Real.exp_nat_mul, Real.exp_nat_mul, Real.exp_log h0, Real.exp_log h2]

theorem probLoop_lt (p : β → ℝ) {l : List β} (hp : ∀ a ∈ l, 0 ≤ p a ∧ p a < 1) {pB : ℝ} (h0 : 0 < pB) (h1 : pB < 1)
    (n : ℕ) : ∀ (ks : List ℕ) (ans : ℝ), (∀ k ∈ ks, k ≤ n) →
    probLoop p l pB (Real.log pB) n ks ans = ans + (ks.map (probSummand p l pB n)).sum := by
  intro ks
  induction ks with
  | nil => intro ans _; simp [probLoop]
  | cons k ks ih =>
    intro ans hks
    have hk := hks k (by simp)
    have ih' := fun ans => ih ans fun j hj => hks j (by simp [hj])
    unfold probLoop
    by_cases hz : k = 0 ∧ l ≠ []
    · obtain ⟨rfl, hl⟩ := hz
      rw [probMult_zero p hl]
      simp only
      rw [ih']
      have : probSummand p l pB n 0 = 0 := by
        obtain ⟨a, l', rfl⟩ := List.exists_cons_of_ne_nil hl
        simp [probSummand]
      rw [List.map_cons, List.sum_cons, this, zero_add]
    · have hpos : ∀ a ∈ l, 0 < 1 - p a ^ k := by
        intro a ha
        have hk0 : k ≠ 0 := fun h => hz ⟨h, List.ne_nil_of_mem ha⟩
        have := pow_lt_one₀ (hp a ha).1 (hp a ha).2 hk0
        linarith
      obtain ⟨m, e1, e2⟩ := probMult_pos p k hpos
      rw [e1]
      simp only
      rw [if_neg fun h => h1.ne h.1, ih', probTerm_eq h0 h1 hk, e2, probBinom_eq hk, List.map_cons, List.sum_cons,
        ← add_assoc]
      rfl

theorem probLoop_one (p : β → ℝ) {l : List β} (hp : ∀ a ∈ l, 0 ≤ p a ∧ p a < 1) (n : ℕ) (log₁ : ℝ) :
    ∀ (ks : List ℕ), (∀ k ∈ ks, k < n) → probLoop p l 1 log₁ n (ks ++ [n]) 0 = probSummand p l 1 n n := by
  intro ks
  induction ks with
  | nil =>
    intro _
    rw [List.nil_append]
    unfold probLoop
    by_cases hz : n = 0 ∧ l ≠ []
    · obtain ⟨rfl, hl⟩ := hz
      rw [probMult_zero p hl]
      simp only [probLoop]
      obtain ⟨a, l', rfl⟩ := List.exists_cons_of_ne_nil hl
      simp [probSummand]
    · have hpos : ∀ a ∈ l, 0 < 1 - p a ^ n := by
        intro a ha
        have hk0 : n ≠ 0 := fun h => hz ⟨h, List.ne_nil_of_mem ha⟩
        have := pow_lt_one₀ (hp a ha).1 (hp a ha).2 hk0
        linarith
      obtain ⟨m, e1, e2⟩ := probMult_pos p n hpos
      rw [e1]
      simp [e2, probSummand]
  | cons k ks ih =>
    intro hks
    have hk := hks k (by simp)
    rw [List.cons_append]
    unfold probLoop
    split
    · exact ih fun j hj => hks j (by simp [hj])
    · rename_i mult _
      rw [if_neg fun h => hk.ne' h.2]
      have ht : probTerm 1 log₁ n k mult = 0 := by
        unfold probTerm; rw [pyLog_nonpos (by simp)]
      rw [ht, probBinom_eq hk.le, zero_mul, add_zero]
      exact ih fun j hj => hks j (by simp [hj])

theorem probLoop_eq (p : β → ℝ) {l : List β} (hp : ∀ a ∈ l, 0 ≤ p a ∧ p a < 1) {pB : ℝ} (h0 : 0 < pB) (h1 : pB ≤ 1)
    (n : ℕ) : probLoop p l pB (Real.log pB) n (List.range (n + 1)) 0 =
      ∑ k ∈ Finset.range (n + 1), probSummand p l pB n k := by
  rcases h1.lt_or_eq with h1 | rfl
  · rw [probLoop_lt p hp h0 h1 n _ _ (fun k hk => by simpa [Nat.lt_succ_iff] using hk), zero_add]
    rfl
  · rw [List.range_succ, probLoop_one p hp n _ _ (fun k hk => by simpa using hk), Finset.sum_range_succ,
      Finset.sum_eq_zero, zero_add]
    intro k hk
    have hk := Finset.mem_range.1 hk
    unfold probSummand
    rw [sub_self, zero_pow (by omega)]
    simp
