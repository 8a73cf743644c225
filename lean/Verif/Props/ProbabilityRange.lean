/-
Property C165: compute_probability in floating point with a bounded range, where operations can overflow.
-/
import Verif.Lemmas.ProbabilityRange
import Verif.Props.ProbabilityFloat

set_option linter.unusedSectionVars false

variable {α β : Type} [DecidableEq α] [DecidableEq β]

open Spec Ctx Libm

namespace Libm

variable {F : Libm} {u η Ω : ℝ}

/-- Without the early return the loop is a sum. -/
theorem probLoop_snoc (F : Libm) (p : β → ℝ) (l : List β) {y : ℝ} (hy : y ≠ 1) (s' : ℝ) (n : ℕ) (k : ℕ) :
    ∀ (ks : List ℕ) (ans : ℝ), F.probLoop p l y s' n (ks ++ [k]) ans =
      match F.probMult p k l with
      | none => F.probLoop p l y s' n ks ans
      | some w => F.rnd (F.probLoop p l y s' n ks ans + F.probBinom n k (F.probTerm y s' n k w)) := by
  intro ks
  induction ks with
  | nil =>
    intro ans
    rw [List.nil_append]
    simp only [Libm.probLoop]
    cases F.probMult p k l with
    | none => rfl
    | some w => simp only; rw [if_neg fun h => hy h.1]
  | cons j ks ih =>
    intro ans
    rw [List.cons_append]
    rw [Libm.probLoop.eq_2, Libm.probLoop.eq_2]
    cases F.probMult p j l with
    | none => simp only; exact ih ans
    | some w =>
      simp only
      rw [if_neg fun h => hy h.1, if_neg fun h => hy h.1]
      exact ih _

section
variable {N ℓ δ : ℝ} {m : ℕ}

/-- The loop when the probability of the chosen attributes is less than 1. -/
theorem Sizes.loop_agree (hG : (F.extend Ω).Accurate u η) (hS : Sizes u η N ℓ δ m)
    {p : β → ℝ} {l : List β} (hl : l.length ≤ m)
    (hp : ∀ a ∈ l, 0 ≤ p a ∧ p a ≤ 1 - 1 / N) {n : ℕ} (hn : (n : ℝ) = N)
    (hΩ1 : 14 * (N * (((m : ℝ) + 1) * (1 + ℓ))) ≤ Ω) (hΩ2 : 18 * (N * 2 ^ n) ≤ Ω)
    {s s' y : ℝ} (hs : |s' - s| ≤ δ) (hs0 : |s| ≤ m * ℓ) (hs1 : s ≤ 0) (hy : |y - Real.exp s| ≤ 3 * δ)
    (hq : 1 / N ≤ 1 - Real.exp s)
    (hsum : ∀ j ≤ n + 1, ((List.range j).map (probSummand p l (Real.exp s) n)).sum ≤ 1)
    (herr : ∀ j ≤ n + 1, ((List.range j).map fun k =>
      32 * (N ^ 2 * δ) * probSummand p l (Real.exp s) n k + 3 * (N + 1) * η * n.choose k + 3 * u).sum ≤ 1) :
    ∀ j ≤ n + 1, F.probLoop (fun a => (F.extend Ω).rnd (p a)) l y s' n (List.range j) 0 =
      (F.extend Ω).probLoop (fun a => (F.extend Ω).rnd (p a)) l y s' n (List.range j) 0 := by
  obtain ⟨a1, a2, a3, a4⟩ := hS.a2 hG
  obtain ⟨b1, b2, b3⟩ := hS.a3 hG
  have hu := hG.upos
  have hη := hG.ηpos
  have hηu := hS.ηu hG
  have h0 := hS.ℓ0
  have hN1 := hS.one_le
  have hN : 0 < N := by linarith
  have hN' : 0 < 1 / N := by positivity
  have hm0 : (0 : ℝ) ≤ m := by positivity
  have hW : 1 ≤ ((m : ℝ) + 1) * (1 + ℓ) := one_le_mul_of_one_le_of_one_le (by linarith) (by linarith)
  have hNW : 1 * (((m : ℝ) + 1) * (1 + ℓ)) ≤ N * (((m : ℝ) + 1) * (1 + ℓ)) := mul_le_mul_of_nonneg_right hN1 (by linarith)
  obtain ⟨q1, q2, q3, q4⟩ := hS.q_log hG hy (Real.exp_pos s).le hq
  have hq0 : 0 < 1 - Real.exp s := lt_of_lt_of_le hN' hq
  have hp01 : ∀ a ∈ l, 0 ≤ p a ∧ p a ≤ 1 := fun a ha => ⟨(hp a ha).1, by linarith [(hp a ha).2]⟩
  have hnn : ∀ k, 0 ≤ probSummand p l (Real.exp s) n k := fun k =>
    summand_nonneg hp01 (Real.exp_pos s).le (by linarith) n k
  have henn : ∀ k, 0 ≤ 32 * (N ^ 2 * δ) * probSummand p l (Real.exp s) n k + 3 * (N + 1) * η * n.choose k + 3 * u := by
    intro k
    have := hnn k
    positivity
  intro j
  induction j with
  | zero => intro _; rfl
  | succ k ih =>
    intro hj
    have hk : k ≤ n := by omega
    have hkN : (k : ℝ) ≤ N := by rw [← hn]; exact_mod_cast hk
    have ih := ih (by omega)
    rw [List.range_succ, probLoop_snoc F _ _ q1, probLoop_snoc (F.extend Ω) _ _ q1, ih,
      hS.probMult_agree hG (by linarith) (by linarith) l hl hp k hkN]
    by_cases hkl : k ≠ 0 ∨ l = []
    swap
    · push Not at hkl
      rw [hkl.1, hG.probMult_zero _ hkl.2]
    have hloop := hS.loop_lt hG hl hp hn hs hs0 hs1 hy hq (List.range k) (fun i hi => by
      have := List.mem_range.1 hi; omega) 0 0 0 (by simp) le_rfl (by rw [zero_add]; exact hsum k (by omega))
      (by rw [zero_add]; exact herr k (by omega))
    rw [zero_add, zero_add] at hloop
    obtain ⟨w', hw1, hw2⟩ := hS.term hG hl hp hn hk hkl hs hs0 hs1 hy hq
    rw [hw1]
    simp only
    -- the multiplier
    have hpos := fun a ha => hS.mult_log hG (hp a ha).1 (hp a ha).2 (hkl.resolve_right (List.ne_nil_of_mem ha)) hkN
    have hwe := probMult_pos (F := F.extend Ω) (fun a => (F.extend Ω).rnd (p a)) k fun a ha => (hpos a ha).1
    rw [hw1] at hwe
    have hw := hS.mult_sum hG hl hp hkl hkN
    rw [← Option.some.inj hwe] at hw
    obtain ⟨w, hww⟩ : ∃ w, w = (l.map fun a => Real.log (1 - p a ^ k)).sum := ⟨_, rfl⟩
    rw [← hww] at hw
    have hw0 : |w| ≤ m * ℓ := by
      rw [hww]
      refine (abs_sum_le fun a ha => (hpos a ha).2.2).trans ?_
      exact mul_le_mul_of_nonneg_right (by exact_mod_cast hl) hS.ℓ0
    have hwb : |w'| ≤ m * ℓ + 1 := by
      have := abs_sub_abs_le_abs_sub w' w
      linarith
    have hone : ∀ a ∈ l, 0 < 1 - p a ^ k ∧ 1 - p a ^ k ≤ 1 := by
      intro a ha
      have hk0 := hkl.resolve_right (List.ne_nil_of_mem ha)
      have h2 := (hp a ha).2
      have := pow_le_of_le_one (hp a ha).1 (by linarith) hk0
      have := pow_nonneg (hp a ha).1 k
      exact ⟨by linarith, by linarith⟩
    have hw1 : w ≤ 0 := by rw [hww]; exact sum_log_nonpos hone
    -- the summand before the binomial coefficient
    have hj' : ((n : ℝ) - k) = ((n - k : ℕ) : ℝ) := by push_cast [Nat.cast_sub hk]; ring
    have hE := hS.exponent hG (k := k) (j := (n : ℝ) - k) (by positivity) hkN (by rw [hn]; linarith)
      (by rw [hn]; have : (0 : ℝ) ≤ k := by positivity
          linarith) hs hs0 q3 q4 hw hw0
    have hneg : k * s + ((n : ℝ) - k) * Real.log (1 - Real.exp s) + w ≤ 0 := by
      have h1 : (k : ℝ) * s ≤ 0 := mul_nonpos_of_nonneg_of_nonpos (by positivity) hs1
      have h2 : ((n : ℝ) - k) * Real.log (1 - Real.exp s) ≤ 0 := by
        rw [hj']
        exact mul_nonpos_of_nonneg_of_nonpos (by positivity)
          (Real.log_nonpos hq0.le (by linarith [Real.exp_pos s]))
      linarith
    have hterm : (F.extend Ω).probTerm y s' n k w' = (F.extend Ω).exp ((F.extend Ω).rnd ((F.extend Ω).rnd
        ((F.extend Ω).rnd (k * s') + (F.extend Ω).rnd (((n : ℝ) - k) * (F.extend Ω).log ((F.extend Ω).rnd (1 - y)))) + w')) := by
      unfold Libm.probTerm
      rw [pyLog_pos q2]
    have ht : |(F.extend Ω).probTerm y s' n k w' - Real.exp (k * s + ((n : ℝ) - k) * Real.log (1 - Real.exp s) + w)| ≤
        Real.exp (k * s + ((n : ℝ) - k) * Real.log (1 - Real.exp s) + w) * (31 * (N ^ 2 * δ)) + η := by
      rw [hterm]
      have h1 := hG.exp_step hE (by linarith) hneg
      have h2 : 0 < Real.exp (k * s + ((n : ℝ) - k) * Real.log (1 - Real.exp s) + w) := Real.exp_pos _
      have h3 : (2 * (15 * (N ^ 2 * δ)) + 3 * u) * Real.exp (k * s + ((n : ℝ) - k) * Real.log (1 - Real.exp s) + w) ≤
          (31 * (N ^ 2 * δ)) * Real.exp (k * s + ((n : ℝ) - k) * Real.log (1 - Real.exp s) + w) :=
        mul_le_mul_of_nonneg_right (by linarith) h2.le
      linarith
    rw [hS.probTerm_agree hG hΩ1 hn hk hs hs0 hs1 hy hq hwb,
      hS.binom_agree hG hn hk hΩ2 (Real.exp_pos _).le (Real.exp_le_one_iff.2 hneg) ht]
    refine (extend_rnd (F := F) ?_).symm
    -- the sum
    have h1 := hsum k (by omega)
    have h2 := herr k (by omega)
    have h3 : 0 ≤ ((List.range k).map (probSummand p l (Real.exp s) n)).sum :=
      List.sum_nonneg fun x hx => by obtain ⟨i, -, rfl⟩ := List.mem_map.1 hx; exact hnn i
    have h4 := hsum (k + 1) hj
    have h5 := herr (k + 1) hj
    rw [List.range_succ, List.map_append, List.sum_append] at h4 h5
    simp only [List.map_cons, List.map_nil, List.sum_cons, List.sum_nil, add_zero] at h4 h5
    have h6 : 0 ≤ ((List.range k).map fun k =>
        32 * (N ^ 2 * δ) * probSummand p l (Real.exp s) n k + 3 * (N + 1) * η * n.choose k + 3 * u).sum :=
      List.sum_nonneg fun x hx => by obtain ⟨i, -, rfl⟩ := List.mem_map.1 hx; exact henn i
    have h7 := abs_le.1 (hloop.trans h2)
    have h8 := abs_le.1 hw2
    have h9 := hnn k
    rw [abs_le]
    constructor <;> linarith [h7.1, h7.2, h8.1, h8.2]

end

/-- The loop when the probability of the chosen attributes is 1. -/
theorem loop_one_zero (h0 : F.rnd 0 = 0) (p : β → ℝ) {l : List β} {n : ℕ} {w : ℝ}
    (hw : F.probMult p n l = some w) (s' : ℝ) :
    ∀ (ks : List ℕ), (∀ k ∈ ks, k < n) → F.probLoop p l 1 s' n (ks ++ [n]) 0 = F.exp w := by
  have hb : ∀ n k, F.probBinom n k 0 = 0 := by
    intro n k
    unfold Libm.probBinom
    generalize (List.range' (n - k + 1) (n + 1 - (n - k + 1))).zip (List.range' 1 (k + 1 - 1)) = l
    induction l with
    | nil => rfl
    | cons q l ih => rw [List.foldl_cons, zero_mul, h0]; exact ih
  intro ks
  induction ks with
  | nil =>
    intro _
    rw [List.nil_append]
    unfold Libm.probLoop
    rw [hw]
    simp
  | cons k ks ih =>
    intro hks
    have hk := hks k (by simp)
    rw [List.cons_append]
    unfold Libm.probLoop
    split
    · exact ih fun j hj => hks j (by simp [hj])
    · rename_i mult _
      rw [if_neg fun h => hk.ne' h.2]
      have ht : F.probTerm 1 s' n k mult = 0 := by
        unfold Libm.probTerm
        rw [sub_self, h0, pyLog_nonpos (lt_irrefl _)]
      rw [ht, hb, add_zero, h0]
      exact ih fun j hj => hks j (by simp [hj])

/-- The sign of the result needs only the signs of the operations. -/
theorem intentProb_nonneg_sign (hr : ∀ x, 0 ≤ x → 0 ≤ F.rnd x) (he : ∀ x, 0 ≤ F.exp x) (ord₁ ord₂ : SetOrder β) (p : β → ℝ)
    (keys : List β) (n : ℕ) (B : Finset β) : 0 ≤ F.intentProb ord₁ ord₂ p keys n B := by
  have hbin : ∀ k t, 0 ≤ t → 0 ≤ F.probBinom n k t := by
    intro k
    unfold Libm.probBinom
    generalize (List.range' (n - k + 1) (n + 1 - (n - k + 1))).zip (List.range' 1 (k + 1 - 1)) = l
    induction l with
    | nil => intro t ht; exact ht
    | cons q l ih =>
      intro t ht
      rw [List.foldl_cons]
      exact ih _ (hr _ (mul_nonneg ht (hr _ (by positivity))))
  have key : ∀ (notB : List β) (pB logpB : ℝ) (ks : List ℕ) (ans : ℝ), 0 ≤ ans →
      0 ≤ F.probLoop p notB pB logpB n ks ans := by
    intro notB pB logpB ks
    induction ks with
    | nil => intro ans h; exact h
    | cons k ks ih =>
      intro ans h
      unfold Libm.probLoop
      split
      · exact ih ans h
      · split_ifs
        · exact he _
        · refine ih _ (hr _ (add_nonneg h (hbin k _ ?_)))
          unfold Libm.probTerm
          split
          · exact he _
          · exact le_refl _
  exact key _ _ _ _ _ le_rfl

end Libm

section
variable {c : Ctx α β} {F : Libm} {u η Ω : ℝ}

/-- The value for one intent is the one without overflow. -/
theorem intentProb_agree (hG : (F.extend Ω).Accurate u η) (h : c.WFw) (hne : c.objects ≠ []) (ord₁ ord₂ : SetOrder β)
    (hη : η * c.objects.length ≤ u)
    (hs : 33 * (c.objects.length : ℝ) ^ 2 * ((c.attributes.length : ℝ) + 9) ^ 2 * (1 + Real.log c.objects.length) * u +
      3 * ((c.objects.length : ℝ) + 1) * 2 ^ c.objects.length * η ≤ 1)
    (hΩ1 : 14 * (c.objects.length * (((c.attributes.length : ℝ) + 1) * (1 + Real.log c.objects.length))) ≤ Ω)
    (hΩ2 : 18 * ((c.objects.length : ℝ) * 2 ^ c.objects.length) ≤ Ω)
    {A : Finset α} {B : Finset β} (hc : IsConcept c.G c.M c.Inc A B) :
    F.intentProb ord₁ ord₂ (fun a => (F.extend Ω).rnd (c.freq a)) c.attributes c.objects.length B =
      (F.extend Ω).intentProb ord₁ ord₂ (fun a => (F.extend Ω).rnd (c.freq a)) c.attributes c.objects.length B := by
  obtain ⟨n, hn⟩ : ∃ n, n = c.objects.length := ⟨_, rfl⟩
  obtain ⟨m, hm⟩ : ∃ m, m = c.attributes.length := ⟨_, rfl⟩
  have hn0 : n ≠ 0 := by rw [hn]; exact fun h => hne (List.length_eq_zero_iff.1 h)
  rw [← hn] at hη hΩ2
  rw [← hn, ← hm] at hs hΩ1
  rw [← hn]
  obtain ⟨δ, hδ⟩ : ∃ δ, δ = u * (1 + Real.log n) * ((m : ℝ) + 9) ^ 2 := ⟨_, rfl⟩
  have hu := hG.upos
  have hη0 := hG.ηpos
  have hbound : 33 * (n : ℝ) ^ 2 * ((m : ℝ) + 9) ^ 2 * (1 + Real.log n) * u = 33 * ((n : ℝ) ^ 2 * δ) := by
    rw [hδ]; ring
  rw [hbound] at hs
  have hrest : 0 ≤ 3 * ((n : ℝ) + 1) * 2 ^ n * η := by positivity
  have hn1 : (1 : ℝ) ≤ n := by exact_mod_cast Nat.one_le_iff_ne_zero.2 hn0
  have hS : Sizes u η (n : ℝ) (Real.log n) δ m := ⟨hn1, rfl, hη, hδ.symm, by linarith⟩
  have hW : 1 ≤ ((m : ℝ) + 1) * (1 + Real.log n) :=
    one_le_mul_of_one_le_of_one_le (by linarith [(Nat.cast_nonneg m : (0 : ℝ) ≤ m)]) (by linarith [hS.ℓ0])
  have hNW : 1 * (((m : ℝ) + 1) * (1 + Real.log n)) ≤ n * (((m : ℝ) + 1) * (1 + Real.log n)) :=
    mul_le_mul_of_nonneg_right hn1 (by linarith)
  obtain ⟨a1, a2, a3, a4⟩ := hS.a2 hG
  obtain ⟨b1, b2, b3⟩ := hS.a3 hG
  -- the attributes outside of B
  have hBM : B ⊆ c.M := fun m hm => ((hc.1 m).1 hm).1
  have hAG : A ⊆ c.G := fun g hg => ((hc.2 g).1 hg).1
  obtain ⟨l, hl⟩ : ∃ l, l = ord₂.enum (c.attributes.filter fun a => decide (a ∉ B)).toFinset := ⟨_, rfl⟩
  have hmem : ∀ a, a ∈ l ↔ a ∈ c.attributes ∧ a ∉ B := by intro a; rw [hl]; simp
  have hnd : l.Nodup := by rw [hl]; exact ord₂.nodup _
  have hlm : l.length ≤ m := by
    rw [hm]
    exact (hnd.subperm fun a ha => ((hmem a).1 ha).1).length_le
  have hlp : ∀ a ∈ l, 0 ≤ c.freq a ∧ c.freq a ≤ 1 - 1 / (n : ℝ) := by
    intro a ha
    obtain ⟨ha1, ha2⟩ := (hmem a).1 ha
    refine ⟨(freq_bounds hne a).1, ?_⟩
    rw [hn]
    refine (freq_gap hne a).2 fun h1 => ha2 ?_
    exact (hc.1 a).2 ⟨List.mem_toFinset.2 ha1, fun g hg => freq_one h hne h1 g (List.mem_toFinset.1 (hAG hg))⟩
  have hN' : 0 < 1 / (n : ℝ) := by positivity
  have hlp' : ∀ a ∈ l, 0 ≤ c.freq a ∧ c.freq a < 1 := fun a ha => ⟨(hlp a ha).1, by linarith [(hlp a ha).2]⟩
  -- the chosen attributes
  obtain ⟨b, hb⟩ : ∃ b : List β, b = (open Classical in (ord₁.enum B).filter fun a => decide (c.freq a ≠ 0)) := ⟨_, rfl⟩
  have hbp : ∀ a ∈ b, 1 / (n : ℝ) ≤ c.freq a ∧ c.freq a ≤ 1 := by
    intro a ha
    rw [hb] at ha
    have h0 : c.freq a ≠ 0 := by simpa using (List.mem_filter.1 ha).2
    rw [hn]
    exact ⟨(freq_gap hne a).1.resolve_left h0, (freq_bounds hne a).2⟩
  have hBm : (ord₁.enum B).length ≤ m := by
    rw [hm]
    refine (List.Subperm.length_le ((ord₁.nodup B).subperm fun a ha => ?_))
    have : a ∈ B := by simpa using ha
    exact List.mem_toFinset.1 (hBM this)
  have hbm : b.length ≤ m := by
    refine le_trans ?_ hBm
    rw [hb]
    exact List.length_filter_le _ _
  have hpe : ∀ a ∈ ord₁.enum B, c.freq a ≤ 1 ∧ (c.freq a = 0 ∨ 1 / (n : ℝ) ≤ c.freq a) := fun a _ =>
    ⟨(freq_bounds hne a).2, by rw [hn]; exact (freq_gap hne a).1⟩
  obtain ⟨s, hsd⟩ : ∃ s, s = (b.map fun a => Real.log (c.freq a)).sum := ⟨_, rfl⟩
  obtain ⟨s', hsd'⟩ : ∃ s', s' = b.foldl (fun s a => (F.extend Ω).rnd (s + (F.extend Ω).log ((F.extend Ω).rnd (c.freq a)))) 0 :=
    ⟨_, rfl⟩
  have e2 : (F.extend Ω).logSubset (fun a => (F.extend Ω).rnd (c.freq a)) (ord₁.enum B) = s' := by
    rw [hsd', hb]
    exact hS.logSubset_eq hG _ hpe
  have e3 : F.logSubset (fun a => (F.extend Ω).rnd (c.freq a)) (ord₁.enum B) = s' := by
    rw [hS.logSubset_agree hG (by linarith) _ hBm hpe, e2]
  have hb0 : B.card = 0 → b = [] := by
    intro h0
    rw [hb]
    refine List.eq_nil_iff_forall_not_mem.2 fun a ha => ?_
    have : a ∈ B := by simpa using (List.mem_filter.1 ha).1
    rw [Finset.card_eq_zero.1 h0] at this
    simp at this
  have hs1 : s ≤ 0 := by
    rw [hsd]
    exact sum_log_nonpos fun a ha => ⟨lt_of_lt_of_le hN' (hbp a ha).1, (hbp a ha).2⟩
  have hfloat : ∀ H : Libm, H.exp = F.exp → H.logSubset (fun a => (F.extend Ω).rnd (c.freq a)) (ord₁.enum B) = s' →
      H.intentProb ord₁ ord₂ (fun a => (F.extend Ω).rnd (c.freq a)) c.attributes n B =
        H.probLoop (fun a => (F.extend Ω).rnd (c.freq a)) l (F.exp s') s' n (List.range (n + 1)) 0 := by
    intro H hH e2
    unfold Libm.intentProb
    simp only [← hl, e2, hH]
    have h2 : (if B.card = 0 then 1 else F.exp s') = F.exp s' := by
      split_ifs with h0
      · rw [hsd', hb0 h0, List.foldl_nil]
        exact hG.exp_zero.symm
      · rfl
    have h3 : (if B.card = 0 then 0 else s') = s' := by
      split_ifs with h0
      · rw [hsd', hb0 h0, List.foldl_nil]
      · rfl
    rw [h2, h3]
  rw [hfloat F rfl e3, hfloat (F.extend Ω) rfl e2]
  have hlog := hS.log_sum hG hbm hbp
  rw [← hsd, ← hsd'] at hlog
  by_cases hall : ∀ a ∈ b, c.freq a = 1
  · have hs0' : s' = 0 := by
      rw [hsd']
      clear hsd hsd' hbp hbm hb0 hb
      induction b with
      | nil => rfl
      | cons a b ih =>
        rw [List.foldl_cons, hall a (by simp), hG.rnd_one, hG.log_one, add_zero, hG.rnd_zero]
        exact ih fun x hx => hall x (by simp [hx])
    have hpos := fun a ha => hS.mult_log hG (hlp a ha).1 (hlp a ha).2 hn0 (le_refl (n : ℝ))
    have hmult := probMult_pos (F := F.extend Ω) (fun a => (F.extend Ω).rnd (c.freq a)) n fun a ha => (hpos a ha).1
    have hmultF := (hS.probMult_agree hG (by linarith) (by linarith) l hlm hlp n le_rfl).trans hmult
    have hz : F.rnd 0 = 0 := by
      rw [← extend_rnd (F := F) (Ω := Ω) (by rw [abs_zero]; linarith)]
      exact hG.rnd_zero
    have hexp : F.exp 0 = 1 := hG.exp_zero
    rw [hs0', hexp, List.range_succ, loop_one_zero hz _ hmultF _ _ (fun k hk => by simpa using hk),
      loop_one_zero hG.rnd_zero _ hmult _ _ (fun k hk => by simpa using hk)]
    rfl
  · push Not at hall
    obtain ⟨a, ha, ha1⟩ := hall
    have hq : 1 / (n : ℝ) ≤ 1 - Real.exp s := by
      have h1 : c.freq a ≤ 1 - 1 / (n : ℝ) := by rw [hn]; exact (freq_gap hne a).2 ha1
      have h2 : Real.exp s ≤ c.freq a := by
        rw [hsd, exp_sum_log fun x hx => lt_of_lt_of_le hN' (hbp x hx).1]
        obtain ⟨b1, b2, rfl⟩ := List.append_of_mem ha
        have hle : ∀ b' : List β, (∀ x ∈ b', x ∈ b1 ++ a :: b2) →
            0 ≤ (b'.map c.freq).prod ∧ (b'.map c.freq).prod ≤ 1 := by
          intro b' hb'
          induction b' with
          | nil => simp
          | cons x b' ih =>
            obtain ⟨i1, i2⟩ := ih fun y hy => hb' y (by simp [hy])
            rw [List.map_cons, List.prod_cons]
            have hx := freq_bounds hne x
            exact ⟨mul_nonneg hx.1 i1, mul_le_one₀ hx.2 i1 i2⟩
        obtain ⟨i1, i2⟩ := hle b1 fun x hx => by simp [hx]
        obtain ⟨j1, j2⟩ := hle b2 fun x hx => by simp [hx]
        rw [List.map_append, List.prod_append, List.map_cons, List.prod_cons]
        have hx := (freq_bounds hne a).1
        have k1 : c.freq a * (b2.map c.freq).prod ≤ c.freq a * 1 := mul_le_mul_of_nonneg_left j2 hx
        have k2 := mul_le_mul_of_nonneg_right i2 (mul_nonneg hx j1)
        linarith
      linarith
    have hs0 : |s| ≤ m * Real.log n := by
      rw [hsd]
      refine (abs_sum_le fun a ha => (hS.freq_log hG (hbp a ha).1 (hbp a ha).2).2.2).trans ?_
      exact mul_le_mul_of_nonneg_right (by exact_mod_cast hbm) hS.ℓ0
    have hy : |F.exp s' - Real.exp s| ≤ 3 * δ := hS.pB_near hG hlog hs1
    have hb1 : ∑ k ∈ Finset.range (n + 1), probSummand c.freq l (Real.exp s) n k ≤ 1 := by
      have e1 : logSubset c.freq (ord₁.enum B) = s := by
        rw [hsd, hb]; exact logSubset_sum _ fun a _ => (freq_bounds hne a).1
      have h1 := intentProb_eq h hne ord₁ ord₂ (p := c.freq) (fun _ _ => rfl) hc
      have h2 := (probClosed_bounds (freq_bounds hne) c.M n B).2
      rw [← hn] at h1
      rw [← h1] at h2
      rw [← probLoop_eq c.freq hlp' (Real.exp_pos s) (Real.exp_le_one_iff.2 hs1), Real.log_exp]
      unfold _root_.intentProb at h2
      simp only [← hl, e1] at h2
      have h3 : (if B.card = 0 then 1 else Real.exp s) = Real.exp s := by
        split_ifs with h0
        · rw [hsd, hb0 h0]; simp
        · rfl
      have h4 : (if B.card = 0 then 0 else s) = s := by
        split_ifs with h0
        · rw [hsd, hb0 h0]; simp
        · rfl
      rw [h3, h4] at h2
      exact h2
    have hp01 : ∀ a ∈ l, 0 ≤ c.freq a ∧ c.freq a ≤ 1 := fun a ha => ⟨(hlp a ha).1, by linarith [(hlp a ha).2]⟩
    have hnn : ∀ k, 0 ≤ probSummand c.freq l (Real.exp s) n k := fun k =>
      summand_nonneg hp01 (Real.exp_pos s).le (by linarith) n k
    have herr : ∑ k ∈ Finset.range (n + 1), (32 * ((n : ℝ) ^ 2 * δ) * probSummand c.freq l (Real.exp s) n k +
        3 * ((n : ℝ) + 1) * η * n.choose k + 3 * u) ≤ 1 := by
      rw [Finset.sum_add_distrib, Finset.sum_add_distrib, ← Finset.mul_sum, ← Finset.mul_sum, Finset.sum_const,
        Finset.card_range, nsmul_eq_mul]
      have h1 : ∑ k ∈ Finset.range (n + 1), (n.choose k : ℝ) = 2 ^ n := by
        exact_mod_cast Nat.sum_range_choose n
      rw [h1]
      have h2 : 32 * ((n : ℝ) ^ 2 * δ) * ∑ k ∈ Finset.range (n + 1), probSummand c.freq l (Real.exp s) n k ≤
          32 * ((n : ℝ) ^ 2 * δ) * 1 := mul_le_mul_of_nonneg_left hb1 (by positivity)
      have h3 : 81 * (n * u) ≤ n * δ := by
        have := mul_le_mul_of_nonneg_left a2 (by linarith : (0 : ℝ) ≤ n); linarith
      have h4 : u * 1 ≤ u * n := mul_le_mul_of_nonneg_left hn1 hu.le
      push_cast
      linarith
    refine hS.loop_agree hG hlm hlp rfl hΩ1 hΩ2 hlog hs0 hs1 hy hq ?_ ?_ (n + 1) le_rfl
    · intro j hj
      refine le_trans ?_ hb1
      exact Finset.sum_le_sum_of_subset_of_nonneg (s := Finset.range j) (Finset.range_mono hj) fun k _ _ => hnn k
    · intro j hj
      refine le_trans ?_ herr
      refine Finset.sum_le_sum_of_subset_of_nonneg (s := Finset.range j) (Finset.range_mono hj) fun k _ _ => ?_
      have := hnn k
      positivity

theorem floatCompute_zero (h0 : F.rnd 0 = 0) (h : c.WFw) (hne : c.objects ≠ []) (ord₁ ord₂ : SetOrder β)
    {L : CLattice α β} (hL : L.context = c) :
    F.computeProbability ord₁ ord₂ L = .ok (L.concepts.map fun x =>
      (x, F.intentProb ord₁ ord₂ (fun a => F.rnd (c.freq a)) c.attributes c.objects.length x.intent)) := by
  have hlen : c.len = c.objects.length := h.nrows
  unfold Libm.computeProbability
  rw [hL, mapM_ok (g := fun a => F.rnd (c.freq a)) fun a ha => floatAttrProb_ok h hne ha, py_ok_bind, hlen]
  have hp : (fun a => ((c.attributes.zip (c.attributes.map fun a => F.rnd (c.freq a))).lookup a).getD 0) =
      fun a => F.rnd (c.freq a) := by
    funext a
    by_cases ha : a ∈ c.attributes
    · rw [lookup_zip_map _ ha]; rfl
    · rw [lookup_zip_map_none _ ha, freq_out ha, h0]; rfl
  rw [hp]

end

/-! ### C165 -/

/-- `C165_error` with a bounded range: rounding is assumed accurate only up to `Ω`, which may be the largest double. -/
theorem C165_range_error {c : Ctx α β} {F : Libm} {u η Ω : ℝ} (hF : F.AccurateTo u η Ω) (h : c.WFw) (hne : c.objects ≠ [])
    (ord₁ ord₂ : SetOrder β) (hη : η * c.objects.length ≤ u)
    (hs : 33 * (c.objects.length : ℝ) ^ 2 * ((c.attributes.length : ℝ) + 9) ^ 2 * (1 + Real.log c.objects.length) * u +
      3 * ((c.objects.length : ℝ) + 1) * 2 ^ c.objects.length * η ≤ 1)
    (hΩ1 : 14 * (c.objects.length * (((c.attributes.length : ℝ) + 1) * (1 + Real.log c.objects.length))) ≤ Ω)
    (hΩ2 : 18 * ((c.objects.length : ℝ) * 2 ^ c.objects.length) ≤ Ω) :
    ∃ L, makeLattice c = .ok L ∧ ∃ v : Concept α β → ℝ, F.computeProbability ord₁ ord₂ L = .ok (L.concepts.map fun x => (x, v x)) ∧
      ∀ x ∈ L.concepts, |v x - probClosed c.freq c.M c.objects.length x.intent| ≤
        33 * (c.objects.length : ℝ) ^ 2 * ((c.attributes.length : ℝ) + 9) ^ 2 * (1 + Real.log c.objects.length) * u +
          3 * ((c.objects.length : ℝ) + 1) * 2 ^ c.objects.length * η := by
  have hn1 : (1 : ℝ) ≤ c.objects.length := by exact_mod_cast List.length_pos_iff.2 hne
  have hΩ : 1 ≤ Ω := by
    have h1 : (1 : ℝ) ≤ 2 ^ c.objects.length := one_le_pow₀ (by norm_num)
    have := one_le_mul_of_one_le_of_one_le hn1 h1
    linarith
  have hG := hF.extend hΩ
  have hp : (fun a => F.rnd (c.freq a)) = fun a => (F.extend Ω).rnd (c.freq a) := by
    funext a
    refine (extend_rnd (F := F) ?_).symm
    rw [abs_of_nonneg (freq_bounds hne a).1]
    exact (freq_bounds hne a).2.trans hΩ
  obtain ⟨L, h1, h2, -, -, h3, -⟩ := makeLattice_ok h
  refine ⟨L, h1, _, floatCompute_zero hF.rnd_zero h hne ord₁ ord₂ h2, fun x hx => ?_⟩
  simp only [hp]
  rw [intentProb_agree hG h hne ord₁ ord₂ hη hs hΩ1 hΩ2 ((h3 x).1 hx)]
  exact floatIntentProb_near hG h hne ord₁ ord₂ hη hs ((h3 x).1 hx)

/-- For double precision with its range and at most 100 objects and 100 attributes the values are correct to `10⁻⁵`. -/
theorem C165_range_hundred {c : Ctx α β} {F : Libm} (hF : F.AccurateTo ((1 / 2) ^ 52) ((1 / 2) ^ 1074) (2 ^ 1023)) (h : c.WFw)
    (hne : c.objects ≠ []) (hn : c.objects.length ≤ 100) (hm : c.attributes.length ≤ 100) (ord₁ ord₂ : SetOrder β) :
    ∃ L, makeLattice c = .ok L ∧ ∃ v : Concept α β → ℝ, F.computeProbability ord₁ ord₂ L = .ok (L.concepts.map fun x => (x, v x)) ∧
      ∀ x ∈ L.concepts, |v x - probClosed c.freq c.M c.objects.length x.intent| ≤ 1 / 100000 := by
  have hN : (c.objects.length : ℝ) ≤ 100 := by exact_mod_cast hn
  have hM : (c.attributes.length : ℝ) ≤ 100 := by exact_mod_cast hm
  have hN1 : (1 : ℝ) ≤ c.objects.length := by exact_mod_cast List.length_pos_iff.2 hne
  have hM0 : (0 : ℝ) ≤ c.attributes.length := by positivity
  have hlog : Real.log c.objects.length ≤ 5 := by
    rw [Real.log_le_iff_le_exp (by linarith)]
    have h1 : Real.exp 5 = Real.exp 1 ^ 5 := by rw [← Real.exp_nat_mul]; norm_num
    have h2 : (2.7 : ℝ) ^ 5 ≤ Real.exp 1 ^ 5 := by
      refine pow_le_pow_left₀ (by norm_num) ?_ 5
      have := Real.exp_one_gt_d9
      norm_num at this ⊢
      linarith
    rw [h1]
    refine hN.trans (le_trans ?_ h2)
    norm_num
  have hlog0 : 0 ≤ Real.log c.objects.length := Real.log_nonneg hN1
  have htiny : ((1 : ℝ) / 2) ^ 1074 ≤ (1 / 2) ^ 200 := pow_le_pow_of_le_one (by norm_num) (by norm_num) (by norm_num)
  have hhuge : (2 : ℝ) ^ 200 ≤ 2 ^ 1023 := pow_le_pow_right₀ (by norm_num) (by norm_num)
  have hb : 33 * (c.objects.length : ℝ) ^ 2 * ((c.attributes.length : ℝ) + 9) ^ 2 * (1 + Real.log c.objects.length) *
      (1 / 2) ^ 52 + 3 * ((c.objects.length : ℝ) + 1) * 2 ^ c.objects.length * (1 / 2) ^ 1074 ≤ 1 / 100000 := by
    have h1 : 33 * (c.objects.length : ℝ) ^ 2 * ((c.attributes.length : ℝ) + 9) ^ 2 * (1 + Real.log c.objects.length) *
        (1 / 2) ^ 52 ≤ 33 * (100 : ℝ) ^ 2 * ((100 : ℝ) + 9) ^ 2 * (1 + 5) * (1 / 2) ^ 52 := by
      gcongr
    have h2 : 3 * ((c.objects.length : ℝ) + 1) * 2 ^ c.objects.length * (1 / 2) ^ 1074 ≤
        3 * ((100 : ℝ) + 1) * 2 ^ 100 * (1 / 2) ^ 200 := by
      gcongr
      norm_num
    have h3 : (33 * (100 : ℝ) ^ 2 * ((100 : ℝ) + 9) ^ 2 * (1 + 5) * (1 / 2) ^ 52) +
        3 * ((100 : ℝ) + 1) * 2 ^ 100 * (1 / 2) ^ 200 ≤ 1 / 100000 := by norm_num
    exact (add_le_add h1 h2).trans h3
  have hη : ((1 : ℝ) / 2) ^ 1074 * c.objects.length ≤ (1 / 2) ^ 52 := by
    have h1 : ((1 : ℝ) / 2) ^ 1074 * c.objects.length ≤ (1 / 2) ^ 200 * 100 := by gcongr
    have h2 : ((1 : ℝ) / 2) ^ 200 * 100 ≤ (1 / 2) ^ 52 := by norm_num
    exact h1.trans h2
  have hΩ1 : 14 * (c.objects.length * (((c.attributes.length : ℝ) + 1) * (1 + Real.log c.objects.length))) ≤ 2 ^ 1023 := by
    refine le_trans ?_ hhuge
    have h1 : 14 * (c.objects.length * (((c.attributes.length : ℝ) + 1) * (1 + Real.log c.objects.length))) ≤
        14 * (100 * (((100 : ℝ) + 1) * (1 + 5))) := by gcongr
    refine h1.trans ?_
    norm_num
  have hΩ2 : 18 * ((c.objects.length : ℝ) * 2 ^ c.objects.length) ≤ 2 ^ 1023 := by
    refine le_trans ?_ hhuge
    have h1 : 18 * ((c.objects.length : ℝ) * 2 ^ c.objects.length) ≤ 18 * ((100 : ℝ) * 2 ^ 100) := by
      gcongr
      norm_num
    refine h1.trans ?_
    norm_num
  obtain ⟨L, h1, v, h2, h3⟩ := C165_range_error hF h hne ord₁ ord₂ hη (hb.trans (by norm_num)) hΩ1 hΩ2
  exact ⟨L, h1, v, h2, fun x hx => (h3 x hx).trans hb⟩

/-- For every context with an object, of any size, also if operations overflow, the call returns a value that is not
negative for every concept. -/
theorem C165_range_nonneg {c : Ctx α β} {F : Libm} {u η Ω : ℝ} (hF : F.AccurateTo u η Ω) (h : c.WFw) (hne : c.objects ≠ [])
    (ord₁ ord₂ : SetOrder β) :
    ∃ L, makeLattice c = .ok L ∧ ∃ v : Concept α β → ℝ, F.computeProbability ord₁ ord₂ L = .ok (L.concepts.map fun x => (x, v x)) ∧
      ∀ x ∈ L.concepts, 0 ≤ v x := by
  obtain ⟨L, h1, h2, -⟩ := makeLattice_ok h
  exact ⟨L, h1, _, floatCompute_zero hF.rnd_zero h hne ord₁ ord₂ h2, fun x _ =>
    intentProb_nonneg_sign hF.rnd_nonneg hF.exp_nonneg _ _ _ _ _ _⟩

/-- `Libm.Accurate.half_exponent` with a bounded range. -/
theorem Libm.AccurateTo.half_exponent {F : Libm} {u η Ω n : ℝ} (hF : F.AccurateTo u η Ω) (hu : u ≤ 1 / 10000) (hη : η ≤ u)
    (hn : 1 ≤ n) (hΩ : 13 * n ≤ Ω) :
    F.exp (F.rnd (0 + F.log (F.rnd (1 / 2)))) ≠ 1 ∧
    0 < F.rnd (1 - F.exp (F.rnd (0 + F.log (F.rnd (1 / 2))))) ∧
    ∀ k j : ℝ, 0 ≤ k → 0 ≤ j → 1 ≤ k + j → k + j ≤ n →
      F.rnd (F.rnd (F.rnd (k * F.rnd (0 + F.log (F.rnd (1 / 2)))) +
        F.rnd (j * F.log (F.rnd (1 - F.exp (F.rnd (0 + F.log (F.rnd (1 / 2)))))))) + 0) ≤ -(0.68 * (k + j)) := by
  have hG := hF.extend (by linarith)
  obtain ⟨e1, e2, e3⟩ := hG.half_exponent hu hη
  have hag : ∀ {x}, |x| ≤ Ω → F.rnd x = (F.extend Ω).rnd x := fun hx => (extend_rnd hx).symm
  have l1 := Real.log_two_lt_d9
  have l2 := Real.log_two_gt_d9
  norm_num at l1 l2
  have hu0 := hF.upos
  have r0 : F.rnd (1 / 2) = (F.extend Ω).rnd (1 / 2) := hag (by rw [abs_of_pos (by norm_num)]; linarith)
  have p1 : |(F.extend Ω).rnd (1 / 2) - 1 / 2| ≤ 15 / 100000 := by
    have h := hG.rnd_near (1 / 2)
    rw [abs_of_pos (by norm_num : (0 : ℝ) < 1 / 2)] at h
    linarith
  obtain ⟨-, p2⟩ := hG.log_half hu hη p1 (by norm_num)
  rw [r0]
  change F.exp ((F.extend Ω).rnd (0 + F.log ((F.extend Ω).rnd (1 / 2)))) ≠ 1 at e1
  change 0 < (F.extend Ω).rnd (1 - F.exp ((F.extend Ω).rnd (0 + F.log ((F.extend Ω).rnd (1 / 2))))) at e2
  change ∀ k j : ℝ, 0 ≤ k → 0 ≤ j → 1 ≤ k + j →
      (F.extend Ω).rnd ((F.extend Ω).rnd ((F.extend Ω).rnd (k * (F.extend Ω).rnd (0 + F.log ((F.extend Ω).rnd (1 / 2)))) +
        (F.extend Ω).rnd (j * F.log ((F.extend Ω).rnd (1 - F.exp ((F.extend Ω).rnd (0 + F.log ((F.extend Ω).rnd (1 / 2)))))))) + 0)
        ≤ -(0.68 * (k + j)) at e3
  change |F.log ((F.extend Ω).rnd (1 / 2)) - -Real.log 2| ≤ _ at p2
  have r1 : F.rnd (0 + F.log ((F.extend Ω).rnd (1 / 2))) = (F.extend Ω).rnd (0 + F.log ((F.extend Ω).rnd (1 / 2))) := by
    refine hag ?_
    have := abs_le.1 p2
    rw [zero_add, abs_le]
    constructor <;> linarith [this.1, this.2]
  rw [r1]
  obtain ⟨s, hs⟩ : ∃ s, s = (F.extend Ω).rnd (0 + F.log ((F.extend Ω).rnd (1 / 2))) := ⟨_, rfl⟩
  have hs' : |s - -Real.log 2| ≤ 11 / 10000 := by
    have h := hG.step (B := 1) (x := 0 + F.log ((F.extend Ω).rnd (1 / 2))) (y := -Real.log 2)
      (e := 4 * (15 / 100000) + 2 / 10000) (by rw [zero_add]; exact p2)
      (by rw [abs_neg, abs_of_pos (by linarith)]; linarith)
    rw [← hs] at h
    linarith
  have hhalf : Real.exp (-Real.log 2) = 1 / 2 := by
    rw [Real.exp_neg, Real.exp_log (by norm_num), one_div]
  rw [← hs] at e1 e2 e3 ⊢
  obtain ⟨y, hy⟩ : ∃ y, y = F.exp s := ⟨_, rfl⟩
  have hy' : |y - 1 / 2| ≤ 14 / 10000 := by
    have h := hG.exp_step hs' (by norm_num) (by linarith)
    change |F.exp s - _| ≤ _ at h
    rw [hhalf, ← hy] at h
    linarith
  rw [← hy] at e1 e2 e3 ⊢
  have r2 : F.rnd (1 - y) = (F.extend Ω).rnd (1 - y) := by
    refine hag ?_
    have := abs_le.1 hy'
    rw [abs_le]
    constructor <;> linarith [this.1, this.2]
  rw [r2]
  have hz : |(F.extend Ω).rnd (1 - y) - 1 / 2| ≤ 17 / 10000 := by
    have h := hG.step (B := 1) (x := 1 - y) (y := 1 / 2) (e := 14 / 10000)
      (by rw [show 1 - y - 1 / 2 = -(y - 1 / 2) by ring, abs_neg]; exact hy')
      (by rw [abs_of_pos (by norm_num)]; norm_num)
    linarith
  obtain ⟨-, q2⟩ := hG.log_half hu hη hz (by norm_num)
  change |F.log ((F.extend Ω).rnd (1 - y)) - -Real.log 2| ≤ _ at q2
  obtain ⟨q, hq⟩ : ∃ q, q = F.log ((F.extend Ω).rnd (1 - y)) := ⟨_, rfl⟩
  rw [← hq] at q2 e3 ⊢
  refine ⟨e1, e2, fun k j hk hj hkj hkn => ?_⟩
  have hsb : |s| ≤ 1 := by
    have := abs_le.1 hs'
    rw [abs_le]
    constructor <;> linarith [this.1, this.2]
  have hqb : |q| ≤ 1 := by
    have := abs_le.1 q2
    rw [abs_le]
    constructor <;> linarith [this.1, this.2]
  have k1 : |k * s| ≤ k * 1 := by rw [abs_mul, abs_of_nonneg hk]; exact mul_le_mul_of_nonneg_left hsb hk
  have k2 : |j * q| ≤ j * 1 := by rw [abs_mul, abs_of_nonneg hj]; exact mul_le_mul_of_nonneg_left hqb hj
  have b1 := hG.rnd_abs (by linarith) (by linarith) (k * s)
  have b2 := hG.rnd_abs (by linarith) (by linarith) (j * q)
  have b3 := abs_add_le ((F.extend Ω).rnd (k * s)) ((F.extend Ω).rnd (j * q))
  have b4 := hG.rnd_abs (by linarith) (by linarith) ((F.extend Ω).rnd (k * s) + (F.extend Ω).rnd (j * q))
  rw [hag (x := k * s) (by linarith), hag (x := j * q) (by linarith),
    hag (x := (F.extend Ω).rnd (k * s) + (F.extend Ω).rnd (j * q)) (by linarith),
    hag (x := (F.extend Ω).rnd ((F.extend Ω).rnd (k * s) + (F.extend Ω).rnd (j * q)) + 0) (by rw [add_zero]; linarith)]
  exact e3 k j hk hj hkj

/-- `C165_underflow_violated` with a bounded range: the value 0 instead of 1 is not an effect of overflow. -/
theorem C165_range_underflow_violated {c : Ctx α β} {F : Libm} {u η Ω : ℝ} (hF : F.AccurateTo u η Ω) (hu : u ≤ 1 / 10000)
    (hη : η ≤ u) (hexp : ∀ x, x ≤ -746 → F.exp x = 0) (h : c.WFw) (hn : 1100 ≤ c.objects.length)
    (hΩ : 13 * (c.objects.length : ℝ) ≤ Ω) {a : β} (ha : c.attributes = [a])
    (hfreq : c.freq a = 1 / 2) (ord₁ ord₂ : SetOrder β) :
    ∃ L, makeLattice c = .ok L ∧ ∃ v : Concept α β → ℝ, F.computeProbability ord₁ ord₂ L = .ok (L.concepts.map fun x => (x, v x)) ∧
      ∃ x ∈ L.concepts, x.intent = c.M ∧ v x = 0 ∧ probClosed c.freq c.M c.objects.length x.intent = 1 := by
  have hne : c.objects ≠ [] := fun h0 => by rw [h0] at hn; simp at hn
  have hn' : (1100 : ℝ) ≤ c.objects.length := by exact_mod_cast hn
  obtain ⟨L, h1, h2, -, -, h3, -⟩ := makeLattice_ok h
  refine ⟨L, h1, _, floatCompute_zero hF.rnd_zero h hne ord₁ ord₂ h2, ?_⟩
  have hM : c.M = {a} := by unfold Ctx.M; rw [ha]; rfl
  classical
  refine ⟨⟨c.G.filter fun g => ∀ m ∈ c.M, c.Inc g m, c.M⟩, (h3 _).2 ⟨?_, ?_⟩, rfl, ?_, probClosed_all _ _ _⟩
  · intro m
    simp only [Finset.mem_filter]
    exact ⟨fun hm => ⟨hm, fun g hg => hg.2 m hm⟩, fun hm => hm.1⟩
  · intro g; simp
  · simp only [hM]
    have henum : ord₁.enum ({a} : Finset β) = [a] := by
      have h4 := ord₁.nodup {a}
      have h5 : ∀ x, x ∈ ord₁.enum ({a} : Finset β) ↔ x = a := by intro x; simp
      have h6 : List.Perm (ord₁.enum ({a} : Finset β)) [a] :=
        (List.perm_ext_iff_of_nodup h4 (by simp)).2 fun x => by rw [h5]; simp
      exact List.perm_singleton.1 h6
    have hnot : ord₂.enum (c.attributes.filter fun b => decide (b ∉ ({a} : Finset β))).toFinset = [] := by
      refine List.eq_nil_iff_forall_not_mem.2 fun x hx => ?_
      rw [ha] at hx
      simp at hx
    obtain ⟨e1, e2, e3⟩ := hF.half_exponent hu hη (by linarith) hΩ
    have hpos : 0 < F.rnd (1 / 2) := by
      have h := hF.rnd_near (1 / 2) (by rw [abs_of_pos (by norm_num)]; linarith)
      rw [abs_of_pos (by norm_num : (0 : ℝ) < 1 / 2)] at h
      have := (abs_le.1 h).1
      linarith
    have hlog : F.logSubset (fun b => F.rnd (c.freq b)) [a] = F.rnd (0 + F.log (F.rnd (1 / 2))) := by
      unfold Libm.logSubset
      rw [List.foldl_cons, List.foldl_nil]
      simp only [hfreq, Libm.pyLog_pos hpos]
    unfold Libm.intentProb
    simp only [henum, hnot, hlog, Finset.card_singleton, one_ne_zero, if_false]
    have hb : ∀ n k, F.probBinom n k 0 = 0 := by
      intro n k
      unfold Libm.probBinom
      generalize (List.range' (n - k + 1) (n + 1 - (n - k + 1))).zip (List.range' 1 (k + 1 - 1)) = l
      induction l with
      | nil => rfl
      | cons q l ih => rw [List.foldl_cons, zero_mul, hF.rnd_zero]; exact ih
    have key : ∀ ks : List ℕ, (∀ k ∈ ks, k ≤ c.objects.length) →
        F.probLoop (fun b => F.rnd (c.freq b)) [] (F.exp (F.rnd (0 + F.log (F.rnd (1 / 2)))))
          (F.rnd (0 + F.log (F.rnd (1 / 2)))) c.objects.length ks 0 = 0 := by
      intro ks
      induction ks with
      | nil => intro _; rfl
      | cons k ks ih =>
        intro hks
        have hk := hks k (by simp)
        unfold Libm.probLoop
        have hm : F.probMult (fun b => F.rnd (c.freq b)) k [] = some 0 := rfl
        rw [hm]
        simp only
        rw [if_neg fun h => e1 h.1]
        have ht : F.probTerm (F.exp (F.rnd (0 + F.log (F.rnd (1 / 2))))) (F.rnd (0 + F.log (F.rnd (1 / 2))))
            c.objects.length k 0 = 0 := by
          unfold Libm.probTerm
          rw [Libm.pyLog_pos e2]
          refine hexp _ ?_
          have hk' : (k : ℝ) ≤ c.objects.length := by exact_mod_cast hk
          refine (e3 k (c.objects.length - k) (by positivity) (by linarith) (by linarith) (by linarith)).trans ?_
          norm_num
          linarith
        rw [ht, hb, add_zero, hF.rnd_zero]
        exact ih fun j hj => hks j (by simp [hj])
    exact key _ fun k hk => by simpa [Nat.lt_succ_iff] using hk

/-- The signs of floating-point operations, whatever the size of the numbers. -/
structure Libm.Signs (F : Libm) : Prop where
  rnd_zero : F.rnd 0 = 0
  rnd_nonneg : ∀ x, 0 ≤ x → 0 ≤ F.rnd x
  rnd_nonpos : ∀ x, x ≤ 0 → F.rnd x ≤ 0
  rnd_le_one : ∀ x, x ≤ 1 → F.rnd x ≤ 1
  log_nonpos : ∀ x, 0 < x → x ≤ 1 → F.log x ≤ 0
  exp_nonneg : ∀ x, 0 ≤ F.exp x
  pow_nonneg : ∀ x k, 0 ≤ x → 0 ≤ F.pow x k

/-- `math.exp` is called with arguments that are not positive only, whatever the size of the context: its values on positive
numbers, where it can raise OverflowError, do not matter. -/
theorem C165_exp_arguments {c : Ctx α β} {F : Libm} (hF : F.Signs) (h : c.WFw) (hne : c.objects ≠ [])
    (ord₁ ord₂ : SetOrder β) {e : ℝ → ℝ} (he : ∀ x, x ≤ 0 → e x = F.exp x) :
    ∃ L, makeLattice c = .ok L ∧
      ({ F with exp := e } : Libm).computeProbability ord₁ ord₂ L = F.computeProbability ord₁ ord₂ L := by
  obtain ⟨L, h1, h2, -⟩ := makeLattice_ok h
  refine ⟨L, h1, ?_⟩
  rw [floatCompute_zero hF.rnd_zero h hne ord₁ ord₂ h2,
    floatCompute_zero (F := { F with exp := e }) hF.rnd_zero h hne ord₁ ord₂ h2]
  refine congrArg _ (List.map_congr_left fun x _ => congrArg _ ?_)
  generalize x.intent = B
  obtain ⟨p, hp⟩ : ∃ p : β → ℝ, p = fun a => F.rnd (c.freq a) := ⟨_, rfl⟩
  have hp0 : ∀ a, 0 ≤ p a := fun a => by rw [hp]; exact hF.rnd_nonneg _ (freq_bounds hne a).1
  have hp1 : ∀ a, p a ≤ 1 := fun a => by rw [hp]; exact hF.rnd_le_one _ (freq_bounds hne a).2
  change ({ F with exp := e } : Libm).intentProb ord₁ ord₂ (fun a => F.rnd (c.freq a)) _ _ _ = _
  rw [← hp]
  -- the sum of the logarithms
  have hlog : ∀ (l : List β) (s : ℝ), s ≤ 0 →
      l.foldl (fun ans a => match F.pyLog (p a) with | .ok x => F.rnd (ans + x) | .error _ => ans) s ≤ 0 := by
    intro l
    induction l with
    | nil => intro s hs; exact hs
    | cons a l ih =>
      intro s hs
      rw [List.foldl_cons]
      by_cases ha : 0 < p a
      · rw [Libm.pyLog_pos ha]
        exact ih _ (hF.rnd_nonpos _ (by have := hF.log_nonpos _ ha (hp1 a); linarith))
      · rw [Libm.pyLog_nonpos ha]
        exact ih _ hs
  -- the multiplier
  have hmult : ∀ (k : ℕ) (l : List β) (s w : ℝ), s ≤ 0 →
      l.foldl (fun acc a => match acc with
        | none => none
        | some mult => match F.pyLog (F.rnd (1 - F.pow (p a) k)) with
          | .ok x => some (F.rnd (mult + x))
          | .error _ => none) (some s) = some w → w ≤ 0 := by
    intro k l
    induction l with
    | nil => intro s w hs hw; rw [← Option.some.inj hw]; exact hs
    | cons a l ih =>
      intro s w hs hw
      rw [List.foldl_cons] at hw
      by_cases ha : 0 < F.rnd (1 - F.pow (p a) k)
      · simp only [Libm.pyLog_pos ha] at hw
        refine ih _ w (hF.rnd_nonpos _ ?_) hw
        have := hF.log_nonpos _ ha (hF.rnd_le_one _ (by linarith [hF.pow_nonneg _ k (hp0 a)]))
        linarith
      · simp only [Libm.pyLog_nonpos ha] at hw
        exfalso
        clear ih ha
        induction l with
        | nil => cases hw
        | cons b l ih => rw [List.foldl_cons] at hw; exact ih hw
  have hloop : ∀ (l : List β) (pB s : ℝ) (n : ℕ), 0 ≤ pB → s ≤ 0 → ∀ (ks : List ℕ), (∀ k ∈ ks, k ≤ n) → ∀ ans : ℝ,
      ({ F with exp := e } : Libm).probLoop p l pB s n ks ans = F.probLoop p l pB s n ks ans := by
    intro l pB s n hpB hs ks
    induction ks with
    | nil => intro _ ans; rfl
    | cons k ks ih =>
      intro hks ans
      have hk : (k : ℝ) ≤ n := by exact_mod_cast hks k (by simp)
      have ih := ih fun j hj => hks j (by simp [hj])
      rw [Libm.probLoop.eq_2, Libm.probLoop.eq_2]
      change (match F.probMult p k l with
        | none => ({ F with exp := e } : Libm).probLoop p l pB s n ks ans
        | some mult => open Classical in
          if pB = 1 ∧ n = k then e mult
          else ({ F with exp := e } : Libm).probLoop p l pB s n ks
            (F.rnd (ans + F.probBinom n k (({ F with exp := e } : Libm).probTerm pB s n k mult)))) = _
      cases hw : F.probMult p k l with
      | none => exact ih ans
      | some w =>
        have hw0 := hmult k l 0 w le_rfl hw
        simp only
        split_ifs with hc
        · exact he w hw0
        · rw [ih]
          have ht : ({ F with exp := e } : Libm).probTerm pB s n k w = F.probTerm pB s n k w := by
            unfold Libm.probTerm
            by_cases hq : 0 < F.rnd (1 - pB)
            · rw [Libm.pyLog_pos (F := { F with exp := e }) hq, Libm.pyLog_pos (F := F) hq]
              refine he _ (hF.rnd_nonpos _ (add_nonpos (hF.rnd_nonpos _ (add_nonpos (hF.rnd_nonpos _ ?_) (hF.rnd_nonpos _ ?_))) hw0))
              · exact mul_nonpos_of_nonneg_of_nonpos (by positivity) hs
              · exact mul_nonpos_of_nonneg_of_nonpos (by linarith)
                  (hF.log_nonpos _ hq (hF.rnd_le_one _ (by linarith)))
            · rw [Libm.pyLog_nonpos (F := { F with exp := e }) hq, Libm.pyLog_nonpos (F := F) hq]
          rw [ht]
  have hs : F.logSubset p (ord₁.enum B) ≤ 0 := hlog (ord₁.enum B) 0 le_rfl
  unfold Libm.intentProb
  change ({ F with exp := e } : Libm).probLoop p _ (if B.card = 0 then 1 else e (F.logSubset p (ord₁.enum B)))
    (if B.card = 0 then 0 else F.logSubset p (ord₁.enum B)) _ _ 0 = _
  rw [he _ hs, hloop _ _ _ _ _ _ _ (fun k hk => by simpa [Nat.lt_succ_iff] using hk)]
  · split_ifs
    · exact zero_le_one
    · exact hF.exp_nonneg _
  · split_ifs
    · exact le_rfl
    · exact hs

/-! ### Cases -/

/-- Exact operations except that the rounding saturates at the end of the range. -/
theorem saturate_accurate {u η R : ℝ} (hu : 0 < u) (hη : 0 ≤ η) (hR : 1 ≤ R) :
    (⟨fun x => max (-R) (min R x), Real.log, Real.exp, fun x k => x ^ k⟩ : Libm).AccurateTo u η R := by
  have hid : ∀ x : ℝ, |x| ≤ R → max (-R) (min R x) = x := fun x hx => by
    rw [min_eq_right (abs_le.1 hx).2, max_eq_right (abs_le.1 hx).1]
  refine ⟨hu, hη, ?_, ?_, ?_, ?_, ?_, ?_, Real.log_one, ?_, Real.exp_zero, fun x => (Real.exp_pos x).le, ?_,
    fun x => pow_zero x⟩
  · intro x y hx hy hxy
    show max _ (min _ x) ≤ max _ (min _ y)
    rw [hid x hx, hid y hy]; exact hxy
  · intro x hx
    show |max _ (min _ x) - x| ≤ _
    rw [hid x hx, sub_self, abs_zero]; positivity
  · intro x hx
    exact le_max_of_le_right (le_min (by linarith) hx)
  · exact hid 0 (by rw [abs_zero]; linarith)
  · exact hid 1 (by rw [abs_one]; exact hR)
  · intro x _; simp only [sub_self, abs_zero]; positivity
  · intro x _; simp only [sub_self, abs_zero]; positivity
  · intro x k hx _; simp only [sub_self, abs_zero]; positivity

/-- The library of `C165_range_hundred`; it is not `Accurate`, since the rounding is far off beyond the range. -/
example : (⟨fun x => max (-2 ^ 1023) (min (2 ^ 1023) x), Real.log, Real.exp, fun x k => x ^ k⟩ : Libm).AccurateTo
    ((1 / 2) ^ 52) ((1 / 2) ^ 1074) (2 ^ 1023) :=
  saturate_accurate (by positivity) (by positivity) (one_le_pow₀ (by norm_num))

example : ¬ (⟨fun x => max (-1) (min 1 x), Real.log, Real.exp, fun x k => x ^ k⟩ : Libm).Accurate (1 / 4) (1 / 4) := by
  intro h
  have := h.rnd_near 4
  norm_num [abs_le] at this

/-- A library whose rounding saturates and whose `exp` underflows. -/
theorem saturate_flush_accurate {R : ℝ} (hR : 1 ≤ R) :
    (⟨fun x => max (-R) (min R x), Real.log, fun x => if x ≤ -746 then 0 else Real.exp x, fun x k => x ^ k⟩ : Libm).AccurateTo
      (1 / 10000) (Real.exp (-746)) R := by
  have h1 := saturate_accurate (u := 1 / 10000) (η := Real.exp (-746)) (by norm_num) (Real.exp_pos _).le hR
  have h2 := flush_accurate.1
  exact ⟨h1.upos, h1.ηpos, h1.rnd_mono, h1.rnd_near, h1.rnd_nonneg, h1.rnd_zero, h1.rnd_one, h1.log_near, h1.log_one,
    h2.exp_near, h2.exp_zero, h2.exp_nonneg, h1.pow_near, h1.pow_zero⟩

/-- The value 0 instead of 1, with a range up to `13 * n`. -/
example {h : ℕ} (hh : 550 ≤ h) (ord₁ ord₂ : SetOrder Unit) :
    ∃ L, makeLattice (halfCtx h) = .ok L ∧ ∃ v : Concept ℕ Unit → ℝ,
      (⟨fun x => max (-(13 * ((2 * h : ℕ) : ℝ))) (min (13 * ((2 * h : ℕ) : ℝ)) x), Real.log,
        fun x => if x ≤ -746 then 0 else Real.exp x, fun x k => x ^ k⟩ : Libm).computeProbability
          ord₁ ord₂ L = .ok (L.concepts.map fun x => (x, v x)) ∧
        ∃ x ∈ L.concepts, x.intent = (halfCtx h).M ∧ v x = 0 ∧
          probClosed (halfCtx h).freq (halfCtx h).M (halfCtx h).objects.length x.intent = 1 := by
  have h1 : (1 : ℝ) ≤ ((2 * h : ℕ) : ℝ) := by exact_mod_cast (by omega : 1 ≤ 2 * h)
  exact C165_range_underflow_violated (saturate_flush_accurate (by linarith)) le_rfl flush_accurate.2 (fun x hx => if_pos hx)
    (halfCtx_ok (by omega)).1 (by simp [halfCtx]; omega) (by simp [halfCtx]) rfl (halfCtx_ok (by omega)).2 ord₁ ord₂

/-- The bounds on the range for two objects and two attributes. -/
example : 14 * (((2 : ℕ) : ℝ) * ((((2 : ℕ) : ℝ) + 1) * (1 + Real.log (2 : ℕ)))) ≤ 2 ^ 1023 ∧
    18 * (((2 : ℕ) : ℝ) * 2 ^ 2) ≤ (2 : ℝ) ^ 1023 := by
  have h := Real.log_two_lt_d9
  have h1 : (2 : ℝ) ^ 10 ≤ 2 ^ 1023 := pow_le_pow_right₀ (by norm_num) (by norm_num)
  constructor
  · refine le_trans ?_ h1
    norm_num at h ⊢
    linarith
  · refine le_trans ?_ h1
    norm_num

/-- Signs of the library whose rounding saturates. -/
example {R : ℝ} (hR : 1 ≤ R) :
    (⟨fun x => max (-R) (min R x), Real.log, Real.exp, fun x k => x ^ k⟩ : Libm).Signs where
  rnd_zero := by show max (-R) (min R 0) = 0; rw [min_eq_right (by linarith), max_eq_right (by linarith)]
  rnd_nonneg x hx := le_max_of_le_right (le_min (by linarith) hx)
  rnd_nonpos x hx := max_le (by linarith) (min_le_of_right_le hx)
  rnd_le_one x hx := max_le (by linarith) (min_le_of_right_le hx)
  log_nonpos x h0 h1 := Real.log_nonpos h0.le h1
  exp_nonneg x := (Real.exp_pos x).le
  pow_nonneg x k hx := by show 0 ≤ x ^ k; positivity
