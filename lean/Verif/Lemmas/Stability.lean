/-
The counting loop of stability.py.
-/
import Verif.Model.Stability
import Verif.Lemmas.Lattice
import Mathlib.Algebra.BigOperators.Group.Finset.Basic
import Mathlib.Algebra.BigOperators.Ring.Finset
import Mathlib.Tactic.Ring
import Mathlib.Tactic.Linarith

set_option linter.unusedSectionVars false

variable {α β : Type} [DecidableEq α] [DecidableEq β]

theorem stabRelax_eq (below : Concept α β → Concept α β → Bool) (b : Concept α β)
    (rem : List (Concept α β)) (hn : rem.Nodup) (hb : b ∉ rem) (cnt sub : Concept α β → ℤ)
    (work : Finset (Concept α β)) :
    (∀ c, (stabRelax below b rem (cnt, sub, work)).1 c = if c ∈ rem ∧ below b c = true then cnt c - 1 else cnt c) ∧
    (∀ c, (stabRelax below b rem (cnt, sub, work)).2.1 c =
      if c ∈ rem ∧ below b c = true then sub c - sub b else sub c) ∧
    ∀ c, c ∈ (stabRelax below b rem (cnt, sub, work)).2.2 ↔
      c ∈ work ∨ (c ∈ rem ∧ below b c = true ∧ cnt c - 1 = 0) := by
  induction rem generalizing cnt sub work with
  | nil => simp [stabRelax]
  | cons x rem ih =>
    obtain ⟨hx, hn'⟩ := List.nodup_cons.1 hn
    have hb' : b ∉ rem := fun h => hb (by simp [h])
    have hbx : b ≠ x := fun h => hb (by simp [h])
    by_cases hbel : below b x = true
    · have e : stabRelax below b (x :: rem) (cnt, sub, work) =
          stabRelax below b rem (Function.update cnt x (cnt x - 1), Function.update sub x (sub x - sub b),
            if cnt x - 1 = 0 then insert x work else work) := by
        simp [stabRelax, hbel]
      rw [e]
      obtain ⟨i1, i2, i3⟩ := ih hn' hb' (Function.update cnt x (cnt x - 1))
        (Function.update sub x (sub x - sub b)) (if cnt x - 1 = 0 then insert x work else work)
      refine ⟨fun c => ?_, fun c => ?_, fun c => ?_⟩
      · rw [i1]
        by_cases hc : c = x
        · subst hc; simp [hx, hbel]
        · simp [hc]
      · rw [i2]
        by_cases hc : c = x
        · subst hc; simp [hx, hbel]
        · simp [hc, hbx]
      · rw [i3]
        by_cases hc : c = x
        · subst hc
          by_cases h0 : cnt c - 1 = 0
          · simp [hbel, h0]
          · simp [hx, hbel, h0]
        · by_cases h0 : cnt x - 1 = 0
          · simp [hc, h0]
          · simp [hc, h0]
    · have e : stabRelax below b (x :: rem) (cnt, sub, work) = stabRelax below b rem (cnt, sub, work) := by
        simp [stabRelax, hbel]
      rw [e]
      obtain ⟨i1, i2, i3⟩ := ih hn' hb' cnt sub work
      refine ⟨fun c => ?_, fun c => ?_, fun c => ?_⟩
      · rw [i1]
        by_cases hc : c = x
        · subst hc; simp [hbel]
        · simp [hc]
      · rw [i2]
        by_cases hc : c = x
        · subst hc; simp [hbel]
        · simp [hc]
      · rw [i3]
        by_cases hc : c = x
        · subst hc; simp [hx, hbel]
        · simp [hc]

/-- What is assumed of the order and of the numbers `N` to be computed. -/
structure StabSetup (cs : List (Concept α β)) (below : Concept α β → Concept α β → Bool)
    (size : Concept α β → ℕ) (N : Concept α β → ℤ) : Prop where
  nodup : cs.Nodup
  irrefl : ∀ c ∈ cs, below c c = false
  trans : ∀ a ∈ cs, ∀ b ∈ cs, ∀ c ∈ cs, below a b = true → below b c = true → below a c = true
  sum : ∀ c ∈ cs, (2 : ℤ) ^ size c = N c + ∑ d ∈ cs.toFinset.filter (fun d => below d c = true), N d

/-- State of the loop. -/
structure StabInv (cs : List (Concept α β)) (below : Concept α β → Concept α β → Bool)
    (size : Concept α β → ℕ) (N : Concept α β → ℤ) (rem : List (Concept α β)) (cnt sub : Concept α β → ℤ)
    (work : Finset (Concept α β)) (stab : Concept α β → Option ℚ) : Prop where
  sublist : rem.Sublist cs
  down : ∀ c ∈ cs, c ∉ rem → ∀ d ∈ cs, below d c = true → d ∉ rem
  hsub : ∀ c ∈ rem, sub c =
    2 ^ size c - ∑ d ∈ cs.toFinset.filter (fun d => d ∉ rem ∧ below d c = true), N d
  hcnt : ∀ c ∈ rem, cnt c = ((rem.filter fun d => below d c).length : ℤ)
  hwork : ∀ c, c ∈ work ↔ c ∈ rem ∧ ∀ d ∈ rem, below d c = false
  hstab : ∀ c, stab c = if c ∈ cs ∧ c ∉ rem then some ((N c : ℚ) / 2 ^ size c) else none

theorem filter_erase_length (below : Concept α β → Concept α β → Bool) (rem : List (Concept α β))
    {b : Concept α β} (hb : b ∈ rem) (c : Concept α β) :
    ((rem.filter fun d => below d c).length : ℤ) =
      ((rem.erase b).filter fun d => below d c).length + if below b c = true then 1 else 0 := by
  have hp := List.perm_cons_erase hb
  have := (hp.filter fun d => below d c).length_eq
  rw [this, List.filter_cons]
  split <;> simp

theorem StabInv.step {cs : List (Concept α β)} {below : Concept α β → Concept α β → Bool}
    {size : Concept α β → ℕ} {N : Concept α β → ℤ} (S : StabSetup cs below size N)
    {rem : List (Concept α β)} {cnt sub : Concept α β → ℤ} {work : Finset (Concept α β)}
    {stab : Concept α β → Option ℚ} (h : StabInv cs below size N rem cnt sub work stab)
    {b : Concept α β} (hb : b ∈ work)
    (st : (Concept α β → ℤ) × (Concept α β → ℤ) × Finset (Concept α β))
    (hst : st = stabRelax below b (rem.erase b) (cnt, sub, work.erase b)) :
    StabInv cs below size N (rem.erase b) st.1 st.2.1 st.2.2
      (Function.update stab b (some ((sub b : ℚ) / 2 ^ size b))) := by
  obtain ⟨hbr, hbmin⟩ := (h.hwork b).1 hb
  have hrn : rem.Nodup := h.sublist.nodup S.nodup
  have hsubset : ∀ {c}, c ∈ rem → c ∈ cs := fun hc => h.sublist.subset hc
  have hbcs := hsubset hbr
  have hbe : b ∉ rem.erase b := hrn.not_mem_erase
  have hmem : ∀ c, c ∈ rem.erase b ↔ c ≠ b ∧ c ∈ rem := fun c => hrn.mem_erase_iff
  obtain ⟨r1, r2, r3⟩ := stabRelax_eq below b (rem.erase b) (hrn.erase b) hbe cnt sub (work.erase b)
  rw [← hst] at r1 r2 r3
  have hNb : sub b = N b := by
    rw [h.hsub b hbr, S.sum b hbcs]
    have : cs.toFinset.filter (fun d => d ∉ rem ∧ below d b = true) =
        cs.toFinset.filter (fun d => below d b = true) := by
      apply Finset.filter_congr
      intro d _
      constructor
      · exact fun hd => hd.2
      · intro hd
        refine ⟨fun hdr => ?_, hd⟩
        have := hbmin d hdr
        rw [hd] at this; cases this
    rw [this]; ring
  refine ⟨(List.erase_sublist).trans h.sublist, ?_, ?_, ?_, ?_, ?_⟩
  · intro c hc hcr d hd hdc
    rw [hmem] at hcr ⊢
    by_cases hcb : c = b
    · subst hcb
      intro hdr
      have := hbmin d hdr.2
      rw [hdc] at this; cases this
    · have hcr' : c ∉ rem := fun hx => hcr ⟨hcb, hx⟩
      exact fun hdr => h.down c hc hcr' d hd hdc hdr.2
  · intro c hc
    have hc' := (hmem c).1 hc
    rw [r2, h.hsub c hc'.2]
    have hset : cs.toFinset.filter (fun d => d ∉ rem.erase b ∧ below d c = true) =
        if below b c = true then insert b (cs.toFinset.filter (fun d => d ∉ rem ∧ below d c = true))
        else cs.toFinset.filter (fun d => d ∉ rem ∧ below d c = true) := by
      ext d
      split
      · next hbc =>
        simp only [Finset.mem_filter, Finset.mem_insert, List.mem_toFinset, hmem]
        by_cases hdb : d = b
        · subst hdb; simp [hbcs, hbc]
        · simp [hdb]
      · next hbc =>
        simp only [Finset.mem_filter, List.mem_toFinset, hmem]
        by_cases hdb : d = b
        · subst hdb; simp [hbc]
        · simp [hdb]
    rw [hset]
    by_cases hbc : below b c = true
    · rw [if_pos ⟨hc, hbc⟩, if_pos hbc, Finset.sum_insert (by simp [hbr]), hNb]; ring
    · rw [if_neg (fun hx => hbc hx.2), if_neg hbc]
  · intro c hc
    have hc' := (hmem c).1 hc
    rw [r1, h.hcnt c hc'.2, filter_erase_length below rem hbr c]
    by_cases hbc : below b c = true
    · rw [if_pos ⟨hc, hbc⟩, if_pos hbc]; ring
    · rw [if_neg (fun hx => hbc hx.2), if_neg hbc]; ring
  · intro c
    rw [r3, Finset.mem_erase, h.hwork]
    constructor
    · rintro (⟨hcb, hcr, hmin⟩ | ⟨hcr, hbc, h0⟩)
      · exact ⟨(hmem c).2 ⟨hcb, hcr⟩, fun d hd => hmin d ((hmem d).1 hd).2⟩
      · refine ⟨hcr, fun d hd => ?_⟩
        have hc' := (hmem c).1 hcr
        rw [h.hcnt c hc'.2, filter_erase_length below rem hbr c, if_pos hbc] at h0
        have hz : ((rem.erase b).filter fun d => below d c).length = 0 := by omega
        rw [List.length_eq_zero_iff, List.filter_eq_nil_iff] at hz
        exact Bool.eq_false_iff.2 (hz d hd)
    · rintro ⟨hcr, hmin⟩
      have hc' := (hmem c).1 hcr
      by_cases hbc : below b c = true
      · refine .inr ⟨hcr, hbc, ?_⟩
        rw [h.hcnt c hc'.2, filter_erase_length below rem hbr c, if_pos hbc]
        have hz : (rem.erase b).filter (fun d => below d c) = [] := by
          rw [List.filter_eq_nil_iff]; intro d hd; rw [hmin d hd]; simp
        rw [hz]; simp
      · refine .inl ⟨hc'.1, hc'.2, fun d hd => ?_⟩
        by_cases hdb : d = b
        · subst hdb; exact Bool.eq_false_iff.2 hbc
        · exact hmin d ((hmem d).2 ⟨hdb, hd⟩)
  · intro c
    by_cases hcb : c = b
    · subst hcb
      rw [Function.update_self, if_pos ⟨hbcs, hbe⟩, hNb]
    · rw [Function.update_of_ne hcb, h.hstab]
      simp [hmem, hcb]

theorem stabLoop_ok {cs : List (Concept α β)} {below : Concept α β → Concept α β → Bool}
    {size : Concept α β → ℕ} {N : Concept α β → ℤ} (S : StabSetup cs below size N)
    (ord : ℕ → SetOrder (Concept α β)) (fuel : ℕ)
    {rem : List (Concept α β)} {cnt sub : Concept α β → ℤ} {work : Finset (Concept α β)}
    {stab : Concept α β → Option ℚ} (h : StabInv cs below size N rem cnt sub work stab)
    (hf : rem.length < fuel) :
    ∃ st, stabLoop below size ord fuel rem cnt sub work stab = some (.ok st) ∧
      ∀ c, st c = if c ∈ cs then some ((N c : ℚ) / 2 ^ size c) else none := by
  induction fuel generalizing rem cnt sub work stab with
  | zero => omega
  | succ fuel ih =>
    unfold stabLoop
    by_cases hr : rem = []
    · rw [if_pos hr]
      refine ⟨stab, rfl, fun c => ?_⟩
      rw [h.hstab c, hr]; simp
    · rw [if_neg hr]
      -- a minimal remaining concept
      have hmin : ∃ c ∈ rem, ∀ d ∈ rem, below d c = false := by
        have hP : ∀ n, ∀ c ∈ rem, (rem.filter fun d => below d c).length ≤ n →
            ∃ c ∈ rem, ∀ d ∈ rem, below d c = false := by
          intro n
          induction n with
          | zero =>
            intro c hc hl
            refine ⟨c, hc, fun d hd => ?_⟩
            have hz : (rem.filter fun d => below d c).length = 0 := by omega
            rw [List.length_eq_zero_iff, List.filter_eq_nil_iff] at hz
            exact Bool.eq_false_iff.2 (hz d hd)
          | succ n ihn =>
            intro c hc hl
            by_cases hall : ∀ d ∈ rem, below d c = false
            · exact ⟨c, hc, hall⟩
            · push Not at hall
              obtain ⟨d, hd, hdc⟩ := hall
              have hdc : below d c = true := by simpa using hdc
              apply ihn d hd
              have hsub : (rem.filter fun x => below x d).length < (rem.filter fun x => below x c).length := by
                have hn : rem.Nodup := h.sublist.nodup S.nodup
                rw [← List.toFinset_card_of_nodup (hn.filter _), ← List.toFinset_card_of_nodup (hn.filter _)]
                apply Finset.card_lt_card
                rw [Finset.ssubset_iff_of_subset]
                · refine ⟨d, by simp [hd, hdc], ?_⟩
                  simp [S.irrefl d (h.sublist.subset hd)]
                · intro x hx
                  simp only [List.mem_toFinset, List.mem_filter] at hx ⊢
                  exact ⟨hx.1, S.trans x (h.sublist.subset hx.1) d (h.sublist.subset hd) c
                    (h.sublist.subset hc) hx.2 hdc⟩
              omega
        obtain ⟨c, hc⟩ := List.exists_mem_of_ne_nil rem hr
        exact hP _ c hc le_rfl
      obtain ⟨m, hm, hmm⟩ := hmin
      have hmw : m ∈ (ord fuel).enum work := by rw [(ord fuel).mem, h.hwork]; exact ⟨hm, hmm⟩
      cases hen : (ord fuel).enum work with
      | nil => rw [hen] at hmw; simp at hmw
      | cons b bs =>
        have hb : b ∈ work := by rw [← (ord fuel).mem, hen]; simp
        have hbr := ((h.hwork b).1 hb).1
        simp only [if_pos hbr, Nat.cast_pow, Nat.cast_ofNat]
        apply ih (h.step S hb _ rfl)
        rw [List.length_erase_of_mem hbr]
        have : 0 < rem.length := List.length_pos_of_mem hbr
        omega
