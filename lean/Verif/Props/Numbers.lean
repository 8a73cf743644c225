/-
Properties of fca/algorithms/exploration2/examples/numbers.py: C91, C92.
-/
import Verif.Model.Numbers
import Verif.Props.Exploration2
import Mathlib.Data.Nat.Factorial.Basic
import Mathlib.Data.Nat.Prime.Defs

set_option linter.unusedSectionVars false

open Spec

/-! ### C91: the predicates -/

theorem fmod_eq_zero_iff {n m : ℤ} (hm : 0 < m) : n.fmod m = 0 ↔ m ∣ n := by
  rw [Int.fmod_eq_emod_of_nonneg _ hm.le]
  exact (Int.dvd_iff_emod_eq_zero).symm

theorem numIsPrime_iff (n : ℤ) : numIsPrime n = true ↔ ∀ m : ℤ, 1 < m → m < n → ¬ m ∣ n := by
  unfold numIsPrime
  rw [List.all_eq_true]
  simp only [List.mem_map, List.mem_range, forall_exists_index, and_imp, Bool.not_eq_true', beq_eq_false_iff_ne, ne_eq]
  constructor
  · intro h m h1 h2 hd
    refine h m (n - 1 - m).toNat (by omega) (by omega) ?_
    exact (fmod_eq_zero_iff (by omega)).2 hd
  · rintro h m k hk rfl hz
    exact h _ (by omega) (by omega) ((fmod_eq_zero_iff (by omega)).1 hz)

/-- `is_prime` is right from 2 on. -/
theorem C91_prime_partial (n : ℕ) (hn : 2 ≤ n) : numIsPrime n = true ↔ n.Prime := by
  rw [numIsPrime_iff, Nat.prime_def]
  constructor
  · intro h
    refine ⟨hn, fun m hm => ?_⟩
    by_contra hc
    push Not at hc
    have h0 : 0 < m := Nat.pos_of_dvd_of_pos hm (by omega)
    have hle : m ≤ n := Nat.le_of_dvd (by omega) hm
    exact h m (by omega) (by omega) (Int.natCast_dvd_natCast.2 hm)
  · rintro ⟨-, h⟩ m h1 h2 hd
    obtain ⟨k, rfl⟩ := Int.eq_ofNat_of_zero_le (show 0 ≤ m by omega)
    rcases h k (Int.natCast_dvd_natCast.1 hd) with h3 | h3 <;> omega

/-- Below 2 the answer is always True: 0, 1 and all negative numbers count as prime. -/
theorem C91_prime_violated (n : ℤ) (hn : n < 2) : numIsPrime n = true := by
  rw [numIsPrime_iff]
  intro m h1 h2
  omega

open Classical in
theorem numFactLoop_spec (n : ℕ) : ∀ (k j : ℕ), j + k = n → (∀ i ≤ j, 1 ≤ i → i.factorial < n) → 1 ≤ k →
    numFactLoop n ((List.range k).map fun i => ((j + i : ℕ) : ℤ) + 1) (j.factorial : ℤ) =
      some (decide (∃ i, 1 ≤ i ∧ i ≤ n ∧ i.factorial = n)) := by
  intro k
  induction k with
  | zero => intro j _ _ h; omega
  | succ k ih =>
    intro j hjk hlt _
    rw [List.range_succ_eq_map, List.map_cons, List.map_map]
    unfold numFactLoop
    have hf : ((j.factorial : ℕ) : ℤ) * (((j + 0 : ℕ) : ℤ) + 1) = ((j + 1).factorial : ℕ) := by
      rw [Nat.factorial_succ]; push_cast; ring
    rw [hf]
    split_ifs with h1 h2
    · have h1' : (j + 1).factorial = n := by exact_mod_cast h1
      rw [decide_eq_true (show ∃ i, 1 ≤ i ∧ i ≤ n ∧ i.factorial = n from ⟨j + 1, by omega, by omega, h1'⟩)]
    · have h2' : n < (j + 1).factorial := by exact_mod_cast h2
      rw [decide_eq_false]
      rintro ⟨i, hi1, -, hi⟩
      by_cases hij : i ≤ j
      · exact absurd hi (hlt i hij hi1).ne
      · exact absurd hi (h2'.trans_le (Nat.factorial_le (by omega))).ne'
    · have h1' : (j + 1).factorial ≠ n := by exact_mod_cast h1
      have h2' : (j + 1).factorial ≤ n := by
        have : ¬ (n : ℤ) < ((j + 1).factorial : ℕ) := h2
        exact_mod_cast not_lt.1 this
      have h3 : (j + 1).factorial < n := lt_of_le_of_ne h2' h1'
      have hk : 1 ≤ k := by
        by_contra hk
        have : j + 1 = n := by omega
        exact absurd (Nat.self_le_factorial (j + 1)) (by omega)
      have := ih (j + 1) (by omega) (fun i hi hi1 => by
        rcases Nat.lt_or_ge i (j + 1) with h | h
        · exact hlt i (by omega) hi1
        · rwa [show i = j + 1 by omega]) hk
      rw [← this]
      congr 1
      apply List.map_congr_left
      intro i _
      simp only [Function.comp]
      push_cast; ring

/-- `is_factorial` is right for all numbers; for numbers below 1 the result is `None`. -/
theorem C91_factorial (n : ℤ) : (numIsFactorial n).getD false = true ↔ ∃ k : ℕ, n = (k.factorial : ℤ) := by
  classical
  by_cases hn : 1 ≤ n
  · obtain ⟨m, rfl⟩ := Int.eq_ofNat_of_zero_le (show 0 ≤ n by omega)
    have h := numFactLoop_spec m m 0 (by omega) (fun i hi hi1 => by omega) (by omega)
    have h' : numIsFactorial m = some (decide (∃ i, 1 ≤ i ∧ i ≤ m ∧ i.factorial = m)) := by
      unfold numIsFactorial
      rw [← h]
      simp
    rw [h']
    simp only [Option.getD_some, decide_eq_true_eq]
    constructor
    · rintro ⟨i, -, -, hi⟩; exact ⟨i, by rw [hi]⟩
    · rintro ⟨k, hk⟩
      have hk : m = k.factorial := by exact_mod_cast hk
      cases k with
      | zero => exact ⟨1, by omega, by omega, by rw [hk]; rfl⟩
      | succ k => exact ⟨k + 1, by omega, by rw [hk]; exact Nat.self_le_factorial _, hk.symm⟩
  · have h0 : n.toNat = 0 := by omega
    unfold numIsFactorial
    rw [h0]
    constructor
    · intro h; simp [numFactLoop] at h
    · rintro ⟨k, rfl⟩
      have := Nat.factorial_pos k
      omega

/-- The other three attributes. -/
theorem C91_divisible (n : ℤ) : (NumAttr.even.holds n = true ↔ Even n) ∧ (NumAttr.odd.holds n = true ↔ Odd n) ∧
    (NumAttr.dividedByThree.holds n = true ↔ 3 ∣ n) := by
  refine ⟨?_, ?_, ?_⟩
  · simp only [NumAttr.holds, beq_iff_eq, fmod_eq_zero_iff (show (0 : ℤ) < 2 by omega)]
    exact even_iff_two_dvd.symm
  · simp only [NumAttr.holds, beq_iff_eq, Int.fmod_eq_emod_of_nonneg n (show (0 : ℤ) ≤ 2 by omega)]
    exact Int.odd_iff.symm
  · simp only [NumAttr.holds, beq_iff_eq, fmod_eq_zero_iff (show (0 : ℤ) < 3 by omega)]

example : numIsPrime 7 = true ∧ numIsPrime 9 = false ∧ numIsPrime 1 = true ∧ numIsPrime (-4) = true ∧
    numIsFactorial 6 = some true ∧ numIsFactorial 1 = some true ∧ numIsFactorial 5 = some false ∧
    numIsFactorial 0 = none := by decide +kernel

/-! ### C92: the exploration -/

variable {α β : Type} [DecidableEq α] [DecidableEq β] [PyName α] [PyName β]

open Ctx

namespace Cli

/-- The attributes of `atts` an element of the domain has. -/
def dom (holds : β → α → Bool) (atts : List β) (x : α) : Finset β := (atts.filter fun a => holds a x).toFinset

/-- The implication holds for all elements of the domain. -/
def TrueIn (holds : β → α → Bool) (atts : List β) (P C : Finset β) : Prop :=
  ∀ x, P ⊆ dom holds atts x → C ⊆ dom holds atts x

/-- The answers are right: an implication called valid holds in the domain, a counterexample violates the implication. -/
def Truthful (holds : β → α → Bool) (atts : List β) (ans : ℕ → E2 α β → Imp β → CliAnswer α) : Prop :=
  ∀ k s imp, match ans k s imp with
    | .valid => TrueIn holds atts imp.premise imp.conclusion
    | .counter x => imp.premise ⊆ dom holds atts x ∧ ¬ imp.conclusion ⊆ dom holds atts x

/-- Invariant of the exploration from the first object on. -/
structure CInv (holds : β → α → Bool) (atts : List β) (s : E2 α β) (bg : List (Imp β)) : Prop where
  sess : s.sessions = [bg]
  inv : E2.Inv s
  atts_eq : s.ctx.attributes = atts
  true_bg : ∀ i ∈ bg, TrueIn holds atts i.premise i.conclusion
  obj : ∀ o ∈ s.ctx.objects, ∀ a, s.ctx.Inc o a ↔ a ∈ dom holds atts o

variable {holds : β → α → Bool} {atts : List β} {s : E2 α β} {bg : List (Imp β)}

theorem CInv.cand (h : CInv holds atts s bg) (E : EDB.Env α β) :
    ∃ L, s.candidates E 0 = .ok L ∧ EDB.Inv { E with cond := fun _ => true } ⟨s.ctx, bg, L⟩ ∧
      EDB.Distinct (⟨s.ctx, bg, L⟩ : EDB α β) := by
  obtain ⟨bg', L, h1, -, h3, h4, h5⟩ := h.inv.candidates (E := E) (k := 0) (by rw [h.sess]; rfl)
  rw [h.sess] at h1
  obtain rfl : bg = bg' := Option.some.inj h1
  exact ⟨L, h3, h4, h5⟩

/-- Measure of what is left to do. -/
noncomputable def todo (atts : List β) (s : E2 α β) (bg : List (Imp β)) : ℕ := (EDB.gap atts.toFinset (s.edb bg)).card

theorem CInv.accept (h : CInv holds atts s bg) {E : EDB.Env α β} {x : Imp β} {L : List (Imp β)}
    (hL : s.candidates E 0 = .ok L) (hx : x ∈ L) (ht : TrueIn holds atts x.premise x.conclusion) :
    ∃ s', s.accept 0 x = (s', none) ∧ CInv holds atts s' (bg ++ [x]) ∧ todo atts s' (bg ++ [x]) < todo atts s bg ∧
      s'.ctx = s.ctx := by
  obtain ⟨L', h1, h2, h3⟩ := h.cand E
  rw [hL] at h1
  obtain rfl := Except.ok.inj h1
  obtain ⟨hps, hcx⟩ := (h2.pseudo rfl h3 x).1 hx
  rw [IsPseudo] at hps
  have hM : s.ctx.M = atts.toFinset := by unfold Ctx.M; rw [h.atts_eq]
  have hok : (E2.Op.accept 0 x).Ok E s := ⟨L, hL, hx⟩
  have hinv := E2.exec_inv h.inv hok
  have hacc : s.accept 0 x = ({ s with sessions := [bg ++ [x]] }, none) := by
    unfold E2.accept; rw [h.sess]; rfl
  have hinv' : E2.Inv ({ s with sessions := [bg ++ [x]] } : E2 α β) := by
    have : (s.exec (.accept 0 x)).1 = { s with sessions := [bg ++ [x]] } := by
      show (s.accept 0 x).1 = _
      rw [hacc]
    rwa [this] at hinv
  have hnc : ¬ x.conclusion ⊆ x.premise := by
    rw [hcx]
    intro hs
    exact hps.2.2.1 (Finset.Subset.antisymm hs (h.inv.wf.attrClosure_op.ext _ hps.1))
  refine ⟨_, hacc, ⟨rfl, hinv', h.atts_eq, ?_, h.obj⟩, ?_, rfl⟩
  · intro i hi
    rcases List.mem_append.1 hi with hi | hi
    · exact h.true_bg i hi
    · rw [List.mem_singleton.1 hi]; exact ht
  · apply Finset.card_lt_card
    rw [Finset.ssubset_iff_of_subset]
    · refine ⟨x.premise, EDB.mem_gap.2 ⟨hM ▸ hps.1, hps.2.1, hps.2.2.1⟩, ?_⟩
      intro hg
      exact hnc ((closed_specImps _ _).1 (EDB.mem_gap.1 hg).2.1 x (by simp [E2.edb]) (Finset.Subset.refl _))
    · intro S hS
      obtain ⟨h5, h6, h7⟩ := EDB.mem_gap.1 hS
      refine EDB.mem_gap.2 ⟨h5, ?_, h7⟩
      rw [closed_specImps] at h6 ⊢
      exact fun j hj => h6 j (List.mem_append_left _ hj)

theorem CInv.reject (h : CInv holds atts s bg) {E : EDB.Env α β} {x : Imp β} {L : List (Imp β)}
    (hL : s.candidates E 0 = .ok L) (hx : x ∈ L) {o : α} (hp : x.premise ⊆ dom holds atts o)
    (hc : ¬ x.conclusion ⊆ dom holds atts o) :
    ∃ s', s.reject 0 x o (cliIntent holds s.ctx o) = (s', none) ∧ CInv holds atts s' bg ∧
      todo atts s' bg < todo atts s bg ∧ s'.ctx.objects.length = s.ctx.objects.length + 1 ∧
      ∀ S m, m ∈ attrClosure s'.ctx.G s'.ctx.M s'.ctx.Inc S ↔
        m ∈ attrClosure s.ctx.G s.ctx.M s.ctx.Inc S ∧ (S ⊆ dom holds atts o → m ∈ dom holds atts o) := by
  obtain ⟨L', h1, h2, h3⟩ := h.cand E
  rw [hL] at h1
  obtain rfl := Except.ok.inj h1
  obtain ⟨hps, hcx⟩ := (h2.pseudo rfl h3 x).1 hx
  rw [IsPseudo] at hps
  have hM : s.ctx.M = atts.toFinset := by unfold Ctx.M; rw [h.atts_eq]
  have hB : cliIntent holds s.ctx o = dom holds atts o := by unfold cliIntent dom; rw [h.atts_eq]
  have hBM : dom holds atts o ⊆ atts.toFinset := by
    intro a ha
    unfold dom at ha
    rw [List.mem_toFinset, List.mem_filter] at ha
    exact List.mem_toFinset.2 ha.1
  have ho : o ∉ s.ctx.objects := by
    intro hin
    have hv := h2.openValid.1 x hx o (List.mem_toFinset.2 hin) (fun m hm => (h.obj o hin m).2 (hp hm))
    exact hc fun m hm => (h.obj o hin m).1 (hv m hm)
  have hresp : ∀ i ∈ bg, i.premise ⊆ dom holds atts o → i.conclusion ⊆ dom holds atts o :=
    fun i hi => h.true_bg i hi o
  obtain ⟨t, ht1, ht2, ht3, ht4, ht5, ht6⟩ := (C60_reject h.inv.wf h.inv.one (k := 0) (by rw [h.sess]; simp)
    (bg := bg) (by rw [h.sess]; rfl) x ho (dom holds atts o)).2.2 (fun hh => hc (hh hp)) hresp
  rw [hB]
  have hinv : E2.Inv t := by
    have := E2.exec_inv (E := E) h.inv (op := .reject 0 x o (dom holds atts o)) ho
    have he : (s.exec (.reject 0 x o (dom holds atts o))).1 = t := by
      show (s.reject 0 x o _).1 = t
      rw [ht1]
    rwa [he] at this
  have hinc : ∀ g a, t.ctx.Inc g a ↔ (g = o ∧ a ∈ dom holds atts o) ∨ (g ≠ o ∧ s.ctx.Inc g a) := by
    intro g a
    rw [ht6, h.atts_eq]
    constructor
    · rintro (⟨h5, -, h7⟩ | h5)
      · exact .inl ⟨h5, h7⟩
      · exact .inr h5
    · rintro (⟨h5, h7⟩ | h5)
      · exact .inl ⟨h5, List.mem_toFinset.1 (hBM h7), h7⟩
      · exact .inr h5
  have hM' : t.ctx.M = s.ctx.M := by unfold Ctx.M; rw [ht5]
  have hG' : ∀ g, g ∈ t.ctx.G ↔ g = o ∨ g ∈ s.ctx.G := by
    intro g
    unfold Ctx.G
    rw [ht4, List.mem_toFinset, List.mem_append, List.mem_singleton, List.mem_toFinset, or_comm]
  have hmem : ∀ S m, m ∈ attrClosure t.ctx.G t.ctx.M t.ctx.Inc S ↔
      m ∈ attrClosure s.ctx.G s.ctx.M s.ctx.Inc S ∧ (S ⊆ dom holds atts o → m ∈ dom holds atts o) := by
    intro S m
    unfold attrClosure
    rw [@Finset.mem_filter, @Finset.mem_filter, hM', and_assoc]
    refine and_congr_right fun _ => ?_
    constructor
    · intro hh
      constructor
      · intro g hg hgS
        have hgn : g ≠ o := by rintro rfl; exact ho (List.mem_toFinset.1 hg)
        have := hh g ((hG' g).2 (.inr hg)) (fun b hb => (hinc g b).2 (.inr ⟨hgn, hgS b hb⟩))
        rcases (hinc g m).1 this with h5 | h5
        · exact absurd h5.1 hgn
        · exact h5.2
      · intro hS
        have := hh o ((hG' _).2 (.inl rfl)) (fun b hb => (hinc _ b).2 (.inl ⟨rfl, hS hb⟩))
        rcases (hinc _ m).1 this with h5 | h5
        · exact h5.2
        · exact absurd rfl h5.1
    · rintro ⟨hh, hhB⟩ g hg hgS
      rw [hinc]
      by_cases hgn : g = o
      · refine .inl ⟨hgn, hhB fun b hb => ?_⟩
        rcases (hinc g b).1 (hgS b hb) with h5 | h5
        · exact h5.2
        · exact absurd hgn h5.1
      · refine .inr ⟨hgn, hh g (((hG' g).1 hg).resolve_left hgn) fun b hb => ?_⟩
        rcases (hinc g b).1 (hgS b hb) with h5 | h5
        · exact absurd h5.1 hgn
        · exact h5.2
  refine ⟨t, ht1, ⟨by rw [ht2]; exact h.sess, hinv, by rw [ht5]; exact h.atts_eq, h.true_bg, ?_⟩, ?_, by rw [ht4]; simp, hmem⟩
  · intro g hg a
    rw [hinc]
    by_cases hgo : g = o
    · simp [hgo]
    · rw [ht4] at hg
      have hg' : g ∈ s.ctx.objects := by simpa [hgo] using hg
      rw [← h.obj g hg' a]
      simp [hgo]
  · apply Finset.card_lt_card
    rw [Finset.ssubset_iff_of_subset]
    · refine ⟨dom holds atts o, EDB.mem_gap.2 ⟨hBM, (closed_specImps _ _).2 hresp, ?_⟩, ?_⟩
      · intro he
        apply hc
        rw [hcx, ← he]
        exact h.inv.wf.attrClosure_op.mono _ _ hp (by rw [hM]; exact hBM)
      · intro hg
        apply (EDB.mem_gap.1 hg).2.2
        apply Finset.Subset.antisymm
        · intro m hm
          exact ((hmem _ m).1 hm).2 (Finset.Subset.refl _)
        · exact hinv.wf.attrClosure_op.ext _ (by rw [hM', hM]; exact hBM)
    · intro S hS
      obtain ⟨h5, h6, h7⟩ := EDB.mem_gap.1 hS
      refine EDB.mem_gap.2 ⟨h5, h6, ?_⟩
      intro he
      apply h7
      apply Finset.Subset.antisymm
      · intro m hm
        have h8 := ((hmem S m).1 hm).1
        have he' : attrClosure s.ctx.G s.ctx.M s.ctx.Inc S = S := he
        rwa [he'] at h8
      · exact hinv.wf.attrClosure_op.ext S (by rw [hM', hM]; exact h5)

/-- What the user has at the end. -/
structure Done (holds : β → α → Bool) (atts : List β) (s : E2 α β) : Prop where
  atts_eq : s.ctx.attributes = atts
  objs : ∀ o ∈ s.ctx.objects, s.ctx.objectIntent o = .ok (dom holds atts o)
  base : ∃ bg, s.sessions = [bg] ∧ ∀ P C, P ⊆ atts.toFinset → C ⊆ atts.toFinset →
    (Entails (specImps bg) P C ↔ TrueIn holds atts P C)

theorem dom_sub (holds : β → α → Bool) (atts : List β) (x : α) : dom holds atts x ⊆ atts.toFinset := by
  intro a ha
  unfold dom at ha
  rw [List.mem_toFinset, List.mem_filter] at ha
  exact List.mem_toFinset.2 ha.1

theorem CInv.done (h : CInv holds atts s bg) {E : EDB.Env α β} (hc : s.candidates E 0 = .ok []) :
    Done holds atts s := by
  obtain ⟨L, h1, h2, h3⟩ := h.cand E
  rw [hc] at h1
  obtain rfl := Except.ok.inj h1
  have hM : s.ctx.M = atts.toFinset := by unfold Ctx.M; rw [h.atts_eq]
  refine ⟨h.atts_eq, ?_, bg, h.sess, ?_⟩
  · intro o ho
    rw [h.inv.wf.objectIntent ho]
    congr 1
    ext a
    rw [h.inv.wf.mem_upF]
    constructor
    · rintro ⟨-, hi⟩; exact (h.obj o ho a).1 (hi o (Finset.mem_singleton_self _))
    · intro ha
      have := (h.obj o ho a).2 ha
      exact ⟨this.mem.2, fun o' ho' => by rw [Finset.mem_singleton.1 ho']; exact this⟩
  · intro P C hP hC
    have hcomp := C25_basis_complete h.inv.wf E.ordA E.ordO _ _ (.inr ⟨_, _, rfl, h3⟩)
      (fun i hi => ⟨(h2.over i hi).2, h2.valid i hi⟩) _ h2.basis P C (by rw [hM]; exact hP) (by rw [hM]; exact hC)
    rw [List.nil_append] at hcomp
    constructor
    · intro he x hPx
      exact he _ ((closed_specImps _ _).2 fun i hi => h.true_bg i hi x) hPx
    · intro ht
      apply hcomp.1
      intro g hg hPg m hm
      have hg' := List.mem_toFinset.1 hg
      exact (h.obj g hg' m).2 (ht g (fun y hy => (h.obj g hg' y).1 (hPg y hy)) hm)

theorem explore_ok {E : ℕ → EDB.Env α β} {ans : ℕ → E2 α β → Imp β → CliAnswer α} (ht : Truthful holds atts ans) :
    ∀ {fuel : ℕ} {s : E2 α β} {bg : List (Imp β)}, CInv holds atts s bg → todo atts s bg < fuel →
      ∃ s', cliExplore E holds ans fuel s = (s', .finished) ∧ Done holds atts s' := by
  intro fuel
  induction fuel with
  | zero => intro s bg _ hf; omega
  | succ fuel ih =>
    intro s bg h hf
    obtain ⟨L, hL, -, -⟩ := h.cand (E fuel)
    unfold cliExplore
    rw [hL]
    rcases L with _ | ⟨x, L⟩
    · exact ⟨s, rfl, h.done hL⟩
    · dsimp only
      have hta := ht fuel s x
      cases ha : ans fuel s x with
      | valid =>
        rw [ha] at hta
        obtain ⟨s', h1, h2, h3, -⟩ := h.accept hL (by simp) hta
        simp only [h1]
        exact ih h2 (by omega)
      | counter o =>
        rw [ha] at hta
        obtain ⟨s', h1, h2, h3, -⟩ := h.reject hL (by simp) hta.1 hta.2
        simp only [h1]
        exact ih h2 (by omega)

/-! The first question: the context has no objects. -/

theorem close_all (ord₀ : SetOrder β) (ord : ℕ → SetOrder β) {M s : Finset β} (hs : s ⊆ M) :
    linClosure ord₀ ord s [⟨∅, M⟩] = M := by
  have h := linClosure_isLeast ord₀ ord s [⟨∅, M⟩] (by simp)
  refine h.unique ⟨hs, ?_, fun d _ hd => ?_⟩
  · rw [closed_specImps]; simp
  · rw [closed_specImps] at hd
    exact hd ⟨∅, M⟩ (by simp) (Finset.empty_subset _)

theorem dgNext_all {close : Finset β → List (Imp β) → Finset β} {atts : List β} {L : List (Imp β)}
    (hcl : ∀ m ∈ atts, close {m} L = atts.toFinset) : ∀ n, n + 1 ≤ atts.length →
    dgNext close atts L (n + 1) ∅ = (atts.toFinset, some 0) := by
  intro n
  induction n with
  | zero =>
    intro hn
    have hg : atts[0]? = some atts[0] := List.getElem?_eq_getElem (by omega)
    unfold dgNext
    rw [hg]
    simp [hcl atts[0] (by simp)]
  | succ n ih =>
    intro hn
    have hg : atts[n + 1]? = some atts[n + 1] := List.getElem?_eq_getElem (by omega)
    unfold dgNext
    rw [hg]
    dsimp only
    rw [if_neg (by simp), if_neg]
    · exact ih (by omega)
    · have hb : close (insert atts[n + 1] ∅) L = atts.toFinset := hcl _ (by simp)
      rw [hb]
      intro he
      have h0 : atts[0] ∈ (atts.toFinset \ ∅) ∩ (atts.take (n + 1)).toFinset := by
        rw [Finset.mem_inter, Finset.mem_sdiff, List.mem_toFinset, List.mem_toFinset]
        refine ⟨⟨by simp, by simp⟩, ?_⟩
        rw [List.mem_take_iff_getElem]
        exact ⟨0, by omega, rfl⟩
      rw [he] at h0
      simp at h0

/-- The context `Context(attributes=atts)`. -/
def emptyCtx (α : Type) (atts : List β) : Ctx α β := ⟨[], atts, ⟨none, []⟩⟩

theorem cand_first (E : EDB.Env α β) {atts : List β} (hnd : atts.Nodup) (hne : atts ≠ []) :
    (⟨emptyCtx α atts, [[]]⟩ : E2 α β).candidates E 0 = .ok [⟨∅, atts.toFinset⟩] := by
  have hcard : atts.toFinset.card = atts.length := List.toFinset_card_of_nodup hnd
  obtain ⟨n, hn⟩ : ∃ n, atts.length = n + 1 :=
    ⟨atts.length - 1, by have := List.length_pos_iff.2 hne; omega⟩
  have hac : (emptyCtx α atts).dgAclose E.ordA E.ordO ∅ = .ok atts.toFinset := by
    have h1 : E.ordA.enum ∅ = [] := by
      rw [List.eq_nil_iff_forall_not_mem]; intro x hx; simp at hx
    have h2 : E.ordO.enum ∅ = [] := by
      rw [List.eq_nil_iff_forall_not_mem]; intro x hx; simp at hx
    unfold dgAclose coAclosureSet coAprime coOprime
    rw [h1]
    show (Except.ok (∅ : Finset α) >>= fun s => _) = _
    rw [py_ok_bind, h2]
    rfl
  show (emptyCtx α atts).computeDgBasis E.ordA E.ordO E.ord₀ E.ord [] (fun _ => true) = _
  unfold computeDgBasis dgBasisWith dgBasis dgBasisFuel
  have h0 : linClosure E.ord₀ E.ord (∅ : Finset β) [] = ∅ := by unfold linClosure; simp
  have hpow : 2 ^ (emptyCtx α atts).attributes.length + 1 = (2 ^ atts.length - 1) + 1 + 1 := by
    have : 0 < 2 ^ atts.length := Nat.two_pow_pos _
    show 2 ^ atts.length + 1 = _
    omega
  rw [h0, hpow, dgLoop]
  have hatts : (emptyCtx α atts).attributes = atts := rfl
  rw [hatts, if_pos (by rw [Finset.card_empty]; omega), hac]
  dsimp only
  have hM : (∅ : Finset β) ≠ atts.toFinset := by
    intro he
    rw [← he] at hcard
    rw [Finset.card_empty] at hcard
    omega
  rw [if_pos (⟨hM, rfl⟩ : (∅ : Finset β) ≠ atts.toFinset ∧ true = true), if_pos]
  · have hnx : dgNext (linClosure E.ord₀ E.ord) atts ([⟨∅, atts.toFinset⟩] ++ []) atts.length
        (∅ \ (atts.drop atts.length).toFinset) = (atts.toFinset, some 0) := by
      rw [Finset.empty_sdiff, hn]
      exact dgNext_all (fun m hm => close_all _ _ (by simpa using hm)) n (by omega)
    simp only [List.nil_append]
    rw [hnx, dgLoop, if_neg (by rw [hcard]; omega)]
    rfl
  · rw [List.take_length, Finset.sdiff_empty, Finset.inter_self]
    exact hM.symm

theorem cand_none (E : EDB.Env α β) {atts : List β} (hnd : atts.Nodup) (bg : List (Imp β))
    (hbg : atts = [] ∧ bg = [] ∨ bg = [⟨∅, atts.toFinset⟩]) :
    (⟨emptyCtx α atts, [bg]⟩ : E2 α β).candidates E 0 = .ok [] := by
  have hcard : atts.toFinset.card = atts.length := List.toFinset_card_of_nodup hnd
  show (emptyCtx α atts).computeDgBasis E.ordA E.ordO E.ord₀ E.ord bg (fun _ => true) = _
  unfold computeDgBasis dgBasisWith dgBasis dgBasisFuel
  rw [dgLoop]
  have hatts : (emptyCtx α atts).attributes = atts := rfl
  rw [hatts, if_neg]
  · rfl
  · rcases hbg with ⟨rfl, rfl⟩ | rfl
    · simp
    · rw [close_all _ _ (Finset.empty_subset _), hcard]; omega

theorem cinv_first (holds : β → α → Bool) {atts : List β} (hnd : atts.Nodup) (x : α) :
    ∃ c, (emptyCtx α atts).addObjectWithIntent (dom holds atts x) x = (c, none) ∧
      CInv holds atts ⟨c, [[]]⟩ [] ∧ c.objects = [x] := by
  have hinB : ∀ a ∈ atts, (a ∈ dom holds atts x ↔ holds a x = true) := by
    intro a ha; unfold dom; simp [ha]
  let row := atts.map fun a => decide (a ∈ dom holds atts x)
  have hlen : row.length = atts.length := by simp [row]
  let c : Ctx α β := ⟨[x], atts, ⟨some row.length, [row]⟩⟩
  have hadd : (emptyCtx α atts).addObjectWithIntent (dom holds atts x) x = (c, none) := by
    have h1 : (emptyCtx α atts).nd.stackRow row = .ok ⟨some row.length, [row]⟩ := by
      unfold Nd.stackRow emptyCtx Nd.ofLists; simp
    have h2 : (Ctx.ofNd ⟨some row.length, [row]⟩ ([] ++ [x]) atts : Py (Ctx α β)) = .ok c := by
      unfold Ctx.ofNd
      rw [if_neg (by simp), if_neg (by simp [hlen]), renameAll_nodup (by simp), renameAll_nodup hnd]
      rfl
    unfold addObjectWithIntent addObject
    show reinit _ (((emptyCtx α atts).nd.stackRow row) >>= fun t => Ctx.ofNd t ([] ++ [x]) atts) = _
    rw [h1, py_ok_bind, h2]
    rfl
  have hwf : c.WFw := ⟨by simp [c], hnd, rfl, by simp [c, hlen], by simp [c, hlen]⟩
  have hinc : ∀ a, c.Inc x a ↔ a ∈ dom holds atts x := by
    intro a
    constructor
    · rintro ⟨i, j, r, h1, h2, h3, h4⟩
      have hi : i = 0 := by
        rcases i with _ | i
        · rfl
        · simp [c] at h1
      subst hi
      have hr : row = r := Option.some.inj h3
      subst hr
      simp only [row, List.getElem?_map] at h4
      have h2' : atts[j]? = some a := h2
      rw [h2'] at h4
      simpa using h4
    · intro ha
      obtain ⟨j, hj, hja⟩ := List.getElem_of_mem (List.mem_toFinset.1 (dom_sub holds atts x ha))
      refine ⟨0, j, row, rfl, ?_, rfl, ?_⟩
      · show atts[j]? = some a
        rw [List.getElem?_eq_getElem hj, hja]
      · simp only [row, List.getElem?_map, List.getElem?_eq_getElem hj, hja]
        simpa using ha
  refine ⟨c, hadd, ⟨rfl, ⟨hwf, by simp [c], ?_⟩, rfl, by simp, ?_⟩, rfl⟩
  · intro bg hbg
    obtain rfl : bg = [] := by
      have : ([[]] : List (List (Imp β))).getLast? = some bg := hbg
      exact (Option.some.inj this).symm
    exact ⟨⟨hwf, by simp [c, E2.edb], by simp [E2.edb, BExp.Over], by simp [E2.edb, BExp.Valid]⟩, List.Pairwise.nil⟩
  · intro o ho a
    obtain rfl : o = x := by simpa [c] using ho
    exact hinc a

theorem reject_first (holds : β → α → Bool) {atts : List β} {x : α} {c : Ctx α β}
    (hta : (∅ : Finset β) ⊆ dom holds atts x ∧ ¬ atts.toFinset ⊆ dom holds atts x)
    (h1 : (emptyCtx α atts).addObjectWithIntent (dom holds atts x) x = (c, none)) :
    (⟨emptyCtx α atts, [[]]⟩ : E2 α β).reject 0 ⟨∅, atts.toFinset⟩ x (cliIntent holds (emptyCtx α atts) x) =
      (⟨c, [[]]⟩, none) := by
  have hB : cliIntent holds (emptyCtx α atts) x = dom holds atts x := rfl
  have hr : (⟨∅, atts.toFinset⟩ : Imp β).isRespected (dom holds atts x) = false := by
    rw [← Bool.not_eq_true, Imp.isRespected_iff']
    exact fun hh => hta.2 (hh (Finset.empty_subset _))
  rw [hB]
  show (if (!(⟨∅, atts.toFinset⟩ : Imp β).isRespected (dom holds atts x)) = true then
    (⟨emptyCtx α atts, [[]]⟩ : E2 α β).addObject x (dom holds atts x) else _) = _
  rw [hr, if_pos (show (!false) = true from rfl)]
  show ((⟨((emptyCtx α atts).addObjectWithIntent (dom holds atts x) x).1, [[]]⟩ : E2 α β),
    ((emptyCtx α atts).addObjectWithIntent (dom holds atts x) x).2) = _
  rw [h1]

theorem cliInit_ok {atts : List β} (hnd : atts.Nodup) :
    cliInit (α := α) atts = .ok ⟨emptyCtx α atts, [[]]⟩ := by
  unfold cliInit Ctx.make
  simp only [List.length_nil, ne_eq, not_true_eq_false, false_and, if_false, Nd.ofLists]
  rw [renameAll_nodup hnd, renameAll_nodup List.nodup_nil]
  rfl

end Cli

open Cli

/-- `CommandLineExploration().explore()` with right answers, over any domain and any distinct attribute names: the loop
ends after at most `2 ^ n + 1` answers, `n` the number of attributes, and no call raises. Then the objects of the context
have their intents of the domain, and an implication follows from the accepted ones exactly if it holds for all elements
of the domain. The answer may depend on the question, on the state and on the number of the round. -/
theorem C92_explore (E : ℕ → EDB.Env α β) (holds : β → α → Bool) {atts : List β} (hnd : atts.Nodup)
    (ans : ℕ → E2 α β → Imp β → CliAnswer α) (ht : Truthful holds atts ans) :
    ∃ s₀ s, cliInit atts = .ok s₀ ∧ cliExplore E holds ans (2 ^ atts.length + 2) s₀ = (s, .finished) ∧
      Done holds atts s := by
  have hinit := cliInit_ok (α := α) hnd
  by_cases hne : atts = []
  · refine ⟨_, ⟨emptyCtx α atts, [[]]⟩, hinit, ?_, rfl, by simp [emptyCtx], [], rfl, ?_⟩
    · unfold cliExplore
      rw [cand_none _ hnd [] (.inl ⟨hne, rfl⟩)]
    · intro P C hP hC
      have hC0 : C = ∅ := by
        rw [hne] at hC; simpa using hC
      subst hC0
      exact ⟨fun _ x _ => Finset.empty_subset _, fun _ S _ _ => Finset.empty_subset _⟩
  · rw [hinit]
    have hta := ht (2 ^ atts.length + 1) ⟨emptyCtx α atts, [[]]⟩ ⟨∅, atts.toFinset⟩
    show ∃ s₀ s, _ ∧ cliExplore E holds ans ((2 ^ atts.length + 1) + 1) s₀ = _ ∧ _
    cases ha : ans (2 ^ atts.length + 1) ⟨emptyCtx α atts, [[]]⟩ ⟨∅, atts.toFinset⟩ with
    | valid =>
      rw [ha] at hta
      refine ⟨_, ⟨emptyCtx α atts, [[⟨∅, atts.toFinset⟩]]⟩, rfl, ?_, rfl, by simp [emptyCtx], _, rfl, ?_⟩
      · rw [cliExplore, cand_first _ hnd hne]
        dsimp only
        rw [ha]
        have hacc : (⟨emptyCtx α atts, [[]]⟩ : E2 α β).accept 0 ⟨∅, atts.toFinset⟩ =
            (⟨emptyCtx α atts, [[⟨∅, atts.toFinset⟩]]⟩, none) := rfl
        rw [hacc]
        dsimp only
        rw [cliExplore, cand_none _ hnd _ (.inr rfl)]
      · intro P C hP hC
        constructor
        · intro _ x _
          exact hC.trans (hta x (Finset.empty_subset _))
        · intro _ S hS _
          exact hC.trans ((closed_specImps _ _).1 hS ⟨∅, atts.toFinset⟩ (by simp) (Finset.empty_subset _))
    | counter x =>
      rw [ha] at hta
      obtain ⟨c, h1, h2, -⟩ := cinv_first holds hnd x
      have hrej := reject_first holds hta h1
      have hcard : todo atts ⟨c, [[]]⟩ [] < 2 ^ atts.length + 1 := by
        have : (EDB.gap atts.toFinset ((⟨c, [[]]⟩ : E2 α β).edb [])).card ≤ atts.toFinset.powerset.card := by
          apply Finset.card_le_card
          intro S hS
          exact Finset.mem_powerset.2 (EDB.mem_gap.1 hS).1
        rw [Finset.card_powerset, List.toFinset_card_of_nodup hnd] at this
        unfold todo
        omega
      obtain ⟨s, h3, h4⟩ := explore_ok (E := E) ht h2 hcard
      refine ⟨_, s, rfl, ?_, h4⟩
      rw [cliExplore, cand_first _ hnd hne]
      dsimp only
      rw [ha]
      dsimp only
      rw [hrej]
      exact h3

/-- For the numbers of the example: the accepted implications derive exactly what the five predicates satisfy on all
integers. For instance, an odd factorial is prime (in the sense of `is_prime`, 1 is), and a prime need not be odd. -/
theorem C92_numbers [PyName ℤ] [PyName NumAttr] (E : ℕ → EDB.Env ℤ NumAttr)
    (ans : ℕ → E2 ℤ NumAttr → Imp NumAttr → CliAnswer ℤ) (ht : Truthful NumAttr.holds numAttrs ans) :
    ∃ s₀ s bg, cliInit numAttrs = .ok s₀ ∧ cliExplore E NumAttr.holds ans 34 s₀ = (s, .finished) ∧ s.sessions = [bg] ∧
      (∀ P C, Entails (specImps bg) P C ↔
        ∀ n : ℤ, (∀ a ∈ P, NumAttr.holds a n = true) → ∀ a ∈ C, NumAttr.holds a n = true) ∧
      Entails (specImps bg) {.odd, .factorial} {.prime} ∧ ¬ Entails (specImps bg) {.prime} {.odd} := by
  obtain ⟨s₀, s, h1, h2, h3⟩ := C92_explore E NumAttr.holds (atts := numAttrs) (by decide) ans ht
  obtain ⟨bg, h4, h5⟩ := h3.base
  have hall : ∀ S : Finset NumAttr, S ⊆ numAttrs.toFinset := by
    intro S a _
    cases a <;> decide
  have hd : ∀ S n, S ⊆ dom NumAttr.holds numAttrs n ↔ ∀ a ∈ S, a.holds n = true := by
    intro S n
    constructor
    · intro h a ha
      have := h ha
      unfold dom at this
      rw [List.mem_toFinset, List.mem_filter] at this
      exact this.2
    · intro h a ha
      unfold dom
      rw [List.mem_toFinset, List.mem_filter]
      exact ⟨List.mem_toFinset.1 (hall S ha), h a ha⟩
  refine ⟨s₀, s, bg, h1, h2, h4, ?_, ?_, ?_⟩
  · intro P C
    rw [h5 P C (hall P) (hall C)]
    exact forall_congr' fun n => by rw [hd, hd]
  · rw [h5 _ _ (hall _) (hall _)]
    intro n hn
    rw [hd] at hn ⊢
    have ho := (C91_divisible n).2.1.1 (hn .odd (by simp))
    obtain ⟨k, hk⟩ := (C91_factorial n).1 (hn .factorial (by simp))
    intro a ha
    rw [Finset.mem_singleton.1 ha]
    apply C91_prime_violated
    by_contra hge
    have hk2 : 2 ≤ k := by
      by_contra hlt
      rw [hk] at hge
      have : k.factorial ≤ 1 := by
        rcases k with _ | _ | k
        · decide
        · decide
        · omega
      omega
    have h2 : 2 ∣ k.factorial := Nat.dvd_factorial (by omega) hk2
    rw [hk] at ho
    rw [Int.odd_iff] at ho
    omega
  · rw [h5 _ _ (hall _) (hall _)]
    intro h
    have := h 2 (by rw [hd]; decide +kernel)
    rw [hd] at this
    exact absurd (this .odd (by simp)) (by decide +kernel)

/-- Right answers exist for every domain. -/
theorem truthful_exists (holds : β → α → Bool) (atts : List β) :
    ∃ ans : ℕ → E2 α β → Imp β → CliAnswer α, Truthful holds atts ans := by
  classical
  refine ⟨fun _ _ imp => if h : ∃ x, imp.premise ⊆ dom holds atts x ∧ ¬ imp.conclusion ⊆ dom holds atts x
    then .counter h.choose else .valid, fun k s imp => ?_⟩
  by_cases h : ∃ x, imp.premise ⊆ dom holds atts x ∧ ¬ imp.conclusion ⊆ dom holds atts x
  · simp only [dif_pos h]; exact h.choose_spec
  · simp only [dif_neg h]
    push Not at h
    exact h

/-- A run over the domain `0, 1, 2` with two attributes `x > 0`, `x > 1`: two counterexamples and one implication. -/
def cliWitAns : ℕ → E2 (Fin 3) (Fin 2) → Imp (Fin 2) → CliAnswer (Fin 3) := fun _ _ imp =>
  match (List.finRange 3).find? fun x => decide (imp.premise ⊆ dom (fun a x => decide (a.val < x.val)) [0, 1] x) &&
    !decide (imp.conclusion ⊆ dom (fun a x => decide (a.val < x.val)) [0, 1] x) with
  | some x => .counter x
  | none => .valid

theorem cliWitAns_truthful : Truthful (fun (a : Fin 2) (x : Fin 3) => decide (a.val < x.val)) [0, 1] cliWitAns := by
  intro k s imp
  unfold cliWitAns
  cases h : (List.finRange 3).find? fun x =>
      decide (imp.premise ⊆ dom (fun (a : Fin 2) x => decide (a.val < x.val)) [0, 1] x) &&
        !decide (imp.conclusion ⊆ dom (fun (a : Fin 2) x => decide (a.val < x.val)) [0, 1] x) with
  | none =>
    intro x hx
    have := List.find?_eq_none.1 h x (List.mem_finRange x)
    simp only [hx, decide_true, Bool.true_and, Bool.not_eq_true', decide_eq_false_iff_not, not_not] at this
    exact this
  | some x =>
    have := List.find?_some h
    simpa using this

example : ∃ s₀, cliInit (α := Fin 3) ([0, 1] : List (Fin 2)) = .ok s₀ ∧
    let r := cliExplore (fun _ => E2.witEnv) (fun (a : Fin 2) (x : Fin 3) => decide (a.val < x.val)) cliWitAns 6 s₀
    r.2 = .finished ∧ r.1.ctx.objects = [0, 1] ∧ r.1.sessions = [[⟨{1}, {0, 1}⟩]] :=
  ⟨_, rfl, by decide +kernel⟩
