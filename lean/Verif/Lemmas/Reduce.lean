/-
Row codes, clarification and reduction of objects (fca/context.py:703-763, 795-801).
-/
import Verif.Lemmas.Derived
import Mathlib.Data.Nat.Bitwise
import Mathlib.Data.List.Sort

set_option linter.unusedSectionVars false

open Spec

/-! ### Row codes -/

namespace Ctx

theorem list2int_cons (b : Bool) (l : List Bool) : list2int (b :: l) = 2 * list2int l + b.toNat := rfl

theorem testBit_list2int (l : List Bool) (j : ℕ) : (list2int l).testBit j = l.getD j false := by
  induction l generalizing j with
  | nil => simp [list2int]
  | cons b l ih =>
    rw [list2int_cons]
    cases j with
    | zero =>
      rw [Nat.testBit_zero]
      cases b <;> simp
    | succ j =>
      rw [Nat.testBit_succ, show (2 * list2int l + b.toNat) / 2 = list2int l by
        cases b <;> simp <;> omega, ih]
      simp

theorem list2int_lt (l : List Bool) : list2int l < 2 ^ l.length := by
  induction l with
  | nil => simp [list2int]
  | cons b l ih =>
    rw [list2int_cons, List.length_cons, pow_succ]
    cases b <;> simp <;> omega

theorem list2int_inj {l l' : List Bool} (hl : l.length = l'.length) (h : list2int l = list2int l') :
    l = l' := by
  apply List.ext_getElem hl
  intro j h1 h2
  have h3 := testBit_list2int l j
  have h4 := testBit_list2int l' j
  rw [h] at h3
  rw [h3] at h4
  simpa [List.getD_eq_getElem?_getD, h1, h2] using h4

/-! ### Codes as sets of bits -/

/-- Inclusion of bit sets. -/
def BSub (k j : ℕ) : Prop := ∀ m, k.testBit m = true → j.testBit m = true

theorem and_eq_iff_bsub {k j : ℕ} : j &&& k = k ↔ BSub k j := by
  constructor
  · intro h m hm
    rw [← h, Nat.testBit_and] at hm
    simp at hm; exact hm.1
  · intro h
    apply Nat.eq_of_testBit_eq
    intro m
    rw [Nat.testBit_and]
    cases hk : k.testBit m with
    | false => simp
    | true => simp [h m hk]

instance (k j : ℕ) : Decidable (BSub k j) := decidable_of_iff _ and_eq_iff_bsub

theorem and_lt_iff {k j : ℕ} : j &&& k < k ↔ ¬ BSub k j := by
  rw [← and_eq_iff_bsub]
  have : j &&& k ≤ k := Nat.and_le_right
  omega

theorem BSub.le {k j : ℕ} (h : BSub k j) : k ≤ j := by
  rw [← and_eq_iff_bsub.2 h]; exact Nat.and_le_left

theorem bsub_and {k i j : ℕ} : BSub k (i &&& j) ↔ BSub k i ∧ BSub k j := by
  constructor
  · intro h
    constructor <;> intro m hm <;> have := h m hm <;> rw [Nat.testBit_and] at this <;> simp at this
    · exact this.1
    · exact this.2
  · rintro ⟨h1, h2⟩ m hm
    rw [Nat.testBit_and, h1 m hm, h2 m hm]; rfl

/-- One step of the inner loop, by cases. -/
theorem inner_step (k j : ℕ) (st : ℕ × Finset ℕ) :
    (if j ∈ st.2 then st
      else
        let new := st.1 &&& j
        if new &&& k < k then st
        else if new = k then (st.1, insert k st.2)
        else if new > k then (new, st.2)
        else st) =
    if j ∈ st.2 ∨ ¬ BSub k (st.1 &&& j) then st
    else if st.1 &&& j = k then (st.1, insert k st.2) else (st.1 &&& j, st.2) := by
  by_cases h1 : j ∈ st.2
  · simp [h1]
  · simp only [h1, if_false, false_or]
    by_cases h2 : BSub k (st.1 &&& j)
    · have h4 : ¬ st.1 &&& j &&& k < k := by rw [and_lt_iff]; simpa using h2
      rw [if_neg h4, if_neg (show ¬ ¬ BSub k (st.1 &&& j) by simpa using h2)]
      by_cases h3 : st.1 &&& j = k
      · rw [if_pos h3, if_pos h3]
      · rw [if_neg h3, if_neg h3, if_pos]
        have := h2.le
        omega
    · rw [if_pos (by rw [and_lt_iff]; exact h2), if_pos h2]

/-- Invariant of the inner loop: `current` is the intersection of `M` and the eligible codes seen so
far, unless `k` has been found to be reducible. -/
structure InnerInv (k M : ℕ) (red : Finset ℕ) (seen : List ℕ) (st : ℕ × Finset ℕ) : Prop where
  red' : st.2 = red ∨ st.2 = insert k red
  sub : BSub k st.1
  ne : st.1 ≠ k
  cur : k ∉ st.2 → ∀ m, st.1.testBit m = true ↔
    M.testBit m = true ∧ ∀ j ∈ seen, j ∉ red → BSub k j → j.testBit m = true
  found : k ∈ st.2 → ∀ m, M.testBit m = true →
    (∀ j ∈ seen, j ∉ red → BSub k j → j.testBit m = true) → k.testBit m = true

theorem reduceInner_inv {k M : ℕ} {red : Finset ℕ} (hkr : k ∉ red) (hM : BSub k M) (hkM : M ≠ k)
    (rest : List ℕ) (hk : k ∉ rest) : InnerInv k M red rest (reduceInner k rest (M, red)) := by
  induction rest using List.reverseRecOn with
  | nil => exact ⟨Or.inl rfl, hM, hkM, fun _ m => by simp [reduceInner], fun h => absurd h hkr⟩
  | append_singleton rest j ih =>
    have ih := ih (fun h => hk (by simp [h]))
    have hjk : j ≠ k := by rintro rfl; exact hk (by simp)
    have hst : reduceInner k (rest ++ [j]) (M, red) =
        (let st := reduceInner k rest (M, red)
         if j ∈ st.2 ∨ ¬ BSub k (st.1 &&& j) then st
          else if st.1 &&& j = k then (st.1, insert k st.2) else (st.1 &&& j, st.2)) := by
      unfold reduceInner
      rw [List.foldl_append, List.foldl_cons, List.foldl_nil, inner_step]
    rw [hst]
    generalize reduceInner k rest (M, red) = st at ih
    have hjred : j ∈ st.2 ↔ j ∈ red := by
      rcases ih.red' with h | h <;> rw [h]
      simp [hjk]
    simp only [hjred, bsub_and, ih.sub, true_and]
    by_cases hel : j ∈ red ∨ ¬ BSub k j
    · rw [if_pos hel]
      have hseen : ∀ m, (∀ j' ∈ rest ++ [j], j' ∉ red → BSub k j' → j'.testBit m = true) ↔
          ∀ j' ∈ rest, j' ∉ red → BSub k j' → j'.testBit m = true := by
        intro m
        constructor
        · intro h j' hj'; exact h j' (by simp [hj'])
        · intro h j' hj' h1 h2
          rcases List.mem_append.1 hj' with hj' | hj'
          · exact h j' hj' h1 h2
          · rw [List.mem_singleton] at hj'
            subst hj'
            rcases hel with hel | hel
            · exact absurd hel h1
            · exact absurd h2 hel
      refine ⟨ih.red', ih.sub, ih.ne, ?_, ?_⟩
      · intro h m; rw [hseen]; exact ih.cur h m
      · intro h m; rw [hseen]; exact ih.found h m
    · rw [if_neg hel]
      rw [not_or, not_not] at hel
      obtain ⟨hel1, hel2⟩ := hel
      by_cases hnew : st.1 &&& j = k
      · rw [if_pos hnew]
        refine ⟨Or.inr ?_, ih.sub, ih.ne, ?_, ?_⟩
        · rcases ih.red' with h | h <;> simp [h]
        · intro h; simp at h
        · intro _ m hMm hall
          by_cases hks : k ∈ st.2
          · exact ih.found hks m hMm fun j' hj' => hall j' (by simp [hj'])
          · rw [← hnew, Nat.testBit_and, (ih.cur hks m).2 ⟨hMm, fun j' hj' => hall j' (by simp [hj'])⟩,
              hall j (by simp) hel1 hel2]
            rfl
      · rw [if_neg hnew]
        refine ⟨ih.red', bsub_and.2 ⟨ih.sub, hel2⟩, hnew, ?_, ?_⟩
        · intro hks m
          rw [Nat.testBit_and, Bool.and_eq_true, ih.cur hks m]
          constructor
          · rintro ⟨⟨h1, h2⟩, h3⟩
            refine ⟨h1, fun j' hj' => ?_⟩
            rcases List.mem_append.1 hj' with hj' | hj'
            · exact h2 j' hj'
            · rw [List.mem_singleton] at hj'; subst hj'; exact fun _ _ => h3
          · rintro ⟨h1, h2⟩
            exact ⟨⟨h1, fun j' hj' => h2 j' (by simp [hj'])⟩, h2 j (by simp) hel1 hel2⟩
        · intro hks m hMm hall
          exact ih.found hks m hMm fun j' hj' => hall j' (by simp [hj'])

/-- `k` is found exactly when it is the intersection of the eligible codes above it. -/
theorem mem_reduceInner {k M : ℕ} {red : Finset ℕ} (hkr : k ∉ red) (hM : BSub k M) (hkM : M ≠ k)
    (rest : List ℕ) (hk : k ∉ rest) :
    k ∈ (reduceInner k rest (M, red)).2 ↔ ∀ m, M.testBit m = true →
      (∀ j ∈ rest, j ∉ red → BSub k j → j.testBit m = true) → k.testBit m = true := by
  have h := reduceInner_inv hkr hM hkM rest hk
  refine ⟨h.found, fun hall => ?_⟩
  by_contra hc
  apply h.ne
  apply Nat.eq_of_testBit_eq
  intro m
  rw [Bool.eq_iff_iff]
  constructor
  · intro hm
    obtain ⟨h1, h2⟩ := (h.cur hc m).1 hm
    exact hall m h1 h2
  · exact h.sub m

/-- The full code is never reducible. -/
theorem reduceInner_full {M : ℕ} {red : Finset ℕ} (rest : List ℕ) (hM : M ∉ rest)
    (hr : ∀ j ∈ rest, BSub j M) : reduceInner M rest (M, red) = (M, red) := by
  induction rest using List.reverseRecOn with
  | nil => rfl
  | append_singleton rest j ih =>
    have ih := ih (fun h => hM (by simp [h])) (fun j hj => hr j (by simp [hj]))
    unfold reduceInner at ih ⊢
    rw [List.foldl_append, List.foldl_cons, List.foldl_nil, inner_step, ih, if_pos]
    right
    intro h
    have h1 := (bsub_and.1 h).2
    have h2 := hr j (by simp)
    have : M = j := by
      apply Nat.eq_of_testBit_eq
      intro m
      rw [Bool.eq_iff_iff]
      exact ⟨h1 m, h2 m⟩
    exact hM (by simp [this])

/-- A prefix of the outer loop. -/
def reduceUpto (M : ℕ) (keys : List ℕ) (n : ℕ) : Finset ℕ :=
  (List.range n).foldl (fun red i =>
    if i ∈ red then red
    else (reduceInner (keys.getD i 0) (keys.take i ++ keys.drop (i + 1)) (M, red)).2) ∅

theorem reduceUpto_succ (M : ℕ) (keys : List ℕ) (n : ℕ) : reduceUpto M keys (n + 1) =
    if n ∈ reduceUpto M keys n then reduceUpto M keys n
    else (reduceInner (keys.getD n 0) (keys.take n ++ keys.drop (n + 1)) (M, reduceUpto M keys n)).2 := by
  unfold reduceUpto
  rw [List.range_succ, List.foldl_append, List.foldl_cons, List.foldl_nil]

theorem mem_rest {keys : List ℕ} (hn : keys.Nodup) {i : ℕ} {k : ℕ} (hk : keys[i]? = some k) (j : ℕ) :
    j ∈ keys.take i ++ keys.drop (i + 1) ↔ j ∈ keys ∧ j ≠ k := by
  have h1 : keys.eraseIdx i = keys.filter (· ≠ k) := eraseIdx_eq_filter hn hk
  rw [← List.eraseIdx_eq_take_drop_succ, h1]
  simp

/-- Step of the outer loop at a position that is looked at. -/
theorem reduceUpto_step {M : ℕ} {keys : List ℕ} (hn : keys.Nodup) (hM : ∀ k ∈ keys, BSub k M)
    {n : ℕ} {k : ℕ} (hk : keys[n]? = some k) (hkr : k ∉ reduceUpto M keys n)
    (hskip : n ∉ reduceUpto M keys n) (x : ℕ) :
    x ∈ reduceUpto M keys (n + 1) ↔ x ∈ reduceUpto M keys n ∨ (x = k ∧ k ≠ M ∧
      ∀ m, M.testBit m = true →
        (∀ j ∈ keys, j ≠ k → j ∉ reduceUpto M keys n → BSub k j → j.testBit m = true) →
        k.testBit m = true) := by
  rw [reduceUpto_succ, if_neg hskip, List.getD_eq_getElem?_getD, hk, Option.getD_some]
  have hkrest : k ∉ keys.take n ++ keys.drop (n + 1) := by rw [mem_rest hn hk]; simp
  by_cases hkM : k = M
  · subst hkM
    rw [reduceInner_full _ hkrest (fun j hj => hM j ((mem_rest hn hk j).1 hj).1)]
    simp
  · have h1 := reduceInner_inv hkr (hM k (List.mem_of_getElem? hk)) (fun h => hkM h.symm) _ hkrest
    have h2 := mem_reduceInner hkr (hM k (List.mem_of_getElem? hk)) (fun h => hkM h.symm) _ hkrest
    have h3 : (∀ m, M.testBit m = true →
        (∀ j ∈ keys.take n ++ keys.drop (n + 1), j ∉ reduceUpto M keys n → BSub k j → j.testBit m = true) →
        k.testBit m = true) ↔ ∀ m, M.testBit m = true →
        (∀ j ∈ keys, j ≠ k → j ∉ reduceUpto M keys n → BSub k j → j.testBit m = true) →
        k.testBit m = true := by
      simp only [mem_rest hn hk, and_imp]
    rw [h3] at h2
    constructor
    · intro hx
      by_cases hxk : x = k
      · subst hxk; exact Or.inr ⟨rfl, hkM, h2.1 hx⟩
      · left
        rcases h1.red' with h | h <;> rw [h] at hx
        · exact hx
        · simpa [hxk] using hx
    · rintro (hx | ⟨rfl, _, hx⟩)
      · rcases h1.red' with h | h <;> rw [h]
        · exact hx
        · simp [hx]
      · exact h2.2 hx

theorem reduceUpto_mono (M : ℕ) {keys : List ℕ} (hn : keys.Nodup) (hM : ∀ k ∈ keys, BSub k M) :
    ∀ n ≤ keys.length,
      (∀ x ∈ reduceUpto M keys n, x ∈ keys.take n ∧ x ≠ M ∧ ∀ m, M.testBit m = true →
        (∀ j ∈ keys, j ≠ x → BSub x j → j.testBit m = true) → x.testBit m = true) ∧
      ∀ n' ≤ n, reduceUpto M keys n' ⊆ reduceUpto M keys n := by
  intro n
  induction n with
  | zero =>
    intro _
    refine ⟨by simp [reduceUpto], ?_⟩
    intro n' hn'
    rw [Nat.le_zero.1 hn']
  | succ n ih =>
    intro hlt
    obtain ⟨ih1, ih2⟩ := ih (by omega)
    obtain ⟨k, hk⟩ : ∃ k, keys[n]? = some k := ⟨_, List.getElem?_eq_getElem (by omega : n < keys.length)⟩
    have htake : keys.take (n + 1) = keys.take n ++ [k] := by rw [List.take_add_one, hk]; rfl
    have hkr : k ∉ reduceUpto M keys n := by
      intro h
      have h1 := (ih1 k h).1
      obtain ⟨i, hi⟩ := List.mem_iff_getElem?.1 h1
      have hi' := (List.getElem?_eq_some_iff.1 hi).1
      rw [List.length_take] at hi'
      rw [List.getElem?_take_of_lt (by omega)] at hi
      have := nodup_idx hn hi hk
      omega
    have hsub : reduceUpto M keys n ⊆ reduceUpto M keys (n + 1) ∧
        ∀ x ∈ reduceUpto M keys (n + 1), x ∈ reduceUpto M keys n ∨ (x = k ∧ k ≠ M ∧
          ∀ m, M.testBit m = true → (∀ j ∈ keys, j ≠ k → j ∉ reduceUpto M keys n → BSub k j → j.testBit m = true) →
          k.testBit m = true) := by
      by_cases hskip : n ∈ reduceUpto M keys n
      · rw [reduceUpto_succ, if_pos hskip]
        exact ⟨Finset.Subset.refl _, fun x hx => Or.inl hx⟩
      · have := reduceUpto_step hn hM hk hkr hskip
        exact ⟨fun x hx => (this x).2 (Or.inl hx), fun x hx => (this x).1 hx⟩
    refine ⟨?_, ?_⟩
    · intro x hx
      rcases hsub.2 x hx with h | ⟨rfl, h1, h2⟩
      · obtain ⟨h1, h2, h3⟩ := ih1 x h
        exact ⟨by rw [htake]; simp [h1], h2, h3⟩
      · refine ⟨by rw [htake]; simp, h1, ?_⟩
        intro m hm hall
        exact h2 m hm fun j hj hne _ => hall j hj hne
    · intro n' hn'
      rcases Nat.lt_or_ge n' (n + 1) with h | h
      · exact (ih2 n' (by omega)).trans hsub.1
      · rw [show n' = n + 1 by omega]

theorem reduceOuter_eq (M : ℕ) (keys : List ℕ) : reduceOuter M keys = reduceUpto M keys keys.length := rfl

/-- Only non-full codes that are intersections of other codes are removed. -/
theorem reduceOuter_sound {M : ℕ} {keys : List ℕ} (hn : keys.Nodup) (hM : ∀ k ∈ keys, BSub k M)
    {x : ℕ} (hx : x ∈ reduceOuter M keys) : x ∈ keys ∧ x ≠ M ∧ ∀ m, M.testBit m = true →
        (∀ j ∈ keys, j ≠ x → BSub x j → j.testBit m = true) → x.testBit m = true := by
  obtain ⟨h1, h2, h3⟩ := (reduceUpto_mono M hn hM keys.length le_rfl).1 x hx
  exact ⟨List.mem_of_mem_take h1, h2, h3⟩

/-- If no code is confused with a position, no remaining non-full code is an intersection of
other remaining codes. -/
theorem reduceOuter_complete {M : ℕ} {keys : List ℕ} (hn : keys.Nodup) (hM : ∀ k ∈ keys, BSub k M)
    (hconf : ∀ k ∈ keys, k = 0 ∨ keys.length ≤ k)
    {k : ℕ} (hk : k ∈ keys) (hkr : k ∉ reduceOuter M keys) (hkM : k ≠ M) :
    ¬ ∀ m, M.testBit m = true →
      (∀ j ∈ keys, j ∉ reduceOuter M keys → j ≠ k → BSub k j → j.testBit m = true) →
      k.testBit m = true := by
  intro hall
  apply hkr
  obtain ⟨n, hkn⟩ := List.mem_iff_getElem?.1 hk
  have hnl := (List.getElem?_eq_some_iff.1 hkn).1
  rw [reduceOuter_eq] at hkr hall ⊢
  have hmono := reduceUpto_mono M hn hM keys.length le_rfl
  have hskip : n ∉ reduceUpto M keys n := by
    intro h
    rcases Nat.eq_zero_or_pos n with rfl | hpos
    · simp [reduceUpto] at h
    · have := (reduceUpto_mono M hn hM n (by omega)).1 n h
      rcases hconf n (List.mem_of_mem_take this.1) with h0 | h0 <;> omega
  have hkn' : k ∉ reduceUpto M keys n := fun h => hkr (hmono.2 n (by omega) h)
  apply hmono.2 (n + 1) (by omega)
  rw [reduceUpto_step hn hM hkn hkn' hskip]
  refine Or.inr ⟨rfl, hkM, ?_⟩
  intro m hm hj
  refine hall m hm fun j hjk hjr hne => hj j hjk hne ?_
  exact fun h => hjr (hmono.2 n (by omega) h)

/-! ### Reduction of contexts -/

/-- Every code is the intersection of the codes above it that are kept. -/
theorem kept_dense {n : ℕ} {keys : List ℕ} (hn : keys.Nodup) (hlt : ∀ k ∈ keys, k < 2 ^ n) :
    ∀ k ∈ keys, ∀ m < n,
      (∀ j ∈ keys, j ∉ reduceOuter (2 ^ n - 1) keys → BSub k j → j.testBit m = true) →
      k.testBit m = true := by
  have hM : ∀ k ∈ keys, BSub k (2 ^ n - 1) := by
    intro k hk m hm
    rw [Nat.testBit_two_pow_sub_one]
    by_contra hc
    have h1 : 2 ^ n ≤ 2 ^ m := Nat.pow_le_pow_right (by norm_num) (by simpa using hc)
    have h2 := Nat.testBit_lt_two_pow (lt_of_lt_of_le (hlt k hk) h1)
    rw [h2] at hm
    cases hm
  suffices h : ∀ d k, k ∈ keys → 2 ^ n - k ≤ d → ∀ m < n,
      (∀ j ∈ keys, j ∉ reduceOuter (2 ^ n - 1) keys → BSub k j → j.testBit m = true) →
      k.testBit m = true from fun k hk => h _ k hk le_rfl
  intro d
  induction d with
  | zero => intro k hk hd; have := hlt k hk; omega
  | succ d ih =>
    intro k hk hd m hm hall
    by_cases hkr : k ∈ reduceOuter (2 ^ n - 1) keys
    · apply (reduceOuter_sound hn hM hkr).2.2 m
      · rw [Nat.testBit_two_pow_sub_one]; simpa using hm
      · intro j hj hjk hsub
        have hle := hsub.le
        refine ih j hj (by have := hlt k hk; omega) m hm ?_
        intro i hi hir hji
        exact hall i hi hir fun b hb => hji b (hsub b hb)
    · exact hall k hk hkr fun _ h => h

variable {α β : Type} [DecidableEq α] [DecidableEq β]

/-- The code of the row of an object. -/
def code (c : Ctx α β) (o : α) : ℕ := list2int (c.attributes.map (c.incB o))

theorem code_testBit (c : Ctx α β) (o : α) {j : ℕ} {a : β} (hj : c.attributes[j]? = some a) :
    (c.code o).testBit j = c.incB o a := by
  unfold code
  rw [testBit_list2int, List.getD_eq_getElem?_getD, List.getElem?_map, hj]
  rfl

theorem code_lt (c : Ctx α β) (o : α) : c.code o < 2 ^ c.attributes.length := by
  have := list2int_lt (c.attributes.map (c.incB o))
  rwa [List.length_map] at this

theorem bsub_code (c : Ctx α β) (o o' : α) :
    BSub (c.code o) (c.code o') ↔ ∀ a ∈ c.attributes, c.incB o a = true → c.incB o' a = true := by
  constructor
  · intro h a ha h1
    obtain ⟨j, hj⟩ := List.mem_iff_getElem?.1 ha
    rw [← c.code_testBit o' hj]
    apply h
    rw [c.code_testBit o hj]; exact h1
  · intro h m hm
    have hlt : m < c.attributes.length := by
      by_contra hc
      have h1 : 2 ^ c.attributes.length ≤ 2 ^ m := Nat.pow_le_pow_right (by norm_num) (by omega)
      rw [Nat.testBit_lt_two_pow (lt_of_lt_of_le (c.code_lt o) h1)] at hm
      cases hm
    obtain ⟨a, ha⟩ : ∃ a, c.attributes[m]? = some a := ⟨_, List.getElem?_eq_getElem hlt⟩
    rw [c.code_testBit o ha] at hm
    rw [c.code_testBit o' ha]
    exact h a (List.mem_of_getElem? ha) hm

/-- The objects `reduce_objects` keeps: irreducible rows, and of equal rows the last one. -/
def kept (c : Ctx α β) (red : Finset ℕ) (o : α) : Prop :=
  c.code o ∉ red ∧ ∀ o' ∈ c.objects, c.code o' = c.code o → c.objects.idxOf o' ≤ c.objects.idxOf o

instance (c : Ctx α β) (red : Finset ℕ) (o : α) : Decidable (c.kept red o) := by
  unfold kept; infer_instance

theorem sorted_eq_filter {l : List ℕ} {n : ℕ} (hl : l.Nodup) (hlt : ∀ i ∈ l, i < n) :
    l.insertionSort (· ≤ ·) = (List.range n).filter (· ∈ l) := by
  apply List.Perm.eq_of_pairwise (le := (· ≤ ·))
  · intro a b _ _ h1 h2; exact le_antisymm h1 h2
  · exact List.pairwise_insertionSort (· ≤ ·) l
  · exact (List.pairwise_lt_range.imp le_of_lt).filter _
  · rw [List.perm_ext_iff_of_nodup ((List.perm_insertionSort (· ≤ ·) l).nodup_iff.2 hl) (List.nodup_range.filter _)]
    intro a
    rw [(List.perm_insertionSort (· ≤ ·) l).mem_iff, List.mem_filter, List.mem_range, decide_eq_true_eq]
    exact ⟨fun h => ⟨hlt a h, h⟩, fun h => h.2⟩

/-- The keys of the dict of rows. -/
def rowKeys (c : Ctx α β) : List ℕ :=
  (dictOf ((c.nd.rows.map list2int).zip (List.range c.nd.rows.length))).map Prod.fst

theorem WFw.mem_rowKeys {c : Ctx α β} (h : c.WFw) (k : ℕ) :
    k ∈ c.rowKeys ↔ ∃ o ∈ c.objects, c.code o = k := by
  unfold rowKeys
  rw [mem_dictOf_keys, List.map_fst_zip (by simp), h.rows_eq]
  simp [code]

theorem rowKeys_nodup (c : Ctx α β) : c.rowKeys.Nodup := dictOf_keys_nodup _

theorem WFw.reduceObjects [PyName α] [PyName β] {c : Ctx α β} (h : c.WFw) :
    ∃ d, c.reduceObjects = .ok d ∧ d.WF ∧
      Stores d ⟨c.objects.filter fun o => c.kept (reduceOuter (2 ^ c.attributes.length - 1) c.rowKeys) o,
        c.attributes, c.incB⟩ := by
  set red := reduceOuter (2 ^ c.attributes.length - 1) c.rowKeys with hred
  set d := dictOf ((c.nd.rows.map list2int).zip (List.range c.nd.rows.length)) with hd
  set order := (d.filter fun p => p.1 ∉ red).map Prod.snd with hord
  -- the list the dict is built from
  have hget : ∀ (i k v : ℕ), ((c.nd.rows.map list2int).zip (List.range c.nd.rows.length))[i]? = some (k, v) ↔
      ∃ o, c.objects[i]? = some o ∧ k = c.code o ∧ v = i := by
    intro i k v
    rw [List.getElem?_zip_eq_some, h.rows_eq]
    constructor
    · rintro ⟨h1, h2⟩
      rw [List.getElem?_map, List.getElem?_map] at h1
      have h3 := List.getElem?_eq_some_iff.1 h2
      simp only [List.getElem_range] at h3
      cases ho : c.objects[i]? with
      | none => rw [ho] at h1; simp at h1
      | some o =>
        rw [ho] at h1
        refine ⟨o, rfl, ?_, h3.2.symm⟩
        simpa [code] using h1.symm
    · rintro ⟨o, ho, rfl, rfl⟩
      refine ⟨by rw [List.getElem?_map, List.getElem?_map, ho]; rfl, ?_⟩
      rw [List.getElem?_range]
      simpa using lt_of_getElem? ho
  have hmem : ∀ (i : ℕ) (o : α), c.objects[i]? = some o → (i ∈ order ↔ c.kept red o) := by
    intro i o ho
    have hidx : c.objects.idxOf o = i := idxOf_of_nodup h.onodup ho
    rw [hord, List.mem_map]
    constructor
    · rintro ⟨⟨k, v⟩, hp, hv⟩
      obtain ⟨hp, hk⟩ := List.mem_filter.1 hp
      simp only at hv hk
      subst hv
      obtain ⟨i', hi', hlast⟩ := (mem_dictOf _ _ _).1 hp
      obtain ⟨o', ho', rfl, rfl⟩ := (hget _ _ _).1 hi'
      rw [ho] at ho'
      cases ho'
      refine ⟨by simpa using hk, ?_⟩
      intro o' ho' hc
      obtain ⟨j, hj⟩ := List.mem_iff_getElem?.1 ho'
      rw [hidx, idxOf_of_nodup h.onodup hj]
      by_contra hlt
      exact hlast j j (by omega) ((hget _ _ _).2 ⟨o', hj, hc.symm, rfl⟩)
    · rintro ⟨h1, h2⟩
      refine ⟨(c.code o, i), List.mem_filter.2 ⟨?_, by simpa using h1⟩, rfl⟩
      rw [hd, mem_dictOf]
      refine ⟨i, (hget _ _ _).2 ⟨o, ho, rfl, rfl⟩, ?_⟩
      intro j w hij hj
      obtain ⟨o', ho', hc, _⟩ := (hget _ _ _).1 hj
      have := h2 o' (List.mem_of_getElem? ho') hc.symm
      rw [hidx, idxOf_of_nodup h.onodup ho'] at this
      omega
  have hlt : ∀ i ∈ order, i < c.objects.length := by
    intro i hi
    obtain ⟨⟨k, v⟩, hp, rfl⟩ := List.mem_map.1 hi
    obtain ⟨i', hi', _⟩ := (mem_dictOf _ _ _).1 (List.mem_filter.1 hp).1
    obtain ⟨o, ho, _, h3⟩ := (hget _ _ _).1 hi'
    simp only [h3]
    exact lt_of_getElem? ho
  have hnd : order.Nodup := by
    have h1 : d.Nodup := List.Nodup.of_map Prod.fst (dictOf_keys_nodup _)
    refine List.Nodup.map_on ?_ (h1.filter _)
    rintro ⟨k, v⟩ hp ⟨k', v'⟩ hp' hv
    simp only at hv
    subst hv
    obtain ⟨i, hi, _⟩ := (mem_dictOf _ _ _).1 (List.mem_filter.1 hp).1
    obtain ⟨i', hi', _⟩ := (mem_dictOf _ _ _).1 (List.mem_filter.1 hp').1
    obtain ⟨o, ho, rfl, rfl⟩ := (hget _ _ _).1 hi
    obtain ⟨o', ho', rfl, rfl⟩ := (hget _ _ _).1 hi'
    rw [ho] at ho'
    cases ho'
    rfl
  have hsort : order.insertionSort (· ≤ ·) = (List.range c.objects.length).filter (· ∈ order) :=
    sorted_eq_filter hnd hlt
  have hobjs : (order.insertionSort (· ≤ ·)).mapM (pyGet c.objects) =
      .ok ((c.objects.filter fun o => c.kept red o).map id) := by
    rw [hsort]
    apply mapM_range_filter
    · intro i o ho; simp only [hmem i o ho]
    · intro i o ho; exact pyGet_ok ho
  have hrows : (order.insertionSort (· ≤ ·)).mapM (pyGet c.nd.rows) =
      .ok ((c.objects.filter fun o => c.kept red o).map fun o => c.attributes.map (c.incB o)) := by
    rw [hsort]
    apply mapM_range_filter
    · intro i o ho; simp only [hmem i o ho]
    · intro i o ho; exact pyGet_ok (h.row_name ho)
  obtain ⟨d', hd1, hd2, _, hd4⟩ := make_rel (objs := c.objects.filter fun o => c.kept red o)
    (atts := c.attributes) c.incB (h.onodup.filter _) h.anodup
  refine ⟨d', ?_, hd2, hd4⟩
  rw [← hd1]
  rw [List.map_id] at hobjs
  change (do
    let objs ← (order.insertionSort (· ≤ ·)).mapM (pyGet c.objects)
    let table ← (order.insertionSort (· ≤ ·)).mapM (pyGet c.nd.rows)
    make table objs c.attributes) = _
  rw [hobjs, py_ok_bind, hrows, py_ok_bind]

/-- The last object with a given row. -/
theorem exists_last {c : Ctx α β} {k : ℕ} (h : ∃ o ∈ c.objects, c.code o = k) :
    ∃ o ∈ c.objects, c.code o = k ∧
      ∀ o' ∈ c.objects, c.code o' = k → c.objects.idxOf o' ≤ c.objects.idxOf o := by
  obtain ⟨o, ho, hk⟩ := h
  obtain ⟨x, hx, hmax⟩ := Finset.exists_max_image (c.objects.toFinset.filter fun o => c.code o = k)
    c.objects.idxOf ⟨o, by simp [ho, hk]⟩
  simp only [Finset.mem_filter, List.mem_toFinset, and_imp] at hx hmax
  exact ⟨x, hx.1, hx.2, hmax⟩

/-- Every row is the intersection of the kept rows above it. -/
theorem WFw.kept_rows {c : Ctx α β} (h : c.WFw) {g : α} (hg : g ∈ c.objects) {m : β}
    (hm : m ∈ c.attributes)
    (hall : ∀ g' ∈ c.objects, c.kept (reduceOuter (2 ^ c.attributes.length - 1) c.rowKeys) g' →
      (∀ b ∈ c.attributes, c.incB g b = true → c.incB g' b = true) → c.incB g' m = true) :
    c.incB g m = true := by
  obtain ⟨j, hj⟩ := List.mem_iff_getElem?.1 hm
  rw [← c.code_testBit g hj]
  have hlt : ∀ k ∈ c.rowKeys, k < 2 ^ c.attributes.length := by
    intro k hk
    obtain ⟨o, _, rfl⟩ := (h.mem_rowKeys k).1 hk
    exact c.code_lt o
  refine kept_dense c.rowKeys_nodup hlt (c.code g) ((h.mem_rowKeys _).2 ⟨g, hg, rfl⟩) j
    (lt_of_getElem? hj) ?_
  intro k hk hkr hsub
  obtain ⟨o, ho, rfl, hlast⟩ := exists_last ((h.mem_rowKeys k).1 hk)
  rw [c.code_testBit o hj]
  exact hall o ho ⟨hkr, hlast⟩ ((c.bsub_code g o).1 hsub)

/-- If no row code can be confused with a position, no kept row is an intersection of others. -/
theorem WFw.kept_irreducible {c : Ctx α β} (h : c.WFw)
    (hconf : ∀ o ∈ c.objects, c.code o = 0 ∨ c.objects.length ≤ c.code o) {g : α} (hg : g ∈ c.objects)
    (hk : c.kept (reduceOuter (2 ^ c.attributes.length - 1) c.rowKeys) g)
    (hfull : ∃ m ∈ c.attributes, c.incB g m = false) :
    ∃ m ∈ c.attributes, c.incB g m = false ∧ ∀ g' ∈ c.objects, g' ≠ g →
      c.kept (reduceOuter (2 ^ c.attributes.length - 1) c.rowKeys) g' →
      (∀ b ∈ c.attributes, c.incB g b = true → c.incB g' b = true) → c.incB g' m = true := by
  have hM : ∀ k ∈ c.rowKeys, BSub k (2 ^ c.attributes.length - 1) := by
    intro k hk m hm
    obtain ⟨o, _, rfl⟩ := (h.mem_rowKeys k).1 hk
    rw [Nat.testBit_two_pow_sub_one]
    by_contra hc
    have h1 : 2 ^ c.attributes.length ≤ 2 ^ m := Nat.pow_le_pow_right (by norm_num) (by simpa using hc)
    rw [Nat.testBit_lt_two_pow (lt_of_lt_of_le (c.code_lt o) h1)] at hm
    cases hm
  have hlen : c.rowKeys.length ≤ c.objects.length := by
    have h1 : c.rowKeys ⊆ c.objects.map c.code := by
      intro k hk
      obtain ⟨o, ho, rfl⟩ := (h.mem_rowKeys k).1 hk
      exact List.mem_map_of_mem ho
    have := (c.rowKeys_nodup.subperm h1).length_le
    simpa using this
  have hkM : c.code g ≠ 2 ^ c.attributes.length - 1 := by
    intro he
    obtain ⟨m, hm, hf⟩ := hfull
    obtain ⟨j, hj⟩ := List.mem_iff_getElem?.1 hm
    rw [← c.code_testBit g hj, he, Nat.testBit_two_pow_sub_one] at hf
    have := lt_of_getElem? hj
    simp at hf; omega
  have h1 := reduceOuter_complete c.rowKeys_nodup hM (k := c.code g) (by
    intro k hk
    obtain ⟨o, ho, rfl⟩ := (h.mem_rowKeys k).1 hk
    rcases hconf o ho with h | h
    · exact Or.inl h
    · exact Or.inr (hlen.trans h)) ((h.mem_rowKeys _).2 ⟨g, hg, rfl⟩) hk.1 hkM
  push Not at h1
  obtain ⟨m, hmM, hall, hmk⟩ := h1
  rw [Nat.testBit_two_pow_sub_one, decide_eq_true_eq] at hmM
  obtain ⟨a, ha⟩ : ∃ a, c.attributes[m]? = some a := ⟨_, List.getElem?_eq_getElem hmM⟩
  refine ⟨a, List.mem_of_getElem? ha, ?_, ?_⟩
  · rw [← c.code_testBit g ha]; simpa using hmk
  · intro g' hg' hne hk' hsub
    rw [← c.code_testBit g' ha]
    refine hall _ ((h.mem_rowKeys _).2 ⟨g', hg', rfl⟩) hk'.1 ?_ ((c.bsub_code g g').2 hsub)
    intro he
    have h2 := hk'.2 g hg he.symm
    have h3 := hk.2 g' hg' he
    have h4 := le_antisymm h2 h3
    exact hne ((List.idxOf_inj hg).1 h4).symm

end Ctx
