/-
C12: exactly which rows `reduce_objects` removes.
-/
import Verif.Props.Reduce

set_option linter.unusedSectionVars false

open Spec

namespace Ctx

/-! ### Specification -/

/-- The number with the given binary digits, lowest first. -/
def rowNumber : List Bool → ℕ
  | [] => 0
  | b :: l => (if b then 1 else 0) + 2 * rowNumber l

variable {α β : Type} [DecidableEq α] [DecidableEq β]

/-- The number of the row of an object. -/
noncomputable def numberOf (c : Ctx α β) (o : α) : ℕ := by
  classical exact rowNumber (c.attributes.map fun a => decide (c.Inc o a))

/-- The numbers of the rows, each once, in the order in which they first occur. -/
noncomputable def distinctRows (c : Ctx α β) : List ℕ := (c.objects.map c.numberOf).eraseDups

/-- The row of `o` is not full and is the intersection of other rows. -/
def Reducible (c : Ctx α β) (o : α) : Prop :=
  (∃ m ∈ c.attributes, ¬ c.Inc o m) ∧ ∀ m ∈ c.attributes, ¬ c.Inc o m →
    ∃ o' ∈ c.objects, (∀ b ∈ c.attributes, c.Inc o b → c.Inc o' b) ∧ (∃ b ∈ c.attributes, c.Inc o' b ∧ ¬ c.Inc o b) ∧
      ¬ c.Inc o' m

/-- The position of a row is the number of a row in front of it that is removed. -/
def Confused (c : Ctx α β) (R : Set ℕ) (p : ℕ) : Prop := p ∈ R ∧ p ∈ c.distinctRows.take p

/-! ### Proof -/

theorem rowNumber_eq (l : List Bool) : rowNumber l = list2int l := by
  induction l with
  | nil => rfl
  | cons b l ih => rw [rowNumber, ih, list2int_cons]; cases b <;> simp; omega

theorem WFw.numberOf {c : Ctx α β} (h : c.WFw) (o : α) : c.numberOf o = c.code o := by
  unfold Ctx.numberOf code
  rw [rowNumber_eq]
  congr 1
  apply List.map_congr_left
  intro a _
  rw [Bool.eq_iff_iff, @decide_eq_true_eq _ (_), h.incB]

theorem eraseDups_concat {κ : Type} [DecidableEq κ] (l : List κ) (x : κ) :
    (l ++ [x]).eraseDups = if x ∈ l then l.eraseDups else l.eraseDups ++ [x] := by
  rw [List.eraseDups_append]
  by_cases hx : x ∈ l
  · simp [List.removeAll, hx]
  · simp [List.removeAll, hx, List.eraseDups_cons]

theorem dictOf_keys {κ ν : Type} [DecidableEq κ] (l : List (κ × ν)) :
    (dictOf l).map Prod.fst = (l.map Prod.fst).eraseDups := by
  induction l using List.reverseRecOn with
  | nil => rfl
  | append_singleton l p ih =>
    rw [dictOf_append, dictSet_keys, List.map_append, List.map_singleton, eraseDups_concat, ih]
    simp only [List.mem_eraseDups]

theorem WFw.rowKeys_eq {c : Ctx α β} (h : c.WFw) : c.rowKeys = c.distinctRows := by
  unfold rowKeys distinctRows
  rw [dictOf_keys, List.map_fst_zip (by simp), h.rows_eq, List.map_map]
  congr 1
  exact List.map_congr_left fun o _ => (h.numberOf o).symm

theorem reduceUpto_restrict {M : ℕ} {keys : List ℕ} (hn : keys.Nodup) (hM : ∀ k ∈ keys, BSub k M) {x m : ℕ}
    (hx : x ∈ keys.take m) : ∀ n, m ≤ n → n ≤ keys.length → x ∈ reduceUpto M keys n → x ∈ reduceUpto M keys m := by
  intro n hmn
  induction n, hmn using Nat.le_induction with
  | base => exact fun _ h => h
  | succ n hmn ih =>
    intro hl h
    obtain ⟨k, hk⟩ : ∃ k, keys[n]? = some k := ⟨_, List.getElem?_eq_getElem (by omega : n < keys.length)⟩
    by_cases hskip : n ∈ reduceUpto M keys n
    · rw [reduceUpto_succ, if_pos hskip] at h
      exact ih (by omega) h
    · have hout : k ∉ keys.take n := by
        intro hc
        obtain ⟨i, hi⟩ := List.mem_iff_getElem?.1 hc
        have hi' := (List.getElem?_eq_some_iff.1 hi).1
        rw [List.length_take] at hi'
        rw [List.getElem?_take_of_lt (by omega)] at hi
        have := nodup_idx hn hi hk
        omega
      have hkr : k ∉ reduceUpto M keys n := fun hc =>
        hout ((reduceUpto_mono M hn hM n (by omega)).1 k hc).1
      rcases (reduceUpto_step hn hM hk hkr hskip x).1 h with h | ⟨rfl, -⟩
      · exact ih (by omega) h
      · exact absurd (List.take_subset_take_left _ hmn hx) hout

theorem reduceOuter_exact {M : ℕ} {keys : List ℕ} (hn : keys.Nodup) (hM : ∀ k ∈ keys, BSub k M) {p k : ℕ}
    (hk : keys[p]? = some k) :
    k ∈ reduceOuter M keys ↔ (k ≠ M ∧ ∀ m, M.testBit m = true →
      (∀ j ∈ keys, j ≠ k → BSub k j → j.testBit m = true) → k.testBit m = true) ∧
      ¬ (p ∈ reduceOuter M keys ∧ p ∈ keys.take p) := by
  have hlt := (List.getElem?_eq_some_iff.1 hk).1
  have hmono := reduceUpto_mono M hn hM keys.length le_rfl
  have hp := reduceUpto_mono M hn hM p (by omega)
  rw [reduceOuter_eq]
  have hskip : (p ∈ reduceUpto M keys keys.length ∧ p ∈ keys.take p) ↔ p ∈ reduceUpto M keys p :=
    ⟨fun h => reduceUpto_restrict hn hM h.2 _ (by omega) le_rfl h.1, fun h => ⟨hmono.2 p (by omega) h, (hp.1 p h).1⟩⟩
  rw [hskip]
  have hkp : k ∈ keys.take (p + 1) := by rw [List.take_add_one, hk]; simp
  have hout : k ∉ keys.take p := by
    intro hc
    obtain ⟨i, hi⟩ := List.mem_iff_getElem?.1 hc
    have hi' := (List.getElem?_eq_some_iff.1 hi).1
    rw [List.length_take] at hi'
    rw [List.getElem?_take_of_lt (by omega)] at hi
    have := nodup_idx hn hi hk
    omega
  have hkr : k ∉ reduceUpto M keys p := fun hc => hout (hp.1 k hc).1
  constructor
  · intro h
    refine ⟨(hmono.1 k h).2, fun hs => ?_⟩
    have := reduceUpto_restrict hn hM hkp _ (by omega) le_rfl h
    rw [reduceUpto_succ, if_pos hs] at this
    exact hkr this
  · rintro ⟨⟨h1, h2⟩, hs⟩
    apply hmono.2 (p + 1) (by omega)
    rw [reduceUpto_step hn hM hk hkr hs]
    refine .inr ⟨rfl, h1, fun m hm hall => h2 m hm ?_⟩
    suffices h : ∀ d j, j ∈ keys → M - j ≤ d → j ≠ k → BSub k j → j.testBit m = true from
      fun j hj => h _ j hj le_rfl
    intro d
    induction d with
    | zero =>
      intro j hj hd _ _
      have : j = M := le_antisymm (hM j hj).le (by omega)
      rw [this]; exact hm
    | succ d ih =>
      intro j hj hd hne hsub
      by_cases hjr : j ∈ reduceUpto M keys p
      · refine (hp.1 j hjr).2.2 m hm fun i hi hij hji => ?_
        have hle := hji.le
        have := (hM i hi).le
        refine ih i hi (by omega) ?_ fun b hb => hji b (hsub b hb)
        rintro rfl
        exact hne (le_antisymm hle hsub.le)
      · exact hall j hj hne hjr hsub

theorem WFw.rowKeys_le {c : Ctx α β} (h : c.WFw) : ∀ k ∈ c.rowKeys, BSub k (2 ^ c.attributes.length - 1) := by
  intro k hk m hm
  obtain ⟨o, _, rfl⟩ := (h.mem_rowKeys k).1 hk
  rw [Nat.testBit_two_pow_sub_one]
  by_contra hc
  have h1 : 2 ^ c.attributes.length ≤ 2 ^ m := Nat.pow_le_pow_right (by norm_num) (by simpa using hc)
  rw [Nat.testBit_lt_two_pow (lt_of_lt_of_le (c.code_lt o) h1)] at hm
  cases hm

theorem code_eq_full {c : Ctx α β} (o : α) :
    c.code o = 2 ^ c.attributes.length - 1 ↔ ∀ m ∈ c.attributes, c.incB o m = true := by
  constructor
  · intro he m hm
    obtain ⟨j, hj⟩ := List.mem_iff_getElem?.1 hm
    rw [← c.code_testBit o hj, he, Nat.testBit_two_pow_sub_one]
    simpa using lt_of_getElem? hj
  · intro h
    apply Nat.eq_of_testBit_eq
    intro j
    rw [Nat.testBit_two_pow_sub_one]
    by_cases hj : j < c.attributes.length
    · obtain ⟨a, ha⟩ : ∃ a, c.attributes[j]? = some a := ⟨_, List.getElem?_eq_getElem hj⟩
      rw [c.code_testBit o ha, h a (List.mem_of_getElem? ha)]
      simp [hj]
    · rw [Nat.testBit_lt_two_pow (lt_of_lt_of_le (c.code_lt o) (Nat.pow_le_pow_right (by norm_num) (by omega)))]
      simp [hj]

theorem code_inj {c : Ctx α β} {o o' : α} :
    c.code o = c.code o' ↔ ∀ a ∈ c.attributes, c.incB o a = c.incB o' a := by
  constructor
  · intro he a ha
    obtain ⟨j, hj⟩ := List.mem_iff_getElem?.1 ha
    rw [← c.code_testBit o hj, he, c.code_testBit o' hj]
  · intro h
    unfold code
    rw [List.map_congr_left h]

theorem WFw.reducible_iff {c : Ctx α β} (h : c.WFw) (o : α) :
    c.Reducible o ↔ c.code o ≠ 2 ^ c.attributes.length - 1 ∧ ∀ m, (2 ^ c.attributes.length - 1).testBit m = true →
      (∀ j ∈ c.rowKeys, j ≠ c.code o → BSub (c.code o) j → j.testBit m = true) → (c.code o).testBit m = true := by
  unfold Reducible
  simp only [← h.incB]
  constructor
  · rintro ⟨⟨m0, hm0, hf0⟩, hall⟩
    refine ⟨fun he => hf0 ((code_eq_full o).1 he m0 hm0), fun m hm hj => ?_⟩
    rw [Nat.testBit_two_pow_sub_one, decide_eq_true_eq] at hm
    obtain ⟨a, ha⟩ : ∃ a, c.attributes[m]? = some a := ⟨_, List.getElem?_eq_getElem hm⟩
    rw [c.code_testBit o ha]
    by_contra hf
    obtain ⟨o', ho', hsub, ⟨b, hb, hb', hb''⟩, hn⟩ := hall a (List.mem_of_getElem? ha) hf
    apply hn
    rw [← c.code_testBit o' ha]
    refine hj _ ((h.mem_rowKeys _).2 ⟨o', ho', rfl⟩) (fun he => hb'' ?_) ((c.bsub_code o o').2 hsub)
    rw [← code_inj.1 he b hb]; exact hb'
  · rintro ⟨hM, hall⟩
    refine ⟨?_, ?_⟩
    · by_contra hc
      push Not at hc
      exact hM ((code_eq_full o).2 hc)
    · intro a ha hf
      by_contra hc
      push Not at hc
      obtain ⟨m, hm⟩ := List.mem_iff_getElem?.1 ha
      apply hf
      rw [← c.code_testBit o hm]
      refine hall m (by rw [Nat.testBit_two_pow_sub_one]; simpa using lt_of_getElem? hm) ?_
      intro j hj hne hsub
      obtain ⟨o', ho', rfl⟩ := (h.mem_rowKeys j).1 hj
      rw [c.code_testBit o' hm]
      have hsub' := (c.bsub_code o o').1 hsub
      refine hc o' ho' hsub' ?_
      by_contra hb
      push Not at hb
      apply hne
      rw [code_inj]
      intro b hbm
      rw [Bool.eq_iff_iff]
      exact ⟨hb b hbm, hsub' b hbm⟩

variable [PyName α] [PyName β]

/-- Exactly the following rows are removed by `reduce_objects`: those that are not full, are intersections of other
rows, and are not confused with a removed row. Of objects with equal rows the last one is kept. (This determines the set
`R` of removed rows, position by position.) -/
theorem C12_exact {c : Ctx α β} (h : c.WFw) :
    ∃ (d : Ctx α β) (R : Set ℕ), c.reduceObjects = .ok d ∧ d.attributes = c.attributes ∧
      (∀ o ∈ d.objects, ∀ a, d.Inc o a ↔ c.Inc o a) ∧
      d.objects.Sublist c.objects ∧
      (∀ o ∈ c.objects, o ∈ d.objects ↔ c.numberOf o ∉ R ∧
        ∀ o' ∈ c.objects, c.numberOf o' = c.numberOf o → c.objects.idxOf o' ≤ c.objects.idxOf o) ∧
      (∀ k ∈ R, k ∈ c.distinctRows) ∧
      ∀ o ∈ c.objects, ∀ p : ℕ, c.distinctRows[p]? = some (c.numberOf o) →
        (c.numberOf o ∈ R ↔ c.Reducible o ∧ ¬ c.Confused R p) := by
  obtain ⟨d, h1, h2, h3⟩ := h.reduceObjects
  have hinc : ∀ o ∈ d.objects, ∀ a, d.Inc o a ↔ c.Inc o a := by
    intro o ho a
    rw [h3.inc, ← h.incB]
    constructor
    · exact fun h => h.2.2
    · intro h5
      exact ⟨by rw [h3.objs] at ho; exact ho, ((h.incB o a).1 h5).mem.2, h5⟩
  refine ⟨d, ↑(reduceOuter (2 ^ c.attributes.length - 1) c.rowKeys), h1, h3.atts, hinc,
    by rw [h3.objs]; exact List.filter_sublist, ?_, ?_, ?_⟩
  · intro o ho
    rw [h3.objs]
    simp only [h.numberOf, Finset.mem_coe]
    rw [List.mem_filter, decide_eq_true_iff]
    exact ⟨fun hk => hk.2, fun hk => ⟨ho, hk⟩⟩
  · intro k hk
    rw [← h.rowKeys_eq]
    exact (reduceOuter_sound c.rowKeys_nodup h.rowKeys_le hk).1
  · intro o ho p hp
    rw [h.reducible_iff]
    unfold Confused
    rw [← h.rowKeys_eq, h.numberOf] at *
    exact reduceOuter_exact c.rowKeys_nodup h.rowKeys_le hp

/-- The result has a row that is an intersection of others exactly if some reducible row is confused with a removed
one. -/
theorem C12_iff {c : Ctx α β} (h : c.WFw) :
    ∃ (d : Ctx α β) (R : Set ℕ), c.reduceObjects = .ok d ∧
      (∀ k ∈ R, k ∈ c.distinctRows) ∧
      (∀ o ∈ c.objects, ∀ p : ℕ, c.distinctRows[p]? = some (c.numberOf o) →
        (c.numberOf o ∈ R ↔ c.Reducible o ∧ ¬ c.Confused R p)) ∧
      (HasReducible d ↔ ∃ o ∈ c.objects, ∃ p : ℕ, c.distinctRows[p]? = some (c.numberOf o) ∧ c.Reducible o ∧
        c.Confused R p) := by
  obtain ⟨d, R, hd, hat, hinc, hsub, hobj, hR, hex⟩ := C12_exact h
  refine ⟨d, R, hd, hR, hex, ?_⟩
  have hpos : ∀ o ∈ c.objects, ∃ p : ℕ, c.distinctRows[p]? = some (c.numberOf o) := by
    intro o ho
    apply List.mem_iff_getElem?.1
    unfold distinctRows
    rw [List.mem_eraseDups]
    exact List.mem_map_of_mem ho
  have hnum : ∀ {o o' : α}, c.numberOf o = c.numberOf o' ↔ ∀ a ∈ c.attributes, c.Inc o a ↔ c.Inc o' a := by
    intro o o'
    rw [h.numberOf, h.numberOf, code_inj]
    simp only [← h.incB]
    exact forall₂_congr fun a _ => Bool.eq_iff_iff
  constructor
  · rintro ⟨g, hg, ⟨m0, hm0, hf0⟩, hall⟩
    have hgc := hsub.subset hg
    obtain ⟨p, hp⟩ := hpos g hgc
    have hred : c.Reducible g := by
      refine ⟨⟨m0, hat ▸ hm0, fun hc => hf0 ((hinc g hg m0).2 hc)⟩, fun m hm hf => ?_⟩
      obtain ⟨g', hg', hne, hsup, hn⟩ := hall m (by rw [hat]; exact hm) (fun hc => hf ((hinc g hg m).1 hc))
      have hsup' : ∀ b ∈ c.attributes, c.Inc g b → c.Inc g' b :=
        fun b _ hb => (hinc g' hg' b).1 (hsup b ((hinc g hg b).2 hb))
      refine ⟨g', hsub.subset hg', hsup', ?_, fun hc => hn ((hinc g' hg' m).2 hc)⟩
      by_contra hb
      push Not at hb
      have he : c.numberOf g' = c.numberOf g := hnum.2 fun a ha => ⟨hb a ha, hsup' a ha⟩
      have h1 := ((hobj g hgc).1 hg).2 g' (hsub.subset hg') he
      have h2 := ((hobj g' (hsub.subset hg')).1 hg').2 g hgc he.symm
      exact hne ((List.idxOf_inj (hsub.subset hg')).1 (le_antisymm h1 h2))
    refine ⟨g, hgc, p, hp, hred, ?_⟩
    by_contra hc
    exact ((hobj g hgc).1 hg).1 ((hex g hgc p hp).2 ⟨hred, hc⟩)
  · rintro ⟨o, ho, p, hp, hred, hconf⟩
    have hoR : c.numberOf o ∉ R := fun hc => ((hex o ho p hp).1 hc).2 hconf
    obtain ⟨g, hg, hgk, hlast⟩ := exists_last (c := c) (k := c.code o) ⟨o, ho, rfl⟩
    have hge : c.numberOf g = c.numberOf o := by rw [h.numberOf, h.numberOf, hgk]
    have hgd : g ∈ d.objects := by
      rw [hobj g hg, hge]
      refine ⟨hoR, fun o' ho' he => hlast o' ho' ?_⟩
      rwa [h.numberOf, h.numberOf] at he
    have hrow := hnum.1 hge
    obtain ⟨⟨m0, hm0, hf0⟩, hall⟩ := hred
    refine ⟨g, hgd, ⟨m0, by rw [hat]; exact hm0, fun hc => hf0 ((hrow m0 hm0).1 ((hinc g hgd m0).1 hc))⟩, ?_⟩
    intro m hm hf
    rw [hat] at hm
    obtain ⟨o', ho', hsup, ⟨b, hb, hb', hb''⟩, hn⟩ := hall m hm fun hc => hf ((hinc g hgd m).2 ((hrow m hm).2 hc))
    obtain ⟨d', hd', -, h3⟩ := h.reduceObjects
    rw [hd] at hd'
    cases hd'
    by_contra hcon
    push Not at hcon
    apply hn
    rw [← h.incB]
    apply h.kept_rows ho' hm
    intro g' hg' hk hsup'
    have hg'd : g' ∈ d.objects := by rw [h3.objs]; simpa [hg'] using hk
    rw [h.incB, ← hinc g' hg'd]
    refine hcon g' hg'd ?_ ?_
    · rintro rfl
      apply hb''
      rw [← hrow b hb, ← h.incB]
      exact hsup' b hb ((h.incB _ _).2 hb')
    · intro x hx
      have hx' := (hinc g hgd x).1 hx
      have hxm : x ∈ c.attributes := ((h.incB _ _).1 ((h.incB _ _).2 hx')).mem.2
      rw [hinc g' hg'd, ← h.incB]
      exact hsup' x hxm ((h.incB _ _).2 (hsup x hxm ((hrow x hxm).1 hx')))

/-! ### Cases -/

set_option synthInstance.maxSize 1000 in
set_option synthInstance.maxHeartbeats 200000 in
/-- In `cxtC12` (rows 1, 2, 3, 5, 6) row 1 is removed, and row 2 at position 1 is confused with it. -/
example : cxtC12.Reducible 0 ∧ cxtC12.Reducible 1 ∧ cxtC12.distinctRows = [1, 2, 3, 5, 6] := by
  refine ⟨?_, ?_, ?_⟩
  · unfold Reducible; simp only [← cxtC12_wf.incB]; decide +kernel
  · unfold Reducible; simp only [← cxtC12_wf.incB]; decide +kernel
  · rw [← cxtC12_wf.rowKeys_eq]; decide +kernel

end Ctx
