/-
The renaming of repeated names in `Context.__init__` (fca/context.py:222-241).
-/
import Verif.Model.Context
import Mathlib.Data.List.NodupEquivFin
import Mathlib.Data.List.Duplicate
import Mathlib.Data.Nat.Digits.Defs
import Mathlib.Logic.Function.Iterate

variable {α : Type} [DecidableEq α]

theorem one_lt_count_iff {l : List α} {x : α} :
    1 < l.count x ↔ ∃ i j : ℕ, i ≠ j ∧ l[i]? = some x ∧ l[j]? = some x := by
  rw [show 1 < l.count x ↔ 2 ≤ l.count x from Iff.rfl, ← List.duplicate_iff_two_le_count,
    List.duplicate_iff_exists_distinct_get]
  constructor
  · rintro ⟨n, m, hnm, h1, h2⟩
    refine ⟨n, m, ?_, ?_, ?_⟩
    · intro he; exact absurd (Fin.ext he) (ne_of_lt hnm)
    · rw [h1]; simp
    · rw [h2]; simp
  · rintro ⟨i, j, hij, hi, hj⟩
    obtain ⟨h1, h1'⟩ := List.getElem?_eq_some_iff.1 hi
    obtain ⟨h2, h2'⟩ := List.getElem?_eq_some_iff.1 hj
    rcases Nat.lt_or_gt_of_ne hij with h | h
    · exact ⟨⟨i, h1⟩, ⟨j, h2⟩, h, by simp [h1'], by simp [h2']⟩
    · exact ⟨⟨j, h2⟩, ⟨i, h1⟩, h, by simp [h2'], by simp [h1']⟩

theorem card_lt_iff_not_nodup {l : List α} : l.toFinset.card < l.length ↔ ¬ l.Nodup := by
  have h := List.toFinset_card_le l
  constructor
  · intro hlt hn
    rw [List.toFinset_card_of_nodup hn] at hlt
    omega
  · intro hn
    refine lt_of_le_of_ne h fun he => hn ?_
    rw [List.card_toFinset] at he
    rw [← List.dedup_eq_self]
    exact (List.dedup_sublist l).eq_of_length he

variable [PyName α]

theorem renameAll_nodup {l : List α} (h : l.Nodup) : renameAll l = l := by
  unfold renameAll
  rw [if_neg (by rw [card_lt_iff_not_nodup]; simpa using h)]

theorem renameStep_length (l : List α) (k : ℕ) : (renameStep l k).length = l.length := by
  unfold renameStep
  split
  · rfl
  · split <;> simp

/-- Every stored name is the given one with the suffix of its own position appended a number of
times. -/
theorem renameStep_get (l : List α) (k i : ℕ) (x : α) (h : l[i]? = some x) :
    (renameStep l k)[i]? = some x ∨ (renameStep l k)[i]? = some (PyName.suffix x i) := by
  unfold renameStep
  split
  · exact Or.inl h
  · rename_i y hy
    split
    · rw [List.getElem?_mapIdx, h]
      by_cases hxy : x = y
      · right; simp [hxy]
      · left; simp [hxy]
    · exact Or.inl h

theorem foldl_renameStep_get (ks : List ℕ) (l : List α) (i : ℕ) (x : α) (h : l[i]? = some x) :
    ∃ n, (ks.foldl renameStep l)[i]? = some ((fun y => PyName.suffix y i)^[n] x) := by
  induction ks generalizing l x with
  | nil => exact ⟨0, h⟩
  | cons k ks ih =>
    rw [List.foldl_cons]
    rcases renameStep_get l k i x h with h' | h'
    · exact ih _ _ h'
    · obtain ⟨n, hn⟩ := ih _ _ h'
      exact ⟨n + 1, by rw [hn, Function.iterate_succ_apply]⟩

theorem foldl_renameStep_length (ks : List ℕ) (l : List α) :
    (ks.foldl renameStep l).length = l.length := by
  induction ks generalizing l with
  | nil => rfl
  | cons k ks ih => rw [List.foldl_cons, ih, renameStep_length]

theorem renameAll_length (l : List α) : (renameAll l).length = l.length := by
  unfold renameAll
  split
  · exact foldl_renameStep_length _ _
  · rfl

theorem renameAll_get (l : List α) (i : ℕ) (x : α) (h : l[i]? = some x) :
    ∃ n, (renameAll l)[i]? = some ((fun y => PyName.suffix y i)^[n] x) := by
  unfold renameAll
  split
  · exact foldl_renameStep_get _ _ _ _ h
  · exact ⟨0, h⟩

/-- No generated name occurs among the given ones. -/
def NoClash (l : List α) : Prop := ∀ x ∈ l, 1 < l.count x → ∀ i < l.length, PyName.suffix x i ∉ l

/-- Generated names determine name and position. -/
def SuffixInj (α : Type) [PyName α] : Prop :=
  ∀ (x y : α) (i j : ℕ), PyName.suffix x i = PyName.suffix y j → x = y ∧ i = j

theorem suffixInj_chars : SuffixInj (List Char) := by
  intro x y i j h
  simp only [PyName.suffix] at h
  have h1 : ∀ n : ℕ, '_' ∉ Nat.toDigits 10 n := fun n => Nat.underscore_not_in_toDigits
  have h2 : ∀ (a b c d : List Char), '_' ∉ b → '_' ∉ d → a ++ '_' :: b = c ++ '_' :: d →
      a = c ∧ b = d := by
    intro a b c d hb hd he
    rcases List.append_eq_append_iff.1 he with ⟨s, hs, hs'⟩ | ⟨s, hs, hs'⟩
    · cases s with
      | nil => simp at hs hs'; exact ⟨hs.symm, hs'⟩
      | cons z s =>
        simp only [List.cons_append, List.cons.injEq] at hs'
        exact absurd (by rw [hs'.2]; simp : '_' ∈ b) hb
    · cases s with
      | nil => simp at hs hs'; exact ⟨hs, hs'.symm⟩
      | cons z s =>
        simp only [List.cons_append, List.cons.injEq] at hs'
        exact absurd (by rw [hs'.2]; simp : '_' ∈ d) hd
  obtain ⟨h3, h4⟩ := h2 _ _ _ _ (h1 _) (h1 _) h
  refine ⟨h3, ?_⟩
  have := congrArg (fun l => Nat.ofDigitChars 10 l 0) h4
  simpa [Nat.ofDigitChars_ten_toDigits] using this

/-- State of the list after `k` steps when there is no clash. -/
private def stage (l : List α) (k : ℕ) : List α :=
  l.mapIdx fun i y => if 1 < l.count y ∧ y ∈ l.take k then PyName.suffix y i else y

private theorem stage_get (l : List α) (k i : ℕ) :
    (stage l k)[i]? = l[i]?.map fun y =>
      if 1 < l.count y ∧ y ∈ l.take k then PyName.suffix y i else y := by
  unfold stage; rw [List.getElem?_mapIdx]

/-- As `SuffixInj`, for the names of a list. -/
def SuffixInjOn (l : List α) : Prop :=
  ∀ x ∈ l, ∀ y ∈ l, ∀ i j : ℕ, PyName.suffix x i = PyName.suffix y j → x = y ∧ i = j

private theorem stage_step {l : List α} (hinj : SuffixInjOn l) (hl : NoClash l) {k : ℕ}
    (hk : k < l.length) : renameStep (stage l k) k = stage l (k + 1) := by
  obtain ⟨x, hx⟩ : ∃ x, l[k]? = some x := ⟨_, List.getElem?_eq_getElem hk⟩
  have hxl := List.mem_of_getElem? hx
  have htake : ∀ y, y ∈ l.take (k + 1) ↔ y ∈ l.take k ∨ y = x := by
    intro y
    rw [List.take_add_one, hx]
    simp
  have hsame : (1 < l.count x ∧ x ∉ l.take k → False) → stage l (k + 1) = stage l k := by
    intro hno
    unfold stage
    congr 1
    funext i y
    by_cases hy : 1 < l.count y ∧ y ∈ l.take k
    · rw [if_pos hy, if_pos ⟨hy.1, (htake y).2 (Or.inl hy.2)⟩]
    · rw [if_neg hy, if_neg]
      rintro ⟨h1, h2⟩
      rcases (htake y).1 h2 with h2 | rfl
      · exact hy ⟨h1, h2⟩
      · exact hno ⟨h1, fun h => hy ⟨h1, h⟩⟩
  have hget : (stage l k)[k]? = some (if 1 < l.count x ∧ x ∈ l.take k then PyName.suffix x k else x) := by
    rw [stage_get, hx]; rfl
  by_cases hc : 1 < l.count x
  · by_cases hm : x ∈ l.take k
    · -- already renamed: the new name is unique
      rw [hsame (fun h => h.2 hm)]
      rw [if_pos ⟨hc, hm⟩] at hget
      unfold renameStep
      simp only [hget]
      rw [if_neg]
      rw [one_lt_count_iff]
      rintro ⟨i, j, hij, hi, hj⟩
      have key : ∀ i : ℕ, (stage l k)[i]? = some (PyName.suffix x k) → i = k := by
        intro i hi
        rw [stage_get] at hi
        cases hli : l[i]? with
        | none => rw [hli] at hi; simp at hi
        | some y =>
          rw [hli] at hi
          simp only [Option.map_some, Option.some.injEq] at hi
          split at hi
          · exact (hinj _ (List.mem_of_getElem? hli) _ hxl _ _ hi).2
          · exact absurd (hi ▸ List.mem_of_getElem? hli) (hl x hxl hc k hk)
      exact hij ((key i hi).trans (key j hj).symm)
    · -- rename all occurrences of `x`
      rw [if_neg (fun h => hm h.2)] at hget
      have hunch : ∀ i : ℕ, (stage l k)[i]? = some x ↔ l[i]? = some x := by
        intro i
        rw [stage_get]
        cases hli : l[i]? with
        | none => simp
        | some y =>
          simp only [Option.map_some, Option.some.injEq]
          constructor
          · intro h
            split at h
            · rename_i hy
              exact absurd (h ▸ hxl) (hl y (List.mem_of_getElem? hli) hy.1 i (lt_of_lt_of_le (List.getElem?_eq_some_iff.1 hli).1 le_rfl))
            · exact h
          · rintro rfl
            rw [if_neg (fun h => hm h.2)]
      unfold renameStep
      simp only [hget]
      rw [if_pos]
      · apply List.ext_getElem?
        intro i
        rw [List.getElem?_mapIdx, stage_get, stage_get]
        cases hli : l[i]? with
        | none => rfl
        | some y =>
          simp only [Option.map_some, Option.some.injEq]
          by_cases hyx : y = x
          · subst hyx
            have hne : ¬ (1 < l.count y ∧ y ∈ l.take k) := fun h => hm h.2
            rw [if_neg hne, if_pos rfl, if_pos ⟨hc, (htake y).2 (Or.inr rfl)⟩]
          · have h1 : (if 1 < l.count y ∧ y ∈ l.take k then PyName.suffix y i else y) ≠ x := by
              intro he
              have := (hunch i).1 (by rw [stage_get, hli]; simp [he])
              rw [hli] at this
              exact hyx (Option.some.inj this)
            rw [if_neg h1]
            congr 1
            rw [htake]
            simp [hyx]
      · rw [one_lt_count_iff] at hc ⊢
        obtain ⟨i, j, hij, hi, hj⟩ := hc
        exact ⟨i, j, hij, (hunch i).2 hi, (hunch j).2 hj⟩
  · rw [hsame (fun h => hc h.1)]
    rw [if_neg (fun h => hc h.1)] at hget
    unfold renameStep
    simp only [hget]
    rw [if_neg]
    intro h1
    apply hc
    rw [one_lt_count_iff] at h1 ⊢
    obtain ⟨i, j, hij, hi, hj⟩ := h1
    have key : ∀ i : ℕ, (stage l k)[i]? = some x → l[i]? = some x := by
      intro i hi
      rw [stage_get] at hi
      cases hli : l[i]? with
      | none => rw [hli] at hi; simp at hi
      | some y =>
        rw [hli] at hi
        simp only [Option.map_some, Option.some.injEq] at hi
        split at hi
        · rename_i hy
          exact absurd (hi ▸ hxl) (hl y (List.mem_of_getElem? hli) hy.1 i (List.getElem?_eq_some_iff.1 hli).1)
        · rw [hi]
    exact ⟨i, j, hij, key i hi, key j hj⟩

private theorem stage_all {l : List α} (hinj : SuffixInjOn l) (hl : NoClash l) :
    ∀ k ≤ l.length, (List.range k).foldl renameStep l = stage l k := by
  intro k
  induction k with
  | zero =>
    intro _
    apply List.ext_getElem?
    intro i
    rw [stage_get]
    cases h : l[i]? <;> simp [h]
  | succ k ih =>
    intro hk
    rw [List.range_succ, List.foldl_append, ih (by omega)]
    exact stage_step hinj hl (by omega)

/-- Without clashes: repeated names get the suffix of their position, the others stay. -/
theorem renameAll_noClash_on {l : List α} (hinj : SuffixInjOn l) (hl : NoClash l) :
    renameAll l = l.mapIdx fun i y => if 1 < l.count y then PyName.suffix y i else y := by
  unfold renameAll
  split
  · rw [stage_all hinj hl _ le_rfl]
    unfold stage
    apply List.ext_getElem?
    intro i
    rw [List.getElem?_mapIdx, List.getElem?_mapIdx, List.take_length]
    cases hli : l[i]? with
    | none => rfl
    | some y => simp [List.mem_of_getElem? hli]
  · rename_i hn
    rw [card_lt_iff_not_nodup, not_not] at hn
    apply List.ext_getElem?
    intro i
    rw [List.getElem?_mapIdx]
    cases hli : l[i]? with
    | none => rfl
    | some y =>
      have := List.nodup_iff_count_le_one.1 hn y
      simp [show ¬ 1 < l.count y by omega]

theorem renameAll_noClash (hinj : SuffixInj α) {l : List α} (hl : NoClash l) :
    renameAll l = l.mapIdx fun i y => if 1 < l.count y then PyName.suffix y i else y :=
  renameAll_noClash_on (fun x _ y _ => hinj x y) hl

theorem renameAll_noClash_nodup_on {l : List α} (hinj : SuffixInjOn l) (hl : NoClash l) :
    (renameAll l).Nodup := by
  rw [renameAll_noClash_on hinj hl, List.nodup_iff_injective_getElem]
  intro ⟨i, hi⟩ ⟨j, hj⟩ h
  simp only [List.length_mapIdx] at hi hj
  simp only [List.getElem_mapIdx] at h
  have hi' := List.getElem_mem hi
  have hj' := List.getElem_mem hj
  have : i = j := by
    split at h <;> split at h
    · exact (hinj _ hi' _ hj' _ _ h).2
    · rename_i h1 h2
      exact absurd (h ▸ hj') (hl _ hi' h1 i hi)
    · rename_i h1 h2
      exact absurd (h ▸ hi') (hl _ hj' h2 j hj)
    · rename_i h1 h2
      by_contra hij
      exact h1 (one_lt_count_iff.2 ⟨i, j, hij, List.getElem?_eq_getElem hi, by
        rw [List.getElem?_eq_getElem hj, h]⟩)
  simp [this]

theorem renameAll_noClash_nodup (hinj : SuffixInj α) {l : List α} (hl : NoClash l) :
    (renameAll l).Nodup := renameAll_noClash_nodup_on (fun x _ y _ => hinj x y) hl
