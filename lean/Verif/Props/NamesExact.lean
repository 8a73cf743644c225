/-
C02: what holds of the names for every list given to the constructor.
-/
import Verif.Props.Context

set_option linter.unusedSectionVars false

variable {α β : Type} [DecidableEq α] [DecidableEq β] [PyName α] [PyName β]

/-! ### Proof -/

/-- The name at position `i` is not a generated one. -/
def Untouched (l : List α) (i : ℕ) : Prop := ∀ x, l[i]? = some x → ∀ y, x ≠ PyName.suffix y i

theorem renameStep_cases (l : List α) (k i : ℕ) :
    (renameStep l k)[i]? = l[i]? ∨ ¬ Untouched (renameStep l k) i := by
  unfold renameStep
  split
  · exact .inl rfl
  · rename_i x hx
    split
    · rw [List.getElem?_mapIdx]
      cases hi : l[i]? with
      | none => exact .inl rfl
      | some y =>
        by_cases hy : y = x
        · right
          intro h
          refine h (PyName.suffix x i) ?_ x rfl
          rw [List.getElem?_mapIdx, hi]
          simp [hy]
        · left; simp [hy]
    · exact .inl rfl

theorem untouched_of_step {l : List α} {k i : ℕ} (h : Untouched (renameStep l k) i) :
    (renameStep l k)[i]? = l[i]? ∧ Untouched l i := by
  rcases renameStep_cases l k i with he | hn
  · refine ⟨he, fun x hx => h x (by rw [he]; exact hx)⟩
  · exact absurd h hn

theorem renameFold_untouched (l : List α) (k : ℕ) :
    ∀ i, (Untouched ((List.range k).foldl renameStep l) i → ((List.range k).foldl renameStep l)[i]? = l[i]?) ∧
      (i < k → ∀ j x, i ≠ j → Untouched ((List.range k).foldl renameStep l) i →
        Untouched ((List.range k).foldl renameStep l) j →
        ((List.range k).foldl renameStep l)[i]? = some x → ((List.range k).foldl renameStep l)[j]? ≠ some x) := by
  induction k with
  | zero => exact fun i => ⟨fun _ => rfl, fun h => absurd h (Nat.not_lt_zero _)⟩
  | succ k ih =>
    intro i
    rw [List.range_succ, List.foldl_append, List.foldl_cons, List.foldl_nil]
    set cur := (List.range k).foldl renameStep l
    refine ⟨fun h => ?_, fun hik j x hij hi hj hxi hxj => ?_⟩
    · obtain ⟨h1, h2⟩ := untouched_of_step h
      rw [h1, (ih i).1 h2]
    · obtain ⟨hi1, hi2⟩ := untouched_of_step hi
      obtain ⟨hj1, hj2⟩ := untouched_of_step hj
      rw [hi1] at hxi
      rw [hj1] at hxj
      rcases Nat.lt_succ_iff_lt_or_eq.1 hik with hlt | rfl
      · exact (ih i).2 hlt j x hij hi2 hj2 hxi hxj
      · have hcnt : 1 < cur.count x := one_lt_count_iff.2 ⟨i, j, hij, hxi, hxj⟩
        apply hi (PyName.suffix x i) _ x rfl
        unfold renameStep
        simp only [hxi, if_pos hcnt]
        rw [List.getElem?_mapIdx, hxi]
        simp

/-- Equal names at two positions: one of them was given, the other one generated. -/
theorem renameAll_collision (hinj : SuffixInj α) {l : List α} {i j : ℕ} {x : α} (hij : i ≠ j)
    (hi : (renameAll l)[i]? = some x) (hj : (renameAll l)[j]? = some x) :
    (l[i]? = some x ∧ (∀ y, x ≠ PyName.suffix y i) ∧ ∃ y, x = PyName.suffix y j) ∨
      (l[j]? = some x ∧ (∀ y, x ≠ PyName.suffix y j) ∧ ∃ y, x = PyName.suffix y i) := by
  by_cases hn : l.Nodup
  · rw [renameAll_nodup hn] at hi hj
    exact absurd (nodup_idx hn hi hj) hij
  · have he : renameAll l = (List.range l.length).foldl renameStep l := by
      unfold renameAll
      rw [if_pos (card_lt_iff_not_nodup.2 hn)]
    have hlen := renameAll_length l
    rw [he] at hi hj hlen
    have hil : i < l.length := by rw [← hlen]; exact (List.getElem?_eq_some_iff.1 hi).1
    have h := renameFold_untouched l l.length
    set cur := (List.range l.length).foldl renameStep l
    have hU : ∀ m, cur[m]? = some x → (Untouched cur m ↔ ∀ y, x ≠ PyName.suffix y m) := by
      intro m hm
      exact ⟨fun hu y => hu x hm y, fun hu z hz => by rw [hm] at hz; cases hz; exact hu⟩
    by_cases ui : Untouched cur i
    · have uj : ¬ Untouched cur j := fun uj => (h i).2 hil j x hij ui uj hi hj
      left
      refine ⟨by rw [← (h i).1 ui, hi], (hU i hi).1 ui, ?_⟩
      rw [hU j hj] at uj
      push Not at uj
      exact uj
    · rw [hU i hi] at ui
      push Not at ui
      obtain ⟨y, hy⟩ := ui
      right
      have uj : ∀ z, x ≠ PyName.suffix z j := fun z hz => hij (hinj _ _ _ _ (hy.symm.trans hz)).2
      exact ⟨by rw [← (h j).1 ((hU j hj).2 uj), hj], uj, y, hy⟩

namespace Ctx

/-! ### C02 -/

/-- For all lists of names: no name is stored at three positions, and if one is stored at two, it is the name given for
one of them and a generated name (with the number of its position) at the other. -/
theorem C02_at_most_twice (hα : SuffixInj α) (hβ : SuffixInj β) (table : List (List Bool)) (objs : List α) (atts : List β)
    (c : Ctx α β) (hc : make table objs atts = .ok c) :
    (∀ (i j : ℕ) (x : α), i < j → c.objects[i]? = some x → c.objects[j]? = some x →
      (∀ k, k ≠ i → k ≠ j → c.objects[k]? ≠ some x) ∧
      ((objs[i]? = some x ∧ ∃ y, x = PyName.suffix y j) ∨ (objs[j]? = some x ∧ ∃ y, x = PyName.suffix y i))) ∧
    ∀ (i j : ℕ) (x : β), i < j → c.attributes[i]? = some x → c.attributes[j]? = some x →
      (∀ k, k ≠ i → k ≠ j → c.attributes[k]? ≠ some x) ∧
      ((atts[i]? = some x ∧ ∃ y, x = PyName.suffix y j) ∨ (atts[j]? = some x ∧ ∃ y, x = PyName.suffix y i)) := by
  have key : ∀ {γ : Type} [DecidableEq γ] [PyName γ] (_ : SuffixInj γ) (l : List γ) (i j : ℕ) (x : γ), i < j →
      (renameAll l)[i]? = some x → (renameAll l)[j]? = some x →
      (∀ k, k ≠ i → k ≠ j → (renameAll l)[k]? ≠ some x) ∧
      ((l[i]? = some x ∧ ∃ y, x = PyName.suffix y j) ∨ (l[j]? = some x ∧ ∃ y, x = PyName.suffix y i)) := by
    intro γ _ _ hinj l i j x hij hi hj
    have h1 := renameAll_collision hinj hij.ne hi hj
    refine ⟨fun k hki hkj hk => ?_, ?_⟩
    · have h2 := renameAll_collision hinj hki hk hi
      have h3 := renameAll_collision hinj hkj hk hj
      rcases h1 with ⟨-, hu, y, hy⟩ | ⟨-, hu, y, hy⟩
      · rcases h2 with ⟨-, -, z, hz⟩ | ⟨-, -, z, hz⟩
        · exact hu z hz
        · exact hkj (hinj _ _ _ _ (hz.symm.trans hy)).2
      · rcases h3 with ⟨-, -, z, hz⟩ | ⟨-, -, z, hz⟩
        · exact hu z hz
        · exact hki (hinj _ _ _ _ (hz.symm.trans hy)).2
    · rcases h1 with ⟨h, -, hy⟩ | ⟨h, -, hy⟩
      · exact .inl ⟨h, hy⟩
      · exact .inr ⟨h, hy⟩
  rcases make_cases table objs atts with ⟨_, _, h3⟩ | ⟨_, h2⟩
  · rw [h3] at hc
    cases hc
    exact ⟨key hα objs, key hβ atts⟩
  · rw [h2] at hc; cases hc

/-- Names are distinct if no given name looks like one generated for another position. (Missing for C02: the other
lists. Unlike in `C02_distinct_partial` the position matters here, not whether the name is repeated.) -/
theorem C02_own_suffix_partial (hα : SuffixInj α) (hβ : SuffixInj β) (table : List (List Bool)) (objs : List α)
    (atts : List β) (c : Ctx α β) (hc : make table objs atts = .ok c)
    (ho : ∀ (i j : ℕ) (y : α), i ≠ j → i < objs.length → objs[j]? ≠ some (PyName.suffix y i))
    (ha : ∀ (i j : ℕ) (y : β), i ≠ j → i < atts.length → atts[j]? ≠ some (PyName.suffix y i)) :
    c.objects.Nodup ∧ c.attributes.Nodup := by
  have key : ∀ {γ : Type} [DecidableEq γ] [PyName γ] (_ : SuffixInj γ) (l : List γ)
      (_ : ∀ (i j : ℕ) (y : γ), i ≠ j → i < l.length → l[j]? ≠ some (PyName.suffix y i)), (renameAll l).Nodup := by
    intro γ _ _ hinj l hl
    rw [List.nodup_iff_injective_getElem]
    rintro ⟨i, hi⟩ ⟨j, hj⟩ he
    by_contra hne
    have hij : i ≠ j := fun h => hne (Fin.ext h)
    have hi' := List.getElem?_eq_getElem hi
    have hj' := List.getElem?_eq_getElem hj
    rw [renameAll_length] at hi hj
    have he' : (renameAll l)[i] = (renameAll l)[j] := he
    rw [← he'] at hj'
    rcases renameAll_collision hinj hij hi' hj' with ⟨h, -, y, hy⟩ | ⟨h, -, y, hy⟩
    · exact hl j i y hij.symm hj (by rw [h, ← hy])
    · exact hl i j y hij hi (by rw [h, ← hy])
  rcases make_cases table objs atts with ⟨_, _, h3⟩ | ⟨_, h2⟩
  · rw [h3] at hc
    cases hc
    exact ⟨key hα objs ho, key hβ atts ha⟩
  · rw [h2] at hc; cases hc

/-! ### Cases -/

/-- `a_1` at position 1 is repeated after the first step and then renamed. -/
example : (make [[true, true, true]] ["g".toList] ["a".toList, "a".toList, "a_1".toList]).map (fun c => c.attributes) =
    .ok ["a_0".toList, "a_1_1".toList, "a_1_2".toList] := by decide +kernel

/-- A chain: the collision is with a name that was changed twice. -/
example : (make [[true, true, true, true]] ["g".toList] ["z_3_1".toList, "z_3".toList, "z".toList, "z".toList]).map
    (fun c => c.attributes) = .ok ["z_3_1".toList, "z_3_1".toList, "z_2".toList, "z_3_3".toList] := by decide +kernel

end Ctx
