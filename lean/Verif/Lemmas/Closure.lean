import Verif.Model.Implication

variable {α : Type*} [DecidableEq α]

open Spec

theorem Imp.pyEq_iff (i j : Imp α) : i.pyEq j = true ↔ i.key = j.key := by
  simp [Imp.pyEq, Imp.key]

theorem Imp.isRespected_iff (i : Imp α) (s : Finset α) :
    i.isRespected s = true ↔ Respects s i.premise i.conclusion := by
  unfold Imp.isRespected Respects Imp.reduced
  simp only [Bool.or_eq_true, Bool.not_eq_true', decide_eq_false_iff_not, decide_eq_true_eq]
  constructor
  · rintro (h | h) hp
    · exact absurd hp h
    · intro x hx
      by_cases hxp : x ∈ i.premise
      · exact hp hxp
      · exact h (Finset.mem_sdiff.2 ⟨hx, hxp⟩)
  · intro h
    by_cases hp : i.premise ⊆ s
    · right
      exact Finset.sdiff_subset.trans (h hp)
    · exact Or.inl hp

omit [DecidableEq α] in
theorem closed_specImps (L : List (Imp α)) (S : Finset α) :
    Closed (specImps L) S ↔ ∀ i ∈ L, i.premise ⊆ S → i.conclusion ⊆ S := by
  unfold Closed specImps Respects Imp.toSpec
  simp

/-- An implication and one equal to it in Python's sense have the same effect. -/
theorem Imp.conclusion_subset_of_key {i j : Imp α} (h : i.key = j.key) {S : Finset α}
    (hp : i.premise ⊆ S) (hj : i.conclusion ⊆ S) : j.conclusion ⊆ S := by
  simp only [Imp.key, Imp.reduced, Prod.mk.injEq] at h
  intro x hx
  by_cases hxp : x ∈ j.premise
  · exact hp (h.1 ▸ hxp)
  · have : x ∈ j.conclusion \ j.premise := Finset.mem_sdiff.2 ⟨hx, hxp⟩
    rw [← h.2] at this
    exact hj (Finset.mem_sdiff.1 this).1

/-! ### simple_closure -/

/-- Generalised fold of `simplePass`. -/
def simpleFold (unused : List (Imp α)) (st : Finset α × Bool × List (Imp α)) :=
  unused.foldl (fun st imp =>
    if imp.premise ⊆ st.1 then (st.1 ∪ imp.conclusion, true, imp :: st.2.2) else st) st

theorem simpleFold_spec (unused : List (Imp α)) (st : Finset α × Bool × List (Imp α)) :
    let r := simpleFold unused st
    st.1 ⊆ r.1 ∧
    (∀ d, st.1 ⊆ d → (∀ i ∈ unused, i.premise ⊆ d → i.conclusion ⊆ d) → r.1 ⊆ d) ∧
    (∀ x ∈ r.2.2, x ∈ st.2.2 ∨ (x ∈ unused ∧ x.premise ⊆ r.1 ∧ x.conclusion ⊆ r.1)) ∧
    (∀ x ∈ st.2.2, x ∈ r.2.2) ∧
    (st.2.1 = true → r.2.1 = true) ∧
    (r.2.1 = true → st.2.1 = true ∨ ∃ x ∈ unused, x ∈ r.2.2) ∧
    (r.2.1 = false → r = st ∧ ∀ i ∈ unused, ¬ i.premise ⊆ st.1) := by
  induction unused generalizing st with
  | nil => simp [simpleFold]
  | cons i rest ih =>
    have key : simpleFold (i :: rest) st = simpleFold rest
        (if i.premise ⊆ st.1 then (st.1 ∪ i.conclusion, true, i :: st.2.2) else st) := rfl
    rw [key]
    by_cases h : i.premise ⊆ st.1
    · rw [if_pos h]
      obtain ⟨h1, h2, h3, h4, h5, h6, h7⟩ := ih (st.1 ∪ i.conclusion, true, i :: st.2.2)
      refine ⟨Finset.subset_union_left.trans h1, ?_, ?_, ?_, ?_, ?_, ?_⟩
      · intro d hd hi
        apply h2 d
        · exact Finset.union_subset hd (hi i (by simp) (h.trans hd))
        · intro j hj; exact hi j (by simp [hj])
      · intro x hx
        rcases h3 x hx with hx | ⟨hx, hx'⟩
        · rcases List.mem_cons.1 hx with rfl | hx
          · right
            exact ⟨by simp, (h.trans Finset.subset_union_left).trans h1,
              Finset.subset_union_right.trans h1⟩
          · exact Or.inl hx
        · right; exact ⟨by simp [hx], hx'⟩
      · intro x hx; exact h4 x (by simp [hx])
      · intro _; exact h5 rfl
      · intro _; exact Or.inr ⟨i, by simp, h4 i (by simp)⟩
      · intro hf
        have := h5 rfl
        rw [this] at hf; cases hf
    · rw [if_neg h]
      obtain ⟨h1, h2, h3, h4, h5, h6, h7⟩ := ih st
      refine ⟨h1, ?_, ?_, h4, h5, ?_, ?_⟩
      · intro d hd hi
        exact h2 d hd fun j hj => hi j (by simp [hj])
      · intro x hx
        rcases h3 x hx with hx | ⟨hx, hx'⟩
        · exact Or.inl hx
        · right; exact ⟨by simp [hx], hx'⟩
      · intro hr
        rcases h6 hr with h' | ⟨x, hx, hx'⟩
        · exact Or.inl h'
        · exact Or.inr ⟨x, by simp [hx], hx'⟩
      · intro hf
        obtain ⟨e, hn⟩ := h7 hf
        refine ⟨e, ?_⟩
        intro j hj
        rcases List.mem_cons.1 hj with rfl | hj
        · exact h
        · exact hn j hj

/-- Loop invariant: the current set `cl` lies between `s` and every closed superset of `s`,
and implications no longer in `unused` are satisfied by every superset of `cl`. -/
theorem simpleLoop_spec (imps : List (Imp α)) (s : Finset α) (fuel : ℕ) :
    ∀ (unused : List (Imp α)) (cl : Finset α), unused.length < fuel → s ⊆ cl →
      (∀ i ∈ unused, i ∈ imps) →
      (∀ d, s ⊆ d → Closed (specImps imps) d → cl ⊆ d) →
      (∀ i ∈ imps, i ∉ unused → i.conclusion ⊆ cl) →
      ∃ c, simpleLoop fuel unused cl = some c ∧ IsLeastClosed (specImps imps) s c := by
  induction fuel with
  | zero => intro unused cl h; omega
  | succ fuel ih =>
    intro unused cl hlen hs hsub hmin hdone
    obtain ⟨h1, h2, h3, h4, h5, h6, h7⟩ := simpleFold_spec unused (cl, false, [])
    have e : simplePass unused cl = simpleFold unused (cl, false, []) := rfl
    rw [← e] at h1 h2 h3 h4 h5 h6 h7
    unfold simpleLoop
    simp only
    by_cases hc : (simplePass unused cl).2.1 = true
    · rw [if_pos hc]
      apply ih
      · -- shorter
        rcases h6 hc with h | ⟨x, hx, hx'⟩
        · simp at h
        · have : (unused.filter fun imp => !((simplePass unused cl).2.2.any fun y => y.pyEq imp)).length
              < unused.length := by
            apply List.length_filter_lt_length_iff_exists.2
            refine ⟨x, hx, ?_⟩
            simp only [Bool.not_eq_true', Bool.not_eq_false, List.any_eq_true]
            exact ⟨x, hx', by simp [Imp.pyEq]⟩
          omega
      · exact hs.trans h1
      · intro i hi
        exact hsub i (List.mem_of_mem_filter hi)
      · intro d hd hcl
        refine h2 d (hmin d hd hcl) ?_
        intro i hi hp
        exact (closed_specImps imps d).1 hcl i (hsub i hi) hp
      · intro i hi hnot
        by_cases hu : i ∈ unused
        · rw [List.mem_filter] at hnot
          simp only [hu, true_and, Bool.not_eq_true', Bool.not_eq_false, List.any_eq_true] at hnot
          obtain ⟨x, hx, hxe⟩ := hnot
          rcases h3 x hx with hx | ⟨_, hp, hcn⟩
          · simp at hx
          · exact Imp.conclusion_subset_of_key ((Imp.pyEq_iff _ _).1 hxe) hp hcn
        · exact (hdone i hi hu).trans h1
    · rw [if_neg hc]
      have hc' : (simplePass unused cl).2.1 = false := by simpa using hc
      obtain ⟨e', hn⟩ := h7 hc'
      refine ⟨_, rfl, ?_⟩
      rw [e']
      refine ⟨hs, ?_, fun d hd hcl => hmin d hd hcl⟩
      rw [closed_specImps]
      intro i hi hp
      by_cases hu : i ∈ unused
      · exact absurd hp (hn i hu)
      · exact hdone i hi hu

theorem simpleLoop_isSome (s : Finset α) (imps : List (Imp α)) :
    (simpleLoop (imps.length + 1) imps s).isSome = true := by
  obtain ⟨c, hc, _⟩ := simpleLoop_spec imps s (imps.length + 1) imps s (by omega) (Finset.Subset.refl _)
    (fun i hi => hi) (fun d hd _ => hd) (fun i hi h => absurd hi h)
  simp [hc]

theorem simpleClosure_isLeast (s : Finset α) (imps : List (Imp α)) :
    IsLeastClosed (specImps imps) s (simpleClosure s imps) := by
  obtain ⟨c, hc, h⟩ := simpleLoop_spec imps s (imps.length + 1) imps s (by omega) (Finset.Subset.refl _)
    (fun i hi => hi) (fun d hd _ => hd) (fun i hi h => absurd hi h)
  unfold simpleClosure
  rw [hc]; exact h
