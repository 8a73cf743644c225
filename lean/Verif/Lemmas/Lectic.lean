import Verif.SpecLectic
import Mathlib.Data.List.Basic
import Mathlib.Tactic.Ring

namespace Spec

variable {α : Type*} [DecidableEq α]

/-- Number whose binary digits are the memberships of the list elements. -/
def lexVal : List α → Finset α → ℕ
  | [], _ => 0
  | m :: l, A => (if m ∈ A then 2 ^ l.length else 0) + lexVal l A

theorem lexVal_lt (l : List α) (A : Finset α) : lexVal l A < 2 ^ l.length := by
  induction l with
  | nil => simp [lexVal]
  | cons m l ih =>
    simp only [lexVal, List.length_cons, pow_succ]
    split <;> omega

omit [DecidableEq α] in
theorem lecticLt_cons (m : α) (l : List α) (A B : Finset α) :
    LecticLt (m :: l) A B ↔ (m ∉ A ∧ m ∈ B) ∨ ((m ∈ A ↔ m ∈ B) ∧ LecticLt l A B) := by
  constructor
  · rintro ⟨j, x, hj, hA, hB, hag⟩
    match j with
    | 0 =>
      simp only [List.getElem?_cons_zero, Option.some.injEq] at hj
      subst hj
      exact Or.inl ⟨hA, hB⟩
    | j + 1 =>
      simp only [List.getElem?_cons_succ] at hj
      right
      refine ⟨hag m (by simp), j, x, hj, hA, hB, ?_⟩
      intro y hy
      exact hag y (by simp [hy])
  · rintro (⟨hA, hB⟩ | ⟨hm, j, x, hj, hA, hB, hag⟩)
    · exact ⟨0, m, by simp, hA, hB, by intro y hy; simp at hy⟩
    · refine ⟨j + 1, x, by simpa using hj, hA, hB, ?_⟩
      intro y hy
      simp only [List.take_succ_cons, List.mem_cons] at hy
      rcases hy with rfl | hy
      · exact hm
      · exact hag y hy

theorem lecticLt_iff (l : List α) (A B : Finset α) :
    LecticLt l A B ↔ lexVal l A < lexVal l B := by
  induction l with
  | nil => simp [LecticLt, lexVal]
  | cons m l ih =>
    rw [lecticLt_cons, ih]
    have hA := lexVal_lt l A
    have hB := lexVal_lt l B
    simp only [lexVal]
    by_cases h1 : m ∈ A <;> by_cases h2 : m ∈ B <;> simp [h1, h2] <;> omega

theorem lexVal_eq_iff (l : List α) (A B : Finset α) :
    lexVal l A = lexVal l B ↔ ∀ y ∈ l, (y ∈ A ↔ y ∈ B) := by
  induction l with
  | nil => simp [lexVal]
  | cons m l ih =>
    have hA := lexVal_lt l A
    have hB := lexVal_lt l B
    simp only [lexVal, List.mem_cons, forall_eq_or_imp]
    rw [← ih]
    by_cases h1 : m ∈ A <;> by_cases h2 : m ∈ B <;> simp [h1, h2] <;> omega

theorem lexVal_inj {l : List α} {A B : Finset α} (hA : A ⊆ l.toFinset) (hB : B ⊆ l.toFinset)
    (h : lexVal l A = lexVal l B) : A = B := by
  rw [lexVal_eq_iff] at h
  ext y
  constructor
  · intro hy; exact (h y (List.mem_toFinset.1 (hA hy))).1 hy
  · intro hy; exact (h y (List.mem_toFinset.1 (hB hy))).2 hy

theorem lexVal_mono {l : List α} {A B : Finset α} (h : A ⊆ B) : lexVal l A ≤ lexVal l B := by
  induction l with
  | nil => simp [lexVal]
  | cons m l ih =>
    simp only [lexVal]
    by_cases h1 : m ∈ A
    · simp [h1, h h1, ih]
    · simp only [h1, if_false]; omega

theorem lexVal_lt_of_ssubset {l : List α} {A B : Finset α} (hB : B ⊆ l.toFinset) (h : A ⊂ B) :
    lexVal l A < lexVal l B := by
  refine lt_of_le_of_ne (lexVal_mono h.1) ?_
  intro he
  exact h.ne (lexVal_inj (h.1.trans hB) hB he)

omit [DecidableEq α] in
theorem AgreeUpto.mono {l : List α} {i j : ℕ} {A B : Finset α} (h : AgreeUpto l i A B) (hij : j ≤ i) :
    AgreeUpto l j A B := by
  intro y hy
  exact h y ((List.take_prefix_take_left hij).subset hy)

omit [DecidableEq α] in
theorem AgreeUpto.symm {l : List α} {i : ℕ} {A B : Finset α} (h : AgreeUpto l i A B) :
    AgreeUpto l i B A := fun y hy => (h y hy).symm

omit [DecidableEq α] in
theorem AgreeUpto.trans {l : List α} {i : ℕ} {A B C : Finset α} (h : AgreeUpto l i A B)
    (h' : AgreeUpto l i B C) :
    AgreeUpto l i A C := fun y hy => (h y hy).trans (h' y hy)

omit [DecidableEq α] in
theorem AgreeUpto.refl (l : List α) (i : ℕ) (A : Finset α) :
    AgreeUpto l i A A := fun _ _ => Iff.rfl

/-- If `A` is not above `S` and they do not agree up to `i`, the first difference lies
before `i`. -/
theorem exists_diff_of_not_agree {l : List α} {i : ℕ} {A S : Finset α}
    (hlt : lexVal l A < lexVal l S) (hn : ¬ AgreeUpto l i A S) :
    ∃ j x, j < i ∧ l[j]? = some x ∧ x ∉ A ∧ x ∈ S ∧ AgreeUpto l j A S := by
  obtain ⟨j, x, hj, hA, hS, hag⟩ := (lecticLt_iff l A S).2 hlt
  refine ⟨j, x, ?_, hj, hA, hS, hag⟩
  by_contra hji
  exact hn (hag.mono (by omega))

theorem lexVal_lt_of_diff {l : List α} {j : ℕ} {x : α} {A S : Finset α} (hj : l[j]? = some x)
    (hA : x ∉ A) (hS : x ∈ S) (hag : AgreeUpto l j A S) : lexVal l A < lexVal l S :=
  (lecticLt_iff l A S).1 ⟨j, x, hj, hA, hS, hag⟩

omit [DecidableEq α] in
theorem agreeUpto_succ {l : List α} {j : ℕ} {x : α} (hj : l[j]? = some x) (A S : Finset α) :
    AgreeUpto l (j + 1) A S ↔ AgreeUpto l j A S ∧ (x ∈ A ↔ x ∈ S) := by
  unfold AgreeUpto
  rw [List.take_add_one, hj]
  simp only [Option.toList_some, List.mem_append, List.mem_singleton]
  constructor
  · intro h; exact ⟨fun y hy => h y (Or.inl hy), h x (Or.inr rfl)⟩
  · rintro ⟨h1, h2⟩ y (hy | rfl)
    · exact h1 y hy
    · exact h2

end Spec
