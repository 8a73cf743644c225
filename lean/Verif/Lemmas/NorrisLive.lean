/-
The generator of concepts while the context is changed: as long as the names at the positions read stay the same, it
runs as without changes.
-/
import Verif.Model.NorrisLive
import Verif.Lemmas.Lattice

set_option linter.unusedSectionVars false

variable {α β : Type} [DecidableEq α] [DecidableEq β]

theorem pyGet_some {γ : Type} {l : List γ} {i : ℕ} {x : γ} (h : l[i]? = some x) : pyGet l i = .ok x := by
  unfold pyGet; rw [h]

theorem pyGet_none {γ : Type} {l : List γ} {i : ℕ} (h : l[i]? = none) : pyGet l i = .error .indexError := by
  unfold pyGet; rw [h]

/-- The positions `js` carry the rows `seen`. -/
theorem norrisNewLive_eq {names : List α} {exs : List (Finset β)} (c : Concept α β) (D : Finset β) {js : List ℕ}
    {seen : List (α × Finset β)}
    (h : List.Forall₂ (fun j p => exs[j]? = some p.2 ∧ names[j]? = some p.1) js seen) :
    norrisNewLive names exs c.extent D js = .ok (norrisNew seen c D) := by
  induction h with
  | nil => rfl
  | @cons j p js seen hjp _ ih =>
    unfold norrisNewLive
    rw [pyGet_some hjp.1]
    simp only [py_ok_bind]
    by_cases h1 : D ⊆ p.2
    · rw [if_pos h1, pyGet_some hjp.2]
      simp only [py_ok_bind]
      by_cases h2 : p.1 ∈ c.extent
      · rw [if_neg (by simpa using h2), ih]
        simp [norrisNew, h2]
      · rw [if_pos h2]
        simp [norrisNew, h1, h2]
    · rw [if_neg h1, ih]
      simp [norrisNew, h1]

theorem norrisLiveInner_eq {names : ℕ → List α} {exs : List (Finset β)} {i : ℕ} {seen : List (α × Finset β)}
    {p : α × Finset β} (hi : exs[i]? = some p.2) (hp : ∀ t, 1 ≤ t → (names t)[i]? = some p.1)
    (hs : ∀ t, 1 ≤ t →
      List.Forall₂ (fun j p => exs[j]? = some p.2 ∧ (names t)[j]? = some p.1) (List.range i) seen)
    (t : ℕ) (ht : 1 ≤ t) (dn todo news : List (Concept α β)) :
    norrisLiveInner names exs i t dn todo news =
      ((norrisInner seen p dn todo news).1,
        .ok (t + (norrisInner seen p dn todo news).1.length, (norrisInner seen p dn todo news).2)) := by
  induction todo generalizing t dn news with
  | nil => simp [norrisLiveInner, norrisInner]
  | cons c todo ih =>
    simp only [norrisLiveInner, norrisInner, pyGet_some hi, pyGet_some (hp t ht)]
    by_cases h1 : c.intent ⊆ p.2
    · simp only [if_pos h1]
      exact ih t ht _ _
    · simp only [if_neg h1, norrisNewLive_eq c (c.intent ∩ p.2) (hs t ht)]
      cases h2 : norrisNew seen c (c.intent ∩ p.2) with
      | false =>
        simp only [Bool.false_eq_true, if_false]
        exact ih t ht _ _
      | true =>
        simp only [if_true, ih (t + 1) (by omega), List.length_cons]
        refine Prod.ext rfl ?_
        simp only [Except.ok.injEq, Prod.mk.injEq, and_true]
        omega

theorem norrisLiveLoop_eq {names : ℕ → List α} {exs : List (Finset β)} (tail : List ℕ)
    (seen rest : List (α × Finset β))
    (hr : ∀ (j : ℕ) p, (seen ++ rest)[j]? = some p → exs[j]? = some p.2 ∧ ∀ t, 1 ≤ t → (names t)[j]? = some p.1)
    (t : ℕ) (ht : 1 ≤ t) (cs : List (Concept α β)) :
    norrisLiveLoop names exs (List.range' seen.length rest.length ++ tail) t cs =
      ((norrisLoop seen rest cs).1 ++
          (norrisLiveLoop names exs tail (t + (norrisLoop seen rest cs).1.length) (norrisLoop seen rest cs).2).1,
        (norrisLiveLoop names exs tail (t + (norrisLoop seen rest cs).1.length) (norrisLoop seen rest cs).2).2) := by
  induction rest generalizing seen t cs with
  | nil => simp [norrisLoop]
  | cons p rest ih =>
    have e : seen ++ p :: rest = (seen ++ [p]) ++ rest := by simp
    have hi := hr seen.length p (by simp)
    have hs : ∀ t, 1 ≤ t → List.Forall₂ (fun j p => exs[j]? = some p.2 ∧ (names t)[j]? = some p.1)
        (List.range seen.length) seen := by
      intro t ht
      rw [List.forall₂_iff_get]
      refine ⟨by simp, fun j h1 h2 => ?_⟩
      obtain ⟨a, b⟩ := hr j seen[j] (by rw [List.getElem?_append_left h2, List.getElem?_eq_getElem h2])
      simpa using ⟨a, b t ht⟩
    have ih' := ih (seen ++ [p]) (by rw [← e]; exact hr) (t + (norrisInner seen p [] cs []).1.length) (by omega)
      (norrisInner seen p [] cs []).2
    rw [List.length_append, List.length_singleton] at ih'
    rw [List.length_cons, List.range'_succ, List.cons_append]
    simp only [norrisLiveLoop, norrisLiveInner_eq hi.1 hi.2 hs t ht, ih', norrisLoop, List.length_append,
      List.append_assoc, Nat.add_assoc]

/-- A position without a row raises IndexError. -/
theorem norrisLiveLoop_beyond {names : ℕ → List α} {exs : List (Finset β)} {i : ℕ} (h : exs[i]? = none) (is : List ℕ)
    (t : ℕ) {cs : List (Concept α β)} (hcs : cs ≠ []) :
    norrisLiveLoop names exs (i :: is) t cs = ([], .error .indexError) := by
  cases cs with
  | nil => exact absurd rfl hcs
  | cons c cs => simp [norrisLiveLoop, norrisLiveInner, pyGet_none h]

theorem norrisLoop_ne_nil (seen rest : List (α × Finset β)) {cs : List (Concept α β)} (h : cs ≠ []) :
    (norrisLoop seen rest cs).2 ≠ [] := by
  intro h0
  have := norrisLoop_prefix seen rest cs
  rw [h0] at this
  simp at this
  exact h this
