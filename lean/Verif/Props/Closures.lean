/-
Properties C19-C22: implications and the closure functions of
fca/algorithms/closure_operators.py.
-/
import Verif.Lemmas.LinClosure

variable {α : Type*} [DecidableEq α]

open Spec

/-! ### C19 -/

/-- `imp.is_respected(S)` is true iff the premise is not contained in `S` or the conclusion is. -/
theorem C19_is_respected_iff (i : Imp α) (S : Finset α) :
    i.isRespected S = true ↔ Respects S i.premise i.conclusion :=
  i.isRespected_iff S

/-- On a partial example (certain part `lo`, possible part `hi`) `is_respected` says that some set
between the two respects the implication. -/
theorem C19_is_respected_partial_example (i : Imp α) (lo hi : Finset α) (h : lo ⊆ hi) :
    i.isRespectedPartial (lo, hi) = true ↔
      ∃ S, lo ⊆ S ∧ S ⊆ hi ∧ Respects S i.premise i.conclusion := by
  simp only [Imp.isRespectedPartial, Bool.or_eq_true, decide_eq_true_eq, Bool.not_eq_true',
    decide_eq_false_iff_not]
  constructor
  · intro hr
    by_cases hp : i.premise ⊆ lo
    · have hc := hr.resolve_right (not_not.2 hp)
      refine ⟨hi, h, Finset.Subset.refl _, fun _ x hx => ?_⟩
      by_cases hxp : x ∈ i.premise
      · exact h (hp hxp)
      · exact hc (Finset.mem_sdiff.2 ⟨hx, hxp⟩)
    · exact ⟨lo, Finset.Subset.refl _, h, fun hx => absurd hx hp⟩
  · rintro ⟨S, h1, h2, h3⟩
    by_cases hp : i.premise ⊆ lo
    · exact .inl fun x hx => h2 (h3 (hp.trans h1) (Finset.mem_sdiff.1 hx).1)
    · exact .inr hp

example : (⟨{0}, {1}⟩ : Imp ℕ).isRespectedPartial ({0}, {0, 1}) = true ∧
    (⟨{0}, {1}⟩ : Imp ℕ).isRespectedPartial ({0}, {0}) = false := by decide

/-- Implications that compare equal are respected by the same sets and have the same key. -/
theorem C19_eq_respected (i j : Imp α) (h : i.pyEq j = true) :
    i.key = j.key ∧ ∀ S, i.isRespected S = j.isRespected S := by
  have hk := (Imp.pyEq_iff i j).1 h
  refine ⟨hk, fun S => ?_⟩
  rw [Bool.eq_iff_iff, Imp.isRespected_iff, Imp.isRespected_iff]
  have hp : i.premise = j.premise := congrArg Prod.fst hk
  constructor
  · intro hi hj
    exact Imp.conclusion_subset_of_key hk (hp ▸ hj) (hi (hp ▸ hj))
  · intro hj hi
    exact Imp.conclusion_subset_of_key hk.symm (hp ▸ hi) (hj (hp ▸ hi))

/-- For an implication that is not trivial, `==` decides exactly "respected by the same sets". -/
theorem C19_eq_iff_semantic (i j : Imp α) (hi : ¬ i.conclusion ⊆ i.premise) :
    i.pyEq j = true ↔ ∀ S, Respects S i.premise i.conclusion ↔ Respects S j.premise j.conclusion := by
  constructor
  · intro h S
    rw [← Imp.isRespected_iff, ← Imp.isRespected_iff, (C19_eq_respected i j h).2 S]
  · intro h
    have hji : j.premise ⊆ i.premise := by
      by_contra hn
      have := (h i.premise).2 (fun hp => absurd hp hn)
      exact hi (this (Finset.Subset.refl _))
    have hij : i.premise ⊆ j.premise := by
      by_contra hn
      have hj := (h j.premise).1 (fun hp => absurd hp hn) (Finset.Subset.refl _)
      have := (h i.premise).2 (fun _ => hj.trans hji)
      exact hi (this (Finset.Subset.refl _))
    have hpp : i.premise = j.premise := Finset.Subset.antisymm hij hji
    rw [Imp.pyEq_iff]
    unfold Imp.key Imp.reduced
    rw [Prod.mk.injEq]
    refine ⟨hpp, ?_⟩
    have aux : ∀ a b : Imp α, a.premise = b.premise →
        (∀ S, Respects S a.premise a.conclusion ↔ Respects S b.premise b.conclusion) →
        a.conclusion \ a.premise ⊆ b.conclusion \ b.premise := by
      intro a b hab hS x hx
      obtain ⟨hx1, hx2⟩ := Finset.mem_sdiff.1 hx
      have := (hS (b.premise ∪ b.conclusion)).2 (fun _ => Finset.subset_union_right)
        (hab ▸ Finset.subset_union_left) hx1
      rcases Finset.mem_union.1 this with h | h
      · exact absurd (hab ▸ h) hx2
      · exact Finset.mem_sdiff.2 ⟨h, hab ▸ hx2⟩
    exact Finset.Subset.antisymm (aux i j hpp h) (aux j i hpp.symm fun S => (h S).symm)

example : (⟨{1}, {1, 2}⟩ : Imp ℕ).pyEq ⟨{1}, {2}⟩ = true ∧ ¬ ({1, 2} : Finset ℕ) ⊆ {1} := by decide

/-! ### C20 -/

/-- The loop of `simple_closure` ends. -/
theorem C20_simple_closure_terminates (s : Finset α) (imps : List (Imp α)) :
    (simpleLoop (imps.length + 1) imps s).isSome = true :=
  simpleLoop_isSome s imps

/-- `simple_closure(s, imps)` is the least superset of `s` respecting all implications. -/
theorem C20_simple_closure (s : Finset α) (imps : List (Imp α)) :
    IsLeastClosed (specImps imps) s (simpleClosure s imps) :=
  simpleClosure_isLeast s imps

example : simpleClosure {1, 5} [⟨{3, 5}, {1, 2, 4}⟩, ⟨{1}, {2, 3}⟩, ⟨{1}, {2, 3}⟩]
    = ({1, 2, 3, 4, 5} : Finset ℕ) := by decide

/-! ### C21 -/

/-- The full claim (for every list) is false: with a repeated implication the shared counter
is decreased twice per attribute, and a conclusion is added although its premise is not contained in the
set. -/
theorem C21_lin_closure_duplicates_violated :
    ∃ (s : Finset (Fin 3)) (imps : List (Imp (Fin 3))),
      ∀ ord : ℕ → SetOrder (Fin 3), ∀ ord₀ : SetOrder (Fin 3),
        linClosure ord₀ ord s imps ≠ simpleClosure s imps := by
  refine ⟨{0}, [⟨{0, 1}, {2}⟩, ⟨{0, 1}, {2}⟩], ?_⟩
  intro ord ord₀
  have hs : simpleClosure ({0} : Finset (Fin 3)) [⟨{0, 1}, {2}⟩, ⟨{0, 1}, {2}⟩] = {0} := by decide
  have one : ∀ (o : SetOrder (Fin 3)) (a : Fin 3), o.enum {a} = [a] := by
    intro o a
    have h1 := o.length {a}
    rw [Finset.card_singleton, List.length_eq_one_iff] at h1
    obtain ⟨b, hb⟩ := h1
    have : b ∈ o.enum {a} := by rw [hb]; simp
    rw [o.mem, Finset.mem_singleton] at this
    rw [hb, this]
  have hstart : linStart ({0} : Finset (Fin 3)) [⟨{0, 1}, {2}⟩, ⟨{0, 1}, {2}⟩] = {0} := by decide
  have hfuel : linFuel ({0} : Finset (Fin 3)) [⟨{0, 1}, {2}⟩, ⟨{0, 1}, {2}⟩] = 3 := by decide
  rw [hs]
  unfold linClosure
  rw [if_neg (by simp), hstart, hfuel]
  simp only [one]
  have h1 : (linCounts ([(⟨{0, 1}, {2}⟩ : Imp (Fin 3)), ⟨{0, 1}, {2}⟩].filter
      fun imp => decide (0 ∈ imp.premise)) (fun k => k.1.card)).2 \ {0} = {2} := by decide
  simp only [List.reverse_cons, List.reverse_nil, List.nil_append, linLoop, h1, one,
    List.cons_append]
  have h2 : ∀ count, (linCounts ([(⟨{0, 1}, {2}⟩ : Imp (Fin 3)), ⟨{0, 1}, {2}⟩].filter
      fun imp => decide (2 ∈ imp.premise)) count).2 = ∅ := by
    intro count; rfl
  have h3 : ∀ o : SetOrder (Fin 3), o.enum ∅ = [] := by
    intro o
    have := o.length ∅
    simpa using this
  simp only [h2, Finset.empty_sdiff, h3, List.reverse_nil, List.nil_append]
  show ({0} ∪ {2} ∪ ∅ : Finset (Fin 3)) ≠ {0}
  decide

/-- Partial: for lists without two implications that compare equal, `lin_closure` is the least
closed superset for every iteration order of the sets involved.
(Missing: lists with repeated implications, for which the claim is false.) -/
theorem C21_lin_closure_partial (ord₀ : SetOrder α) (ord : ℕ → SetOrder α) (s : Finset α)
    (imps : List (Imp α)) (hnd : imps.Pairwise fun i j => i.pyEq j = false) :
    IsLeastClosed (specImps imps) s (linClosure ord₀ ord s imps) ∧
      linClosure ord₀ ord s imps = simpleClosure s imps := by
  have hnd' : (imps.map Imp.key).Nodup := by
    unfold List.Nodup
    rw [List.pairwise_map]
    refine hnd.imp ?_
    intro i j h hk
    rw [(Imp.pyEq_iff i j).2 hk] at h
    exact absurd h (by simp)
  have := linClosure_isLeast ord₀ ord s imps hnd'
  exact ⟨this, this.unique (simpleClosure_isLeast s imps)⟩

/-- The `while update` loop of `lin_closure` ends for every list of implications, repeated or
not (the fuel `linFuel` suffices). -/
theorem C21_lin_closure_terminates (ord₀ : SetOrder α) (ord : ℕ → SetOrder α) (s : Finset α)
    (imps : List (Imp α)) :
    (linLoop imps ord (linFuel s imps) (ord₀.enum (linStart s imps)).reverse
      (fun k => k.1.card) (linStart s imps)).isSome = true :=
  linLoop_isSome ord₀ ord s imps

/-- Also for lists with repetitions the result contains the least closed superset. -/
theorem C21_lin_closure_upper (ord₀ : SetOrder α) (ord : ℕ → SetOrder α) (s : Finset α)
    (imps : List (Imp α)) : simpleClosure s imps ⊆ linClosure ord₀ ord s imps :=
  linClosure_superset ord₀ ord s imps

example : [(⟨{2, 3}, {0}⟩ : Imp (Fin 4)), ⟨{0, 3}, {2}⟩, ⟨{0, 1}, {2, 3}⟩, ⟨∅, {3}⟩].Pairwise
    (fun i j => i.pyEq j = false) := by decide
example : linClosure (SetOrder.fin 4) (fun _ => SetOrder.finRev 4) {2}
    [(⟨{2, 3}, {0}⟩ : Imp (Fin 4)), ⟨{0, 3}, {2}⟩, ⟨{0, 1}, {2, 3}⟩, ⟨∅, {3}⟩] = {0, 2, 3} := by
  decide

/-! ### C22 -/

/-- `closure(current, base, imps, k)` is `(True, C)` with `C` the least closed superset of
`current`, if `C` and `current` agree on the first `k` elements of `base`, and `(False, set())`
otherwise. -/
theorem C22_closure (current : Finset α) (base : List α) (imps : List (Imp α)) (k : ℕ)
    (c : Finset α) (hc : IsLeastClosed (specImps imps) current c) :
    ((∀ x ∈ base.take k, (x ∈ c ↔ x ∈ current)) → prefixClosure current base imps k = (true, c)) ∧
    ((∃ x ∈ base.take k, ¬ (x ∈ c ↔ x ∈ current)) →
      prefixClosure current base imps k = (false, ∅)) := by
  have h := closureLoop_spec (base.take k) current c imps hc (imps.length + 2) imps current
    (by omega) (fun i hi => hi) (Finset.Subset.refl _) hc.1 ((agreeOn_iff _ _ _).2 (by simp))
    (fun i hi hn => absurd hi hn)
  unfold prefixClosure
  rw [h]
  constructor
  · intro ha
    simp [(agreeOn_iff _ _ _).2 ha]
  · rintro ⟨x, hx, hn⟩
    have : agreeOn (base.take k) c current ≠ true := by
      intro ha
      exact hn ((agreeOn_iff _ _ _).1 ha x hx)
    simp [this]

/-- The `while` loop of `closure` ends. -/
theorem C22_closure_terminates (current : Finset α) (base : List α) (imps : List (Imp α)) (k : ℕ) :
    (closureLoop (base.take k) current (imps.length + 2) imps current).isSome = true := by
  have h := closureLoop_spec (base.take k) current _ imps (simpleClosure_isLeast current imps)
    (imps.length + 2) imps current
    (by omega) (fun i hi => hi) (Finset.Subset.refl _) (simpleClosure_isLeast current imps).1
    ((agreeOn_iff _ _ _).2 (by simp)) (fun i hi hn => absurd hi hn)
  simp [h]

example : prefixClosure {1} [1, 2, 3] [⟨{1}, {3}⟩] 2 = (true, ({1, 3} : Finset ℕ)) ∧
    prefixClosure {1} [1, 2, 3] [⟨{1}, {2}⟩] 2 = (false, (∅ : Finset ℕ)) := by decide
