/-
Property C125: what tests/algorithms/test_aibasis.py checks on a random context, for every context; the
incremental algorithm with `lin_closure`.
-/
import Verif.Props.AIBasis

set_option linter.unusedSectionVars false

open Spec AI

variable {α β : Type} [DecidableEq α] [DecidableEq β]

/-- The premises returned are pairwise distinct, whatever permutation the sort produces; and it suffices that `close`
is right on lists whose premises are pairwise distinct. -/
theorem C125_sound_complete {c : Ctx α β} (h : c.WFw) (hne : c.objects ≠ [])
    (sort : List (Pre α β) → List (Pre α β)) (close : Finset β → List (Imp β) → Finset β)
    (hsort : ∀ l, (sort l).Perm l)
    (hclose : ∀ s L, (L.map Imp.premise).Nodup → IsLeastClosed (specImps L) s (close s L)) :
    ∃ basis, computeCanonicalBasis sort close c = .ok basis ∧ (basis.map Imp.premise).Nodup ∧
      (∀ i ∈ basis, i.premise ⊆ c.M ∧ i.conclusion = attrClosure c.G c.M c.Inc i.premise ∧
        i.conclusion ≠ i.premise) ∧
      (∀ S, S ⊆ c.M → (Closed (specImps basis) S ↔ attrClosure c.G c.M c.Inc S = S)) := by
  obtain ⟨pre, basis, h1, h2, -⟩ := main h (h.cols hne) hsort hclose
  have hcc := clo_eq_attrClosure h
  have hb : ∀ i ∈ basis, i.premise ⊆ c.M ∧ i.conclusion = attrClosure c.G c.M c.Inc i.premise ∧
      i.conclusion ≠ i.premise := by
    intro i hi
    obtain ⟨p, hp, C, hC, rfl⟩ := mem_imps.1 (h2.perm.mem_iff.1 hi)
    obtain ⟨h3, h4⟩ := (h2.ok p hp).concl_eq hC
    exact ⟨(h2.ok p hp).sub, hcc ▸ h3, h4⟩
  refine ⟨basis, h1, h2.nd, hb, ?_⟩
  intro S hS
  rw [closed_specImps]
  constructor
  · intro hS'
    rw [← hcc]
    exact h2.complete S hS hS'
  · intro hS' i hi hpi
    rw [(hb i hi).2.1, ← hS']
    exact h.attrClosure_op.mono _ _ hpi hS

theorem linClosure_least_of_premises (ord₀ : SetOrder β) (ord : ℕ → SetOrder β) (s : Finset β) (L : List (Imp β))
    (h : (L.map Imp.premise).Nodup) : IsLeastClosed (specImps L) s (linClosure ord₀ ord s L) := by
  refine linClosure_isLeast ord₀ ord s L ?_
  refine List.Nodup.of_map Prod.fst ?_
  rw [List.map_map]
  exact h

/-- `compute_canonical_basis(cxt, close=lin_closure)` is sound and complete with pairwise distinct premises. -/
theorem C125_lin_closure {c : Ctx α β} (h : c.WFw) (hne : c.objects ≠ [])
    (sort : List (Pre α β) → List (Pre α β)) (hsort : ∀ l, (sort l).Perm l) (ord₀ : SetOrder β) (ord : ℕ → SetOrder β) :
    ∃ basis, computeCanonicalBasis sort (linClosure ord₀ ord) c = .ok basis ∧ (basis.map Imp.premise).Nodup ∧
      (∀ i ∈ basis, i.premise ⊆ c.M ∧ i.conclusion = attrClosure c.G c.M c.Inc i.premise ∧
        i.conclusion ≠ i.premise) ∧
      (∀ S, S ⊆ c.M → (Closed (specImps basis) S ↔ attrClosure c.G c.M c.Inc S = S)) :=
  C125_sound_complete h hne sort _ hsort (linClosure_least_of_premises ord₀ ord)

/-- If every implication of a list has a conclusion that is the closure of its premise, and the sets of attributes that
respect the list are the closed ones, then the least superset of any set `s` that respects the list is `s` with the closure of
the attributes in `s`. -/
theorem least_of_complete {M : Finset β} {cl : Finset β → Finset β} (hcl : IsClosureOp M cl) {L : List (Imp β)}
    (h1 : ∀ i ∈ L, i.premise ⊆ M ∧ i.conclusion = cl i.premise)
    (h2 : ∀ S, S ⊆ M → Closed (specImps L) S → cl S = S) {s d : Finset β} (hd : IsLeastClosed (specImps L) s d) :
    d = s ∪ cl (s ∩ M) := by
  have hM : cl (s ∩ M) ⊆ M := hcl.into _ Finset.inter_subset_right
  apply Finset.Subset.antisymm
  · refine hd.2.2 _ Finset.subset_union_left ?_
    rw [closed_specImps]
    intro i hi hp
    obtain ⟨hi1, hi2⟩ := h1 i hi
    have hp' : i.premise ⊆ cl (s ∩ M) := by
      intro x hx
      rcases Finset.mem_union.1 (hp hx) with hs | hs
      · exact hcl.ext _ Finset.inter_subset_right (Finset.mem_inter.2 ⟨hs, hi1 hx⟩)
      · exact hs
    rw [hi2]
    refine Finset.Subset.trans ?_ Finset.subset_union_right
    rw [← hcl.idem _ Finset.inter_subset_right]
    exact hcl.mono _ _ hp' hM
  · refine Finset.union_subset hd.1 ?_
    have hc : Closed (specImps L) (d ∩ M) := by
      rw [closed_specImps]
      intro i hi hp
      have := (closed_specImps L d).1 hd.2.1 i hi (hp.trans Finset.inter_subset_left)
      obtain ⟨hi1, hi2⟩ := h1 i hi
      exact Finset.subset_inter this (hi2 ▸ hcl.into _ hi1)
    have he := h2 _ Finset.inter_subset_right hc
    refine Finset.Subset.trans ?_ (he.subset.trans Finset.inter_subset_left)
    exact hcl.mono _ _ (Finset.inter_subset_inter_right hd.1) Finset.inter_subset_right

/-- test_aibasis.py `test_same_closure`: `lin_closure` gives the same set for the incremental basis and for the
Duquenne-Guigues basis, for every set (the closure in the context, if it consists of attributes). -/
theorem C125_same_closure {c : Ctx α β} (h : c.WFw) (hne : c.objects ≠ [])
    (sort : List (Pre α β) → List (Pre α β)) (hsort : ∀ l, (sort l).Perm l) (ordA : SetOrder β) (ordO : SetOrder α)
    (ord₀ : ℕ → SetOrder β) (ord : ℕ → ℕ → SetOrder β) :
    ∃ ai nc, computeCanonicalBasis sort simpleClosure c = .ok ai ∧
      c.computeDgBasis ordA ordO (ord₀ 0) (ord 0) [] (fun _ => true) = .ok nc ∧
      ∀ s, linClosure (ord₀ 1) (ord 1) s ai = linClosure (ord₀ 2) (ord 2) s nc ∧
        (s ⊆ c.M → linClosure (ord₀ 1) (ord 1) s ai = attrClosure c.G c.M c.Inc s) := by
  obtain ⟨ai, h1, h2, h3, h4⟩ := C125_sound_complete h hne sort simpleClosure hsort fun s L _ => simpleClosure_isLeast s L
  have hstd : Ctx.StdClose [] (linClosure (ord₀ 0) (ord 0)) := Or.inr ⟨_, _, rfl, by simp⟩
  obtain ⟨nc, hnc⟩ := Ctx.C24_basis_returns h hne ordA ordO _ [] (Or.inr ⟨_, _, rfl, by simp⟩) (by simp) (fun _ => true)
  have hv : c.ValidBg [] := by intro i hi; simp at hi
  have h5 := Ctx.C26_basis_pseudo_intents h ordA ordO _ [] hstd hv nc hnc
  refine ⟨ai, nc, h1, hnc, ?_⟩
  intro s
  have hop := h.attrClosure_op
  have e1 := least_of_complete hop (fun i hi => ⟨(h3 i hi).1, (h3 i hi).2.1⟩) (fun S hS => (h4 S hS).1)
    (linClosure_least_of_premises (ord₀ 1) (ord 1) s ai h2)
  have e2 := least_of_complete hop (L := nc)
    (fun i hi => ⟨((isPseudo_iff.1 ((h5.1 i.premise).1 (List.mem_map_of_mem hi))).1).1, h5.2.1 i hi⟩) (by
      intro S hS hc
      have := Ctx.C25_basis_closure h ordA ordO _ [] hstd hv nc hnc S hS
      rw [List.append_nil] at this
      exact Finset.Subset.antisymm (this.2.2 S (Finset.Subset.refl _) hc) this.1)
    (linClosure_least_of_premises (ord₀ 2) (ord 2) s nc h5.2.2.1)
  refine ⟨e1.trans e2.symm, fun hs => ?_⟩
  rw [e1, Finset.inter_eq_left.2 hs]
  exact Finset.union_eq_right.2 (hop.ext _ hs)

/-- test_aibasis.py `test_basis_length`, the half that is true: the incremental basis is never shorter. What is missing is
equality, see `C125_length_violated`; `C32_incremental_eq_dg_partial` gives it for sorts that respect inclusion. -/
theorem C125_length_partial {c : Ctx α β} (h : c.WFw) (hne : c.objects ≠ [])
    (sort : List (Pre α β) → List (Pre α β)) (hsort : ∀ l, (sort l).Perm l) (ordA : SetOrder β) (ordO : SetOrder α)
    (ord₀ : SetOrder β) (ord : ℕ → SetOrder β) :
    ∃ ai nc, computeCanonicalBasis sort simpleClosure c = .ok ai ∧
      c.computeDgBasis ordA ordO ord₀ ord [] (fun _ => true) = .ok nc ∧ nc.length ≤ ai.length := by
  obtain ⟨ai, h1, h2, h3, h4⟩ := C125_sound_complete h hne sort simpleClosure hsort fun s L _ => simpleClosure_isLeast s L
  have hstd : Ctx.StdClose [] (linClosure ord₀ ord) := Or.inr ⟨_, _, rfl, by simp⟩
  obtain ⟨nc, hnc⟩ := Ctx.C24_basis_returns h hne ordA ordO _ [] (Or.inr ⟨_, _, rfl, by simp⟩) (by simp) (fun _ => true)
  have hv : c.ValidBg [] := by intro i hi; simp at hi
  refine ⟨ai, nc, h1, hnc, ?_⟩
  have hop := h.attrClosure_op
  have := Ctx.C27_basis_minimal h ordA ordO _ [] hstd hv nc hnc (specImps ai) ?_ ?_ ?_
  · simpa [specImps] using this
  · intro pc hpc
    obtain ⟨i, hi, rfl⟩ := List.mem_map.1 hpc
    show i.conclusion ⊆ c.M
    rw [(h3 i hi).2.1]
    exact hop.into _ (h3 i hi).1
  · intro pc hpc
    obtain ⟨i, hi, rfl⟩ := List.mem_map.1 hpc
    show HoldsIn c.G c.Inc i.premise i.conclusion
    have hs := hop.into _ (h3 i hi).1
    rw [(h3 i hi).2.1, Ctx.holdsIn_iff h hs]
  · intro P C hP hC hPC
    rw [Ctx.holdsIn_iff h hC] at hPC
    intro S hS hPS
    rw [show specImps ([] : List (Imp β)) = [] from rfl, List.append_nil] at hS
    have hl := simpleClosure_isLeast P ai
    have e := least_of_complete hop (fun i hi => ⟨(h3 i hi).1, (h3 i hi).2.1⟩) (fun S hS => (h4 S hS).1) hl
    rw [Finset.inter_eq_left.2 hP] at e
    refine hPC.trans (Finset.Subset.trans ?_ (hl.2.2 S hPS hS))
    rw [e]
    exact Finset.subset_union_right

/-- `test_basis_length` fails for `bad`: with CPython's sort the incremental basis has six implications, the
Duquenne-Guigues basis at most five, whatever the orders of the sets. -/
theorem C125_length_violated (ordA : SetOrder (Fin 5)) (ordO : SetOrder (Fin 2)) (ord₀ : SetOrder (Fin 5))
    (ord : ℕ → SetOrder (Fin 5)) :
    ∃ ai nc, computeCanonicalBasis (pySortShort Pre.lt) simpleClosure bad = .ok ai ∧
      bad.computeDgBasis ordA ordO ord₀ ord [] (fun _ => true) = .ok nc ∧ nc.length < ai.length := by
  obtain ⟨ai', nc, h1, h2, h3⟩ := C125_length_partial bad_wf (by decide) cardSort (fun l => (cardSort_ok l).1) ordA ordO
    ord₀ ord
  have e : computeCanonicalBasis cardSort simpleClosure bad = .ok [⟨∅, {3}⟩, ⟨{3, 4}, {1, 2, 3, 4}⟩,
    ⟨{0, 3}, {0, 1, 2, 3, 4}⟩, ⟨{1, 3}, {1, 2, 3, 4}⟩, ⟨{2, 3}, {1, 2, 3, 4}⟩] := by decide +kernel
  rw [e] at h1
  cases h1
  refine ⟨[⟨∅, {3}⟩, ⟨{3, 4}, {1, 2, 3, 4}⟩, ⟨{1, 2, 3}, {1, 2, 3, 4}⟩, ⟨{0, 3}, {0, 1, 2, 3, 4}⟩,
    ⟨{1, 3}, {1, 2, 3, 4}⟩, ⟨{2, 3}, {1, 2, 3, 4}⟩], nc, by decide +kernel, h2, ?_⟩
  exact Nat.lt_of_le_of_lt h3 (by decide)

/-! ### Concrete cases -/

/-- The hypotheses hold for `bad` and CPython's sort. -/
example : bad.WFw ∧ bad.objects ≠ [] ∧ ∀ l : List (Pre (Fin 2) (Fin 5)), (pySortShort Pre.lt l).Perm l :=
  ⟨bad_wf, by decide, pySortShort_perm _⟩

/-- With `lin_closure` the result for `bad` is the same. -/
example : computeCanonicalBasis (pySortShort Pre.lt) (linClosure (SetOrder.fin 5) fun _ => SetOrder.finRev 5) bad =
    computeCanonicalBasis (pySortShort Pre.lt) simpleClosure bad := by decide +kernel
