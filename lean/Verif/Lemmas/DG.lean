import Verif.Lemmas.DGStep

variable {α : Type*} [DecidableEq α]

open Spec

/-- The implications speak about attributes of `M` only. -/
def Over (M : Finset α) (L : List (Imp α)) : Prop :=
  ∀ i ∈ L, i.premise ⊆ M ∧ i.conclusion ⊆ M

/-- What the generic part of the analysis assumes of the two closure arguments. -/
structure DGSetup (atts : List α) (aclose : Finset α → Py (Finset α))
    (cl : Finset α → Finset α) (close : Finset α → List (Imp α) → Finset α) : Prop where
  nodup : atts.Nodup
  ac : ∀ s, s ⊆ atts.toFinset → aclose s = .ok (cl s)
  ext : ∀ s, s ⊆ atts.toFinset → s ⊆ cl s
  into : ∀ s, s ⊆ atts.toFinset → cl s ⊆ atts.toFinset
  cext : ∀ s L, s ⊆ close s L
  cinto : ∀ s L, s ⊆ atts.toFinset → (∀ i ∈ L, i.conclusion ⊆ atts.toFinset) →
    close s L ⊆ atts.toFinset

theorem dgPush_over {cond : Finset α → Bool} {M : Finset α} {basis : List (Imp α)} {a ac : Finset α}
    (hb : Over M basis) (ha : a ⊆ M) (hac : ac ⊆ M) : Over M (dgPush cond basis a ac) := by
  unfold dgPush
  split
  · intro i hi
    rcases List.mem_append.1 hi with h | h
    · exact hb i h
    · rw [List.mem_singleton] at h; subst h; exact ⟨ha, hac⟩
  · exact hb

theorem mem_dgPush {cond : Finset α → Bool} {basis : List (Imp α)} {a ac : Finset α} {i : Imp α} :
    i ∈ dgPush cond basis a ac ↔ i ∈ basis ∨ (a ≠ ac ∧ cond a = true ∧ i = ⟨a, ac⟩) := by
  unfold dgPush
  split
  · rename_i h
    rw [List.mem_append, List.mem_singleton]
    simp [h.1, h.2]
  · rename_i h
    constructor
    · exact Or.inl
    · rintro (h' | ⟨h1, h2, _⟩)
      · exact h'
      · exact absurd ⟨h1, h2⟩ h

theorem prefix_dgPush {cond : Finset α → Bool} {basis : List (Imp α)} {a ac : Finset α} :
    basis <+: dgPush cond basis a ac := by
  unfold dgPush
  split
  · exact List.prefix_append _ _
  · exact List.prefix_rfl

/-- The main loop ends and everything it adds has the form `P → cl P` with `P ≠ cl P`. -/
theorem dgLoop_generic {atts : List α} {aclose : Finset α → Py (Finset α)}
    {cl : Finset α → Finset α} {close : Finset α → List (Imp α) → Finset α}
    (S : DGSetup atts aclose cl close) {bg : List (Imp α)}
    (hbg : ∀ i ∈ bg, i.conclusion ⊆ atts.toFinset) (cond : Finset α → Bool) (fuel : ℕ) :
    ∀ basis a i, a ⊆ atts.toFinset → i ≤ atts.length → Over atts.toFinset basis →
      (∀ x ∈ basis, lexVal atts x.premise < lexVal atts a) →
      (basis.Pairwise fun x y => lexVal atts x.premise < lexVal atts y.premise) →
      2 ^ atts.length - lexVal atts a ≤ fuel →
      ∃ res, dgLoop atts aclose close bg cond fuel basis a i = some (.ok res) ∧
        (∀ x ∈ res, x ∈ basis ∨ (x.premise ⊆ atts.toFinset ∧ x.conclusion = cl x.premise ∧
          x.premise ≠ x.conclusion ∧ cond x.premise = true)) ∧
        (res.Pairwise fun x y => lexVal atts x.premise < lexVal atts y.premise) := by
  induction fuel with
  | zero => intro basis a i _ _ _ _ _ h; have := lexVal_lt atts a; omega
  | succ fuel ih =>
    intro basis a i ha hi hb hlt hpw hf
    by_cases hcard : a.card < atts.length
    · have hover := dgPush_over (cond := cond) hb ha (S.into a ha)
      have hcon : ∀ i ∈ dgPush cond basis a (cl a) ++ bg, i.conclusion ⊆ atts.toFinset := by
        intro i hi
        rcases List.mem_append.1 hi with h | h
        · exact (hover i h).2
        · exact hbg i h
      have hpw' : (dgPush cond basis a (cl a)).Pairwise
          fun x y => lexVal atts x.premise < lexVal atts y.premise := by
        unfold dgPush
        split
        · rw [List.pairwise_append]
          refine ⟨hpw, by simp, ?_⟩
          intro x hx y hy
          rw [List.mem_singleton] at hy; subst hy
          exact hlt x hx
        · exact hpw
      rcases dgLoop_step S.nodup (Q := fun _ => False) (basis := basis) (bg := bg) (cond := cond)
        hi ha hcard (S.ac a ha) (S.ext a ha)
        (S.into a ha) (fun s => S.cext s _) (by simp) (by simp) (by simp) (by simp) with
        ⟨_, _, h⟩ | ⟨j, b, s, h, hj, hs, hbs, hlex, _⟩
      · refine ⟨_, h close fuel, ?_, hpw'⟩
        intro x hx
        rcases mem_dgPush.1 hx with hx | ⟨h1, h2, rfl⟩
        · exact Or.inl hx
        · exact Or.inr ⟨ha, rfl, h1, h2⟩
      · rw [h close (fun _ _ => rfl)]
        have hbM : b ⊆ atts.toFinset := hbs ▸ S.cinto s _ hs hcon
        have hbv := lexVal_lt atts b
        obtain ⟨res, hres, h1, h2⟩ := ih (dgPush cond basis a (cl a)) b j hbM hj hover (by
          intro x hx
          rcases mem_dgPush.1 hx with hx | ⟨_, _, rfl⟩
          · exact (hlt x hx).trans hlex
          · exact hlex) hpw' (by omega)
        refine ⟨res, hres, ?_, h2⟩
        intro x hx
        rcases h1 x hx with hx | hx
        · rcases mem_dgPush.1 hx with hx | ⟨h1, h2, rfl⟩
          · exact Or.inl hx
          · exact Or.inr ⟨ha, rfl, h1, h2⟩
        · exact Or.inr hx
    · refine ⟨basis, by rw [dgLoop, if_neg hcard], fun x hx => Or.inl hx, hpw⟩

theorem dgBasis_generic {atts : List α} {aclose : Finset α → Py (Finset α)}
    {cl : Finset α → Finset α} {close : Finset α → List (Imp α) → Finset α}
    (S : DGSetup atts aclose cl close) {bg : List (Imp α)}
    (hbg : ∀ i ∈ bg, i.conclusion ⊆ atts.toFinset) (cond : Finset α → Bool) :
    ∃ res, dgBasisFuel atts aclose close bg cond = some (.ok res) ∧
      dgBasis atts aclose close bg cond = .ok res ∧
        (∀ x ∈ res, x.premise ⊆ atts.toFinset ∧ x.conclusion = cl x.premise ∧
          x.premise ≠ x.conclusion ∧ cond x.premise = true) ∧
        (res.Pairwise fun x y => lexVal atts x.premise < lexVal atts y.premise) := by
  obtain ⟨res, h, h1, h2⟩ := dgLoop_generic S hbg cond (2 ^ atts.length + 1) [] (close ∅ bg)
    atts.length (S.cinto ∅ bg (by simp) hbg) le_rfl (by intro i hi; simp at hi) (by simp)
    (by simp) ((Nat.sub_le _ _).trans (Nat.le_succ _))
  refine ⟨res, h, ?_, ?_, h2⟩
  · unfold dgBasis dgBasisFuel; rw [h]; rfl
  · intro x hx
    rcases h1 x hx with h | h
    · simp at h
    · exact h

/-! ### Two closure functions give the same run -/

/-- The list `relative_basis` has pairwise different keys, also different from those of `bg`. -/
def GoodBasis (bg basis : List (Imp α)) : Prop :=
  (basis.map Imp.key).Nodup ∧ ∀ i ∈ basis, ∀ b ∈ bg, i.key ≠ b.key

/-- Non-trivial implications with distinct premises that respect `bg` form a good basis. -/
theorem goodBasis_of {atts : List α} {bg basis : List (Imp α)}
    (hpw : basis.Pairwise fun x y => lexVal atts x.premise < lexVal atts y.premise)
    (hnt : ∀ x ∈ basis, ¬ x.conclusion ⊆ x.premise)
    (hcl : ∀ x ∈ basis, Closed (specImps bg) x.premise) : GoodBasis bg basis := by
  constructor
  · unfold List.Nodup
    rw [List.pairwise_map]
    refine hpw.imp ?_
    intro x y h he
    have : x.premise = y.premise := congrArg Prod.fst he
    rw [this] at h
    omega
  · intro i hi b hb he
    have hp : i.premise = b.premise := congrArg Prod.fst he
    have := (closed_specImps bg i.premise).1 (hcl i hi) b hb (by rw [hp])
    apply hnt i hi
    exact Imp.conclusion_subset_of_key he.symm (by rw [hp]) this

theorem dgLoop_congr {atts : List α} {aclose : Finset α → Py (Finset α)}
    {cl : Finset α → Finset α} {close close' : Finset α → List (Imp α) → Finset α}
    (S : DGSetup atts aclose cl close) {aclose' : Finset α → Py (Finset α)}
    (hac : ∀ s, aclose' s = aclose s ∨ ∃ e, aclose' s = .error e) {bg : List (Imp α)}
    (hbg : ∀ i ∈ bg, i.conclusion ⊆ atts.toFinset)
    (hclosed : ∀ s basis, Closed (specImps bg) (close s (basis ++ bg)))
    (hagree : ∀ basis, GoodBasis bg basis → ∀ s, s ⊆ atts.toFinset →
      close' s (basis ++ bg) = close s (basis ++ bg))
    (cond : Finset α → Bool) (fuel : ℕ) :
    ∀ basis a i, a ⊆ atts.toFinset → i ≤ atts.length → Over atts.toFinset basis →
      Closed (specImps bg) a →
      (∀ x ∈ basis, lexVal atts x.premise < lexVal atts a) →
      (basis.Pairwise fun x y => lexVal atts x.premise < lexVal atts y.premise) →
      (∀ x ∈ basis, ¬ x.conclusion ⊆ x.premise) →
      (∀ x ∈ basis, Closed (specImps bg) x.premise) →
      dgLoop atts aclose' close' bg cond fuel basis a i
        = dgLoop atts aclose' close bg cond fuel basis a i := by
  induction fuel with
  | zero => intros; rfl
  | succ fuel ih =>
    intro basis a i ha hi hb hca hlt hpw hnt hcl
    by_cases hcard : a.card < atts.length
    · rcases hac a with hac' | ⟨e, hac'⟩
      swap
      · rw [dgLoop, dgLoop, if_pos hcard, if_pos hcard, hac']
      have hover := dgPush_over (cond := cond) hb ha (S.into a ha)
      have hcon : ∀ i ∈ dgPush cond basis a (cl a) ++ bg, i.conclusion ⊆ atts.toFinset := by
        intro i hi
        rcases List.mem_append.1 hi with h | h
        · exact (hover i h).2
        · exact hbg i h
      have hpw' : (dgPush cond basis a (cl a)).Pairwise
          fun x y => lexVal atts x.premise < lexVal atts y.premise := by
        unfold dgPush
        split
        · rw [List.pairwise_append]
          refine ⟨hpw, by simp, ?_⟩
          intro x hx y hy
          rw [List.mem_singleton] at hy; subst hy
          exact hlt x hx
        · exact hpw
      have hnt' : ∀ x ∈ dgPush cond basis a (cl a), ¬ x.conclusion ⊆ x.premise := by
        intro x hx
        rcases mem_dgPush.1 hx with hx | ⟨h1, _, rfl⟩
        · exact hnt x hx
        · intro h
          exact h1 (Finset.Subset.antisymm (S.ext a ha) h)
      have hcl' : ∀ x ∈ dgPush cond basis a (cl a), Closed (specImps bg) x.premise := by
        intro x hx
        rcases mem_dgPush.1 hx with hx | ⟨h1, _, rfl⟩
        · exact hcl x hx
        · exact hca
      have hgood := goodBasis_of hpw' hnt' hcl'
      rcases dgLoop_step S.nodup (Q := fun _ => False) (basis := basis) (bg := bg) (cond := cond)
        hi ha hcard (hac'.trans (S.ac a ha)) (S.ext a ha)
        (S.into a ha) (fun s => S.cext s _) (by simp) (by simp) (by simp) (by simp) with
        ⟨_, _, h⟩ | ⟨j, b, s, h, hj, hs, hbs, hlex, _⟩
      · rw [h close, h close']
      · rw [h close (fun _ _ => rfl), h close' (fun s hs => hagree _ hgood s hs)]
        have hbM : b ⊆ atts.toFinset := hbs ▸ S.cinto s _ hs hcon
        apply ih _ b j hbM hj hover (hbs ▸ hclosed s _) _ hpw' hnt' hcl'
        intro x hx
        rcases mem_dgPush.1 hx with hx | ⟨_, _, rfl⟩
        · exact (hlt x hx).trans hlex
        · exact hlex
    · rw [dgLoop, dgLoop, if_neg hcard, if_neg hcard]

theorem dgBasis_congr {atts : List α} {aclose : Finset α → Py (Finset α)}
    {cl : Finset α → Finset α} {close close' : Finset α → List (Imp α) → Finset α}
    (S : DGSetup atts aclose cl close) {aclose' : Finset α → Py (Finset α)}
    (hac : ∀ s, aclose' s = aclose s ∨ ∃ e, aclose' s = .error e) {bg : List (Imp α)}
    (hbg : ∀ i ∈ bg, i.conclusion ⊆ atts.toFinset)
    (hclosed : ∀ s basis, Closed (specImps bg) (close s (basis ++ bg)))
    (hagree : ∀ basis, GoodBasis bg basis → ∀ s, s ⊆ atts.toFinset →
      close' s (basis ++ bg) = close s (basis ++ bg))
    (cond : Finset α → Bool) :
    dgBasisFuel atts aclose' close' bg cond = dgBasisFuel atts aclose' close bg cond := by
  unfold dgBasisFuel
  have h0 := hagree [] ⟨by simp, by simp⟩ ∅ (by simp)
  simp only [List.nil_append] at h0
  rw [h0]
  have hc0 := hclosed ∅ []
  simp only [List.nil_append] at hc0
  apply dgLoop_congr S hac hbg hclosed hagree cond _ [] _ _ (S.cinto ∅ bg (by simp) hbg) le_rfl
    (by intro i hi; simp at hi) hc0 <;> simp

/-! ### The generator -/

theorem dgIterLoop_eq (atts : List α) (aclose : Finset α → Py (Finset α))
    (close : Finset α → List (Imp α) → Finset α) (bg : List (Imp α)) (cond : Finset α → Bool)
    (fuel : ℕ) : ∀ basis a i,
    dgLoop atts aclose close bg cond fuel basis a i =
      match (dgIterLoop atts aclose close bg cond fuel basis a i) with
      | (_, .outOfFuel) => none
      | (_, .raised e) => some (.error e)
      | (ys, .done) => some (.ok (basis ++ ys)) := by
  induction fuel with
  | zero => intros; rfl
  | succ fuel ih =>
    intro basis a i
    unfold dgLoop dgIterLoop
    split
    · match aclose a with
      | .error e => rfl
      | .ok ac =>
        simp only
        have hpush : (if a ≠ ac ∧ cond a = true then basis ++ [(⟨a, ac⟩ : Imp α)] else basis)
            = basis ++ (if a ≠ ac ∧ cond a = true then [(⟨a, ac⟩ : Imp α)] else []) := by
          split <;> simp
        rw [hpush]
        split
        · rw [ih]
          generalize dgIterLoop atts aclose close bg cond fuel _ _ _ = r
          match r with
          | (ys, .outOfFuel) => rfl
          | (ys, .raised e) => rfl
          | (ys, .done) => simp
        · split
          · rfl
          · rw [ih]
            generalize dgIterLoop atts aclose close bg cond fuel _ _ _ = r
            match r with
            | (ys, .outOfFuel) => rfl
            | (ys, .raised e) => rfl
            | (ys, .done) => simp
    · simp
