import Verif.Lemmas.DGEmpty

variable {α : Type*} [DecidableEq α]

open Spec

/-- With any condition on the premises: a set `S` that respects the background, is not closed, meets the condition and
contains `cl T`, as a proper subset, for each proper subset `T` respecting the background is among the premises. -/
theorem dgLoop_cond {atts : List α} {aclose : Finset α → Py (Finset α)}
    {cl : Finset α → Finset α} {close : Finset α → List (Imp α) → Finset α}
    (S : DGSetup atts aclose cl close) {bg : List (Imp α)}
    (hbgo : ∀ i ∈ bg, i.conclusion ⊆ atts.toFinset)
    (hclose : ∀ basis, GoodBasis bg basis → ∀ s, s ⊆ atts.toFinset →
      IsLeastClosed (specImps (basis ++ bg)) s (close s (basis ++ bg)))
    {cond : Finset α → Bool} {Z : Finset α} (hZM : Z ⊆ atts.toFinset) (hZc : Closed (specImps bg) Z) (hZn : cl Z ≠ Z)
    (hZcond : cond Z = true) (hZq : ∀ T, T ⊂ Z → Closed (specImps bg) T → cl T ⊂ Z) (fuel : ℕ) :
    ∀ basis a i res, i ≤ atts.length → a ⊆ atts.toFinset → Closed (specImps bg) a →
      (AgreeUpto atts i a Z → a ⊆ Z) → lexVal atts a ≤ lexVal atts Z →
      (∀ x ∈ basis, x.premise ⊆ atts.toFinset ∧ Closed (specImps bg) x.premise ∧ x.conclusion = cl x.premise ∧
        x.premise ≠ x.conclusion ∧ lexVal atts x.premise < lexVal atts a) →
      (basis.Pairwise fun x y => lexVal atts x.premise < lexVal atts y.premise) →
      dgLoop atts aclose close bg cond fuel basis a i = some (.ok res) → ⟨Z, cl Z⟩ ∈ res := by
  induction fuel with
  | zero => intro basis a i res _ _ _ _ _ _ _ h; simp [dgLoop] at h
  | succ fuel ih =>
    intro basis a i res hi ha hac hI3 hle hb hpw hrun
    by_cases hcard : a.card < atts.length
    · set push := dgPush cond basis a (cl a) with hpush
      have hb' : ∀ x ∈ push, x.premise ⊆ atts.toFinset ∧ Closed (specImps bg) x.premise ∧ x.conclusion = cl x.premise ∧
          x.premise ≠ x.conclusion ∧ lexVal atts x.premise ≤ lexVal atts a := by
        intro x hx
        rcases mem_dgPush.1 hx with hx | ⟨h1, -, rfl⟩
        · obtain ⟨h1, h2, h3, h4, h5⟩ := hb x hx
          exact ⟨h1, h2, h3, h4, h5.le⟩
        · exact ⟨ha, hac, rfl, h1, le_rfl⟩
      have hpw' : push.Pairwise fun x y => lexVal atts x.premise < lexVal atts y.premise := by
        rw [hpush]
        unfold dgPush
        split
        · rw [List.pairwise_append]
          refine ⟨hpw, by simp, ?_⟩
          intro x hx y hy
          rw [List.mem_singleton] at hy; subst hy
          exact (hb x hx).2.2.2.2
        · exact hpw
      have hgood : GoodBasis bg push := by
        apply goodBasis_of hpw'
        · intro x hx hsub
          obtain ⟨h1, -, h3, h4, -⟩ := hb' x hx
          exact h4 (Finset.Subset.antisymm (h3 ▸ S.ext _ h1) hsub)
        · exact fun x hx => (hb' x hx).2.1
      have hZcl : lexVal atts a < lexVal atts Z → Closed (specImps (push ++ bg)) Z := by
        intro hlt
        rw [closed_specImps]
        intro x hx hxp
        rcases List.mem_append.1 hx with hx | hx
        · obtain ⟨h1, h2, h3, h4, h5⟩ := hb' x hx
          rw [h3]
          refine (hZq _ (Finset.ssubset_iff_subset_ne.2 ⟨hxp, ?_⟩) h2).1
          intro he
          rw [he] at h5; omega
        · exact (closed_specImps bg Z).1 hZc x hx hxp
      by_cases haZ : a = Z
      · -- the implication is added in this round and stays
        subst haZ
        have hmem : (⟨a, cl a⟩ : Imp α) ∈ push := mem_dgPush.2 (.inr ⟨fun h => hZn h.symm, hZcond, rfl⟩)
        rcases dgLoop_step S.nodup (Q := fun _ => False) (basis := basis) (bg := bg) (cond := cond)
          hi ha hcard (S.ac a ha) (S.ext a ha)
          (S.into a ha) (fun s => S.cext s _) (by simp) (by simp) (by simp) (by simp) with
          ⟨_, _, h⟩ | ⟨j, b, s, h, -, -, -, -, -⟩
        · rw [h close fuel] at hrun
          obtain rfl : push = res := by injection hrun with h; injection h
          exact hmem
        · rw [h close (fun _ _ => rfl)] at hrun
          exact (dgLoop_prefix _ _ _ _ _ hrun).subset hmem
      · have hlt : lexVal atts a < lexVal atts Z := by
          refine lt_of_le_of_ne hle fun he => haZ (lexVal_inj ha hZM he)
        rcases dgLoop_step S.nodup (Q := fun T => T = Z) (basis := basis) (bg := bg) (cond := cond)
          hi ha hcard (S.ac a ha) (S.ext a ha)
          (S.into a ha) (fun s => S.cext s _) (by rintro _ rfl; exact hZM) (by rintro _ rfl _; exact hI3)
          (by rintro _ rfl hss; exact (hZq a hss hac).1)
          (by
            rintro _ rfl - s hs
            exact (hclose push hgood s (hs.trans hZM)).2.2 _ hs (hZcl hlt)) with
          ⟨hfin, -, h⟩ | ⟨j, b, s, h, hj, hs, hbs, hlex, hnext, hI3'⟩
        · exfalso
          have hZE := hfin Z rfl hlt
          apply hZn
          rw [hZE]
          exact Finset.Subset.antisymm (S.into _ (Finset.Subset.refl _)) (S.ext _ (Finset.Subset.refl _))
        · rw [h close (fun _ _ => rfl)] at hrun
          have hleast := hclose push hgood s hs
          rw [show close s (push ++ bg) = b from hbs.symm] at hleast
          have hbM : b ⊆ atts.toFinset := by
            rw [hbs]
            apply S.cinto s _ hs
            intro i hi
            rcases List.mem_append.1 hi with h | h
            · obtain ⟨h1, -, h3, -, -⟩ := hb' i h
              rw [h3]; exact S.into _ h1
            · exact hbgo i h
          have hbZ : lexVal atts b ≤ lexVal atts Z := by
            rcases hnext Z rfl hlt with h | h
            · exfalso
              -- `Z = cl a` with `a ⊂ Z`
              have hss : a ⊂ Z := Finset.ssubset_iff_subset_ne.2 ⟨h ▸ S.ext a ha, haZ⟩
              exact (hZq a hss hac).2 (h ▸ Finset.Subset.refl _)
            · exact h
          refine ih push b j res hj hbM ?_ (hI3' Z rfl hbZ) hbZ ?_ hpw' hrun
          · rw [closed_specImps]
            exact fun x hx => (closed_specImps (push ++ bg) b).1 hleast.2.1 x (List.mem_append_right _ hx)
          · intro x hx
            obtain ⟨h1, h2, h3, h4, h5⟩ := hb' x hx
            exact ⟨h1, h2, h3, h4, by omega⟩
    · exfalso
      have haE : a = atts.toFinset := eq_toFinset_of_card S.nodup ha (by omega)
      have hZE : Z = atts.toFinset := by
        apply lexVal_inj hZM (Finset.Subset.refl _)
        have := lexVal_mono (l := atts) hZM
        rw [haE] at hle
        omega
      apply hZn
      rw [hZE]
      exact Finset.Subset.antisymm (S.into _ (Finset.Subset.refl _)) (S.ext _ (Finset.Subset.refl _))

theorem dgBasis_cond {atts : List α} {aclose : Finset α → Py (Finset α)}
    {cl : Finset α → Finset α} {close : Finset α → List (Imp α) → Finset α}
    (S : DGSetup atts aclose cl close) {bg : List (Imp α)}
    (hbgo : ∀ i ∈ bg, i.conclusion ⊆ atts.toFinset)
    (hclose : ∀ basis, GoodBasis bg basis → ∀ s, s ⊆ atts.toFinset →
      IsLeastClosed (specImps (basis ++ bg)) s (close s (basis ++ bg)))
    {cond : Finset α → Bool} {res : List (Imp α)} (hres : dgBasis atts aclose close bg cond = .ok res)
    {Z : Finset α} (hZM : Z ⊆ atts.toFinset) (hZc : Closed (specImps bg) Z) (hZn : cl Z ≠ Z)
    (hZcond : cond Z = true) (hZq : ∀ T, T ⊂ Z → Closed (specImps bg) T → cl T ⊂ Z) : ⟨Z, cl Z⟩ ∈ res := by
  obtain ⟨res', h1, h2, -, -⟩ := dgBasis_generic S hbgo cond
  rw [h2] at hres
  obtain rfl : res' = res := by injection hres
  have h0 := hclose [] ⟨by simp, by simp⟩ ∅ (by simp)
  simp only [List.nil_append] at h0
  have hsub : close ∅ bg ⊆ Z := h0.2.2 Z (by simp) hZc
  exact dgLoop_cond S hbgo hclose hZM hZc hZn hZcond hZq _ [] (close ∅ bg) atts.length res' le_rfl
    (S.cinto ∅ bg (by simp) hbgo) h0.2.1 (fun _ => hsub) (lexVal_mono hsub) (by simp) (by simp) h1

/-! ### Conditions that pass to subsets -/

/-- As `Preclosed`, for pseudo-intents meeting the condition. -/
def WeakPre (M : Finset α) (L₀ : Imps α) (cl : Finset α → Finset α) (cond : Finset α → Bool) (S : Finset α) : Prop :=
  S ⊆ M ∧ Closed L₀ S ∧ ∀ Q, Q ⊂ S → IsPseudo M L₀ cl Q → cond Q = true → cl Q ⊆ S

omit [DecidableEq α] in
theorem WeakPre.pre {M : Finset α} {L₀ : Imps α} {cl : Finset α → Finset α} {cond : Finset α → Bool} {S : Finset α}
    (h : WeakPre M L₀ cl cond S) (hdown : ∀ S T, S ⊆ T → cond T = true → cond S = true) (hc : cond S = true) :
    Preclosed M L₀ cl S :=
  ⟨h.1, h.2.1, fun Q hQ hp => h.2.2 Q hQ hp (hdown Q S hQ.1 hc)⟩

/-- The main loop with a correct closure function and a condition that passes to subsets computes the pseudo-intents
that meet the condition. -/
theorem dgLoop_hered {atts : List α} {aclose : Finset α → Py (Finset α)}
    {cl : Finset α → Finset α} {close : Finset α → List (Imp α) → Finset α}
    (S : DGSetup atts aclose cl close) (hcl : IsClosureOp atts.toFinset cl) {bg : List (Imp α)}
    (hbgo : ∀ i ∈ bg, i.conclusion ⊆ atts.toFinset)
    (hclose : ∀ basis, GoodBasis bg basis → ∀ s, s ⊆ atts.toFinset →
      IsLeastClosed (specImps (basis ++ bg)) s (close s (basis ++ bg)))
    {cond : Finset α → Bool} (hdown : ∀ S T, S ⊆ T → cond T = true → cond S = true) (fuel : ℕ) :
    ∀ basis a i, i ≤ atts.length →
      WeakPre atts.toFinset (specImps bg) cl cond a →
      (∀ T, Preclosed atts.toFinset (specImps bg) cl T ∧ cond T = true → lexVal atts a ≤ lexVal atts T →
        AgreeUpto atts i a T → a ⊆ T) →
      (∀ x ∈ basis, IsPseudo atts.toFinset (specImps bg) cl x.premise ∧ cond x.premise = true ∧
        x.conclusion = cl x.premise ∧ lexVal atts x.premise < lexVal atts a) →
      (∀ P, IsPseudo atts.toFinset (specImps bg) cl P → cond P = true → lexVal atts P < lexVal atts a →
        ⟨P, cl P⟩ ∈ basis) →
      (basis.Pairwise fun x y => lexVal atts x.premise < lexVal atts y.premise) →
      2 ^ atts.length - lexVal atts a < fuel →
      ∃ res, dgLoop atts aclose close bg cond fuel basis a i = some (.ok res) ∧
        (∀ x, x ∈ res ↔ IsPseudo atts.toFinset (specImps bg) cl x.premise ∧ cond x.premise = true ∧
          x.conclusion = cl x.premise) ∧
        (res.Pairwise fun x y => lexVal atts x.premise < lexVal atts y.premise) := by
  induction fuel with
  | zero => intro basis a i _ _ _ _ _ _ h; omega
  | succ fuel ih =>
    intro basis a i hi hpre hI3 hb1 hb2 hpw hf
    have ha := hpre.1
    by_cases hcard : a.card < atts.length
    · set push := dgPush cond basis a (cl a) with hpush
      have hmem : ∀ x, x ∈ push ↔ x ∈ basis ∨ (a ≠ cl a ∧ cond a = true ∧ x = ⟨a, cl a⟩) := by
        intro x; rw [hpush, mem_dgPush]
      have hb1' : ∀ x ∈ push, IsPseudo atts.toFinset (specImps bg) cl x.premise ∧ cond x.premise = true ∧
          x.conclusion = cl x.premise ∧ lexVal atts x.premise ≤ lexVal atts a := by
        intro x hx
        rcases (hmem x).1 hx with hx | ⟨hne, hc, rfl⟩
        · obtain ⟨h1, h2, h3, h4⟩ := hb1 x hx
          exact ⟨h1, h2, h3, h4.le⟩
        · exact ⟨isPseudo_iff.2 ⟨hpre.pre hdown hc, fun h => hne h.symm⟩, hc, rfl, le_rfl⟩
      have hpw' : push.Pairwise fun x y => lexVal atts x.premise < lexVal atts y.premise := by
        rw [hpush]
        unfold dgPush
        split
        · rw [List.pairwise_append]
          refine ⟨hpw, by simp, ?_⟩
          intro x hx y hy
          rw [List.mem_singleton] at hy; subst hy
          exact (hb1 x hx).2.2.2
        · exact hpw
      have hb2' : ∀ P, IsPseudo atts.toFinset (specImps bg) cl P → cond P = true → lexVal atts P ≤ lexVal atts a →
          ⟨P, cl P⟩ ∈ push := by
        intro P hP hc hle
        rw [hmem]
        rcases Nat.eq_or_lt_of_le hle with h | h
        · right
          have hPa : P = a := lexVal_inj (isPseudo_iff.1 hP).1.1 ha h
          subst hPa
          exact ⟨fun h => (isPseudo_iff.1 hP).2 h.symm, hc, rfl⟩
        · exact Or.inl (hb2 P hP hc h)
      have hgood : GoodBasis bg push := by
        apply goodBasis_of hpw'
        · intro x hx hsub
          obtain ⟨h1, -, h2, _⟩ := hb1' x hx
          obtain ⟨hp, hne⟩ := isPseudo_iff.1 h1
          exact hne (Finset.Subset.antisymm (h2 ▸ hsub) (hcl.ext _ hp.1))
        · intro x hx
          exact (isPseudo_iff.1 (hb1' x hx).1).1.2.1
      have hQcl : ∀ T, Preclosed atts.toFinset (specImps bg) cl T → lexVal atts a < lexVal atts T →
          Closed (specImps (push ++ bg)) T := by
        intro T hT hlt
        rw [closed_specImps]
        intro x hx hxp
        rcases List.mem_append.1 hx with hx | hx
        · obtain ⟨h1, -, h2, h3⟩ := hb1' x hx
          rw [h2]
          apply hT.2.2 _ _ h1
          refine Finset.ssubset_iff_subset_ne.2 ⟨hxp, ?_⟩
          intro he
          rw [he] at h3; omega
        · exact (closed_specImps bg T).1 hT.2.1 x hx hxp
      rcases dgLoop_step S.nodup (Q := fun T => Preclosed atts.toFinset (specImps bg) cl T ∧ cond T = true)
        (basis := basis) (bg := bg) (cond := cond) hi ha hcard (S.ac a ha) (S.ext a ha)
        (S.into a ha) (fun s => S.cext s _) (fun T hT => hT.1.1) hI3 (by
          rintro T ⟨hT, hc⟩ hss
          by_cases h : cl a = a
          · rw [h]; exact hss.1
          · exact hT.2.2 a hss (isPseudo_iff.2 ⟨hpre.pre hdown (hdown a T hss.1 hc), h⟩)) (by
          rintro T ⟨hT, -⟩ hlt s hs
          exact (hclose push hgood s (hs.trans hT.1)).2.2 T hs (hQcl T hT hlt)) with
        ⟨hfin, hacE, h⟩ | ⟨j, b, s, h, hj, hs, hbs, hlex, hnext, hI3'⟩
      · refine ⟨_, h close fuel, ?_, hpw'⟩
        intro x
        constructor
        · intro hx
          exact ⟨(hb1' x hx).1, (hb1' x hx).2.1, (hb1' x hx).2.2.1⟩
        · rintro ⟨h1, hc, h2⟩
          obtain ⟨hp, hne⟩ := isPseudo_iff.1 h1
          have hle : lexVal atts x.premise ≤ lexVal atts a := by
            by_contra hgt
            have := hfin x.premise ⟨hp, hc⟩ (by omega)
            apply hne
            rw [this]
            exact Finset.Subset.antisymm (hcl.into _ (Finset.Subset.refl _))
              (hcl.ext _ (Finset.Subset.refl _))
          have := hb2' x.premise h1 hc hle
          rwa [← h2] at this
      · rw [h close (fun _ _ => rfl)]
        have hleast := hclose push hgood s hs
        rw [show close s (push ++ bg) = b from hbs.symm] at hleast
        have hbM : b ⊆ atts.toFinset := by
          rw [hbs]
          apply S.cinto s _ hs
          intro i hi
          rcases List.mem_append.1 hi with h | h
          · obtain ⟨h1, -, h2, _⟩ := hb1' i h
            rw [h2]
            exact hcl.into _ (isPseudo_iff.1 h1).1.1
          · exact hbgo i h
        have hall : ∀ P, IsPseudo atts.toFinset (specImps bg) cl P → cond P = true →
            lexVal atts P < lexVal atts b → ⟨P, cl P⟩ ∈ push := by
          intro P hP hc hlt
          obtain ⟨hp, hne⟩ := isPseudo_iff.1 hP
          apply hb2' P hP hc
          by_contra hgt
          rcases hnext P ⟨hp, hc⟩ (by omega) with h | h
          · apply hne
            rw [h, hcl.idem a ha]
          · omega
        have hbcl := (closed_specImps (push ++ bg) b).1 hleast.2.1
        have hbpre : WeakPre atts.toFinset (specImps bg) cl cond b := by
          refine ⟨hbM, ?_, ?_⟩
          · rw [closed_specImps]
            intro x hx hxp
            exact hbcl x (List.mem_append_right _ hx) hxp
          · intro P hPb hP hc
            exact hbcl _ (List.mem_append_left _ (hall P hP hc (lexVal_lt_of_ssubset hbM hPb))) hPb.1
        have hbv := lexVal_lt atts b
        apply ih push b j hj hbpre hI3' _ hall hpw' (by omega)
        intro x hx
        obtain ⟨h1, hc, h2, h3⟩ := hb1' x hx
        exact ⟨h1, hc, h2, by omega⟩
    · refine ⟨basis, by rw [dgLoop, if_neg hcard], ?_, hpw⟩
      have haE : a = atts.toFinset := eq_toFinset_of_card S.nodup ha (by omega)
      intro x
      constructor
      · intro hx; exact ⟨(hb1 x hx).1, (hb1 x hx).2.1, (hb1 x hx).2.2.1⟩
      · rintro ⟨h1, hc, h2⟩
        obtain ⟨hp, hne⟩ := isPseudo_iff.1 h1
        have hlt : lexVal atts x.premise < lexVal atts a := by
          apply lexVal_lt_of_ssubset ha
          refine Finset.ssubset_iff_subset_ne.2 ⟨haE ▸ hp.1, ?_⟩
          intro he
          apply hne
          rw [he, haE]
          exact Finset.Subset.antisymm (hcl.into _ (Finset.Subset.refl _))
              (hcl.ext _ (Finset.Subset.refl _))
        have := hb2 x.premise h1 hc hlt
        rwa [← h2] at this

theorem dgBasis_hered {atts : List α} {aclose : Finset α → Py (Finset α)}
    {cl : Finset α → Finset α} {close : Finset α → List (Imp α) → Finset α}
    (S : DGSetup atts aclose cl close) (hcl : IsClosureOp atts.toFinset cl) {bg : List (Imp α)}
    (hbgo : ∀ i ∈ bg, i.conclusion ⊆ atts.toFinset)
    (hclose : ∀ basis, GoodBasis bg basis → ∀ s, s ⊆ atts.toFinset →
      IsLeastClosed (specImps (basis ++ bg)) s (close s (basis ++ bg)))
    {cond : Finset α → Bool} (hdown : ∀ S T, S ⊆ T → cond T = true → cond S = true) :
    ∃ res, dgBasis atts aclose close bg cond = .ok res ∧
        (∀ x, x ∈ res ↔ IsPseudo atts.toFinset (specImps bg) cl x.premise ∧ cond x.premise = true ∧
          x.conclusion = cl x.premise) ∧
        (res.Pairwise fun x y => lexVal atts x.premise < lexVal atts y.premise) := by
  have h0 := hclose [] ⟨by simp, by simp⟩ ∅ (by simp)
  simp only [List.nil_append] at h0
  have haM : close ∅ bg ⊆ atts.toFinset := S.cinto ∅ bg (by simp) hbgo
  have hsub : ∀ T, Closed (specImps bg) T → close ∅ bg ⊆ T := fun T hT => h0.2.2 T (by simp) hT
  have hnone : ∀ P, IsPseudo atts.toFinset (specImps bg) cl P →
      ¬ lexVal atts P < lexVal atts (close ∅ bg) := by
    intro P hP hlt
    have := lexVal_mono (l := atts) (hsub P (isPseudo_iff.1 hP).1.2.1)
    omega
  obtain ⟨res, h, h1, h2⟩ := dgLoop_hered S hcl hbgo hclose hdown (2 ^ atts.length + 1) [] (close ∅ bg)
    atts.length le_rfl
    ⟨haM, h0.2.1, fun Q hQ hps _ => absurd (hsub Q (isPseudo_iff.1 hps).1.2.1) (fun h =>
      (Finset.ssubset_iff_subset_ne.1 hQ).2 (Finset.Subset.antisymm hQ.1 h))⟩
    (fun T hT _ _ => hsub T hT.1.2.1) (by simp) (fun P hP _ hlt => absurd hlt (hnone P hP)) (by simp)
    (Nat.lt_succ_of_le (Nat.sub_le _ _))
  refine ⟨res, ?_, h1, h2⟩
  unfold dgBasis dgBasisFuel
  rw [h]; rfl

/-! ### Empty results -/

/-- If nothing is returned, and for each set that respects the background and is not closed there is one, not larger,
that meets the condition, then all sets respecting the background are closed. -/
theorem dgBasis_empty_cond {atts : List α} {aclose : Finset α → Py (Finset α)}
    {cl : Finset α → Finset α} {close : Finset α → List (Imp α) → Finset α}
    (S : DGSetup atts aclose cl close) {bg : List (Imp α)}
    (hbgo : ∀ i ∈ bg, i.conclusion ⊆ atts.toFinset)
    (hclose : ∀ basis, GoodBasis bg basis → ∀ s, s ⊆ atts.toFinset →
      IsLeastClosed (specImps (basis ++ bg)) s (close s (basis ++ bg)))
    {cond : Finset α → Bool} (hres : dgBasis atts aclose close bg cond = .ok [])
    (hrep : ∀ Z, Z ⊆ atts.toFinset → Closed (specImps bg) Z → cl Z ≠ Z →
      ∃ Z', Z' ⊆ atts.toFinset ∧ Closed (specImps bg) Z' ∧ cl Z' ≠ Z' ∧ Z'.card ≤ Z.card ∧ cond Z' = true) :
    ∀ Z, Z ⊆ atts.toFinset → Closed (specImps bg) Z → cl Z = Z := by
  have key : ∀ n, ∀ Z, Z.card = n → Z ⊆ atts.toFinset → Closed (specImps bg) Z → cl Z = Z := by
    intro n
    induction n using Nat.strong_induction_on with
    | _ n ih =>
      intro Z hn hZM hZc
      by_contra hZn
      obtain ⟨Z', h1, h2, h3, h4, h5⟩ := hrep Z hZM hZc hZn
      have := dgBasis_cond S hbgo hclose hres h1 h2 h3 h5 (by
        intro T hT hTc
        have hlt := Finset.card_lt_card hT
        rw [ih T.card (by omega) T rfl (hT.1.trans h1) hTc]
        exact hT)
      simp at this
  exact fun Z => key _ Z rfl
