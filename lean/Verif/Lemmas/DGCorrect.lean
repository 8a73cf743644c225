import Verif.Lemmas.DG

variable {α : Type*} [DecidableEq α]

open Spec

namespace Spec

/-- `S` respects the background and contains `cl P` for each pseudo-intent `P ⊂ S`. -/
def Preclosed (M : Finset α) (L₀ : Imps α) (cl : Finset α → Finset α) (S : Finset α) : Prop :=
  S ⊆ M ∧ Closed L₀ S ∧ ∀ Q, Q ⊂ S → IsPseudo M L₀ cl Q → cl Q ⊆ S

theorem isPseudo_iff {M : Finset α} {L₀ : Imps α} {cl : Finset α → Finset α} {P : Finset α} :
    IsPseudo M L₀ cl P ↔ Preclosed M L₀ cl P ∧ cl P ≠ P := by
  rw [IsPseudo]
  unfold Preclosed
  tauto

theorem Preclosed.inter {M : Finset α} {L₀ : Imps α} {cl : Finset α → Finset α} {S T : Finset α}
    (hS : Preclosed M L₀ cl S) (hT : Preclosed M L₀ cl T) : Preclosed M L₀ cl (S ∩ T) := by
  refine ⟨Finset.inter_subset_left.trans hS.1, ?_, ?_⟩
  · intro pc hpc hp
    exact Finset.subset_inter (hS.2.1 pc hpc (hp.trans Finset.inter_subset_left))
      (hT.2.1 pc hpc (hp.trans Finset.inter_subset_right))
  · intro Q hQ hps
    exact Finset.subset_inter (hS.2.2 Q (hQ.trans_subset Finset.inter_subset_left) hps)
      (hT.2.2 Q (hQ.trans_subset Finset.inter_subset_right) hps)

/-- Closed sets are preclosed if the background is valid. -/
theorem preclosed_of_closed {M : Finset α} {L₀ : Imps α} {cl : Finset α → Finset α}
    (hcl : IsClosureOp M cl) (hbg : ∀ s, s ⊆ M → Closed L₀ (cl s)) {S : Finset α} (hS : S ⊆ M)
    (hc : cl S = S) : Preclosed M L₀ cl S := by
  refine ⟨hS, hc ▸ hbg S hS, ?_⟩
  intro Q hQ _
  have := hcl.mono Q S hQ.1 hS
  rwa [hc] at this

/-- Guigues-Duquenne: any list of implications that, together with the background, is sound and
complete for `cl` has at least as many members as there are pseudo-intents in a
duplicate-free list. -/
theorem pseudo_length_le {M : Finset α} {L₀ : Imps α} {cl : Finset α → Finset α}
    (hcl : IsClosureOp M cl) (Ps : List (Finset α)) (hnd : Ps.Nodup)
    (hPs : ∀ P ∈ Ps, IsPseudo M L₀ cl P) (L : Imps α)
    (hsound : ∀ s, s ⊆ M → cl s = s → Closed L s)
    (hcomplete : ∀ s, s ⊆ M → Closed (L ++ L₀) s → cl s = s) : Ps.length ≤ L.length := by
  classical
  -- each pseudo-intent violates some implication of L
  have hex : ∀ P ∈ Ps, ∃ pc ∈ L, pc.1 ⊆ P ∧ ¬ pc.2 ⊆ P := by
    intro P hP
    by_contra hno
    push Not at hno
    obtain ⟨hpre, hne⟩ := isPseudo_iff.1 (hPs P hP)
    apply hne
    apply hcomplete P hpre.1
    intro pc hpc
    rcases List.mem_append.1 hpc with h | h
    · exact hno pc h
    · exact hpre.2.1 pc h
  let f : Finset α → Finset α × Finset α := fun P =>
    if h : ∃ pc ∈ L, pc.1 ⊆ P ∧ ¬ pc.2 ⊆ P then h.choose else (∅, ∅)
  have hf : ∀ P ∈ Ps, f P ∈ L ∧ (f P).1 ⊆ P ∧ ¬ (f P).2 ⊆ P := by
    intro P hP
    simp only [f, dif_pos (hex P hP)]
    exact (hex P hP).choose_spec
  have hinj : ∀ P ∈ Ps, ∀ Q ∈ Ps, f P = f Q → P = Q := by
    intro P hP Q hQ he
    obtain ⟨hPpre, _⟩ := isPseudo_iff.1 (hPs P hP)
    obtain ⟨hQpre, _⟩ := isPseudo_iff.1 (hPs Q hQ)
    obtain ⟨hL, h1, h2⟩ := hf P hP
    obtain ⟨_, h3, h4⟩ := hf Q hQ
    rw [← he] at h3 h4
    have hI := hPpre.inter hQpre
    have hsub : (f P).1 ⊆ P ∩ Q := Finset.subset_inter h1 h3
    have hBcl : (f P).2 ⊆ cl (P ∩ Q) := by
      have hc := hcl.idem (P ∩ Q) hI.1
      exact hsound _ (hcl.into _ hI.1) hc _ hL (hsub.trans (hcl.ext _ hI.1))
    by_cases hclosed : cl (P ∩ Q) = P ∩ Q
    · rw [hclosed] at hBcl
      exact absurd (hBcl.trans Finset.inter_subset_left) h2
    · have hps : IsPseudo M L₀ cl (P ∩ Q) := isPseudo_iff.2 ⟨hI, hclosed⟩
      have hPeq : P ∩ Q = P := by
        by_contra hne
        have hss : P ∩ Q ⊂ P := Finset.ssubset_iff_subset_ne.2 ⟨Finset.inter_subset_left, hne⟩
        exact h2 (hBcl.trans (hPpre.2.2 _ hss hps))
      have hQeq : P ∩ Q = Q := by
        by_contra hne
        have hss : P ∩ Q ⊂ Q := Finset.ssubset_iff_subset_ne.2 ⟨Finset.inter_subset_right, hne⟩
        exact h4 (hBcl.trans (hQpre.2.2 _ hss hps))
      rw [← hPeq, hQeq]
  have hmapnd : (Ps.map f).Nodup := List.Nodup.map_on hinj hnd
  have hsubset : Ps.map f ⊆ L := by
    intro x hx
    obtain ⟨P, hP, rfl⟩ := List.mem_map.1 hx
    exact (hf P hP).1
  have := (List.subperm_of_subset hmapnd hsubset).length_le
  simpa using this

end Spec

/-- The main loop with a correct closure function and a valid background computes
the pseudo-intents. -/
theorem dgLoop_correct {atts : List α} {aclose : Finset α → Py (Finset α)}
    {cl : Finset α → Finset α} {close : Finset α → List (Imp α) → Finset α}
    (S : DGSetup atts aclose cl close) (hcl : IsClosureOp atts.toFinset cl) {bg : List (Imp α)}
    (hbgo : ∀ i ∈ bg, i.conclusion ⊆ atts.toFinset)
    (hclose : ∀ basis, GoodBasis bg basis → ∀ s, s ⊆ atts.toFinset →
      IsLeastClosed (specImps (basis ++ bg)) s (close s (basis ++ bg)))
    (fuel : ℕ) :
    ∀ basis a i, i ≤ atts.length →
      Preclosed atts.toFinset (specImps bg) cl a →
      (∀ T, Preclosed atts.toFinset (specImps bg) cl T → lexVal atts a ≤ lexVal atts T →
        AgreeUpto atts i a T → a ⊆ T) →
      (∀ x ∈ basis, IsPseudo atts.toFinset (specImps bg) cl x.premise ∧
        x.conclusion = cl x.premise ∧ lexVal atts x.premise < lexVal atts a) →
      (∀ P, IsPseudo atts.toFinset (specImps bg) cl P → lexVal atts P < lexVal atts a →
        ⟨P, cl P⟩ ∈ basis) →
      (basis.Pairwise fun x y => lexVal atts x.premise < lexVal atts y.premise) →
      2 ^ atts.length - lexVal atts a < fuel →
      ∃ res, dgLoop atts aclose close bg (fun _ => true) fuel basis a i = some (.ok res) ∧
        (∀ x, x ∈ res ↔ IsPseudo atts.toFinset (specImps bg) cl x.premise ∧
          x.conclusion = cl x.premise) ∧
        (res.Pairwise fun x y => lexVal atts x.premise < lexVal atts y.premise) := by
  induction fuel with
  | zero => intro basis a i _ _ _ _ _ _ h; omega
  | succ fuel ih =>
    intro basis a i hi hpre hI3 hb1 hb2 hpw hf
    have ha := hpre.1
    by_cases hcard : a.card < atts.length
    · have hps_or : cl a = a ∨ IsPseudo atts.toFinset (specImps bg) cl a := by
        by_cases h : cl a = a
        · exact Or.inl h
        · exact Or.inr (isPseudo_iff.2 ⟨hpre, h⟩)
      set push := dgPush (fun _ => true) basis a (cl a) with hpush
      have hmem : ∀ x, x ∈ push ↔ x ∈ basis ∨ (a ≠ cl a ∧ x = ⟨a, cl a⟩) := by
        intro x; rw [hpush, mem_dgPush]; simp
      have hb1' : ∀ x ∈ push, IsPseudo atts.toFinset (specImps bg) cl x.premise ∧
          x.conclusion = cl x.premise ∧ lexVal atts x.premise ≤ lexVal atts a := by
        intro x hx
        rcases (hmem x).1 hx with hx | ⟨hne, rfl⟩
        · obtain ⟨h1, h2, h3⟩ := hb1 x hx
          exact ⟨h1, h2, h3.le⟩
        · exact ⟨isPseudo_iff.2 ⟨hpre, fun h => hne h.symm⟩, rfl, le_rfl⟩
      have hpw' : push.Pairwise fun x y => lexVal atts x.premise < lexVal atts y.premise := by
        rw [hpush]
        unfold dgPush
        split
        · rw [List.pairwise_append]
          refine ⟨hpw, by simp, ?_⟩
          intro x hx y hy
          rw [List.mem_singleton] at hy; subst hy
          exact (hb1 x hx).2.2
        · exact hpw
      have hb2' : ∀ P, IsPseudo atts.toFinset (specImps bg) cl P → lexVal atts P ≤ lexVal atts a →
          ⟨P, cl P⟩ ∈ push := by
        intro P hP hle
        rw [hmem]
        rcases Nat.eq_or_lt_of_le hle with h | h
        · right
          have hPa : P = a := lexVal_inj (isPseudo_iff.1 hP).1.1 ha h
          subst hPa
          exact ⟨fun h => (isPseudo_iff.1 hP).2 h.symm, rfl⟩
        · exact Or.inl (hb2 P hP h)
      have hgood : GoodBasis bg push := by
        apply goodBasis_of hpw'
        · intro x hx hsub
          obtain ⟨h1, h2, _⟩ := hb1' x hx
          obtain ⟨hp, hne⟩ := isPseudo_iff.1 h1
          exact hne (Finset.Subset.antisymm (h2 ▸ hsub) (hcl.ext _ hp.1))
        · intro x hx
          exact (isPseudo_iff.1 (hb1' x hx).1).1.2.1
      -- preclosed sets above `a` respect the current implications
      have hQcl : ∀ T, Preclosed atts.toFinset (specImps bg) cl T → lexVal atts a < lexVal atts T →
          Closed (specImps (push ++ bg)) T := by
        intro T hT hlt
        rw [closed_specImps]
        intro x hx hxp
        rcases List.mem_append.1 hx with hx | hx
        · obtain ⟨h1, h2, h3⟩ := hb1' x hx
          rw [h2]
          apply hT.2.2 _ _ h1
          refine Finset.ssubset_iff_subset_ne.2 ⟨hxp, ?_⟩
          intro he
          rw [he] at h3; omega
        · exact (closed_specImps bg T).1 hT.2.1 x hx hxp
      rcases dgLoop_step S.nodup (Q := Preclosed atts.toFinset (specImps bg) cl) (basis := basis)
        (bg := bg) (cond := fun _ => true) hi ha hcard (S.ac a ha) (S.ext a ha)
        (S.into a ha) (fun s => S.cext s _) (fun T hT => hT.1) hI3 (by
          intro T hT hss
          rcases hps_or with h | h
          · rw [h]; exact hss.1
          · exact hT.2.2 a hss h) (by
          intro T hT hlt s hs
          exact (hclose push hgood s (hs.trans hT.1)).2.2 T hs (hQcl T hT hlt)) with
        ⟨hfin, hacE, h⟩ | ⟨j, b, s, h, hj, hs, hbs, hlex, hnext, hI3'⟩
      · refine ⟨_, h close fuel, ?_, hpw'⟩
        intro x
        constructor
        · intro hx
          exact ⟨(hb1' x hx).1, (hb1' x hx).2.1⟩
        · rintro ⟨h1, h2⟩
          obtain ⟨hp, hne⟩ := isPseudo_iff.1 h1
          have hle : lexVal atts x.premise ≤ lexVal atts a := by
            by_contra hgt
            have := hfin x.premise hp (by omega)
            apply hne
            rw [this]
            exact Finset.Subset.antisymm (hcl.into _ (Finset.Subset.refl _))
              (hcl.ext _ (Finset.Subset.refl _))
          have := hb2' x.premise h1 hle
          rwa [← h2] at this
      · rw [h close (fun _ _ => rfl)]
        have hleast := hclose push hgood s hs
        rw [show close s (push ++ bg) = b from hbs.symm] at hleast
        have hover : Over atts.toFinset push := by
          intro x hx
          obtain ⟨h1, h2, _⟩ := hb1' x hx
          have := (isPseudo_iff.1 h1).1.1
          exact ⟨this, h2 ▸ hcl.into _ this⟩
        have hbM : b ⊆ atts.toFinset := by
          rw [hbs]
          apply S.cinto s _ hs
          intro i hi
          rcases List.mem_append.1 hi with h | h
          · exact (hover i h).2
          · exact hbgo i h
        -- pseudo-intents below `b` are in the list
        have hall : ∀ P, IsPseudo atts.toFinset (specImps bg) cl P → lexVal atts P < lexVal atts b →
            ⟨P, cl P⟩ ∈ push := by
          intro P hP hlt
          obtain ⟨hp, hne⟩ := isPseudo_iff.1 hP
          apply hb2' P hP
          by_contra hgt
          rcases hnext P hp (by omega) with h | h
          · apply hne
            rw [h, hcl.idem a ha]
          · omega
        have hbcl := (closed_specImps (push ++ bg) b).1 hleast.2.1
        have hbpre : Preclosed atts.toFinset (specImps bg) cl b := by
          refine ⟨hbM, ?_, ?_⟩
          · rw [closed_specImps]
            intro x hx hxp
            exact hbcl x (List.mem_append_right _ hx) hxp
          · intro P hPb hP
            exact hbcl _ (List.mem_append_left _ (hall P hP (lexVal_lt_of_ssubset hbM hPb))) hPb.1
        have hbv := lexVal_lt atts b
        apply ih push b j hj hbpre hI3' _ hall hpw' (by omega)
        intro x hx
        obtain ⟨h1, h2, h3⟩ := hb1' x hx
        exact ⟨h1, h2, by omega⟩
    · refine ⟨basis, by rw [dgLoop, if_neg hcard], ?_, hpw⟩
      have haE : a = atts.toFinset := eq_toFinset_of_card S.nodup ha (by omega)
      intro x
      constructor
      · intro hx; exact ⟨(hb1 x hx).1, (hb1 x hx).2.1⟩
      · rintro ⟨h1, h2⟩
        obtain ⟨hp, hne⟩ := isPseudo_iff.1 h1
        have hlt : lexVal atts x.premise < lexVal atts a := by
          apply lexVal_lt_of_ssubset ha
          refine Finset.ssubset_iff_subset_ne.2 ⟨haE ▸ hp.1, ?_⟩
          intro he
          apply hne
          rw [he, haE]
          exact Finset.Subset.antisymm (hcl.into _ (Finset.Subset.refl _))
              (hcl.ext _ (Finset.Subset.refl _))
        have := hb2 x.premise h1 hlt
        rwa [← h2] at this

theorem dgBasis_correct {atts : List α} {aclose : Finset α → Py (Finset α)}
    {cl : Finset α → Finset α} {close : Finset α → List (Imp α) → Finset α}
    (S : DGSetup atts aclose cl close) (hcl : IsClosureOp atts.toFinset cl) {bg : List (Imp α)}
    (hbgo : ∀ i ∈ bg, i.conclusion ⊆ atts.toFinset)
    (hclose : ∀ basis, GoodBasis bg basis → ∀ s, s ⊆ atts.toFinset →
      IsLeastClosed (specImps (basis ++ bg)) s (close s (basis ++ bg))) :
    ∃ res, dgBasis atts aclose close bg (fun _ => true) = .ok res ∧
        (∀ x, x ∈ res ↔ IsPseudo atts.toFinset (specImps bg) cl x.premise ∧
          x.conclusion = cl x.premise) ∧
        (res.Pairwise fun x y => lexVal atts x.premise < lexVal atts y.premise) := by
  have h0 := hclose [] ⟨by simp, by simp⟩ ∅ (by simp)
  simp only [List.nil_append] at h0
  have haM : close ∅ bg ⊆ atts.toFinset := S.cinto ∅ bg (by simp) hbgo
  have hsub : ∀ T, Closed (specImps bg) T → close ∅ bg ⊆ T := fun T hT => h0.2.2 T (by simp) hT
  have hnone : ∀ P, IsPseudo atts.toFinset (specImps bg) cl P →
      ¬ lexVal atts P < lexVal atts (close ∅ bg) := by
    intro P hP hlt
    have := lexVal_mono (l := atts) (hsub P (isPseudo_iff.1 hP).1.2.1)
    omega
  obtain ⟨res, h, h1, h2⟩ := dgLoop_correct S hcl hbgo hclose (2 ^ atts.length + 1) [] (close ∅ bg)
    atts.length le_rfl
    ⟨haM, h0.2.1, fun Q hQ hps => absurd (hsub Q (isPseudo_iff.1 hps).1.2.1) (fun h =>
      (Finset.ssubset_iff_subset_ne.1 hQ).2 (Finset.Subset.antisymm hQ.1 h))⟩
    (fun T hT _ _ => hsub T hT.2.1) (by simp) (fun P hP hlt => absurd hlt (hnone P hP)) (by simp)
    (Nat.lt_succ_of_le (Nat.sub_le _ _))
  refine ⟨res, ?_, h1, h2⟩
  unfold dgBasis dgBasisFuel
  rw [h]; rfl

/-- A set closed under the basis and the background is closed. -/
theorem closed_of_basis {M : Finset α} {cl : Finset α → Finset α} 
    {bg res : List (Imp α)}
    (hres : ∀ x, x ∈ res ↔ IsPseudo M (specImps bg) cl x.premise ∧ x.conclusion = cl x.premise)
    (hcl : IsClosureOp M cl)
    {s : Finset α} (hs : s ⊆ M) (hc : Closed (specImps (res ++ bg)) s) : cl s = s := by
  by_contra hne
  have hc' := (closed_specImps (res ++ bg) s).1 hc
  have hpre : Preclosed M (specImps bg) cl s := by
    refine ⟨hs, ?_, ?_⟩
    · rw [closed_specImps]
      intro x hx hxp
      exact hc' x (List.mem_append_right _ hx) hxp
    · intro Q hQ hps
      exact hc' ⟨Q, cl Q⟩ (List.mem_append_left _ ((hres ⟨Q, cl Q⟩).2 ⟨hps, rfl⟩)) hQ.1
  have hps : IsPseudo M (specImps bg) cl s := isPseudo_iff.2 ⟨hpre, hne⟩
  have := hc' ⟨s, cl s⟩ (List.mem_append_left _ ((hres ⟨s, cl s⟩).2 ⟨hps, rfl⟩))
    (Finset.Subset.refl _)
  exact hne (Finset.Subset.antisymm this (hcl.ext s hs))

/-- Closure under basis plus background is `cl`. -/
theorem isLeastClosed_basis {M : Finset α} {cl : Finset α → Finset α} 
    {bg res : List (Imp α)}
    (hres : ∀ x, x ∈ res ↔ IsPseudo M (specImps bg) cl x.premise ∧ x.conclusion = cl x.premise)
    (hcl : IsClosureOp M cl) (hbg : ∀ s, s ⊆ M → Closed (specImps bg) (cl s))
    {s : Finset α} (hs : s ⊆ M) : IsLeastClosed (specImps (res ++ bg)) s (cl s) := by
  refine ⟨hcl.ext s hs, ?_, ?_⟩
  · rw [closed_specImps]
    intro x hx hxp
    rcases List.mem_append.1 hx with hx | hx
    · obtain ⟨h1, h2⟩ := (hres x).1 hx
      rw [h2, ← hcl.idem s hs]
      exact hcl.mono _ _ hxp (hcl.into s hs)
    · exact (closed_specImps bg _).1 (hbg s hs) x hx hxp
  · intro d hd hdc
    -- intersect with M
    have hI : Closed (specImps (res ++ bg)) (d ∩ M) := by
      rw [closed_specImps]
      intro x hx hxp
      apply Finset.subset_inter
      · exact (closed_specImps _ d).1 hdc x hx (hxp.trans Finset.inter_subset_left)
      · rcases List.mem_append.1 hx with hx' | hx'
        · obtain ⟨h1, h2⟩ := (hres x).1 hx'
          rw [h2]
          exact hcl.into _ (isPseudo_iff.1 h1).1.1
        · have h1 := hcl.into M (Finset.Subset.refl _)
          have h2 := hcl.ext M (Finset.Subset.refl _)
          have h3 := (closed_specImps bg _).1 (hbg M (Finset.Subset.refl _)) x hx'
            ((hxp.trans Finset.inter_subset_right).trans h2)
          exact h3.trans h1
    have hcI := closed_of_basis hres hcl Finset.inter_subset_right hI
    have := hcl.mono s (d ∩ M) (Finset.subset_inter hd hs) Finset.inter_subset_right
    rw [hcI] at this
    exact this.trans Finset.inter_subset_left
