/-
When the basis algorithm returns the empty list, also for operators that are not idempotent.
-/
import Verif.Lemmas.DGCorrect

open Spec

variable {α : Type*} [DecidableEq α]

theorem dgLoop_prefix {atts : List α} {aclose : Finset α → Py (Finset α)} {close : Finset α → List (Imp α) → Finset α}
    {bg : List (Imp α)} {cond : Finset α → Bool} (fuel : ℕ) : ∀ basis a i res,
      dgLoop atts aclose close bg cond fuel basis a i = some (.ok res) → basis <+: res := by
  induction fuel with
  | zero => intro basis a i res h; simp [dgLoop] at h
  | succ fuel ih =>
    intro basis a i res h
    rw [dgLoop] at h
    split at h
    · cases hac : aclose a with
      | error e => rw [hac] at h; simp at h
      | ok ac =>
        rw [hac] at h
        have hp : basis <+: dgPush cond basis a ac := prefix_dgPush
        simp only at h
        split at h
        · exact hp.trans (ih _ _ _ _ h)
        · split at h
          · simp only [Option.some.injEq, Except.ok.injEq] at h
            exact h ▸ hp
          · exact hp.trans (ih _ _ _ _ h)
    · simp only [Option.some.injEq, Except.ok.injEq] at h
      rw [h]

theorem dgLoop_push_prefix {atts : List α} {aclose : Finset α → Py (Finset α)}
    {close : Finset α → List (Imp α) → Finset α} {bg : List (Imp α)} {cond : Finset α → Bool} {fuel i : ℕ}
    {basis res : List (Imp α)} {a ac : Finset α} (hcard : a.card < atts.length) (hac : aclose a = .ok ac)
    (h : dgLoop atts aclose close bg cond (fuel + 1) basis a i = some (.ok res)) : dgPush cond basis a ac <+: res := by
  rw [dgLoop, if_pos hcard, hac] at h
  simp only at h
  split at h
  · exact dgLoop_prefix _ _ _ _ _ h
  · split at h
    · simp only [Option.some.injEq, Except.ok.injEq] at h
      exact h ▸ List.prefix_rfl
    · exact dgLoop_prefix _ _ _ _ _ h

/-- If the list returned is empty, every set that respects the background is closed. -/
theorem dgLoop_empty {atts : List α} {aclose : Finset α → Py (Finset α)} {cl : Finset α → Finset α}
    {close : Finset α → List (Imp α) → Finset α} (S : DGSetup atts aclose cl close) {bg : List (Imp α)}
    (hbg : ∀ i ∈ bg, i.conclusion ⊆ atts.toFinset)
    (hclose : ∀ s, s ⊆ atts.toFinset → IsLeastClosed (specImps bg) s (close s bg)) (fuel : ℕ) :
    ∀ a i, i ≤ atts.length → a ⊆ atts.toFinset →
      (∀ T, (T ⊆ atts.toFinset ∧ Closed (specImps bg) T) → lexVal atts a ≤ lexVal atts T → AgreeUpto atts i a T → a ⊆ T) →
      dgLoop atts aclose close bg (fun _ => true) fuel [] a i = some (.ok []) →
      ∀ T, T ⊆ atts.toFinset → Closed (specImps bg) T → lexVal atts a ≤ lexVal atts T → cl T = T := by
  have hfull : cl atts.toFinset = atts.toFinset :=
    Finset.Subset.antisymm (S.into _ (Finset.Subset.refl _)) (S.ext _ (Finset.Subset.refl _))
  induction fuel with
  | zero => intro a i _ _ _ h; simp [dgLoop] at h
  | succ fuel ih =>
    intro a i hi ha hI3 hrun T hT hTc hle
    by_cases hcard : a.card < atts.length
    · have hpush : dgPush (fun _ => true) [] a (cl a) = ([] : List (Imp α)) := by
        have hp := dgLoop_push_prefix hcard (S.ac a ha) hrun
        exact List.prefix_nil.1 hp
      have hcla : cl a = a := by
        by_contra hne
        unfold dgPush at hpush
        rw [if_pos ⟨fun e => hne e.symm, rfl⟩] at hpush
        simp at hpush
      rcases Nat.eq_or_lt_of_le hle with he | hlt
      · rw [← lexVal_inj ha hT he]; exact hcla
      rcases dgLoop_step S.nodup (Q := fun T => T ⊆ atts.toFinset ∧ Closed (specImps bg) T) (basis := [])
        (bg := bg) (cond := fun _ => true) hi ha hcard (S.ac a ha) (S.ext a ha) (S.into a ha) (fun s => S.cext s _)
        (fun T hT => hT.1) hI3 (fun T _ hss => by rw [hcla]; exact hss.1) (by
          intro T hT _ s hs
          rw [hpush]
          exact (hclose s (hs.trans hT.1)).2.2 T hs hT.2) with
        ⟨hfin, -, -⟩ | ⟨j, b, s, h, hj, hs, hbs, hlex, hnext, hI3'⟩
      · rw [hfin T ⟨hT, hTc⟩ hlt]; exact hfull
      · rcases hnext T ⟨hT, hTc⟩ hlt with h' | h'
        · rw [h', hcla] at hlt; omega
        · rw [h close (fun _ _ => rfl), hpush] at hrun
          refine ih b j hj ?_ hI3' hrun T hT hTc h'
          rw [hbs, hpush]
          exact S.cinto s _ hs (by simpa using hbg)
    · have haE : a = atts.toFinset := eq_toFinset_of_card S.nodup ha (by omega)
      have : lexVal atts T ≤ lexVal atts atts.toFinset := lexVal_mono hT
      have hTE : T = atts.toFinset := lexVal_inj hT (Finset.Subset.refl _) (by rw [← haE] at *; omega)
      rw [hTE]; exact hfull

theorem dgBasis_empty {atts : List α} {aclose : Finset α → Py (Finset α)} {cl : Finset α → Finset α}
    {close : Finset α → List (Imp α) → Finset α} (S : DGSetup atts aclose cl close) {bg : List (Imp α)}
    (hbg : ∀ i ∈ bg, i.conclusion ⊆ atts.toFinset)
    (hclose : ∀ s, s ⊆ atts.toFinset → IsLeastClosed (specImps bg) s (close s bg))
    (h : dgBasis atts aclose close bg (fun _ => true) = .ok []) :
    ∀ T, T ⊆ atts.toFinset → Closed (specImps bg) T → cl T = T := by
  obtain ⟨res, h1, h2, -, -⟩ := dgBasis_generic S hbg fun _ => true
  rw [h2] at h
  obtain rfl : res = [] := by injection h
  intro T hT hTc
  have h0 := hclose ∅ (by simp)
  refine dgLoop_empty S hbg hclose _ _ _ le_rfl (S.cinto ∅ bg (by simp) hbg) ?_ h1 T hT hTc ?_
  · intro T hT _ _
    exact h0.2.2 T (by simp) hT.2
  · exact lexVal_mono (h0.2.2 T (by simp) hTc)

/-- Premises respect the background. -/
theorem dgLoop_premises {atts : List α} {aclose : Finset α → Py (Finset α)} {cl : Finset α → Finset α}
    {close : Finset α → List (Imp α) → Finset α} (S : DGSetup atts aclose cl close) {bg : List (Imp α)}
    (hbg : ∀ i ∈ bg, i.conclusion ⊆ atts.toFinset) (hclose : ∀ s L, Closed (specImps L) (close s L))
    (cond : Finset α → Bool) (fuel : ℕ) :
    ∀ basis a i res, a ⊆ atts.toFinset → i ≤ atts.length → Over atts.toFinset basis → Closed (specImps bg) a →
      (∀ x ∈ basis, Closed (specImps bg) x.premise) →
      dgLoop atts aclose close bg cond fuel basis a i = some (.ok res) → ∀ x ∈ res, Closed (specImps bg) x.premise := by
  induction fuel with
  | zero => intro basis a i res _ _ _ _ _ h; simp [dgLoop] at h
  | succ fuel ih =>
    intro basis a i res ha hi hb hac hbc hrun
    by_cases hcard : a.card < atts.length
    · have hover := dgPush_over (cond := cond) hb ha (S.into a ha)
      have hpc : ∀ x ∈ dgPush cond basis a (cl a), Closed (specImps bg) x.premise := by
        intro x hx
        rcases mem_dgPush.1 hx with hx | ⟨_, _, rfl⟩
        · exact hbc x hx
        · exact hac
      rcases dgLoop_step S.nodup (Q := fun _ => False) (basis := basis) (bg := bg) (cond := cond)
        hi ha hcard (S.ac a ha) (S.ext a ha)
        (S.into a ha) (fun s => S.cext s _) (by simp) (by simp) (by simp) (by simp) with
        ⟨_, _, h⟩ | ⟨j, b, s, h, hj, hs, hbs, hlex, _⟩
      · rw [h close fuel] at hrun
        simp only [Option.some.injEq, Except.ok.injEq] at hrun
        exact hrun ▸ hpc
      · rw [h close (fun _ _ => rfl)] at hrun
        refine ih _ b j res ?_ hj hover ?_ hpc hrun
        · rw [hbs]
          refine S.cinto s _ hs fun i hi => ?_
          rcases List.mem_append.1 hi with h | h
          · exact (hover i h).2
          · exact hbg i h
        · rw [closed_specImps]
          intro x hx
          have := hclose s (dgPush cond basis a (cl a) ++ bg)
          rw [closed_specImps] at this
          rw [hbs]
          exact this x (List.mem_append_right _ hx)
    · rw [dgLoop, if_neg hcard] at hrun
      simp only [Option.some.injEq, Except.ok.injEq] at hrun
      exact hrun ▸ hbc

theorem dgBasis_premises {atts : List α} {aclose : Finset α → Py (Finset α)} {cl : Finset α → Finset α}
    {close : Finset α → List (Imp α) → Finset α} (S : DGSetup atts aclose cl close) {bg : List (Imp α)}
    (hbg : ∀ i ∈ bg, i.conclusion ⊆ atts.toFinset) (hclose : ∀ s L, Closed (specImps L) (close s L))
    (cond : Finset α → Bool) {res : List (Imp α)} (h : dgBasis atts aclose close bg cond = .ok res) :
    ∀ x ∈ res, Closed (specImps bg) x.premise := by
  obtain ⟨res', h1, h2, -, -⟩ := dgBasis_generic S hbg cond
  rw [h2] at h
  obtain rfl : res' = res := by injection h
  exact dgLoop_premises S hbg hclose cond _ _ _ _ _ (S.cinto ∅ bg (by simp) hbg) le_rfl
    (by intro i hi; simp at hi) (hclose ∅ bg) (by simp) h1
