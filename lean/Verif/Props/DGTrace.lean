/-
Property C128: the calls made by the basis computation (fca/algorithms/dg_basis.py).
-/
import Verif.Model.DGTrace
import Verif.Props.DG
import Verif.Lemmas.DGLive
import Verif.Props.Lattice
import Verif.Lemmas.Derived

set_option linter.unusedSectionVars false

open Spec

section
variable {α : Type*} [DecidableEq α]

theorem acloseArgs_append (s t : List (DGCall α)) : acloseArgs (s ++ t) = acloseArgs s ++ acloseArgs t := by
  induction s with
  | nil => rfl
  | cons x s ih => cases x <;> simp [acloseArgs, ih]

theorem condArgs_append (s t : List (DGCall α)) : condArgs (s ++ t) = condArgs s ++ condArgs t := by
  induction s with
  | nil => rfl
  | cons x s ih => cases x <;> simp [condArgs, ih]

theorem closeArgs_append (s t : List (DGCall α)) : closeArgs (s ++ t) = closeArgs s ++ closeArgs t := by
  induction s with
  | nil => rfl
  | cons x s ih => cases x <;> simp [closeArgs, ih]

/-- The `for` loop calls `close` only, at most once for each value of `j`. -/
theorem dgNextCalls_args (close : Finset α → List (Imp α) → Finset α) (atts : List α) (L : List (Imp α)) :
    ∀ (j : ℕ) (a : Finset α), acloseArgs (dgNextCalls close atts L j a) = [] ∧
      condArgs (dgNextCalls close atts L j a) = [] ∧ (closeArgs (dgNextCalls close atts L j a)).length ≤ j := by
  intro j
  induction j with
  | zero => intro a; exact ⟨rfl, rfl, le_rfl⟩
  | succ j ih =>
    intro a
    unfold dgNextCalls
    cases atts[j]? with
    | none => exact ⟨rfl, rfl, by simp [closeArgs]⟩
    | some m =>
      dsimp only
      split
      · obtain ⟨h1, h2, h3⟩ := ih (a.erase m)
        exact ⟨h1, h2, by omega⟩
      · split
        · exact ⟨rfl, rfl, by simp [closeArgs]⟩
        · obtain ⟨h1, h2, h3⟩ := ih a
          exact ⟨h1, h2, by simpa [closeArgs] using h3⟩

/-- If the loop ends with a `break`, it has called `close`. -/
theorem dgNextCalls_pos (close : Finset α → List (Imp α) → Finset α) (atts : List α) (L : List (Imp α)) :
    ∀ (j : ℕ) (a b : Finset α) (k : ℕ), dgNext close atts L j a = (b, some k) →
      1 ≤ (closeArgs (dgNextCalls close atts L j a)).length := by
  intro j
  induction j with
  | zero => intro a b k h; simp [dgNext] at h
  | succ j ih =>
    intro a b k h
    unfold dgNext at h
    unfold dgNextCalls
    cases hm : atts[j]? with
    | none => rw [hm] at h; simp at h
    | some m =>
      rw [hm] at h
      dsimp only at h ⊢
      split
      · rename_i hma
        rw [if_pos hma] at h
        exact ih _ _ _ h
      · simp [closeArgs]

/-- The result is that of the model without calls. -/
theorem dgTraceLoop_result (atts : List α) (aclose : Finset α → Py (Finset α))
    (close : Finset α → List (Imp α) → Finset α) (bg : List (Imp α)) (cond : Finset α → Bool) :
    ∀ (fuel : ℕ) (basis : List (Imp α)) (a : Finset α) (i : ℕ),
      (dgTraceLoop atts aclose close bg cond fuel basis a i).2 = dgLoop atts aclose close bg cond fuel basis a i := by
  intro fuel
  induction fuel with
  | zero => intros; rfl
  | succ fuel ih =>
    intro basis a i
    unfold dgTraceLoop dgLoop
    split
    · cases aclose a with
      | error e => rfl
      | ok ac =>
        dsimp only
        split
        · exact ih ..
        · split
          · rfl
          · exact ih ..
    · rfl

/-- `cond` is asked for the sets that `aclose` changes; the premises are those for which it says yes. -/
theorem dgTraceLoop_cond (atts : List α) (aclose : Finset α → Py (Finset α))
    (close : Finset α → List (Imp α) → Finset α) (bg : List (Imp α)) (cond : Finset α → Bool) :
    ∀ (fuel : ℕ) (basis : List (Imp α)) (a : Finset α) (i : ℕ),
      (condArgs (dgTraceLoop atts aclose close bg cond fuel basis a i).1 =
        (acloseArgs (dgTraceLoop atts aclose close bg cond fuel basis a i).1).filter
          fun s => (aclose s).toOption.any fun ac => decide (s ≠ ac)) ∧
      ∀ res, (dgTraceLoop atts aclose close bg cond fuel basis a i).2 = some (.ok res) →
        res.map Imp.premise = basis.map Imp.premise ++
          (condArgs (dgTraceLoop atts aclose close bg cond fuel basis a i).1).filter cond := by
  intro fuel
  induction fuel with
  | zero => intro basis a i; exact ⟨rfl, fun res h => by simp [dgTraceLoop] at h⟩
  | succ fuel ih =>
    intro basis a i
    unfold dgTraceLoop
    by_cases hcard : a.card < atts.length
    swap
    · simp only [if_neg hcard]
      exact ⟨rfl, fun res h => by simp only [Option.some.injEq, Except.ok.injEq] at h; simp [h, condArgs]⟩
    · simp only [if_pos hcard]
      cases hac : aclose a with
      | error e =>
        refine ⟨?_, fun res h => by simp at h⟩
        simp [acloseArgs, condArgs, hac, Except.toOption]
      | ok ac =>
        dsimp only
        obtain ⟨asked, hasked⟩ : ∃ asked : List (DGCall α),
          asked = .aclose a :: if a ≠ ac then [.cond a] else [] := ⟨_, rfl⟩
        obtain ⟨push, hpush⟩ : ∃ push, push = if a ≠ ac ∧ cond a = true then basis ++ [⟨a, ac⟩] else basis := ⟨_, rfl⟩
        rw [← hasked, ← hpush]
        have ka : acloseArgs asked = [a] := by rw [hasked]; split <;> rfl
        have kc : condArgs asked = [a].filter fun s => (aclose s).toOption.any fun ac => decide (s ≠ ac) := by
          rw [hasked]
          by_cases h : a = ac
          · rw [if_neg (not_not.2 h)]
            simp [condArgs, hac, Except.toOption, ← h]
          · rw [if_pos h]
            simp [condArgs, hac, Except.toOption, h]
        have kp : push.map Imp.premise = basis.map Imp.premise ++ (condArgs asked).filter cond := by
          rw [hpush, hasked]
          by_cases h : a = ac
          · simp [h, condArgs]
          · rw [if_pos h]
            by_cases hc : cond a = true
            · simp [h, hc, condArgs]
            · simp [hc, condArgs]
        have join : ∀ (nx : List (DGCall α)) (b : Finset α) (j : ℕ), acloseArgs nx = [] → condArgs nx = [] →
            (condArgs (asked ++ nx ++ (dgTraceLoop atts aclose close bg cond fuel push b j).1) =
              (acloseArgs (asked ++ nx ++ (dgTraceLoop atts aclose close bg cond fuel push b j).1)).filter
                fun s => (aclose s).toOption.any fun ac => decide (s ≠ ac)) ∧
            ∀ res, (dgTraceLoop atts aclose close bg cond fuel push b j).2 = some (.ok res) →
              res.map Imp.premise = basis.map Imp.premise ++
                (condArgs (asked ++ nx ++ (dgTraceLoop atts aclose close bg cond fuel push b j).1)).filter cond := by
          intro nx b j h1 h2
          obtain ⟨i1, i2⟩ := ih push b j
          simp only [condArgs_append, acloseArgs_append, h1, h2, List.append_nil, List.filter_append]
          refine ⟨by rw [i1, ka, kc], fun res hres => ?_⟩
          rw [i2 res hres, kp, List.append_assoc]
        split
        · exact join _ _ _ (dgNextCalls_args ..).1 (dgNextCalls_args ..).2.1
        · split
          · refine ⟨by rw [ka, kc], fun res h => ?_⟩
            simp only [Option.some.injEq, Except.ok.injEq] at h
            rw [← h, kp]
          · exact join _ _ _ (dgNextCalls_args ..).1 (dgNextCalls_args ..).2.1

theorem sorted_eq {γ : Type*} {f : γ → ℕ} : ∀ {l l' : List γ}, (l.Pairwise fun x y => f x < f y) →
    (l'.Pairwise fun x y => f x < f y) → (∀ x, x ∈ l ↔ x ∈ l') → l = l' := by
  intro l l' h h' he
  have : Std.Antisymm fun x y : γ => f x < f y := ⟨fun x y h1 h2 => by omega⟩
  have : Std.Irrefl fun x y : γ => f x < f y := ⟨fun x h => by omega⟩
  exact List.Pairwise.eq_of_mem_iff h h' fun {x} => he x

/-- What the calls from a state on are: `a` is the current set. -/
structure CallsFrom (M : Finset α) (atts : List α) (L₀ : Imps α) (cl : Finset α → Finset α) (a : Finset α)
    (t : List (DGCall α)) : Prop where
  sorted : (acloseArgs t).Pairwise fun s s' => lexVal atts s < lexVal atts s'
  above : ∀ s ∈ acloseArgs t, lexVal atts a ≤ lexVal atts s
  pre : ∀ s ∈ acloseArgs t, Preclosed M L₀ cl s ∧ s ≠ M
  pseudo : ∀ P, IsPseudo M L₀ cl P → lexVal atts a ≤ lexVal atts P → P ∈ acloseArgs t
  closed : ∀ S, Preclosed M L₀ cl S → cl S = S → lexVal atts a ≤ lexVal atts S → S ≠ M →
    S ∈ acloseArgs t ∨ ∃ P, IsPseudo M L₀ cl P ∧ cl P = S
  cond : condArgs t = (acloseArgs t).filter fun s => decide (cl s ≠ s)
  close : (closeArgs t).length ≤ atts.length * (acloseArgs t).length
  many : (acloseArgs t).length ≤ 1 + (closeArgs t).length

theorem dgTraceLoop_correct {atts : List α} {aclose : Finset α → Py (Finset α)}
    {cl : Finset α → Finset α} {close : Finset α → List (Imp α) → Finset α}
    (S : DGSetup atts aclose cl close) (hcl : IsClosureOp atts.toFinset cl) {bg : List (Imp α)}
    (hbgo : ∀ i ∈ bg, i.conclusion ⊆ atts.toFinset)
    (hclose : ∀ basis, GoodBasis bg basis → ∀ s, s ⊆ atts.toFinset →
      IsLeastClosed (specImps (basis ++ bg)) s (close s (basis ++ bg)))
    (fuel : ℕ) :
    ∀ basis a i, i ≤ atts.length →
      Preclosed atts.toFinset (specImps bg) cl a →
      (∀ T, Preclosed atts.toFinset (specImps bg) cl T → lexVal atts a ≤ lexVal atts T →
        AgreeUpto atts i a T → a ⊆ T) →
      (∀ x ∈ basis, IsPseudo atts.toFinset (specImps bg) cl x.premise ∧
        x.conclusion = cl x.premise ∧ lexVal atts x.premise < lexVal atts a) →
      (∀ P, IsPseudo atts.toFinset (specImps bg) cl P → lexVal atts P < lexVal atts a →
        ⟨P, cl P⟩ ∈ basis) →
      (basis.Pairwise fun x y => lexVal atts x.premise < lexVal atts y.premise) →
      2 ^ atts.length - lexVal atts a < fuel →
      CallsFrom atts.toFinset atts (specImps bg) cl a
        (dgTraceLoop atts aclose close bg (fun _ => true) fuel basis a i).1 := by
  have clM : cl atts.toFinset = atts.toFinset :=
    Finset.Subset.antisymm (hcl.into _ (Finset.Subset.refl _)) (hcl.ext _ (Finset.Subset.refl _))
  induction fuel with
  | zero => intro basis a i _ _ _ _ _ _ h; omega
  | succ fuel ih =>
    intro basis a i hi hpre hI3 hb1 hb2 hpw hf
    have ha := hpre.1
    by_cases hcard : a.card < atts.length
    swap
    · have haE : a = atts.toFinset := eq_toFinset_of_card S.nodup ha (by omega)
      have htop : ∀ T, T ⊆ atts.toFinset → lexVal atts a ≤ lexVal atts T → T = atts.toFinset := by
        intro T hT hle
        have := lexVal_mono (l := atts) (haE ▸ hT : T ⊆ a)
        rw [← haE]
        exact lexVal_inj hT ha (by omega)
      rw [dgTraceLoop, if_neg hcard]
      refine ⟨by simp [acloseArgs], by simp [acloseArgs], by simp [acloseArgs], ?_, ?_, rfl, by simp [closeArgs],
        by simp [acloseArgs]⟩
      · intro P hP hle
        obtain ⟨hp, hne⟩ := isPseudo_iff.1 hP
        exact absurd (htop P hp.1 hle ▸ clM) hne
      · intro T hT _ hle hne
        exact absurd (htop T hT.1 hle) hne
    · have hps_or : cl a = a ∨ IsPseudo atts.toFinset (specImps bg) cl a := by
        by_cases h : cl a = a
        · exact Or.inl h
        · exact Or.inr (isPseudo_iff.2 ⟨hpre, h⟩)
      have haM : a ≠ atts.toFinset := by
        rintro rfl
        rw [List.toFinset_card_of_nodup S.nodup] at hcard
        omega
      set push := dgPush (fun _ => true) basis a (cl a) with hpush
      have hmem : ∀ x, x ∈ push ↔ x ∈ basis ∨ (a ≠ cl a ∧ x = ⟨a, cl a⟩) := by
        intro x; rw [hpush, mem_dgPush]; simp
      have hb1' : ∀ x ∈ push, IsPseudo atts.toFinset (specImps bg) cl x.premise ∧
          x.conclusion = cl x.premise ∧ lexVal atts x.premise ≤ lexVal atts a := by
        intro x hx
        rcases (hmem x).1 hx with hx | ⟨hne, rfl⟩
        · obtain ⟨h1, h2, h3⟩ := hb1 x hx
          exact ⟨h1, h2, h3.le⟩
        · exact ⟨isPseudo_iff.2 ⟨hpre, fun h => hne h.symm⟩, rfl, le_rfl⟩
      have hpw' : push.Pairwise fun x y => lexVal atts x.premise < lexVal atts y.premise := by
        rw [hpush]
        unfold dgPush
        split
        · rw [List.pairwise_append]
          refine ⟨hpw, by simp, ?_⟩
          intro x hx y hy
          rw [List.mem_singleton] at hy; subst hy
          exact (hb1 x hx).2.2
        · exact hpw
      have hb2' : ∀ P, IsPseudo atts.toFinset (specImps bg) cl P → lexVal atts P ≤ lexVal atts a →
          ⟨P, cl P⟩ ∈ push := by
        intro P hP hle
        rw [hmem]
        rcases Nat.eq_or_lt_of_le hle with h | h
        · right
          have hPa : P = a := lexVal_inj (isPseudo_iff.1 hP).1.1 ha h
          subst hPa
          exact ⟨fun h => (isPseudo_iff.1 hP).2 h.symm, rfl⟩
        · exact Or.inl (hb2 P hP h)
      have hgood : GoodBasis bg push := by
        apply goodBasis_of hpw'
        · intro x hx hsub
          obtain ⟨h1, h2, _⟩ := hb1' x hx
          obtain ⟨hp, hne⟩ := isPseudo_iff.1 h1
          exact hne (Finset.Subset.antisymm (h2 ▸ hsub) (hcl.ext _ hp.1))
        · intro x hx
          exact (isPseudo_iff.1 (hb1' x hx).1).1.2.1
      have hQcl : ∀ T, Preclosed atts.toFinset (specImps bg) cl T → lexVal atts a < lexVal atts T →
          Closed (specImps (push ++ bg)) T := by
        intro T hT hlt
        rw [closed_specImps]
        intro x hx hxp
        rcases List.mem_append.1 hx with hx | hx
        · obtain ⟨h1, h2, h3⟩ := hb1' x hx
          rw [h2]
          apply hT.2.2 _ _ h1
          refine Finset.ssubset_iff_subset_ne.2 ⟨hxp, ?_⟩
          intro he
          rw [he] at h3; omega
        · exact (closed_specImps bg T).1 hT.2.1 x hx hxp
      set asked : List (DGCall α) := .aclose a :: if a ≠ cl a then [.cond a] else [] with hasked
      have hka : acloseArgs asked = [a] := by rw [hasked]; split <;> rfl
      have hkc : condArgs asked = [a].filter fun s => decide (cl s ≠ s) := by
        rw [hasked]
        by_cases h : a = cl a
        · rw [if_neg (not_not.2 h)]
          simp [condArgs, h.symm]
        · rw [if_pos h]
          simp [condArgs, Ne.symm h]
      have hkl : closeArgs asked = [] := by rw [hasked]; split <;> rfl
      have hunf : dgTraceLoop atts aclose close bg (fun _ => true) (fuel + 1) basis a i =
          if (cl a \ a) ∩ (atts.take i).toFinset ≠ ∅ then
            let r := dgNext close atts (push ++ bg) i (a \ (atts.drop i).toFinset)
            let rest := dgTraceLoop atts aclose close bg (fun _ => true) fuel push r.1 (r.2.getD i)
            (asked ++ dgNextCalls close atts (push ++ bg) i (a \ (atts.drop i).toFinset) ++ rest.1, rest.2)
          else if (cl a).card = atts.length then (asked, some (.ok push))
          else
            let r := dgNext close atts (push ++ bg) atts.length (cl a)
            let rest := dgTraceLoop atts aclose close bg (fun _ => true) fuel push r.1 (r.2.getD atts.length)
            (asked ++ dgNextCalls close atts (push ++ bg) atts.length (cl a) ++ rest.1, rest.2) := by
        rw [dgTraceLoop, if_pos hcard, S.ac a ha]
        rfl
      rcases dgRound_step S.nodup (Q := Preclosed atts.toFinset (specImps bg) cl) (close := close) (basis := basis)
        (bg := bg) (cond := fun _ => true) hi ha hcard (S.ext a ha)
        (S.into a ha) (fun s => S.cext s _) (fun T hT => hT.1) hI3 (by
          intro T hT hss
          rcases hps_or with h | h
          · rw [h]; exact hss.1
          · exact hT.2.2 a hss h) (by
          intro T hT hlt s hs
          exact (hclose push hgood s (hs.trans hT.1)).2.2 T hs (hQcl T hT hlt)) with
        ⟨hfin, hacE, hb, hcc⟩ | ⟨j, b, s, h, hj, hs, hbs, hlex, hnext, hI3'⟩
      · rw [hunf, if_neg hb, if_pos hcc]
        have hle : ∀ T, Preclosed atts.toFinset (specImps bg) cl T → T ≠ atts.toFinset →
            lexVal atts a ≤ lexVal atts T → T = a := by
          intro T hT hne h
          rcases Nat.eq_or_lt_of_le h with h | h
          · exact lexVal_inj hT.1 ha h.symm
          · exact absurd (hfin T hT h) hne
        refine ⟨by rw [hka]; simp, by rw [hka]; simp, ?_, ?_, ?_, by rw [hka, hkc], by rw [hkl]; simp,
          by rw [hka, hkl]; simp⟩
        · rw [hka]
          intro s hs
          rw [List.mem_singleton] at hs; subst hs
          exact ⟨hpre, haM⟩
        · intro P hP h
          obtain ⟨hp, hne⟩ := isPseudo_iff.1 hP
          rw [hka, List.mem_singleton]
          exact hle P hp (fun e => hne (e ▸ clM)) h
        · intro T hT _ h hne
          rw [hka, List.mem_singleton]
          exact Or.inl (hle T hT hne h)
      · have hleast := hclose push hgood s hs
        rw [show close s (push ++ bg) = b from hbs.symm] at hleast
        have hover : Over atts.toFinset push := by
          intro x hx
          obtain ⟨h1, h2, _⟩ := hb1' x hx
          have := (isPseudo_iff.1 h1).1.1
          exact ⟨this, h2 ▸ hcl.into _ this⟩
        have hbM : b ⊆ atts.toFinset := by
          rw [hbs]
          apply S.cinto s _ hs
          intro i hi
          rcases List.mem_append.1 hi with h | h
          · exact (hover i h).2
          · exact hbgo i h
        have hall : ∀ P, IsPseudo atts.toFinset (specImps bg) cl P → lexVal atts P < lexVal atts b →
            ⟨P, cl P⟩ ∈ push := by
          intro P hP hlt
          obtain ⟨hp, hne⟩ := isPseudo_iff.1 hP
          apply hb2' P hP
          by_contra hgt
          rcases hnext P hp (by omega) with h | h
          · apply hne
            rw [h, hcl.idem a ha]
          · omega
        have hbcl := (closed_specImps (push ++ bg) b).1 hleast.2.1
        have hbpre : Preclosed atts.toFinset (specImps bg) cl b := by
          refine ⟨hbM, ?_, ?_⟩
          · rw [closed_specImps]
            intro x hx hxp
            exact hbcl x (List.mem_append_right _ hx) hxp
          · intro P hPb hP
            exact hbcl _ (List.mem_append_left _ (hall P hP (lexVal_lt_of_ssubset hbM hPb))) hPb.1
        have hbv := lexVal_lt atts b
        have IH := ih push b j hj hbpre hI3' (by
          intro x hx
          obtain ⟨h1, h2, h3⟩ := hb1' x hx
          exact ⟨h1, h2, by omega⟩) hall hpw' (by omega)
        obtain ⟨nx, hnx1, hnx2, hnx3, hnx4, hrun⟩ : ∃ nx : List (DGCall α), acloseArgs nx = [] ∧ condArgs nx = [] ∧
            (closeArgs nx).length ≤ atts.length ∧ 1 ≤ (closeArgs nx).length ∧
            (dgTraceLoop atts aclose close bg (fun _ => true) (fuel + 1) basis a i).1 =
              asked ++ nx ++ (dgTraceLoop atts aclose close bg (fun _ => true) fuel push b j).1 := by
          rcases h with ⟨hb, e⟩ | ⟨hb, hcc, e⟩
          · refine ⟨dgNextCalls close atts (push ++ bg) i (a \ (atts.drop i).toFinset),
              (dgNextCalls_args ..).1, (dgNextCalls_args ..).2.1, (dgNextCalls_args ..).2.2.trans hi,
              dgNextCalls_pos _ _ _ _ _ _ _ e, ?_⟩
            rw [hunf, if_pos hb, e]
            rfl
          · refine ⟨dgNextCalls close atts (push ++ bg) atts.length (cl a),
              (dgNextCalls_args ..).1, (dgNextCalls_args ..).2.1, (dgNextCalls_args ..).2.2,
              dgNextCalls_pos _ _ _ _ _ _ _ e, ?_⟩
            rw [hunf, if_neg hb, if_neg hcc, e]
            rfl
        rw [hrun]
        set rest := (dgTraceLoop atts aclose close bg (fun _ => true) fuel push b j).1 with hrest
        have ea : acloseArgs (asked ++ nx ++ rest) = a :: acloseArgs rest := by
          rw [acloseArgs_append, acloseArgs_append, hka, hnx1]; rfl
        refine ⟨?_, ?_, ?_, ?_, ?_, ?_, ?_, ?_⟩
        · rw [ea, List.pairwise_cons]
          exact ⟨fun s hs => lt_of_lt_of_le hlex (IH.above s hs), IH.sorted⟩
        · rw [ea]
          intro s hs
          rcases List.mem_cons.1 hs with rfl | hs
          · exact le_rfl
          · exact hlex.le.trans (IH.above s hs)
        · rw [ea]
          intro s hs
          rcases List.mem_cons.1 hs with rfl | hs
          · exact ⟨hpre, haM⟩
          · exact IH.pre s hs
        · intro P hP hle
          obtain ⟨hp, hne⟩ := isPseudo_iff.1 hP
          rw [ea, List.mem_cons]
          rcases Nat.eq_or_lt_of_le hle with h | h
          · exact Or.inl (lexVal_inj hp.1 ha h.symm)
          · right
            rcases hnext P hp h with e | h'
            · exact absurd (by rw [e, hcl.idem a ha]) hne
            · exact IH.pseudo P hP h'
        · intro T hT hTc hle hne
          rw [ea, List.mem_cons]
          rcases Nat.eq_or_lt_of_le hle with h | h
          · exact Or.inl (Or.inl (lexVal_inj hT.1 ha h.symm))
          · rcases hnext T hT h with e | h'
            · right
              rcases hps_or with h2 | h2
              · rw [e, h2] at h; omega
              · exact ⟨a, h2, e.symm⟩
            · rcases IH.closed T hT hTc h' hne with h2 | h2
              · exact Or.inl (Or.inr h2)
              · exact Or.inr h2
        · rw [condArgs_append, condArgs_append, hnx2, hkc, IH.cond, ea, List.append_nil, ← List.filter_append]
          rfl
        · rw [closeArgs_append, closeArgs_append, hkl, ea, List.length_append, List.length_append, List.length_cons,
            List.length_nil, Nat.mul_add]
          have := IH.close
          omega
        · rw [closeArgs_append, closeArgs_append, hkl, ea, List.length_append, List.length_append, List.length_cons]
          have := IH.many
          omega

end

namespace Ctx
variable {α β : Type} [DecidableEq α] [DecidableEq β]

/-- `compute_dg_basis` with calls returns what it returns. -/
theorem C128_result (c : Ctx α β) (ordA : SetOrder β) (ordO : SetOrder α)
    (close : Finset β → List (Imp β) → Finset β) (bg : List (Imp β)) (cond : Finset β → Bool) :
    c.dgBasisWith ordA ordO close bg cond =
      (dgTrace c.attributes (c.dgAclose ordA ordO) close bg cond).2.getD (.error .genericException) := by
  unfold dgBasisWith dgBasis dgBasisFuel dgTrace
  rw [dgTraceLoop_result]

/-- With any condition, background and closure function: `cond` is called for the sets, among those whose closure is
computed, that are not closed, in the same order; the premises of the result are those for which it says yes. -/
theorem C128_cond (c : Ctx α β) (ordA : SetOrder β) (ordO : SetOrder α)
    (close : Finset β → List (Imp β) → Finset β) (bg : List (Imp β)) (cond : Finset β → Bool) :
    let t := c.dgCalls ordA ordO close bg cond
    (condArgs t = (acloseArgs t).filter fun s => (c.dgAclose ordA ordO s).toOption.any fun ac => decide (s ≠ ac)) ∧
    ∀ res, c.dgBasisWith ordA ordO close bg cond = .ok res → res.map Imp.premise = (condArgs t).filter cond := by
  intro t
  obtain ⟨h1, h2⟩ := dgTraceLoop_cond c.attributes (c.dgAclose ordA ordO) close bg cond (2 ^ c.attributes.length + 1) []
    (close ∅ bg) c.attributes.length
  refine ⟨h1, fun res hres => ?_⟩
  rw [C128_result] at hres
  have : (dgTrace c.attributes (c.dgAclose ordA ordO) close bg cond).2 = some (.ok res) := by
    cases hr : (dgTrace c.attributes (c.dgAclose ordA ordO) close bg cond).2 with
    | none => rw [hr] at hres; simp at hres
    | some r => rw [hr] at hres; simpa using hres
  rw [h2 res this]
  rfl

/-- The sets whose closure is computed: each once, in lectic order, all of them intents or pseudo-intents other than the set
of all attributes; every pseudo-intent is among them, and every intent that is not is the set of all attributes or the
closure of a pseudo-intent. `cond` is asked for the premises of the basis, in their order. `close` is called at
least once for each of these sets, and at most once more than (number of attributes) times (number of sets). -/
theorem C128_calls {c : Ctx α β} (h : c.WFw) (hne : c.objects ≠ []) (ordA : SetOrder β) (ordO : SetOrder α)
    (close : Finset β → List (Imp β) → Finset β) (bg : List (Imp β)) (hclose : StdClose bg close) (hbg : c.ValidBg bg)
    (res : List (Imp β)) (hres : c.dgBasisWith ordA ordO close bg (fun _ => true) = .ok res) :
    let t := c.dgCalls ordA ordO close bg (fun _ => true)
    (acloseArgs t).Nodup ∧ (acloseArgs t).Pairwise (LecticLt c.attributes) ∧
    (∀ s ∈ acloseArgs t, s ≠ c.M ∧ (IsIntent c.G c.M c.Inc s ∨ s ∈ res.map Imp.premise)) ∧
    (∀ P ∈ res.map Imp.premise, P ∈ acloseArgs t) ∧
    (∀ B, IsIntent c.G c.M c.Inc B → B ∉ acloseArgs t → B = c.M ∨ ∃ x ∈ res, x.conclusion = B) ∧
    condArgs t = res.map Imp.premise ∧
    (acloseArgs t).length ≤ (closeArgs t).length ∧
    (closeArgs t).length ≤ 1 + c.attributes.length * (acloseArgs t).length := by
  intro t
  have hM : c.attributes.toFinset = c.M := rfl
  obtain ⟨hr1, hr2⟩ := dg_main h hclose (fun i hi => (hbg i hi).1) hres
  have hop := h.attrClosure_op
  have S := h.dgSetup (h.cols hne) ordA ordO (hclose.good c.M)
  have hleast := fun basis (hb : GoodBasis bg basis) s (_ : s ⊆ c.attributes.toFinset) => hclose.least basis hb s
  -- the start of the loop
  have h0 := hleast [] ⟨by simp, by simp⟩ ∅ (by simp)
  simp only [List.nil_append] at h0
  have haM : close ∅ bg ⊆ c.attributes.toFinset := S.cinto ∅ bg (by simp) fun i hi => (hbg i hi).1
  have hsub : ∀ T, Closed (specImps bg) T → close ∅ bg ⊆ T := fun T hT => h0.2.2 T (by simp) hT
  have hlow : ∀ P, Preclosed c.M (specImps bg) (attrClosure c.G c.M c.Inc) P →
      lexVal c.attributes (close ∅ bg) ≤ lexVal c.attributes P := fun P hP => lexVal_mono (hsub P hP.2.1)
  have F := dgTraceLoop_correct S hop (fun i hi => (hbg i hi).1) hleast (2 ^ c.attributes.length + 1) [] (close ∅ bg)
    c.attributes.length le_rfl
    ⟨haM, h0.2.1, fun Q hQ hps => absurd (hsub Q (isPseudo_iff.1 hps).1.2.1) (fun h =>
      (Finset.ssubset_iff_subset_ne.1 hQ).2 (Finset.Subset.antisymm hQ.1 h))⟩
    (fun T hT _ _ => hsub T hT.2.1) (by simp)
    (fun P hP hlt => absurd hlt (by have := hlow P (isPseudo_iff.1 hP).1; omega)) (by simp)
    (Nat.lt_succ_of_le (Nat.sub_le _ _))
  rw [hM] at F
  obtain ⟨tl, htl⟩ : ∃ tl, (dgTraceLoop c.attributes (c.dgAclose ordA ordO) close bg (fun _ => true)
    (2 ^ c.attributes.length + 1) [] (close ∅ bg) c.attributes.length).1 = tl := ⟨_, rfl⟩
  rw [htl] at F
  have ht : t = .close ∅ :: tl := by
    rw [← htl]; rfl
  have e1 : acloseArgs t = acloseArgs tl := by rw [ht]; rfl
  have e2 : condArgs t = condArgs tl := by rw [ht]; rfl
  have e3 : closeArgs t = ∅ :: closeArgs tl := by rw [ht]; rfl
  have hprem : ∀ P, P ∈ res.map Imp.premise ↔ IsPseudo c.M (specImps bg) (attrClosure c.G c.M c.Inc) P := by
    intro P
    rw [List.mem_map]
    constructor
    · rintro ⟨x, hx, rfl⟩; exact ((hr1 x).1 hx).1
    · intro hP; exact ⟨⟨P, attrClosure c.G c.M c.Inc P⟩, (hr1 _).2 ⟨hP, rfl⟩, rfl⟩
  have hint : ∀ B, IsIntent c.G c.M c.Inc B ↔ B ⊆ c.M ∧ attrClosure c.G c.M c.Inc B = B := fun B => isIntent_iff
  have hbgc : ∀ s, s ⊆ c.M → Closed (specImps bg) (attrClosure c.G c.M c.Inc s) := fun s _ =>
    closed_attrClosure h (fun i hi => (hbg i hi).2) (fun i hi => (hbg i hi).1) s
  rw [e1, e2, e3]
  refine ⟨F.sorted.imp fun hlt he => by rw [he] at hlt; omega, F.sorted.imp fun hlt => (lecticLt_iff _ _ _).2 hlt, ?_, ?_,
    ?_, ?_, ?_, ?_⟩
  · intro s hs
    obtain ⟨h1, h2⟩ := F.pre s hs
    refine ⟨h2, ?_⟩
    by_cases hc : attrClosure c.G c.M c.Inc s = s
    · exact Or.inl ((hint s).2 ⟨h1.1, hc⟩)
    · exact Or.inr ((hprem s).2 (isPseudo_iff.2 ⟨h1, hc⟩))
  · intro P hP
    have hP := (hprem P).1 hP
    exact F.pseudo P hP (hlow P (isPseudo_iff.1 hP).1)
  · intro B hB hn
    obtain ⟨h1, h2⟩ := (hint B).1 hB
    have hpre := preclosed_of_closed hop hbgc h1 h2
    by_cases hBM : B = c.M
    · exact Or.inl hBM
    · rcases F.closed B hpre h2 (hlow B hpre) hBM with h3 | ⟨P, hP, he⟩
      · exact absurd h3 hn
      · exact Or.inr ⟨⟨P, attrClosure c.G c.M c.Inc P⟩, (hr1 _).2 ⟨hP, rfl⟩, he⟩
  · rw [F.cond]
    refine sorted_eq (F.sorted.filter _)
      (List.pairwise_map.2 (hr2.imp fun {x y} hxy => (lecticLt_iff c.attributes x.premise y.premise).1 hxy)) fun s => ?_
    rw [List.mem_filter, hprem, decide_eq_true_eq]
    constructor
    · rintro ⟨h1, h2⟩
      exact isPseudo_iff.2 ⟨(F.pre s h1).1, h2⟩
    · intro hP
      exact ⟨F.pseudo s hP (hlow s (isPseudo_iff.1 hP).1), (isPseudo_iff.1 hP).2⟩
  · rw [List.length_cons]
    have := F.many
    omega
  · rw [List.length_cons]
    have := F.close
    omega

/-- The number of sets whose closure is computed: at least one less than the number of concepts, and at most the number of
implications more than that. -/
theorem C128_count {c : Ctx α β} (h : c.WFw) (hne : c.objects ≠ []) (ordA : SetOrder β) (ordO : SetOrder α)
    (close : Finset β → List (Imp β) → Finset β) (bg : List (Imp β)) (hclose : StdClose bg close) (hbg : c.ValidBg bg)
    (res : List (Imp β)) (hres : c.dgBasisWith ordA ordO close bg (fun _ => true) = .ok res)
    (cs : List (Concept α β)) (hcs : norris c = .ok cs) :
    let n := (acloseArgs (c.dgCalls ordA ordO close bg (fun _ => true))).length
    cs.length ≤ n + 1 ∧ n + 1 ≤ cs.length + res.length := by
  intro n
  classical
  obtain ⟨h1, -, h3, h4, h5, h6, -⟩ := C128_calls h hne ordA ordO close bg hclose hbg res hres
  set l := acloseArgs (c.dgCalls ordA ordO close bg (fun _ => true)) with hl
  obtain ⟨cs', hcs', hnd, hmem⟩ := C34_norris h
  rw [hcs] at hcs'
  obtain rfl : cs = cs' := by injection hcs'
  obtain ⟨hp, -, hpn, -⟩ := C26_basis_pseudo_intents h ordA ordO close bg hclose hbg res hres
  -- the intents, each once
  set B := (cs.map fun x => x.intent).toFinset with hB
  have hBmem : ∀ s, s ∈ B ↔ IsIntent c.G c.M c.Inc s := by
    intro s
    rw [hB, List.mem_toFinset, List.mem_map]
    constructor
    · rintro ⟨x, hx, rfl⟩
      exact ⟨x.extent, (hmem x).1 hx⟩
    · rintro ⟨A, hA⟩
      exact ⟨⟨A, s⟩, (hmem _).2 hA, rfl⟩
  have hBcard : B.card = cs.length := by
    rw [hB, List.toFinset_card_of_nodup, List.length_map]
    refine List.Nodup.map_on ?_ hnd
    intro x hx y hy he
    have e1 := ((hmem x).1 hx).2
    have e2 := ((hmem y).1 hy).2
    have : x.extent = y.extent := by
      ext g
      rw [e1, e2, he]
    cases x; cases y
    simp_all
  set P := (res.map Imp.premise).toFinset with hP
  have hPcard : P.card = res.length := by rw [hP, List.toFinset_card_of_nodup hpn, List.length_map]
  have hdisj : Disjoint B P := by
    rw [Finset.disjoint_left]
    intro s hs hsP
    rw [hP, List.mem_toFinset] at hsP
    exact (isPseudo_iff.1 ((hp s).1 hsP)).2 (isIntent_iff.1 ((hBmem s).1 hs)).2
  have hMB : c.M ∈ B := (hBmem _).2 (isIntent_iff.2 ⟨subset_rfl,
    Finset.Subset.antisymm (h.attrClosure_op.into _ subset_rfl) (h.attrClosure_op.ext _ subset_rfl)⟩)
  have hlcard : l.toFinset.card = n := List.toFinset_card_of_nodup h1
  have hlsub : l.toFinset ⊆ B.erase c.M ∪ P := by
    intro s hs
    obtain ⟨h7, h8⟩ := h3 s (List.mem_toFinset.1 hs)
    rw [Finset.mem_union, Finset.mem_erase, hBmem, hP, List.mem_toFinset]
    exact h8.imp (fun h => ⟨h7, h⟩) id
  have hPl : P ⊆ l.toFinset := fun s hs => List.mem_toFinset.2 (h4 s (by rwa [hP, List.mem_toFinset] at hs))
  constructor
  · have hsub : B ⊆ insert c.M ((l.toFinset \ P) ∪ (res.map Imp.conclusion).toFinset) := by
      intro s hs
      rw [Finset.mem_insert, Finset.mem_union, Finset.mem_sdiff, List.mem_toFinset]
      by_cases hsl : s ∈ l
      · exact Or.inr (Or.inl ⟨hsl, Finset.disjoint_left.1 hdisj hs⟩)
      · rcases h5 s ((hBmem s).1 hs) hsl with h7 | ⟨x, hx, h7⟩
        · exact Or.inl h7
        · exact Or.inr (Or.inr (List.mem_toFinset.2 (List.mem_map.2 ⟨x, hx, h7⟩)))
    have k1 := Finset.card_le_card hsub
    have k2 := Finset.card_insert_le c.M ((l.toFinset \ P) ∪ (res.map Imp.conclusion).toFinset)
    have k3 := Finset.card_union_le (l.toFinset \ P) (res.map Imp.conclusion).toFinset
    have k4 := List.toFinset_card_le (res.map Imp.conclusion)
    rw [List.length_map] at k4
    have k5 := Finset.card_sdiff_of_subset hPl
    have k6 := Finset.card_le_card hPl
    omega
  · have k1 := Finset.card_le_card hlsub
    have k2 := Finset.card_union_le (B.erase c.M) P
    have k3 := Finset.card_erase_of_mem hMB
    have k4 : 0 < B.card := Finset.card_pos.2 ⟨_, hMB⟩
    omega

/-- Concepts and implications together are at most as many as sets of attributes. -/
theorem C128_bound {c : Ctx α β} (h : c.WFw) (ordA : SetOrder β) (ordO : SetOrder α)
    (close : Finset β → List (Imp β) → Finset β) (bg : List (Imp β)) (hclose : StdClose bg close) (hbg : c.ValidBg bg)
    (res : List (Imp β)) (hres : c.dgBasisWith ordA ordO close bg (fun _ => true) = .ok res)
    (cs : List (Concept α β)) (hcs : norris c = .ok cs) : cs.length + res.length ≤ 2 ^ c.attributes.length := by
  classical
  obtain ⟨cs', hcs', hnd, hmem⟩ := C34_norris h
  rw [hcs] at hcs'
  obtain rfl : cs = cs' := by injection hcs'
  obtain ⟨hp, -, hpn, -⟩ := C26_basis_pseudo_intents h ordA ordO close bg hclose hbg res hres
  have hinj : ((cs.map fun x => x.intent) ++ res.map Imp.premise).Nodup := by
    refine List.Nodup.append ?_ hpn ?_
    · refine List.Nodup.map_on ?_ hnd
      intro x hx y hy he
      have e1 := ((hmem x).1 hx).2
      have e2 := ((hmem y).1 hy).2
      have : x.extent = y.extent := by
        ext g
        rw [e1, e2, he]
      cases x; cases y
      simp_all
    · rintro s hs hsP
      obtain ⟨x, hx, rfl⟩ := List.mem_map.1 hs
      exact (isPseudo_iff.1 ((hp _).1 hsP)).2 (isIntent_iff.1 ⟨x.extent, (hmem x).1 hx⟩).2
  have hsub : ((cs.map fun x => x.intent) ++ res.map Imp.premise).toFinset ⊆ c.M.powerset := by
    intro s hs
    rw [Finset.mem_powerset]
    rcases List.mem_append.1 (List.mem_toFinset.1 hs) with hs | hs
    · obtain ⟨x, hx, rfl⟩ := List.mem_map.1 hs
      exact (isIntent_iff.1 ⟨x.extent, (hmem x).1 hx⟩).1
    · exact (isPseudo_iff.1 ((hp _).1 hs)).1.1
  have := Finset.card_le_card hsub
  rw [List.toFinset_card_of_nodup hinj, Finset.card_powerset, List.length_append, List.length_map, List.length_map] at this
  have hM : c.M.card = c.attributes.length := List.toFinset_card_of_nodup h.anodup
  rwa [hM] at this

/-! ### Concrete case -/

/-- The context of the docstring: nine concepts, three implications, ten sets. -/
example : acloseArgs (demo.dgCalls (SetOrder.fin 4) (SetOrder.fin 4) simpleClosure [] fun _ => true) =
    [∅, {3}, {2}, {2, 3}, {1}, {1, 2, 3}, {0}, {0, 3}, {0, 2}, {0, 1, 2}] := by
  decide +kernel

example : condArgs (demo.dgCalls (SetOrder.fin 4) (SetOrder.fin 4) simpleClosure [] fun _ => true) =
    [{2, 3}, {1}, {0, 1, 2}] := by
  decide +kernel

example : (closeArgs (demo.dgCalls (SetOrder.fin 4) (SetOrder.fin 4) simpleClosure [] fun _ => true)).length = 11 := by
  decide +kernel

example : condArgs (demo.dgCalls (SetOrder.fin 4) (SetOrder.fin 4) simpleClosure [] fun s => decide (s.card < 2)) =
    [{2, 3}, {1}, {0, 2, 3}, {0, 1, 2}] := by
  decide +kernel

example : (norris demo).map List.length = .ok 9 := by decide +kernel

end Ctx
