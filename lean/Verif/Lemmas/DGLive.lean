import Verif.Model.DGLive
import Verif.Lemmas.DGContext

variable {α : Type*} [DecidableEq α]

open Spec

/-- One round of the main loop, whatever the loop does with it (the proof is that of `dgLoop_step`). -/
theorem dgRound_step {atts : List α} (hn : atts.Nodup)
    {close : Finset α → List (Imp α) → Finset α} {bg : List (Imp α)} {cond : Finset α → Bool}
    {basis : List (Imp α)} {a ac : Finset α} {i : ℕ} {Q : Finset α → Prop}
    (hi : i ≤ atts.length) (ha : a ⊆ atts.toFinset) (hcard : a.card < atts.length)
    (haac : a ⊆ ac) (hacM : ac ⊆ atts.toFinset)
    (hext : ∀ s, s ⊆ close s (dgPush cond basis a ac ++ bg))
    (hQM : ∀ S, Q S → S ⊆ atts.toFinset)
    (hI3 : ∀ S, Q S → lexVal atts a ≤ lexVal atts S → AgreeUpto atts i a S → a ⊆ S)
    (hcl : ∀ S, Q S → a ⊂ S → ac ⊆ S)
    (hleast : ∀ S, Q S → lexVal atts a < lexVal atts S →
      ∀ s, s ⊆ S → close s (dgPush cond basis a ac ++ bg) ⊆ S) :
    ((∀ S, Q S → lexVal atts a < lexVal atts S → S = atts.toFinset) ∧ ac = atts.toFinset ∧
        ¬ (ac \ a) ∩ (atts.take i).toFinset ≠ ∅ ∧ ac.card = atts.length) ∨
    (∃ j b s, (((ac \ a) ∩ (atts.take i).toFinset ≠ ∅ ∧
            dgNext close atts (dgPush cond basis a ac ++ bg) i (a \ (atts.drop i).toFinset) = (b, some j)) ∨
          (¬ (ac \ a) ∩ (atts.take i).toFinset ≠ ∅ ∧ ac.card ≠ atts.length ∧
            dgNext close atts (dgPush cond basis a ac ++ bg) atts.length ac = (b, some j))) ∧
        j ≤ atts.length ∧ s ⊆ atts.toFinset ∧ b = close s (dgPush cond basis a ac ++ bg) ∧
        lexVal atts a < lexVal atts b ∧
        (∀ S, Q S → lexVal atts a < lexVal atts S → S = ac ∨ lexVal atts b ≤ lexVal atts S) ∧
        (∀ S, Q S → lexVal atts b ≤ lexVal atts S → AgreeUpto atts j b S → b ⊆ S)) := by
  have insM : ∀ {j : ℕ} {m : α} {c : Finset α}, atts[j]? = some m → c ⊆ atts.toFinset →
      insert m (upTo atts j c) ⊆ atts.toFinset := by
    intro j m c hj hc x hx
    rcases Finset.mem_insert.1 hx with rfl | hx
    · exact List.mem_toFinset.2 (List.mem_of_getElem? hj)
    · exact hc (mem_upTo.1 hx).1
  by_cases hb1 : (ac \ a) ∩ (atts.take i).toFinset ≠ ∅
  · right
    obtain ⟨x, hx⟩ := Finset.nonempty_iff_ne_empty.2 hb1
    rw [Finset.mem_inter, Finset.mem_sdiff, List.mem_toFinset] at hx
    obtain ⟨j, m, b, e, hji, hj, hma, hmb, hag, hb, hS⟩ :=
      dgNext_spec hn (a₀ := a) (Q := Q) hext hleast i hi ⟨x, hx.2, hx.1.2⟩ (by
        intro S hQ hlt hag
        have haS := hI3 S hQ hlt.le hag
        have hss : a ⊂ S := by
          refine Finset.ssubset_iff_subset_ne.2 ⟨haS, ?_⟩
          rintro rfl; omega
        have := hcl S hQ hss hx.1.1
        exact hx.1.2 ((hag x hx.2).2 this))
    refine ⟨j, b, _, ?_, by omega, insM hj ha, hb, lexVal_lt_of_diff hj hma hmb hag, ?_, ?_⟩
    · rw [sdiff_drop hn ha]
      exact Or.inl ⟨hb1, e⟩
    · intro S hQ hlt
      exact Or.inr (hS S hQ hlt).2
    · intro S hQ hle hagS
      refine (hS S hQ ?_).1 hagS
      exact lt_of_lt_of_le (lexVal_lt_of_diff hj hma hmb hag) hle
  · have hb1' : (ac \ a) ∩ (atts.take i).toFinset = ∅ := by
      by_contra h; exact hb1 h
    have hagac : AgreeUpto atts i a ac := by
      intro y hy
      refine ⟨fun h => haac h, fun h => ?_⟩
      by_contra hya
      have : y ∈ (ac \ a) ∩ (atts.take i).toFinset := by
        rw [Finset.mem_inter, Finset.mem_sdiff, List.mem_toFinset]
        exact ⟨⟨h, hya⟩, hy⟩
      rw [hb1'] at this
      simp at this
    -- sets of `Q` above `a` are above `ac`
    have habove : ∀ S, Q S → lexVal atts a < lexVal atts S → lexVal atts ac ≤ lexVal atts S := by
      intro S hQ hlt
      by_cases hagS : AgreeUpto atts i a S
      · have haS := hI3 S hQ hlt.le hagS
        have hss : a ⊂ S := by
          refine Finset.ssubset_iff_subset_ne.2 ⟨haS, ?_⟩
          rintro rfl; omega
        exact lexVal_mono (hcl S hQ hss)
      · obtain ⟨k, x, hki, hk, hxa, hxS, hkag⟩ := exists_diff_of_not_agree hlt hagS
        apply le_of_lt
        refine lexVal_lt_of_diff hk ?_ hxS ((hagac.mono (by omega)).symm.trans hkag)
        have hxt : x ∈ atts.take i := by
          obtain ⟨hkl, rfl⟩ := List.getElem?_eq_some_iff.1 hk
          exact List.mem_take_iff_getElem.2 ⟨k, by omega, rfl⟩
        exact fun h => hxa ((hagac x hxt).2 h)
    by_cases hcc : ac.card = atts.length
    · left
      have hacE : ac = atts.toFinset := eq_toFinset_of_card hn hacM (by omega)
      refine ⟨?_, hacE, ?_⟩
      · intro S hQ hlt
        have h1 := habove S hQ hlt
        have h2 : lexVal atts S ≤ lexVal atts ac := by
          apply lexVal_mono; rw [hacE]; exact hQM S hQ
        exact (lexVal_inj (hQM S hQ) hacM (by omega)).trans hacE
      · exact ⟨hb1, hcc⟩
    · right
      have hle : lexVal atts a ≤ lexVal atts ac := lexVal_mono haac
      obtain ⟨j, m, b, e, hji, hj, hma, hmb, hag, hb, hS⟩ :=
        dgNext_spec hn (a₀ := ac) (Q := Q) hext
          (fun S hQ hlt => hleast S hQ (lt_of_le_of_lt hle hlt)) atts.length le_rfl (by
            by_contra hall
            push Not at hall
            rw [List.take_length] at hall
            apply hcc
            rw [← List.toFinset_card_of_nodup hn]
            congr 1
            exact Finset.Subset.antisymm hacM (fun x hx => hall x (List.mem_toFinset.1 hx))) (by
            intro S hQ hlt hagS
            unfold AgreeUpto at hagS
            rw [List.take_length] at hagS
            have := (lexVal_eq_iff atts ac S).2 hagS
            omega)
      rw [upTo_length hacM] at e
      refine ⟨j, b, _, ?_, by omega, insM hj hacM, hb,
        lt_of_le_of_lt hle (lexVal_lt_of_diff hj hma hmb hag), ?_, ?_⟩
      · exact Or.inr ⟨hb1, hcc, e⟩
      · intro S hQ hlt
        have h1 := habove S hQ hlt
        rcases Nat.eq_or_lt_of_le h1 with h | h
        · exact Or.inl (lexVal_inj (hQM S hQ) hacM h.symm)
        · exact Or.inr (hS S hQ h).2
      · intro S hQ hle' hagS
        refine (hS S hQ ?_).1 hagS
        exact lt_of_lt_of_le (lexVal_lt_of_diff hj hma hmb hag) hle'

/-- What is assumed of the closure functions: after the values `L` were yielded, `aclose` returns `cl L`, a closure
operator on the attributes. -/
structure LiveSetup (atts : List α) (aclose : List (Imp α) → Finset α → Py (Finset α))
    (cl : List (Imp α) → Finset α → Finset α) (bg : List (Imp α)) : Prop where
  nodup : atts.Nodup
  ac : ∀ L s, s ⊆ atts.toFinset → aclose L s = .ok (cl L s)
  op : ∀ L, IsClosureOp atts.toFinset (cl L)
  bg : ∀ i ∈ bg, i.conclusion ⊆ atts.toFinset

/-- What the value `y`, yielded after the values `L`, is like. -/
def LiveYield (atts : List α) (cl : List (Imp α) → Finset α → Finset α) (bg : List (Imp α))
    (cond : Finset α → Bool) (L : List (Imp α)) (y : Imp α) : Prop :=
  y.premise ⊆ atts.toFinset ∧ y.conclusion = cl L y.premise ∧ y.premise ≠ y.conclusion ∧ cond y.premise = true ∧
    Closed (specImps (L ++ bg)) y.premise ∧ ∀ x ∈ L, lexVal atts x.premise < lexVal atts y.premise

theorem dgPush_eq_append (cond : Finset α → Bool) (basis : List (Imp α)) (a ac : Finset α) :
    dgPush cond basis a ac = basis ++ (if a ≠ ac ∧ cond a = true then [⟨a, ac⟩] else []) := by
  unfold dgPush
  split <;> simp

/-- `S` contains the conclusions of the implications whose premise it properly contains. -/
def QuasiClosed (L : List (Imp α)) (S : Finset α) : Prop := ∀ x ∈ L, x.premise ⊂ S → x.conclusion ⊆ S

/-- The loop ends, says of every value what it was when it was yielded, and, if closed sets remain closed, every set that
is closed under all values is closed at the end. -/
theorem dgLive_loop {atts : List α} {aclose : List (Imp α) → Finset α → Py (Finset α)}
    {cl : List (Imp α) → Finset α → Finset α} {bg : List (Imp α)} (S : LiveSetup atts aclose cl bg)
    (cond : Finset α → Bool) (fuel : ℕ) :
    ∀ basis a i, a ⊆ atts.toFinset → i ≤ atts.length → Over atts.toFinset basis →
      Closed (specImps (basis ++ bg)) a → (∀ x ∈ basis, lexVal atts x.premise < lexVal atts a) →
      2 ^ atts.length - lexVal atts a ≤ fuel →
      ((∀ s, cond s = true) → ∀ X, X ⊆ atts.toFinset → Closed (specImps bg) X → QuasiClosed basis X →
        lexVal atts a ≤ lexVal atts X → AgreeUpto atts i a X → a ⊆ X) →
      ∃ ys, dgLiveLoop atts aclose simpleClosure bg cond fuel basis a i = (ys, .done) ∧
        (∀ (k : ℕ) y, ys[k]? = some y → LiveYield atts cl bg cond (basis ++ ys.take k) y) ∧
        ((∀ s, cond s = true) →
         (∀ L y X, X ⊆ atts.toFinset → cl L X = X → cl (L ++ [y]) X = X) →
         (∀ X, X ⊆ atts.toFinset → Closed (specImps bg) X → QuasiClosed basis X → lexVal atts X < lexVal atts a →
            cl basis X = X ∨ ∃ x ∈ basis, x.premise = X) →
         ∀ X, X ⊆ atts.toFinset → Closed (specImps bg) X → QuasiClosed (basis ++ ys) X →
            cl (basis ++ ys) X = X ∨ ∃ x ∈ basis ++ ys, x.premise = X) := by
  induction fuel with
  | zero =>
    intro basis a i _ _ _ _ _ hf _
    have := lexVal_lt atts a
    omega
  | succ fuel ih =>
    intro basis a i ha hi hover hca hlt hf hI
    have clM : ∀ L, cl L atts.toFinset = atts.toFinset := fun L =>
      Finset.Subset.antisymm ((S.op L).into _ subset_rfl) ((S.op L).ext _ subset_rfl)
    by_cases hcard : a.card < atts.length
    swap
    · refine ⟨[], by rw [dgLiveLoop, if_neg hcard], by simp, ?_⟩
      intro _ _ hinv X hX hXb hXq
      rw [List.append_nil] at hXq ⊢
      have haM : a = atts.toFinset := eq_toFinset_of_card S.nodup ha (by omega)
      by_cases hXM : X = atts.toFinset
      · left; rw [hXM]; exact clM _
      · apply hinv X hX hXb hXq
        rw [haM]
        exact lexVal_lt_of_ssubset subset_rfl (Finset.ssubset_iff_subset_ne.2 ⟨hX, hXM⟩)
    · set ac := cl basis a with hacdef
      have haac : a ⊆ ac := (S.op basis).ext a ha
      have hacM : ac ⊆ atts.toFinset := (S.op basis).into a ha
      set new : List (Imp α) := if a ≠ ac ∧ cond a = true then [⟨a, ac⟩] else [] with hnew
      have hpush : dgPush cond basis a ac = basis ++ new := dgPush_eq_append cond basis a ac
      -- the value yielded in this round
      have hyield : ∀ y ∈ new, LiveYield atts cl bg cond basis y := by
        intro y hy
        rw [hnew] at hy
        split at hy
        · rename_i h
          rw [List.mem_singleton] at hy; subst hy
          exact ⟨ha, hacdef, h.1, h.2, hca, hlt⟩
        · simp at hy
      have hnewlen : new.length ≤ 1 := by rw [hnew]; split <;> simp
      have hpushlt : ∀ x ∈ basis ++ new, lexVal atts x.premise ≤ lexVal atts a := by
        intro x hx
        rw [← hpush] at hx
        rcases mem_dgPush.1 hx with hx | ⟨_, _, rfl⟩
        · exact (hlt x hx).le
        · exact le_rfl
      have hover' : Over atts.toFinset (basis ++ new) := hpush ▸ dgPush_over (cond := cond) hover ha hacM
      have hcon : ∀ x ∈ basis ++ new ++ bg, x.conclusion ⊆ atts.toFinset := by
        intro x hx
        rcases List.mem_append.1 hx with h | h
        · exact (hover' x h).2
        · exact S.bg x h
      -- values of this round and of the rest
      have hcombine : ∀ ys', (∀ (k : ℕ) y, ys'[k]? = some y →
          LiveYield atts cl bg cond (basis ++ new ++ ys'.take k) y) →
          ∀ (k : ℕ) y, (new ++ ys')[k]? = some y → LiveYield atts cl bg cond (basis ++ (new ++ ys').take k) y := by
        intro ys' h k y hk
        by_cases hkn : k < new.length
        · rw [List.getElem?_append_left hkn] at hk
          have : k = 0 := by omega
          subst this
          simpa using hyield y (List.mem_of_getElem? hk)
        · rw [List.getElem?_append_right (by omega)] at hk
          have := h _ y hk
          rw [List.take_append, List.take_of_length_le (by omega : new.length ≤ k), ← List.append_assoc]
          exact this
      -- sets left behind
      have hpast : (∀ s, cond s = true) →
          (∀ L y X, X ⊆ atts.toFinset → cl L X = X → cl (L ++ [y]) X = X) →
          (∀ X, X ⊆ atts.toFinset → Closed (specImps bg) X → QuasiClosed basis X → lexVal atts X < lexVal atts a →
            cl basis X = X ∨ ∃ x ∈ basis, x.premise = X) →
          ∀ X, X ⊆ atts.toFinset → Closed (specImps bg) X → QuasiClosed (basis ++ new) X →
            (lexVal atts X ≤ lexVal atts a ∨ X = ac) →
            cl (basis ++ new) X = X ∨ ∃ x ∈ basis ++ new, x.premise = X := by
        intro hc hmono hinv X hX hXb hXq hle
        have hmono' : cl basis X = X → cl (basis ++ new) X = X := by
          intro h
          rw [hnew]
          split
          · exact hmono _ _ _ hX h
          · simpa using h
        rcases hle with hle | rfl
        · rcases Nat.lt_or_eq_of_le hle with hlt' | heq
          · rcases hinv X hX hXb (fun x hx => hXq x (List.mem_append_left _ hx)) hlt' with h | ⟨x, hx, h⟩
            · exact Or.inl (hmono' h)
            · exact Or.inr ⟨x, List.mem_append_left _ hx, h⟩
          · have hXa : X = a := lexVal_inj hX ha heq
            subst hXa
            by_cases he : X = ac
            · exact Or.inl (hmono' (hacdef ▸ he.symm))
            · refine Or.inr ⟨⟨X, ac⟩, ?_, rfl⟩
              rw [← hpush]
              exact mem_dgPush.2 (Or.inr ⟨he, hc X, rfl⟩)
        · exact Or.inl (hmono' ((S.op basis).idem a ha))
      have hunf : dgLiveLoop atts aclose simpleClosure bg cond (fuel + 1) basis a i =
          if (ac \ a) ∩ (atts.take i).toFinset ≠ ∅ then
            let r := dgNext simpleClosure atts (basis ++ new ++ bg) i (a \ (atts.drop i).toFinset)
            let rest := dgLiveLoop atts aclose simpleClosure bg cond fuel (basis ++ new) r.1 (r.2.getD i)
            (new ++ rest.1, rest.2)
          else if ac.card = atts.length then (new, .done)
          else
            let r := dgNext simpleClosure atts (basis ++ new ++ bg) atts.length ac
            let rest := dgLiveLoop atts aclose simpleClosure bg cond fuel (basis ++ new) r.1 (r.2.getD atts.length)
            (new ++ rest.1, rest.2) := by
        rw [dgLiveLoop, if_pos hcard, S.ac basis a ha]
      -- without a condition the sets `Q` are followed
      have hstep := dgRound_step S.nodup (close := simpleClosure) (bg := bg) (cond := cond) (basis := basis)
        (a := a) (ac := ac) (i := i)
        (Q := fun X => (∀ s, cond s = true) ∧ X ⊆ atts.toFinset ∧ Closed (specImps bg) X ∧ QuasiClosed (basis ++ new) X)
        hi ha hcard haac hacM (fun s => (simpleClosure_isLeast s _).1) (fun X h => h.2.1)
        (fun X h => hI h.1 X h.2.1 h.2.2.1 (fun x hx => h.2.2.2 x (List.mem_append_left _ hx)))
        (by
          rintro X ⟨hc, -, -, hq⟩ hss
          by_cases he : a = ac
          · exact he ▸ hss.1
          · have : (⟨a, ac⟩ : Imp α) ∈ basis ++ new := by
              rw [← hpush]; exact mem_dgPush.2 (Or.inr ⟨he, hc a, rfl⟩)
            exact hq _ this hss)
        (by
          rintro X ⟨hc, hX, hb, hq⟩ hlex s hs
          refine (simpleClosure_isLeast s _).2.2 X hs ?_
          rw [closed_specImps, hpush]
          intro x hx hp
          rcases List.mem_append.1 hx with hx | hx
          · refine hq x hx (Finset.ssubset_iff_subset_ne.2 ⟨hp, ?_⟩)
            rintro rfl
            have := hpushlt x hx
            omega
          · exact (closed_specImps _ _).1 hb x hx hp)
      rw [hpush] at hstep
      rcases hstep with ⟨hall, hacE, hb1, hcc⟩ | ⟨j, b, s, hnext, hj, hs, hbs, hlex, hgap, hI'⟩
      · refine ⟨new, by rw [hunf, if_neg hb1, if_pos hcc], ?_, ?_⟩
        · have := hcombine [] (by simp)
          rwa [List.append_nil] at this
        · intro hc hmono hinv X hX hXb hXq
          by_cases hle : lexVal atts X ≤ lexVal atts a
          · exact hpast hc hmono hinv X hX hXb hXq (Or.inl hle)
          · have := hall X ⟨hc, hX, hXb, hXq⟩ (by omega)
            rw [this]
            exact Or.inl (clM _)
      · have hloop : dgLiveLoop atts aclose simpleClosure bg cond (fuel + 1) basis a i =
            (new ++ (dgLiveLoop atts aclose simpleClosure bg cond fuel (basis ++ new) b j).1,
              (dgLiveLoop atts aclose simpleClosure bg cond fuel (basis ++ new) b j).2) := by
          rw [hunf]
          rcases hnext with ⟨h1, h2⟩ | ⟨h1, h2, h3⟩
          · rw [if_pos h1, h2]; rfl
          · rw [if_neg h1, if_neg h2, h3]; rfl
        have hbM : b ⊆ atts.toFinset := hbs ▸ simpleClosure_into s _ _ hs hcon
        obtain ⟨ys', hys, hy1, hy2⟩ := ih (basis ++ new) b j hbM hj hover'
          (hbs ▸ (simpleClosure_isLeast s _).2.1)
          (fun x hx => lt_of_le_of_lt (hpushlt x hx) hlex) (by have := lexVal_lt atts a; omega)
          (fun hc X hX hXb hXq => hI' X ⟨hc, hX, hXb, hXq⟩)
        refine ⟨new ++ ys', by rw [hloop, hys], hcombine ys' hy1, ?_⟩
        intro hc hmono hinv X hX hXb hXq
        rw [← List.append_assoc] at hXq ⊢
        refine hy2 hc hmono ?_ X hX hXb hXq
        intro Y hY hYb hYq hYlt
        apply hpast hc hmono hinv Y hY hYb hYq
        by_cases hle : lexVal atts Y ≤ lexVal atts a
        · exact Or.inl hle
        · rcases hgap Y ⟨hc, hY, hYb, hYq⟩ (by omega) with h | h
          · exact Or.inr h
          · omega
