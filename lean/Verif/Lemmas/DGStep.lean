import Verif.Model.DG
import Verif.Lemmas.Lectic
import Verif.Lemmas.Closure

variable {α : Type*} [DecidableEq α]

open Spec

/-- Elements of `a` among the first `j` of `atts`. -/
def upTo (atts : List α) (j : ℕ) (a : Finset α) : Finset α := a.filter (· ∈ atts.take j)

theorem mem_upTo {atts : List α} {j : ℕ} {a : Finset α} {x : α} :
    x ∈ upTo atts j a ↔ x ∈ a ∧ x ∈ atts.take j := by simp [upTo]

theorem upTo_length {atts : List α} {a : Finset α} (h : a ⊆ atts.toFinset) :
    upTo atts atts.length a = a := by
  ext x
  rw [mem_upTo, List.take_length]
  exact ⟨fun h => h.1, fun hx => ⟨hx, List.mem_toFinset.1 (h hx)⟩⟩

theorem sdiff_drop {atts : List α} (hn : atts.Nodup) {a : Finset α} (h : a ⊆ atts.toFinset) (i : ℕ) :
    a \ (atts.drop i).toFinset = upTo atts i a := by
  ext x
  rw [mem_upTo, Finset.mem_sdiff, List.mem_toFinset]
  constructor
  · rintro ⟨hx, hd⟩
    refine ⟨hx, ?_⟩
    have : x ∈ atts.take i ++ atts.drop i := by
      rw [List.take_append_drop]; exact List.mem_toFinset.1 (h hx)
    rcases List.mem_append.1 this with h | h
    · exact h
    · exact absurd h hd
  · rintro ⟨hx, ht⟩
    refine ⟨hx, fun hd => ?_⟩
    exact List.disjoint_take_drop hn le_rfl ht hd

omit [DecidableEq α] in
theorem not_mem_take {atts : List α} (hn : atts.Nodup) {j : ℕ} {m : α} (hj : atts[j]? = some m) :
    m ∉ atts.take j := by
  intro h
  obtain ⟨hlt, rfl⟩ := List.getElem?_eq_some_iff.1 hj
  have hd : atts[j] ∈ atts.drop j := by
    rw [List.drop_eq_getElem_cons hlt]; exact List.mem_cons_self
  exact List.disjoint_take_drop hn le_rfl h hd

omit [DecidableEq α] in
theorem mem_take_succ {atts : List α} {j : ℕ} {m x : α} (hj : atts[j]? = some m) :
    x ∈ atts.take (j + 1) ↔ x ∈ atts.take j ∨ x = m := by
  rw [List.take_add_one, hj]; simp

/-- The `for j` loop started at index `i` on the part of `a₀` below `i`. -/
theorem dgNext_spec {atts : List α} (hn : atts.Nodup) {close : Finset α → List (Imp α) → Finset α}
    {L : List (Imp α)} {a₀ : Finset α} {Q : Finset α → Prop}
    (hext : ∀ s, s ⊆ close s L)
    (hleast : ∀ S, Q S → lexVal atts a₀ < lexVal atts S → ∀ s, s ⊆ S → close s L ⊆ S) :
    ∀ i, i ≤ atts.length → (∃ x ∈ atts.take i, x ∉ a₀) →
    (∀ S, Q S → lexVal atts a₀ < lexVal atts S → ¬ AgreeUpto atts i a₀ S) →
    ∃ j m b, dgNext close atts L i (upTo atts i a₀) = (b, some j) ∧ j < i ∧ atts[j]? = some m ∧
      m ∉ a₀ ∧ m ∈ b ∧ AgreeUpto atts j a₀ b ∧ b = close (insert m (upTo atts j a₀)) L ∧
      ∀ S, Q S → lexVal atts a₀ < lexVal atts S →
        (AgreeUpto atts j b S → b ⊆ S) ∧ lexVal atts b ≤ lexVal atts S := by
  intro i
  induction i with
  | zero => intro _ ⟨x, hx, _⟩; simp at hx
  | succ j ih =>
    intro hi hex hno
    have hlt : j < atts.length := by omega
    have hj : atts[j]? = some atts[j] := List.getElem?_eq_getElem hlt
    set m := atts[j] with hm
    have hmt := not_mem_take hn hj
    unfold dgNext
    rw [hj]
    simp only
    by_cases hma : m ∈ a₀
    · have h1 : m ∈ upTo atts (j + 1) a₀ := by
        rw [mem_upTo, mem_take_succ hj]; exact ⟨hma, Or.inr rfl⟩
      rw [if_pos h1]
      have h2 : (upTo atts (j + 1) a₀).erase m = upTo atts j a₀ := by
        ext x
        rw [Finset.mem_erase, mem_upTo, mem_upTo, mem_take_succ hj]
        constructor
        · rintro ⟨hne, hx, h | h⟩
          · exact ⟨hx, h⟩
          · exact absurd h hne
        · rintro ⟨hx, h⟩
          exact ⟨fun he => hmt (he ▸ h), hx, Or.inl h⟩
      rw [h2]
      obtain ⟨j', m', b, e, hj', rest⟩ := ih (by omega) (by
        obtain ⟨x, hx, hxa⟩ := hex
        rcases (mem_take_succ hj).1 hx with h | rfl
        · exact ⟨x, h, hxa⟩
        · exact absurd hma hxa) (by
        intro S hQ hS hag
        apply hno S hQ hS
        rw [agreeUpto_succ hj]
        refine ⟨hag, fun _ => ?_, fun _ => hma⟩
        by_contra hmS
        have := lexVal_lt_of_diff hj hmS hma hag.symm
        omega)
      exact ⟨j', m', b, e, by omega, rest⟩
    · have h1 : m ∉ upTo atts (j + 1) a₀ := fun h => hma (mem_upTo.1 h).1
      have h2 : upTo atts (j + 1) a₀ = upTo atts j a₀ := by
        ext x
        rw [mem_upTo, mem_upTo, mem_take_succ hj]
        constructor
        · rintro ⟨hx, h | rfl⟩
          · exact ⟨hx, h⟩
          · exact absurd hx hma
        · rintro ⟨hx, h⟩; exact ⟨hx, Or.inl h⟩
      rw [if_neg h1, h2]
      set b := close (insert m (upTo atts j a₀)) L with hb
      have hbsup : insert m (upTo atts j a₀) ⊆ b := hext _
      have hmS : ∀ S, Q S → lexVal atts a₀ < lexVal atts S → AgreeUpto atts j a₀ S → b ⊆ S := by
        intro S hQ hS hag
        apply hleast S hQ hS
        intro x hx
        rcases Finset.mem_insert.1 hx with rfl | hx
        · by_contra hmS
          apply hno S hQ hS
          rw [agreeUpto_succ hj]
          exact ⟨hag, fun h => absurd h hma, fun h => absurd h hmS⟩
        · obtain ⟨h1, h2⟩ := mem_upTo.1 hx
          exact (hag x h2).1 h1
      by_cases hacc : (b \ upTo atts j a₀) ∩ (atts.take j).toFinset = ∅
      · rw [if_pos hacc]
        have hag : AgreeUpto atts j a₀ b := by
          intro y hy
          constructor
          · intro hya
            exact hbsup (Finset.mem_insert_of_mem (mem_upTo.2 ⟨hya, hy⟩))
          · intro hyb
            by_contra hya
            have : y ∈ (b \ upTo atts j a₀) ∩ (atts.take j).toFinset := by
              rw [Finset.mem_inter, Finset.mem_sdiff, List.mem_toFinset]
              exact ⟨⟨hyb, fun h => hya (mem_upTo.1 h).1⟩, hy⟩
            rw [hacc] at this
            simp at this
        refine ⟨j, m, b, rfl, by omega, hj, hma, hbsup (Finset.mem_insert_self _ _), hag, hb, ?_⟩
        intro S hQ hS
        refine ⟨fun h => hmS S hQ hS (hag.trans h), ?_⟩
        by_cases hagS : AgreeUpto atts j a₀ S
        · exact lexVal_mono (hmS S hQ hS hagS)
        · obtain ⟨k, x, hkj, hk, hxa, hxS, hkag⟩ := exists_diff_of_not_agree hS hagS
          apply le_of_lt
          refine lexVal_lt_of_diff hk ?_ hxS ((hag.mono (by omega)).symm.trans hkag)
          have hxt : x ∈ atts.take j := by
            obtain ⟨hkl, rfl⟩ := List.getElem?_eq_some_iff.1 hk
            exact List.mem_take_iff_getElem.2 ⟨k, by omega, rfl⟩
          exact fun h => hxa ((hag x hxt).2 h)
      · rw [if_neg hacc]
        obtain ⟨j', m', b', e, hj', rest⟩ := ih (by omega) (by
          by_contra hall
          push Not at hall
          apply hacc
          rw [Finset.eq_empty_iff_forall_notMem]
          intro x hx
          rw [Finset.mem_inter, Finset.mem_sdiff, List.mem_toFinset] at hx
          exact hx.1.2 (mem_upTo.2 ⟨hall x hx.2, hx.2⟩)) (by
          intro S hQ hS hag
          have hbS := hmS S hQ hS hag
          apply hacc
          rw [Finset.eq_empty_iff_forall_notMem]
          intro x hx
          rw [Finset.mem_inter, Finset.mem_sdiff, List.mem_toFinset] at hx
          exact hx.1.2 (mem_upTo.2 ⟨(hag x hx.2).2 (hbS hx.1.1), hx.2⟩))
        exact ⟨j', m', b', e, by omega, rest⟩

/-- The `for j` loop uses the closure function only on subsets of the attribute set. -/
theorem dgNext_congr {atts : List α} {close close' : Finset α → List (Imp α) → Finset α}
    {L : List (Imp α)} (h : ∀ s, s ⊆ atts.toFinset → close' s L = close s L) :
    ∀ i a, a ⊆ atts.toFinset → dgNext close' atts L i a = dgNext close atts L i a := by
  intro i
  induction i with
  | zero => intro a _; rfl
  | succ j ih =>
    intro a ha
    unfold dgNext
    match hj : atts[j]? with
    | none => rfl
    | some m =>
      simp only
      have hm : insert m a ⊆ atts.toFinset :=
        Finset.insert_subset (List.mem_toFinset.2 (List.mem_of_getElem? hj)) ha
      rw [h _ hm, ih a ha, ih (a.erase m) ((Finset.erase_subset _ _).trans ha)]

/-- `relative_basis` after the round with set `a`. -/
def dgPush (cond : Finset α → Bool) (basis : List (Imp α)) (a ac : Finset α) : List (Imp α) :=
  if a ≠ ac ∧ cond a = true then basis ++ [⟨a, ac⟩] else basis

theorem eq_toFinset_of_card {atts : List α} (hn : atts.Nodup) {a : Finset α}
    (ha : a ⊆ atts.toFinset) (h : atts.length ≤ a.card) : a = atts.toFinset := by
  apply Finset.eq_of_subset_of_card_le ha
  rw [List.toFinset_card_of_nodup hn]; exact h

/-- One round of the main loop. -/
theorem dgLoop_step {atts : List α} (hn : atts.Nodup) {aclose : Finset α → Py (Finset α)}
    {close : Finset α → List (Imp α) → Finset α} {bg : List (Imp α)} {cond : Finset α → Bool}
    {basis : List (Imp α)} {a ac : Finset α} {i : ℕ} {Q : Finset α → Prop}
    (hi : i ≤ atts.length) (ha : a ⊆ atts.toFinset) (hcard : a.card < atts.length)
    (hac : aclose a = .ok ac) (haac : a ⊆ ac) (hacM : ac ⊆ atts.toFinset)
    (hext : ∀ s, s ⊆ close s (dgPush cond basis a ac ++ bg))
    (hQM : ∀ S, Q S → S ⊆ atts.toFinset)
    (hI3 : ∀ S, Q S → lexVal atts a ≤ lexVal atts S → AgreeUpto atts i a S → a ⊆ S)
    (hcl : ∀ S, Q S → a ⊂ S → ac ⊆ S)
    (hleast : ∀ S, Q S → lexVal atts a < lexVal atts S →
      ∀ s, s ⊆ S → close s (dgPush cond basis a ac ++ bg) ⊆ S) :
    (((∀ S, Q S → lexVal atts a < lexVal atts S → S = atts.toFinset) ∧ ac = atts.toFinset ∧
        ∀ close' fuel, dgLoop atts aclose close' bg cond (fuel + 1) basis a i
          = some (.ok (dgPush cond basis a ac)))) ∨
    (∃ j b s, (∀ close', (∀ s, s ⊆ atts.toFinset →
            close' s (dgPush cond basis a ac ++ bg) = close s (dgPush cond basis a ac ++ bg)) →
          ∀ fuel, dgLoop atts aclose close' bg cond (fuel + 1) basis a i
          = dgLoop atts aclose close' bg cond fuel (dgPush cond basis a ac) b j) ∧
        j ≤ atts.length ∧ s ⊆ atts.toFinset ∧ b = close s (dgPush cond basis a ac ++ bg) ∧
        lexVal atts a < lexVal atts b ∧
        (∀ S, Q S → lexVal atts a < lexVal atts S → S = ac ∨ lexVal atts b ≤ lexVal atts S) ∧
        (∀ S, Q S → lexVal atts b ≤ lexVal atts S → AgreeUpto atts j b S → b ⊆ S)) := by
  have hunf : ∀ close fuel, dgLoop atts aclose close bg cond (fuel + 1) basis a i =
      if (ac \ a) ∩ (atts.take i).toFinset ≠ ∅ then
        (let r := dgNext close atts (dgPush cond basis a ac ++ bg) i (a \ (atts.drop i).toFinset)
        dgLoop atts aclose close bg cond fuel (dgPush cond basis a ac) r.1 (r.2.getD i))
      else if ac.card = atts.length then some (.ok (dgPush cond basis a ac))
      else
        (let r := dgNext close atts (dgPush cond basis a ac ++ bg) atts.length ac
        dgLoop atts aclose close bg cond fuel (dgPush cond basis a ac) r.1 (r.2.getD atts.length)) := by
    intro close fuel
    rw [dgLoop, if_pos hcard, hac]
    rfl
  have insM : ∀ {j : ℕ} {m : α} {c : Finset α}, atts[j]? = some m → c ⊆ atts.toFinset →
      insert m (upTo atts j c) ⊆ atts.toFinset := by
    intro j m c hj hc x hx
    rcases Finset.mem_insert.1 hx with rfl | hx
    · exact List.mem_toFinset.2 (List.mem_of_getElem? hj)
    · exact hc (mem_upTo.1 hx).1
  by_cases hb1 : (ac \ a) ∩ (atts.take i).toFinset ≠ ∅
  · right
    obtain ⟨x, hx⟩ := Finset.nonempty_iff_ne_empty.2 hb1
    rw [Finset.mem_inter, Finset.mem_sdiff, List.mem_toFinset] at hx
    obtain ⟨j, m, b, e, hji, hj, hma, hmb, hag, hb, hS⟩ :=
      dgNext_spec hn (a₀ := a) (Q := Q) hext hleast i hi ⟨x, hx.2, hx.1.2⟩ (by
        intro S hQ hlt hag
        have haS := hI3 S hQ hlt.le hag
        have hss : a ⊂ S := by
          refine Finset.ssubset_iff_subset_ne.2 ⟨haS, ?_⟩
          rintro rfl; omega
        have := hcl S hQ hss hx.1.1
        exact hx.1.2 ((hag x hx.2).2 this))
    refine ⟨j, b, _, ?_, by omega, insM hj ha, hb, lexVal_lt_of_diff hj hma hmb hag, ?_, ?_⟩
    · intro close' hc' fuel
      rw [hunf, if_pos hb1, sdiff_drop hn ha,
        dgNext_congr hc' i (upTo atts i a) ((Finset.filter_subset _ _).trans ha), e]
      rfl
    · intro S hQ hlt
      exact Or.inr (hS S hQ hlt).2
    · intro S hQ hle hagS
      refine (hS S hQ ?_).1 hagS
      exact lt_of_lt_of_le (lexVal_lt_of_diff hj hma hmb hag) hle
  · have hb1' : (ac \ a) ∩ (atts.take i).toFinset = ∅ := by
      by_contra h; exact hb1 h
    have hagac : AgreeUpto atts i a ac := by
      intro y hy
      refine ⟨fun h => haac h, fun h => ?_⟩
      by_contra hya
      have : y ∈ (ac \ a) ∩ (atts.take i).toFinset := by
        rw [Finset.mem_inter, Finset.mem_sdiff, List.mem_toFinset]
        exact ⟨⟨h, hya⟩, hy⟩
      rw [hb1'] at this
      simp at this
    -- sets of `Q` above `a` are above `ac`
    have habove : ∀ S, Q S → lexVal atts a < lexVal atts S → lexVal atts ac ≤ lexVal atts S := by
      intro S hQ hlt
      by_cases hagS : AgreeUpto atts i a S
      · have haS := hI3 S hQ hlt.le hagS
        have hss : a ⊂ S := by
          refine Finset.ssubset_iff_subset_ne.2 ⟨haS, ?_⟩
          rintro rfl; omega
        exact lexVal_mono (hcl S hQ hss)
      · obtain ⟨k, x, hki, hk, hxa, hxS, hkag⟩ := exists_diff_of_not_agree hlt hagS
        apply le_of_lt
        refine lexVal_lt_of_diff hk ?_ hxS ((hagac.mono (by omega)).symm.trans hkag)
        have hxt : x ∈ atts.take i := by
          obtain ⟨hkl, rfl⟩ := List.getElem?_eq_some_iff.1 hk
          exact List.mem_take_iff_getElem.2 ⟨k, by omega, rfl⟩
        exact fun h => hxa ((hagac x hxt).2 h)
    by_cases hcc : ac.card = atts.length
    · left
      have hacE : ac = atts.toFinset := eq_toFinset_of_card hn hacM (by omega)
      refine ⟨?_, hacE, ?_⟩
      · intro S hQ hlt
        have h1 := habove S hQ hlt
        have h2 : lexVal atts S ≤ lexVal atts ac := by
          apply lexVal_mono; rw [hacE]; exact hQM S hQ
        exact (lexVal_inj (hQM S hQ) hacM (by omega)).trans hacE
      · intro close' fuel
        rw [hunf, if_neg hb1, if_pos hcc]
    · right
      have hle : lexVal atts a ≤ lexVal atts ac := lexVal_mono haac
      obtain ⟨j, m, b, e, hji, hj, hma, hmb, hag, hb, hS⟩ :=
        dgNext_spec hn (a₀ := ac) (Q := Q) hext
          (fun S hQ hlt => hleast S hQ (lt_of_le_of_lt hle hlt)) atts.length le_rfl (by
            by_contra hall
            push Not at hall
            rw [List.take_length] at hall
            apply hcc
            rw [← List.toFinset_card_of_nodup hn]
            congr 1
            exact Finset.Subset.antisymm hacM (fun x hx => hall x (List.mem_toFinset.1 hx))) (by
            intro S hQ hlt hagS
            unfold AgreeUpto at hagS
            rw [List.take_length] at hagS
            have := (lexVal_eq_iff atts ac S).2 hagS
            omega)
      rw [upTo_length hacM] at e
      refine ⟨j, b, _, ?_, by omega, insM hj hacM, hb,
        lt_of_le_of_lt hle (lexVal_lt_of_diff hj hma hmb hag), ?_, ?_⟩
      · intro close' hc' fuel
        rw [hunf, if_neg hb1, if_neg hcc, dgNext_congr hc' _ _ hacM, e]
        rfl
      · intro S hQ hlt
        have h1 := habove S hQ hlt
        rcases Nat.eq_or_lt_of_le h1 with h | h
        · exact Or.inl (lexVal_inj (hQM S hQ) hacM h.symm)
        · exact Or.inr (hS S hQ h).2
      · intro S hQ hle' hagS
        refine (hS S hQ ?_).1 hagS
        exact lt_of_lt_of_le (lexVal_lt_of_diff hj hma hmb hag) hle'
