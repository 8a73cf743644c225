/-
Lemmas about sorting names of several kinds.
-/
import Verif.Model.MixedNames
import Verif.Lemmas.DGCorrect
import Verif.Lemmas.DGContext

set_option linter.unusedSectionVars false

/-! ### Sorting -/

/-- A run without exception only depends on the answers. -/
theorem SortTree.run_ok {n : ℕ} {lt : ℕ → ℕ → Py Bool} {lt' : ℕ → ℕ → Bool} :
    ∀ {t : SortTree}, t.InRange n → (∀ i < n, ∀ j < n, ∀ b, lt i j = .ok b → lt' i j = b) →
      ∀ {p}, t.run lt = .ok p → t.run (fun i j => .ok (lt' i j)) = .ok p := by
  intro t
  induction t with
  | done q => intro _ _ p h; exact h
  | ask i j yes no ihy ihn =>
    rintro ⟨hi, hj, hy, hn⟩ hag p h
    unfold SortTree.run at h ⊢
    cases hb : lt i j with
    | error e => rw [hb] at h; cases h
    | ok b =>
      rw [hb] at h
      rw [hag i hi j hj b hb]
      cases b with
      | true => exact ihy hy hag h
      | false => exact ihn hn hag h

/-- The exceptions of a run are those of the comparisons. -/
theorem SortTree.run_error {n : ℕ} {lt : ℕ → ℕ → Py Bool} :
    ∀ {t : SortTree}, t.InRange n → ∀ {e}, t.run lt = .error e → ∃ i < n, ∃ j < n, lt i j = .error e := by
  intro t
  induction t with
  | done q => intro _ e h; cases h
  | ask i j yes no ihy ihn =>
    rintro ⟨hi, hj, hy, hn⟩ e h
    unfold SortTree.run at h
    cases hb : lt i j with
    | error e' => rw [hb] at h; cases h; exact ⟨i, hi, j, hj, hb⟩
    | ok b =>
      rw [hb] at h
      cases b with
      | true => exact ihy hy h
      | false => exact ihn hn h

section
variable {γ : Type} [Kinded γ]

/-- The comparison of two positions. -/
private def cmpAt (l : List γ) (i j : ℕ) : Py Bool := do
  let x ← pyGet l i
  let y ← pyGet l j
  pyLt x y

private theorem cmpAt_get {l : List γ} {i j : ℕ} {x y : γ} (hi : l[i]? = some x) (hj : l[j]? = some y) :
    cmpAt l i j = pyLt x y := by
  unfold cmpAt pyGet
  rw [hi, hj]; rfl

/-- Positions ordered by kind, and by the names within a kind. -/
private def blockLt (l : List γ) (up : Bool) (i j : ℕ) : Bool :=
  match l[i]?, l[j]? with
  | some x, some y =>
    if Kinded.kind x = Kinded.kind y then Kinded.lt x y
    else if up then decide (Kinded.kind x < Kinded.kind y) else decide (Kinded.kind y < Kinded.kind x)
  | _, _ => false

private theorem blockLt_get {l : List γ} {up : Bool} {i j : ℕ} {x y : γ} (hi : l[i]? = some x) (hj : l[j]? = some y) :
    blockLt l up i j = if Kinded.kind x = Kinded.kind y then Kinded.lt x y
    else if up then decide (Kinded.kind x < Kinded.kind y) else decide (Kinded.kind y < Kinded.kind x) := by
  unfold blockLt; rw [hi, hj]

private theorem get_lt {l : List γ} {i : ℕ} (h : i < l.length) : ∃ x, l[i]? = some x := ⟨_, List.getElem?_eq_getElem h⟩

private theorem blockLt_strict {l : List γ} (hl : l.Nodup) (up : Bool) : StrictTot l.length (blockLt l up) where
  irrefl i hi := by
    obtain ⟨x, hx⟩ := get_lt hi
    rw [blockLt_get hx hx, if_pos rfl, Kinded.irrefl]
  trans i hi j hj k hk := by
    obtain ⟨x, hx⟩ := get_lt hi
    obtain ⟨y, hy⟩ := get_lt hj
    obtain ⟨z, hz⟩ := get_lt hk
    rw [blockLt_get hx hy, blockLt_get hy hz, blockLt_get hx hz]
    by_cases h1 : Kinded.kind x = Kinded.kind y <;> by_cases h2 : Kinded.kind y = Kinded.kind z
    · rw [if_pos h1, if_pos h2, if_pos (h1.trans h2)]
      exact Kinded.trans x y z h1 h2
    · rw [if_pos h1, if_neg h2, if_neg (fun h : Kinded.kind x = Kinded.kind z => h2 (h1.symm.trans h)), h1]
      exact fun _ h => h
    · rw [if_neg h1, if_pos h2, if_neg (fun h : Kinded.kind x = Kinded.kind z => h1 (h.trans h2.symm)), h2]
      exact fun h _ => h
    · rw [if_neg h1, if_neg h2]
      cases up <;> simp only [Bool.false_eq_true, if_false, if_true, decide_eq_true_eq] <;> intro h3 h4
      · rw [if_neg (by omega), decide_eq_true_eq]; omega
      · rw [if_neg (by omega), decide_eq_true_eq]; omega
  total i hi j hj hij := by
    obtain ⟨x, hx⟩ := get_lt hi
    obtain ⟨y, hy⟩ := get_lt hj
    rw [blockLt_get hx hy, blockLt_get hy hx]
    by_cases h1 : Kinded.kind x = Kinded.kind y
    · rw [if_pos h1, if_pos h1.symm]
      apply Kinded.total x y h1
      rintro rfl
      rw [List.nodup_iff_getElem?_ne_getElem?] at hl
      rcases Nat.lt_or_gt_of_ne hij with h | h
      · exact hl i j h hj (hx.trans hy.symm)
      · exact hl j i h hi (hy.trans hx.symm)
    · rw [if_neg h1, if_neg (Ne.symm h1)]
      cases up <;> simp only [Bool.false_eq_true, if_false, if_true, decide_eq_true_eq] <;> omega

private theorem block_agree {l : List γ} (up : Bool) :
    ∀ i < l.length, ∀ j < l.length, ∀ b, cmpAt l i j = .ok b → blockLt l up i j = b := by
  intro i hi j hj b h
  obtain ⟨x, hx⟩ := get_lt hi
  obtain ⟨y, hy⟩ := get_lt hj
  rw [cmpAt_get hx hy, pyLt] at h
  split at h
  · rename_i hk
    rw [blockLt_get hx hy, if_pos hk]
    cases h; rfl
  · cases h

private theorem sortPy_eq (T : Sorter) (l : List γ) :
    sortPy T l = ((T.tree l.length).run (cmpAt l)).bind fun p => .ok (p.filterMap (l[·]?)) := rfl

/-- Two kinds of names in the list: TypeError, whatever the algorithm. -/
theorem sortPy_mixed (T : Sorter) {l : List γ} (hl : l.Nodup) {x y : γ} (hx : x ∈ l) (hy : y ∈ l)
    (hk : Kinded.kind x ≠ Kinded.kind y) : sortPy T l = .error .typeError := by
  rw [sortPy_eq]
  cases h : (T.tree l.length).run (cmpAt l) with
  | error e =>
    obtain ⟨i, hi, j, hj, he⟩ := SortTree.run_error (T.inRange _) h
    obtain ⟨u, hu⟩ := get_lt hi
    obtain ⟨v, hv⟩ := get_lt hj
    rw [cmpAt_get hu hv, pyLt] at he
    split at he
    · cases he
    · cases he; rfl
  | ok p =>
    exfalso
    have hup := SortTree.run_ok (T.inRange _) (block_agree true) h
    have hdn := SortTree.run_ok (T.inRange _) (block_agree false) h
    obtain ⟨p1, h1, hperm, hs1⟩ := T.sorts l.length _ (blockLt_strict hl true)
    obtain ⟨p2, h2, -, hs2⟩ := T.sorts l.length _ (blockLt_strict hl false)
    rw [hup] at h1; cases h1
    rw [hdn] at h2; cases h2
    obtain ⟨i, hi⟩ := List.mem_iff_getElem?.1 hx
    obtain ⟨j, hj⟩ := List.mem_iff_getElem?.1 hy
    have hi' : i ∈ p := hperm.mem_iff.2 (List.mem_range.2 (List.getElem?_eq_some_iff.1 hi).1)
    have hj' : j ∈ p := hperm.mem_iff.2 (List.mem_range.2 (List.getElem?_eq_some_iff.1 hj).1)
    have hij : i ≠ j := by
      rintro rfl
      rw [hi] at hj; cases hj; exact hk rfl
    have hboth : p.Pairwise fun a b => blockLt l true a b = true ∧ blockLt l false a b = true := hs1.and hs2
    have key : ∀ {a b : ℕ} {u v : γ}, l[a]? = some u → l[b]? = some v → Kinded.kind u ≠ Kinded.kind v →
        ¬ (blockLt l true a b = true ∧ blockLt l false a b = true) := by
      intro a b u v hu hv hne
      rw [blockLt_get hu hv, blockLt_get hu hv, if_neg hne, if_neg hne]
      simp only [if_true, Bool.false_eq_true, if_false, decide_eq_true_eq]
      omega
    let R : ℕ → ℕ → Prop := fun a b => ∀ u v, l[a]? = some u → l[b]? = some v → Kinded.kind u = Kinded.kind v
    have hR : p.Pairwise R := hboth.imp fun {a b} hab u v hu hv => by
      by_contra hne
      exact key hu hv hne hab
    have : Std.Symm R := ⟨fun a b hab u v hu hv => (hab v u hv hu).symm⟩
    exact hk (hR.forall_of_forall (fun a _ u v hu hv => by rw [hu] at hv; cases hv; rfl) hi' hj' x y hi hj)

/-- One kind of names: the list is sorted. -/
theorem sortPy_uniform (T : Sorter) {l : List γ} (hl : l.Nodup) (hk : ∀ x ∈ l, ∀ y ∈ l, Kinded.kind x = Kinded.kind y) :
    ∃ l', sortPy T l = .ok l' ∧ l'.Perm l ∧ l'.Pairwise fun x y => Kinded.lt x y = true := by
  rw [sortPy_eq]
  cases h : (T.tree l.length).run (cmpAt l) with
  | error e =>
    obtain ⟨i, hi, j, hj, he⟩ := SortTree.run_error (T.inRange _) h
    obtain ⟨u, hu⟩ := get_lt hi
    obtain ⟨v, hv⟩ := get_lt hj
    rw [cmpAt_get hu hv, pyLt, if_pos (hk _ (List.mem_of_getElem? hu) _ (List.mem_of_getElem? hv))] at he
    cases he
  | ok p =>
    have hup := SortTree.run_ok (T.inRange _) (block_agree true) h
    obtain ⟨p1, h1, hperm, hs1⟩ := T.sorts l.length _ (blockLt_strict hl true)
    rw [hup] at h1; cases h1
    refine ⟨_, rfl, ?_, ?_⟩
    · refine (hperm.filterMap _).trans ?_
      have : (List.range l.length).filterMap (l[·]?) = l := by
        clear h hup hperm hs1 hk hl
        induction l with
        | nil => rfl
        | cons a l ih =>
          rw [List.length_cons, List.range_succ_eq_map, List.filterMap_cons]
          simp only [List.getElem?_cons_zero, List.filterMap_map]
          congr 1
      rw [this]
    · rw [List.pairwise_filterMap]
      refine hs1.imp ?_
      intro a b hab u hu v hv
      rw [blockLt_get hu hv, if_pos (hk _ (List.mem_of_getElem? hu) _ (List.mem_of_getElem? hv))] at hab
      exact hab

/-- Sorted lists with the same elements are equal. -/
theorem sorted_unique {l l' : List γ} (hk : ∀ x ∈ l, ∀ y ∈ l, Kinded.kind x = Kinded.kind y) (hp : l.Perm l')
    (h : l.Pairwise fun x y => Kinded.lt x y = true) (h' : l'.Pairwise fun x y => Kinded.lt x y = true) : l = l' := by
  refine hp.eq_of_pairwise (fun a b ha hb hab hba => ?_) h h'
  have := Kinded.trans a b a (hk a ha b (hp.mem_iff.2 hb)) (hk b (hp.mem_iff.2 hb) a ha) hab hba
  rw [Kinded.irrefl] at this
  cases this

end

/-! ### A sorter -/

/-- Inserts position `k` before the first larger one of the list. -/
private def insTree (k : ℕ) : List ℕ → List ℕ → (List ℕ → SortTree) → SortTree
  | [], pre, cont => cont (pre ++ [k])
  | x :: xs, pre, cont => .ask k x (cont (pre ++ k :: x :: xs)) (insTree k xs (pre ++ [x]) cont)

private def sortTree : List ℕ → List ℕ → SortTree
  | [], s => .done s
  | k :: ks, s => insTree k s [] (sortTree ks)

private def insOrd (lt : ℕ → ℕ → Bool) (k : ℕ) : List ℕ → List ℕ
  | [] => [k]
  | x :: xs => if lt k x then k :: x :: xs else x :: insOrd lt k xs

private theorem insOrd_perm (lt : ℕ → ℕ → Bool) (k : ℕ) : ∀ xs, (insOrd lt k xs).Perm (k :: xs)
  | [] => .refl _
  | x :: xs => by
    unfold insOrd
    split
    · exact .refl _
    · exact ((insOrd_perm lt k xs).cons x).trans (.swap _ _ _)

private theorem insTree_run (lt : ℕ → ℕ → Bool) (k : ℕ) : ∀ (xs pre : List ℕ) (cont : List ℕ → SortTree),
    (insTree k xs pre cont).run (fun i j => .ok (lt i j)) =
      (cont (pre ++ insOrd lt k xs)).run fun i j => .ok (lt i j)
  | [], pre, cont => rfl
  | x :: xs, pre, cont => by
    rw [insTree, SortTree.run, insOrd]
    cases h : lt k x with
    | true => rfl
    | false => simpa using insTree_run lt k xs (pre ++ [x]) cont

private theorem insTree_inRange {n k : ℕ} (hk : k < n) : ∀ (xs pre : List ℕ) (cont : List ℕ → SortTree),
    (∀ x ∈ xs, x < n) → (∀ x ∈ pre, x < n) → (∀ s, (∀ x ∈ s, x < n) → (cont s).InRange n) →
      (insTree k xs pre cont).InRange n
  | [], pre, cont, _, hp, hc => hc _ (by
    intro x hx
    rcases List.mem_append.1 hx with h | h
    · exact hp x h
    · rw [List.mem_singleton.1 h]; exact hk)
  | x :: xs, pre, cont, hx, hp, hc => by
    have hx' := List.forall_mem_cons.1 hx
    refine ⟨hk, hx'.1, hc _ ?_, insTree_inRange hk xs _ cont hx'.2 ?_ hc⟩
    · intro y hy
      rcases List.mem_append.1 hy with h | h
      · exact hp y h
      · rcases List.mem_cons.1 h with rfl | h
        · exact hk
        · exact hx y h
    · intro y hy
      rcases List.mem_append.1 hy with h | h
      · exact hp y h
      · rw [List.mem_singleton.1 h]; exact hx'.1

private theorem sortTree_inRange {n : ℕ} : ∀ (ks s : List ℕ), (∀ x ∈ ks, x < n) → (∀ x ∈ s, x < n) →
    (sortTree ks s).InRange n
  | [], _, _, _ => trivial
  | k :: ks, s, hk, hs => by
    have hk' := List.forall_mem_cons.1 hk
    exact insTree_inRange hk'.1 s [] _ hs (by simp) fun t ht => sortTree_inRange ks t hk'.2 ht

private theorem insOrd_sorted {n : ℕ} {lt : ℕ → ℕ → Bool} (h : StrictTot n lt) {k : ℕ} (hk : k < n) :
    ∀ xs, (∀ x ∈ xs, x < n) → k ∉ xs → xs.Pairwise (fun i j => lt i j = true) →
      (insOrd lt k xs).Pairwise fun i j => lt i j = true
  | [], _, _, _ => by simp [insOrd]
  | x :: xs, hx, hn, hp => by
    have hx' := List.forall_mem_cons.1 hx
    obtain ⟨hp1, hp2⟩ := List.pairwise_cons.1 hp
    rw [List.mem_cons, not_or] at hn
    unfold insOrd
    split
    · rename_i hkx
      refine List.pairwise_cons.2 ⟨fun y hy => ?_, hp⟩
      rcases List.mem_cons.1 hy with rfl | hy
      · exact hkx
      · exact h.trans k hk x hx'.1 y (hx'.2 y hy) hkx (hp1 y hy)
    · rename_i hkx
      refine List.pairwise_cons.2 ⟨fun y hy => ?_, insOrd_sorted h hk xs hx'.2 hn.2 hp2⟩
      rcases List.mem_cons.1 ((insOrd_perm lt k xs).mem_iff.1 hy) with rfl | hy
      · exact (h.total y hk x hx'.1 hn.1).resolve_left hkx
      · exact hp1 y hy

private theorem sortTree_run {n : ℕ} {lt : ℕ → ℕ → Bool} (h : StrictTot n lt) : ∀ (ks s : List ℕ),
    (∀ x ∈ ks, x < n) → (∀ x ∈ s, x < n) → (s ++ ks).Nodup → s.Pairwise (fun i j => lt i j = true) →
      ∃ p, (sortTree ks s).run (fun i j => .ok (lt i j)) = .ok p ∧ p.Perm (s ++ ks) ∧
        p.Pairwise fun i j => lt i j = true
  | [], s, _, _, _, hs => ⟨s, rfl, by simp, hs⟩
  | k :: ks, s, hk, hsn, hnd, hs => by
    have hk' := List.forall_mem_cons.1 hk
    have hperm := insOrd_perm lt k s
    have hP : (insOrd lt k s ++ ks).Perm (s ++ k :: ks) :=
      (hperm.append_right ks).trans (by simpa using List.perm_middle.symm)
    obtain ⟨p, h1, h2, h3⟩ := sortTree_run h ks (insOrd lt k s) hk'.2
      (fun x hx => by
        rcases List.mem_cons.1 (hperm.mem_iff.1 hx) with rfl | hx
        · exact hk'.1
        · exact hsn x hx)
      (hP.nodup_iff.2 hnd) (insOrd_sorted h hk'.1 s hsn (fun hks => by
        rw [List.nodup_append] at hnd
        exact hnd.2.2 k hks k (by simp) rfl) hs)
    refine ⟨p, ?_, h2.trans hP, h3⟩
    rw [sortTree, insTree_run, List.nil_append, h1]

/-- Insertion sort. -/
def Sorter.insertion : Sorter where
  tree n := sortTree (List.range n) []
  inRange n := sortTree_inRange _ _ (fun _ h => List.mem_range.1 h) (by simp)
  sorts n lt h := by
    simpa using sortTree_run h (List.range n) [] (fun _ h => List.mem_range.1 h) (by simp)
      (by simpa using List.nodup_range) (by simp)

/-! ### The basis algorithm with closures that cannot be sorted -/

section
open Spec
variable {α : Type} [DecidableEq α]

/-- The main loop when `aclose` raises for closures with `Bad`: either an exception because of some set between
`a` and the last one, or no such set and no exception. -/
theorem dgLoop_bad {atts : List α} {aclose aclose' : Finset α → Py (Finset α)}
    {cl : Finset α → Finset α} {close : Finset α → List (Imp α) → Finset α} {Bad : Finset α → Prop} {e : PyErr}
    (S : DGSetup atts aclose cl close) (hcl : IsClosureOp atts.toFinset cl) {bg : List (Imp α)}
    (hbad : ∀ s ⊆ atts.toFinset, Bad (cl s) → aclose' s = .error e)
    (hgoodc : ∀ s ⊆ atts.toFinset, ¬ Bad (cl s) → aclose' s = .ok (cl s))
    (hbgo : ∀ i ∈ bg, i.conclusion ⊆ atts.toFinset)
    (hclose : ∀ basis, GoodBasis bg basis → ∀ s, s ⊆ atts.toFinset →
      IsLeastClosed (specImps (basis ++ bg)) s (close s (basis ++ bg)))
    (fuel : ℕ) :
    ∀ basis a i, i ≤ atts.length →
      Preclosed atts.toFinset (specImps bg) cl a →
      (∀ T, Preclosed atts.toFinset (specImps bg) cl T → lexVal atts a ≤ lexVal atts T →
        AgreeUpto atts i a T → a ⊆ T) →
      (∀ x ∈ basis, IsPseudo atts.toFinset (specImps bg) cl x.premise ∧
        x.conclusion = cl x.premise ∧ lexVal atts x.premise < lexVal atts a) →
      (∀ P, IsPseudo atts.toFinset (specImps bg) cl P → lexVal atts P < lexVal atts a →
        ⟨P, cl P⟩ ∈ basis) →
      (basis.Pairwise fun x y => lexVal atts x.premise < lexVal atts y.premise) →
      2 ^ atts.length - lexVal atts a < fuel →
      (dgLoop atts aclose' close bg (fun _ => true) fuel basis a i = some (.error e) ∧
        ∃ T, Preclosed atts.toFinset (specImps bg) cl T ∧ T ≠ atts.toFinset ∧ Bad (cl T)) ∨
      ((∃ res, dgLoop atts aclose' close bg (fun _ => true) fuel basis a i = some (.ok res)) ∧
        ∀ T, Preclosed atts.toFinset (specImps bg) cl T → T ≠ atts.toFinset → lexVal atts a ≤ lexVal atts T →
          ¬ Bad (cl T)) := by
  induction fuel with
  | zero => intro basis a i _ _ _ _ _ _ h; omega
  | succ fuel ih =>
    intro basis a i hi hpre hI3 hb1 hb2 hpw hf
    have ha := hpre.1
    by_cases hcard : a.card < atts.length
    · have haM : a ≠ atts.toFinset := by
        rintro rfl
        rw [List.toFinset_card_of_nodup S.nodup] at hcard
        omega
      by_cases hba : Bad (cl a)
      · left
        refine ⟨?_, a, hpre, haM, hba⟩
        rw [dgLoop, if_pos hcard, hbad a ha hba]
      have hps_or : cl a = a ∨ IsPseudo atts.toFinset (specImps bg) cl a := by
        by_cases h : cl a = a
        · exact Or.inl h
        · exact Or.inr (isPseudo_iff.2 ⟨hpre, h⟩)
      set push := dgPush (fun _ => true) basis a (cl a) with hpush
      have hmem : ∀ x, x ∈ push ↔ x ∈ basis ∨ (a ≠ cl a ∧ x = ⟨a, cl a⟩) := by
        intro x; rw [hpush, mem_dgPush]; simp
      have hb1' : ∀ x ∈ push, IsPseudo atts.toFinset (specImps bg) cl x.premise ∧
          x.conclusion = cl x.premise ∧ lexVal atts x.premise ≤ lexVal atts a := by
        intro x hx
        rcases (hmem x).1 hx with hx | ⟨hne, rfl⟩
        · obtain ⟨h1, h2, h3⟩ := hb1 x hx
          exact ⟨h1, h2, h3.le⟩
        · exact ⟨isPseudo_iff.2 ⟨hpre, fun h => hne h.symm⟩, rfl, le_rfl⟩
      have hpw' : push.Pairwise fun x y => lexVal atts x.premise < lexVal atts y.premise := by
        rw [hpush]
        unfold dgPush
        split
        · rw [List.pairwise_append]
          refine ⟨hpw, by simp, ?_⟩
          intro x hx y hy
          rw [List.mem_singleton] at hy; subst hy
          exact (hb1 x hx).2.2
        · exact hpw
      have hb2' : ∀ P, IsPseudo atts.toFinset (specImps bg) cl P → lexVal atts P ≤ lexVal atts a →
          ⟨P, cl P⟩ ∈ push := by
        intro P hP hle
        rw [hmem]
        rcases Nat.eq_or_lt_of_le hle with h | h
        · right
          have hPa : P = a := lexVal_inj (isPseudo_iff.1 hP).1.1 ha h
          subst hPa
          exact ⟨fun h => (isPseudo_iff.1 hP).2 h.symm, rfl⟩
        · exact Or.inl (hb2 P hP h)
      have hgood : GoodBasis bg push := by
        apply goodBasis_of hpw'
        · intro x hx hsub
          obtain ⟨h1, h2, _⟩ := hb1' x hx
          obtain ⟨hp, hne⟩ := isPseudo_iff.1 h1
          exact hne (Finset.Subset.antisymm (h2 ▸ hsub) (hcl.ext _ hp.1))
        · intro x hx
          exact (isPseudo_iff.1 (hb1' x hx).1).1.2.1
      have hQcl : ∀ T, Preclosed atts.toFinset (specImps bg) cl T → lexVal atts a < lexVal atts T →
          Closed (specImps (push ++ bg)) T := by
        intro T hT hlt
        rw [closed_specImps]
        intro x hx hxp
        rcases List.mem_append.1 hx with hx | hx
        · obtain ⟨h1, h2, h3⟩ := hb1' x hx
          rw [h2]
          apply hT.2.2 _ _ h1
          refine Finset.ssubset_iff_subset_ne.2 ⟨hxp, ?_⟩
          intro he
          rw [he] at h3; omega
        · exact (closed_specImps bg T).1 hT.2.1 x hx hxp
      rcases dgLoop_step S.nodup (Q := Preclosed atts.toFinset (specImps bg) cl) (basis := basis)
        (bg := bg) (cond := fun _ => true) (close := close) hi ha hcard (hgoodc a ha hba) (S.ext a ha)
        (S.into a ha) (fun s => S.cext s _) (fun T hT => hT.1) hI3 (by
          intro T hT hss
          rcases hps_or with h | h
          · rw [h]; exact hss.1
          · exact hT.2.2 a hss h) (by
          intro T hT hlt s hs
          exact (hclose push hgood s (hs.trans hT.1)).2.2 T hs (hQcl T hT hlt)) with
        ⟨hfin, hacE, h⟩ | ⟨j, b, s, h, hj, hs, hbs, hlex, hnext, hI3'⟩
      · right
        refine ⟨⟨_, h close fuel⟩, fun T hT hTM hle => ?_⟩
        rcases Nat.eq_or_lt_of_le hle with he | hlt
        · rw [← lexVal_inj ha hT.1 he]; exact hba
        · exact absurd (hfin T hT hlt) hTM
      · rw [h close (fun _ _ => rfl)]
        have hleast := hclose push hgood s hs
        rw [show close s (push ++ bg) = b from hbs.symm] at hleast
        have hover : Over atts.toFinset push := by
          intro x hx
          obtain ⟨h1, h2, _⟩ := hb1' x hx
          have := (isPseudo_iff.1 h1).1.1
          exact ⟨this, h2 ▸ hcl.into _ this⟩
        have hbM : b ⊆ atts.toFinset := by
          rw [hbs]
          apply S.cinto s _ hs
          intro i hi
          rcases List.mem_append.1 hi with h | h
          · exact (hover i h).2
          · exact hbgo i h
        have hall : ∀ P, IsPseudo atts.toFinset (specImps bg) cl P → lexVal atts P < lexVal atts b →
            ⟨P, cl P⟩ ∈ push := by
          intro P hP hlt
          obtain ⟨hp, hne⟩ := isPseudo_iff.1 hP
          apply hb2' P hP
          by_contra hgt
          rcases hnext P hp (by omega) with h | h
          · apply hne
            rw [h, hcl.idem a ha]
          · omega
        have hbcl := (closed_specImps (push ++ bg) b).1 hleast.2.1
        have hbpre : Preclosed atts.toFinset (specImps bg) cl b := by
          refine ⟨hbM, ?_, ?_⟩
          · rw [closed_specImps]
            intro x hx hxp
            exact hbcl x (List.mem_append_right _ hx) hxp
          · intro P hPb hP
            exact hbcl _ (List.mem_append_left _ (hall P hP (lexVal_lt_of_ssubset hbM hPb))) hPb.1
        have hbv := lexVal_lt atts b
        rcases ih push b j hj hbpre hI3' (fun x hx => by
          obtain ⟨h1, h2, h3⟩ := hb1' x hx
          exact ⟨h1, h2, by omega⟩) hall hpw' (by omega) with h' | ⟨h', h''⟩
        · exact .inl h'
        · refine .inr ⟨h', fun T hT hTM hle => ?_⟩
          rcases Nat.eq_or_lt_of_le hle with he | hlt
          · rw [← lexVal_inj ha hT.1 he]; exact hba
          · rcases hnext T hT hlt with he | hb
            · rw [he, hcl.idem a ha]; exact hba
            · exact h'' T hT hTM hb
    · right
      refine ⟨⟨basis, by rw [dgLoop, if_neg hcard]⟩, ?_⟩
      have haE : a = atts.toFinset := eq_toFinset_of_card S.nodup ha (by omega)
      intro T hT hTM hle
      exfalso
      have : lexVal atts T < lexVal atts a := by
        apply lexVal_lt_of_ssubset ha
        exact Finset.ssubset_iff_subset_ne.2 ⟨haE ▸ hT.1, haE ▸ hTM⟩
      omega

/-- The whole computation: the exception of `aclose'`, if a set other than that of all attributes, closed under the
background and what the pseudo-closed sets below it imply, has a closure with `Bad`; else what is computed with `aclose`. -/
theorem dgBasis_bad {atts : List α} {aclose aclose' : Finset α → Py (Finset α)}
    {cl : Finset α → Finset α} {close : Finset α → List (Imp α) → Finset α} {Bad : Finset α → Prop} {e : PyErr}
    (S : DGSetup atts aclose cl close) (hcl : IsClosureOp atts.toFinset cl) {bg : List (Imp α)}
    (hbad : ∀ s ⊆ atts.toFinset, Bad (cl s) → aclose' s = .error e)
    (hgoodc : ∀ s ⊆ atts.toFinset, ¬ Bad (cl s) → aclose' s = .ok (cl s))
    (hac : ∀ s, aclose' s = aclose s ∨ ∃ e, aclose' s = .error e)
    (hbgo : ∀ i ∈ bg, i.conclusion ⊆ atts.toFinset)
    (hclose : ∀ basis, GoodBasis bg basis → ∀ s, s ⊆ atts.toFinset →
      IsLeastClosed (specImps (basis ++ bg)) s (close s (basis ++ bg))) :
    (dgBasis atts aclose' close bg (fun _ => true) = .error e ∧
      ∃ T, Preclosed atts.toFinset (specImps bg) cl T ∧ T ≠ atts.toFinset ∧ Bad (cl T)) ∨
    (dgBasis atts aclose' close bg (fun _ => true) = dgBasis atts aclose close bg (fun _ => true) ∧
      (∃ res, dgBasis atts aclose close bg (fun _ => true) = .ok res) ∧
      ∀ T, Preclosed atts.toFinset (specImps bg) cl T → T ≠ atts.toFinset → ¬ Bad (cl T)) := by
  have h0 := hclose [] ⟨by simp, by simp⟩ ∅ (by simp)
  simp only [List.nil_append] at h0
  have haM : close ∅ bg ⊆ atts.toFinset := S.cinto ∅ bg (by simp) hbgo
  have hsub : ∀ T, Closed (specImps bg) T → close ∅ bg ⊆ T := fun T hT => h0.2.2 T (by simp) hT
  have hnone : ∀ P, IsPseudo atts.toFinset (specImps bg) cl P →
      ¬ lexVal atts P < lexVal atts (close ∅ bg) := by
    intro P hP hlt
    have := lexVal_mono (l := atts) (hsub P (isPseudo_iff.1 hP).1.2.1)
    omega
  have hor := Ctx.dgLoop_or_err (atts := atts) (close := close) (bg := bg) (cond := fun _ => true) hac (2 ^ atts.length + 1) [] (close ∅ bg)
    atts.length
  unfold dgBasis dgBasisFuel
  rcases dgLoop_bad S hcl hbad hgoodc hbgo hclose (2 ^ atts.length + 1) [] (close ∅ bg)
    atts.length le_rfl
    ⟨haM, h0.2.1, fun Q hQ hps => absurd (hsub Q (isPseudo_iff.1 hps).1.2.1) (fun h =>
      (Finset.ssubset_iff_subset_ne.1 hQ).2 (Finset.Subset.antisymm hQ.1 h))⟩
    (fun T hT _ _ => hsub T hT.2.1) (by simp) (fun P hP hlt => absurd hlt (hnone P hP)) (by simp)
    (Nat.lt_succ_of_le (Nat.sub_le _ _)) with ⟨h, hT⟩ | ⟨⟨res, h⟩, hT⟩
  · left
    exact ⟨by rw [h]; rfl, hT⟩
  · right
    have he := hor.resolve_right (by rintro ⟨e', he'⟩; rw [h] at he'; cases he')
    rw [he]
    exact ⟨rfl, ⟨res, by rw [← he, h]; rfl⟩, fun T hT1 hT2 => hT T hT1 hT2 (lexVal_mono (hsub T hT1.2.1))⟩

end
