import Verif.Lemmas.Closure
import Mathlib.Data.Finset.Card
import Mathlib.Data.List.Nodup

variable {α : Type*} [DecidableEq α]

open Spec

/-- Body of the fold in `linCounts`. -/
def linBody (st : (Finset α × Finset α → ℕ) × Finset α) (imp : Imp α) :
    (Finset α × Finset α → ℕ) × Finset α :=
  if st.1 imp.key = 0 then st
  else
    let count' := Function.update st.1 imp.key (st.1 imp.key - 1)
    if count' imp.key = 0 then (count', st.2 ∪ imp.conclusion) else (count', st.2)

theorem linCounts_eq (cur : List (Imp α)) (count) :
    linCounts cur count = cur.foldl linBody (count, ∅) := rfl

theorem linBody_count (st : (Finset α × Finset α → ℕ) × Finset α) (imp : Imp α) :
    (linBody st imp).1 = Function.update st.1 imp.key (st.1 imp.key - 1) := by
  unfold linBody
  by_cases h : st.1 imp.key = 0
  · rw [if_pos h, h]
    funext k
    by_cases hk : k = imp.key
    · subst hk; simp [h]
    · simp [Function.update_of_ne hk]
  · rw [if_neg h]
    simp only
    split <;> rfl

theorem linFold_spec (cur : List (Imp α)) (hnd : (cur.map Imp.key).Nodup)
    (st : (Finset α × Finset α → ℕ) × Finset α) :
    let r := cur.foldl linBody st
    (∀ k, k ∉ cur.map Imp.key → r.1 k = st.1 k) ∧
    (∀ i ∈ cur, r.1 i.key = st.1 i.key - 1) ∧
    (st.2 ⊆ r.2) ∧
    (∀ i ∈ cur, st.1 i.key = 1 → i.conclusion ⊆ r.2) ∧
    (∀ x ∈ r.2, x ∈ st.2 ∨ ∃ i ∈ cur, st.1 i.key = 1 ∧ x ∈ i.conclusion) := by
  induction cur generalizing st with
  | nil => simp
  | cons i rest ih =>
    simp only [List.map_cons, List.nodup_cons] at hnd
    obtain ⟨h1, h2, h3, h4, h5⟩ := ih hnd.2 (linBody st i)
    have hc := linBody_count st i
    have hoff : ∀ j ∈ rest, (linBody st i).1 j.key = st.1 j.key := by
      intro j hj
      rw [hc, Function.update_of_ne]
      rintro h
      exact hnd.1 (h ▸ List.mem_map_of_mem hj)
    have hset : st.2 ⊆ (linBody st i).2 := by
      unfold linBody
      simp only
      split
      · exact Finset.Subset.refl _
      · split
        · exact Finset.subset_union_left
        · exact Finset.Subset.refl _
    simp only [List.foldl_cons]
    refine ⟨?_, ?_, ?_, ?_, ?_⟩
    · intro k hk
      simp only [List.map_cons, List.mem_cons, not_or] at hk
      rw [h1 k hk.2, hc, Function.update_of_ne hk.1]
    · intro j hj
      rcases List.mem_cons.1 hj with rfl | hj
      · rw [h1 _ hnd.1, hc]; simp
      · rw [h2 j hj, hoff j hj]
    · exact hset.trans h3
    · intro j hj h
      rcases List.mem_cons.1 hj with rfl | hj
      · refine Finset.Subset.trans ?_ h3
        unfold linBody
        simp [h]
      · exact h4 j hj (by rw [hoff j hj, h])
    · intro x hx
      rcases h5 x hx with hx | ⟨j, hj, hj1, hjx⟩
      · unfold linBody at hx
        simp only at hx
        split at hx
        · exact Or.inl hx
        · rename_i hne
          split at hx
          · rename_i hz
            simp only [Function.update_self] at hz
            rcases Finset.mem_union.1 hx with hx | hx
            · exact Or.inl hx
            · exact Or.inr ⟨i, by simp, by omega, hx⟩
          · exact Or.inl hx
      · exact Or.inr ⟨j, by simp [hj], by rw [← hoff j hj, hj1], hjx⟩

/-- All elements that can ever enter the closure. -/
def linUniv (s : Finset α) (imps : List (Imp α)) : Finset α :=
  s ∪ imps.foldr (fun i acc => i.conclusion ∪ acc) ∅

theorem mem_foldr_conclusion (imps : List (Imp α)) (x : α) :
    x ∈ imps.foldr (fun i acc => i.conclusion ∪ acc) ∅ ↔ ∃ i ∈ imps, x ∈ i.conclusion := by
  induction imps with
  | nil => simp
  | cons i rest ih => simp [ih]

/-- Loop invariant of `lin_closure`. `D` (processed elements) is `cl` without `upd`. -/
theorem linLoop_spec (imps : List (Imp α)) (hnd : (imps.map Imp.key).Nodup) (s : Finset α)
    (ord : ℕ → SetOrder α) (fuel : ℕ) :
    ∀ (upd : List α) (count : Finset α × Finset α → ℕ) (cl : Finset α),
      upd.Nodup → (∀ x ∈ upd, x ∈ cl) → s ⊆ cl → cl ⊆ linUniv s imps →
      upd.length + (linUniv s imps \ cl).card < fuel →
      (∀ d, s ⊆ d → Closed (specImps imps) d → cl ⊆ d) →
      (∀ i ∈ imps, count i.key = (i.premise \ (cl \ upd.toFinset)).card) →
      (∀ i ∈ imps, i.premise ⊆ cl \ upd.toFinset → i.conclusion ⊆ cl) →
      ∃ c, linLoop imps ord fuel upd count cl = some c ∧ IsLeastClosed (specImps imps) s c := by
  induction fuel with
  | zero => intro upd count cl _ _ _ _ h; omega
  | succ fuel ih =>
    intro upd count cl hup hucl hs huniv hfuel hmin hcount hconcl
    match upd with
    | [] =>
      refine ⟨cl, rfl, hs, ?_, fun d hd hc => hmin d hd hc⟩
      rw [closed_specImps]
      intro i hi hp
      exact hconcl i hi (by simpa using hp)
    | m :: upd =>
      unfold linLoop
      simp only
      have hm : m ∈ cl := hucl m (by simp)
      have hmn : m ∉ upd := (List.nodup_cons.1 hup).1
      set cur := imps.filter fun imp => decide (m ∈ imp.premise) with hcur
      have hcurnd : (cur.map Imp.key).Nodup :=
        hnd.sublist (List.Sublist.map _ List.filter_sublist)
      obtain ⟨f1, f2, f3, f4, f5⟩ := linFold_spec cur hcurnd (count, ∅)
      rw [← linCounts_eq] at f1 f2 f3 f4 f5
      set r := linCounts cur count with hr
      set add := r.2 \ cl with hadd
      set o := ord fuel
      have hD : (cl ∪ add) \ ((o.enum add).reverse ++ upd).toFinset
          = insert m (cl \ (m :: upd).toFinset) := by
        ext x
        simp only [Finset.mem_sdiff, Finset.mem_union, List.toFinset_append, List.mem_toFinset,
          List.mem_reverse, Finset.mem_insert, List.mem_cons, o.mem]
        constructor
        · rintro ⟨h1 | h1, h2⟩
          · by_cases hx : x = m
            · exact Or.inl hx
            · right; exact ⟨h1, by tauto⟩
          · exact absurd (Or.inl h1) h2
        · rintro (rfl | ⟨h1, h2⟩)
          · refine ⟨Or.inl hm, ?_⟩
            rintro (h | h)
            · exact (Finset.mem_sdiff.1 h).2 hm
            · exact hmn h
          · refine ⟨Or.inl h1, ?_⟩
            rintro (h | h)
            · exact (Finset.mem_sdiff.1 h).2 h1
            · exact h2 (Or.inr h)
      have hmD : m ∉ cl \ (m :: upd).toFinset := by simp
      have addsub : add ⊆ linUniv s imps := by
        intro x hx
        rcases f5 x (Finset.mem_sdiff.1 hx).1 with h | ⟨i, hi, _, hix⟩
        · simp at h
        · refine Finset.mem_union_right _ ((mem_foldr_conclusion imps x).2 ⟨i, ?_, hix⟩)
          exact List.mem_of_mem_filter hi
      apply ih
      · rw [List.nodup_append]
        refine ⟨List.nodup_reverse.2 (o.nodup add), (List.nodup_cons.1 hup).2, ?_⟩
        intro a ha b hb hab
        subst hab
        have : a ∈ add := (o.mem add a).1 (List.mem_reverse.1 ha)
        exact (Finset.mem_sdiff.1 this).2 (hucl a (by simp [hb]))
      · intro x hx
        rcases List.mem_append.1 hx with hx | hx
        · exact Finset.mem_union_right _ ((o.mem add x).1 (List.mem_reverse.1 hx))
        · exact Finset.mem_union_left _ (hucl x (by simp [hx]))
      · exact hs.trans Finset.subset_union_left
      · exact Finset.union_subset huniv addsub
      · have e1 : ((o.enum add).reverse ++ upd).length = add.card + upd.length := by
          rw [List.length_append, List.length_reverse, o.length]
        have e2 : (linUniv s imps \ (cl ∪ add)).card + add.card = (linUniv s imps \ cl).card := by
          rw [← Finset.sup_eq_union, ← sdiff_sdiff_left, Finset.card_sdiff_add_card_eq_card]
          exact fun x hx => Finset.mem_sdiff.2 ⟨addsub hx, (Finset.mem_sdiff.1 hx).2⟩
        simp only [List.length_cons] at hfuel
        omega
      · intro d hd hc
        apply Finset.union_subset (hmin d hd hc)
        intro x hx
        rcases f5 x (Finset.mem_sdiff.1 hx).1 with h | ⟨i, hi, h1, hix⟩
        · simp at h
        · have hi' := List.mem_of_mem_filter hi
          have hmi : m ∈ i.premise := by
            have := (List.mem_filter.1 hi).2
            simpa using this
          apply (closed_specImps imps d).1 hc i hi' _ hix
          -- the premise is inside `D ∪ {m}`
          simp only at h1
          rw [hcount i hi'] at h1
          obtain ⟨y, hy⟩ := Finset.card_eq_one.1 h1
          have hmy : m = y := by
            have : m ∈ i.premise \ (cl \ (m :: upd).toFinset) := Finset.mem_sdiff.2 ⟨hmi, hmD⟩
            rw [hy] at this; simpa using this
          intro z hz
          apply hmin d hd hc
          by_cases hzD : z ∈ cl \ (m :: upd).toFinset
          · exact (Finset.mem_sdiff.1 hzD).1
          · have : z ∈ i.premise \ (cl \ (m :: upd).toFinset) := Finset.mem_sdiff.2 ⟨hz, hzD⟩
            rw [hy] at this
            have hzm : z = m := by rw [hmy]; simpa using this
            rw [hzm]; exact hm
      · intro i hi
        rw [hD]
        by_cases hmi : m ∈ i.premise
        · have hic : i ∈ cur := List.mem_filter.2 ⟨hi, by simpa using hmi⟩
          rw [f2 i hic]
          simp only
          rw [hcount i hi]
          have : i.premise \ insert m (cl \ (m :: upd).toFinset)
              = (i.premise \ (cl \ (m :: upd).toFinset)).erase m := by
            ext x; simp only [Finset.mem_sdiff, Finset.mem_insert, Finset.mem_erase]; tauto
          rw [this, Finset.card_erase_of_mem (Finset.mem_sdiff.2 ⟨hmi, hmD⟩)]
        · have hnk : i.key ∉ cur.map Imp.key := by
            intro h
            obtain ⟨j, hj, hji⟩ := List.mem_map.1 h
            have hmj := (List.mem_filter.1 hj).2
            simp only [decide_eq_true_eq] at hmj
            have : j.premise = i.premise := congrArg Prod.fst hji
            exact hmi (this ▸ hmj)
          rw [f1 _ hnk]
          simp only
          rw [hcount i hi]
          congr 1
          ext x
          simp only [Finset.mem_sdiff, Finset.mem_insert]
          constructor
          · rintro ⟨h1, h2⟩
            refine ⟨h1, ?_⟩
            rintro (rfl | h)
            · exact hmi h1
            · exact h2 h
          · rintro ⟨h1, h2⟩
            exact ⟨h1, fun h => h2 (Or.inr h)⟩
      · intro i hi hp
        rw [hD] at hp
        by_cases hmi : m ∈ i.premise
        · have hic : i ∈ cur := List.mem_filter.2 ⟨hi, by simpa using hmi⟩
          have h1 : count i.key = 1 := by
            rw [hcount i hi, Finset.card_eq_one]
            refine ⟨m, ?_⟩
            ext x
            rw [Finset.mem_singleton, Finset.mem_sdiff]
            constructor
            · rintro ⟨hx, hx'⟩
              rcases Finset.mem_insert.1 (hp hx) with h | h
              · exact h
              · exact absurd h hx'
            · rintro rfl; exact ⟨hmi, hmD⟩
          intro x hx
          by_cases hxc : x ∈ cl
          · exact Finset.mem_union_left _ hxc
          · exact Finset.mem_union_right _ (Finset.mem_sdiff.2 ⟨f4 i hic h1 hx, hxc⟩)
        · refine (hconcl i hi ?_).trans Finset.subset_union_left
          intro x hx
          rcases Finset.mem_insert.1 (hp hx) with rfl | h
          · exact absurd hx hmi
          · exact h

theorem mem_linStart (s : Finset α) (imps : List (Imp α)) (x : α) :
    x ∈ linStart s imps ↔ x ∈ s ∨ ∃ i ∈ imps, i.premise = ∅ ∧ x ∈ i.conclusion := by
  unfold linStart
  have : ∀ (l : List (Imp α)) (acc : Finset α),
      x ∈ l.foldl (fun acc i => acc ∪ i.conclusion) acc ↔ x ∈ acc ∨ ∃ i ∈ l, x ∈ i.conclusion := by
    intro l
    induction l with
    | nil => simp
    | cons i l ih => intro acc; simp [ih, or_assoc]
  rw [this]
  simp [and_assoc]

/-- `lin_closure` terminates within the fuel and computes the least closed superset when no two
implications of the list are equal in Python's sense. -/
theorem linLoop_final (ord₀ : SetOrder α) (ord : ℕ → SetOrder α) (s : Finset α)
    (imps : List (Imp α)) (hnd : (imps.map Imp.key).Nodup) :
    ∃ c, linLoop imps ord (linFuel s imps) (ord₀.enum (linStart s imps)).reverse
      (fun k => k.1.card) (linStart s imps) = some c ∧ IsLeastClosed (specImps imps) s c := by
  have hz : linStart s imps \ (ord₀.enum (linStart s imps)).reverse.toFinset = ∅ := by
    rw [Finset.sdiff_eq_empty_iff_subset]
    intro x hx
    simpa [ord₀.mem] using hx
  have hsu : linStart s imps ⊆ linUniv s imps := by
    intro x hx
    rcases (mem_linStart s imps x).1 hx with h | ⟨i, hi, _, h⟩
    · exact Finset.mem_union_left _ h
    · exact Finset.mem_union_right _ ((mem_foldr_conclusion imps x).2 ⟨i, hi, h⟩)
  apply linLoop_spec imps hnd s ord
  · exact List.nodup_reverse.2 (ord₀.nodup _)
  · intro x hx; exact (ord₀.mem _ x).1 (List.mem_reverse.1 hx)
  · intro x hx; exact (mem_linStart s imps x).2 (Or.inl hx)
  · exact hsu
  · rw [List.length_reverse, ord₀.length]
    unfold linFuel
    have := Finset.card_sdiff_add_card_eq_card hsu
    unfold linUniv at this ⊢
    omega
  · intro d hd hc x hx
    rcases (mem_linStart s imps x).1 hx with h | ⟨i, hi, hp, h⟩
    · exact hd h
    · exact (closed_specImps imps d).1 hc i hi (by simp [hp]) h
  · intro i _
    rw [hz]; simp [Imp.key]
  · intro i hi hp
    rw [hz, Finset.subset_empty] at hp
    intro x hx
    exact (mem_linStart s imps x).2 (Or.inr ⟨i, hi, hp, hx⟩)

theorem linClosure_isLeast (ord₀ : SetOrder α) (ord : ℕ → SetOrder α) (s : Finset α)
    (imps : List (Imp α)) (hnd : (imps.map Imp.key).Nodup) :
    IsLeastClosed (specImps imps) s (linClosure ord₀ ord s imps) := by
  unfold linClosure
  split
  · rename_i h
    subst h
    exact ⟨Finset.Subset.refl _, by simp [closed_specImps], fun d hd _ => hd⟩
  · obtain ⟨c, hc, h⟩ := linLoop_final ord₀ ord s imps hnd
    simp only [hc, Option.getD_some]
    exact h

/-! ### prefix-guarded `closure` -/

theorem agreeOn_iff (base : List α) (a b : Finset α) :
    agreeOn base a b = true ↔ ∀ x ∈ base, (x ∈ a ↔ x ∈ b) := by
  unfold agreeOn
  simp [List.all_eq_true]

/-- If the closure agrees with `current` on the prefix, every intermediate set does. -/
theorem closurePass_spec (pre : List α) (current c : Finset α) (imps : List (Imp α))
    (hc : Closed (specImps imps) c) :
    ∀ (unused : List (Imp α)) (cl : Finset α) (del : List (Imp α)),
      (∀ i ∈ unused, i ∈ imps) → current ⊆ cl → cl ⊆ c →
      (closurePass pre current unused cl del = none → agreeOn pre c current = false) ∧
      (∀ cl' del', closurePass pre current unused cl del = some (cl', del') →
        cl ⊆ cl' ∧ cl' ⊆ c ∧
        (agreeOn pre cl current = true → agreeOn pre cl' current = true) ∧
        ∃ l, del' = del ++ l ∧ l.Sublist unused ∧
          (∀ x ∈ l, x.premise ⊆ cl' ∧ x.conclusion ⊆ cl') ∧
          (cl = cl' → ∀ i ∈ unused, i.premise ⊆ cl → i.conclusion ⊆ cl) ∧
          (l = [] → cl = cl')) := by
  intro unused
  induction unused with
  | nil =>
    intro cl del _ _ h
    refine ⟨by simp [closurePass], ?_⟩
    intro cl' del' he
    simp only [closurePass, Option.some.injEq, Prod.mk.injEq] at he
    obtain ⟨rfl, rfl⟩ := he
    exact ⟨Finset.Subset.refl _, h, fun h => h, [], by simp, by simp, by simp, by simp, by simp⟩
  | cons i rest ih =>
    intro cl del hsub hcur hclc
    unfold closurePass
    by_cases hp : i.premise ⊆ cl
    · rw [if_pos hp]
      have hic : i.conclusion ⊆ c := (closed_specImps imps c).1 hc i (hsub i (by simp)) (hp.trans hclc)
      have hu : cl ∪ i.conclusion ⊆ c := Finset.union_subset hclc hic
      by_cases ha : agreeOn pre (cl ∪ i.conclusion) current = true
      · rw [if_pos ha]
        obtain ⟨g1, g2⟩ := ih (cl ∪ i.conclusion) (del ++ [i]) (fun j hj => hsub j (by simp [hj]))
          (hcur.trans Finset.subset_union_left) hu
        refine ⟨g1, ?_⟩
        intro cl' del' he
        obtain ⟨h1, h2, h3, l, h4, h5, h6, h7, h8⟩ := g2 cl' del' he
        have hle : cl ⊆ cl' := Finset.subset_union_left.trans h1
        have hice : i.conclusion ⊆ cl' := Finset.subset_union_right.trans h1
        refine ⟨hle, h2, fun _ => h3 ha, i :: l, by simp [h4], h5.cons_cons i, ?_, ?_, by simp⟩
        · intro x hx
          rcases List.mem_cons.1 hx with rfl | hx
          · exact ⟨hp.trans hle, hice⟩
          · exact h6 x hx
        · intro heq j hj hjp
          rcases List.mem_cons.1 hj with rfl | hj
          · rw [heq]; exact hice
          · have e : cl ∪ i.conclusion = cl' := by
              apply Finset.Subset.antisymm h1
              rw [← heq]; exact Finset.subset_union_left
            have := h7 e j hj (hjp.trans Finset.subset_union_left)
            rw [e, ← heq] at this; exact this
      · rw [if_neg ha]
        refine ⟨fun _ => ?_, by simp⟩
        rw [Bool.eq_false_iff]
        intro h
        apply ha
        rw [agreeOn_iff] at h ⊢
        intro x hx
        constructor
        · intro hx'; exact (h x hx).1 (hu hx')
        · intro hx'; exact Finset.mem_union_left _ (hcur hx')
    · rw [if_neg hp]
      obtain ⟨g1, g2⟩ := ih cl del (fun j hj => hsub j (by simp [hj])) hcur hclc
      refine ⟨g1, ?_⟩
      intro cl' del' he
      obtain ⟨h1, h2, h3, l, h4, h5, h6, h7, h8⟩ := g2 cl' del' he
      refine ⟨h1, h2, h3, l, h4, h5.cons i, h6, ?_, h8⟩
      intro heq j hj hjp
      rcases List.mem_cons.1 hj with rfl | hj
      · exact absurd hjp hp
      · exact h7 heq j hj hjp

theorem eraseAll_spec (del : List (Imp α)) : ∀ (unused : List (Imp α)),
    (∀ x, x ∈ del.foldl (fun l d => l.eraseP (fun x => x.pyEq d)) unused → x ∈ unused) ∧
    (∀ x ∈ unused, x ∉ del.foldl (fun l d => l.eraseP (fun x => x.pyEq d)) unused →
      ∃ d ∈ del, d.key = x.key) := by
  induction del with
  | nil => intro unused; simp
  | cons d del ih =>
    intro unused
    simp only [List.foldl_cons]
    obtain ⟨h1, h2⟩ := ih (unused.eraseP fun x => x.pyEq d)
    refine ⟨fun x hx => List.mem_of_mem_eraseP (h1 x hx), ?_⟩
    intro x hx hn
    by_cases hxe : x ∈ unused.eraseP fun x => x.pyEq d
    · obtain ⟨d', hd', he⟩ := h2 x hxe hn
      exact ⟨d', by simp [hd'], he⟩
    · refine ⟨d, by simp, ?_⟩
      by_contra hk
      apply hxe
      rw [List.mem_eraseP_of_neg]
      · exact hx
      · rw [Imp.pyEq_iff]; exact fun h => hk h.symm

theorem eraseAll_length (del : List (Imp α)) : ∀ (unused : List (Imp α)),
    (del.foldl (fun l d => l.eraseP (fun x => x.pyEq d)) unused).length ≤ unused.length := by
  induction del with
  | nil => intro unused; simp
  | cons d del ih =>
    intro unused
    exact (ih _).trans List.eraseP_sublist.length_le

theorem eraseAll_length_lt (del unused : List (Imp α)) (hne : del ≠ []) (hs : ∀ x ∈ del, x ∈ unused) :
    (del.foldl (fun l d => l.eraseP (fun x => x.pyEq d)) unused).length < unused.length := by
  match del, hne with
  | d :: del, _ =>
    simp only [List.foldl_cons]
    refine (eraseAll_length del _).trans_lt ?_
    have hd : d ∈ unused := hs d (by simp)
    have := List.length_eraseP_of_mem (p := fun x => Imp.pyEq x d) hd (by simp [Imp.pyEq])
    have : 0 < unused.length := List.length_pos_of_mem hd
    omega

theorem closureLoop_spec (pre : List α) (current c : Finset α) (imps : List (Imp α))
    (hc : IsLeastClosed (specImps imps) current c) (fuel : ℕ) :
    ∀ (unused : List (Imp α)) (cl : Finset α), unused.length < fuel →
      (∀ i ∈ unused, i ∈ imps) → current ⊆ cl → cl ⊆ c → agreeOn pre cl current = true →
      (∀ i ∈ imps, i ∉ unused → i.conclusion ⊆ cl) →
      closureLoop pre current fuel unused cl
        = some (if agreeOn pre c current = true then some c else none) := by
  induction fuel with
  | zero => intro unused cl h; omega
  | succ fuel ih =>
    intro unused cl hlen hsub hcur hclc hag hdone
    obtain ⟨g1, g2⟩ := closurePass_spec pre current c imps hc.2.1 unused cl [] hsub hcur hclc
    unfold closureLoop
    match hpass : closurePass pre current unused cl [] with
    | none => simp [g1 hpass]
    | some (cl', del) =>
      obtain ⟨h1, h2, h3, l, h4, h5, h6, h7, h8⟩ := g2 cl' del hpass
      simp only [List.nil_append] at h4
      subst h4
      simp only
      by_cases heq : cl = cl'
      · rw [if_pos heq]
        have hcc : cl' = c := by
          apply Finset.Subset.antisymm h2
          rw [← heq]
          apply hc.2.2 _ hcur
          rw [closed_specImps]
          intro i hi hp
          by_cases hu : i ∈ unused
          · exact h7 heq i hu hp
          · exact hdone i hi hu
        rw [← hcc, if_pos (h3 hag)]
      · rw [if_neg heq]
        have hne : del ≠ [] := fun h => heq (h8 h)
        obtain ⟨e1, e2⟩ := eraseAll_spec del unused
        apply ih
        · have := eraseAll_length_lt del unused hne (fun x hx => h5.subset hx)
          omega
        · intro i hi; exact hsub i (e1 i hi)
        · exact hcur.trans h1
        · exact h2
        · exact h3 hag
        · intro i hi hn
          by_cases hu : i ∈ unused
          · obtain ⟨d, hd, hk⟩ := e2 i hu hn
            exact Imp.conclusion_subset_of_key hk (h6 d hd).1 (h6 d hd).2
          · exact (hdone i hi hu).trans h1

/-! ### `lin_closure` with repeated implications: termination and superset -/

theorem linFold_weak (cur : List (Imp α)) (st : (Finset α × Finset α → ℕ) × Finset α) :
    let r := cur.foldl linBody st
    (∀ x ∈ r.2, x ∈ st.2 ∨ ∃ i ∈ cur, x ∈ i.conclusion) ∧
    (st.2 ⊆ r.2) ∧
    (∀ k, r.1 k ≤ st.1 k) ∧
    (∀ i ∈ cur, r.1 i.key ≤ st.1 i.key - 1) ∧
    (∀ k, r.1 k = 0 → st.1 k ≠ 0 → ∃ i ∈ cur, i.key = k ∧ i.conclusion ⊆ r.2) := by
  induction cur generalizing st with
  | nil => simp
  | cons i rest ih =>
    obtain ⟨h1, h2, h3, h4, h5⟩ := ih (linBody st i)
    have hc := linBody_count st i
    have hle : ∀ k, (linBody st i).1 k ≤ st.1 k := by
      intro k
      rw [hc]
      by_cases hk : k = i.key
      · subst hk; simp
      · rw [Function.update_of_ne hk]
    have hset : st.2 ⊆ (linBody st i).2 := by
      unfold linBody
      simp only
      split
      · exact Finset.Subset.refl _
      · split
        · exact Finset.subset_union_left
        · exact Finset.Subset.refl _
    simp only [List.foldl_cons]
    refine ⟨?_, hset.trans h2, fun k => (h3 k).trans (hle k), ?_, ?_⟩
    · intro x hx
      rcases h1 x hx with hx | ⟨j, hj, hx⟩
      · unfold linBody at hx
        simp only at hx
        split at hx
        · exact Or.inl hx
        · split at hx
          · rcases Finset.mem_union.1 hx with hx | hx
            · exact Or.inl hx
            · exact Or.inr ⟨i, by simp, hx⟩
          · exact Or.inl hx
      · exact Or.inr ⟨j, by simp [hj], hx⟩
    · intro j hj
      rcases List.mem_cons.1 hj with rfl | hj
      · refine (h3 _).trans ?_
        rw [hc]; simp
      · refine (h4 j hj).trans ?_
        have := hle j.key
        omega
    · intro k hk hne
      by_cases h0 : (linBody st i).1 k = 0
      · by_cases hki : k = i.key
        · subst hki
          refine ⟨i, by simp, rfl, ?_⟩
          refine Finset.Subset.trans ?_ h2
          rw [hc, Function.update_self] at h0
          unfold linBody
          simp [hne, h0]
        · rw [hc, Function.update_of_ne hki] at h0
          exact absurd h0 hne
      · obtain ⟨j, hj, hjk, hjs⟩ := h5 k hk h0
        exact ⟨j, by simp [hj], hjk, hjs⟩

/-- Weak invariant, valid for every list: a counter is at most the number of unprocessed premise
elements, and a zero counter means that the conclusion was added for an equal implication. -/
theorem linLoop_weak (imps : List (Imp α)) (s : Finset α)
    (ord : ℕ → SetOrder α) (fuel : ℕ) :
    ∀ (upd : List α) (count : Finset α × Finset α → ℕ) (cl : Finset α),
      upd.Nodup → (∀ x ∈ upd, x ∈ cl) → s ⊆ cl → cl ⊆ linUniv s imps →
      upd.length + (linUniv s imps \ cl).card < fuel →
      (∀ i ∈ imps, count i.key ≤ (i.premise \ (cl \ upd.toFinset)).card) →
      (∀ i ∈ imps, count i.key = 0 → ∃ j ∈ imps, j.key = i.key ∧ j.conclusion ⊆ cl) →
      ∃ c, linLoop imps ord fuel upd count cl = some c ∧ s ⊆ c ∧ Closed (specImps imps) c := by
  induction fuel with
  | zero => intro upd count cl _ _ _ _ h; omega
  | succ fuel ih =>
    intro upd count cl hup hucl hs huniv hfuel hcount hconcl
    match upd with
    | [] =>
      refine ⟨cl, rfl, hs, ?_⟩
      rw [closed_specImps]
      intro i hi hp
      have h0 : count i.key = 0 := by
        have := hcount i hi
        simp only [List.toFinset_nil, Finset.sdiff_empty, Finset.sdiff_eq_empty_iff_subset.2 hp,
          Finset.card_empty, Nat.le_zero] at this
        exact this
      obtain ⟨j, _, hjk, hjc⟩ := hconcl i hi h0
      have hpp : j.premise = i.premise := congrArg Prod.fst hjk
      exact Imp.conclusion_subset_of_key hjk (hpp ▸ hp) hjc
    | m :: upd =>
      unfold linLoop
      simp only
      have hm : m ∈ cl := hucl m (by simp)
      have hmn : m ∉ upd := (List.nodup_cons.1 hup).1
      set cur := imps.filter fun imp => decide (m ∈ imp.premise) with hcur
      obtain ⟨f1, f2, f3, f4, f5⟩ := linFold_weak cur (count, ∅)
      rw [← linCounts_eq] at f1 f2 f3 f4 f5
      set r := linCounts cur count with hr
      set add := r.2 \ cl with hadd
      set o := ord fuel
      have hD : (cl ∪ add) \ ((o.enum add).reverse ++ upd).toFinset
          = insert m (cl \ (m :: upd).toFinset) := by
        ext x
        simp only [Finset.mem_sdiff, Finset.mem_union, List.toFinset_append, List.mem_toFinset,
          List.mem_reverse, Finset.mem_insert, List.mem_cons, o.mem]
        constructor
        · rintro ⟨h1 | h1, h2⟩
          · by_cases hx : x = m
            · exact Or.inl hx
            · right; exact ⟨h1, by tauto⟩
          · exact absurd (Or.inl h1) h2
        · rintro (rfl | ⟨h1, h2⟩)
          · refine ⟨Or.inl hm, ?_⟩
            rintro (h | h)
            · exact (Finset.mem_sdiff.1 h).2 hm
            · exact hmn h
          · refine ⟨Or.inl h1, ?_⟩
            rintro (h | h)
            · exact (Finset.mem_sdiff.1 h).2 h1
            · exact h2 (Or.inr h)
      have hmD : m ∉ cl \ (m :: upd).toFinset := by simp
      have addsub : add ⊆ linUniv s imps := by
        intro x hx
        rcases f1 x (Finset.mem_sdiff.1 hx).1 with h | ⟨i, hi, hix⟩
        · simp at h
        · refine Finset.mem_union_right _ ((mem_foldr_conclusion imps x).2 ⟨i, ?_, hix⟩)
          exact List.mem_of_mem_filter hi
      have raddsub : r.2 ⊆ cl ∪ add := by
        intro x hx
        by_cases hxc : x ∈ cl
        · exact Finset.mem_union_left _ hxc
        · exact Finset.mem_union_right _ (Finset.mem_sdiff.2 ⟨hx, hxc⟩)
      apply ih
      · rw [List.nodup_append]
        refine ⟨List.nodup_reverse.2 (o.nodup add), (List.nodup_cons.1 hup).2, ?_⟩
        intro a ha b hb hab
        subst hab
        have : a ∈ add := (o.mem add a).1 (List.mem_reverse.1 ha)
        exact (Finset.mem_sdiff.1 this).2 (hucl a (by simp [hb]))
      · intro x hx
        rcases List.mem_append.1 hx with hx | hx
        · exact Finset.mem_union_right _ ((o.mem add x).1 (List.mem_reverse.1 hx))
        · exact Finset.mem_union_left _ (hucl x (by simp [hx]))
      · exact hs.trans Finset.subset_union_left
      · exact Finset.union_subset huniv addsub
      · have e1 : ((o.enum add).reverse ++ upd).length = add.card + upd.length := by
          rw [List.length_append, List.length_reverse, o.length]
        have e2 : (linUniv s imps \ (cl ∪ add)).card + add.card = (linUniv s imps \ cl).card := by
          rw [← Finset.sup_eq_union, ← sdiff_sdiff_left, Finset.card_sdiff_add_card_eq_card]
          exact fun x hx => Finset.mem_sdiff.2 ⟨addsub hx, (Finset.mem_sdiff.1 hx).2⟩
        simp only [List.length_cons] at hfuel
        omega
      · intro i hi
        rw [hD]
        by_cases hmi : m ∈ i.premise
        · have hic : i ∈ cur := List.mem_filter.2 ⟨hi, by simpa using hmi⟩
          have : i.premise \ insert m (cl \ (m :: upd).toFinset)
              = (i.premise \ (cl \ (m :: upd).toFinset)).erase m := by
            ext x; simp only [Finset.mem_sdiff, Finset.mem_insert, Finset.mem_erase]; tauto
          rw [this, Finset.card_erase_of_mem (Finset.mem_sdiff.2 ⟨hmi, hmD⟩)]
          have h4 := f4 i hic
          have hc := hcount i hi
          simp only at h4
          omega
        · refine (f3 i.key).trans ((hcount i hi).trans (Finset.card_le_card ?_))
          intro x hx
          rw [Finset.mem_sdiff] at hx ⊢
          refine ⟨hx.1, ?_⟩
          rw [Finset.mem_insert]
          rintro (rfl | h)
          · exact hmi hx.1
          · exact hx.2 h
      · intro i hi h0
        by_cases hc0 : count i.key = 0
        · obtain ⟨j, hj, hjk, hjc⟩ := hconcl i hi hc0
          exact ⟨j, hj, hjk, hjc.trans Finset.subset_union_left⟩
        · obtain ⟨j, hj, hjk, hjc⟩ := f5 i.key h0 hc0
          exact ⟨j, List.mem_of_mem_filter hj, hjk, hjc.trans raddsub⟩

theorem linLoop_weak_final (ord₀ : SetOrder α) (ord : ℕ → SetOrder α) (s : Finset α)
    (imps : List (Imp α)) :
    ∃ c, linLoop imps ord (linFuel s imps) (ord₀.enum (linStart s imps)).reverse
      (fun k => k.1.card) (linStart s imps) = some c ∧ s ⊆ c ∧ Closed (specImps imps) c := by
  have hz : linStart s imps \ (ord₀.enum (linStart s imps)).reverse.toFinset = ∅ := by
    rw [Finset.sdiff_eq_empty_iff_subset]
    intro x hx
    simpa [ord₀.mem] using hx
  have hsu : linStart s imps ⊆ linUniv s imps := by
    intro x hx
    rcases (mem_linStart s imps x).1 hx with h | ⟨i, hi, _, h⟩
    · exact Finset.mem_union_left _ h
    · exact Finset.mem_union_right _ ((mem_foldr_conclusion imps x).2 ⟨i, hi, h⟩)
  apply linLoop_weak imps s ord
  · exact List.nodup_reverse.2 (ord₀.nodup _)
  · intro x hx; exact (ord₀.mem _ x).1 (List.mem_reverse.1 hx)
  · intro x hx; exact (mem_linStart s imps x).2 (Or.inl hx)
  · exact hsu
  · rw [List.length_reverse, ord₀.length]
    unfold linFuel
    have := Finset.card_sdiff_add_card_eq_card hsu
    unfold linUniv at this ⊢
    omega
  · intro i _
    rw [hz]; simp [Imp.key]
  · intro i hi h0
    have hp : i.premise = ∅ := by simpa [Imp.key] using h0
    exact ⟨i, hi, rfl, fun x hx => (mem_linStart s imps x).2 (Or.inr ⟨i, hi, hp, hx⟩)⟩

theorem linLoop_isSome (ord₀ : SetOrder α) (ord : ℕ → SetOrder α) (s : Finset α)
    (imps : List (Imp α)) :
    (linLoop imps ord (linFuel s imps) (ord₀.enum (linStart s imps)).reverse
      (fun k => k.1.card) (linStart s imps)).isSome = true := by
  obtain ⟨c, hc, _⟩ := linLoop_weak_final ord₀ ord s imps
  simp [hc]

theorem linClosure_superset (ord₀ : SetOrder α) (ord : ℕ → SetOrder α) (s : Finset α)
    (imps : List (Imp α)) : simpleClosure s imps ⊆ linClosure ord₀ ord s imps := by
  have h := simpleClosure_isLeast s imps
  unfold linClosure
  split
  · rename_i he
    subst he
    exact h.2.2 s (Finset.Subset.refl _) (by simp [closed_specImps])
  · obtain ⟨c, hc, h1, h2⟩ := linLoop_weak_final ord₀ ord s imps
    simp only [hc, Option.getD_some]
    exact h.2.2 c h1 h2

theorem linLoop_into (imps : List (Imp α)) (M : Finset α) (hM : ∀ i ∈ imps, i.conclusion ⊆ M)
    (ord : ℕ → SetOrder α) (fuel : ℕ) :
    ∀ (upd : List α) (count : Finset α × Finset α → ℕ) (cl c : Finset α), cl ⊆ M →
      linLoop imps ord fuel upd count cl = some c → c ⊆ M := by
  induction fuel with
  | zero => intro upd count cl c _ h; simp [linLoop] at h
  | succ fuel ih =>
    intro upd count cl c hcl h
    match upd with
    | [] =>
      simp only [linLoop, Option.some.injEq] at h
      exact h ▸ hcl
    | m :: upd =>
      simp only [linLoop] at h
      refine ih _ _ _ _ ?_ h
      refine Finset.union_subset hcl ?_
      intro x hx
      have hx := (Finset.mem_sdiff.1 hx).1
      have hw := (linFold_weak (imps.filter fun imp => decide (m ∈ imp.premise)) (count, ∅)).1 x hx
      rcases hw with hw | ⟨i, hi, hxi⟩
      · simp at hw
      · exact hM i (List.mem_filter.1 hi).1 hxi

theorem linClosure_into (ord₀ : SetOrder α) (ord : ℕ → SetOrder α) (s M : Finset α)
    (imps : List (Imp α)) (hs : s ⊆ M) (hM : ∀ i ∈ imps, i.conclusion ⊆ M) :
    linClosure ord₀ ord s imps ⊆ M := by
  unfold linClosure
  split
  · exact hs
  · obtain ⟨c, hc, _, _⟩ := linLoop_weak_final ord₀ ord s imps
    simp only [hc, Option.getD_some]
    refine linLoop_into imps M hM ord _ _ _ _ _ ?_ hc
    intro x hx
    rcases (mem_linStart s imps x).1 hx with h | ⟨i, hi, _, h⟩
    · exact hs h
    · exact hM i hi h

theorem simpleClosure_into (s M : Finset α) (imps : List (Imp α)) (hs : s ⊆ M)
    (hM : ∀ i ∈ imps, i.conclusion ⊆ M) : simpleClosure s imps ⊆ M :=
  (simpleClosure_isLeast s imps).2.2 M hs ((closed_specImps _ _).2 fun i hi _ => hM i hi)
