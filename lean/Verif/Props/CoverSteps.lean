/-
Property C111: the functions of fca/algorithms/implication_covers.py that put an implication into a list.
-/
import Verif.Lemmas.Covers
import Mathlib.Data.List.Perm.Subperm

set_option linter.unusedSectionVars false

variable {β : Type} [DecidableEq β]

open Spec

namespace Cover

/-- `S` respects every implication of the list. -/
def Resp (S : Finset β) (l : List (Imp β)) : Prop := ∀ i ∈ l, Respects S i.premise i.conclusion

theorem respects_reduced {S : Finset β} {i : Imp β} :
    Respects S i.premise i.conclusion ↔ Respects S i.premise i.reduced := by
  unfold Respects Imp.reduced
  refine forall_congr' fun hp => ⟨fun h => Finset.sdiff_subset.trans h, fun h x hx => ?_⟩
  by_cases hxp : x ∈ i.premise
  · exact hp hxp
  · exact h (Finset.mem_sdiff.2 ⟨hx, hxp⟩)

theorem respects_sub {S : Finset β} {x y : Imp β} (h : Sub x y) (hy : Respects S y.premise y.conclusion) :
    Respects S x.premise x.conclusion := by
  rw [respects_reduced] at hy ⊢
  exact fun hp => h.2.trans (hy (h.1.trans hp))

theorem respects_key {S : Finset β} {x y : Imp β} (h : x.key = y.key) (hy : Respects S y.premise y.conclusion) :
    Respects S x.premise x.conclusion := by
  simp only [Imp.key, Prod.mk.injEq] at h
  exact respects_sub ⟨by rw [h.1], by rw [h.2]⟩ hy

theorem erase_key (i : Imp β) (l : List (Imp β)) :
    (l.eraseP fun x => x.pyEq i).map Imp.key = (l.map Imp.key).erase i.key := by
  induction l with
  | nil => rfl
  | cons x l ih =>
    by_cases hx : x.pyEq i = true
    · have := (Imp.pyEq_iff _ _).1 hx
      simp [hx, this]
    · have hk : x.key ≠ i.key := fun h => hx ((Imp.pyEq_iff _ _).2 h)
      simp [hx, hk, ih]

/-- What the loops keep: the elements still to come are in the list, up to `==`; what left the list is
subsumed by `imp`. -/
structure Going (imp : Imp β) (l₀ rest l : List (Imp β)) : Prop where
  left : List.Subperm (rest.map Imp.key) (l.map Imp.key)
  sub : l.Sublist l₀
  gone : ∀ x ∈ l₀, x.key ∈ l.map Imp.key ∨ Sub x imp

theorem Going.start (imp : Imp β) (l : List (Imp β)) : Going imp l l l :=
  ⟨List.Subperm.refl _, List.Sublist.refl _, fun _ hx => .inl (List.mem_map_of_mem hx)⟩

theorem Going.skip {imp i : Imp β} {l₀ rest l : List (Imp β)} (h : Going imp l₀ (i :: rest) l) :
    Going imp l₀ rest l :=
  ⟨((List.sublist_cons_self _ _).map _).subperm.trans h.left, h.sub, h.gone⟩

theorem Going.mem {imp i : Imp β} {l₀ rest l : List (Imp β)} (h : Going imp l₀ (i :: rest) l) :
    i.key ∈ l.map Imp.key := h.left.subset (by simp)

theorem Going.remove {imp i : Imp β} {l₀ rest l : List (Imp β)} (h : Going imp l₀ (i :: rest) l)
    (hi : Sub i imp) : ∃ l', remove i l = .ok l' ∧ Going imp l₀ rest l' := by
  obtain ⟨y, hy, hk⟩ := List.mem_map.1 h.mem
  refine ⟨l.eraseP fun x => x.pyEq i, ?_, ?_, ?_, ?_⟩
  · unfold Cover.remove
    have hany : (l.any fun x => x.pyEq i) = true := List.any_eq_true.2 ⟨y, hy, (Imp.pyEq_iff _ _).2 hk⟩
    rw [if_pos hany]
  · rw [erase_key]
    have := h.left.erase i.key
    simpa using this
  · exact List.eraseP_sublist.trans h.sub
  · intro x hx
    rcases h.gone x hx with h1 | h1
    · by_cases hxi : x.key = i.key
      · right
        simp only [Imp.key, Prod.mk.injEq] at hxi
        exact ⟨by rw [hxi.1]; exact hi.1, by rw [hxi.2]; exact hi.2⟩
      · left; rw [erase_key]
        exact (List.mem_erase_of_ne hxi).2 h1
    · exact .inr h1

/-- The result says the same as the list and `imp` together. -/
def Kept (imp : Imp β) (l₀ : List (Imp β)) (r : Bool × List (Imp β)) : Prop :=
  r.2.Sublist l₀ ∧ ∀ S, Resp S (if r.1 then r.2 ++ [imp] else r.2) ↔ Resp S (imp :: l₀)

theorem Going.resp {imp : Imp β} {l₀ rest l : List (Imp β)} (h : Going imp l₀ rest l) {S : Finset β}
    (hl : Resp S l) (hi : Respects S imp.premise imp.conclusion) : Resp S (imp :: l₀) := by
  intro x hx
  rcases List.mem_cons.1 hx with rfl | hx
  · exact hi
  · rcases h.gone x hx with h1 | h1
    · obtain ⟨y, hy, hk⟩ := List.mem_map.1 h1
      exact respects_key hk.symm (hl y hy)
    · exact respects_sub h1 hi

theorem Going.kept_true {imp : Imp β} {l₀ rest l : List (Imp β)} (h : Going imp l₀ rest l) :
    Kept imp l₀ (true, l) := by
  refine ⟨h.sub, fun S => ⟨fun hr => ?_, fun hr x hx => ?_⟩⟩
  · simp only [if_true] at hr
    exact h.resp (fun x hx => hr x (by simp [hx])) (hr imp (by simp))
  · simp only [if_true, List.mem_append, List.mem_singleton] at hx
    rcases hx with hx | rfl
    · exact hr x (by simp [h.sub.subset hx])
    · exact hr x (by simp)

theorem Going.kept_false {imp i : Imp β} {l₀ rest l : List (Imp β)} (h : Going imp l₀ (i :: rest) l)
    (hi : Sub imp i) : Kept imp l₀ (false, l) := by
  refine ⟨h.sub, fun S => ⟨fun hr => ?_, fun hr x hx => ?_⟩⟩
  · simp only [Bool.false_eq_true, if_false] at hr
    obtain ⟨y, hy, hk⟩ := List.mem_map.1 h.mem
    exact h.resp hr (respects_sub hi (respects_key hk.symm (hr y hy)))
  · simp only [Bool.false_eq_true, if_false] at hx
    exact hr x (by simp [h.sub.subset hx])

theorem kept_trivial {imp : Imp β} {l : List (Imp β)} (h : imp.reduced ⊆ imp.premise) : Kept imp l (false, l) := by
  refine ⟨List.Sublist.refl _, fun S => ⟨fun hr x hx => ?_, fun hr x hx => hr x (by simpa using .inr hx)⟩⟩
  rcases List.mem_cons.1 hx with rfl | hx
  · rw [respects_reduced]; exact fun hp => h.trans hp
  · exact hr x (by simpa using hx)

theorem removeSubsumed_kept (imp : Imp β) (l : List (Imp β)) :
    ∃ r, removeSubsumed imp l = .ok r ∧ Kept imp l r := by
  unfold removeSubsumed
  by_cases ht : imp.reduced ⊆ imp.premise
  · rw [if_pos ht]; exact ⟨_, rfl, kept_trivial ht⟩
  rw [if_neg ht]
  suffices H : ∀ (rest l' : List (Imp β)) (can : Bool), Going imp l rest l' →
      ∃ r, removeSubsumed.go imp can rest l' = .ok r ∧ Kept imp l r from H l l true (Going.start imp l)
  intro rest
  induction rest with
  | nil => intro l' can h; exact ⟨_, rfl, h.kept_true⟩
  | cons i rest ih =>
    intro l' can h
    unfold removeSubsumed.go
    by_cases h1 : can = true ∧ i.premise ⊆ imp.premise
    · rw [if_pos h1]
      by_cases h2 : imp.reduced ⊆ i.reduced
      · rw [if_pos h2]; exact ⟨_, rfl, h.kept_false ⟨h1.2, h2⟩⟩
      · rw [if_neg h2]; exact ih l' can h.skip
    · rw [if_neg h1]
      by_cases h2 : subsumedSimply i imp = true
      · obtain ⟨l₂, e, h'⟩ := h.remove (subsumedSimply_iff.1 h2)
        rw [if_pos h2, e]; exact ih l₂ false h'
      · rw [if_neg h2]; exact ih l' can h.skip

theorem removeSubsumedSimply_kept (imp : Imp β) (l : List (Imp β)) :
    ∃ r, removeSubsumedSimply imp l = .ok r ∧ Kept imp l r := by
  unfold removeSubsumedSimply
  by_cases ht : imp.reduced ⊆ imp.premise
  · rw [if_pos ht]; exact ⟨_, rfl, kept_trivial ht⟩
  rw [if_neg ht]
  suffices H : ∀ (rest l' : List (Imp β)) (can : Bool), Going imp l rest l' →
      ∃ r, removeSubsumedSimply.go imp can rest l' = .ok r ∧ Kept imp l r from H l l true (Going.start imp l)
  intro rest
  induction rest with
  | nil => intro l' can h; exact ⟨_, rfl, h.kept_true⟩
  | cons i rest ih =>
    intro l' can h
    unfold removeSubsumedSimply.go
    by_cases h1 : can = true ∧ subsumedSimply imp i = true
    · rw [if_pos h1]; exact ⟨_, rfl, h.kept_false (subsumedSimply_iff.1 h1.2)⟩
    · rw [if_neg h1]
      by_cases h2 : subsumedSimply i imp = true
      · obtain ⟨l₂, e, h'⟩ := h.remove (subsumedSimply_iff.1 h2)
        rw [if_pos h2, e]; exact ih l₂ false h'
      · rw [if_neg h2]; exact ih l' can h.skip

theorem removeSubsumedPlus_kept (imp : Imp β) (l : List (Imp β))
    (hq : ∀ i ∈ l, i.premise = imp.premise → imp.reduced ⊆ i.reduced) :
    ∃ r, removeSubsumedPlus imp l = .ok r ∧ Kept imp l r := by
  unfold removeSubsumedPlus
  by_cases ht : imp.reduced ⊆ imp.premise
  · rw [if_pos ht]; exact ⟨_, rfl, kept_trivial ht⟩
  rw [if_neg ht]
  suffices H : ∀ (rest l' : List (Imp β)), Going imp l rest l' →
      (∀ i ∈ rest, i.premise = imp.premise → imp.reduced ⊆ i.reduced) →
      ∃ r, removeSubsumedPlus.go imp rest l' = .ok r ∧ Kept imp l r from H l l (Going.start imp l) hq
  intro rest
  induction rest with
  | nil => intro l' h _; exact ⟨_, rfl, h.kept_true⟩
  | cons i rest ih =>
    intro l' h hr
    have hr' : ∀ i ∈ rest, i.premise = imp.premise → imp.reduced ⊆ i.reduced := fun k hk => hr k (by simp [hk])
    unfold removeSubsumedPlus.go
    by_cases h0 : i.premise = imp.premise
    · rw [if_pos h0]; exact ⟨_, rfl, h.kept_false ⟨by rw [h0], hr i (by simp) h0⟩⟩
    rw [if_neg h0]
    by_cases h1 : i.premise ⊆ imp.premise
    · rw [if_pos h1]
      by_cases h2 : imp.reduced ⊆ i.reduced
      · rw [if_pos h2]; exact ⟨_, rfl, h.kept_false ⟨h1, h2⟩⟩
      · rw [if_neg h2]; exact ih l' h.skip hr'
    · rw [if_neg h1]
      by_cases h2 : imp.premise ⊆ i.premise
      · rw [if_pos h2]
        by_cases h3 : i.reduced ⊆ imp.reduced
        · obtain ⟨l₂, e, h'⟩ := h.remove ⟨h2, h3⟩
          rw [if_pos h3, e]; exact ih l₂ h' hr'
        · rw [if_neg h3]; exact ih l' h.skip hr'
      · rw [if_neg h2]; exact ih l' h.skip hr'

/-- `remove_subsumed_plus` says True only if no implication of the list has the premise or subsumes `imp`. -/
theorem removeSubsumedPlus_true {imp : Imp β} {l l' : List (Imp β)} (h : removeSubsumedPlus imp l = .ok (true, l')) :
    ∀ i ∈ l, i.premise ≠ imp.premise ∧ ¬ Sub imp i := by
  unfold removeSubsumedPlus at h
  split at h
  · simp at h
  suffices H : ∀ (rest l₁ : List (Imp β)), removeSubsumedPlus.go imp rest l₁ = .ok (true, l') →
      ∀ i ∈ rest, i.premise ≠ imp.premise ∧ ¬ Sub imp i from H l l h
  intro rest
  induction rest with
  | nil => intro _ _ i hi; simp at hi
  | cons x rest ih =>
    intro l₁ hg
    unfold removeSubsumedPlus.go at hg
    have key : (x.premise ≠ imp.premise ∧ ¬ Sub imp x) ∧ ∃ l₂, removeSubsumedPlus.go imp rest l₂ = .ok (true, l') := by
      by_cases h0 : x.premise = imp.premise
      · rw [if_pos h0] at hg; simp at hg
      rw [if_neg h0] at hg
      refine ⟨⟨h0, fun hs => ?_⟩, ?_⟩
      · rw [if_pos hs.1, if_pos hs.2] at hg; simp at hg
      · split at hg
        · split at hg
          · simp at hg
          · exact ⟨_, hg⟩
        · split at hg
          · split at hg
            · cases hr : remove x l₁ with
              | error e => rw [hr] at hg; cases hg
              | ok l₂ => rw [hr] at hg; exact ⟨l₂, hg⟩
            · exact ⟨_, hg⟩
          · exact ⟨_, hg⟩
    obtain ⟨k1, l₂, k2⟩ := key
    intro i hi
    rcases List.mem_cons.1 hi with rfl | hi
    · exact k1
    · exact ih l₂ k2 i hi

/-- `remove_subsumed_simply` says False only before anything was removed. -/
theorem removeSubsumedSimply_false {imp : Imp β} {l l' : List (Imp β)}
    (h : removeSubsumedSimply imp l = .ok (false, l')) : l' = l := by
  unfold removeSubsumedSimply at h
  split at h
  · simpa using h.symm
  have nof : ∀ (rest l₁ : List (Imp β)), removeSubsumedSimply.go imp false rest l₁ ≠ .ok (false, l') := by
    intro rest
    induction rest with
    | nil => intro l₁ hg; simp [removeSubsumedSimply.go] at hg
    | cons x rest ih =>
      intro l₁ hg
      unfold removeSubsumedSimply.go at hg
      rw [if_neg (by simp)] at hg
      split at hg
      · cases hr : remove x l₁ with
        | error e => rw [hr] at hg; cases hg
        | ok l₂ => rw [hr] at hg; exact ih l₂ hg
      · exact ih l₁ hg
  suffices H : ∀ (rest : List (Imp β)), removeSubsumedSimply.go imp true rest l = .ok (false, l') → l' = l from H l h
  intro rest
  induction rest with
  | nil => intro hg; simp [removeSubsumedSimply.go] at hg
  | cons x rest ih =>
    intro hg
    unfold removeSubsumedSimply.go at hg
    split at hg
    · simpa using hg.symm
    · split at hg
      · cases hr : remove x l with
        | error e => rw [hr] at hg; cases hg
        | ok l₂ => rw [hr] at hg; exact absurd hg (nof rest l₂)
      · exact ih hg

end Cover

open Cover

/-- C111 for `remove_subsumed` and `remove_subsumed_simply`: for all lists, also with equal or subsumed
elements, no exception is raised, elements are only removed, and the list afterwards, with `imp` if the
answer is True, is respected by exactly the sets that respect `imp` and the list before. -/
theorem C111_insert (imp : Imp β) (l : List (Imp β)) :
    (∃ b l', removeSubsumed imp l = .ok (b, l') ∧ l'.Sublist l ∧
      ∀ S, (∀ i ∈ if b then l' ++ [imp] else l', Respects S i.premise i.conclusion) ↔
        ∀ i ∈ imp :: l, Respects S i.premise i.conclusion) ∧
    ∃ b l', removeSubsumedSimply imp l = .ok (b, l') ∧ l'.Sublist l ∧
      ∀ S, (∀ i ∈ if b then l' ++ [imp] else l', Respects S i.premise i.conclusion) ↔
        ∀ i ∈ imp :: l, Respects S i.premise i.conclusion := by
  obtain ⟨⟨b, l'⟩, h1, h2, h3⟩ := removeSubsumed_kept imp l
  obtain ⟨⟨b2, l2⟩, k1, k2, k3⟩ := removeSubsumedSimply_kept imp l
  exact ⟨⟨b, l', h1, h2, h3⟩, b2, l2, k1, k2, k3⟩

/-- C111 fails for `remove_subsumed_plus`: whenever the first implication of the list has the premise of
`imp` and not all of its conclusion, the answer is False and the list stays as it was (the
`conclusion.update` of line 69 changes a copy); with a list of that one implication, `imp` is lost. -/
theorem C111_plus_violated (imp i : Imp β) (rest : List (Imp β)) (hp : i.premise = imp.premise)
    (hr : ¬ imp.reduced ⊆ i.reduced) :
    removeSubsumedPlus imp (i :: rest) = .ok (false, i :: rest) ∧
    ∃ S, Respects S i.premise i.conclusion ∧ ¬ Respects S imp.premise imp.conclusion := by
  constructor
  · unfold removeSubsumedPlus
    split
    · rfl
    · unfold removeSubsumedPlus.go
      rw [if_pos hp]
  · refine ⟨i.premise ∪ i.conclusion, fun _ => Finset.subset_union_right, fun h => ?_⟩
    have h' := h (by rw [hp]; exact Finset.subset_union_left)
    apply hr
    intro x hx
    obtain ⟨hxc, hxp⟩ := Finset.mem_sdiff.1 hx
    rcases Finset.mem_union.1 (h' hxc) with h1 | h1
    · exact absurd (hp ▸ h1) hxp
    · exact Finset.mem_sdiff.2 ⟨h1, by rwa [hp]⟩

/-- What holds of `remove_subsumed_plus`: the claim of C111 whenever implications of the list with the premise
of `imp` have all of its conclusion, as in every call of `compute_implication_cover`; and the answer True always
means that no implication of the list has the premise of `imp` or a smaller premise with all of its conclusion. Missing: equal
premises with something new in the conclusion, where it fails. -/
theorem C111_plus_partial (imp : Imp β) (l : List (Imp β)) :
    ((∀ i ∈ l, i.premise = imp.premise → imp.reduced ⊆ i.reduced) →
      ∃ b l', removeSubsumedPlus imp l = .ok (b, l') ∧ l'.Sublist l ∧
        ∀ S, (∀ i ∈ if b then l' ++ [imp] else l', Respects S i.premise i.conclusion) ↔
          ∀ i ∈ imp :: l, Respects S i.premise i.conclusion) ∧
    ∀ l', removeSubsumedPlus imp l = .ok (true, l') →
      ∀ i ∈ l, i.premise ≠ imp.premise ∧ ¬ (i.premise ⊆ imp.premise ∧ imp.reduced ⊆ i.reduced) := by
  refine ⟨fun hq => ?_, fun l' h => removeSubsumedPlus_true h⟩
  obtain ⟨⟨b, l'⟩, h1, h2, h3⟩ := removeSubsumedPlus_kept imp l hq
  exact ⟨b, l', h1, h2, h3⟩

/-! ### Concrete cases -/

/-- A list with an element twice and a subsumed one: both are removed. -/
example : removeSubsumed (⟨{0}, {1, 2}⟩ : Imp (Fin 4)) [⟨{0, 3}, {1}⟩, ⟨{3}, {2}⟩, ⟨{0, 3}, {1}⟩] =
    .ok (true, [⟨{3}, {2}⟩]) := by decide +kernel

example : removeSubsumedPlus (⟨{0}, {2}⟩ : Imp (Fin 4)) [⟨{0}, {1}⟩] = .ok (false, [⟨{0}, {1}⟩]) :=
  (C111_plus_violated ⟨{0}, {2}⟩ ⟨{0}, {1}⟩ [] rfl (by decide)).1

example : removeSubsumedPlus (⟨{0}, {1, 2}⟩ : Imp (Fin 4)) [⟨{0, 3}, {1}⟩, ⟨{3}, {2}⟩] =
    .ok (true, [⟨{3}, {2}⟩]) := by decide +kernel
