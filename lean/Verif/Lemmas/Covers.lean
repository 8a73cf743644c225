/-
Lemmas about the object-incremental implication cover (fca/algorithms/implication_covers.py).
-/
import Verif.Model.Covers
import Verif.Lemmas.Closure

set_option linter.unusedSectionVars false

variable {α β : Type} [DecidableEq α] [DecidableEq β]

namespace Cover

/-- `x` is subsumed by `y`. -/
def Sub (x y : Imp β) : Prop := y.premise ⊆ x.premise ∧ x.reduced ⊆ y.reduced

theorem subsumedSimply_iff {x y : Imp β} : subsumedSimply x y = true ↔ Sub x y := by
  simp [subsumedSimply, Sub]

instance (x y : Imp β) : Decidable (Sub x y) := by unfold Sub; infer_instance

theorem Sub.refl (x : Imp β) : Sub x x := ⟨subset_refl _, subset_refl _⟩

theorem Sub.trans {x y z : Imp β} (h : Sub x y) (h' : Sub y z) : Sub x z :=
  ⟨h'.1.trans h.1, h.2.trans h'.2⟩

/-- No element is subsumed by another. -/
def AC (l : List (Imp β)) : Prop := l.Nodup ∧ ∀ x ∈ l, ∀ y ∈ l, Sub x y → x = y

theorem AC.sublist {l l' : List (Imp β)} (h : AC l) (hs : l'.Sublist l) : AC l' :=
  ⟨h.1.sublist hs, fun x hx y hy => h.2 x (hs.subset hx) y (hs.subset hy)⟩

theorem reduced_disj (x : Imp β) {y : β} (h : y ∈ x.reduced) : y ∉ x.premise := (Finset.mem_sdiff.1 h).2

/-- The reduced conclusion lies in the premise only if it is empty. -/
theorem trivial_iff (x : Imp β) : x.reduced ⊆ x.premise ↔ x.reduced = ∅ := by
  constructor
  · intro h
    rw [Finset.eq_empty_iff_forall_notMem]
    exact fun y hy => reduced_disj x hy (h hy)
  · intro h; rw [h]; simp

theorem remove_ok {kept rest : List (Imp β)} {i : Imp β} (h : AC (kept ++ i :: rest)) :
    remove i (kept ++ i :: rest) = .ok (kept ++ rest) := by
  unfold remove
  have hself : i.pyEq i = true := by simp [Imp.pyEq]
  rw [if_pos (by simp [hself])]
  congr 1
  have hk : ∀ x ∈ kept, ¬ x.pyEq i = true := by
    intro x hx he
    rw [Imp.pyEq_iff] at he
    simp only [Imp.key, Prod.mk.injEq] at he
    have := h.2 x (by simp [hx]) i (by simp) ⟨by rw [he.1], by rw [he.2]⟩
    subst this
    have := List.nodup_append.1 h.1
    exact this.2.2 x hx x (by simp) rfl
  rw [List.eraseP_append_right _ hk]
  simp [hself]

/-- What all three removal functions do to a list without subsumed elements. -/
def absorbed (imp : Imp β) (l : List (Imp β)) : Bool × List (Imp β) :=
  if ∃ i ∈ l, Sub imp i then (false, l) else (true, l.filter fun x => decide (¬ Sub x imp))

theorem no_removal {imp i x : Imp β} {kept rest : List (Imp β)} (h : AC (kept ++ x :: rest)) (hi : i ∈ rest)
    (his : Sub imp i) : ¬ Sub x imp := by
  intro hx
  have := h.2 x (by simp) i (by simp [hi]) (hx.trans his)
  subst this
  have := (List.nodup_append.1 h.1).2.1
  exact (List.nodup_cons.1 this).1 hi

theorem removeSubsumed_ok {imp : Imp β} {l : List (Imp β)} (h : AC l)
    (heq : ∀ i ∈ l, i.premise = imp.premise → imp.reduced ⊆ i.reduced) :
    removeSubsumed imp l = .ok (if imp.reduced = ∅ then (false, l) else absorbed imp l) := by
  unfold removeSubsumed
  by_cases ht : imp.reduced = ∅
  · rw [if_pos ((trivial_iff imp).2 ht), if_pos ht]
  rw [if_neg (fun hc => ht ((trivial_iff imp).1 hc)), if_neg ht]
  have neg : ∀ (rest kept : List (Imp β)) (can : Bool), AC (kept ++ rest) → (∀ x ∈ rest, ¬ Sub imp x) →
      (∀ i ∈ rest, i.premise = imp.premise → imp.reduced ⊆ i.reduced) →
      removeSubsumed.go imp can rest (kept ++ rest) =
        .ok (true, kept ++ rest.filter fun x => decide (¬ Sub x imp)) := by
    intro rest
    induction rest with
    | nil => intro kept can _ _ _; simp [removeSubsumed.go]
    | cons x rest ih =>
      intro kept can hac hno hq
      have hx := hno x (by simp)
      have hqx := hq x (by simp)
      have ih' := ih (kept ++ [x]) can (by simpa using hac) (fun y hy => hno y (by simp [hy]))
        (fun y hy => hq y (by simp [hy]))
      simp only [List.append_assoc, List.singleton_append] at ih'
      unfold removeSubsumed.go
      by_cases hc : can = true ∧ x.premise ⊆ imp.premise
      · rw [if_pos hc, if_neg (fun hr => hx ⟨hc.2, hr⟩), ih']
        have : ¬ Sub x imp := fun hs => by
          have he := Finset.Subset.antisymm hc.2 hs.1
          exact hx ⟨hc.2, hqx he⟩
        simp [this]
      · rw [if_neg hc]
        by_cases hs : Sub x imp
        · rw [if_pos (subsumedSimply_iff.2 hs), remove_ok hac]
          have := ih kept false (hac.sublist (by simp)) (fun y hy => hno y (by simp [hy]))
            (fun y hy => hq y (by simp [hy]))
          simp only [bind, Except.bind, this]
          simp [hs]
        · rw [if_neg (fun hc => hs (subsumedSimply_iff.1 hc)), ih']
          simp [hs]
  have pos : ∀ (rest kept : List (Imp β)), AC (kept ++ rest) → (∃ i ∈ rest, Sub imp i) →
      removeSubsumed.go imp true rest (kept ++ rest) = .ok (false, kept ++ rest) := by
    intro rest
    induction rest with
    | nil => rintro kept - ⟨i, hi, -⟩; simp at hi
    | cons x rest ih =>
      rintro kept hac hex
      unfold removeSubsumed.go
      by_cases hx : Sub imp x
      · rw [if_pos ⟨rfl, hx.1⟩, if_pos hx.2]
      · have hex' : ∃ i ∈ rest, Sub imp i := by
          obtain ⟨i, hi, his⟩ := hex
          rcases List.mem_cons.1 hi with rfl | hi
          · exact absurd his hx
          · exact ⟨i, hi, his⟩
        have ih' := ih (kept ++ [x]) (by simpa using hac) hex'
        simp only [List.append_assoc, List.singleton_append] at ih'
        obtain ⟨i, hi, his⟩ := hex'
        by_cases hc : x.premise ⊆ imp.premise
        · rw [if_pos ⟨rfl, hc⟩, if_neg (fun hr => hx ⟨hc, hr⟩), ih']
        · rw [if_neg (fun h => hc h.2),
            if_neg (fun hc => no_removal hac hi his (subsumedSimply_iff.1 hc)), ih']
  unfold absorbed
  by_cases hex : ∃ i ∈ l, Sub imp i
  · rw [if_pos hex]; simpa using pos l [] (by simpa using h) hex
  · rw [if_neg hex]
    push Not at hex
    simpa using neg l [] true (by simpa using h) hex heq

theorem removeSubsumedSimply_ok {imp : Imp β} {l : List (Imp β)} (h : AC l) :
    removeSubsumedSimply imp l = .ok (if imp.reduced = ∅ then (false, l) else absorbed imp l) := by
  unfold removeSubsumedSimply
  by_cases ht : imp.reduced = ∅
  · rw [if_pos ((trivial_iff imp).2 ht), if_pos ht]
  rw [if_neg (fun hc => ht ((trivial_iff imp).1 hc)), if_neg ht]
  have neg : ∀ (rest kept : List (Imp β)) (can : Bool), AC (kept ++ rest) → (∀ x ∈ rest, ¬ Sub imp x) →
      removeSubsumedSimply.go imp can rest (kept ++ rest) =
        .ok (true, kept ++ rest.filter fun x => decide (¬ Sub x imp)) := by
    intro rest
    induction rest with
    | nil => intro kept can _ _; simp [removeSubsumedSimply.go]
    | cons x rest ih =>
      intro kept can hac hno
      have hx := hno x (by simp)
      have ih' := ih (kept ++ [x]) can (by simpa using hac) (fun y hy => hno y (by simp [hy]))
      simp only [List.append_assoc, List.singleton_append] at ih'
      unfold removeSubsumedSimply.go
      rw [if_neg (fun hc => hx (subsumedSimply_iff.1 hc.2))]
      by_cases hs : Sub x imp
      · rw [if_pos (subsumedSimply_iff.2 hs), remove_ok hac]
        have := ih kept false (hac.sublist (by simp)) (fun y hy => hno y (by simp [hy]))
        simp only [bind, Except.bind, this]
        simp [hs]
      · rw [if_neg (fun hc => hs (subsumedSimply_iff.1 hc)), ih']
        simp [hs]
  have pos : ∀ (rest kept : List (Imp β)), AC (kept ++ rest) → (∃ i ∈ rest, Sub imp i) →
      removeSubsumedSimply.go imp true rest (kept ++ rest) = .ok (false, kept ++ rest) := by
    intro rest
    induction rest with
    | nil => rintro kept - ⟨i, hi, -⟩; simp at hi
    | cons x rest ih =>
      rintro kept hac hex
      unfold removeSubsumedSimply.go
      by_cases hx : Sub imp x
      · rw [if_pos ⟨rfl, subsumedSimply_iff.2 hx⟩]
      · have hex' : ∃ i ∈ rest, Sub imp i := by
          obtain ⟨i, hi, his⟩ := hex
          rcases List.mem_cons.1 hi with rfl | hi
          · exact absurd his hx
          · exact ⟨i, hi, his⟩
        have ih' := ih (kept ++ [x]) (by simpa using hac) hex'
        simp only [List.append_assoc, List.singleton_append] at ih'
        obtain ⟨i, hi, his⟩ := hex'
        rw [if_neg (fun hc => hx (subsumedSimply_iff.1 hc.2)),
          if_neg (fun hc => no_removal hac hi his (subsumedSimply_iff.1 hc)), ih']
  unfold absorbed
  by_cases hex : ∃ i ∈ l, Sub imp i
  · rw [if_pos hex]; simpa using pos l [] (by simpa using h) hex
  · rw [if_neg hex]
    push Not at hex
    simpa using neg l [] true (by simpa using h) hex

theorem removeSubsumedPlus_ok {imp : Imp β} {l : List (Imp β)} (h : AC l)
    (hne : ∀ i ∈ l, i.premise ≠ imp.premise) :
    removeSubsumedPlus imp l = .ok (if imp.reduced = ∅ then (false, l) else absorbed imp l) := by
  unfold removeSubsumedPlus
  by_cases ht : imp.reduced = ∅
  · rw [if_pos ((trivial_iff imp).2 ht), if_pos ht]
  rw [if_neg (fun hc => ht ((trivial_iff imp).1 hc)), if_neg ht]
  have neg : ∀ (rest kept : List (Imp β)), AC (kept ++ rest) → (∀ x ∈ rest, ¬ Sub imp x) →
      (∀ i ∈ rest, i.premise ≠ imp.premise) →
      removeSubsumedPlus.go imp rest (kept ++ rest) =
        .ok (true, kept ++ rest.filter fun x => decide (¬ Sub x imp)) := by
    intro rest
    induction rest with
    | nil => intro kept _ _ _; simp [removeSubsumedPlus.go]
    | cons x rest ih =>
      intro kept hac hno hq
      have hx := hno x (by simp)
      have hqx := hq x (by simp)
      have ih' := ih (kept ++ [x]) (by simpa using hac) (fun y hy => hno y (by simp [hy]))
        (fun y hy => hq y (by simp [hy]))
      simp only [List.append_assoc, List.singleton_append] at ih'
      unfold removeSubsumedPlus.go
      rw [if_neg hqx]
      by_cases hc : x.premise ⊆ imp.premise
      · rw [if_pos hc, if_neg (fun hr => hx ⟨hc, hr⟩), ih']
        have : ¬ Sub x imp := fun hs => hqx (Finset.Subset.antisymm hc hs.1)
        simp [this]
      · rw [if_neg hc]
        by_cases hp : imp.premise ⊆ x.premise
        · rw [if_pos hp]
          by_cases hr : x.reduced ⊆ imp.reduced
          · rw [if_pos hr, remove_ok hac]
            have := ih kept (hac.sublist (by simp)) (fun y hy => hno y (by simp [hy]))
              (fun y hy => hq y (by simp [hy]))
            simp only [bind, Except.bind, this]
            have hs : Sub x imp := ⟨hp, hr⟩
            simp [hs]
          · have hs : ¬ Sub x imp := fun hs => hr hs.2
            rw [if_neg hr, ih']; simp [hs]
        · have hs : ¬ Sub x imp := fun hs => hp hs.1
          rw [if_neg hp, ih']; simp [hs]
  have pos : ∀ (rest kept : List (Imp β)), AC (kept ++ rest) → (∃ i ∈ rest, Sub imp i) →
      (∀ i ∈ rest, i.premise ≠ imp.premise) →
      removeSubsumedPlus.go imp rest (kept ++ rest) = .ok (false, kept ++ rest) := by
    intro rest
    induction rest with
    | nil => rintro kept - ⟨i, hi, -⟩; simp at hi
    | cons x rest ih =>
      rintro kept hac hex hq
      unfold removeSubsumedPlus.go
      rw [if_neg (hq x (by simp))]
      by_cases hx : Sub imp x
      · rw [if_pos hx.1, if_pos hx.2]
      · have hex' : ∃ i ∈ rest, Sub imp i := by
          obtain ⟨i, hi, his⟩ := hex
          rcases List.mem_cons.1 hi with rfl | hi
          · exact absurd his hx
          · exact ⟨i, hi, his⟩
        have ih' := ih (kept ++ [x]) (by simpa using hac) hex' (fun y hy => hq y (by simp [hy]))
        simp only [List.append_assoc, List.singleton_append] at ih'
        obtain ⟨i, hi, his⟩ := hex'
        by_cases hc : x.premise ⊆ imp.premise
        · rw [if_pos hc, if_neg (fun hr => hx ⟨hc, hr⟩), ih']
        · rw [if_neg hc]
          by_cases hp : imp.premise ⊆ x.premise
          · rw [if_pos hp, if_neg (fun hr => no_removal hac hi his ⟨hp, hr⟩), ih']
          · rw [if_neg hp, ih']
  unfold absorbed
  by_cases hex : ∃ i ∈ l, Sub imp i
  · rw [if_pos hex]; simpa using pos l [] (by simpa using h) hex hne
  · rw [if_neg hex]
    push Not at hex
    simpa using neg l [] (by simpa using h) hex hne

theorem isNew_ok {imp : Imp β} {l : List (Imp β)} (h : ∀ i ∈ l, ¬ Sub i imp ∨ Sub imp i) :
    isNew imp l = .ok (decide (imp.reduced ≠ ∅ ∧ ∀ i ∈ l, ¬ Sub imp i)) := by
  unfold isNew
  by_cases ht : imp.reduced = ∅
  · rw [if_pos ((trivial_iff imp).2 ht)]; simp [ht]
  rw [if_neg (fun hc => ht ((trivial_iff imp).1 hc))]
  simp only [ne_eq, ht, not_false_eq_true, true_and]
  induction l with
  | nil => simp [isNew.go]
  | cons x l ih =>
    unfold isNew.go
    by_cases hx : Sub imp x
    · rw [if_pos (subsumedSimply_iff.2 hx)]; simp [hx]
    · rw [if_neg (fun hc => hx (subsumedSimply_iff.1 hc))]
      have h1 : ¬ subsumed imp x = true := by
        simp only [subsumed, Bool.and_eq_true, decide_eq_true_eq, not_and]
        intro hp hr
        refine hx ⟨hp, fun y hy => ?_⟩
        rcases Finset.mem_union.1 (hr hy) with h | h
        · exact h
        · exact absurd h (reduced_disj _ hy)
      have h2 : ¬ subsumed x imp = true := by
        simp only [subsumed, Bool.and_eq_true, decide_eq_true_eq, not_and]
        intro hp hr
        rcases h x (by simp) with hn | hn
        · refine hn ⟨hp, fun y hy => ?_⟩
          rcases Finset.mem_union.1 (hr hy) with h | h
          · exact h
          · exact absurd h (reduced_disj _ hy)
        · exact hx hn
      rw [if_neg h1, if_neg h2, ih (fun i hi => h i (by simp [hi]))]
      simp [hx]

/-! ### Invariants of one update -/

/-- Every non-trivial implication of `K` is subsumed by one of `B`. -/
def Cov (B K : List (Imp β)) : Prop := ∀ k ∈ K, k.reduced = ∅ ∨ ∃ b ∈ B, Sub k b

theorem Cov.trans {B B' K : List (Imp β)} (h : Cov B K) (h' : Cov B' B) : Cov B' K := by
  intro k hk
  rcases h k hk with h0 | ⟨b, hb, hs⟩
  · exact .inl h0
  · rcases h' b hb with h0 | ⟨b', hb', hs'⟩
    · left
      have := hs.2
      rw [h0] at this
      exact Finset.subset_empty.1 this
    · exact .inr ⟨b', hb', hs.trans hs'⟩

/-- Adding an implication that is not subsumed. -/
theorem AC.add {l : List (Imp β)} {imp : Imp β} (h : AC l) (hn : ∀ i ∈ l, ¬ Sub imp i) :
    AC (l.filter (fun x => decide (¬ Sub x imp)) ++ [imp]) := by
  constructor
  · rw [List.nodup_append]
    refine ⟨h.1.filter _, by simp, ?_⟩
    intro a ha b hb
    rw [List.mem_singleton] at hb; subst hb
    rintro rfl
    exact hn a (List.mem_filter.1 ha).1 (Sub.refl _)
  · intro x hx y hy hs
    simp only [List.mem_append, List.mem_filter, decide_not, Bool.not_eq_true', decide_eq_false_iff_not,
      List.mem_singleton] at hx hy
    rcases hx with hx | rfl <;> rcases hy with hy | rfl
    · exact h.2 x hx.1 y hy.1 hs
    · exact absurd hs hx.2
    · exact absurd hs (hn y hy.1)
    · rfl

theorem addSmartly_ok {imp : Imp β} {nv valid : List (Imp β)} (h : AC (valid ++ nv))
    (hv : ∀ i ∈ valid, ¬ Sub i imp ∨ Sub imp i) :
    ∃ nv', addSmartly imp nv valid = .ok nv' ∧ AC (valid ++ nv') ∧ (∀ x ∈ nv', x ∈ nv ∨ x = imp) ∧
      Cov (valid ++ nv') (imp :: valid ++ nv) := by
  unfold addSmartly
  rw [isNew_ok hv]
  have hkeep : Cov (valid ++ nv) (valid ++ nv) := fun k hk => .inr ⟨k, hk, Sub.refl _⟩
  simp only [bind, Except.bind]
  by_cases hn : imp.reduced ≠ ∅ ∧ ∀ i ∈ valid, ¬ Sub imp i
  · rw [removeSubsumedSimply_ok (h.sublist (by simp))]
    rw [if_neg hn.1, decide_eq_true hn]
    simp only [if_true]
    unfold absorbed
    by_cases hex : ∃ i ∈ nv, Sub imp i
    · rw [if_pos hex]
      refine ⟨nv, rfl, h, fun x hx => .inl hx, ?_⟩
      intro k hk
      rcases List.mem_cons.1 hk with rfl | hk
      · obtain ⟨i, hi, hs⟩ := hex
        exact .inr ⟨i, by simp [hi], hs⟩
      · exact hkeep k hk
    · rw [if_neg hex]
      push Not at hex
      refine ⟨_, rfl, ?_, ?_, ?_⟩
      · have hall : ∀ i ∈ valid ++ nv, ¬ Sub imp i := by
          intro i hi
          rcases List.mem_append.1 hi with hi | hi
          · exact hn.2 i hi
          · exact hex i hi
        have := AC.add h hall
        have hvf : valid.filter (fun x => decide (¬ Sub x imp)) = valid := by
          rw [List.filter_eq_self]
          intro x hx
          rcases hv x hx with h1 | h1
          · simpa using h1
          · exact absurd h1 (hn.2 x hx)
        rw [List.filter_append, hvf] at this
        simpa using this
      · intro x hx
        rcases List.mem_append.1 hx with hx | hx
        · exact .inl (List.mem_filter.1 hx).1
        · exact .inr (by simpa using hx)
      · intro k hk
        by_cases hs : Sub k imp
        · exact .inr ⟨imp, by simp, hs⟩
        · rcases List.mem_cons.1 hk with rfl | hk
          · exact absurd (Sub.refl _) hs
          · refine .inr ⟨k, ?_, Sub.refl _⟩
            rcases List.mem_append.1 hk with hk | hk
            · simp [hk]
            · simp [hk, hs]
  · simp only [hn, decide_false, Bool.false_eq_true, if_false]
    refine ⟨nv, rfl, h, fun x hx => .inl hx, ?_⟩
    intro k hk
    rcases List.mem_cons.1 hk with rfl | hk
    · by_cases h0 : k.reduced = ∅
      · exact .inl h0
      · right
        push Not at hn
        obtain ⟨i, hi, hs⟩ := hn (by simpa [Finset.nonempty_iff_ne_empty] using h0)
        exact ⟨i, by simp [hi], hs⟩
    · exact hkeep k hk

/-- The implication for objects that have the premise and keep what the intent has. -/
def shrunk (intent : Finset β) (i : Imp β) : Imp β := ⟨i.premise, i.reduced ∩ intent⟩

/-- The implication with an extra attribute in the premise. -/
def grown (i : Imp β) (a : β) : Imp β := ⟨i.premise ∪ {a}, i.reduced ∪ {a}⟩

theorem loop1_ok {intent : Finset β} {valid : List (Imp β)} (inv : List (Imp β)) (nv : List (Imp β))
    (h : AC (valid ++ nv)) (hv : ∀ j ∈ inv, ∀ i ∈ valid, ¬ Sub i (shrunk intent j) ∨ Sub (shrunk intent j) i) :
    ∃ nv', loop1 intent valid inv nv = .ok nv' ∧ AC (valid ++ nv') ∧
      (∀ x ∈ nv', x ∈ nv ∨ ∃ j ∈ inv, x = shrunk intent j) ∧
      Cov (valid ++ nv') (inv.map (shrunk intent) ++ valid ++ nv) := by
  induction inv generalizing nv with
  | nil => exact ⟨nv, rfl, h, fun x hx => .inl hx, fun k hk => .inr ⟨k, by simpa using hk, Sub.refl _⟩⟩
  | cons j inv ih =>
    obtain ⟨nv1, e1, e2, e3, e4⟩ := addSmartly_ok h (hv j (by simp))
    obtain ⟨nv2, f1, f2, f3, f4⟩ := ih nv1 e2 (fun k hk => hv k (by simp [hk]))
    refine ⟨nv2, ?_, f2, ?_, ?_⟩
    · unfold loop1
      change (addSmartly (shrunk intent j) nv valid >>= _) = _
      rw [e1]; exact f1
    · intro x hx
      rcases f3 x hx with hx | ⟨k, hk, rfl⟩
      · rcases e3 x hx with hx | rfl
        · exact .inl hx
        · exact .inr ⟨j, by simp, rfl⟩
      · exact .inr ⟨k, by simp [hk], rfl⟩
    · have f4' : Cov (valid ++ nv2) (valid ++ nv1) := fun k hk => f4 k (by simp at hk ⊢; tauto)
      intro k hk
      simp only [List.map_cons, List.cons_append, List.mem_cons, List.mem_append] at hk
      rcases hk with rfl | (hk | hk) | hk
      · exact (e4.trans f4') _ (by simp)
      · exact f4 k (by simp [hk])
      · exact f4 k (by simp [hk])
      · exact (e4.trans f4') k (by simp [hk])

theorem step2_def (j : Imp β) (a : β) (v nv : List (Imp β)) : step2 j a (v, nv) = (do
    let r ← removeSubsumed (grown j a) v
    if r.1 then
      let q ← removeSubsumedPlus (grown j a) nv
      if q.1 then .ok (r.2, q.2 ++ [grown j a]) else .ok (r.2, q.2)
    else .ok (r.2, nv)) := rfl

theorem step2_ok {j : Imp β} {a : β} {v nv : List (Imp β)} (h : AC (v ++ nv))
    (heq : ∀ i ∈ v, i.premise = (grown j a).premise → (grown j a).reduced ⊆ i.reduced)
    (hne : ∀ i ∈ nv, i.premise ≠ (grown j a).premise) :
    ∃ v' nv', step2 j a (v, nv) = .ok (v', nv') ∧ AC (v' ++ nv') ∧ (∀ x ∈ v', x ∈ v) ∧
      (∀ x ∈ nv', x ∈ nv ∨ x = grown j a) ∧ Cov (v' ++ nv') (grown j a :: v ++ nv) := by
  have hkeep : Cov (v ++ nv) (v ++ nv) := fun k hk => .inr ⟨k, hk, Sub.refl _⟩
  rw [step2_def, removeSubsumed_ok (h.sublist (by simp)) heq]
  simp only [bind, Except.bind]
  by_cases ht : (grown j a).reduced = ∅
  · simp only [ht, if_true]
    refine ⟨v, nv, rfl, h, fun x hx => hx, fun x hx => .inl hx, ?_⟩
    intro k hk
    rcases List.mem_cons.1 hk with rfl | hk
    · exact .inl ht
    · exact hkeep k hk
  · simp only [ht, if_false]
    unfold absorbed
    by_cases hex : ∃ i ∈ v, Sub (grown j a) i
    · simp only [hex, if_true, Bool.false_eq_true, if_false]
      refine ⟨v, nv, rfl, h, fun x hx => hx, fun x hx => .inl hx, ?_⟩
      intro k hk
      rcases List.mem_cons.1 hk with rfl | hk
      · obtain ⟨i, hi, hs⟩ := hex
        exact .inr ⟨i, by simp [hi], hs⟩
      · exact hkeep k hk
    · simp only [hex, if_false, if_true]
      push Not at hex
      rw [removeSubsumedPlus_ok (h.sublist (by simp)) hne, if_neg ht]
      unfold absorbed
      by_cases hex2 : ∃ i ∈ nv, Sub (grown j a) i
      · simp only [hex2, if_true, Bool.false_eq_true, if_false]
        refine ⟨_, _, rfl, ?_, fun x hx => (List.mem_filter.1 hx).1, fun x hx => .inl hx, ?_⟩
        · exact h.sublist (List.Sublist.append List.filter_sublist (List.Sublist.refl _))
        · obtain ⟨i, hi, his⟩ := hex2
          intro k hk
          by_cases hs : Sub k (grown j a)
          · exact .inr ⟨i, by simp [hi], hs.trans his⟩
          · rcases List.mem_cons.1 hk with rfl | hk
            · exact absurd (Sub.refl _) hs
            · refine .inr ⟨k, ?_, Sub.refl _⟩
              rcases List.mem_append.1 hk with hk | hk
              · simp [hk, hs]
              · simp [hk]
      · simp only [hex2, if_false, if_true]
        push Not at hex2
        refine ⟨_, _, rfl, ?_, fun x hx => (List.mem_filter.1 hx).1, ?_, ?_⟩
        · have := AC.add (imp := grown j a) h (by
            intro i hi
            rcases List.mem_append.1 hi with hi | hi
            · exact hex i hi
            · exact hex2 i hi)
          rw [List.filter_append, List.append_assoc] at this
          exact this
        · intro x hx
          rcases List.mem_append.1 hx with hx | hx
          · exact .inl (List.mem_filter.1 hx).1
          · exact .inr (List.mem_singleton.1 hx)
        · intro k hk
          by_cases hs : Sub k (grown j a)
          · exact .inr ⟨grown j a, by simp [grown], hs⟩
          · rcases List.mem_cons.1 hk with rfl | hk
            · exact absurd (Sub.refl _) hs
            · refine .inr ⟨k, ?_, Sub.refl _⟩
              rcases List.mem_append.1 hk with hk | hk
              · simp [hk, hs]
              · simp [hk, hs]

/-- `step2` over a list of pairs. -/
def loopP : List (Imp β × β) → List (Imp β) × List (Imp β) → Py (List (Imp β) × List (Imp β))
  | [], st => .ok st
  | p :: rest, st => do
    let st' ← step2 p.1 p.2 st
    loopP rest st'

theorem loopP_append (l l' : List (Imp β × β)) (st) : loopP (l ++ l') st = (do
    let st' ← loopP l st
    loopP l' st') := by
  induction l generalizing st with
  | nil => rfl
  | cons p l ih =>
    rw [List.cons_append]
    simp only [loopP]
    cases h : step2 p.1 p.2 st with
    | error e => rfl
    | ok st' => exact ih st'

theorem loop2a_eq (j : Imp β) (as : List β) (st) : loop2a j as st = loopP (as.map fun a => (j, a)) st := by
  induction as generalizing st with
  | nil => rfl
  | cons a as ih =>
    rw [List.map_cons]
    unfold loop2a loopP
    cases h : step2 j a st with
    | error e => rfl
    | ok st' => exact ih st'

theorem loop2_eq (as : List β) (inv : List (Imp β)) (st) :
    loop2 as inv st = loopP (inv.flatMap fun j => as.map fun a => (j, a)) st := by
  induction inv generalizing st with
  | nil => rfl
  | cons j inv ih =>
    rw [List.flatMap_cons, loopP_append, ← loop2a_eq]
    unfold loop2
    cases h : loop2a j as st with
    | error e => rfl
    | ok st' => exact ih st'

theorem loopP_ok (ps : List (Imp β × β)) (v nv : List (Imp β)) (h : AC (v ++ nv))
    (heq : ∀ p ∈ ps, ∀ i ∈ v, i.premise = (grown p.1 p.2).premise → (grown p.1 p.2).reduced ⊆ i.reduced)
    (hne : ∀ p ∈ ps, ∀ i ∈ nv, i.premise ≠ (grown p.1 p.2).premise)
    (hps : ps.Pairwise fun p q => (grown p.1 p.2).premise ≠ (grown q.1 q.2).premise) :
    ∃ v' nv', loopP ps (v, nv) = .ok (v', nv') ∧ AC (v' ++ nv') ∧ (∀ x ∈ v', x ∈ v) ∧
      (∀ x ∈ nv', x ∈ nv ∨ ∃ p ∈ ps, x = grown p.1 p.2) ∧
      Cov (v' ++ nv') (ps.map (fun p => grown p.1 p.2) ++ v ++ nv) := by
  induction ps generalizing v nv with
  | nil =>
    exact ⟨v, nv, rfl, h, fun x hx => hx, fun x hx => .inl hx,
      fun k hk => .inr ⟨k, by simpa using hk, Sub.refl _⟩⟩
  | cons p ps ih =>
    obtain ⟨v1, n1, e1, e2, e3, e4, e5⟩ := step2_ok h (heq p (by simp)) (hne p (by simp))
    rw [List.pairwise_cons] at hps
    obtain ⟨v2, n2, f1, f2, f3, f4, f5⟩ := ih v1 n1 e2
      (fun q hq i hi => heq q (by simp [hq]) i (e3 i hi))
      (fun q hq i hi => by
        rcases e4 i hi with hi | rfl
        · exact hne q (by simp [hq]) i hi
        · exact hps.1 q hq) hps.2
    refine ⟨v2, n2, ?_, f2, fun x hx => e3 x (f3 x hx), ?_, ?_⟩
    · unfold loopP; rw [e1]; exact f1
    · intro x hx
      rcases f4 x hx with hx | ⟨q, hq, rfl⟩
      · rcases e4 x hx with hx | rfl
        · exact .inl hx
        · exact .inr ⟨p, by simp, rfl⟩
      · exact .inr ⟨q, by simp [hq], rfl⟩
    · have f5' : Cov (v2 ++ n2) (v1 ++ n1) := fun k hk => f5 k (by simp at hk ⊢; tauto)
      intro k hk
      simp only [List.map_cons, List.cons_append, List.mem_cons, List.mem_append] at hk
      rcases hk with rfl | (hk | hk) | hk
      · exact (e5.trans f5') _ (by simp)
      · exact f5 k (by simp only [List.mem_append]; exact .inl (.inl hk))
      · exact (e5.trans f5') k (by simp [hk])
      · exact (e5.trans f5') k (by simp [hk])

/-! ### Meaning -/

/-- The least set containing `s` that is an intersection of sets from `es` (within `M`). -/
def clE (M : Finset β) (es : List (Finset β)) (s : Finset β) : Finset β :=
  M.filter fun m => ∀ e ∈ es, s ⊆ e → m ∈ e

theorem mem_clE {M : Finset β} {es : List (Finset β)} {s : Finset β} {m : β} :
    m ∈ clE M es s ↔ m ∈ M ∧ ∀ e ∈ es, s ⊆ e → m ∈ e := by
  simp [clE]

theorem subset_clE {M : Finset β} {es : List (Finset β)} {s : Finset β} (hs : s ⊆ M) : s ⊆ clE M es s :=
  fun _ hm => mem_clE.2 ⟨hs hm, fun _ _ h => h hm⟩

/-- The invariant of the cover after the examples `es`: no subsumed implications, all hold in the examples,
and the closure of every set is reached by one of them. -/
structure Inv (M : Finset β) (es : List (Finset β)) (B : List (Imp β)) : Prop where
  ac : AC B
  prem : ∀ b ∈ B, b.premise ⊆ M
  conc : ∀ b ∈ B, b.conclusion ⊆ M
  sound : ∀ b ∈ B, ∀ e ∈ es, b.premise ⊆ e → b.reduced ⊆ e
  star : ∀ S, S ⊆ M → clE M es S ≠ S → ∃ b ∈ B, b.premise ⊆ S ∧ clE M es S ⊆ S ∪ b.reduced

theorem Inv.reduced_cl {M : Finset β} {es : List (Finset β)} {B : List (Imp β)} (h : Inv M es B) {b : Imp β}
    (hb : b ∈ B) {S : Finset β} (hS : b.premise ⊆ S) : b.reduced ⊆ clE M es S := by
  intro m hm
  refine mem_clE.2 ⟨h.conc b hb (Finset.mem_sdiff.1 hm).1, fun e he hse => ?_⟩
  exact h.sound b hb e he (hS.trans hse) hm

/-- The implication that yields the closure of its premise contains all others on that premise. -/
theorem Inv.same {M : Finset β} {es : List (Finset β)} {B : List (Imp β)} (h : Inv M es B) {i j : Imp β}
    (hi : i ∈ B) (hj : j ∈ B) (hp : j.premise ⊆ i.premise) : j.reduced \ i.premise ⊆ i.reduced := by
  by_cases hcl : clE M es i.premise = i.premise
  · intro x hx
    rw [Finset.mem_sdiff] at hx
    have := h.reduced_cl hj hp hx.1
    rw [hcl] at this
    exact absurd this hx.2
  · obtain ⟨b, hb, hbp, hbc⟩ := h.star _ (h.prem i hi) hcl
    have hib : Sub i b := by
      refine ⟨hbp, fun x hx => ?_⟩
      have := hbc (h.reduced_cl hi (subset_refl _) hx)
      rcases Finset.mem_union.1 this with h1 | h1
      · exact absurd h1 (reduced_disj i hx)
      · exact h1
    have := h.ac.2 i hi b hb hib
    subst this
    intro x hx
    rw [Finset.mem_sdiff] at hx
    have := hbc (h.reduced_cl hj hp hx.1)
    rcases Finset.mem_union.1 this with h1 | h1
    · exact absurd h1 hx.2
    · exact h1

theorem Inv.premise_inj {M : Finset β} {es : List (Finset β)} {B : List (Imp β)} (h : Inv M es B) {i j : Imp β}
    (hi : i ∈ B) (hj : j ∈ B) (hp : i.premise = j.premise) : i = j := by
  refine h.ac.2 i hi j hj ⟨by rw [hp], fun x hx => ?_⟩
  exact h.same hj hi (by rw [hp]) (Finset.mem_sdiff.2 ⟨hx, hp ▸ reduced_disj i hx⟩)

theorem shrunk_reduced (I : Finset β) (j : Imp β) : (shrunk I j).reduced = j.reduced ∩ I := by
  ext x
  simp only [shrunk, Imp.reduced, Finset.mem_sdiff, Finset.mem_inter]
  tauto

theorem mem_grown_reduced {j : Imp β} {a x : β} : x ∈ (grown j a).reduced ↔ x ∈ j.reduced ∧ x ≠ a := by
  simp only [grown, Imp.reduced, Finset.mem_sdiff, Finset.mem_union, Finset.mem_singleton]
  tauto

theorem isValid_iff {I : Finset β} {i : Imp β} :
    isValid I i = true ↔ (i.premise ⊆ I → i.reduced ⊆ I) := by
  simp only [isValid, Bool.or_eq_true, Bool.not_eq_true', decide_eq_false_iff_not, decide_eq_true_eq]
  tauto

theorem not_isValid_iff {I : Finset β} {i : Imp β} :
    isValid I i = false ↔ i.premise ⊆ I ∧ ¬ i.reduced ⊆ I := by
  rw [← Bool.not_eq_true, isValid_iff]; tauto

theorem updatedBasis_ok {M : Finset β} {es : List (Finset β)} {B : List (Imp β)} (h : Inv M es B)
    (ord : SetOrder β) {I : Finset β} (hI : I ⊆ M) :
    ∃ B', updatedBasis ord I B M = .ok B' ∧ Inv M (es ++ [I]) B' := by
  set valid := B.filter fun i => isValid I i with hvalid
  set inv := B.filter fun i => !(isValid I i) with hinv
  have memV : ∀ x, x ∈ valid ↔ x ∈ B ∧ (x.premise ⊆ I → x.reduced ⊆ I) := by
    intro x; rw [hvalid, List.mem_filter, isValid_iff]
  have memI : ∀ x, x ∈ inv ↔ x ∈ B ∧ x.premise ⊆ I ∧ ¬ x.reduced ⊆ I := by
    intro x; rw [hinv, List.mem_filter, Bool.not_eq_true', not_isValid_iff]
  have hacv : AC valid := h.ac.sublist List.filter_sublist
  obtain ⟨nv, n1, n2, n3, n4⟩ := loop1_ok (intent := I) (valid := valid) inv [] (by simpa using hacv) (by
    intro j hj i hi
    left
    intro hs
    have hj' := (memI j).1 hj
    have hi' := (memV i).1 hi
    have : Sub i j := ⟨hs.1, hs.2.trans (by rw [shrunk_reduced]; exact Finset.inter_subset_left)⟩
    have := h.ac.2 i hi'.1 j hj'.1 this
    subst this
    exact hj'.2.2 (hi'.2 hj'.2.1))
  set ps := inv.flatMap fun j => (ord.enum (M \ I)).map fun a => (j, a) with hps
  have memP : ∀ p, p ∈ ps ↔ p.1 ∈ inv ∧ p.2 ∈ M ∧ p.2 ∉ I := by
    rintro ⟨j, a⟩
    rw [hps, List.mem_flatMap]
    simp only [List.mem_map, ord.mem, Finset.mem_sdiff, Prod.mk.injEq]
    constructor
    · rintro ⟨k, hk, b, hb, rfl, rfl⟩; exact ⟨hk, hb⟩
    · rintro ⟨hk, hb⟩; exact ⟨j, hk, a, hb, rfl, rfl⟩
  have grownprem : ∀ p ∈ ps, ∀ q ∈ ps, (grown p.1 p.2).premise = (grown q.1 q.2).premise → p = q := by
    rintro ⟨j, a⟩ hp ⟨k, b⟩ hq he
    rw [memP] at hp hq
    have hj := (memI j).1 hp.1
    have hk := (memI k).1 hq.1
    have hab : a = b := by
      have : a ∈ k.premise ∪ {b} := by
        have : a ∈ j.premise ∪ {a} := by simp
        have he' : j.premise ∪ {a} = k.premise ∪ {b} := he
        rwa [he'] at this
      rcases Finset.mem_union.1 this with h1 | h1
      · exact absurd (hk.2.1 h1) hp.2.2
      · exact Finset.mem_singleton.1 h1
    subst hab
    have hpe : j.premise = k.premise := by
      have he' : j.premise ∪ {a} = k.premise ∪ {a} := he
      ext x
      have hx := Finset.ext_iff.1 he' x
      simp only [Finset.mem_union, Finset.mem_singleton] at hx
      by_cases hxa : x = a
      · subst hxa
        exact ⟨fun h1 => absurd (hj.2.1 h1) hp.2.2, fun h1 => absurd (hk.2.1 h1) hp.2.2⟩
      · simpa [hxa] using hx
    rw [h.premise_inj hj.1 hk.1 hpe]
  have psnodup : ps.Nodup := by
    rw [hps, List.nodup_flatMap]
    refine ⟨fun j _ => (ord.nodup _).map fun a b hab => (Prod.mk.inj hab).2, ?_⟩
    have : inv.Nodup := h.ac.1.filter _
    refine List.Pairwise.imp ?_ this
    intro j k hjk
    simp only [Function.onFun, List.disjoint_left, List.mem_map]
    rintro x ⟨a, -, rfl⟩ ⟨b, -, hb⟩
    exact hjk (Prod.mk.inj hb).1.symm
  obtain ⟨v', nv', e1, e2, e3, e4, e5⟩ := loopP_ok ps (valid ++ nv) [] (by simpa using n2) (by
      intro p hp i hi he
      rw [memP] at hp
      have hp' := (memI p.1).1 hp.1
      have ha : p.2 ∈ i.premise := by rw [he]; simp [grown]
      rcases List.mem_append.1 hi with hi | hi
      · have hi' := (memV i).1 hi
        have := h.same hi'.1 hp'.1 (by rw [he]; simp [grown])
        intro x hx
        have hx' := hx
        rw [mem_grown_reduced] at hx
        exact this (Finset.mem_sdiff.2 ⟨hx.1, by rw [he]; exact reduced_disj _ hx'⟩)
      · rcases n3 i hi with hi | ⟨k, hk, rfl⟩
        · simp at hi
        · exact absurd (((memI k).1 hk).2.1 ha) hp.2.2) (by simp)
      (psnodup.imp_of_mem fun {p q} hp hq hpq he => hpq (grownprem p hp q hq he))
  refine ⟨v' ++ nv', ?_, ?_⟩
  · unfold updatedBasis
    simp only [← hvalid, ← hinv]
    rw [n1]
    simp only [bind, Except.bind]
    rw [loop2_eq, ← hps, e1]
  -- every implication of the result is one of the three kinds
  have kinds : ∀ x ∈ v' ++ nv', x ∈ valid ∨ (∃ j ∈ inv, x = shrunk I j) ∨ ∃ p ∈ ps, x = grown p.1 p.2 := by
    intro x hx
    rcases List.mem_append.1 hx with hx | hx
    · rcases List.mem_append.1 (e3 x hx) with hx | hx
      · exact .inl hx
      · rcases n3 x hx with hx | hx
        · simp at hx
        · exact .inr (.inl hx)
    · rcases e4 x hx with hx | hx
      · simp at hx
      · exact .inr (.inr hx)
  have covV : ∀ x, x ∈ valid ∨ (∃ j ∈ inv, x = shrunk I j) ∨ (∃ p ∈ ps, x = grown p.1 p.2) →
      x.reduced = ∅ ∨ ∃ b ∈ v' ++ nv', Sub x b := by
    have e5' : Cov (v' ++ nv') (valid ++ nv) := fun k hk => e5 k (by simp at hk ⊢; tauto)
    rintro x (hx | ⟨j, hj, rfl⟩ | ⟨p, hp, rfl⟩)
    · exact (n4.trans e5') x (by simp [hx])
    · exact (n4.trans e5') _ (by simp only [List.mem_append, List.mem_map]; exact .inl (.inl ⟨j, hj, rfl⟩))
    · exact e5 _ (by simp only [List.mem_append, List.mem_map]; exact .inl (.inl ⟨p, hp, rfl⟩))
  constructor
  · exact e2
  · intro b hb
    rcases kinds b hb with hb | ⟨j, hj, rfl⟩ | ⟨p, hp, rfl⟩
    · exact h.prem b ((memV b).1 hb).1
    · exact h.prem j ((memI j).1 hj).1
    · rw [memP] at hp
      exact Finset.union_subset (h.prem _ ((memI _).1 hp.1).1) (by simpa using hp.2.1)
  · intro b hb
    rcases kinds b hb with hb | ⟨j, hj, rfl⟩ | ⟨p, hp, rfl⟩
    · exact h.conc b ((memV b).1 hb).1
    · exact (Finset.inter_subset_left.trans Finset.sdiff_subset).trans (h.conc j ((memI j).1 hj).1)
    · rw [memP] at hp
      exact Finset.union_subset (Finset.sdiff_subset.trans (h.conc _ ((memI _).1 hp.1).1))
        (by simpa using hp.2.1)
  · intro b hb e he hpe
    rw [List.mem_append, List.mem_singleton] at he
    rcases kinds b hb with hb | ⟨j, hj, rfl⟩ | ⟨p, hp, rfl⟩
    · have := (memV b).1 hb
      rcases he with he | rfl
      · exact h.sound b this.1 e he hpe
      · exact this.2 hpe
    · rw [shrunk_reduced]
      rcases he with he | rfl
      · exact Finset.inter_subset_left.trans (h.sound j ((memI j).1 hj).1 e he hpe)
      · exact Finset.inter_subset_right
    · rw [memP] at hp
      have ha : p.2 ∈ e := hpe (by simp [grown])
      rcases he with he | rfl
      · intro x hx
        rw [mem_grown_reduced] at hx
        exact h.sound p.1 ((memI _).1 hp.1).1 e he (fun y hy => hpe (by simp [grown, hy])) hx.1
      · exact absurd ha hp.2.2
  · -- closures in one step
    intro S hS hcl
    have key : ∃ x, (x ∈ valid ∨ (∃ j ∈ inv, x = shrunk I j) ∨ (∃ p ∈ ps, x = grown p.1 p.2)) ∧
        x.premise ⊆ S ∧ clE M (es ++ [I]) S ⊆ S ∪ x.reduced := by
      have hsub : clE M (es ++ [I]) S ⊆ clE M es S := by
        intro m hm
        rw [mem_clE] at hm ⊢
        exact ⟨hm.1, fun e he => hm.2 e (by simp [he])⟩
      have hold : clE M es S ≠ S := by
        intro he
        exact hcl (Finset.Subset.antisymm (hsub.trans (Finset.subset_of_eq he)) (subset_clE hS))
      obtain ⟨b, hb, hbS, hbc⟩ := h.star S hS hold
      by_cases hv : b ∈ valid
      · exact ⟨b, .inl hv, hbS, hsub.trans hbc⟩
      · have hbi : b ∈ inv := by
          rw [memI]
          rw [memV] at hv
          exact ⟨hb, by tauto⟩
        by_cases hSI : S ⊆ I
        · refine ⟨shrunk I b, .inr (.inl ⟨b, hbi, rfl⟩), hbS, fun m hm => ?_⟩
          have h1 := hbc (hsub hm)
          rw [shrunk_reduced]
          have h2 : m ∈ I := (mem_clE.1 hm).2 I (by simp) hSI
          rcases Finset.mem_union.1 h1 with h1 | h1
          · exact Finset.mem_union_left _ h1
          · exact Finset.mem_union_right _ (Finset.mem_inter.2 ⟨h1, h2⟩)
        · obtain ⟨a, haS, haI⟩ := Finset.not_subset.1 hSI
          refine ⟨grown b a, .inr (.inr ⟨(b, a), (memP _).2 ⟨hbi, hS haS, haI⟩, rfl⟩), ?_, fun m hm => ?_⟩
          · exact Finset.union_subset hbS (by simpa using haS)
          · rcases Finset.mem_union.1 (hbc (hsub hm)) with h1 | h1
            · exact Finset.mem_union_left _ h1
            · by_cases hma : m = a
              · exact Finset.mem_union_left _ (hma ▸ haS)
              · exact Finset.mem_union_right _ (mem_grown_reduced.2 ⟨h1, hma⟩)
    obtain ⟨x, hx, hxp, hxc⟩ := key
    rcases covV x hx with h0 | ⟨b, hb, hs⟩
    · rw [h0, Finset.union_empty] at hxc
      exact absurd (Finset.Subset.antisymm hxc (subset_clE hS)) hcl
    · exact ⟨b, hb, hs.1.trans hxp, hxc.trans (Finset.union_subset_union (subset_refl _) hs.2)⟩

theorem coverLoop_ok {M : Finset β} (ord : ℕ → SetOrder β) (rest : List (Finset β)) :
    ∀ (k : ℕ) (es : List (Finset β)) (B : List (Imp β)), Inv M es B → (∀ e ∈ rest, e ⊆ M) →
    ∃ B', coverLoop ord M k rest B = .ok B' ∧ Inv M (es ++ rest) B' := by
  induction rest with
  | nil => intro k es B h _; exact ⟨B, rfl, by simpa using h⟩
  | cons I rest ih =>
    intro k es B h hM
    obtain ⟨B1, e1, h1⟩ := updatedBasis_ok h (ord k) (hM I (by simp))
    obtain ⟨B2, e2, h2⟩ := ih (k + 1) (es ++ [I]) B1 h1 (fun e he => hM e (by simp [he]))
    refine ⟨B2, ?_, by simpa using h2⟩
    unfold coverLoop
    rw [e1]; exact e2

theorem inv_start (M : Finset β) : Inv M [] [(⟨∅, M⟩ : Imp β)] := by
  constructor
  · exact ⟨by simp, by simp⟩
  · simp
  · simp
  · simp
  · intro S _ _
    refine ⟨⟨∅, M⟩, by simp, by simp, fun m hm => ?_⟩
    simp only [Imp.reduced, Finset.sdiff_empty]
    exact Finset.mem_union_right _ (mem_clE.1 hm).1

/-! ### minimize -/

open Spec in
/-- The loop of `minimize`: `todo` has not been visited, `done` is the rest of `cover`. -/
theorem minimizeLoop_ok (todo done : List (Imp β))
    (hn : ∀ l1 d l2, done = l1 ++ d :: l2 → ¬ Entails (specImps (todo ++ (l1 ++ l2))) d.premise d.conclusion) :
    ∃ res, minimizeLoop todo (todo ++ done) = .ok res ∧
      (∀ S, Closed (specImps res) S ↔ Closed (specImps (todo ++ done)) S) ∧
      (∀ l1 d l2, res = l1 ++ d :: l2 → ¬ Entails (specImps (l1 ++ l2)) d.premise d.conclusion) ∧
      res.length ≤ todo.length + done.length := by
  induction todo generalizing done with
  | nil => exact ⟨done, rfl, fun S => Iff.rfl, by simpa using hn, by simp⟩
  | cons imp todo ih =>
    have hrem : remove imp (imp :: todo ++ done) = .ok (todo ++ done) := by
      have hself : imp.pyEq imp = true := by simp [Imp.pyEq]
      unfold remove
      rw [if_pos (by simp [hself])]
      simp [hself]
    obtain ⟨c1, c2, c3⟩ := simpleClosure_isLeast imp.premise (todo ++ done)
    set P := simpleClosure imp.premise (todo ++ done) with hP
    have mono : ∀ {L L' : List (Imp β)} {A C : Finset β},
        (∀ S, Closed (specImps L') S → Closed (specImps L) S) →
        ¬ Entails (specImps L') A C → ¬ Entails (specImps L) A C :=
      fun hLL hne he => hne fun S hS => he S (hLL S hS)
    unfold minimizeLoop
    rw [hrem]
    simp only [bind, Except.bind, ← hP]
    by_cases ht : (⟨P, imp.conclusion⟩ : Imp β).reduced ⊆ P
    · rw [if_pos ht]
      have hCP : imp.conclusion ⊆ P := by
        rw [trivial_iff ⟨P, imp.conclusion⟩] at ht
        exact Finset.sdiff_eq_empty_iff_subset.1 ht
      obtain ⟨res, r1, r2, r3, r4⟩ := ih done (by
        intro l1 d l2 he
        refine mono ?_ (hn l1 d l2 he)
        intro S hS
        rw [closed_specImps] at hS ⊢
        exact fun i hi => hS i (by simp at hi ⊢; tauto))
      refine ⟨res, r1, fun S => ?_, r3, by simp only [List.length_cons]; omega⟩
      rw [r2, closed_specImps, closed_specImps]
      constructor
      · intro hS i hi
        rw [List.cons_append, List.mem_cons] at hi
        rcases hi with rfl | hi
        · intro hp
          exact hCP.trans (c3 S hp ((closed_specImps _ _).2 hS))
        · exact hS i hi
      · exact fun hS i hi => hS i (by rw [List.cons_append, List.mem_cons]; exact .inr hi)
    · rw [if_neg ht]
      have hCP : ¬ imp.conclusion ⊆ P := fun hc => ht (Finset.sdiff_subset.trans hc)
      obtain ⟨res, r1, r2, r3, r4⟩ := ih (done ++ [⟨P, imp.conclusion⟩]) (by
        intro l1 d l2 he
        rcases List.append_eq_append_iff.1 he with ⟨l3, h1, h2⟩ | ⟨l3, h1, h2⟩
        · -- `d` is the last one
          cases l3 with
          | nil =>
            simp only [List.nil_append, List.cons.injEq, List.append_nil] at h1 h2
            subst h1
            obtain ⟨rfl, rfl⟩ := h2
            simp only [List.append_nil]
            intro hent
            exact hCP (hent P c2 (subset_refl _))
          | cons x l3 =>
            simp only [List.cons_append, List.cons.injEq] at h2
            have := congrArg List.length h2.2
            simp at this
        · cases l3 with
          | nil =>
            simp only [List.append_nil, List.nil_append, List.cons.injEq] at h1 h2
            subst h1
            obtain ⟨rfl, rfl⟩ := h2
            simp only [List.append_nil]
            intro hent
            exact hCP (hent P c2 (subset_refl _))
          | cons x l3 =>
            rw [List.cons_append, List.cons.injEq] at h2
            obtain ⟨rfl, rfl⟩ := h2
            refine mono ?_ (hn l1 d l3 h1)
            intro S hS
            rw [closed_specImps] at hS ⊢
            intro i hi
            simp only [List.mem_append, List.mem_singleton] at hi
            by_cases hin : i = ⟨P, imp.conclusion⟩
            · subst hin
              exact fun hp => hS imp (by simp) (c1.trans hp)
            · exact hS i (by simp; tauto))
      rw [← List.append_assoc] at r1 r2
      rw [List.length_append, List.length_singleton] at r4
      refine ⟨res, r1, fun S => ?_, r3, by rw [List.length_cons]; omega⟩
      rw [r2, closed_specImps, closed_specImps]
      constructor
      · intro hS i hi
        rw [List.cons_append, List.mem_cons] at hi
        rcases hi with rfl | hi
        · intro hp
          exact hS ⟨P, i.conclusion⟩ (by simp)
            (c3 S hp ((closed_specImps _ _).2 fun j hj => hS j (List.mem_append_left _ hj)))
        · exact hS i (List.mem_append_left _ hi)
      · intro hS i hi
        rw [List.mem_append, List.mem_singleton] at hi
        rcases hi with hi | rfl
        · exact hS i (by rw [List.cons_append, List.mem_cons]; exact .inr hi)
        · exact fun hp => hS imp (by simp) (c1.trans hp)

end Cover
