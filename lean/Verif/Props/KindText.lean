/-
Property C178: `str2imp` and the text form on the classes `Implication`, `UnitImplication` and `NegativeImplication`.
-/
import Verif.Model.KindText
import Verif.Props.ImpText
import Verif.Props.ImpKinds

set_option linter.unusedSectionVars false

open Ctx

/-! ### Texts with no, one, or several arrows -/

namespace Spec

/-- The text is `p=>c`, with no other arrow. -/
def OneArrow (s p c : List Char) : Prop :=
  s = p ++ '=' :: '>' :: c ∧ ¬ ['=', '>'] <:+: p ∧ ¬ ['=', '>'] <:+: c

/-- The names on one side of the arrow: the parts between the commas without the blanks around them. -/
def SideNames (ws : Char → Bool) (p : List Char) : Finset (List Char) :=
  ((p.splitOn ',').map (strip ws)).toFinset

end Spec

theorem arrow_first (s : List Char) : ¬ ['=', '>'] <:+: s ∨
    ∃ p r, s = p ++ '=' :: '>' :: r ∧ ¬ ['=', '>'] <:+: p := by
  induction s with
  | nil => left; simp [List.infix_nil]
  | cons x s ih =>
    by_cases hx : ∃ r, x :: s = '=' :: '>' :: r
    · obtain ⟨r, hr⟩ := hx
      exact .inr ⟨[], r, hr, by simp [List.infix_nil]⟩
    · have hcons : ∀ l, l <+: s → ¬ ['=', '>'] <:+: l → ¬ ['=', '>'] <:+: x :: l := by
        rintro l ⟨t, ht⟩ hl ⟨a, b, he⟩
        cases a with
        | nil =>
          simp only [List.nil_append, List.cons_append, List.cons.injEq] at he
          obtain ⟨rfl, rfl⟩ := he
          exact hx ⟨b ++ t, by rw [← ht]; simp⟩
        | cons y a =>
          simp only [List.cons_append, List.cons.injEq] at he
          exact hl ⟨a, b, he.2⟩
      rcases ih with h | ⟨p, r, rfl, hp⟩
      · exact .inl (hcons s (List.prefix_refl s) h)
      · exact .inr ⟨x :: p, r, rfl, hcons p (List.prefix_append _ _) hp⟩

theorem splitArrow_two {s p c : List Char} (h : Spec.OneArrow s p c) : splitArrow s = [p, c] := by
  obtain ⟨rfl, hp, hc⟩ := h
  rw [splitArrow_append hp, splitArrow_of_noArrow hc]

/-- `split` gives two parts exactly if the text has one arrow. -/
theorem splitArrow_eq_two {s p c : List Char} : splitArrow s = [p, c] ↔ Spec.OneArrow s p c := by
  refine ⟨fun h => ?_, splitArrow_two⟩
  rcases arrow_first s with hs | ⟨p', r, rfl, hp⟩
  · rw [splitArrow_of_noArrow hs] at h
    simp at h
  · rw [splitArrow_append hp] at h
    rcases arrow_first r with hr | ⟨q, t, rfl, hq⟩
    · rw [splitArrow_of_noArrow hr] at h
      simp only [List.cons.injEq, and_true] at h
      obtain ⟨rfl, rfl⟩ := h
      exact ⟨rfl, hp, hr⟩
    · rw [splitArrow_append hq] at h
      simp only [List.cons.injEq] at h
      exact absurd h.2.2 (splitArrow_ne_nil t)

/-! ### Blanks -/

theorem dropWhile_head_not {ws : Char → Bool} (s : List Char) : ∀ x ∈ (s.dropWhile ws).head?, ws x = false := by
  induction s with
  | nil => simp
  | cons y s ih =>
    by_cases hy : ws y
    · simpa [List.dropWhile_cons, hy] using ih
    · simp [hy]

theorem strip_eq_self {ws : Char → Bool} {s : List Char} (h1 : ∀ x ∈ s.head?, ws x = false)
    (h2 : ∀ x ∈ s.getLast?, ws x = false) : strip ws s = s := by
  have h : ∀ l : List Char, (∀ x ∈ l.head?, ws x = false) → l.dropWhile ws = l := by
    intro l hl
    cases l with
    | nil => rfl
    | cons y l => simp [hl y (by simp)]
  unfold strip
  rw [h s h1, h s.reverse (by simpa using h2), List.reverse_reverse]

theorem strip_ends {ws : Char → Bool} (s : List Char) :
    (∀ x ∈ (strip ws s).head?, ws x = false) ∧ ∀ x ∈ (strip ws s).getLast?, ws x = false := by
  refine ⟨fun x hx => ?_, fun x hx => ?_⟩
  · -- a prefix of what is left after removing blanks in front
    have hp : strip ws s <+: s.dropWhile ws := by
      have h := List.dropWhile_suffix (l := (s.dropWhile ws).reverse) ws
      rw [← List.reverse_prefix] at h
      simpa [strip] using h
    obtain ⟨t, ht⟩ := hp
    apply dropWhile_head_not s x
    rw [← ht]
    cases hc : strip ws s with
    | nil => rw [hc] at hx; simp at hx
    | cons y l => rw [hc] at hx; simpa using hx
  · apply dropWhile_head_not (s.dropWhile ws).reverse x
    simpa [strip] using hx

theorem strip_idem (ws : Char → Bool) (s : List Char) : strip ws (strip ws s) = strip ws s :=
  strip_eq_self (strip_ends s).1 (strip_ends s).2

theorem strip_infix (ws : Char → Bool) (s : List Char) : strip ws s <:+: s := by
  have hp : strip ws s <+: s.dropWhile ws := by
    have h := List.dropWhile_suffix (l := (s.dropWhile ws).reverse) ws
    rw [← List.reverse_prefix] at h
    simpa [strip] using h
  exact hp.isInfix.trans (List.dropWhile_suffix ws).isInfix

theorem mem_splitC {c : Char} {l x : List Char} (h : x ∈ splitC c l) : c ∉ x ∧ x <:+: l := by
  induction l generalizing x with
  | nil =>
    simp only [splitC, List.mem_singleton] at h
    subst h
    exact ⟨by simp, List.infix_refl _⟩
  | cons y l ih =>
    -- the first part is a prefix
    have hpre : ∀ (l z zs), splitC c l = z :: zs → z <+: l := by
      intro l
      induction l with
      | nil => intro z zs h; simp only [splitC, List.cons.injEq] at h; rw [← h.1]
      | cons y l ih =>
        intro z zs h
        simp only [splitC] at h
        split at h
        · simp only [List.cons.injEq] at h
          rw [← h.1]; exact List.nil_prefix
        · split at h
          · next h0 => exact absurd h0 (splitC_ne_nil c l)
          · next z' zs' h0 =>
            simp only [List.cons.injEq] at h
            rw [← h.1]
            exact List.cons_prefix_cons.2 ⟨rfl, ih _ _ h0⟩
    simp only [splitC] at h
    split at h
    · rcases List.mem_cons.1 h with rfl | h
      · exact ⟨by simp, List.nil_infix⟩
      · exact ⟨(ih h).1, (ih h).2.trans (List.suffix_cons _ _).isInfix⟩
    · next hy =>
      split at h
      · next h0 => exact absurd h0 (splitC_ne_nil c l)
      · next z zs h0 =>
        rcases List.mem_cons.1 h with rfl | h
        · have hz := ih (x := z) (by rw [h0]; simp)
          refine ⟨?_, (List.cons_prefix_cons.2 ⟨rfl, hpre _ _ _ h0⟩).isInfix⟩
          simp only [List.mem_cons, not_or]
          exact ⟨fun he => hy he.symm, hz.1⟩
        · have hz := ih (x := x) (by rw [h0]; simp [h])
          exact ⟨hz.1, hz.2.trans (List.suffix_cons _ _).isInfix⟩

/-- Every name that `str2set` makes from a text without an arrow is a name without commas, arrows and blanks around it. -/
theorem textSafe_str2set {ws : Char → Bool} {p x : List Char} (hp : ¬ ['=', '>'] <:+: p) (hx : x ∈ Imp.str2set ws p) :
    TextSafe ws x := by
  simp only [Imp.str2set, List.mem_toFinset, List.mem_map] at hx
  obtain ⟨y, hy, rfl⟩ := hx
  obtain ⟨h1, h2⟩ := mem_splitC hy
  exact ⟨fun h => h1 ((strip_infix ws y).subset h), fun h => hp ((h.trans (strip_infix ws y)).trans h2), strip_idem ws y⟩

theorem str2set_ne_empty (ws : Char → Bool) (p : List Char) : Imp.str2set ws p ≠ ∅ := by
  obtain ⟨x, l, h⟩ := List.exists_cons_of_ne_nil (splitC_ne_nil ',' p)
  simp only [Imp.str2set, h, List.map_cons, List.toFinset_cons, ne_eq]
  exact Finset.insert_ne_empty _ _

theorem str2set_sideNames (ws : Char → Bool) (p : List Char) : Imp.str2set ws p = Spec.SideNames ws p := by
  simp only [Imp.str2set, Spec.SideNames, Imp.splitC_eq_splitOn]

namespace KImp

/-! ### Which texts are read, and by which class -/

/-- **C178**. `Implication.str2imp` and `NegativeImplication.str2imp` return exactly for the texts with one arrow, an object
of the class with the names on the two sides; all other texts raise ValueError. -/
theorem C178_read {k : ImpKind} (hk : k ≠ .unit) (ws : Char → Bool) (s : List Char) :
    (∀ p c, Spec.OneArrow s p c → str2impK k ws s = .ok ⟨k, ⟨Spec.SideNames ws p, Spec.SideNames ws c⟩⟩) ∧
    ((¬ ∃ p c, Spec.OneArrow s p c) → str2impK k ws s = .error .valueError) := by
  refine ⟨fun p c h => ?_, fun h => ?_⟩
  · unfold str2impK
    rw [splitArrow_two h]
    simp only [mk2, str2set_sideNames]
  · unfold str2impK
    split
    · next p c he => exact absurd ⟨p, c, splitArrow_eq_two.1 he⟩ h
    · rfl

/-- **C178**. `UnitImplication.str2imp` returns for no text: TypeError for those with one arrow, ValueError for the others. -/
theorem C178_unit_never (ws : Char → Bool) (s : List Char) :
    ((∃ p c, Spec.OneArrow s p c) → str2impK .unit ws s = .error .typeError) ∧
    ((¬ ∃ p c, Spec.OneArrow s p c) → str2impK .unit ws s = .error .valueError) := by
  refine ⟨fun ⟨p, c, h⟩ => ?_, fun h => ?_⟩
  · unfold str2impK
    rw [splitArrow_two h]
    rfl
  · unfold str2impK
    split
    · next p c he => exact absurd ⟨p, c, splitArrow_eq_two.1 he⟩ h
    · rfl

/-- **C178**. The sets read are never empty: no text is read as an implication with an empty premise or conclusion. -/
theorem C178_never_empty (k : ImpKind) (ws : Char → Bool) (s : List Char) (i : KImp (List Char))
    (h : str2impK k ws s = .ok i) : i.kind = k ∧ i.imp.premise.Nonempty ∧ i.imp.conclusion.Nonempty := by
  unfold str2impK at h
  split at h
  · cases k <;> simp only [mk2, mkUnitArg, Except.ok.injEq, reduceCtorEq] at h <;> subst h <;>
      exact ⟨rfl, Finset.nonempty_iff_ne_empty.2 (str2set_ne_empty _ _),
        Finset.nonempty_iff_ne_empty.2 (str2set_ne_empty _ _)⟩
  · cases h

example : Spec.OneArrow "a, b=> c".toList "a, b".toList " c".toList ∧
    str2impK .unit (· == ' ') "a, b=> c".toList = .error .typeError := by
  have h : Spec.OneArrow "a, b=> c".toList "a, b".toList " c".toList := by
    rw [← splitArrow_eq_two]; decide +kernel
  exact ⟨h, (C178_unit_never _ _).1 ⟨_, _, h⟩⟩

/-! ### Reading, printing, reading -/

theorem str2impK_plain (ws : Char → Bool) (s : List Char) :
    str2impK .plain ws s = (Imp.str2imp ws s).map fun i => ⟨.plain, i⟩ := by
  unfold str2impK Imp.str2imp
  rcases splitArrow s with _ | ⟨p, _ | ⟨c, _ | ⟨d, l⟩⟩⟩ <;> rfl

theorem str2imp_safe {ws : Char → Bool} {s : List Char} {i : Imp (List Char)} (h : Imp.str2imp ws s = .ok i) :
    i.premise ≠ ∅ ∧ ∀ x ∈ i.premise ∪ i.conclusion, TextSafe ws x := by
  unfold Imp.str2imp at h
  split at h
  · next p c he =>
    obtain ⟨-, hp, hc⟩ := splitArrow_eq_two.1 he
    simp only [Except.ok.injEq] at h
    subst h
    refine ⟨str2set_ne_empty _ _, fun x hx => ?_⟩
    rcases Finset.mem_union.1 hx with hx | hx
    · exact textSafe_str2set hp hx
    · exact textSafe_str2set hc hx
  · cases h

/-- **C178**. Whatever text an implication was read from, printing it and reading the text gives an equal implication
exactly if some name of the conclusion is not in the premise, or the empty name is in the premise. -/
theorem C178_reread {ws : Char → Bool} (hsp : ws ' ' = true) (ord : SetOrder (List Char)) {s : List Char}
    {i : Imp (List Char)} (h : Imp.str2imp ws s = .ok i) :
    ∃ j, Imp.str2imp ws (i.text ord) = .ok j ∧
      (j.pyEq i = true ↔ ¬ i.conclusion ⊆ i.premise ∨ [] ∈ i.premise) := by
  obtain ⟨hne, hs⟩ := str2imp_safe h
  obtain ⟨j, hj, he⟩ := Imp.C23_round_trip_partial hsp ord i hs
  refine ⟨j, hj, he.trans ?_⟩
  simp only [ne_eq, hne, not_false_eq_true, true_and, Imp.reduced, Finset.sdiff_eq_empty_iff_subset]

/-- **C178**. After one round nothing changes any more: the second and the third reading are equal. -/
theorem C178_stable {ws : Char → Bool} (hsp : ws ' ' = true) (ord ord' : SetOrder (List Char)) {s : List Char}
    {i : Imp (List Char)} (h : Imp.str2imp ws s = .ok i) :
    ∃ j, Imp.str2imp ws (i.text ord) = .ok j ∧ ∃ k, Imp.str2imp ws (j.text ord') = .ok k ∧ k.pyEq j = true := by
  obtain ⟨hne, hs⟩ := str2imp_safe h
  have hj := Imp.str2imp_text hsp ord i hs
  rw [if_neg hne] at hj
  refine ⟨_, hj, ?_⟩
  obtain ⟨k, hk, he⟩ := C178_reread hsp ord' hj
  refine ⟨k, hk, he.2 ?_⟩
  dsimp only
  by_cases hr : i.reduced = ∅
  · rw [if_pos hr, Finset.singleton_subset_iff]
    tauto
  · rw [if_neg hr]
    left
    intro hsub
    apply hr
    rw [Finset.eq_empty_iff_forall_notMem]
    intro x hx
    exact (Finset.mem_sdiff.1 hx).2 (hsub hx)

/-- The case that is not read back: `a => a`. -/
example : ∃ i, Imp.str2imp (· == ' ') "a => a".toList = .ok i ∧ i.conclusion ⊆ i.premise ∧ [] ∉ i.premise :=
  ⟨⟨{['a']}, {['a']}⟩, by decide +kernel, by decide, by decide⟩

/-! ### Texts of unit implications -/

/-- **C178**. The text of `UnitImplication(P, c)` is that of `Implication(P, {c})`, also where the property `conclusion`
raises. `Implication.str2imp` reads it, for a non-empty premise, as an implication that compares equal if `c` is not in
the premise, and whose comparison with the unit implication raises AssertionError if it is. -/
theorem C178_unit_text {ws : Char → Bool} (hsp : ws ' ' = true) (ord o₁ o₂ : SetOrder (List Char))
    (P : Finset (List Char)) (c : List Char) (hne : P.Nonempty) (hP : ∀ x ∈ P, TextSafe ws x) (hc : TextSafe ws c) :
    (mkUnit P c).text ord o₁ o₂ = (⟨.plain, ⟨P, {c}⟩⟩ : KImp (List Char)).text ord o₁ o₂ ∧
    ∃ j, str2impK .plain ws ((mkUnit P c).text ord o₁ o₂) = .ok j ∧
      j.pyEq (mkUnit P c) = if c ∈ P then .error .assertionError else .ok true := by
  refine ⟨rfl, ?_⟩
  have hs : ∀ x ∈ (⟨P, {c}⟩ : Imp (List Char)).premise ∪ (⟨P, {c}⟩ : Imp (List Char)).conclusion, TextSafe ws x := by
    intro x hx
    simp only [Finset.mem_union, Finset.mem_singleton] at hx
    rcases hx with hx | rfl
    · exact hP x hx
    · exact hc
  have ht := Imp.str2imp_text hsp ord _ hs
  have hP0 : P ≠ ∅ := Finset.nonempty_iff_ne_empty.1 hne
  simp only [hP0, if_false] at ht
  refine ⟨_, by rw [str2impK_plain]; show Except.map _ (Imp.str2imp ws (Imp.text ord ⟨P, {c}⟩)) = _; rw [ht]; rfl, ?_⟩
  by_cases hcP : c ∈ P
  · have hr : (⟨P, {c}⟩ : Imp (List Char)).reduced = ∅ := by simp [Imp.reduced, hcP]
    simp only [if_pos hcP, pyEq, mkUnit, if_true, conclusion, hr, Finset.card_empty]
    rfl
  · have hr : (⟨P, {c}⟩ : Imp (List Char)).reduced = {c} := by simp [Imp.reduced, hcP]
    simp only [if_neg hcP, pyEq, mkUnit, if_true, conclusion, hr, Finset.card_singleton, Finset.singleton_ne_empty, if_false]
    show Except.ok (decide _) = _
    simp

/-! ### Texts of negative implications -/

/-- What is between the commas of `not (c₁, ..., cₙ)`. -/
def negParts : List (List Char) → List (List Char)
  | [] => [['n', 'o', 't', ' ', '(', ')']]
  | [c] => [['n', 'o', 't', ' ', '('] ++ c ++ [')']]
  | c :: d :: l => (['n', 'o', 't', ' ', '('] ++ c) :: closeLast (d :: l)
where
  /-- The last name with the bracket. -/
  closeLast : List (List Char) → List (List Char)
    | [] => []
    | [c] => [c ++ [')']]
    | c :: d :: l => c :: closeLast (d :: l)

theorem joinC_closeLast {l : List (List Char)} (h : l ≠ []) :
    joinC [',', ' '] (negParts.closeLast l) = joinC [',', ' '] l ++ [')'] := by
  induction l with
  | nil => exact absurd rfl h
  | cons c l ih =>
    cases l with
    | nil => rfl
    | cons d l =>
      have h1 := ih (by simp)
      cases l with
      | nil => simp [negParts.closeLast, joinC]
      | cons e l =>
        simp only [negParts.closeLast, joinC] at h1 ⊢
        rw [h1]; simp

theorem joinC_negParts (l : List (List Char)) :
    joinC [',', ' '] (negParts l) = ['n', 'o', 't', ' ', '('] ++ joinC [',', ' '] l ++ [')'] := by
  match l with
  | [] => rfl
  | [c] => rfl
  | c :: d :: l =>
    have h := joinC_closeLast (l := d :: l) (by simp)
    cases l with
    | nil => simp [negParts, negParts.closeLast, joinC]
    | cons e l =>
      simp only [negParts, negParts.closeLast, joinC] at h ⊢
      rw [h]; simp

theorem negParts_ne_nil (l : List (List Char)) : negParts l ≠ [] := by
  match l with
  | [] => simp [negParts]
  | [c] => simp [negParts]
  | c :: d :: l => simp [negParts]

theorem textSafe_ends {ws : Char → Bool} {x : List Char} (h : TextSafe ws x) :
    (∀ y ∈ x.head?, ws y = false) ∧ ∀ y ∈ x.getLast?, ws y = false := by
  rw [← h.blanks]; exact strip_ends x

/-- The characters of the frame are no blanks. -/
structure FrameSafe (ws : Char → Bool) : Prop where
  n : ws 'n' = false
  o : ws '(' = false
  c : ws ')' = false

theorem textSafe_open {ws : Char → Bool} (hw : FrameSafe ws) {x : List Char} (h : TextSafe ws x) :
    TextSafe ws (['n', 'o', 't', ' ', '('] ++ x) := by
  have he := textSafe_ends h
  refine ⟨by simp [h.comma], ?_, strip_eq_self (by simp [hw.n]) ?_⟩
  · have := noArrow_append (s := '(') (l := ['n', 'o', 't', ' ']) (r := x) (by decide) h.arrow (by decide) (by decide)
    simpa using this
  · cases hx : x.getLast? with
    | none => simp only [List.getLast?_eq_none_iff] at hx; subst hx; simp [hw.o]
    | some y =>
      intro z hz
      rw [List.getLast?_append, hx] at hz
      simp only [Option.some_or, Option.mem_def, Option.some.injEq] at hz
      subst hz
      exact he.2 y hx

theorem textSafe_close {ws : Char → Bool} (hw : FrameSafe ws) {x : List Char} (h : TextSafe ws x) :
    TextSafe ws (x ++ [')']) := by
  have he := textSafe_ends h
  refine ⟨by simp [h.comma], noArrow_append h.arrow (by decide) (by decide) (by decide),
    strip_eq_self ?_ (by simp [hw.c])⟩
  cases x with
  | nil => simp [hw.c]
  | cons y x => simpa using he.1

theorem textSafe_negParts {ws : Char → Bool} (hw : FrameSafe ws) {l : List (List Char)} (h : ∀ x ∈ l, TextSafe ws x) :
    ∀ x ∈ negParts l, TextSafe ws x := by
  have hcl : ∀ l : List (List Char), (∀ x ∈ l, TextSafe ws x) → ∀ x ∈ negParts.closeLast l, TextSafe ws x := by
    intro l
    induction l with
    | nil => intro _ x hx; simp [negParts.closeLast] at hx
    | cons c l ih =>
      intro h x hx
      cases l with
      | nil =>
        simp only [negParts.closeLast, List.mem_singleton] at hx
        subst hx
        exact textSafe_close hw (h c (by simp))
      | cons d l =>
        simp only [negParts.closeLast, List.mem_cons] at hx
        rcases hx with rfl | hx
        · exact h x (by simp)
        · exact ih (fun y hy => h y (by simp [hy])) x hx
  match l, h with
  | [], _ =>
    intro x hx
    simp only [negParts, List.mem_singleton] at hx
    subst hx
    have h0 : TextSafe ws [] := ⟨by simp, by simp [List.infix_nil], rfl⟩
    exact textSafe_close hw (textSafe_open hw h0)
  | [c], h =>
    intro x hx
    simp only [negParts, List.mem_singleton] at hx
    subst hx
    exact textSafe_close hw (textSafe_open hw (h c (by simp)))
  | c :: d :: l, h =>
    intro x hx
    simp only [negParts, List.mem_cons] at hx
    rcases hx with rfl | hx
    · exact textSafe_open hw (h c (by simp))
    · exact hcl _ (fun y hy => h y (by simp only [List.mem_cons] at hy ⊢; tauto)) x hx

/-- **C178**. What `NegativeImplication.str2imp` makes of the text of a negative implication: the premise (the empty name
for the empty one), and names with parts of the frame `not (...)`; `C178_negative_names` lists them. -/
theorem C178_negative_text {ws : Char → Bool} (hsp : ws ' ' = true) (hw : FrameSafe ws) (ord o₁ o₂ : SetOrder (List Char))
    (i : Imp (List Char)) (h : ∀ x ∈ i.premise ∪ i.conclusion, TextSafe ws x) :
    str2impK .negative ws ((⟨.negative, i⟩ : KImp (List Char)).text ord o₁ o₂) =
      .ok ⟨.negative, ⟨if i.premise = ∅ then {[]} else i.premise, (negParts (o₂.enum i.reduced)).toFinset⟩⟩ := by
  have hp : ∀ x ∈ o₁.enum i.premise, TextSafe ws x := by
    intro x hx
    rw [o₁.mem] at hx
    exact h x (by simp [hx])
  have hc : ∀ x ∈ negParts (o₂.enum i.reduced), TextSafe ws x := by
    apply textSafe_negParts hw
    intro x hx
    rw [o₂.mem, Imp.reduced, Finset.mem_sdiff] at hx
    exact h x (by simp [hx.1])
  have htext : (⟨.negative, i⟩ : KImp (List Char)).text ord o₁ o₂ =
      (joinC [',', ' '] (o₁.enum i.premise) ++ [' ']) ++ '=' :: '>' ::
      (' ' :: joinC [',', ' '] (negParts (o₂.enum i.reduced))) := by
    rw [joinC_negParts]
    simp [text, negText, joinC]
  have ha1 : ¬ ['=', '>'] <:+: joinC [',', ' '] (o₁.enum i.premise) ++ [' '] :=
    noArrow_append (noArrow_join fun x hx => (hp x hx).arrow) (by simp [List.infix_nil]) (by decide) (by decide)
  have ha2 : ¬ ['=', '>'] <:+: ' ' :: joinC [',', ' '] (negParts (o₂.enum i.reduced)) := by
    have := noArrow_append (s := ' ') (l := []) (by simp [List.infix_nil])
      (noArrow_join fun x hx => (hc x hx).arrow) (by decide) (by decide)
    simpa using this
  have h1 : Imp.str2set ws (joinC [',', ' '] (o₁.enum i.premise) ++ [' ']) =
      if i.premise = ∅ then {[]} else i.premise := by
    by_cases he : i.premise = ∅
    · have hn : o₁.enum i.premise = [] := by
        apply List.eq_nil_iff_forall_not_mem.2
        intro x hx
        rw [o₁.mem, he] at hx
        simp at hx
      rw [hn, if_pos he]
      exact strip_space hsp
    · have hn : o₁.enum i.premise ≠ [] := by
        intro hn
        apply he
        ext x
        rw [← o₁.mem i.premise, hn]; simp
      obtain ⟨_, h2, _⟩ := split_join hsp hn fun x hx => ⟨(hp x hx).comma, (hp x hx).blanks⟩
      rw [if_neg he]
      simp only [Imp.str2set, h2]
      ext x; simp [o₁.mem]
  have h2 : Imp.str2set ws (' ' :: joinC [',', ' '] (negParts (o₂.enum i.reduced))) =
      (negParts (o₂.enum i.reduced)).toFinset := by
    obtain ⟨_, _, h3⟩ := split_join hsp (negParts_ne_nil (o₂.enum i.reduced)) fun x hx => ⟨(hc x hx).comma, (hc x hx).blanks⟩
    simp only [Imp.str2set, h3]
  unfold str2impK
  rw [htext, splitArrow_append ha1, splitArrow_of_noArrow ha2]
  simp only [mk2, h1, h2]

/-- Total length of the names. -/
theorem negParts_length_sum : ∀ l : List (List Char), ((negParts l).map List.length).sum = (l.map List.length).sum + 6 ∧
    (l ≠ [] → (negParts l).length = l.length) := by
  have hcl : ∀ l : List (List Char), l ≠ [] →
      ((negParts.closeLast l).map List.length).sum = (l.map List.length).sum + 1 ∧
      (negParts.closeLast l).length = l.length := by
    intro l
    induction l with
    | nil => intro h; exact absurd rfl h
    | cons c l ih =>
      intro _
      cases l with
      | nil => simp [negParts.closeLast]
      | cons d l =>
        obtain ⟨h1, h2⟩ := ih (by simp)
        simp only [negParts.closeLast, List.map_cons, List.sum_cons, List.length_cons] at h1 h2 ⊢
        omega
  intro l
  match l with
  | [] => simp [negParts]
  | [c] => simp [negParts]
  | c :: d :: l =>
    obtain ⟨h1, h2⟩ := hcl (d :: l) (by simp)
    simp only [negParts, List.map_cons, List.sum_cons, List.length_cons, List.length_append] at h1 h2 ⊢
    refine ⟨by simp only [List.length_nil]; omega, fun _ => by omega⟩

/-- **C178**. The text of a negative implication is never read back, but for one oddity: the implication read compares
equal to the original exactly if the (reduced) conclusion is empty and the premise contains the name `not ()`. -/
theorem C178_negative_reread {ws : Char → Bool} (hsp : ws ' ' = true) (hw : FrameSafe ws)
    (ord o₁ o₂ : SetOrder (List Char)) (i : Imp (List Char)) (h : ∀ x ∈ i.premise ∪ i.conclusion, TextSafe ws x) :
    ∃ j b, str2impK .negative ws ((⟨.negative, i⟩ : KImp (List Char)).text ord o₁ o₂) = .ok j ∧
      j.pyEq ⟨.negative, i⟩ = .ok b ∧
      (b = true ↔ i.conclusion ⊆ i.premise ∧ ['n', 'o', 't', ' ', '(', ')'] ∈ i.premise) := by
  have ht := C178_negative_text hsp hw ord o₁ o₂ i h
  refine ⟨_, decide (i.premise ≠ ∅ ∧ (negParts (o₂.enum i.reduced)).toFinset \ i.premise = i.reduced), ht, ?_, ?_⟩
  · by_cases hp : i.premise = ∅
    · have hn : ¬ (({[]} : Finset (List Char)) = ∅) := by simp
      simp [pyEq, hp]
    · simp only [pyEq, hp, if_false, if_true, conclusion, Imp.reduced, ne_eq, not_false_eq_true, true_and]
      rfl
  · rw [decide_eq_true_eq]
    by_cases hr : i.reduced = ∅
    · have hen : o₂.enum i.reduced = [] := by
        apply List.eq_nil_iff_forall_not_mem.2
        intro x hx
        rw [o₂.mem, hr] at hx
        simp at hx
      rw [hen, hr]
      have hsub : i.conclusion ⊆ i.premise := Finset.sdiff_eq_empty_iff_subset.1 hr
      simp only [negParts, List.toFinset_cons, List.toFinset_nil, insert_empty_eq, Finset.sdiff_eq_empty_iff_subset,
        Finset.singleton_subset_iff, hsub, true_and, and_iff_right_iff_imp]
      intro hm he
      rw [he] at hm
      simp at hm
    · have hsub : ¬ i.conclusion ⊆ i.premise := fun h => hr (Finset.sdiff_eq_empty_iff_subset.2 h)
      simp only [hsub, false_and, iff_false, not_and]
      intro _ he
      have hne : o₂.enum i.reduced ≠ [] := by
        intro hn
        apply hr
        ext x
        rw [← o₂.mem i.reduced, hn]; simp
      obtain ⟨h1, h2⟩ := negParts_length_sum (o₂.enum i.reduced)
      have hset : (o₂.enum i.reduced).toFinset = i.reduced := by ext x; simp [o₂.mem]
      have hle : i.reduced ⊆ (negParts (o₂.enum i.reduced)).toFinset :=
        fun x hx => (Finset.mem_sdiff.1 (he.ge hx)).1
      have hcard : i.reduced.card = (o₂.enum i.reduced).length := by
        conv_lhs => rw [← hset]
        exact List.toFinset_card_of_nodup (o₂.nodup _)
      have hple : (negParts (o₂.enum i.reduced)).toFinset.card ≤ (negParts (o₂.enum i.reduced)).length :=
        List.toFinset_card_le _
      have heq : i.reduced = (negParts (o₂.enum i.reduced)).toFinset :=
        Finset.eq_of_subset_of_card_le hle (by rw [hcard, ← h2 hne]; exact hple)
      have hnd : (negParts (o₂.enum i.reduced)).Nodup := by
        rw [← Multiset.coe_nodup]
        apply Multiset.toFinset_card_eq_card_iff_nodup.1
        show (negParts (o₂.enum i.reduced)).toFinset.card = (negParts (o₂.enum i.reduced)).length
        rw [← heq, hcard, h2 hne]
      have hperm : (negParts (o₂.enum i.reduced)).Perm (o₂.enum i.reduced) := by
        rw [List.perm_ext_iff_of_nodup hnd (o₂.nodup _)]
        intro x
        rw [o₂.mem]
        conv_rhs => rw [heq]
        simp
      have := (hperm.map List.length).sum_eq
      omega

/-- **C178**. The names read: for one name `c` the name `not (c)`, for several the first and the last one carry a part of
the frame, so which names are read depends on the iteration order of the set. -/
theorem C178_negative_names (c d : List Char) (l : List (List Char)) :
    negParts [] = [['n', 'o', 't', ' ', '(', ')']] ∧
    negParts [c] = [['n', 'o', 't', ' ', '('] ++ c ++ [')']] ∧
    negParts (c :: (l ++ [d])) = (['n', 'o', 't', ' ', '('] ++ c) :: (l ++ [d ++ [')']]) := by
  refine ⟨rfl, rfl, ?_⟩
  have hcl : ∀ l : List (List Char), negParts.closeLast (l ++ [d]) = l ++ [d ++ [')']] := by
    intro l
    induction l with
    | nil => rfl
    | cons e l ih =>
      cases l with
      | nil => rfl
      | cons f l =>
        simp only [List.cons_append] at ih ⊢
        rw [negParts.closeLast, ih]
  have h := hcl l
  cases l with
  | nil => rfl
  | cons e l => simp only [List.cons_append] at h ⊢; rw [negParts, h]; rfl

theorem negParts_pair_ne {c d : List Char} (hcd : c ≠ d) : (negParts [c, d]).toFinset ≠ (negParts [d, c]).toFinset := by
  intro he
  simp only [negParts, negParts.closeLast, List.toFinset_cons, List.toFinset_nil, insert_empty_eq] at he
  have m1 : ['n', 'o', 't', ' ', '('] ++ c ∈ ({['n', 'o', 't', ' ', '('] ++ d, c ++ [')']} : Finset (List Char)) := by
    rw [← he]; simp
  simp only [Finset.mem_insert, Finset.mem_singleton] at m1
  rcases m1 with m1 | m1
  · exact hcd (List.append_cancel_left m1)
  · have := congrArg List.length m1
    simp only [List.length_append, List.length_cons, List.length_nil] at this
    omega

/-- **C178**. Two iteration orders, two implications: if two names are in the conclusion and not in the premise, the texts
in an order and in the reverse order are read as different implications. -/
theorem C178_negative_order {ws : Char → Bool} (hsp : ws ' ' = true) (hw : FrameSafe ws)
    (ord o₁ o₂ : SetOrder (List Char)) (i : Imp (List Char)) (h : ∀ x ∈ i.premise ∪ i.conclusion, TextSafe ws x)
    {c d : List Char} (hcd : c ≠ d) (hr : i.conclusion \ i.premise = {c, d}) :
    ∃ j k, str2impK .negative ws ((⟨.negative, i⟩ : KImp (List Char)).text ord o₁ o₂) = .ok j ∧
      str2impK .negative ws ((⟨.negative, i⟩ : KImp (List Char)).text ord o₁ (revOrder o₂)) = .ok k ∧
      j.imp.conclusion ≠ k.imp.conclusion := by
  refine ⟨_, _, C178_negative_text hsp hw ord o₁ o₂ i h, C178_negative_text hsp hw ord o₁ (revOrder o₂) i h, ?_⟩
  have hr' : i.reduced = {c, d} := hr
  have hp : (o₂.enum i.reduced).Perm [c, d] :=
    (List.perm_ext_iff_of_nodup (o₂.nodup _) (by simp [hcd])).2 fun x => by rw [o₂.mem, hr']; simp
  have hl : o₂.enum i.reduced = [c, d] ∨ o₂.enum i.reduced = [d, c] := by
    have hlen := hp.length_eq
    match hE : o₂.enum i.reduced, hlen with
    | [x, y], _ =>
      rw [hE] at hp
      have hx : x = c ∨ x = d := by
        have := hp.mem_iff.1 (List.mem_cons_self : x ∈ [x, y]); simpa using this
      rcases hx with rfl | rfl
      · left; simpa using hp
      · right
        have := hp.trans (List.Perm.swap x c [])
        simpa using this
  dsimp only [revOrder]
  rcases hl with hl | hl <;> rw [hl]
  · exact negParts_pair_ne hcd
  · exact negParts_pair_ne hcd.symm

/-! ### Cases meeting the hypotheses -/

theorem frameSafe_space : FrameSafe (· == ' ') := ⟨by decide, by decide, by decide⟩

theorem textSafe_of {x : List Char} (h1 : ',' ∉ x) (h2 : splitArrow x = [x]) (h3 : strip (· == ' ') x = x) :
    TextSafe (· == ' ') x := by
  refine ⟨h1, fun h => ?_, h3⟩
  rcases arrow_first x with ha | ⟨p, r, rfl, hp⟩
  · exact ha h
  · rw [splitArrow_append hp] at h2
    simp only [List.cons.injEq] at h2
    exact splitArrow_ne_nil r h2.2

/-- A negative implication with two names in the conclusion, and the one that is read back. -/
example (ord o₁ o₂ : SetOrder (List Char)) :
    (∃ j k, str2impK .negative (· == ' ') ((⟨.negative, ⟨{['a']}, {['b'], ['c']}⟩⟩ : KImp (List Char)).text ord o₁ o₂) = .ok j ∧
      str2impK .negative (· == ' ') ((⟨.negative, ⟨{['a']}, {['b'], ['c']}⟩⟩ : KImp (List Char)).text ord o₁ (revOrder o₂)) =
        .ok k ∧ j.imp.conclusion ≠ k.imp.conclusion) ∧
    ∃ j, str2impK .negative (· == ' ')
        ((⟨.negative, ⟨{"not ()".toList}, ∅⟩⟩ : KImp (List Char)).text ord o₁ o₂) = .ok j ∧
      j.pyEq ⟨.negative, ⟨{"not ()".toList}, ∅⟩⟩ = .ok true := by
  refine ⟨C178_negative_order (by decide) frameSafe_space ord o₁ o₂ _ ?_ (c := ['b']) (d := ['c']) (by decide) (by decide), ?_⟩
  · have : ∀ x ∈ ({['a'], ['b'], ['c']} : Finset (List Char)), ',' ∉ x ∧ splitArrow x = [x] ∧ strip (· == ' ') x = x := by
      decide
    intro x hx
    obtain ⟨h1, h2, h3⟩ := this x (by simp at hx ⊢; tauto)
    exact textSafe_of h1 h2 h3
  · have hs : ∀ x ∈ ({"not ()".toList} : Finset (List Char)) ∪ ∅, TextSafe (· == ' ') x := by
      intro x hx
      simp only [Finset.union_empty, Finset.mem_singleton] at hx
      subst hx
      exact textSafe_of (by decide) (by decide) (by decide)
    obtain ⟨j, b, hj, hb, hiff⟩ := C178_negative_reread (by decide) frameSafe_space ord o₁ o₂ ⟨{"not ()".toList}, ∅⟩ hs
    refine ⟨j, hj, ?_⟩
    rw [hb, hiff.2 ⟨by simp, by decide⟩]

/-- Unit implications with the conclusion outside and inside the premise. -/
example (ord : SetOrder (List Char)) :
    (∃ j, str2impK .plain (· == ' ') ((mkUnit {['a']} ['b']).text ord ord ord) = .ok j ∧
      j.pyEq (mkUnit {['a']} ['b']) = .ok true) ∧
    ∃ j, str2impK .plain (· == ' ') ((mkUnit {['a']} ['a']).text ord ord ord) = .ok j ∧
      j.pyEq (mkUnit {['a']} ['a']) = .error .assertionError := by
  have ha : TextSafe (· == ' ') ['a'] := textSafe_of (by decide) (by decide) (by decide)
  have hb : TextSafe (· == ' ') ['b'] := textSafe_of (by decide) (by decide) (by decide)
  have hP : ∀ x ∈ ({['a']} : Finset (List Char)), TextSafe (· == ' ') x := by simpa using ha
  exact ⟨(C178_unit_text (by decide) ord ord ord {['a']} ['b'] (by simp) hP hb).2,
    (C178_unit_text (by decide) ord ord ord {['a']} ['a'] (by simp) hP ha).2⟩

end KImp
