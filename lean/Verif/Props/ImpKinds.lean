/-
Properties of unit and negative implications (fca/implication.py:104-149), C87-C89.
-/
import Verif.Model.ImpKinds
import Verif.Props.ImpText

set_option linter.unusedSectionVars false

variable {α : Type} [DecidableEq α]

namespace Spec

/-- A set satisfies the negative implication "`P` excludes all of `C`": it does not contain `P`
together with an element of `C`. -/
def NegSat (P C s : Finset α) : Prop := ¬ (P ⊆ s ∧ ∃ x ∈ C, x ∈ s)

/-- The completions of a partial example `(x, q)`: the sets between `x` and `q`. -/
def Between (x q s : Finset α) : Prop := x ⊆ s ∧ s ⊆ q

end Spec

namespace KImp

theorem conclusion_neg (i : Imp α) : (⟨.negative, i⟩ : KImp α).conclusion = .ok i.reduced := rfl

theorem conclusion_plain (i : Imp α) : (⟨.plain, i⟩ : KImp α).conclusion = .ok i.reduced := rfl

/-- **C87** (exact form). `NegativeImplication(P, C).is_respected(s)` always answers, and the answer
is the one for the conclusion without the premise. -/
theorem C87_negative_exact (i : Imp α) (s : Finset α) :
    ∃ b, (⟨.negative, i⟩ : KImp α).isRespected s = .ok b ∧
      (b = true ↔ Spec.NegSat i.premise (i.conclusion \ i.premise) s) := by
  by_cases hp : i.premise ⊆ s
  · refine ⟨!(decide ((i.reduced ∩ s).Nonempty)), by simp [isRespected, hp, conclusion], ?_⟩
    simp only [Bool.not_eq_true', decide_eq_false_iff_not, Spec.NegSat, hp, true_and]
    simp [Finset.Nonempty, Imp.reduced]
  · exact ⟨true, by simp [isRespected, hp], by simp [Spec.NegSat, hp]⟩

/-- **C87**. With premise and conclusion disjoint the answer is the documented one. -/
theorem C87_negative_partial (i : Imp α) (hd : Disjoint i.premise i.conclusion) (s : Finset α) :
    ∃ b, (⟨.negative, i⟩ : KImp α).isRespected s = .ok b ∧
      (b = true ↔ Spec.NegSat i.premise i.conclusion s) := by
  obtain ⟨b, h, hb⟩ := C87_negative_exact i s
  rw [Finset.sdiff_eq_self_of_disjoint hd.symm] at hb
  exact ⟨b, h, hb⟩

/-- **C87**, refuted: for *every* premise and conclusion with a common element there is a set that
contains the premise and an element of the conclusion and is reported to respect the negative
implication: the premise itself. -/
theorem C87_negative_violated (i : Imp α) (hd : ¬ Disjoint i.premise i.conclusion) :
    (⟨.negative, i⟩ : KImp α).isRespected i.premise = .ok true ∧
      ¬ Spec.NegSat i.premise i.conclusion i.premise := by
  constructor
  · obtain ⟨b, h, hb⟩ := C87_negative_exact i i.premise
    rw [h]; congr 1; rw [hb]
    rintro ⟨-, x, hx, hx'⟩
    exact (Finset.mem_sdiff.1 hx).2 hx'
  · obtain ⟨x, hx, hx'⟩ := Finset.not_disjoint_iff.1 hd
    exact fun hn => hn ⟨subset_rfl, x, hx', hx⟩

/-- **C87**, partial examples: the answer is implied by "every completion respects" and implies
"some completion respects". -/
theorem C87_negative_partial_example (i : Imp α) {x q : Finset α} (hxq : x ⊆ q) :
    ∃ b, (⟨.negative, i⟩ : KImp α).isRespectedPartial (x, q) = .ok b ∧
      ((∀ s, Spec.Between x q s → Spec.NegSat i.premise (i.conclusion \ i.premise) s) → b = true) ∧
      (b = true → ∃ s, Spec.Between x q s ∧
        Spec.NegSat i.premise (i.conclusion \ i.premise) s) := by
  refine ⟨!(decide ((i.reduced ∩ q).Nonempty)) || !(decide (i.premise ⊆ x)), by
    simp only [isRespectedPartial, conclusion_neg]; rfl, ?_, ?_⟩
  · intro hall
    by_contra hb
    simp only [Bool.not_eq_true, Bool.or_eq_false_iff, Bool.not_eq_false', decide_eq_true_eq] at hb
    obtain ⟨⟨y, hy⟩, hp⟩ := hb
    exact hall q ⟨hxq, subset_rfl⟩
      ⟨hp.trans hxq, y, (Finset.mem_inter.1 hy).1, (Finset.mem_inter.1 hy).2⟩
  · intro hb
    refine ⟨x, ⟨subset_rfl, hxq⟩, ?_⟩
    rintro ⟨hp, y, hy, hyx⟩
    have : (i.reduced ∩ q).Nonempty := ⟨y, Finset.mem_inter.2 ⟨hy, hxq hyx⟩⟩
    simp [this, hp] at hb

/-- **C87**, partial examples, refuted as a test of compatibility (the reading used for
`Implication`, C71): "some completion respects" is not what is computed, and "every completion
respects" is not either. -/
theorem C87_partial_example_violated :
    (∃ (i : Imp (Fin 2)) (x q : Finset (Fin 2)), x ⊆ q ∧ Disjoint i.premise i.conclusion ∧
      (⟨.negative, i⟩ : KImp (Fin 2)).isRespectedPartial (x, q) = .ok false ∧
      ∃ s, Spec.Between x q s ∧ Spec.NegSat i.premise i.conclusion s) ∧
    (∃ (i : Imp (Fin 2)) (x q : Finset (Fin 2)), x ⊆ q ∧ Disjoint i.premise i.conclusion ∧
      (⟨.negative, i⟩ : KImp (Fin 2)).isRespectedPartial (x, q) = .ok true ∧
      ∃ s, Spec.Between x q s ∧ ¬ Spec.NegSat i.premise i.conclusion s) := by
  constructor
  · refine ⟨⟨{0}, {1}⟩, {0}, {0, 1}, by decide, by decide, by decide +kernel, {0}, ?_, ?_⟩
    · unfold Spec.Between; decide
    · unfold Spec.NegSat; decide
  · refine ⟨⟨{0}, {1}⟩, ∅, {0, 1}, by decide, by decide, by decide +kernel, {0, 1}, ?_, ?_⟩
    · unfold Spec.Between; decide
    · unfold Spec.NegSat; decide

/-- The ordinary implication, for comparison: on a partial example the answer is exactly "some
completion respects the implication". -/
theorem C87_plain_partial_example (i : Imp α) {x q : Finset α} (hxq : x ⊆ q) :
    ∃ b, (⟨.plain, i⟩ : KImp α).isRespectedPartial (x, q) = .ok b ∧
      (b = true ↔ ∃ s, Spec.Between x q s ∧ (i.premise ⊆ s → i.conclusion ⊆ s)) := by
  refine ⟨decide (i.reduced ⊆ q) || !(decide (i.premise ⊆ x)), by
    simp only [isRespectedPartial, conclusion_plain]; rfl, ?_⟩
  simp only [Bool.or_eq_true, decide_eq_true_eq, Bool.not_eq_true', decide_eq_false_iff_not]
  constructor
  · rintro (h | h)
    · refine ⟨q, ⟨hxq, subset_rfl⟩, fun hp y hy => ?_⟩
      by_cases hyp : y ∈ i.premise
      · exact hp hyp
      · exact h (Finset.mem_sdiff.2 ⟨hy, hyp⟩)
    · exact ⟨x, ⟨subset_rfl, hxq⟩, fun hp => absurd hp h⟩
  · rintro ⟨s, ⟨h₁, h₂⟩, h⟩
    by_cases hp : i.premise ⊆ x
    · left
      exact (Finset.sdiff_subset.trans (h (hp.trans h₁))).trans h₂
    · exact Or.inr hp

/-! ### Unit implications -/

/-- **C88**. A unit implication whose conclusion is not in its premise answers for sets as the
logical implication does. -/
theorem C88_unit_partial (P : Finset α) (c : α) (hc : c ∉ P) (s : Finset α) :
    ∃ b, (mkUnit P c).isRespected s = .ok b ∧ (b = true ↔ (P ⊆ s → c ∈ s)) := by
  have hr : (⟨P, {c}⟩ : Imp α).reduced = {c} := by
    simp [Imp.reduced, hc]
  by_cases hp : P ⊆ s
  · refine ⟨decide (({c} : Finset α) ⊆ s), ?_, by simp [hp]⟩
    simp only [isRespected, mkUnit, hp, decide_true, Bool.not_true, Bool.false_eq_true, if_false,
      conclusion, hr, Finset.card_singleton, if_true]
    rfl
  · exact ⟨true, by simp [isRespected, mkUnit, hp], by simp [hp]⟩

/-- **C88**, refuted: a unit implication whose conclusion is in its premise holds in every set,
but asking a set that contains the premise raises AssertionError; so does every question about a
partial example and every comparison with an implication of the same premise. Exactly the sets
that do not contain the premise get an answer. -/
theorem C88_unit_violated (P : Finset α) (c : α) (hc : c ∈ P) :
    (∀ s, (mkUnit P c).isRespected s = if P ⊆ s then .error .assertionError else .ok true) ∧
    (∀ s, (mkUnit P c).isRespectedPartial s = .error .assertionError) ∧
    (∀ j : KImp α, j.imp.premise = P → (mkUnit P c).pyEq j = .error .assertionError) := by
  have hr : (⟨P, {c}⟩ : Imp α).reduced = ∅ := by simp [Imp.reduced, hc]
  have hcon : (mkUnit P c).conclusion = .error .assertionError := by
    simp [mkUnit, conclusion, hr]
  refine ⟨fun s => ?_, fun s => ?_, fun j hj => ?_⟩
  · simp only [isRespected, hcon]
    by_cases hp : P ⊆ s
    · simp only [mkUnit, hp, decide_true, Bool.not_true, Bool.false_eq_true, if_false, if_true]
      rfl
    · simp [mkUnit, hp]
  · simp only [isRespectedPartial, hcon]; rfl
  · have hp : (mkUnit P c).imp.premise = j.imp.premise := hj.symm
    simp only [pyEq, hcon, hp, if_true]; rfl

/-! ### Equality and copies -/

/-- What `is_respected` answers on sets. -/
theorem isRespected_congr {k : ImpKind} {i j : Imp α} (hp : i.premise = j.premise)
    (hr : i.reduced = j.reduced) (s : Finset α) :
    (⟨k, i⟩ : KImp α).isRespected s = (⟨k, j⟩ : KImp α).isRespected s := by
  cases k <;> simp only [isRespected, conclusion, hp, hr]

/-- **C89**. Implications of one class that compare equal give the same answer for every set
(equal also in whether they raise); comparing is symmetric when it answers. -/
theorem C89_equal_same_answers_partial {i j : KImp α} (hk : i.kind = j.kind)
    (h : i.pyEq j = .ok true) (s : Finset α) : i.isRespected s = j.isRespected s := by
  obtain ⟨k, i⟩ := i
  obtain ⟨k', j⟩ := j
  obtain rfl : k = k' := hk
  have hpr : i.premise = j.premise ∧ i.reduced = j.reduced := by
    by_cases hp : i.premise = j.premise
    · refine ⟨hp, ?_⟩
      cases k
      · simp only [pyEq, hp, if_true, conclusion] at h
        exact of_decide_eq_true (Except.ok.inj h)
      · simp only [pyEq, hp, if_true, conclusion] at h
        by_cases h1 : i.reduced.card = 1 <;> by_cases h2 : j.reduced.card = 1
        · simp only [h1, h2, if_true] at h
          exact of_decide_eq_true (Except.ok.inj h)
        · simp only [h1, h2, if_true, if_false] at h; cases h
        · simp only [h1, if_false] at h; cases h
        · simp only [h1, if_false] at h; cases h
      · simp only [pyEq, hp, if_true, conclusion] at h
        exact of_decide_eq_true (Except.ok.inj h)
    · simp [pyEq, hp] at h
  exact isRespected_congr hpr.1 hpr.2 s

/-- **C89**, refuted across classes: for all disjoint `P`, `C` with `C` non-empty the implication
and the negative implication with premise `P` and conclusion `C` compare equal (in both
directions) but disagree on `P ∪ C`. -/
theorem C89_mixed_equality_violated (P C : Finset α) (hd : Disjoint P C) (hne : C.Nonempty) :
    (⟨.plain, ⟨P, C⟩⟩ : KImp α).pyEq ⟨.negative, ⟨P, C⟩⟩ = .ok true ∧
    (⟨.negative, ⟨P, C⟩⟩ : KImp α).pyEq ⟨.plain, ⟨P, C⟩⟩ = .ok true ∧
    (⟨.plain, ⟨P, C⟩⟩ : KImp α).isRespected (P ∪ C) = .ok true ∧
    (⟨.negative, ⟨P, C⟩⟩ : KImp α).isRespected (P ∪ C) = .ok false := by
  have hr : (⟨P, C⟩ : Imp α).reduced = C := Finset.sdiff_eq_self_of_disjoint hd.symm
  have hi : C ∩ (P ∪ C) = C := Finset.inter_eq_left.2 Finset.subset_union_right
  refine ⟨?_, ?_, ?_, ?_⟩
  · simp only [pyEq, if_true, conclusion]; show Except.ok (decide _) = _; simp
  · simp only [pyEq, if_true, conclusion]; show Except.ok (decide _) = _; simp
  · simp only [isRespected, conclusion, hr, Finset.subset_union_left, decide_true, Bool.not_true,
      Bool.false_eq_true, if_false]
    show (Except.ok (decide (C ⊆ P ∪ C)) : Py Bool) = _
    simp [Finset.subset_union_right]
  · simp only [isRespected, conclusion, hr, Finset.subset_union_left, decide_true, Bool.not_true,
      Bool.false_eq_true, if_false]
    show (Except.ok (!decide ((C ∩ (P ∪ C)).Nonempty)) : Py Bool) = _
    simp [hi, hne]

/-- **C89**. `copy.deepcopy` of an ordinary implication, and of a unit implication that can be
asked at all, keeps every answer. -/
theorem C89_deepcopy_partial (i : KImp α) (hk : i.kind ≠ .negative) (s : Finset α)
    (hok : ∃ b, i.isRespected s = .ok b) : i.deepcopy.isRespected s = i.isRespected s := by
  obtain ⟨k, i⟩ := i
  obtain ⟨b, hb⟩ := hok
  cases k
  · rfl
  · simp only [deepcopy]
    by_cases hp : i.premise ⊆ s
    · by_cases h1 : i.reduced.card = 1
      · simp only [isRespected, conclusion, h1, if_true]
      · simp only [isRespected, conclusion, h1, hp, decide_true, Bool.not_true, if_false,
          Bool.false_eq_true] at hb
        cases hb
    · simp [isRespected, hp]
  · exact absurd rfl hk

/-- **C89**, refuted: a deep copy of a negative implication is an ordinary one; for all disjoint
`P` and `C` with `C` non-empty the copy gives the opposite answer on `P ∪ C`, although it compares
equal to the original. -/
theorem C89_deepcopy_violated (P C : Finset α) (hd : Disjoint P C) (hne : C.Nonempty) :
    let i : KImp α := ⟨.negative, ⟨P, C⟩⟩
    i.isRespected (P ∪ C) = .ok false ∧ i.deepcopy.isRespected (P ∪ C) = .ok true ∧
      i.pyEq i.deepcopy = .ok true :=
  have h := C89_mixed_equality_violated P C hd hne
  ⟨h.2.2.2, h.2.2.1, h.2.1⟩

/-- The reverse of an iteration order. -/
def revOrder (o : SetOrder α) : SetOrder α :=
  ⟨fun s => (o.enum s).reverse, fun s => List.nodup_reverse.2 (o.nodup s), fun s x => by simp⟩

/-- **C89**, refuted for hashing: `__hash__` hashes the text, and the text of a negative implication
lists its sets in iteration order. For every iteration order there is another one such that equal
negative implications have different texts. -/
theorem C89_negative_hash_violated (o : SetOrder (List Char)) :
    ∃ (o' : SetOrder (List Char)) (i : Imp (List Char)),
      (⟨.negative, i⟩ : KImp (List Char)).pyEq ⟨.negative, i⟩ = .ok true ∧
      negText o o i ≠ negText o' o' i := by
  refine ⟨revOrder o, ⟨{['a'], ['b']}, ∅⟩, by decide +kernel, ?_⟩
  have he : o.enum (∅ : Finset (List Char)) = [] :=
    List.eq_nil_iff_forall_not_mem.2 fun x hx => by simp at hx
  have hp : (o.enum {['a'], ['b']}).Perm [['a'], ['b']] := by
    refine (List.perm_ext_iff_of_nodup (o.nodup _) (by decide)).2 fun x => by simp
  have hl : o.enum {['a'], ['b']} = [['a'], ['b']] ∨ o.enum {['a'], ['b']} = [['b'], ['a']] := by
    have hlen := hp.length_eq
    match hE : o.enum {['a'], ['b']}, hlen with
    | [x, y], _ =>
      rw [hE] at hp
      have hx : x = ['a'] ∨ x = ['b'] := by
        have := hp.mem_iff.1 (List.mem_cons_self : x ∈ [x, y]); simpa using this
      rcases hx with rfl | rfl
      · left; simpa using hp
      · right
        have := hp.trans (List.Perm.swap ['b'] ['a'] [])
        simpa using this
  have hred : (⟨{['a'], ['b']}, ∅⟩ : Imp (List Char)).reduced = ∅ := by simp [Imp.reduced]
  rcases hl with hl | hl <;> simp [negText, revOrder, hl, hred, he] <;> decide

/-! ### Cases meeting the hypotheses -/

/-- Hypotheses of `C87_negative_partial`, both answers occur. -/
example : Disjoint (⟨{0}, {1}⟩ : Imp (Fin 3)).premise (⟨{0}, {1}⟩ : Imp (Fin 3)).conclusion ∧
    (⟨.negative, ⟨{0}, {1}⟩⟩ : KImp (Fin 3)).isRespected {0, 1} = .ok false ∧
    (⟨.negative, ⟨{0}, {1}⟩⟩ : KImp (Fin 3)).isRespected {0, 2} = .ok true := by
  refine ⟨by decide, by decide +kernel, by decide +kernel⟩

/-- Hypotheses of `C87_negative_violated`. -/
example : ¬ Disjoint (⟨{0, 1}, {1, 2}⟩ : Imp (Fin 3)).premise
    (⟨{0, 1}, {1, 2}⟩ : Imp (Fin 3)).conclusion := by decide

/-- Hypotheses of `C88_unit_partial` and `C88_unit_violated`. -/
example : (mkUnit {0, 1} (2 : Fin 3)).isRespected {0, 1} = .ok false ∧
    (mkUnit {0, 1} (1 : Fin 3)).isRespected {0, 1} = .error .assertionError := by
  refine ⟨by decide +kernel, by decide +kernel⟩

/-- Hypotheses of `C89_equal_same_answers_partial`: equal, but with different fields. -/
example : (⟨.negative, ⟨{0}, {0, 1}⟩⟩ : KImp (Fin 3)).pyEq ⟨.negative, ⟨{0}, {1}⟩⟩ = .ok true := by
  decide +kernel

/-- Hypotheses of `C89_mixed_equality_violated` and `C89_deepcopy_violated`. -/
example : Disjoint ({0} : Finset (Fin 3)) {1} ∧ ({1} : Finset (Fin 3)).Nonempty := by
  refine ⟨by decide, by decide⟩

/-- Hypotheses of `C89_deepcopy_partial` for a unit implication. -/
example : ∃ b, (mkUnit {0, 1} (2 : Fin 3)).isRespected {0, 1} = .ok b := ⟨false, by decide +kernel⟩

/-! ### The text of a negative implication read again -/

theorem strip_prefix {ws : Char → Bool} {p s : List Char} {x y : Char} (hs : ws ' ' = true) (hx : ws x = false)
    (hy : ws y = false) : ∃ r, strip ws (' ' :: x :: (p ++ y :: s)) = x :: (p ++ y :: r) := by
  unfold strip
  rw [List.dropWhile_cons_of_pos (by simpa using hs), List.dropWhile_cons_of_neg (by simp [hx])]
  have e : (x :: (p ++ y :: s)).reverse = s.reverse ++ (y :: (x :: p).reverse) := by simp
  rw [e]
  have : ∃ u, (s.reverse ++ (y :: (x :: p).reverse)).dropWhile ws = u ++ (y :: (x :: p).reverse) := by
    induction s.reverse with
    | nil => exact ⟨[], by rw [List.nil_append, List.dropWhile_cons_of_neg (by simp [hy])]⟩
    | cons z l ih =>
      by_cases hz : ws z = true
      · rw [List.cons_append, List.dropWhile_cons_of_pos hz]; exact ih
      · exact ⟨z :: l, by rw [List.cons_append, List.dropWhile_cons_of_neg hz]⟩
  obtain ⟨u, hu⟩ := this
  exact ⟨u.reverse, by rw [hu]; simp⟩

theorem splitC_prefix {c : Char} {l : List Char} (h : c ∉ l) (r : List Char) :
    ∃ u us, splitC c (l ++ r) = (l ++ u) :: us := by
  induction l with
  | nil =>
    cases hr : splitC c r with
    | nil => exact absurd hr (splitC_ne_nil c r)
    | cons u us => exact ⟨u, us, by simp [hr]⟩
  | cons x l ih =>
    obtain ⟨u, us, hu⟩ := ih fun hl => h (by simp [hl])
    have hx : ¬ x = c := fun he => h (by simp [he])
    exact ⟨u, us, by simp only [List.cons_append, splitC, if_neg hx, hu]⟩

/-- **C89**, refuted for texts: the text of a negative implication is read by `str2imp` without an exception, but as an
implication with a name that begins with "not (". -/
theorem C89_negative_text_violated {ws : Char → Bool} (hs : ws ' ' = true) (hn : ws 'n' = false) (hp : ws '(' = false)
    (o₁ o₂ : SetOrder (List Char)) (i : Imp (List Char))
    (h : ∀ x ∈ i.premise ∪ i.conclusion, ¬ ['=', '>'] <:+: x) :
    ∃ j, Imp.str2imp ws (negText o₁ o₂ i) = .ok j ∧ (∃ r, "not (".toList ++ r ∈ j.conclusion) ∧
      ((∀ x ∈ i.premise ∪ i.conclusion, ¬ "not (".toList <+: x) → j.pyEq i = false) := by
  have hP : ¬ ['=', '>'] <:+: Ctx.joinC [',', ' '] (o₁.enum i.premise) :=
    noArrow_join fun x hx => h x (Finset.mem_union_left _ ((o₁.mem _ _).1 hx))
  have hC : ¬ ['=', '>'] <:+: Ctx.joinC [',', ' '] (o₂.enum i.reduced) :=
    noArrow_join fun x hx => h x (Finset.mem_union_right _ (Finset.sdiff_subset ((o₂.mem _ _).1 hx)))
  set P := Ctx.joinC [',', ' '] (o₁.enum i.premise) with hPd
  set C := Ctx.joinC [',', ' '] (o₂.enum i.reduced) with hCd
  have e : negText o₁ o₂ i = (P ++ [' ']) ++ '=' :: '>' :: (' ' :: 'n' :: ("ot ".toList ++ '(' :: (C ++ [')']))) := by
    simp [negText, Ctx.joinC, ← hPd, ← hCd]
  have hP' : ¬ ['=', '>'] <:+: P ++ [' '] :=
    noArrow_append hP (by simp [List.infix_nil]) (by decide) (by decide)
  have hC' : ¬ ['=', '>'] <:+: ' ' :: 'n' :: ("ot ".toList ++ '(' :: (C ++ [')'])) := by
    have h1 : ¬ ['=', '>'] <:+: C ++ [')'] := noArrow_append hC (by simp [List.infix_nil]) (by decide) (by decide)
    have h2 := noArrow_append (l := " not ".toList) (s := '(') (by decide) h1 (by decide) (by decide)
    simpa using h2
  obtain ⟨u, us, hu⟩ := splitC_prefix (c := ',') (l := " not (".toList) (by decide) (C ++ [')'])
  obtain ⟨r, hr⟩ := strip_prefix (p := "ot ".toList) (s := u) hs hn hp
  have hm : "not (".toList ++ r ∈ (((' ' :: 'n' :: ("ot ".toList ++ '(' :: (C ++ [')']))).splitOn ',').map
      (strip ws)).toFinset := by
    rw [← Imp.splitC_eq_splitOn, List.mem_toFinset]
    have e2 : ' ' :: 'n' :: ("ot ".toList ++ '(' :: (C ++ [')'])) = " not (".toList ++ (C ++ [')']) := by simp
    rw [e2, hu, List.map_cons, List.mem_cons]
    left
    rw [show " not (".toList ++ u = ' ' :: 'n' :: ("ot ".toList ++ '(' :: u) by simp, hr]
    simp
  refine ⟨_, by rw [e]; exact Imp.C23_one_arrow ws hP' hC', ⟨r, hm⟩, fun hno => ?_⟩
  rw [Bool.eq_false_iff]
  intro he
  simp only [Imp.pyEq, Bool.and_eq_true, beq_iff_eq] at he
  obtain ⟨he1, he2⟩ := he
  by_cases hin : "not (".toList ++ r ∈ i.premise
  · exact hno _ (Finset.mem_union_left _ hin) (List.prefix_append _ _)
  · have : "not (".toList ++ r ∈ i.reduced := by
      rw [← he2]
      exact Finset.mem_sdiff.2 ⟨hm, by rw [he1]; exact hin⟩
    exact hno _ (Finset.mem_union_right _ (Finset.sdiff_subset this)) (List.prefix_append _ _)

/-- Hypotheses of `C89_negative_text_violated`. -/
example : (∀ x ∈ (⟨{['a']}, {['b'], ['c']}⟩ : Imp (List Char)).premise ∪
      (⟨{['a']}, {['b'], ['c']}⟩ : Imp (List Char)).conclusion, ¬ ['=', '>'] <:+: x ∧ ¬ "not (".toList <+: x) ∧
    Imp.str2imp (· == ' ') "a => not (b, c)".toList = .ok ⟨{['a']}, {"not (b".toList, "c)".toList}⟩ := by
  refine ⟨by decide +kernel, by decide +kernel⟩

end KImp
