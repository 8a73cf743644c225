/-
C144: what the texts of exceptions and of explorations tell.
-/
import Verif.Model.Messages
import Verif.Props.Equality

set_option maxRecDepth 8000
set_option linter.unusedSectionVars false

namespace Msg

theorem mid_inj {p s x y : List Char} (h : p ++ (x ++ s) = p ++ (y ++ s)) : x = y :=
  List.append_cancel_right (List.append_cancel_left h)

theorem notUnique_eq (x : List Char) :
    notUnique x = .ok ("Element ".toList ++ (x ++ " is already in context (object or attribute).".toList)) := by
  have h : format "Element {} " [x] = .ok ("Element ".toList ++ (x ++ " ".toList)) := rfl
  unfold notUnique
  rw [h]
  show Except.ok _ = _
  rw [List.append_assoc, List.append_assoc]
  rfl

theorem incorrectAttribute_eq (x : List Char) :
    incorrectAttribute x = .ok ("Attribute ".toList ++ (x ++ " is not among context attributes.".toList)) := rfl

theorem basisConflict_eq (x : List Char) :
    basisConflict x = .ok ([] ++ (x ++ " conflict with confirmed implications".toList)) := rfl

theorem notAPattern_eq (x : List Char) :
    notAPattern x = .ok ("A combination of attributes ".toList ++ (x ++ " is not a pattern".toList)) := rfl

theorem notAPositivePattern_eq (x : List Char) :
    notAPositivePattern x =
      .ok ("A combination of attributes ".toList ++ (x ++ " does not occur in the positive context".toList)) := rfl

theorem notANegativePattern_eq (x : List Char) :
    notANegativePattern x =
      .ok ("A combination of attributes ".toList ++ (x ++ " occurs in the negative context".toList)) := rfl

theorem notCounterExamplePremise_eq (x y : List Char) :
    notCounterExamplePremise x y = .ok (x ++ (" is not counter example to ".toList ++
      (y ++ ". Counter example doesn't contain all elements from premise".toList))) := by
  have h : format "{0} is not counter example to {1}. " [x, y] =
    .ok (x ++ (" is not counter example to ".toList ++ (y ++ ". ".toList))) := rfl
  unfold notCounterExamplePremise
  rw [h]
  show Except.ok _ = _
  rw [List.append_assoc, List.append_assoc, List.append_assoc]
  rfl

theorem notCounterExampleConclusion_eq (x y : List Char) :
    notCounterExampleConclusion x y = .ok (x ++ (" is not counter example to ".toList ++
      (y ++ ". Counter example intent contains all elements from conclusion".toList))) := by
  have h : format "{0} is not counter example to {1}. " [x, y] =
    .ok (x ++ (" is not counter example to ".toList ++ (y ++ ". ".toList))) := rfl
  unfold notCounterExampleConclusion
  rw [h]
  show Except.ok _ = _
  rw [List.append_assoc, List.append_assoc, List.append_assoc]
  rfl

theorem notNegativeExample_eq (x y : List Char) :
    notNegativeExample x y = .ok (x ++ (" is not a counter-example to ".toList ++
      (y ++ ". Negative example doesn't contain all attributes of the pattern".toList))) := by
  have h : format "{0} is not a counter-example to {1}. " [x, y] =
    .ok (x ++ (" is not a counter-example to ".toList ++ (y ++ ". ".toList))) := rfl
  unfold notNegativeExample
  rw [h]
  show Except.ok _ = _
  rw [List.append_assoc, List.append_assoc, List.append_assoc]
  rfl

theorem confirmedPatternsConflict_eq (x y : List Char) :
    confirmedPatternsConflict x y = .ok ("The attributes of the given example: ".toList ++
      (x ++ (" conflict with the confirmed pattern: ".toList ++ (y ++ [])))) := rfl

end Msg

namespace BExp

/-- A text begins with its first line. -/
theorem line_inj {l l' r r' : List Char} (h : '\n' ∉ l) (h' : '\n' ∉ l') (he : l ++ '\n' :: r = l' ++ '\n' :: r') :
    l = l' ∧ r = r' := by
  induction l generalizing l' with
  | nil =>
    cases l' with
    | nil => exact ⟨rfl, (List.cons.inj he).2⟩
    | cons x l' => exact absurd (List.mem_cons_self) ((List.cons.inj he).1 ▸ h')
  | cons x l ih =>
    cases l' with
    | nil => exact absurd (List.mem_cons_self) ((List.cons.inj he).1 ▸ h)
    | cons y l' =>
      obtain ⟨h1, h2⟩ := List.cons.inj he
      obtain ⟨h3, h4⟩ := ih (fun hm => h (List.mem_cons_of_mem _ hm)) (fun hm => h' (List.mem_cons_of_mem _ hm)) h2
      exact ⟨by rw [h1, h3], h4⟩

/-- Lines with a `>` are separated from what follows by a line without. -/
theorem block_inj {L L' : List (List Char)} (h : ∀ l ∈ L, '\n' ∉ l ∧ '>' ∈ l) (h' : ∀ l ∈ L', '\n' ∉ l ∧ '>' ∈ l)
    {hd x x' : List Char} (hn : '\n' ∉ hd) (hg : '>' ∉ hd)
    (he : (L.map (· ++ ['\n'])).flatten ++ (hd ++ '\n' :: x) = (L'.map (· ++ ['\n'])).flatten ++ (hd ++ '\n' :: x')) :
    L = L' ∧ x = x' := by
  induction L generalizing L' with
  | nil =>
    cases L' with
    | nil => exact ⟨rfl, (line_inj hn hn he).2⟩
    | cons l L' =>
      simp only [List.map_nil, List.flatten_nil, List.nil_append, List.map_cons, List.flatten_cons,
        List.append_assoc, List.cons_append] at he
      obtain ⟨h1, h2⟩ := h' l List.mem_cons_self
      exact absurd h2 ((line_inj hn h1 he).1 ▸ hg)
  | cons l L ih =>
    obtain ⟨h1, h2⟩ := h l List.mem_cons_self
    cases L' with
    | nil =>
      simp only [List.map_nil, List.flatten_nil, List.nil_append, List.map_cons, List.flatten_cons,
        List.append_assoc, List.cons_append] at he
      exact absurd h2 ((line_inj h1 hn he).1 ▸ hg)
    | cons l' L' =>
      simp only [List.map_cons, List.flatten_cons, List.append_assoc, List.nil_append, List.cons_append] at he
      obtain ⟨h3, h4⟩ := line_inj h1 (h' l' List.mem_cons_self).1 he
      obtain ⟨h5, h6⟩ := ih (fun k hk => h k (List.mem_cons_of_mem _ hk))
        (fun k hk => h' k (List.mem_cons_of_mem _ hk)) h4
      exact ⟨by rw [h3, h5], h6⟩

theorem text_line {ord : SetOrder (List Char)} {i : Imp (List Char)}
    (h : ∀ x ∈ i.premise ∪ i.conclusion, '\n' ∉ x) : '\n' ∉ i.text ord ∧ '>' ∈ i.text ord := by
  have h1 : '\n' ∉ Ctx.joinC [',', ' '] (ord.enum i.premise) := by
    refine Ctx.joinC_no_newline fun x hx => h x ?_
    exact Finset.mem_union_left _ ((ord.mem _ _).1 hx)
  have h2 : '\n' ∉ Ctx.joinC [',', ' '] (ord.enum i.reduced) := by
    refine Ctx.joinC_no_newline fun x hx => h x ?_
    exact Finset.mem_union_right _ (Finset.mem_sdiff.1 ((ord.mem _ _).1 hx)).1
  unfold Imp.text
  simp only [Ctx.joinC]
  constructor
  · simp only [List.mem_append, not_or]
    exact ⟨⟨h1, by decide⟩, h2⟩
  · simp

end BExp

open Msg BExp

/-- What the message is about can be read off it: different elements (attributes, sets) give different messages, and
of the two things a message names either one is determined by the message and the other. -/
theorem C144_messages_tell {x y x' y' : List Char} :
    (notUnique x = notUnique y → x = y) ∧ (incorrectAttribute x = incorrectAttribute y → x = y) ∧
    (basisConflict x = basisConflict y → x = y) ∧ (notAPattern x = notAPattern y → x = y) ∧
    (notAPositivePattern x = notAPositivePattern y → x = y) ∧
    (notANegativePattern x = notANegativePattern y → x = y) ∧
    (notCounterExamplePremise x y = notCounterExamplePremise x' y' → (x = x' ↔ y = y')) ∧
    (notCounterExampleConclusion x y = notCounterExampleConclusion x' y' → (x = x' ↔ y = y')) ∧
    (notNegativeExample x y = notNegativeExample x' y' → (x = x' ↔ y = y')) ∧
    (confirmedPatternsConflict x y = confirmedPatternsConflict x' y' → (x = x' ↔ y = y')) := by
  have h2 : ∀ {a b : List Char}, x ++ (a ++ (y ++ b)) = x' ++ (a ++ (y' ++ b)) → (x = x' ↔ y = y') := by
    intro a b h
    constructor
    · rintro rfl
      exact mid_inj (List.append_cancel_left h)
    · rintro rfl
      exact List.append_cancel_right h
  refine ⟨fun h => ?_, fun h => ?_, fun h => ?_, fun h => ?_, fun h => ?_, fun h => ?_, fun h => ?_, fun h => ?_,
    fun h => ?_, fun h => ?_⟩
  · rw [notUnique_eq, notUnique_eq] at h
    exact mid_inj (Except.ok.inj h)
  · rw [incorrectAttribute_eq, incorrectAttribute_eq] at h
    exact mid_inj (Except.ok.inj h)
  · rw [basisConflict_eq, basisConflict_eq] at h
    exact mid_inj (Except.ok.inj h)
  · rw [notAPattern_eq, notAPattern_eq] at h
    exact mid_inj (Except.ok.inj h)
  · rw [notAPositivePattern_eq, notAPositivePattern_eq] at h
    exact mid_inj (Except.ok.inj h)
  · rw [notANegativePattern_eq, notANegativePattern_eq] at h
    exact mid_inj (Except.ok.inj h)
  · rw [notCounterExamplePremise_eq, notCounterExamplePremise_eq] at h
    exact h2 (Except.ok.inj h)
  · rw [notCounterExampleConclusion_eq, notCounterExampleConclusion_eq] at h
    exact h2 (Except.ok.inj h)
  · rw [notNegativeExample_eq, notNegativeExample_eq] at h
    exact h2 (Except.ok.inj h)
  · rw [confirmedPatternsConflict_eq, confirmedPatternsConflict_eq] at h
    exact h2 (List.append_cancel_left (Except.ok.inj h))

/-- The messages are there: formatting raises nothing, and a message is different from the one of the other class. -/
theorem C144_messages_exist (x y : List Char) :
    (∃ m₁ m₂, notCounterExamplePremise x y = .ok m₁ ∧ notCounterExampleConclusion x y = .ok m₂ ∧ m₁ ≠ m₂) ∧
    (∃ m₁ m₂ m₃, notAPattern x = .ok m₁ ∧ notAPositivePattern x = .ok m₂ ∧ notANegativePattern x = .ok m₃ ∧
      m₁ ≠ m₂ ∧ m₁ ≠ m₃ ∧ m₂ ≠ m₃) ∧
    (∃ m, notNegativeExample x y = .ok m) ∧ (∃ m, confirmedPatternsConflict x y = .ok m) ∧
    (∃ m, notUnique x = .ok m) ∧ (∃ m, incorrectAttribute x = .ok m) ∧ ∃ m, basisConflict x = .ok m := by
  refine ⟨⟨_, _, notCounterExamplePremise_eq x y, notCounterExampleConclusion_eq x y, ?_⟩,
    ⟨_, _, _, notAPattern_eq x, notAPositivePattern_eq x, notANegativePattern_eq x, ?_, ?_, ?_⟩,
    ⟨_, notNegativeExample_eq x y⟩, ⟨_, confirmedPatternsConflict_eq x y⟩, ⟨_, notUnique_eq x⟩,
    ⟨_, incorrectAttribute_eq x⟩, ⟨_, basisConflict_eq x⟩⟩
  · intro h
    have := List.append_cancel_left (List.append_cancel_left (List.append_cancel_left h))
    revert this
    decide +kernel
  all_goals
    intro h
    have := List.append_cancel_left (List.append_cancel_left h)
    revert this
    decide +kernel

/-- The message of `MultiplicationException` is the same for all contexts and contains no number: the templates have
no fields. -/
theorem C144_multiplication_violated {α β γ δ α' β' γ' δ' : Type} (str str' : ℕ → List Char) (l : Ctx α β)
    (r : Ctx γ δ) (l' : Ctx α' β') (r' : Ctx γ' δ') :
    multiplication str l r = multiplication str' l' r' ∧
    ∃ m, multiplication str l r = .ok m ∧ ∀ c ∈ m, ¬ c.isDigit := by
  have h : ∀ {α β γ δ : Type} (str : ℕ → List Char) (l : Ctx α β) (r : Ctx γ δ), multiplication str l r =
      .ok "Attributes of the first context:\n\nand number of objects of the second context:\n\nshould be the same.".toList := by
    intro α β γ δ str l r
    have h1 : ∀ x, format "Attributes of the first context:\n" [x] =
      .ok "Attributes of the first context:\n".toList := fun _ => rfl
    have h2 : ∀ x, format "\nand number of objects of the second context:\n" [x] =
      .ok "\nand number of objects of the second context:\n".toList := fun _ => rfl
    unfold multiplication
    rw [h1, h2]
    rfl
  refine ⟨by rw [h, h], _, h str l r, ?_⟩
  decide +kernel

/-- The text of an exploration tells its state: two explorations of the same context with the same text have the same
texts of implications in the same places of the same lists, if the names have no line breaks. -/
theorem C144_exploration_text (ord : SetOrder (List Char)) {s t : BExp (List Char) (List Char)} {r : List Char}
    (hc : s.ctx = t.ctx) (hs : s.repr ord = .ok r) (ht : t.repr ord = .ok r)
    (hn : ∀ L ∈ [s.attrImps, s.confAttr, s.objImps, s.confObj, t.attrImps, t.confAttr, t.objImps, t.confObj],
      ∀ i ∈ L, ∀ x ∈ i.premise ∪ i.conclusion, '\n' ∉ x) :
    s.attrImps.map (Imp.text ord) = t.attrImps.map (Imp.text ord) ∧
    s.confAttr.map (Imp.text ord) = t.confAttr.map (Imp.text ord) ∧
    s.objImps.map (Imp.text ord) = t.objImps.map (Imp.text ord) ∧
    s.confObj.map (Imp.text ord) = t.confObj.map (Imp.text ord) := by
  unfold BExp.repr at hs ht
  rw [hc] at hs
  cases hr : t.ctx.repr id id with
  | error e => rw [hr] at hs; cases hs
  | ok c =>
    rw [hr] at hs ht
    have he := Except.ok.inj (hs.trans ht.symm)
    have hl : ∀ L, lines ord L = ((L.map (Imp.text ord)).map (· ++ ['\n'])).flatten := by
      intro L
      unfold lines
      rw [List.map_map]
      rfl
    have hline : ∀ L ∈ [s.attrImps, s.confAttr, s.objImps, s.confObj, t.attrImps, t.confAttr, t.objImps, t.confObj],
        ∀ l ∈ L.map (Imp.text ord), '\n' ∉ l ∧ '>' ∈ l := by
      intro L hL l hl
      obtain ⟨i, hi, rfl⟩ := List.mem_map.1 hl
      exact text_line (hn L hL i hi)
    simp only [hl] at he
    have e1 : "Attribute implications:\n=======================\n".toList =
      "Attribute implications:".toList ++ '\n' :: "=======================\n".toList := by decide +kernel
    have e2 : "Confirmed attribute implications:\n=================================\n".toList =
      "Confirmed attribute implications:".toList ++ '\n' :: "=================================\n".toList := by
      decide +kernel
    have e3 : "Object implications:\n====================\n".toList =
      "Object implications:".toList ++ '\n' :: "====================\n".toList := by decide +kernel
    have e4 : "Confirmed object implications:\n==============================\n".toList =
      "Confirmed object implications:".toList ++ '\n' :: "==============================\n".toList := by
      decide +kernel
    rw [e1, e2, e3, e4] at he
    simp only [List.append_assoc, List.cons_append, List.nil_append] at he
    have he := (List.cons.inj (List.append_cancel_left (List.append_cancel_left he))).2
    have he := (List.cons.inj (List.append_cancel_left he)).2
    have he := List.append_cancel_left he
    obtain ⟨a1, he⟩ := block_inj (hline _ (by simp)) (hline _ (by simp)) (by decide +kernel) (by decide +kernel) he
    have he := List.append_cancel_left he
    obtain ⟨a2, he⟩ := block_inj (hline _ (by simp)) (hline _ (by simp)) (by decide +kernel) (by decide +kernel) he
    have he := List.append_cancel_left he
    obtain ⟨a3, he⟩ := block_inj (hline _ (by simp)) (hline _ (by simp)) (by decide +kernel) (by decide +kernel) he
    have he := List.append_cancel_left he
    have he := congrArg (· ++ ("end".toList ++ '\n' :: [])) he
    obtain ⟨a4, -⟩ := block_inj (hline _ (by simp)) (hline _ (by simp)) (by decide +kernel) (by decide +kernel) he
    exact ⟨a1, a2, a3, a4⟩

/-- There is a text for every exploration of a well-formed context. -/
theorem C144_exploration_text_exists (ord : SetOrder (List Char)) {s : BExp (List Char) (List Char)}
    (h : s.ctx.WFw) : ∃ r, s.repr ord = .ok r := by
  unfold BExp.repr
  rw [h.repr]
  exact ⟨_, rfl⟩

/-- Two objects, one attribute; one attribute implication is confirmed, one object implication is open. The text is
the same for every order, as no set has two elements. -/
example (ord : SetOrder (List Char)) : (⟨⟨["g".toList, "h".toList], ["m".toList], ⟨some 1, [[true], [true]]⟩⟩, [],
    [⟨∅, {"g".toList}⟩], [⟨∅, {"m".toList}⟩], []⟩ : BExp (List Char) (List Char)).repr ord = .ok
    ("Context:\n========\nm\ng\tX\nh\tX\n\nAttribute implications:\n=======================\n" ++
    "Confirmed attribute implications:\n=================================\n => m\nObject implications:\n" ++
    "====================\n => g\nConfirmed object implications:\n==============================\n").toList := by
  have h1 : ∀ x, ord.enum {x} = [x] := by
    intro x
    have hx : x ∈ ord.enum {x} := (ord.mem _ _).2 (Finset.mem_singleton_self x)
    have ha : ∀ y ∈ ord.enum {x}, y = x := fun y hy => Finset.mem_singleton.1 ((ord.mem _ _).1 hy)
    have hl := List.eq_replicate_of_mem ha
    have hn := ord.nodup {x}
    rw [hl, List.nodup_replicate] at hn
    have h0 : (ord.enum {x}).length ≠ 0 := by
      intro h0
      rw [List.length_eq_zero_iff.1 h0] at hx
      cases hx
    rw [hl, show (ord.enum {x}).length = 1 by omega]
    rfl
  have h0 : ord.enum ∅ = [] := by
    refine List.eq_nil_iff_forall_not_mem.2 fun x hx => ?_
    exact absurd ((ord.mem _ _).1 hx) (Finset.notMem_empty x)
  have hr : (⟨["g".toList, "h".toList], ["m".toList], ⟨some 1, [[true], [true]]⟩⟩ :
      Ctx (List Char) (List Char)).repr id id = .ok "m\ng\tX\nh\tX\n".toList := by decide +kernel
  unfold BExp.repr
  simp only [hr, lines, Imp.text, Imp.reduced, Finset.sdiff_empty, List.map_cons, List.map_nil, h1, h0]
  decide +kernel
