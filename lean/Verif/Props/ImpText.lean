/-
Property C23: text form of implications (fca/implication.py:56-69, 95-102).
-/
import Verif.Model.ImpText
import Verif.Props.Closures
import Mathlib.Data.List.TakeWhile

open Ctx

/-- Names the property speaks about: no commas, no '=>', no surrounding white space. -/
structure TextSafe (ws : Char → Bool) (x : List Char) : Prop where
  comma : ',' ∉ x
  arrow : ¬ ['=', '>'] <:+: x
  blanks : strip ws x = x

/-! ### Splitting -/

theorem splitC_ne_nil (c : Char) (l : List Char) : splitC c l ≠ [] := by
  induction l with
  | nil => simp [splitC]
  | cons x l ih =>
    simp only [splitC]
    split
    · simp
    · split <;> simp

theorem splitC_of_not_mem {c : Char} {l : List Char} (h : c ∉ l) : splitC c l = [l] := by
  induction l with
  | nil => rfl
  | cons x l ih =>
    have hx : ¬ x = c := fun he => h (by simp [he])
    simp only [splitC, if_neg hx, ih (fun hl => h (by simp [hl]))]

theorem splitC_append {c : Char} {l : List Char} (h : c ∉ l) (r : List Char) :
    splitC c (l ++ c :: r) = l :: splitC c r := by
  induction l with
  | nil => simp [splitC]
  | cons x l ih =>
    have hx : ¬ x = c := fun he => h (by simp [he])
    simp only [List.cons_append, splitC, if_neg hx, ih (fun hl => h (by simp [hl]))]

theorem splitArrow_ne_nil (l : List Char) : splitArrow l ≠ [] := by
  unfold splitArrow
  split
  · simp
  · simp
  · split
    · simp
    · split <;> simp

theorem noArrow_tail {x : Char} {l : List Char} (h : ¬ ['=', '>'] <:+: x :: l) : ¬ ['=', '>'] <:+: l :=
  fun hl => h (List.IsInfix.trans hl (List.infix_cons (List.infix_refl l)))

theorem splitArrow_of_noArrow {l : List Char} (h : ¬ ['=', '>'] <:+: l) : splitArrow l = [l] := by
  induction l with
  | nil => rfl
  | cons x l ih =>
    cases l with
    | nil => rfl
    | cons y l =>
      have hxy : ¬ (x = '=' ∧ y = '>') := by
        rintro ⟨rfl, rfl⟩
        exact h ⟨[], l, rfl⟩
      simp only [splitArrow, if_neg hxy, ih (noArrow_tail h)]

theorem splitArrow_append {l : List Char} (h : ¬ ['=', '>'] <:+: l) (r : List Char) :
    splitArrow (l ++ '=' :: '>' :: r) = l :: splitArrow r := by
  induction l with
  | nil => simp [splitArrow]
  | cons x l ih =>
    have ih := ih (noArrow_tail h)
    cases l with
    | nil =>
      simp only [List.nil_append, List.cons_append] at ih ⊢
      have hx : ¬ (x = '=' ∧ '=' = '>') := by simp
      rw [splitArrow, if_neg hx, ih]
    | cons y l =>
      have hxy : ¬ (x = '=' ∧ y = '>') := by
        rintro ⟨rfl, rfl⟩
        exact h ⟨[], l, rfl⟩
      simp only [List.cons_append] at ih ⊢
      rw [splitArrow, if_neg hxy, ih]

theorem noArrow_append {l r : List Char} {s : Char} (hl : ¬ ['=', '>'] <:+: l) (hr : ¬ ['=', '>'] <:+: r)
    (hs : s ≠ '=') (hs' : s ≠ '>') : ¬ ['=', '>'] <:+: l ++ s :: r := by
  induction l with
  | nil =>
    rintro ⟨a, b, he⟩
    simp only [List.nil_append] at he
    cases a with
    | nil =>
      simp only [List.nil_append, List.cons_append, List.cons.injEq] at he
      exact hs he.1.symm
    | cons y a =>
      simp only [List.cons_append, List.cons.injEq] at he
      exact hr ⟨a, b, he.2⟩
  | cons x l ih =>
    rintro ⟨a, b, he⟩
    cases a with
    | nil =>
      simp only [List.nil_append, List.cons_append, List.cons.injEq] at he
      obtain ⟨rfl, he⟩ := he
      cases l with
      | nil =>
        simp only [List.nil_append, List.cons.injEq] at he
        exact hs' he.1.symm
      | cons y l =>
        simp only [List.cons_append, List.cons.injEq] at he
        exact hl ⟨[], l, by rw [← he.1]; rfl⟩
    | cons y a =>
      simp only [List.cons_append, List.cons.injEq] at he
      exact ih (noArrow_tail hl) ⟨a, b, by simpa using he.2⟩

theorem noArrow_join {xs : List (List Char)} (h : ∀ x ∈ xs, ¬ ['=', '>'] <:+: x) :
    ¬ ['=', '>'] <:+: joinC [',', ' '] xs := by
  induction xs with
  | nil => simp [joinC, List.infix_nil]
  | cons x xs ih =>
    cases xs with
    | nil => exact h x (by simp)
    | cons y ys =>
      have h1 := ih fun z hz => h z (by simp [hz])
      have h2 : ¬ ['=', '>'] <:+: [] ++ ' ' :: joinC [',', ' '] (y :: ys) :=
        noArrow_append (by simp [List.infix_nil]) h1 (by decide) (by decide)
      have := noArrow_append (s := ',') (h x (by simp)) h2 (by decide) (by decide)
      simpa [joinC] using this

/-! ### White space -/

theorem strip_cons {ws : Char → Bool} {c : Char} (hc : ws c = true) (x : List Char) :
    strip ws (c :: x) = strip ws x := by
  simp [strip, hc]

theorem strip_snoc {ws : Char → Bool} {c : Char} (hc : ws c = true) (x : List Char) :
    strip ws (x ++ [c]) = strip ws x := by
  unfold strip
  by_cases h : x.all ws
  · have h1 : x.dropWhile ws = [] := by
      rw [List.dropWhile_eq_nil_iff]; simpa using h
    have h2 : (x ++ [c]).dropWhile ws = [] := by
      rw [List.dropWhile_eq_nil_iff]; intro y hy
      simp only [List.mem_append, List.mem_singleton] at hy
      rcases hy with hy | rfl
      · exact (List.all_eq_true.1 h) y hy
      · exact hc
    rw [h1, h2]
  · have h1 : (x ++ [c]).dropWhile ws = x.dropWhile ws ++ [c] := by
      rw [List.dropWhile_append]
      split
      · next hx =>
        exfalso
        apply h
        rw [List.isEmpty_iff, List.dropWhile_eq_nil_iff] at hx
        exact List.all_eq_true.2 hx
      · rfl
    rw [h1]
    simp [hc]

/-- Splitting the joined names gives the names back, up to blanks around them. -/
theorem split_join {ws : Char → Bool} (hsp : ws ' ' = true) {xs : List (List Char)} (hne : xs ≠ [])
    (h : ∀ x ∈ xs, ',' ∉ x ∧ strip ws x = x) :
    (splitC ',' (joinC [',', ' '] xs)).map (strip ws) = xs ∧
    (splitC ',' (joinC [',', ' '] xs ++ [' '])).map (strip ws) = xs ∧
    (splitC ',' (' ' :: joinC [',', ' '] xs)).map (strip ws) = xs := by
  have hcons : ∀ l, (splitC ',' (' ' :: l)).map (strip ws) = (splitC ',' l).map (strip ws) := by
    intro l
    have hne := splitC_ne_nil ',' l
    simp only [splitC]
    rw [if_neg (by decide)]
    split
    · next h0 => exact absurd h0 hne
    · next h0 => simp [h0, strip_cons hsp]
  suffices hs : (splitC ',' (joinC [',', ' '] xs)).map (strip ws) = xs ∧
      (splitC ',' (joinC [',', ' '] xs ++ [' '])).map (strip ws) = xs from
    ⟨hs.1, hs.2, by rw [hcons]; exact hs.1⟩
  induction xs with
  | nil => exact absurd rfl hne
  | cons x xs ih =>
    obtain ⟨h1, h2⟩ := h x (by simp)
    cases xs with
    | nil =>
      simp only [joinC]
      constructor
      · rw [splitC_of_not_mem h1]; simp [h2]
      · rw [splitC_of_not_mem (by simp [h1])]; simp [strip_snoc hsp, h2]
    | cons y ys =>
      obtain ⟨h3, h4⟩ := ih (by simp) fun z hz => h z (by simp [hz])
      have e1 : joinC [',', ' '] (x :: y :: ys) = x ++ ',' :: ' ' :: joinC [',', ' '] (y :: ys) := by
        simp [joinC]
      rw [e1]
      constructor
      · rw [splitC_append h1, List.map_cons, hcons, h3, h2]
      · rw [List.append_assoc, List.cons_append, splitC_append h1, List.map_cons, List.cons_append, hcons, h4, h2]

theorem strip_space {ws : Char → Bool} (hsp : ws ' ' = true) :
    Imp.str2set ws [' '] = {[]} := by
  simp [Imp.str2set, splitC, strip, hsp]

namespace Imp

/-- What `str2imp` makes of the text of an implication. -/
theorem str2imp_text {ws : Char → Bool} (hsp : ws ' ' = true) (ord : SetOrder (List Char))
    (i : Imp (List Char)) (h : ∀ x ∈ i.premise ∪ i.conclusion, TextSafe ws x) :
    str2imp ws (i.text ord) = .ok ⟨if i.premise = ∅ then {[]} else i.premise,
      if i.reduced = ∅ then {[]} else i.reduced⟩ := by
  have hp : ∀ x ∈ ord.enum i.premise, TextSafe ws x := by
    intro x hx
    rw [ord.mem] at hx
    exact h x (by simp [hx])
  have hc : ∀ x ∈ ord.enum i.reduced, TextSafe ws x := by
    intro x hx
    rw [ord.mem, reduced, Finset.mem_sdiff] at hx
    exact h x (by simp [hx.1])
  have hset : ∀ s : Finset (List Char), (∀ x ∈ ord.enum s, TextSafe ws x) →
      str2set ws (joinC [',', ' '] (ord.enum s) ++ [' ']) = (if s = ∅ then {[]} else s) ∧
      str2set ws (' ' :: joinC [',', ' '] (ord.enum s)) = if s = ∅ then {[]} else s := by
    intro s hs
    by_cases he : s = ∅
    · have hn : ord.enum s = [] := by
        apply List.eq_nil_iff_forall_not_mem.2
        intro x hx
        rw [ord.mem, he] at hx
        simp at hx
      rw [hn, if_pos he]
      exact ⟨strip_space hsp, strip_space hsp⟩
    · have hn : ord.enum s ≠ [] := by
        intro hn
        apply he
        ext x
        rw [← ord.mem s, hn]; simp
      obtain ⟨_, h2, h3⟩ := split_join hsp hn fun x hx => ⟨(hs x hx).comma, (hs x hx).blanks⟩
      have ht : (ord.enum s).toFinset = s := by ext x; simp [ord.mem]
      rw [if_neg he]
      simp only [str2set, h2, h3, ht, and_self]
  have htext : i.text ord = (joinC [',', ' '] (ord.enum i.premise) ++ [' ']) ++ '=' :: '>' ::
      (' ' :: joinC [',', ' '] (ord.enum i.reduced)) := by
    simp [text, joinC]
  have ha1 : ¬ ['=', '>'] <:+: joinC [',', ' '] (ord.enum i.premise) ++ [' '] :=
    noArrow_append (noArrow_join fun x hx => (hp x hx).arrow) (by simp [List.infix_nil]) (by decide) (by decide)
  have ha2 : ¬ ['=', '>'] <:+: ' ' :: joinC [',', ' '] (ord.enum i.reduced) := by
    have := noArrow_append (s := ' ') (l := []) (by simp [List.infix_nil])
      (noArrow_join fun x hx => (hc x hx).arrow) (by decide) (by decide)
    simpa using this
  unfold str2imp
  rw [htext, splitArrow_append ha1, splitArrow_of_noArrow ha2]
  simp only [(hset _ hp).1, (hset _ hc).2]

/-- C23: the text is read back to an equal implication exactly when the premise is not empty, and
the (reduced) conclusion is not empty either or the empty name belongs to the premise. -/
theorem C23_round_trip_partial {ws : Char → Bool} (hsp : ws ' ' = true) (ord : SetOrder (List Char))
    (i : Imp (List Char)) (h : ∀ x ∈ i.premise ∪ i.conclusion, TextSafe ws x) :
    ∃ j, str2imp ws (i.text ord) = .ok j ∧
      (j.pyEq i = true ↔ i.premise ≠ ∅ ∧ (i.reduced ≠ ∅ ∨ [] ∈ i.premise)) := by
  refine ⟨_, str2imp_text hsp ord i h, ?_⟩
  simp only [pyEq, Bool.and_eq_true, beq_iff_eq]
  by_cases hp : i.premise = ∅
  · simp [hp]
  · rw [if_neg hp]
    simp only [hp, not_false_eq_true, true_and, ne_eq]
    by_cases hc : i.reduced = ∅
    · rw [if_pos hc]
      simp only [hc, not_true_eq_false, false_or]
      rw [show (Imp.reduced ⟨i.premise, {[]}⟩ : Finset (List Char)) = {[]} \ i.premise from rfl,
        Finset.sdiff_eq_empty_iff_subset, Finset.singleton_subset_iff]
    · rw [if_neg hc]
      simp only [hc, not_false_eq_true, true_or, iff_true]
      rw [show (Imp.reduced ⟨i.premise, i.reduced⟩ : Finset (List Char)) = i.reduced \ i.premise from rfl]
      ext x
      simp only [reduced, Finset.mem_sdiff]
      tauto

/-- C23 fails for implications with empty premise: `=> a` is read as `{''} => a`. -/
theorem C23_round_trip_violated (ord : SetOrder (List Char)) :
    ∃ i : Imp (List Char), (∀ x ∈ i.premise ∪ i.conclusion, TextSafe (· == ' ') x) ∧
      ∃ j, str2imp (· == ' ') (i.text ord) = .ok j ∧ j.pyEq i = false := by
  have hsafe : ∀ x ∈ (⟨∅, {['a']}⟩ : Imp (List Char)).premise ∪ (⟨∅, {['a']}⟩ : Imp (List Char)).conclusion,
      TextSafe (· == ' ') x := by
    intro x hx
    simp only [Finset.empty_union, Finset.mem_singleton] at hx
    subst hx
    exact ⟨by decide, by rintro ⟨a, b, h⟩; have := congrArg List.length h; simp at this; omega, by decide⟩
  refine ⟨⟨∅, {['a']}⟩, hsafe, ?_⟩
  obtain ⟨j, hj, hi⟩ := C23_round_trip_partial (ws := (· == ' ')) rfl ord _ hsafe
  refine ⟨j, hj, ?_⟩
  rw [← Bool.not_eq_true, hi]
  simp

example : ∃ i : Imp (List Char), (∀ x ∈ i.premise ∪ i.conclusion, TextSafe (· == ' ') x) ∧
    i.premise ≠ ∅ ∧ i.reduced ≠ ∅ := by
  refine ⟨⟨{['a']}, {['b'], ['a']}⟩, ?_, by decide, by decide⟩
  intro x hx
  simp only [Finset.mem_union, Finset.mem_insert, Finset.mem_singleton] at hx
  have : x = ['a'] ∨ x = ['b'] := by tauto
  rcases this with rfl | rfl <;>
    exact ⟨by decide, by rintro ⟨a, b, h⟩; have := congrArg List.length h; simp at this; omega, by decide⟩

theorem splitC_eq_splitOn (c : Char) (l : List Char) : splitC c l = l.splitOn c := by
  induction l with
  | nil => rfl
  | cons x l ih =>
    rw [List.splitOn, List.splitOnP_cons_eq_if_modifyHead]
    simp only [splitC, ih, beq_iff_eq]
    split
    · rfl
    · rw [← ih]
      cases h : splitC c l with
      | nil => exact absurd h (splitC_ne_nil c l)
      | cons y ys => rw [← List.splitOn, ← ih, h]; rfl

/-- A text with exactly one arrow gives an implication: the parts of the two sides between the commas, without the
blanks around them. -/
theorem C23_one_arrow (ws : Char → Bool) {p c : List Char} (hp : ¬ ['=', '>'] <:+: p) (hc : ¬ ['=', '>'] <:+: c) :
    str2imp ws (p ++ '=' :: '>' :: c) =
      .ok ⟨((p.splitOn ',').map (strip ws)).toFinset, ((c.splitOn ',').map (strip ws)).toFinset⟩ := by
  unfold str2imp
  rw [splitArrow_append hp, splitArrow_of_noArrow hc]
  simp only [str2set, splitC_eq_splitOn]

theorem splitArrow_ne_nil (l : List Char) : splitArrow l ≠ [] := by
  fun_cases splitArrow l <;> simp

/-- A text without an arrow, or with more than one, raises ValueError. -/
theorem C23_malformed (ws : Char → Bool) :
    (∀ s : List Char, ¬ ['=', '>'] <:+: s → str2imp ws s = .error .valueError) ∧
    (∀ p q r : List Char, ¬ ['=', '>'] <:+: p → ¬ ['=', '>'] <:+: q →
      str2imp ws (p ++ '=' :: '>' :: (q ++ '=' :: '>' :: r)) = .error .valueError) := by
  refine ⟨fun s hs => ?_, fun p q r hp hq => ?_⟩
  · unfold str2imp
    rw [splitArrow_of_noArrow hs]
  · unfold str2imp
    rw [splitArrow_append hp, splitArrow_append hq]
    obtain ⟨x, l, hl⟩ := List.exists_cons_of_ne_nil (splitArrow_ne_nil r)
    rw [hl]

example : str2imp (· == ' ') "a, b=> c".toList = .ok ⟨{['a'], ['b']}, {['c']}⟩ ∧
    str2imp (· == ' ') "a, b".toList = .error .valueError ∧
    str2imp (· == ' ') "a => b => c".toList = .error .valueError := by decide +kernel

end Imp
