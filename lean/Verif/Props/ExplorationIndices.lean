/-
C156: positions of open implications in BasicExploration, for any integer; and C56: what a confirmation does.
-/
import Verif.Model.ExplorationIndices
import Verif.Props.BasicExploration

set_option linter.unusedSectionVars false

open Spec

/-- `x` is at position `i` of `l`: `i` elements precede it, or, for a negative `i`, it is the `-i`-th from the end. -/
def Spec.AtPos {γ : Type} (l : List γ) (i : ℤ) (pre : List γ) (x : γ) (post : List γ) : Prop :=
  l = pre ++ x :: post ∧ (i = pre.length ∨ i = -(post.length + 1 : ℤ))

theorem Spec.AtPos.inRange {γ : Type} {l : List γ} {i : ℤ} {pre : List γ} {x : γ} {post : List γ}
    (h : AtPos l i pre x post) : -(l.length : ℤ) ≤ i ∧ i < l.length := by
  obtain ⟨rfl, h⟩ := h
  simp only [List.length_append, List.length_cons]
  omega

/-- Every position from `-len` to `len - 1` is the position of an element. -/
theorem Spec.atPos_exists {γ : Type} {l : List γ} {i : ℤ} (h1 : -(l.length : ℤ) ≤ i) (h2 : i < l.length) :
    ∃ pre x post, AtPos l i pre x post := by
  obtain ⟨k, hk, hk'⟩ : ∃ k : ℕ, k < l.length ∧ (i = k ∨ i = (k : ℤ) - l.length) := by
    by_cases hi : 0 ≤ i
    · exact ⟨i.toNat, by omega, by omega⟩
    · exact ⟨(i + l.length).toNat, by omega, by omega⟩
  refine ⟨l.take k, l[k], l.drop (k + 1), ?_, ?_⟩
  · rw [List.getElem_cons_drop, List.take_append_drop]
  · rw [List.length_take, List.length_drop]
    omega

theorem listGetZ_atPos {γ : Type} {l : List γ} {i : ℤ} {pre : List γ} {x : γ} {post : List γ}
    (h : AtPos l i pre x post) :
    listGetZ l i = .ok x ∧ listDelZ l i = .ok (pre ++ post) ∧ l[pre.length]? = some x := by
  obtain ⟨rfl, h⟩ := h
  have hj : (if i < 0 then i + ((pre ++ x :: post).length : ℤ) else i) = (pre.length : ℤ) := by
    simp only [List.length_append, List.length_cons]
    split <;> omega
  have hg : (pre ++ x :: post)[pre.length]? = some x := by simp
  refine ⟨?_, ?_, hg⟩
  · simp only [listGetZ, hj]
    rw [if_neg (by omega), Int.toNat_natCast, hg]
  · simp only [listDelZ, hj]
    rw [if_neg (by omega), if_pos (by simp only [List.length_append, List.length_cons]; omega), Int.toNat_natCast,
      List.eraseIdx_append_of_length_le (Nat.le_refl _)]
    simp

theorem listGetZ_out {γ : Type} {l : List γ} {i : ℤ} (h : i < -(l.length : ℤ) ∨ (l.length : ℤ) ≤ i) :
    listGetZ l i = .error .indexError := by
  simp only [listGetZ]
  by_cases hi : i < 0
  · rw [if_pos hi, if_pos (by omega)]
  · rw [if_neg hi, if_neg hi, List.getElem?_eq_none (by omega)]

theorem listDelZ_out {γ : Type} {l : List γ} {i : ℤ} (h : i < -(l.length : ℤ) ∨ (l.length : ℤ) ≤ i) :
    listDelZ l i = .error .indexError := by
  simp only [listDelZ]
  by_cases hi : i < 0
  · rw [if_pos hi, if_pos (by omega)]
  · rw [if_neg hi, if_neg hi, if_neg (by omega)]

namespace BExp

variable {α β : Type} [DecidableEq α] [DecidableEq β] [PyName α] [PyName β]

/-- A position outside the list of open implications raises IndexError, whichever of the four methods gets it, and
the exploration is as before. -/
theorem C156_out_of_range {E : Env α β} {s : BExp α β} {i : ℤ} :
    (i < -(s.attrImps.length : ℤ) ∨ (s.attrImps.length : ℤ) ≤ i →
      s.confirmAttrZ i = (s, some .indexError) ∧ ∀ n B, s.counterAttrZ E n B i = (s, some .indexError)) ∧
    (i < -(s.objImps.length : ℤ) ∨ (s.objImps.length : ℤ) ≤ i →
      s.confirmObjZ i = (s, some .indexError) ∧ ∀ n A, s.counterObjZ E n A i = (s, some .indexError)) := by
  refine ⟨fun h => ⟨?_, fun n B => ?_⟩, fun h => ⟨?_, fun n A => ?_⟩⟩
  · simp only [confirmAttrZ, listGetZ_out h]
  · simp only [counterAttrZ, listGetZ_out h]
  · simp only [confirmObjZ, listGetZ_out h]
  · simp only [counterObjZ, listGetZ_out h]

/-- A confirmation with a position of the list moves the implication at that position, and no other, to the end of the
list of confirmed ones. -/
theorem C156_confirm {s : BExp α β} {i : ℤ} :
    (∀ pre imp post, AtPos s.attrImps i pre imp post →
      s.confirmAttrZ i = ({ s with attrImps := pre ++ post, confAttr := s.confAttr ++ [imp] }, none)) ∧
    (∀ pre imp post, AtPos s.objImps i pre imp post →
      s.confirmObjZ i = ({ s with objImps := pre ++ post, confObj := s.confObj ++ [imp] }, none)) := by
  refine ⟨fun pre imp post h => ?_, fun pre imp post h => ?_⟩
  · obtain ⟨h1, h2, -⟩ := listGetZ_atPos h
    simp only [confirmAttrZ, h1, h2]
  · obtain ⟨h1, h2, -⟩ := listGetZ_atPos h
    simp only [confirmObjZ, h1, h2]

theorem confirmAttrZ_nat {s : BExp α β} {i : ℤ} {pre post : List (Imp β)} {imp : Imp β}
    (h : AtPos s.attrImps i pre imp post) : s.confirmAttrZ i = s.confirmAttr pre.length := by
  obtain ⟨-, h2, h3⟩ := listGetZ_atPos h
  rw [C156_confirm.1 _ _ _ h]
  simp only [confirmAttr, h3]
  rw [h.1, List.eraseIdx_append_of_length_le (Nat.le_refl _)]
  simp

theorem confirmObjZ_nat {s : BExp α β} {i : ℤ} {pre post : List (Imp α)} {imp : Imp α}
    (h : AtPos s.objImps i pre imp post) : s.confirmObjZ i = s.confirmObj pre.length := by
  obtain ⟨-, h2, h3⟩ := listGetZ_atPos h
  rw [C156_confirm.2 _ _ _ h]
  simp only [confirmObj, h3]
  rw [h.1, List.eraseIdx_append_of_length_le (Nat.le_refl _)]
  simp

/-- A call that differs from another one at most in how the position is written. -/
def SameCall : OpZ α β → Op α β → Prop
  | .confirmAttr _, .confirmAttr _ => True
  | .confirmObj _, .confirmObj _ => True
  | .counterAttr n B _, .counterAttr n' B' _ => n = n' ∧ B = B'
  | .counterObj n A _, .counterObj n' A' _ => n = n' ∧ A = A'
  | .addObject B n, .addObject B' n' => B = B' ∧ n = n'
  | .addAttribute A n, .addAttribute A' n' => A = A' ∧ n = n'
  | .editObject B n, .editObject B' n' => B = B' ∧ n = n'
  | .editAttribute A n, .editAttribute A' n' => A = A' ∧ n = n'
  | _, _ => False

/-- In every state, a call with any integer position has the outcome of the same call with a position counted from
the beginning. -/
theorem C156_call {E : Env α β} (s : BExp α β) (op : OpZ α β) :
    ∃ op', SameCall op op' ∧ s.execZ E op = s.exec E op' := by
  have key : ∀ {γ : Type} (l : List γ) (i : ℤ), (i < -(l.length : ℤ) ∨ (l.length : ℤ) ≤ i) ∨
      ∃ pre x post, AtPos l i pre x post := by
    intro γ l i
    by_cases h : i < -(l.length : ℤ) ∨ (l.length : ℤ) ≤ i
    · exact .inl h
    · exact .inr (atPos_exists (by omega) (by omega))
  cases op with
  | confirmAttr i =>
    rcases key s.attrImps i with h | ⟨pre, x, post, h⟩
    · refine ⟨.confirmAttr s.attrImps.length, trivial, ?_⟩
      simp only [execZ, exec, ((C156_out_of_range (E := E)).1 h).1, confirmAttr, List.getElem?_eq_none (Nat.le_refl _)]
    · exact ⟨.confirmAttr pre.length, trivial, confirmAttrZ_nat h⟩
  | confirmObj i =>
    rcases key s.objImps i with h | ⟨pre, x, post, h⟩
    · refine ⟨.confirmObj s.objImps.length, trivial, ?_⟩
      simp only [execZ, exec, ((C156_out_of_range (E := E)).2 h).1, confirmObj, List.getElem?_eq_none (Nat.le_refl _)]
    · exact ⟨.confirmObj pre.length, trivial, confirmObjZ_nat h⟩
  | counterAttr n B i =>
    rcases key s.attrImps i with h | ⟨pre, x, post, h⟩
    · refine ⟨.counterAttr n B s.attrImps.length, ⟨rfl, rfl⟩, ?_⟩
      simp only [execZ, exec, (C156_out_of_range.1 h).2, counterAttr, List.getElem?_eq_none (Nat.le_refl _)]
    · obtain ⟨h1, -, h3⟩ := listGetZ_atPos h
      exact ⟨.counterAttr n B pre.length, ⟨rfl, rfl⟩, by simp only [execZ, exec, counterAttrZ, counterAttr, h1, h3]⟩
  | counterObj n A i =>
    rcases key s.objImps i with h | ⟨pre, x, post, h⟩
    · refine ⟨.counterObj n A s.objImps.length, ⟨rfl, rfl⟩, ?_⟩
      simp only [execZ, exec, (C156_out_of_range.2 h).2, counterObj, List.getElem?_eq_none (Nat.le_refl _)]
    · obtain ⟨h1, -, h3⟩ := listGetZ_atPos h
      exact ⟨.counterObj n A pre.length, ⟨rfl, rfl⟩, by simp only [execZ, exec, counterObjZ, counterObj, h1, h3]⟩
  | addObject B n => exact ⟨.addObject B n, ⟨rfl, rfl⟩, rfl⟩
  | addAttribute A n => exact ⟨.addAttribute A n, ⟨rfl, rfl⟩, rfl⟩
  | editObject B n => exact ⟨.editObject B n, ⟨rfl, rfl⟩, rfl⟩
  | editAttribute A n => exact ⟨.editAttribute A n, ⟨rfl, rfl⟩, rfl⟩

/-- Every history with integer positions, raising calls included, leads to the state of a history of the same calls
with positions counted from the beginning; so what C55, C56 and C74 say about such histories holds for all of them. -/
theorem C156_histories {E : Env α β} (s : BExp α β) (ops : List (OpZ α β)) :
    ∃ ops', List.Forall₂ SameCall ops ops' ∧ runZ E s ops = run E s ops' := by
  induction ops generalizing s with
  | nil => exact ⟨[], .nil, rfl⟩
  | cons op ops ih =>
    obtain ⟨op', h1, h2⟩ := C156_call (E := E) s op
    obtain ⟨ops', h3, h4⟩ := ih (s.execZ E op).1
    refine ⟨op' :: ops', .cons h1 h3, ?_⟩
    have e1 : runZ E s (op :: ops) = runZ E (s.execZ E op).1 ops := rfl
    have e2 : run E s (op' :: ops') = run E (s.exec E op').1 ops' := rfl
    rw [e1, e2, h4, h2]

/-- Confirming the last open implication (position `-1`) of an exploration that has one always succeeds. -/
theorem C156_last {s : BExp α β} (h : s.attrImps ≠ []) :
    s.confirmAttrZ (-1) =
      ({ s with attrImps := s.attrImps.dropLast, confAttr := s.confAttr ++ [s.attrImps.getLast h] }, none) := by
  have : AtPos s.attrImps (-1) s.attrImps.dropLast (s.attrImps.getLast h) [] :=
    ⟨(List.dropLast_append_getLast h).symm, .inr (by simp)⟩
  rw [C156_confirm.1 _ _ _ this, List.append_nil]

example : AtPos [5, 6, 7] (-1) [5, 6] 7 [] ∧ AtPos [5, 6, 7] 1 [5] 6 [7] ∧ AtPos [5, 6, 7] (-2) [5] 6 [7] := by
  refine ⟨⟨rfl, .inr (by decide)⟩, ⟨rfl, .inl (by decide)⟩, ⟨rfl, .inr (by decide)⟩⟩

example : wit0.attrImps ≠ [] ∧ (wit0.confirmAttrZ (-1)).1.confAttr = [⟨∅, {1}⟩] ∧
    (wit0.confirmAttrZ (-2)).2 = some .indexError := by
  refine ⟨by decide +kernel, by decide +kernel, by decide +kernel⟩

end BExp
