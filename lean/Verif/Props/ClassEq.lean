/-
Property C140: `==` of contexts as a relation, and between the classes.
-/
import Verif.Model.ClassEq
import Verif.Props.Equality

set_option linter.unusedSectionVars false

open Spec

namespace Ctx
variable {α β : Type} [DecidableEq α] [DecidableEq β] {strO : α → List Char} {strA : β → List Char}

theorem Same.refl (c : Ctx α β) : Same c c := ⟨fun _ => Iff.rfl, fun _ => Iff.rfl, fun _ _ => Iff.rfl⟩

theorem Same.symm {c d : Ctx α β} (h : Same c d) : Same d c :=
  ⟨fun o => (h.1 o).symm, fun a => (h.2.1 a).symm, fun o a => (h.2.2 o a).symm⟩

theorem Same.trans {c d e : Ctx α β} (h : Same c d) (h' : Same d e) : Same c e :=
  ⟨fun o => (h.1 o).trans (h'.1 o), fun a => (h.2.1 a).trans (h'.2.1 a), fun o a => (h.2.2 o a).trans (h'.2.2 o a)⟩

/-- `==` of two contexts returns: true exactly if the texts are equal or the contexts are the same up to the order of objects
and attributes. -/
theorem C140_exact {c d : Ctx α β} (hc : c.WFw) (hd : d.WFw) :
    ∃ b, c.eq strO strA d = .ok b ∧ (b = true ↔ c.repr strO strA = d.repr strO strA ∨ Same c d) := by
  by_cases hs : Same c d
  · exact ⟨true, C09_permuted_equal hc hd strO strA hs, by simp [hs]⟩
  by_cases hr : c.repr strO strA = d.repr strO strA
  · refine ⟨true, ?_, by simp [hr]⟩
    have := hd.repr strO strA
    simp only [eq, hr, this, py_ok_bind, if_true]
  · have hne := hr
    simp only [hc.repr, hd.repr] at hne
    rw [Except.ok.injEq] at hne
    refine ⟨false, ?_, by simp [hs, hr]⟩
    simp only [eq, hc.repr, hd.repr, py_ok_bind]
    rw [if_neg hne]
    split
    · rfl
    · split
      · rfl
      · next hsets =>
        rw [not_or, not_not, not_not] at hsets
        have ho : ∀ o, o ∈ c.objects ↔ o ∈ d.objects := by
          intro o; rw [← List.mem_toFinset, hsets.1, List.mem_toFinset]
        have ha : ∀ o, o ∈ c.attributes ↔ o ∈ d.attributes := by
          intro o; rw [← List.mem_toFinset, hsets.2, List.mem_toFinset]
        obtain ⟨is, his, hf⟩ := mapM_firstIdx (fun o h => (ho o).1 h)
        obtain ⟨js, hjs, hg⟩ := mapM_firstIdx (fun a h => (ha a).1 h)
        have htab : (is.mapM fun i => js.mapM fun j => d.nd.cell i j) =
            .ok (c.objects.map fun o => c.attributes.map (d.incB o)) := by
          refine mapM_forall₂ hf fun o i hoi => ?_
          exact mapM_forall₂ hg fun a j haj => hd.cell_name hoi haj
        simp only [his, hjs, htab, py_ok_bind, Except.ok.injEq, decide_eq_false_iff_not]
        intro he
        apply hs
        refine ⟨ho, ha, ?_⟩
        rw [hc.rows_eq, List.map_inj_left] at he
        intro o a
        constructor
        · intro hi
          have h3 := he o hi.mem.1
          rw [List.map_inj_left] at h3
          rw [← hd.incB, h3 a hi.mem.2, hc.incB]
          exact hi
        · intro hi
          have h3 := he o ((ho o).2 hi.mem.1)
          rw [List.map_inj_left] at h3
          rw [← hc.incB, ← h3 a ((ha a).2 hi.mem.2), hd.incB]
          exact hi

/-- `==` is reflexive and symmetric on contexts, and transitive if the names of the first two and of the last two are written
without ambiguity. Missing: transitivity for all names. -/
theorem C140_equivalence_partial {c d e : Ctx α β} (hc : c.WFw) (hd : d.WFw) (he : e.WFw) :
    c.eq strO strA c = .ok true ∧ c.eq strO strA d = d.eq strO strA c ∧
    (LineSafe strO strA c d → LineSafe strO strA d e → c.eq strO strA d = .ok true → d.eq strO strA e = .ok true →
      c.eq strO strA e = .ok true) := by
  refine ⟨C09_permuted_equal hc hc strO strA (Same.refl c), ?_, fun h1 h2 h3 h4 => ?_⟩
  · obtain ⟨b, e1, e2⟩ := C140_exact (strO := strO) (strA := strA) hc hd
    obtain ⟨b', e3, e4⟩ := C140_exact (strO := strO) (strA := strA) hd hc
    rw [e1, e3]
    congr 1
    rw [Bool.eq_iff_iff, e2, e4]
    exact ⟨fun h => h.imp Eq.symm Same.symm, fun h => h.imp Eq.symm Same.symm⟩
  · exact C09_permuted_equal hc he strO strA
      ((C09_equal_same_partial hc hd strO strA h1 h3).trans (C09_equal_same_partial hd he strO strA h2 h4))

/-- `==` is not transitive: attributes `['a, b', 'c']`, `['a', 'b, c']` and `['b, c', 'a']`. -/
theorem C140_transitive_violated :
    ∃ c d e : Ctx (List Char) (List Char), c.WFw ∧ d.WFw ∧ e.WFw ∧ c.eq id id d = .ok true ∧ d.eq id id e = .ok true ∧
      c.eq id id e = .ok false := by
  refine ⟨⟨["g".toList], ["a, b".toList, "c".toList], ⟨some 2, [[true, false]]⟩⟩,
    ⟨["g".toList], ["a".toList, "b, c".toList], ⟨some 2, [[true, false]]⟩⟩,
    ⟨["g".toList], ["b, c".toList, "a".toList], ⟨some 2, [[false, true]]⟩⟩, by constructor <;> decide +kernel,
    by constructor <;> decide +kernel, by constructor <;> decide +kernel, by decide +kernel, by decide +kernel, by decide +kernel⟩

end Ctx

namespace PyObj
variable {α β : Type} [DecidableEq α] [DecidableEq β] {strO : α → List Char} {strA : β → List Char}

/-- An object is a context of one of the classes with a table that fits. -/
def Fits : PyObj α β → Prop
  | context c => c.WFw
  | mv c => c.WFw
  | other => False

/-- `x == y` for a context `x` of either class and anything: a TypeError is raised if and only if neither of the two is a
`Context` proper or one of them is no context at all; in particular no `ManyValuedContext` can be compared, even with
itself. Otherwise a truth value comes back. Exchanging the sides changes nothing. -/
theorem C140_classes (rest : Py Bool) {x : PyObj α β} (hx : x.Fits) (y : PyObj α β) (hy : y.Fits ∨ y = other) :
    eq strO strA rest x y = eq strO strA rest y x ∧
    (eq strO strA rest x y = .error .typeError ↔ y = other ∨ ∃ c d, x = mv c ∧ y = mv d) ∧
    (∀ e, eq strO strA rest x y = .error e → e = .typeError) := by
  have key : ∀ {c d : Ctx α β}, c.WFw → d.WFw → ∃ b, c.eq strO strA d = .ok b ∧ d.eq strO strA c = .ok b := by
    intro c d hc hd
    obtain ⟨b, hb, -⟩ := Ctx.C140_exact (strO := strO) (strA := strA) hc hd
    exact ⟨b, hb, (Ctx.C140_equivalence_partial hc hd hd).2.1 ▸ hb⟩
  rcases x with c | c | _ <;> rcases y with d | d | _
  · obtain ⟨b, h1, h2⟩ := key hx (hy.resolve_right (by simp))
    simp [eq, eqMethod, h1, h2]
  · obtain ⟨b, h1, h2⟩ := key hx (hy.resolve_right (by simp))
    simp [eq, eqMethod, h2]
  · simp [eq, eqMethod]
  · obtain ⟨b, h1, h2⟩ := key hx (hy.resolve_right (by simp))
    simp [eq, eqMethod, h1]
  · simp [eq, eqMethod]
  · simp [eq, eqMethod]
  all_goals exact hx.elim

/-- `x in l` for a list of contexts: an identical element is found unless an element before it cannot be compared or is
equal anyway; a many-valued context is found by identity only, and the first element that is neither it nor a `Context`
raises TypeError. -/
theorem C140_contains (rest : Py Bool) {i : ℕ} {c : Ctx α β} (hc : c.WFw) (l : List (ℕ × PyObj α β))
    (hl : ∀ y ∈ l, y.2.Fits) :
    (mem strO strA rest (i, context c) l = .ok true ∨ mem strO strA rest (i, context c) l = .ok false) ∧
    ((∀ y ∈ l, ∃ d, y.2 = mv d) → mem strO strA rest (i, mv c) l =
      match l with | [] => .ok false | y :: _ => if y.1 = i then .ok true else .error .typeError) ∧
    (mem strO strA rest (i, context c) l = .ok true ↔ ∃ y ∈ l, y.1 = i ∨ ∃ d, (y.2 = context d ∨ y.2 = mv d) ∧
      (c.repr strO strA = d.repr strO strA ∨ Ctx.Same c d)) := by
  have hex : ∀ y ∈ l, ∃ b, eq strO strA rest y.2 (context c) = .ok b ∧ (b = true ↔ ∃ d, (y.2 = context d ∨ y.2 = mv d) ∧
      (c.repr strO strA = d.repr strO strA ∨ Ctx.Same c d)) := by
    rintro ⟨k, y⟩ hy
    have hf := hl _ hy
    rcases y with d | d | _
    · obtain ⟨b, h1, h2⟩ := Ctx.C140_exact (strO := strO) (strA := strA) hc hf
      refine ⟨b, ?_, by simpa using h2⟩
      show d.eq strO strA c = _
      rw [← h1]; exact (Ctx.C140_equivalence_partial hf hc hc).2.1
    · obtain ⟨b, h1, h2⟩ := Ctx.C140_exact (strO := strO) (strA := strA) hc hf
      refine ⟨b, ?_, by simpa using h2⟩
      show d.eq strO strA c = _
      rw [← h1]; exact (Ctx.C140_equivalence_partial hf hc hc).2.1
    · exact hf.elim
  have main : ∀ l : List (ℕ × PyObj α β), (∀ y ∈ l, ∃ b, eq strO strA rest y.2 (context c) = .ok b ∧
      (b = true ↔ ∃ d, (y.2 = context d ∨ y.2 = mv d) ∧ (c.repr strO strA = d.repr strO strA ∨ Ctx.Same c d))) →
      ∃ b, mem strO strA rest (i, context c) l = .ok b ∧ (b = true ↔ ∃ y ∈ l, y.1 = i ∨
        ∃ d, (y.2 = context d ∨ y.2 = mv d) ∧ (c.repr strO strA = d.repr strO strA ∨ Ctx.Same c d)) := by
    intro l hl
    induction l with
    | nil => exact ⟨false, rfl, by simp⟩
    | cons y l ih =>
      obtain ⟨b, h1, h2⟩ := ih fun z hz => hl z (List.mem_cons_of_mem _ hz)
      obtain ⟨b', h3, h4⟩ := hl y List.mem_cons_self
      simp only [mem, List.mem_cons, exists_eq_or_imp]
      by_cases hi : y.1 = i
      · exact ⟨true, by simp [hi], by simp [hi]⟩
      · cases b' with
        | true => exact ⟨true, by simp [hi, h3], ⟨fun _ => .inl (.inr (h4.1 rfl)), fun _ => rfl⟩⟩
        | false =>
          refine ⟨b, by simp [hi, h3, h1], ?_⟩
          rw [h2]
          refine ⟨.inr, fun h => h.resolve_left ?_⟩
          rintro (h | h)
          · exact hi h
          · exact absurd (h4.2 h) (by simp)
  obtain ⟨b, h1, h2⟩ := main l hex
  refine ⟨by cases b <;> simp [h1], ?_, by rw [h1, Except.ok.injEq]; exact h2⟩
  intro hm
  cases l with
  | nil => rfl
  | cons y l =>
    obtain ⟨d, hd⟩ := hm y List.mem_cons_self
    simp only [mem, hd]
    split <;> rfl

end PyObj

/-! ### Examples -/

example : Ctx.cxtP.eq id id Ctx.cxtP = .ok true := (Ctx.C140_equivalence_partial Ctx.cxtP_wf Ctx.cxtP_wf Ctx.cxtP_wf).1

/-- A many-valued context cannot be compared with itself, but with the context that has its table. -/
example : PyObj.eq id id (.ok false) (.mv Ctx.cxtP) (.mv Ctx.cxtP) = .error .typeError ∧
    PyObj.eq id id (.ok false) (.context Ctx.cxtP) (.mv Ctx.cxtP) = .ok true ∧
    PyObj.eq id id (.ok false) (.other) (.context Ctx.cxtP) = .error .typeError := by
  refine ⟨rfl, ?_, rfl⟩
  exact (Ctx.C140_equivalence_partial Ctx.cxtP_wf Ctx.cxtP_wf Ctx.cxtP_wf).1

/-- Found by identity at the first place, TypeError at the second. -/
example : PyObj.mem id id (.ok false) (0, .mv Ctx.cxtP) [(0, .mv Ctx.cxtP), (1, .mv Ctx.cxtP)] = .ok true ∧
    PyObj.mem id id (.ok false) (1, .mv Ctx.cxtP) [(0, .mv Ctx.cxtP), (1, .mv Ctx.cxtP)] = .error .typeError :=
  ⟨rfl, rfl⟩
