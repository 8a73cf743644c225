/-
Properties C112, C113 and C115: text and copies of partial contexts, answers that raise.
-/
import Verif.Model.PartialText
import Verif.Props.PartialContext

set_option linter.unusedSectionVars false

variable {α β : Type} [DecidableEq α] [DecidableEq β]

namespace PCtx

open Classical in
/-- The row of an object: `X` for a known attribute, `?` for one that is only possible. -/
noncomputable def rowText (p : PCtx α β) (o : α) : List Char :=
  p.attributes.map fun a => if p.x.Inc o a then 'X' else if p.q.Inc o a then '?' else '.'

theorem WF.intentToStr {p : PCtx α β} (h : p.WF) (o : α) : p.intentToStr (p.x.upF {o}) (p.q.upF {o}) = p.rowText o := by
  unfold PCtx.intentToStr rowText
  apply List.map_congr_left
  intro a _
  have e1 : a ∈ p.x.upF {o} ↔ p.x.Inc o a := mem_up1 h.xw
  have e2 : a ∈ p.q.upF {o} ↔ p.q.Inc o a := mem_up1 h.qw
  by_cases h1 : p.x.Inc o a <;> by_cases h2 : p.q.Inc o a <;> simp [e1, e2, h1, h2]

/-- C112: the text of a well-formed partial context consists of the attributes, the objects and, for every
object in order, a line break and its row. -/
theorem C112_repr {p : PCtx α β} (h : p.WF) (strO : α → List Char) (strA : β → List Char) :
    p.repr strO strA = .ok (Ctx.joinC [',', ' '] (p.attributes.map strA) ++ ['\n'] ++
      (Ctx.joinC [',', ' '] (p.objects.map strO) ++ ['\n'] ++ p.objects.flatMap fun o => '\n' :: p.rowText o)) := by
  unfold PCtx.repr
  rw [mapM_ok (g := fun o => '\n' :: p.rowText o)]
  · rw [py_ok_bind, List.flatMap_def]
  · intro o ho
    rw [h.xw.objectIntent (by rw [h.xo]; exact ho), py_ok_bind, h.qw.objectIntent (by rw [h.qo]; exact ho),
      py_ok_bind, h.intentToStr]

theorem rowText_iff {p p' : PCtx α β} (h : p.WF) (h' : p'.WF) (ha : p'.attributes = p.attributes) (o : α) :
    p.rowText o = p'.rowText o ↔
      ∀ a ∈ p.attributes, (p.x.Inc o a ↔ p'.x.Inc o a) ∧ (p.q.Inc o a ↔ p'.q.Inc o a) := by
  unfold rowText
  rw [ha, List.map_inj_left]
  refine forall₂_congr fun a _ => ?_
  have l1 := h.le o a
  have l2 := h'.le o a
  by_cases x1 : p.x.Inc o a <;> by_cases x2 : p'.x.Inc o a <;> by_cases q1 : p.q.Inc o a <;>
    by_cases q2 : p'.q.Inc o a <;> simp_all

theorem flatMap_rows {f g : α → List Char} {n : ℕ} (hf : ∀ o, (f o).length = n) (hg : ∀ o, (g o).length = n)
    (l : List α) : l.flatMap f = l.flatMap g ↔ ∀ o ∈ l, f o = g o := by
  induction l with
  | nil => simp
  | cons o l ih =>
    rw [List.flatMap_cons, List.flatMap_cons, List.forall_mem_cons, ← ih]
    exact ⟨fun h => List.append_inj h (by rw [hf, hg]), fun h => by rw [h.1, h.2]⟩

/-- C112: two partial contexts with the same objects and attributes have the same text exactly if the same
is known and the same is possible in both. -/
theorem C112_repr_injective {p p' : PCtx α β} (h : p.WF) (h' : p'.WF) (ho : p'.objects = p.objects)
    (ha : p'.attributes = p.attributes) (strO : α → List Char) (strA : β → List Char) :
    p.repr strO strA = p'.repr strO strA ↔
      ∀ o ∈ p.objects, ∀ a ∈ p.attributes, (p.x.Inc o a ↔ p'.x.Inc o a) ∧ (p.q.Inc o a ↔ p'.q.Inc o a) := by
  rw [C112_repr h, C112_repr h', ho, ha, Except.ok.injEq, List.append_cancel_left_eq, List.append_cancel_left_eq,
    flatMap_rows (n := p.attributes.length + 1)]
  · refine forall₂_congr fun o _ => ?_
    rw [List.cons.injEq, ← rowText_iff h h' ha]; simp
  · intro o; simp [rowText]
  · intro o; simp [rowText, ha]

/-- `intents()` yields what is known and what is possible, object by object. -/
theorem C112_intents {p : PCtx α β} (h : p.WF) :
    ∃ l, p.intents = .ok l ∧ l.length = p.objects.length ∧
      ∀ (i : ℕ) o, p.objects[i]? = some o → ∃ X Q, l[i]? = some (X, Q) ∧
        ∀ a, (a ∈ X ↔ p.x.Inc o a) ∧ (a ∈ Q ↔ p.q.Inc o a) := by
  refine ⟨p.objects.map fun o => (p.x.upF {o}, p.q.upF {o}), ?_, by simp, ?_⟩
  · unfold PCtx.intents
    rw [mapM_ok]
    intro o ho
    rw [h.xw.objectIntent (by rw [h.xo]; exact ho), py_ok_bind, h.qw.objectIntent (by rw [h.qo]; exact ho)]
    rfl
  · intro i o ho
    exact ⟨_, _, by simp [ho], fun a => ⟨mem_up1 h.xw, mem_up1 h.qw⟩⟩

/-- C113 fails: `deepcopy` of every well-formed partial context with a cell, and of every one without objects,
raises IndexError. -/
theorem C113_deepcopy_violated [PyName α] [PyName β] {p : PCtx α β} (h : p.WF)
    (hc : p.objects = [] ∨ p.attributes ≠ []) : p.deepcopy = .error .indexError := by
  unfold PCtx.deepcopy subseteqNd
  have hx := h.xw.nrows
  have hq := h.qw.nrows
  rw [h.xo] at hx
  rw [h.qo] at hq
  rw [if_neg (by rw [hx, hq]; simp)]
  cases hxr : p.x.nd.rows with
  | nil => rfl
  | cons r0 rs =>
    cases hqr : p.q.nd.rows with
    | nil => rw [hxr] at hx; rw [hqr] at hq; simp only [List.length_cons, List.length_nil] at hx hq; omega
    | cons s0 ss =>
      have e1 : r0.length = p.attributes.length := by rw [h.xw.width r0 (by rw [hxr]; simp), h.xa]
      have e2 : s0.length = p.attributes.length := by rw [h.qw.width s0 (by rw [hqr]; simp), h.qa]
      have hat : p.attributes ≠ [] := by
        rcases hc with hc | hc
        · rw [hxr, hc] at hx; simp at hx
        · exact hc
      have hne : (r0 :: rs).length * r0.length ≠ 0 := by
        rw [e1]
        have := List.length_pos_iff.2 hat
        simp only [List.length_cons]
        exact Nat.mul_ne_zero (by omega) (by omega)
      simp only [e1, e2, ne_eq, not_true_eq_false, if_false]
      rw [e1] at hne
      rw [if_neg hne]
      rfl

/-- `deepcopy` of a partial context whose two tables have been given different shapes (for example by adding an object
to only one of its contexts) raises ValueError, in every state. -/
theorem C113_deepcopy_shapes [PyName α] [PyName β] {p : PCtx α β} :
    (p.x.nd.rows.length ≠ p.q.nd.rows.length → p.deepcopy = .error .valueError) ∧
    (∀ r rs r' rs', p.x.nd.rows = r :: rs → p.q.nd.rows = r' :: rs' → r.length ≠ r'.length →
      p.deepcopy = .error .valueError) := by
  constructor
  · intro h
    simp only [PCtx.deepcopy, subseteqNd, if_pos h]
    rfl
  · intro r rs r' rs' h1 h2 h
    by_cases hl : p.x.nd.rows.length ≠ p.q.nd.rows.length
    · simp only [PCtx.deepcopy, subseteqNd, if_pos hl]
      rfl
    · simp only [PCtx.deepcopy, subseteqNd, if_neg hl]
      simp only [h1, h2, if_pos h]
      rfl

example : (⟨[0], [0], ⟨[0, 1], [0], ⟨some 1, [[true], [true]]⟩⟩, ⟨[0], [0], ⟨some 1, [[true]]⟩⟩⟩ :
    PCtx (Fin 4) (Fin 2)).deepcopy = .error .valueError := by decide +kernel

/-- What remains of C113: with objects and without attributes the copy equals the original. -/
theorem C113_deepcopy_partial [PyName α] [PyName β] {p : PCtx α β} (h : p.WF) (ho : p.objects ≠ [])
    (ha : p.attributes = []) : p.deepcopy = .ok p := by
  have hx := h.xw.nrows
  have hq := h.qw.nrows
  rw [h.xo] at hx
  rw [h.qo] at hq
  have ex : Ctx.ofNd p.x.nd p.objects p.attributes = .ok p.x := by
    rw [← h.xo, ← h.xa]
    exact Ctx.ofNd_ok h.xw.nrows h.xw.width h.xw.onodup h.xw.anodup
  have eq : Ctx.ofNd p.q.nd p.objects p.attributes = .ok p.q := by
    rw [← h.qo, ← h.qa]
    exact Ctx.ofNd_ok h.qw.nrows h.qw.width h.qw.onodup h.qw.anodup
  have hs : subseteqNd p.x.nd p.q.nd = .ok true := by
    unfold subseteqNd
    rw [if_neg (by rw [hx, hq]; simp)]
    cases hxr : p.x.nd.rows with
    | nil => rw [hxr] at hx; exact absurd (List.length_eq_zero_iff.1 hx.symm) ho
    | cons r0 rs =>
      cases hqr : p.q.nd.rows with
      | nil => rw [hqr] at hq; exact absurd (List.length_eq_zero_iff.1 hq.symm) ho
      | cons s0 ss =>
        have e1 : r0.length = 0 := by rw [h.xw.width r0 (by rw [hxr]; simp), h.xa, ha]; rfl
        have e2 : s0.length = 0 := by rw [h.qw.width s0 (by rw [hqr]; simp), h.qa, ha]; rfl
        simp [e1, e2]
  unfold PCtx.deepcopy
  rw [hs, py_ok_bind, if_pos rfl, ex, py_ok_bind, eq, py_ok_bind]

end PCtx

/-- Without objects and with attributes `transpose` returns: the attributes become objects with empty rows. -/
theorem C70_transpose_partial [PyName α] [PyName β] {p : PCtx α β} (h : p.WF) (ho : p.objects = [])
    (ha : p.attributes ≠ []) : ∃ t, p.transpose = .ok t ∧ t.objects = p.attributes ∧ t.attributes = [] ∧ t.WF := by
  have hn : p.attributes.Nodup := h.xa ▸ h.xw.anodup
  obtain ⟨T, hT⟩ : ∃ T, T = (List.range p.attributes.length).map fun _ => ([] : List Bool) := ⟨_, rfl⟩
  have hl : T.length = p.attributes.length := by simp [hT]
  have hw : ∀ r ∈ T, r.length = ([] : List α).length := by
    intro r hr
    obtain ⟨_, -, rfl⟩ := List.mem_map.1 (hT ▸ hr)
    rfl
  have hm := Ctx.make_nodup (α := β) (β := α) hl hw hn List.nodup_nil
  have hs : subseteqTable T T = .ok true := by
    unfold subseteqTable
    rw [if_neg (by simp)]
    cases T with
    | nil => exact absurd (List.length_eq_zero_iff.1 hl.symm) ha
    | cons r rs =>
      have := hw r (by simp)
      simp_all
  have hW := (Ctx.wf_mk' hl hw hn List.nodup_nil).toWFw
  have hmk : PCtx.make T T p.attributes ([] : List α) =
      .ok ⟨p.attributes, [], Ctx.mk' p.attributes [] T, Ctx.mk' p.attributes [] T⟩ := by
    unfold PCtx.make
    rw [hs, py_ok_bind, if_pos rfl, hm, py_ok_bind, py_ok_bind]
  refine ⟨⟨p.attributes, [], Ctx.mk' p.attributes [] T, Ctx.mk' p.attributes [] T⟩, ?_, rfl, rfl,
    ⟨hW, hW, rfl, rfl, rfl, rfl, fun o a hi => hi⟩⟩
  unfold PCtx.transpose
  rw [ho, mapM_ok (g := fun _ => [])]
  · rw [py_ok_bind, List.map_map, List.map_map, ← hmk, hT]
    rfl
  · intro j _; rfl

/-! ### Exceptions during an answer -/

namespace PDB

variable [PyName α] [PyName β]

theorem foldl_err {γ : Type} (f : PDB α β → γ → PDB α β × Option PyErr) (e : PyErr) (s : PDB α β) (l : List γ) :
    l.foldl (fun r x => andThen r fun s => f s x) (s, some e) = (s, some e) := by
  induction l with
  | nil => rfl
  | cons x l ih => rw [List.foldl_cons]; exact ih

/-- C115: of several counterexamples those before the first one that raises are added, the others are not, and the
partial context is not completed. -/
theorem C115_reject_stops (E : Env α β) (s s' s'' : PDB α β) (imp : Imp β)
    (pre post : List (α × (Finset β × Finset β))) (x : α × (Finset β × Finset β)) {e : PyErr}
    (h0 : ∀ y ∈ (pre ++ [x]).head?, imp.isRespectedPartial y.2 = false)
    (h1 : pre.foldl (fun r y => andThen r fun s => addExample E s y.1 y.2) (s, none) = (s', none))
    (h2 : addExample E s' x.1 x.2 = (s'', some e)) : reject E s imp (pre ++ x :: post) = (s'', some e) := by
  have hf : (pre ++ x :: post).foldl (fun r y => andThen r fun s => addExample E s y.1 y.2) (s, none) = (s'', some e) := by
    rw [List.foldl_append, h1, List.foldl_cons]
    show post.foldl _ (addExample E s' x.1 x.2) = _
    rw [h2]
    exact foldl_err (fun s y => addExample E s y.1 y.2) e s'' post
  unfold reject
  cases hl : pre ++ x :: post with
  | nil => simp at hl
  | cons y ys =>
    have hy : imp.isRespectedPartial y.2 = false := by
      apply h0
      cases pre with
      | nil => simp only [List.nil_append, List.cons.injEq] at hl; simp [hl.1]
      | cons z pre => simp only [List.cons_append, List.cons.injEq] at hl; simp [hl.1]
    rw [hl] at hf
    simp only [hy, Bool.false_eq_true, if_false, hf]
    rfl

end PDB

/-! ### Concrete cases -/

/-- One known, one possible and one impossible attribute. -/
def pcText : PCtx (List Char) (List Char) :=
  ⟨["o".toList], ["a".toList, "b".toList, "c".toList],
    ⟨["o".toList], ["a".toList, "b".toList, "c".toList], ⟨some 3, [[true, false, false]]⟩⟩,
    ⟨["o".toList], ["a".toList, "b".toList, "c".toList], ⟨some 3, [[true, true, false]]⟩⟩⟩

example : pcText.repr id id = .ok "a, b, c\no\n\nX?.".toList := by decide +kernel

example : pcText.intents = .ok [({"a".toList}, {"a".toList, "b".toList})] := by decide +kernel

example : pcText.deepcopy = .error .indexError := by decide +kernel

/-- Of three counterexamples the second has a name already in use: the first is added, the third is not. -/
example : ∃ s', PDB.reject PDemo.E PDemo.s0 ⟨∅, {0, 1}⟩ [(1, (∅, {1})), (1, (∅, ∅)), (2, (∅, ∅))] =
      (s', some .notUniqueObjectName) ∧ s'.ctx.objects = [0, 1] := by
  refine ⟨_, Prod.ext rfl ?_, ?_⟩ <;> decide +kernel

example : ∃ t, PCtx.transpose (⟨[], [0, 1], ⟨[], [0, 1], ⟨some 2, []⟩⟩, ⟨[], [0, 1], ⟨some 2, []⟩⟩⟩ : PCtx (Fin 4) (Fin 2)) = .ok t ∧
    t.objects = [0, 1] := by
  refine ⟨_, rfl, ?_⟩
  decide +kernel

example : (⟨[0, 1], [], ⟨[0, 1], [], ⟨some 0, [[], []]⟩⟩, ⟨[0, 1], [], ⟨some 0, [[], []]⟩⟩⟩ : PCtx (Fin 4) (Fin 2)).deepcopy =
    .ok ⟨[0, 1], [], ⟨[0, 1], [], ⟨some 0, [[], []]⟩⟩, ⟨[0, 1], [], ⟨some 0, [[], []]⟩⟩⟩ := by
  decide +kernel
