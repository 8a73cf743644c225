/-
The incremental basis called as a method of the context, and what the caches of basis computations save: C175.
-/
import Verif.Model.CanonicalMethod
import Verif.Props.NestedBasis
import Verif.Props.AIBasis

set_option linter.unusedSectionVars false

open Spec

namespace Act

variable {α β : Type} [DecidableEq α] [DecidableEq β]

theorem readOnly_row (i : ℕ) : (row i : Act α β _).ReadOnly := fun _ => trivial

theorem readOnly_column (i : ℕ) : (column i : Act α β _).ReadOnly := fun _ => trivial

theorem readOnly_kclosureLoop (s : Finset β) (is : List ℕ) (cl : Finset β) :
    (kclosureLoop s is cl : Act α β _).ReadOnly := by
  induction is generalizing cl with
  | nil => trivial
  | cons i rest ih =>
    refine (readOnly_row i).bind fun o => ?_
    split_ifs
    · trivial
    · exact ih _
    · exact ih _

theorem readOnly_stableConcept {closure : Finset β → Act α β (Finset β)} (h : ∀ s, (closure s).ReadOnly) (m : β)
    (extent : Finset α) (p : AI.Pre α β) (st : AI.St α β) : (stableConcept closure m extent p st).ReadOnly := by
  unfold stableConcept
  dsimp only
  split_ifs
  · refine (h _).bind fun cl => ?_
    split_ifs <;> trivial
  · trivial

theorem readOnly_loopPre {closure : Finset β → Act α β (Finset β)} (h : ∀ s, (closure s).ReadOnly) (m : β)
    (extent : Finset α) (l : List (AI.Pre α β)) (st : AI.St α β) : (loopPre closure m extent l st).ReadOnly := by
  induction l generalizing st with
  | nil => trivial
  | cons p rest ih =>
    unfold loopPre
    dsimp only
    split_ifs
    all_goals first | exact ih _ | exact (readOnly_stableConcept h _ _ _ _).bind fun _ => ih _

theorem readOnly_updatePreclosed (sort : List (AI.Pre α β) → List (AI.Pre α β))
    (close : Finset β → List (Imp β) → Finset β) (i : ℕ) (pre : List (AI.Pre α β)) :
    (updatePreclosed sort close i pre).ReadOnly := by
  unfold updatePreclosed
  have h1 : (Act.look fun c => .done (pyGet c.attributes i) : Act α β β).ReadOnly := fun c => trivial
  have h2 : ∀ s, (kclosure s (i + 1) : Act α β _).ReadOnly := fun s c => readOnly_kclosureLoop _ _ _
  exact h1.bind fun m => (readOnly_column i).bind fun ext => (readOnly_loopPre h2 _ _ _ _).bind fun _ => trivial

theorem readOnly_basisLoop (sort : List (AI.Pre α β) → List (AI.Pre α β))
    (close : Finset β → List (Imp β) → Finset β) (is : List ℕ) (pre : List (AI.Pre α β)) (basis : List (Imp β)) :
    (basisLoop sort close is pre basis).ReadOnly := by
  induction is generalizing pre basis with
  | nil => trivial
  | cons i rest ih => exact (readOnly_updatePreclosed sort close i pre).bind fun _ => ih _ _

theorem readOnly_canonicalBasis (sort : List (AI.Pre α β) → List (AI.Pre α β))
    (close : Finset β → List (Imp β) → Finset β) : (canonicalBasis sort close : Act α β _).ReadOnly :=
  fun _ => readOnly_basisLoop _ _ _ _ _

section plain
variable [PyName α] [PyName β]

theorem plain_kclosureLoop {c : Ctx α β} (s : Finset β) (is : List ℕ) {es : List (Finset β)}
    (hes : is.mapM c.intentByIndex = .ok es) (cl : Finset β) :
    (kclosureLoop s is cl).plain c = (c, .ok (AI.kclosureLoop s es cl)) := by
  induction is generalizing cl es with
  | nil => cases hes; rfl
  | cons i rest ih =>
    rw [List.mapM_cons] at hes
    obtain ⟨o, ho, hes⟩ := Ctx.bind_ok hes
    obtain ⟨os, hos, hes⟩ := Ctx.bind_ok hes
    cases hes
    rw [kclosureLoop, plain_bind]
    simp only [row, plain, ho]
    unfold AI.kclosureLoop
    split_ifs
    · rfl
    · exact ih hos _
    · exact ih hos _

theorem plain_kclosure {c : Ctx α β} (h : c.WFw) (s : Finset β) (k : ℕ) :
    (kclosure s k).plain c = (c, AI.kclosure c s k) := by
  have hes : (List.range c.objects.length).mapM c.intentByIndex =
      .ok ((List.range c.objects.length).map fun i => (c.intentByIndex i).toOption.getD ∅) := by
    refine mapM_ok fun i hi => ?_
    obtain ⟨o, ho⟩ : ∃ o, c.objects[i]? = some o := ⟨_, List.getElem?_eq_getElem (List.mem_range.1 hi)⟩
    rw [h.intentByIndex ho]
    rfl
  show (kclosureLoop s (List.range c.objects.length) _).plain c = _
  rw [plain_kclosureLoop s _ hes]
  unfold AI.kclosure Ctx.examples
  rw [hes]
  rfl

theorem plain_stableConcept {c : Ctx α β} {closure : Finset β → Act α β (Finset β)} {f : Finset β → Py (Finset β)}
    (h : ∀ s, (closure s).plain c = (c, f s)) (m : β) (extent : Finset α) (p : AI.Pre α β) (st : AI.St α β) :
    (stableConcept closure m extent p st).plain c = (c, AI.stableConcept f m extent p st) := by
  unfold stableConcept AI.stableConcept
  dsimp only
  split_ifs with h1
  · rw [plain_bind, h]
    cases f (insert m p.set) with
    | error e => rfl
    | ok cl =>
      dsimp only
      show _ = (c, if cl = insert m p.set then _ else _)
      split_ifs <;> rfl
  · rfl

theorem plain_loopPre {c : Ctx α β} {closure : Finset β → Act α β (Finset β)} {f : Finset β → Py (Finset β)}
    (h : ∀ s, (closure s).plain c = (c, f s)) (m : β) (extent : Finset α) (l : List (AI.Pre α β)) (st : AI.St α β) :
    (loopPre closure m extent l st).plain c = (c, AI.loopPre f m extent l st) := by
  induction l generalizing st with
  | nil => rfl
  | cons p rest ih =>
    unfold loopPre AI.loopPre AI.stepPre
    dsimp only
    split_ifs with h1 h2 h2
    · exact ih _
    · exact ih _
    · rw [plain_bind, plain_stableConcept h]
      cases AI.stableConcept f m extent p { st with newPre := st.newPre ++ [p] } with
      | error e => rfl
      | ok st' => exact ih _
    · exact ih _

theorem plain_updatePreclosed {c : Ctx α β} (h : c.WFw) (sort : List (AI.Pre α β) → List (AI.Pre α β))
    (close : Finset β → List (Imp β) → Finset β) (i : ℕ) (pre : List (AI.Pre α β)) :
    (updatePreclosed sort close i pre).plain c = (c, AI.updatePreclosed sort close c i pre) := by
  unfold updatePreclosed AI.updatePreclosed
  rw [plain_bind]
  simp only [plain]
  cases pyGet c.attributes i with
  | error e => rfl
  | ok m =>
    dsimp only
    rw [plain_bind]
    simp only [column, plain]
    cases c.extentByIndex i with
    | error e => rfl
    | ok ext =>
      dsimp only
      rw [plain_bind, plain_loopPre fun s => plain_kclosure h s (i + 1)]
      show _ = (c, (AI.loopPre (fun s => AI.kclosure c s (i + 1)) m ext pre {} >>= fun st => _))
      cases AI.loopPre (fun s => AI.kclosure c s (i + 1)) m ext pre {} <;> rfl

theorem plain_basisLoop {c : Ctx α β} (h : c.WFw) (sort : List (AI.Pre α β) → List (AI.Pre α β))
    (close : Finset β → List (Imp β) → Finset β) (is : List ℕ) (pre : List (AI.Pre α β)) (basis : List (Imp β)) :
    (basisLoop sort close is pre basis).plain c = (c, AI.basisLoop sort close c is pre basis) := by
  induction is generalizing pre basis with
  | nil => rfl
  | cons i rest ih =>
    rw [basisLoop, plain_bind, plain_updatePreclosed h, AI.basisLoop]
    cases AI.updatePreclosed sort close c i pre with
    | error e => rfl
    | ok r => exact ih _ _

theorem plain_canonicalBasis {c : Ctx α β} (h : c.WFw) (sort : List (AI.Pre α β) → List (AI.Pre α β))
    (close : Finset β → List (Imp β) → Finset β) :
    (canonicalBasis sort close).plain c = (c, AI.computeCanonicalBasis sort close c) :=
  plain_basisLoop h _ _ _ _ _

end plain

end Act

/-! ### What is read from the table -/

section held
variable {γ : Type}

/-- The oldest wrapper has an answer for `i`. -/
def OldHas (ms : List (Memo γ)) (i : ℕ) : Prop := ∃ m, ms.getLast? = some m ∧ (m i).isSome

theorem OldHas.miss {ms : List (Memo γ)} {i : ℕ} (h : OldHas ms i) : memoMiss ms i = false := by
  obtain ⟨m, h1, h2⟩ := h
  rw [memoMiss, List.all_eq_false]
  exact ⟨m, List.mem_of_getLast? h1, by cases hm : m i <;> simp_all⟩

theorem OldHas.cons {ms : List (Memo γ)} {i : ℕ} (h : OldHas ms i) (m : Memo γ) : OldHas (m :: ms) i := by
  obtain ⟨m', h1, h2⟩ := h
  exact ⟨m', by rw [List.getLast?_cons, h1]; rfl, h2⟩

theorem held_cons {ms : List (Memo γ)} (h : ms ≠ []) (m : Memo γ) {i : ℕ} : OldHas (m :: ms) i ↔ OldHas ms i := by
  obtain ⟨x, hx⟩ : ∃ x, ms.getLast? = some x := ⟨_, List.getLast?_eq_some_getLast h⟩
  simp only [OldHas, List.getLast?_cons, hx, Option.getD_some]

theorem held_drop {ms : List (Memo γ)} {n : ℕ} (h : n < ms.length) {i : ℕ} : OldHas (ms.drop n) i ↔ OldHas ms i := by
  simp only [OldHas, List.getLast?_drop, if_neg (Nat.not_le.2 h)]

theorem memoCall_length (f : ℕ → Py (Finset γ)) (ms : List (Memo γ)) (i : ℕ) :
    (memoCall f ms i).1.length = ms.length := by
  induction ms with
  | nil => rfl
  | cons m ms ih =>
    unfold memoCall
    cases m i with
    | some v => rfl
    | none =>
      dsimp only
      cases (memoCall f ms i).2 <;> simp [ih]

theorem memoCall_nil {f : ℕ → Py (Finset γ)} {ms : List (Memo γ)} {i : ℕ} : (memoCall f ms i).1 = [] ↔ ms = [] := by
  rw [← List.length_eq_zero_iff, memoCall_length, List.length_eq_zero_iff]

theorem memoCall_mono (f : ℕ → Py (Finset γ)) {ms : List (Memo γ)} (i : ℕ) {j : ℕ} (h : OldHas ms j) :
    OldHas (memoCall f ms i).1 j := by
  induction ms with
  | nil => exact h
  | cons m ms ih =>
    unfold memoCall
    cases hm : m i with
    | some v => exact h
    | none =>
      dsimp only
      by_cases hn : ms = []
      · subst hn
        obtain ⟨m', h1, h2⟩ := h
        obtain rfl : m = m' := by simpa using h1
        have hj : j ≠ i := by rintro rfl; simp [hm] at h2
        cases (memoCall f [] i).2 with
        | ok v => exact ⟨Function.update m i (some v), rfl, by rw [Function.update_of_ne hj]; exact h2⟩
        | error e => exact ⟨m, rfl, h2⟩
      · have hr : (memoCall f ms i).1 ≠ [] := fun h0 => hn (memoCall_nil.1 h0)
        have hh := ih ((held_cons hn m).1 h)
        cases (memoCall f ms i).2 with
        | ok v => exact (held_cons hr _).2 hh
        | error e => exact (held_cons hr _).2 hh

theorem memoCall_held {f : ℕ → Py (Finset γ)} {ms : List (Memo γ)} (hn : ms ≠ []) {i : ℕ}
    (hm : memoMiss ms i = true) (hf : (f i).isOk = true) : OldHas (memoCall f ms i).1 i := by
  have hv : ∀ ms : List (Memo γ), memoMiss ms i = true → (memoCall f ms i).2 = f i := by
    intro ms
    induction ms with
    | nil => intro _; rfl
    | cons m ms ih =>
      intro h
      rw [memoMiss, List.all_cons, Bool.and_eq_true] at h
      unfold memoCall
      cases hmi : m i with
      | some v => rw [hmi] at h; simp at h
      | none =>
        dsimp only
        rw [← ih h.2]
        cases (memoCall f ms i).2 <;> rfl
  induction ms with
  | nil => exact absurd rfl hn
  | cons m ms ih =>
    have h := hm
    rw [memoMiss, List.all_cons, Bool.and_eq_true] at h
    have h2 : memoMiss ms i = true := h.2
    unfold memoCall
    cases hmi : m i with
    | some v => rw [hmi] at h; simp at h
    | none =>
      dsimp only
      rw [hv ms h2]
      cases hfi : f i with
      | error e => rw [hfi] at hf; simp [Except.isOk, Except.toBool] at hf
      | ok v =>
        dsimp only
        by_cases hms : ms = []
        · subst hms
          exact ⟨Function.update m i (some v), rfl, by rw [Function.update_self]; rfl⟩
        · exact (ih hms h2).cons _

end held

namespace CSt

variable {α β : Type} [DecidableEq α] [DecidableEq β] [PyName α] [PyName β]

/-- What a program cannot undo: wrappers stay, and so do the answers of the oldest one. -/
structure Kept (s t : CSt α β) : Prop where
  memoO : s.memoO.length ≤ t.memoO.length
  memoA : s.memoA.length ≤ t.memoA.length
  heldO : ∀ i, OldHas s.memoO i → OldHas t.memoO i
  heldA : ∀ i, OldHas s.memoA i → OldHas t.memoA i

theorem Kept.refl (s : CSt α β) : Kept s s := ⟨le_rfl, le_rfl, fun _ => id, fun _ => id⟩

theorem Kept.trans {s t u : CSt α β} (h : Kept s t) (k : Kept t u) : Kept s u :=
  ⟨h.memoO.trans k.memoO, h.memoA.trans k.memoA, fun i hi => k.heldO i (h.heldO i hi), fun i hi => k.heldA i (h.heldA i hi)⟩

theorem kept_askO (s : CSt α β) (i : ℕ) : Kept s (s.askO i).1 :=
  ⟨(memoCall_length _ _ _).ge, le_rfl, fun _ => memoCall_mono _ i, fun _ => id⟩

theorem kept_askA (s : CSt α β) (i : ℕ) : Kept s (s.askA i).1 :=
  ⟨le_rfl, (memoCall_length _ _ _).ge, fun _ => id, fun _ => memoCall_mono _ i⟩

theorem kept_push (s : CSt α β) : Kept s s.push :=
  ⟨by simp [push], by simp [push], fun _ h => h.cons _, fun _ h => h.cons _⟩

theorem restore_heldO {s t : CSt α β} (hn : s.memoO ≠ []) (h : s.memoO.length ≤ t.memoO.length) {i : ℕ} :
    OldHas (s.restore t).memoO i ↔ OldHas t.memoO i := by
  have := List.length_pos_iff.2 hn
  exact held_drop (by omega)

theorem restore_heldA {s t : CSt α β} (hn : s.memoA ≠ []) (h : s.memoA.length ≤ t.memoA.length) {i : ℕ} :
    OldHas (s.restore t).memoA i ↔ OldHas t.memoA i := by
  have := List.length_pos_iff.2 hn
  exact held_drop (by omega)

theorem kept_restore {s t : CSt α β} (h : Kept s t) : Kept s (s.restore t) := by
  refine ⟨?_, ?_, fun i hi => ?_, fun i hi => ?_⟩
  · have := h.memoO; simp only [restore, List.length_drop]; omega
  · have := h.memoA; simp only [restore, List.length_drop]; omega
  · refine (restore_heldO ?_ h.memoO).2 (h.heldO i hi)
    rintro h0; rw [h0] at hi; obtain ⟨m, hm, -⟩ := hi; simp at hm
  · refine (restore_heldA ?_ h.memoA).2 (h.heldA i hi)
    rintro h0; rw [h0] at hi; obtain ⟨m, hm, -⟩ := hi; simp at hm

theorem act_nested {R Q : Type} (p : Act α β Q) (k : Py Q → Act α β R) (s : CSt α β) :
    act (.nested p k) s = match (act p s.push).2 with
      | .ok x => act (k (.ok x)) (s.restore (act p s.push).1)
      | .error e => act (k (.error e)) (act p s.push).1 := by
  conv_lhs => unfold act
  rfl

theorem act_kept {R : Type} (p : Act α β R) (s : CSt α β) : Kept s (act p s).1 := by
  induction p generalizing s with
  | done r => exact .refl s
  | look k ih => exact ih _ s
  | askO i k ih => exact (kept_askO s i).trans (ih _ _)
  | askA i k ih => exact (kept_askA s i).trans (ih _ _)
  | modify op k ih => exact Kept.trans (t := { s with ctx := (s.ctx.exec op).1 }) ⟨le_rfl, le_rfl, fun _ => id, fun _ => id⟩ (ih _ _)
  | nested p k ihp ih =>
    rw [act_nested]
    have h := (kept_push s).trans (ihp s.push)
    cases (act p s.push).2 with
    | ok x => exact (kept_restore h).trans (ih _ _)
    | error e => exact h.trans (ih _ _)

theorem rowReads_once {R : Type} (p : Act α β R) {s : CSt α β} (hn : s.memoO ≠ []) :
    (rowReads p s).Nodup ∧ ∀ i ∈ rowReads p s, ¬ OldHas s.memoO i ∧ OldHas (act p s).1.memoO i := by
  induction p generalizing s with
  | done r => exact ⟨List.nodup_nil, by simp [rowReads]⟩
  | look k ih => exact ih _ hn
  | askO i k ih =>
    have hn' : (s.askO i).1.memoO ≠ [] := fun h => hn (memoCall_nil.1 h)
    obtain ⟨h1, h2⟩ := ih (s.askO i).2 hn'
    have hk := kept_askO s i
    have hk' := act_kept (k (s.askO i).2) (s.askO i).1
    unfold rowReads
    split_ifs with hm
    · have hh : OldHas (s.askO i).1.memoO i := memoCall_held hn hm.1 hm.2
      refine ⟨?_, ?_⟩
      · rw [List.singleton_append, List.nodup_cons]
        exact ⟨fun hi => (h2 i hi).1 hh, h1⟩
      · intro j hj
        rw [List.singleton_append, List.mem_cons] at hj
        rcases hj with rfl | hj
        · exact ⟨fun h => by rw [h.miss] at hm; simp at hm, hk'.heldO _ hh⟩
        · exact ⟨fun h => (h2 j hj).1 (hk.heldO j h), (h2 j hj).2⟩
    · rw [List.nil_append]
      exact ⟨h1, fun j hj => ⟨fun h => (h2 j hj).1 (hk.heldO j h), (h2 j hj).2⟩⟩
  | askA i k ih =>
    obtain ⟨h1, h2⟩ := ih (s.askA i).2 (s := (s.askA i).1) hn
    exact ⟨h1, h2⟩
  | modify op k ih =>
    obtain ⟨h1, h2⟩ := ih (s.ctx.exec op).2 (s := { s with ctx := (s.ctx.exec op).1 }) hn
    exact ⟨h1, h2⟩
  | nested p k ihp ih =>
    obtain ⟨h1, h2⟩ := ihp (s := s.push) (by simp [push])
    have hk := (kept_push s).trans (act_kept p s.push)
    have hpush : ∀ i, OldHas s.push.memoO i ↔ OldHas s.memoO i := fun i => held_cons hn _
    rw [act_nested]
    unfold rowReads
    dsimp only
    cases hr : (act p s.push).2 with
    | ok x =>
      dsimp only
      have hres : ∀ i, OldHas (s.restore (act p s.push).1).memoO i ↔ OldHas (act p s.push).1.memoO i :=
        fun i => restore_heldO hn hk.memoO
      have hn' : (s.restore (act p s.push).1).memoO ≠ [] := by
        rw [← List.length_pos_iff]
        exact lt_of_lt_of_le (List.length_pos_iff.2 hn) (kept_restore hk).memoO
      obtain ⟨k1, k2⟩ := ih (.ok x) hn'
      have hk' := act_kept (k (.ok x)) (s.restore (act p s.push).1)
      refine ⟨h1.append k1 fun i hi hj => (k2 i hj).1 ((hres i).2 (h2 i hi).2), fun i hi => ?_⟩
      rcases List.mem_append.1 hi with hi | hi
      · exact ⟨fun h => (h2 i hi).1 ((hpush i).2 h), hk'.heldO i ((hres i).2 (h2 i hi).2)⟩
      · exact ⟨fun h => (k2 i hi).1 ((kept_restore hk).heldO i h), (k2 i hi).2⟩
    | error e =>
      dsimp only
      have hn' : (act p s.push).1.memoO ≠ [] := by
        rw [← List.length_pos_iff]
        exact lt_of_lt_of_le (List.length_pos_iff.2 hn) hk.memoO
      obtain ⟨k1, k2⟩ := ih (.error e) hn'
      have hk' := act_kept (k (.error e)) (act p s.push).1
      refine ⟨h1.append k1 fun i hi hj => (k2 i hj).1 (h2 i hi).2, fun i hi => ?_⟩
      rcases List.mem_append.1 hi with hi | hi
      · exact ⟨fun h => (h2 i hi).1 ((hpush i).2 h), hk'.heldO i (h2 i hi).2⟩
      · exact ⟨fun h => (k2 i hi).1 (hk.heldO i h), (k2 i hi).2⟩

theorem columnReads_once {R : Type} (p : Act α β R) {s : CSt α β} (hn : s.memoA ≠ []) :
    (columnReads p s).Nodup ∧ ∀ i ∈ columnReads p s, ¬ OldHas s.memoA i ∧ OldHas (act p s).1.memoA i := by
  induction p generalizing s with
  | done r => exact ⟨List.nodup_nil, by simp [columnReads]⟩
  | look k ih => exact ih _ hn
  | askO i k ih =>
    obtain ⟨h1, h2⟩ := ih (s.askO i).2 (s := (s.askO i).1) hn
    exact ⟨h1, h2⟩
  | askA i k ih =>
    have hn' : (s.askA i).1.memoA ≠ [] := fun h => hn (memoCall_nil.1 h)
    obtain ⟨h1, h2⟩ := ih (s.askA i).2 hn'
    have hk := kept_askA s i
    have hk' := act_kept (k (s.askA i).2) (s.askA i).1
    unfold columnReads
    split_ifs with hm
    · have hh : OldHas (s.askA i).1.memoA i := memoCall_held hn hm.1 hm.2
      refine ⟨?_, ?_⟩
      · rw [List.singleton_append, List.nodup_cons]
        exact ⟨fun hi => (h2 i hi).1 hh, h1⟩
      · intro j hj
        rw [List.singleton_append, List.mem_cons] at hj
        rcases hj with rfl | hj
        · exact ⟨fun h => by rw [h.miss] at hm; simp at hm, hk'.heldA _ hh⟩
        · exact ⟨fun h => (h2 j hj).1 (hk.heldA j h), (h2 j hj).2⟩
    · rw [List.nil_append]
      exact ⟨h1, fun j hj => ⟨fun h => (h2 j hj).1 (hk.heldA j h), (h2 j hj).2⟩⟩
  | modify op k ih =>
    obtain ⟨h1, h2⟩ := ih (s.ctx.exec op).2 (s := { s with ctx := (s.ctx.exec op).1 }) hn
    exact ⟨h1, h2⟩
  | nested p k ihp ih =>
    obtain ⟨h1, h2⟩ := ihp (s := s.push) (by simp [push])
    have hk := (kept_push s).trans (act_kept p s.push)
    have hpush : ∀ i, OldHas s.push.memoA i ↔ OldHas s.memoA i := fun i => held_cons hn _
    rw [act_nested]
    unfold columnReads
    dsimp only
    cases hr : (act p s.push).2 with
    | ok x =>
      dsimp only
      have hres : ∀ i, OldHas (s.restore (act p s.push).1).memoA i ↔ OldHas (act p s.push).1.memoA i :=
        fun i => restore_heldA hn hk.memoA
      have hn' : (s.restore (act p s.push).1).memoA ≠ [] := by
        rw [← List.length_pos_iff]
        exact lt_of_lt_of_le (List.length_pos_iff.2 hn) (kept_restore hk).memoA
      obtain ⟨k1, k2⟩ := ih (.ok x) hn'
      have hk' := act_kept (k (.ok x)) (s.restore (act p s.push).1)
      refine ⟨h1.append k1 fun i hi hj => (k2 i hj).1 ((hres i).2 (h2 i hi).2), fun i hi => ?_⟩
      rcases List.mem_append.1 hi with hi | hi
      · exact ⟨fun h => (h2 i hi).1 ((hpush i).2 h), hk'.heldA i ((hres i).2 (h2 i hi).2)⟩
      · exact ⟨fun h => (k2 i hi).1 ((kept_restore hk).heldA i h), (k2 i hi).2⟩
    | error e =>
      dsimp only
      have hn' : (act p s.push).1.memoA ≠ [] := by
        rw [← List.length_pos_iff]
        exact lt_of_lt_of_le (List.length_pos_iff.2 hn) hk.memoA
      obtain ⟨k1, k2⟩ := ih (.error e) hn'
      have hk' := act_kept (k (.error e)) (act p s.push).1
      refine ⟨h1.append k1 fun i hi hj => (k2 i hj).1 (h2 i hi).2, fun i hi => ?_⟩
      rcases List.mem_append.1 hi with hi | hi
      · exact ⟨fun h => (h2 i hi).1 ((hpush i).2 h), hk'.heldA i (h2 i hi).2⟩
      · exact ⟨fun h => (k2 i hi).1 (hk.heldA i h), (k2 i hi).2⟩

/-- The program asks for rows and columns of the table and calls no mutator, if it runs on the context `c`. -/
def InRange {R : Type} (c : Ctx α β) : Act α β R → Prop
  | .done _ => True
  | .look k => InRange c (k c)
  | .askO i k => i < c.objects.length ∧ ∀ r, InRange c (k r)
  | .askA j k => j < c.attributes.length ∧ ∀ r, InRange c (k r)
  | .modify _ _ => False
  | .nested p k => InRange c p ∧ ∀ r, InRange c (k r)

theorem InRange.bind {R S : Type} {c : Ctx α β} {p : Act α β R} (hp : InRange c p) {f : R → Act α β S}
    (hf : ∀ x, InRange c (f x)) : InRange c (p.bind f) := by
  induction p with
  | done r => cases r with
    | ok x => exact hf x
    | error e => trivial
  | look k ih => exact ih c hp hf
  | askO i k ih => exact ⟨hp.1, fun r => ih r (hp.2 r) hf⟩
  | askA i k ih => exact ⟨hp.1, fun r => ih r (hp.2 r) hf⟩
  | modify op k ih => exact hp.elim
  | nested p k _ ih => exact ⟨hp.1, fun r => ih r (hp.2 r) hf⟩

theorem InRange.ctx {R : Type} {c : Ctx α β} {p : Act α β R} (hp : InRange c p) {s : CSt α β} (hs : s.ctx = c) :
    (act p s).1.ctx = c := by
  induction p generalizing s with
  | done r => exact hs
  | look k ih => exact ih s.ctx (by rw [hs]; exact hp) hs
  | askO i k ih => exact ih _ (hp.2 _) (s := (s.askO i).1) hs
  | askA i k ih => exact ih _ (hp.2 _) (s := (s.askA i).1) hs
  | modify op k ih => exact hp.elim
  | nested p k ihp ih =>
    rw [act_nested]
    have h := ihp hp.1 (s := s.push) hs
    cases (act p s.push).2 with
    | ok x => exact ih _ (hp.2 _) (s := s.restore (act p s.push).1) h
    | error e => exact ih _ (hp.2 _) h

theorem InRange.reads {R : Type} {c : Ctx α β} {p : Act α β R} (hp : InRange c p) {s : CSt α β} (hs : s.ctx = c) :
    (∀ i ∈ rowReads p s, i < c.objects.length) ∧ ∀ j ∈ columnReads p s, j < c.attributes.length := by
  induction p generalizing s with
  | done r => simp [rowReads, columnReads]
  | look k ih => exact ih s.ctx (by rw [hs]; exact hp) hs
  | askO i k ih =>
    obtain ⟨h1, h2⟩ := ih _ (hp.2 (s.askO i).2) (s := (s.askO i).1) hs
    refine ⟨fun j hj => ?_, h2⟩
    unfold rowReads at hj
    rcases List.mem_append.1 hj with hj | hj
    · split_ifs at hj
      · rw [List.mem_singleton.1 hj]; exact hp.1
      · simp at hj
    · exact h1 j hj
  | askA i k ih =>
    obtain ⟨h1, h2⟩ := ih _ (hp.2 (s.askA i).2) (s := (s.askA i).1) hs
    refine ⟨h1, fun j hj => ?_⟩
    unfold columnReads at hj
    rcases List.mem_append.1 hj with hj | hj
    · split_ifs at hj
      · rw [List.mem_singleton.1 hj]; exact hp.1
      · simp at hj
    · exact h2 j hj
  | modify op k ih => exact hp.elim
  | nested p k ihp ih =>
    obtain ⟨h1, h2⟩ := ihp hp.1 (s := s.push) hs
    have h := InRange.ctx hp.1 (s := s.push) hs
    unfold rowReads columnReads
    dsimp only
    cases (act p s.push).2 with
    | ok x =>
      obtain ⟨k1, k2⟩ := ih (.ok x) (hp.2 _) (s := s.restore (act p s.push).1) h
      exact ⟨fun i hi => (List.mem_append.1 hi).elim (h1 i) (k1 i), fun i hi => (List.mem_append.1 hi).elim (h2 i) (k2 i)⟩
    | error e =>
      obtain ⟨k1, k2⟩ := ih (.error e) (hp.2 _) h
      exact ⟨fun i hi => (List.mem_append.1 hi).elim (h1 i) (k1 i), fun i hi => (List.mem_append.1 hi).elim (h2 i) (k2 i)⟩

section ranges
open Act
variable {c : Ctx α β}

theorem inRange_objectIntent (o : α) : InRange c (Act.objectIntent o) := by
  show InRange c (match lastIdx c.objects o with | .ok i => _ | .error e => _)
  cases h : lastIdx c.objects o with
  | ok i => exact ⟨Ctx.lt_of_getElem? (lastIdx_ok h), fun _ => trivial⟩
  | error e => trivial

theorem inRange_attributeExtent (a : β) : InRange c (Act.attributeExtent a) := by
  show InRange c (match lastIdx c.attributes a with | .ok i => _ | .error e => _)
  cases h : lastIdx c.attributes a with
  | ok i => exact ⟨Ctx.lt_of_getElem? (lastIdx_ok h), fun _ => trivial⟩
  | error e => trivial

theorem inRange_oprimeLoop (os : List α) (acc : Finset β) : InRange c (oprimeLoop os acc) := by
  induction os generalizing acc with
  | nil => trivial
  | cons o os ih => exact (inRange_objectIntent o).bind fun _ => ih _

theorem inRange_aprimeLoop (as : List β) (acc : Finset α) : InRange c (aprimeLoop as acc) := by
  induction as generalizing acc with
  | nil => trivial
  | cons o os ih => exact (inRange_attributeExtent o).bind fun _ => ih _

theorem inRange_aclose (ordA : SetOrder β) (ordO : SetOrder α) (s : Finset β) : InRange c (aclose ordA ordO s) :=
  InRange.bind (p := Act.look fun c => aprimeLoop (ordA.enum s) c.objects.toFinset) (inRange_aprimeLoop _ _)
    fun _ => inRange_oprimeLoop _ _

theorem inRange_dgLoop (ordA : SetOrder β) (ordO : SetOrder α) (close : Finset β → List (Imp β) → Finset β)
    (bg : List (Imp β)) {cond : Finset β → Act α β Bool} (hc : ∀ a, InRange c (cond a)) (atts : List β) (fuel : ℕ)
    (basis : List (Imp β)) (a : Finset β) (i : ℕ) :
    InRange c (Act.dgLoop atts ordA ordO close bg cond fuel basis a i) := by
  induction fuel generalizing basis a i with
  | zero => trivial
  | succ fuel ih =>
    unfold Act.dgLoop
    split_ifs with h1
    · refine (inRange_aclose ordA ordO a).bind fun ac => InRange.bind ?_ fun yes => ?_
      · split_ifs
        · exact hc a
        · trivial
      · dsimp only
        split_ifs
        all_goals first | exact ih _ _ _ | trivial
    · trivial

theorem inRange_kclosureLoop (s : Finset β) {is : List ℕ} (h : ∀ i ∈ is, i < c.objects.length) (cl : Finset β) :
    InRange c (kclosureLoop s is cl) := by
  induction is generalizing cl with
  | nil => trivial
  | cons i rest ih =>
    have ih := ih fun j hj => h j (List.mem_cons_of_mem _ hj)
    have hr : InRange c (row i : Act α β _) := ⟨h i List.mem_cons_self, fun _ => trivial⟩
    refine hr.bind fun o => ?_
    split_ifs
    · trivial
    · exact ih _
    · exact ih _

theorem inRange_loopPre {closure : Finset β → Act α β (Finset β)} (h : ∀ s, InRange c (closure s)) (m : β)
    (extent : Finset α) (l : List (AI.Pre α β)) (st : AI.St α β) : InRange c (Act.loopPre closure m extent l st) := by
  have hs : ∀ p st, InRange c (Act.stableConcept closure m extent p st) := by
    intro p st
    unfold Act.stableConcept
    dsimp only
    split_ifs
    · refine (h _).bind fun cl => ?_
      split_ifs <;> trivial
    · trivial
  induction l generalizing st with
  | nil => trivial
  | cons p rest ih =>
    unfold Act.loopPre
    dsimp only
    split_ifs
    all_goals first | exact ih _ | exact (hs _ _).bind fun _ => ih _

theorem inRange_basisLoop (sort : List (AI.Pre α β) → List (AI.Pre α β))
    (close : Finset β → List (Imp β) → Finset β) {is : List ℕ} (h : ∀ i ∈ is, i < c.attributes.length)
    (pre : List (AI.Pre α β)) (basis : List (Imp β)) : InRange c (Act.basisLoop sort close is pre basis) := by
  induction is generalizing pre basis with
  | nil => trivial
  | cons i rest ih =>
    refine InRange.bind ?_ fun _ => ih (fun j hj => h j (List.mem_cons_of_mem _ hj)) _ _
    unfold Act.updatePreclosed
    have h1 : InRange c (Act.look fun c => .done (pyGet c.attributes i) : Act α β β) := trivial
    have h2 : InRange c (column i : Act α β _) := ⟨h i List.mem_cons_self, fun _ => trivial⟩
    have h3 : ∀ s, InRange c (Act.kclosure s (i + 1) : Act α β _) :=
      fun s => inRange_kclosureLoop s (fun j hj => List.mem_range.1 hj) _
    exact h1.bind fun m => h2.bind fun ext => (inRange_loopPre h3 _ _ _ _).bind fun _ => trivial

end ranges

end CSt

/-! ### C175 -/

open Ctx Act

variable {α β : Type} [DecidableEq α] [DecidableEq β] [PyName α] [PyName β]

theorem readOnly_attributeCanonicalBasis (sort : List (AI.Pre α β) → List (AI.Pre α β)) :
    (attributeCanonicalBasis sort : Act α β _).ReadOnly :=
  ⟨readOnly_canonicalBasis sort _, fun _ => trivial⟩

/-- `get_attribute_canonical_basis()` of a context without caches returns what `compute_canonical_basis` computes from the
table, and raises what it raises; when it returns, the object is as before. -/
theorem C175_method {c : Ctx α β} (h : c.WFw) (ob : List (Imp α)) (sort : List (AI.Pre α β) → List (AI.Pre α β)) :
    (CSt.act (attributeCanonicalBasis sort) ⟨c, ob, [], []⟩).2 = AI.computeCanonicalBasis sort simpleClosure c ∧
    ∀ res, (CSt.act (attributeCanonicalBasis sort) ⟨c, ob, [], []⟩).2 = .ok res →
      (CSt.act (attributeCanonicalBasis sort) ⟨c, ob, [], []⟩).1 = ⟨c, ob, [], []⟩ := by
  have hcl : CSt.Clean (⟨c, ob, [], []⟩ : CSt α β) := ⟨by simp [CSt.Fits], by simp [CSt.Fits]⟩
  obtain ⟨h1, -, -⟩ := CSt.act_readOnly (readOnly_attributeCanonicalBasis sort) hcl
  refine ⟨?_, fun res hres => ?_⟩
  · rw [h1]
    show ((canonicalBasis sort simpleClosure).plain c).2 = _
    rw [plain_canonicalBasis h]
  · obtain ⟨-, -, k3⟩ := CSt.act_readOnly (readOnly_canonicalBasis sort simpleClosure)
      (s := CSt.push (⟨c, ob, [], []⟩ : CSt α β)) ⟨CSt.fits_push hcl.o, CSt.fits_push hcl.a⟩
    rw [attributeCanonicalBasis, CSt.act_nested] at hres ⊢
    cases hr : (CSt.act (canonicalBasis sort simpleClosure) (CSt.push (⟨c, ob, [], []⟩ : CSt α β))).2 with
    | error e => rw [hr] at hres; simp [CSt.act] at hres
    | ok x =>
      simp only [CSt.act, CSt.restore, List.length_nil, Nat.sub_zero, List.drop_length]
      rw [k3.ctx, k3.objBasis]
      rfl

/-- During a decorated computation, whatever it does, no row and no column is read twice from the table. -/
theorem C175_once {R : Type} (p : Act α β R) (s : CSt α β) :
    (CSt.rowReads (.nested p .done) s).Nodup ∧ (CSt.columnReads (.nested p .done) s).Nodup := by
  have h1 := (CSt.rowReads_once p (s := s.push) (by simp [CSt.push])).1
  have h2 := (CSt.columnReads_once p (s := s.push) (by simp [CSt.push])).1
  unfold CSt.rowReads CSt.columnReads
  dsimp only
  cases (CSt.act p s.push).2 <;> simpa [CSt.rowReads, CSt.columnReads] using ⟨h1, h2⟩

theorem nodup_lt_length {l : List ℕ} (h : l.Nodup) {n : ℕ} (hl : ∀ i ∈ l, i < n) : l.length ≤ n := by
  have := (h.subperm (l₂ := List.range n) fun i hi => List.mem_range.2 (hl i hi)).length_le
  simpa using this

/-- `get_attribute_canonical_basis()` reads at most as many rows and columns as the table has, however long it takes. -/
theorem C175_canonical_reads (c : Ctx α β) (ob : List (Imp α)) (sort : List (AI.Pre α β) → List (AI.Pre α β)) :
    (CSt.rowReads (attributeCanonicalBasis sort) ⟨c, ob, [], []⟩).length ≤ c.objects.length ∧
    (CSt.columnReads (attributeCanonicalBasis sort) ⟨c, ob, [], []⟩).length ≤ c.attributes.length := by
  have hr : CSt.InRange c (attributeCanonicalBasis sort : Act α β _) :=
    ⟨CSt.inRange_basisLoop sort _ (fun i hi => List.mem_range.1 hi) _ _, fun _ => trivial⟩
  have h1 := hr.reads (s := ⟨c, ob, [], []⟩) rfl
  have h2 := C175_once (canonicalBasis sort simpleClosure) (⟨c, ob, [], []⟩ : CSt α β)
  exact ⟨nodup_lt_length h2.1 h1.1, nodup_lt_length h2.2 h1.2⟩

/-- So does `get_attribute_implications(…)` with a condition that asks only for rows and columns of the table. -/
theorem C175_dg_reads (c : Ctx α β) (ob : List (Imp α)) (ordA : SetOrder β) (ordO : SetOrder α)
    (close : Finset β → List (Imp β) → Finset β) (bg : List (Imp β)) (cond : Finset β → Act α β Bool)
    (hc : ∀ a, CSt.InRange c (cond a)) :
    (CSt.rowReads (attributeImplications ordA ordO close bg cond) ⟨c, ob, [], []⟩).length ≤ c.objects.length ∧
    (CSt.columnReads (attributeImplications ordA ordO close bg cond) ⟨c, ob, [], []⟩).length ≤ c.attributes.length := by
  have hr : CSt.InRange c (attributeImplications ordA ordO close bg cond) :=
    ⟨CSt.inRange_dgLoop ordA ordO close bg hc _ _ _ _ _, fun _ => trivial⟩
  have h1 := hr.reads (s := ⟨c, ob, [], []⟩) rfl
  have h2 := C175_once (dgBasis ordA ordO close bg cond) (⟨c, ob, [], []⟩ : CSt α β)
  exact ⟨nodup_lt_length h2.1 h1.1, nodup_lt_length h2.2 h1.2⟩

/-- A context with three objects and three attributes. -/
def wit175 : Ctx (Fin 3) (Fin 3) :=
  ⟨[0, 1, 2], [0, 1, 2], ⟨some 3, [[true, true, false], [false, true, true], [false, true, false]]⟩⟩

theorem wit175_wf : wit175.WFw := by constructor <;> decide +kernel

/-- As methods the two algorithms read every row and every column once. -/
example : (CSt.act (attributeCanonicalBasis id) (CSt.new wit175)).2 = .ok [⟨∅, {1}⟩] ∧
    CSt.rowReads (attributeCanonicalBasis id) (CSt.new wit175) = [0, 1, 2] ∧
    CSt.columnReads (attributeCanonicalBasis id) (CSt.new wit175) = [0, 1, 2] ∧
    CSt.columnReads (attributeImplications (.fin 3) (.fin 3) simpleClosure [] fun _ => .done (.ok true))
      (CSt.new wit175) = [1, 2, 0] := by
  decide +kernel

/-- Called as functions, without the caches, the two algorithms read rows several times. -/
theorem C175_functions_violated :
    ∃ c : Ctx (Fin 3) (Fin 3), c.WFw ∧
      c.objects.length < (CSt.rowReads (canonicalBasis id simpleClosure) (CSt.new c)).length ∧
      c.objects.length < (CSt.rowReads (dgBasis (.fin 3) (.fin 3) simpleClosure [] fun _ => .done (.ok true))
        (CSt.new c)).length :=
  ⟨wit175, wit175_wf, by decide +kernel, by decide +kernel⟩

/-- A decorated method that raises leaves one more cache for rows and one for columns on the object. -/
theorem C175_raises {R : Type} (p : Act α β R) (s : CSt α β) (e : PyErr)
    (h : (CSt.act (.nested p .done) s).2 = .error e) :
    s.memoO.length < (CSt.act (.nested p .done) s).1.memoO.length ∧
    s.memoA.length < (CSt.act (.nested p .done) s).1.memoA.length := by
  have hk := CSt.act_kept p s.push
  rw [CSt.act_nested] at h ⊢
  cases hr : (CSt.act p s.push).2 with
  | ok x => rw [hr] at h; simp [CSt.act] at h
  | error e' =>
    have h1 := hk.memoO
    have h2 := hk.memoA
    simp only [CSt.push, List.length_cons] at h1 h2
    exact ⟨h1, h2⟩

/-- `get_attribute_canonical_basis()` raises on every context with attributes and without objects, made of an empty
table. -/
theorem C175_object_free {c : Ctx α β} (h : c.WFw) (hc : c.nd.cols = none) (hne : c.attributes ≠ [])
    (sort : List (AI.Pre α β) → List (AI.Pre α β)) :
    (CSt.act (attributeCanonicalBasis sort) (CSt.new c)).2 = .error .indexError := by
  rw [← C32_objectfree_violated hc hne sort simpleClosure]
  exact (C175_method h [] sort).1

/-- No objects, two attributes. -/
def wit175e : Ctx (Fin 2) (Fin 2) := ⟨[], [0, 1], ⟨none, []⟩⟩

/-- After that a row which was asked for is answered as it was then, though it has been changed. -/
theorem C175_stale_violated :
    wit175e.WFw ∧
    (CSt.act ((Act.nested (canonicalBasis id simpleClosure) fun _ =>
      .modify (.addObjectWithIntent {0} 0) fun _ => (objectIntent 0).bind fun _ =>
        .modify (.setObjectIntent [1] 0) fun _ => objectIntent 0) : Act (Fin 2) (Fin 2) _) (CSt.new wit175e)).2 = .ok {0} ∧
    (CSt.act ((Act.nested (canonicalBasis id simpleClosure) fun _ =>
      .modify (.addObjectWithIntent {0} 0) fun _ => (objectIntent 0).bind fun _ =>
        .modify (.setObjectIntent [1] 0) fun _ => objectIntent 0) : Act (Fin 2) (Fin 2) _)
          (CSt.new wit175e)).1.ctx.objectIntent 0 = .ok {1} :=
  ⟨by constructor <;> decide +kernel, by decide +kernel, by decide +kernel⟩
