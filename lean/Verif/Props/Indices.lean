/-
Property C117: methods of contexts that take positions.
-/
import Verif.Model.Indices
import Verif.Props.Context

set_option linter.unusedSectionVars false

/-- `x` is at position `i` of the list; negative positions count from the end. -/
def Spec.At {γ : Type} (l : List γ) (i : ℤ) (x : γ) : Prop :=
  (0 ≤ i ∧ l[i.toNat]? = some x) ∨ (i < 0 ∧ 0 ≤ i + l.length ∧ l[(i + l.length).toNat]? = some x)

open Spec

theorem npIndex_at {γ : Type} {l : List γ} {i : ℤ} {x : γ} (h : At l i x) :
    ∃ k, npIndex l.length i = .ok k ∧ l[k]? = some x := by
  unfold npIndex
  rcases h with ⟨h1, h2⟩ | ⟨h1, h2, h3⟩
  · have := Ctx.lt_of_getElem? h2
    exact ⟨i.toNat, if_pos ⟨h1, by omega⟩, h2⟩
  · refine ⟨(i + l.length).toNat, ?_, h3⟩
    rw [if_neg (by omega), if_pos ⟨h1, h2⟩]

theorem npIndex_out {γ : Type} {l : List γ} {i : ℤ} (h : ∀ x, ¬ At l i x) : npIndex l.length i = .error .indexError := by
  unfold npIndex
  rw [if_neg, if_neg]
  · rintro ⟨h1, h2⟩
    have hlt : (i + l.length).toNat < l.length := by omega
    exact h _ (Or.inr ⟨h1, h2, List.getElem?_eq_getElem hlt⟩)
  · rintro ⟨h1, h2⟩
    have hlt : i.toNat < l.length := by omega
    exact h _ (Or.inl ⟨h1, List.getElem?_eq_getElem hlt⟩)

theorem at_lt {γ : Type} {l : List γ} {i : ℤ} {x : γ} (h : At l i x) : 0 < l.length := by
  rcases h with ⟨-, h⟩ | ⟨-, -, h⟩ <;> have := Ctx.lt_of_getElem? h <;> omega

theorem at_nat {γ : Type} {l : List γ} {k : ℕ} {x : γ} (h : l[k]? = some x) : At l (Int.ofNat k) x :=
  Or.inl ⟨Int.natCast_nonneg k, h⟩

namespace Ctx

variable {α β : Type} [DecidableEq α] [DecidableEq β]

theorem WFw.rowZ {c : Ctx α β} (h : c.WFw) {i : ℤ} {o : α} (hi : At c.objects i o) :
    ∃ k, c.objects[k]? = some o ∧ c.nd.rowZ i = c.nd.row k := by
  obtain ⟨k, h1, h2⟩ := npIndex_at hi
  refine ⟨k, h2, ?_⟩
  unfold Nd.rowZ Nd.row
  cases c.nd.cols with
  | none => rfl
  | some m =>
    simp only
    rw [h.nrows, h1, py_ok_bind]

theorem WFw.rowZ_out {c : Ctx α β} (h : c.WFw) {i : ℤ} (hi : ∀ o, ¬ At c.objects i o) :
    c.nd.rowZ i = .error .indexError := by
  unfold Nd.rowZ
  cases c.nd.cols with
  | none => rfl
  | some m =>
    simp only
    rw [h.nrows, npIndex_out hi]
    rfl

theorem WFw.colZ {c : Ctx α β} (h : c.WFw) (hne : c.objects ≠ []) {j : ℤ} {a : β} (hj : At c.attributes j a) :
    ∃ k, c.attributes[k]? = some a ∧ c.nd.colZ j = c.nd.col k := by
  obtain ⟨k, h1, h2⟩ := npIndex_at hj
  refine ⟨k, h2, ?_⟩
  rw [col_ok (C04_shape h hne) (lt_of_getElem? h2)]
  unfold Nd.colZ
  rw [C04_shape h hne]
  simp only
  rw [h1, py_ok_bind]

theorem WFw.colZ_out {c : Ctx α β} (h : c.WFw) (hne : c.objects ≠ []) {j : ℤ} (hj : ∀ a, ¬ At c.attributes j a) :
    c.nd.colZ j = .error .indexError := by
  unfold Nd.colZ
  rw [C04_shape h hne]
  simp only
  rw [npIndex_out hj]
  rfl

/-- The loop over the remaining positions. -/
theorem foldlM_positions {γ : Type} {getZ : ℤ → Py (List Bool)} {get : ℕ → Py (List Bool)} {l : List γ}
    (hg : ∀ i x, At l i x → ∃ k, l[k]? = some x ∧ getZ i = get k) {is : List ℤ} {xs : List γ}
    (h : List.Forall₂ (At l) is xs) : ∃ ks, List.Forall₂ (fun x k => l[k]? = some x) xs ks ∧
      ∀ r, is.foldlM (fun acc k => do
        let q ← getZ k
        .ok (List.zipWith (· && ·) acc q)) r = andAll get r ks := by
  induction h with
  | nil => exact ⟨[], .nil, fun r => rfl⟩
  | @cons i x is xs h1 h2 ih =>
    obtain ⟨ks, h3, h4⟩ := ih
    obtain ⟨k, h5, h6⟩ := hg i x h1
    refine ⟨k :: ks, .cons h5 h3, fun r => ?_⟩
    unfold andAll at h4 ⊢
    rw [List.foldlM_cons, List.foldlM_cons, h6]
    cases hq : get k with
    | error e => rfl
    | ok q => simp only [py_ok_bind, h4]

theorem WFw.oprimeIndsZ {c : Ctx α β} (h : c.WFw) {is : List ℤ} {os : List α} (hi : List.Forall₂ (At c.objects) is os) :
    ∃ ks, List.Forall₂ (fun o k => c.objects[k]? = some o) os ks ∧ c.oprimeIndsZ is = c.oprimeInds ks := by
  cases hi with
  | nil => exact ⟨[], .nil, rfl⟩
  | @cons i o is os h1 h2 =>
    obtain ⟨ks, h3, h4⟩ := foldlM_positions (fun i x hx => h.rowZ hx) h2
    obtain ⟨k, h5, h6⟩ := h.rowZ h1
    refine ⟨k :: ks, .cons h5 h3, ?_⟩
    obtain ⟨r, -, hr, -⟩ := h.row (lt_of_getElem? h5)
    unfold Ctx.oprimeIndsZ Ctx.oprimeInds
    simp only [h6, hr, h4]

theorem WFw.aprimeIndsZ {c : Ctx α β} (h : c.WFw) (hne : c.objects ≠ []) {js : List ℤ} {as : List β}
    (hj : List.Forall₂ (At c.attributes) js as) :
    ∃ ks, List.Forall₂ (fun a k => c.attributes[k]? = some a) as ks ∧ c.aprimeIndsZ js = c.aprimeInds ks := by
  cases hj with
  | nil => exact ⟨[], .nil, rfl⟩
  | @cons j a js as h1 h2 =>
    obtain ⟨ks, h3, h4⟩ := foldlM_positions (fun i x hx => h.colZ hne hx) h2
    obtain ⟨k, h5, h6⟩ := h.colZ hne h1
    refine ⟨k :: ks, .cons h5 h3, ?_⟩
    unfold Ctx.aprimeIndsZ Ctx.aprimeInds
    simp only [h6, col_ok (C04_shape h hne) (lt_of_getElem? h5), h4]

/-- C117: `get_object_intent_by_index(i)` is the set of attributes of the object at `i`. -/
theorem C117_intent {c : Ctx α β} (h : c.WFw) {i : ℤ} {o : α} (hi : At c.objects i o) :
    ∃ S, c.intentByIndexZ i = .ok S ∧ ∀ a, a ∈ S ↔ c.Inc o a := by
  obtain ⟨k, h1, h2⟩ := h.rowZ hi
  have e : c.intentByIndexZ i = c.intentByIndex k := by
    unfold intentByIndexZ intentByIndex
    rw [h2]
  rw [e, h.intentByIndex h1]
  refine ⟨_, rfl, fun a => ?_⟩
  rw [h.mem_upF]
  simp only [Finset.mem_singleton, forall_eq, and_iff_right_iff_imp]
  exact fun ⟨_, j, _, _, hj, _⟩ => List.mem_of_getElem? hj

/-- C117: `get_attribute_extent_by_index(j)` is the set of objects of the attribute at `j`. -/
theorem C117_extent {c : Ctx α β} (h : c.WFw) (hne : c.objects ≠ []) {j : ℤ} {a : β} (hj : At c.attributes j a) :
    ∃ S, c.extentByIndexZ j = .ok S ∧ ∀ o, o ∈ S ↔ c.Inc o a := by
  obtain ⟨k, h1, h2⟩ := h.colZ hne hj
  have e : c.extentByIndexZ j = c.extentByIndex k := by
    unfold extentByIndexZ extentByIndex
    rw [h2]
  rw [e, h.extentByIndex (C04_shape h hne) h1]
  refine ⟨_, rfl, fun o => ?_⟩
  rw [h.mem_downF]
  simp only [Finset.mem_singleton, forall_eq, and_iff_right_iff_imp]
  exact fun ⟨i, _, _, hi, _⟩ => List.mem_of_getElem? hi

/-- C117: a position outside raises IndexError in both. -/
theorem C117_by_index_outside {c : Ctx α β} (h : c.WFw) {i : ℤ} :
    ((∀ o, ¬ At c.objects i o) → c.intentByIndexZ i = .error .indexError) ∧
      (c.objects ≠ [] → (∀ a, ¬ At c.attributes i a) → c.extentByIndexZ i = .error .indexError) := by
  refine ⟨fun hi => ?_, fun hne hi => ?_⟩
  · unfold intentByIndexZ
    rw [h.rowZ_out hi]; rfl
  · unfold extentByIndexZ
    rw [h.colZ_out hne hi]; rfl

/-- C117: `oprime_inds` of positions of objects: the positions of the attributes all of them have, each once. -/
theorem C117_oprime_inds {c : Ctx α β} (h : c.WFw) {is : List ℤ} {os : List α} (hi : List.Forall₂ (At c.objects) is os) :
    ∃ js, c.oprimeIndsZ is = .ok js ∧ js.Nodup ∧
      ∀ j, j ∈ js ↔ ∃ a, c.attributes[j]? = some a ∧ ∀ o ∈ os, c.Inc o a := by
  obtain ⟨ks, h1, h2⟩ := h.oprimeIndsZ hi
  obtain ⟨js, h3, h4, h5⟩ := h.oprimeInds (is := ks) fun k hk => by
    obtain ⟨o, -, ho⟩ := forall₂_mem_right h1 k hk
    exact lt_of_getElem? ho
  refine ⟨js, h2.trans h3, h4, fun j => ?_⟩
  rw [h5]
  constructor
  · rintro ⟨hj, hb⟩
    refine ⟨c.attributes[j], List.getElem?_eq_getElem hj, fun o ho => ?_⟩
    obtain ⟨k, hk, hok⟩ := forall₂_mem_left h1 o ho
    exact (inc_iff h.onodup h.anodup hok (List.getElem?_eq_getElem hj)).2 (hb k hk)
  · rintro ⟨a, ha, hb⟩
    refine ⟨lt_of_getElem? ha, fun k hk => ?_⟩
    obtain ⟨o, ho, hok⟩ := forall₂_mem_right h1 k hk
    exact (inc_iff h.onodup h.anodup hok ha).1 (hb o ho)

/-- C117: `aprime_inds` of positions of attributes. -/
theorem C117_aprime_inds {c : Ctx α β} (h : c.WF) {js : List ℤ} {as : List β}
    (hj : List.Forall₂ (At c.attributes) js as) :
    ∃ is, c.aprimeIndsZ js = .ok is ∧ is.Nodup ∧
      ∀ i, i ∈ is ↔ ∃ o, c.objects[i]? = some o ∧ ∀ a ∈ as, c.Inc o a := by
  by_cases hne : c.objects = []
  · refine ⟨[], ?_, List.nodup_nil, fun i => by simp [hne]⟩
    have hr : c.nd.rows = [] := (rows_nil h.toWFw).2 hne
    cases hj with
    | nil => unfold Ctx.aprimeIndsZ; simp [hne]
    | @cons j a js as h1 h2 =>
      unfold Ctx.aprimeIndsZ
      rcases h.shape0 with hc | hc
      · have : c.nd.colZ j = .error .indexError := by unfold Nd.colZ; rw [hc]
        simp only [this, hne]; rfl
      · have hcol : ∀ j a, At c.attributes j a → c.nd.colZ j = .ok [] := by
          intro j a hja
          obtain ⟨k, h3, -⟩ := npIndex_at hja
          unfold Nd.colZ
          rw [hc]
          simp only
          rw [h3, py_ok_bind, hr]; rfl
        have hf : js.foldlM (fun acc k => do
            let q ← c.nd.colZ k
            .ok (List.zipWith (· && ·) acc q)) ([] : List Bool) = (.ok [] : Py _) := by
          clear h1
          induction h2 with
          | nil => rfl
          | @cons i x is xs h1 h2 ih =>
            rw [List.foldlM_cons, hcol i x h1]
            exact ih
        simp only [hcol j a h1, hf]
        rfl
  obtain ⟨ks, h1, h2⟩ := h.toWFw.aprimeIndsZ hne hj
  obtain ⟨is, h3, h4, h5⟩ := h.aprimeInds (js := ks) fun k hk => by
    obtain ⟨o, -, ho⟩ := forall₂_mem_right h1 k hk
    exact lt_of_getElem? ho
  refine ⟨is, h2.trans h3, h4, fun i => ?_⟩
  rw [h5]
  constructor
  · rintro ⟨hi, hb⟩
    refine ⟨c.objects[i], List.getElem?_eq_getElem hi, fun a ha => ?_⟩
    obtain ⟨k, hk, hok⟩ := forall₂_mem_left h1 a ha
    exact (inc_iff h.onodup h.anodup (List.getElem?_eq_getElem hi) hok).2 (hb k hk)
  · rintro ⟨o, ho, hb⟩
    refine ⟨lt_of_getElem? ho, fun k hk => ?_⟩
    obtain ⟨a, ha, hak⟩ := forall₂_mem_right h1 k hk
    exact (inc_iff h.onodup h.anodup ho hak).1 (hb a ha)

/-- Positions handed from one method to the other. -/
theorem positions_names {γ : Type} {l : List γ} {js : List ℕ} {P : γ → Prop}
    (h : ∀ j, j ∈ js ↔ ∃ a, l[j]? = some a ∧ P a) :
    ∃ xs, List.Forall₂ (At l) (js.map Int.ofNat) xs ∧ ∀ x, x ∈ xs ↔ x ∈ l ∧ P x := by
  have key : ∀ ks : List ℕ, (∀ k ∈ ks, ∃ a, l[k]? = some a ∧ P a) →
      ∃ xs, List.Forall₂ (fun k x => l[k]? = some x ∧ P x) ks xs := by
    intro ks
    induction ks with
    | nil => intro _; exact ⟨[], .nil⟩
    | cons k ks ih =>
      intro hk
      obtain ⟨xs, hx⟩ := ih fun k h => hk k (List.mem_cons_of_mem _ h)
      obtain ⟨a, ha⟩ := hk k (by simp)
      exact ⟨a :: xs, .cons ha hx⟩
  obtain ⟨xs, hx⟩ := key js fun k hk => (h k).1 hk
  refine ⟨xs, ?_, fun x => ⟨fun hxs => ?_, fun ⟨hxl, hp⟩ => ?_⟩⟩
  · rw [List.forall₂_map_left_iff]
    exact hx.imp fun _ _ h => at_nat h.1
  · obtain ⟨k, -, h1, h2⟩ := forall₂_mem_right hx x hxs
    exact ⟨List.mem_of_getElem? h1, h2⟩
  · obtain ⟨k, hk⟩ := List.mem_iff_getElem?.1 hxl
    obtain ⟨y, hy, h1, -⟩ := forall₂_mem_left hx k ((h k).2 ⟨x, hk, hp⟩)
    rw [hk] at h1
    cases h1
    exact hy

/-- C117: `oclosure_inds`. -/
theorem C117_oclosure_inds {c : Ctx α β} (h : c.WF) {is : List ℤ} {os : List α} (hi : List.Forall₂ (At c.objects) is os) :
    ∃ ks, c.oclosureIndsZ is = .ok ks ∧ ks.Nodup ∧
      ∀ k, k ∈ ks ↔ ∃ g, c.objects[k]? = some g ∧ ∀ a ∈ c.attributes, (∀ o ∈ os, c.Inc o a) → c.Inc g a := by
  obtain ⟨js, h1, -, h2⟩ := C117_oprime_inds h.toWFw hi
  obtain ⟨as, h3, h4⟩ := positions_names h2
  obtain ⟨ks, h5, h6, h7⟩ := C117_aprime_inds h h3
  refine ⟨ks, by unfold oclosureIndsZ; rw [h1, py_ok_bind, h5], h6, fun k => ?_⟩
  rw [h7]
  simp only [h4, and_imp]

/-- C117: `aclosure_inds`. -/
theorem C117_aclosure_inds {c : Ctx α β} (h : c.WF) {js : List ℤ} {as : List β}
    (hj : List.Forall₂ (At c.attributes) js as) :
    ∃ ks, c.aclosureIndsZ js = .ok ks ∧ ks.Nodup ∧
      ∀ k, k ∈ ks ↔ ∃ m, c.attributes[k]? = some m ∧ ∀ g ∈ c.objects, (∀ a ∈ as, c.Inc g a) → c.Inc g m := by
  obtain ⟨is, h1, -, h2⟩ := C117_aprime_inds h hj
  obtain ⟨os, h3, h4⟩ := positions_names h2
  obtain ⟨ks, h5, h6, h7⟩ := C117_oprime_inds h.toWFw h3
  refine ⟨ks, by unfold aclosureIndsZ; rw [h1, py_ok_bind, h5], h6, fun k => ?_⟩
  rw [h7]
  simp only [h4, and_imp]

/-- C117 fails for a position outside at the front of the list: it does not raise, and every position is returned
whatever comes after it. -/
theorem C117_first_outside_violated {c : Ctx α β} (h : c.WFw) {i : ℤ} (is : List ℤ) :
    ((∀ o, ¬ At c.objects i o) → c.oprimeIndsZ (i :: is) = .ok (List.range c.attributes.length)) ∧
      (c.objects ≠ [] → (∀ a, ¬ At c.attributes i a) → c.aprimeIndsZ (i :: is) = .ok (List.range c.objects.length)) := by
  refine ⟨fun hi => ?_, fun hne hi => ?_⟩
  · unfold Ctx.oprimeIndsZ
    simp only [h.rowZ_out hi]
  · unfold Ctx.aprimeIndsZ
    simp only [h.colZ_out hne hi]

theorem foldlM_outside {γ : Type} {getZ : ℤ → Py (List Bool)} {l : List γ} (hout : ∀ i, (∀ x, ¬ At l i x) → getZ i = .error .indexError)
    (hin : ∀ i x, At l i x → ∃ q, getZ i = .ok q) {is : List ℤ} (h : ∃ i ∈ is, ∀ x, ¬ At l i x) (r : List Bool) :
    is.foldlM (fun acc k => do
        let q ← getZ k
        .ok (List.zipWith (· && ·) acc q)) r = (.error .indexError : Py _) := by
  obtain ⟨i, hi, hx⟩ := h
  induction is generalizing r with
  | nil => simp at hi
  | cons k ks ih =>
    rw [List.foldlM_cons]
    by_cases hk : ∃ x, At l k x
    · obtain ⟨x, hk⟩ := hk
      obtain ⟨q, hq⟩ := hin k x hk
      rw [hq]
      simp only [py_ok_bind]
      refine ih _ ?_
      rcases List.mem_cons.1 hi with rfl | hi
      · exact absurd hk (hx x)
      · exact hi
    · rw [hout k fun x h => hk ⟨x, h⟩]
      rfl

/-- C117: behind a known position, one outside raises IndexError. -/
theorem C117_later_outside_partial {c : Ctx α β} (h : c.WFw) {i : ℤ} {is : List ℤ} :
    ((∃ o, At c.objects i o) → (∃ k ∈ is, ∀ o, ¬ At c.objects k o) → c.oprimeIndsZ (i :: is) = .error .indexError) ∧
      (c.objects ≠ [] → (∃ a, At c.attributes i a) → (∃ k ∈ is, ∀ a, ¬ At c.attributes k a) →
        c.aprimeIndsZ (i :: is) = .error .indexError) := by
  have hin : ∀ i o, At c.objects i o → ∃ q, c.nd.rowZ i = .ok q := by
    intro i o hi
    obtain ⟨k, h1, h2⟩ := h.rowZ hi
    obtain ⟨r, -, h3, -⟩ := h.row (lt_of_getElem? h1)
    exact ⟨r, h2.trans h3⟩
  refine ⟨fun ⟨o, hi⟩ hk => ?_, fun hne ⟨a, hi⟩ hk => ?_⟩
  · obtain ⟨q, hq⟩ := hin i o hi
    unfold Ctx.oprimeIndsZ
    simp only [hq, foldlM_outside (fun i hi => h.rowZ_out hi) hin hk]
    rfl
  · have hin : ∀ i a, At c.attributes i a → ∃ q, c.nd.colZ i = .ok q := by
      intro i a hi
      obtain ⟨k, h1, h2⟩ := h.colZ hne hi
      exact ⟨_, h2.trans (col_ok (C04_shape h hne) (lt_of_getElem? h1))⟩
    obtain ⟨q, hq⟩ := hin i a hi
    unfold Ctx.aprimeIndsZ
    simp only [hq, foldlM_outside (fun i hi => h.colZ_out hne hi) hin hk]
    rfl

theorem rowZ_nat (t : Nd) (i : ℕ) : t.rowZ (Int.ofNat i) = t.row i := by
  unfold Nd.rowZ Nd.row
  cases t.cols with
  | none => rfl
  | some n =>
    simp only
    unfold npIndex
    by_cases hi : i < t.rows.length
    · rw [if_pos ⟨Int.natCast_nonneg i, by simpa using hi⟩]; rfl
    · have h0 : ¬ (0 ≤ Int.ofNat i ∧ Int.ofNat i < t.rows.length) := by simpa using hi
      have h1 : ¬ (Int.ofNat i < 0 ∧ 0 ≤ Int.ofNat i + t.rows.length) := fun h => absurd h.1 (by simp)
      rw [if_neg h0, if_neg h1]
      unfold pyGet
      rw [List.getElem?_eq_none (not_lt.1 hi)]
      rfl

theorem colZ_nat (t : Nd) (j : ℕ) : t.colZ (Int.ofNat j) = t.col j := by
  unfold Nd.colZ Nd.col
  cases t.cols with
  | none => rfl
  | some n =>
    simp only
    unfold npIndex
    by_cases hj : j < n
    · rw [if_pos ⟨Int.natCast_nonneg j, by simpa using hj⟩, if_pos hj]; rfl
    · have h0 : ¬ (0 ≤ Int.ofNat j ∧ Int.ofNat j < n) := by simpa using hj
      have h1 : ¬ (Int.ofNat j < 0 ∧ 0 ≤ Int.ofNat j + n) := fun h => absurd h.1 (by simp)
      rw [if_neg h0, if_neg h1, if_neg hj]
      rfl

theorem row_err {t : Nd} {i : ℕ} {e : PyErr} (h : t.row i = .error e) : e = .indexError := by
  unfold Nd.row at h
  split at h
  · cases h; rfl
  · unfold pyGet at h
    split at h <;> cases h
    rfl

theorem col_err {t : Nd} {j : ℕ} {e : PyErr} (h : t.col j = .error e) : e = .indexError := by
  unfold Nd.col at h
  split at h
  · cases h; rfl
  · split at h <;> cases h
    rfl

/-- The methods on natural numbers used in `oprime`, `aprime` are these, also outside of the table. -/
theorem C117_nat (c : Ctx α β) (is : List ℕ) :
    c.oprimeIndsZ (is.map Int.ofNat) = c.oprimeInds is ∧ c.aprimeIndsZ (is.map Int.ofNat) = c.aprimeInds is := by
  have key : ∀ (getZ : ℤ → Py (List Bool)) (get : ℕ → Py (List Bool)), (∀ k, getZ (Int.ofNat k) = get k) →
      ∀ (ks : List ℕ) (r : List Bool), (ks.map Int.ofNat).foldlM (fun acc k => do
        let q ← getZ k
        .ok (List.zipWith (· && ·) acc q)) r = andAll get r ks := by
    intro getZ get hg ks
    induction ks with
    | nil => intro r; rfl
    | cons k ks ih =>
      intro r
      unfold andAll at ih ⊢
      rw [List.map_cons, List.foldlM_cons, List.foldlM_cons, hg]
      cases get k with
      | error e => rfl
      | ok q => simp only [py_ok_bind, ih]
  cases is with
  | nil => exact ⟨rfl, rfl⟩
  | cons i is =>
    constructor
    · unfold oprimeIndsZ oprimeInds
      simp only [List.map_cons, rowZ_nat, key _ _ (rowZ_nat c.nd)]
      cases hr : c.nd.row i with
      | error e => rw [row_err hr]
      | ok r => rfl
    · unfold aprimeIndsZ aprimeInds
      simp only [List.map_cons, colZ_nat, key _ _ (colZ_nat c.nd)]
      cases hr : c.nd.col i with
      | error e => rw [col_err hr]
      | ok r => rfl

/-- Positions from the front and from the end; outside. -/
example : let c : Ctx (Fin 3) (Fin 2) := ⟨[0, 1, 2], [0, 1], ⟨some 2, [[true, true], [true, false], [false, true]]⟩⟩
    c.intentByIndexZ (-1) = .ok {1} ∧ c.intentByIndexZ 3 = .error .indexError ∧ c.extentByIndexZ (-2) = .ok {0, 1} ∧
    c.oprimeIndsZ [0, -2] = .ok [0] ∧ c.aprimeIndsZ [-1] = .ok [0, 2] ∧ c.oclosureIndsZ [-2] = .ok [0, 1] ∧
    c.aclosureIndsZ [1, -2] = .ok [0, 1] ∧
    c.oprimeIndsZ [0, 3] = .error .indexError ∧ c.oprimeIndsZ [3, 1] = .ok [0, 1] ∧ c.oprimeIndsZ [1] = .ok [0] ∧
    c.aprimeIndsZ [-3, 0] = .ok [0, 1, 2] := by decide +kernel

example : At [true, false, true] (-3) true ∧ At [true, false, true] 1 false ∧ ∀ x, ¬ At [true, false, true] 3 x := by
  refine ⟨Or.inr ⟨by decide, by decide, rfl⟩, Or.inl ⟨by decide, rfl⟩, ?_⟩
  rintro x (⟨-, h⟩ | ⟨h, -⟩)
  · exact absurd h (by simp)
  · omega

end Ctx
