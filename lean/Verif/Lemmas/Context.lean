import Verif.Model.Context
import Verif.Model.DG

/-! ### Lists and `Py` -/

section
variable {γ δ : Type}

theorem pyGet_ok {l : List γ} {i : ℕ} {x : γ} (h : l[i]? = some x) : pyGet l i = .ok x := by
  simp [pyGet, h]

theorem pyGet_ok_iff {l : List γ} {i : ℕ} {x : γ} : pyGet l i = .ok x ↔ l[i]? = some x := by
  unfold pyGet
  cases h : l[i]? <;> simp

theorem pyGet_err {l : List γ} {i : ℕ} (h : l.length ≤ i) : pyGet l i = .error .indexError := by
  simp [pyGet, List.getElem?_eq_none h]

@[simp] theorem py_ok_bind (x : γ) (f : γ → Py δ) : ((Except.ok x : Py γ) >>= f) = f x := rfl
@[simp] theorem py_err_bind (e : PyErr) (f : γ → Py δ) :
    ((Except.error e : Py γ) >>= f) = .error e := rfl
@[simp] theorem py_pure (x : γ) : (pure x : Py γ) = .ok x := rfl

theorem mapM_ok {f : γ → Py δ} {g : γ → δ} {l : List γ} (h : ∀ x ∈ l, f x = .ok (g x)) :
    l.mapM f = .ok (l.map g) := by
  induction l with
  | nil => rfl
  | cons x l ih =>
    rw [List.mapM_cons, h x (by simp), ih (fun y hy => h y (by simp [hy]))]
    rfl

/-- `mapM` succeeds if each call does. -/
theorem mapM_ok' {f : γ → Py δ} {R : γ → δ → Prop} {l : List γ}
    (h : ∀ x ∈ l, ∃ y, f x = .ok y ∧ R x y) :
    ∃ ys, l.mapM f = .ok ys ∧ List.Forall₂ R l ys := by
  induction l with
  | nil => exact ⟨[], rfl, .nil⟩
  | cons x l ih =>
    obtain ⟨y, hy, hR⟩ := h x (by simp)
    obtain ⟨ys, hys, hF⟩ := ih (fun z hz => h z (by simp [hz]))
    refine ⟨y :: ys, ?_, .cons hR hF⟩
    rw [List.mapM_cons, hy, hys]
    rfl

/-- If all calls raise `e` or succeed and one raises, `mapM` raises `e`. -/
theorem mapM_err {f : γ → Py δ} {e : PyErr} {l : List γ}
    (h : ∀ x ∈ l, f x = .error e ∨ ∃ y, f x = .ok y) (hx : ∃ x ∈ l, f x = .error e) :
    l.mapM f = .error e := by
  induction l with
  | nil => obtain ⟨x, hx, _⟩ := hx; simp at hx
  | cons x l ih =>
    rw [List.mapM_cons]
    rcases h x (by simp) with he | ⟨y, hy⟩
    · rw [he]; rfl
    · rw [hy]
      obtain ⟨z, hz, hze⟩ := hx
      rcases List.mem_cons.1 hz with rfl | hz
      · rw [hy] at hze; cases hze
      · rw [ih (fun w hw => h w (by simp [hw])) ⟨z, hz, hze⟩]
        rfl

theorem forall₂_mem_right {R : γ → δ → Prop} {l : List γ} {ys : List δ}
    (h : List.Forall₂ R l ys) (y : δ) (hy : y ∈ ys) : ∃ x ∈ l, R x y := by
  induction h with
  | nil => simp at hy
  | cons hR _ ih =>
    rcases List.mem_cons.1 hy with rfl | hy
    · exact ⟨_, by simp, hR⟩
    · obtain ⟨x, hx, hR⟩ := ih hy
      exact ⟨x, by simp [hx], hR⟩

theorem forall₂_mem_left {R : γ → δ → Prop} {l : List γ} {ys : List δ}
    (h : List.Forall₂ R l ys) (x : γ) (hx : x ∈ l) : ∃ y ∈ ys, R x y := by
  induction h with
  | nil => simp at hx
  | cons hR _ ih =>
    rcases List.mem_cons.1 hx with rfl | hx
    · exact ⟨_, by simp, hR⟩
    · obtain ⟨x, hx, hR⟩ := ih hx
      exact ⟨x, by simp [hx], hR⟩

theorem mem_nonzero {l : List Bool} {i : ℕ} : i ∈ nonzero l ↔ l[i]? = some true := by
  unfold nonzero
  rw [List.mem_filter, List.mem_range, List.getD_eq_getElem?_getD]
  constructor
  · rintro ⟨hi, h⟩
    rw [List.getElem?_eq_getElem hi] at h ⊢
    simpa using h
  · intro h
    refine ⟨(List.getElem?_eq_some_iff.1 h).1, by simp [h]⟩

theorem nonzero_nodup (l : List Bool) : (nonzero l).Nodup := List.nodup_range.filter _

variable [DecidableEq γ]

theorem lastIdx_ok {l : List γ} {x : γ} {i : ℕ} (h : lastIdx l x = .ok i) : l[i]? = some x := by
  unfold lastIdx at h
  split at h
  · rename_i k hk
    cases h
    rw [List.idxOf?, List.findIdx?_eq_some_iff_getElem] at hk
    obtain ⟨hlt, he, _⟩ := hk
    rw [List.length_reverse] at hlt
    rw [List.getElem_reverse] at he
    rw [List.getElem?_eq_getElem (by omega)]
    have he' := eq_of_beq he
    exact congrArg some he'
  · cases h

theorem lastIdx_mem {l : List γ} {x : γ} (h : x ∈ l) : ∃ i, lastIdx l x = .ok i := by
  unfold lastIdx
  cases hk : l.reverse.idxOf? x with
  | some k => exact ⟨_, rfl⟩
  | none =>
    rw [List.idxOf?, List.findIdx?_eq_none_iff] at hk
    have := hk x (List.mem_reverse.2 h)
    simp at this

theorem lastIdx_not_mem {l : List γ} {x : γ} (h : x ∉ l) : lastIdx l x = .error .keyError := by
  unfold lastIdx
  cases hk : l.reverse.idxOf? x with
  | none => rfl
  | some k =>
    rw [List.idxOf?, List.findIdx?_eq_some_iff_getElem] at hk
    obtain ⟨hlt, he, _⟩ := hk
    exfalso
    apply h
    rw [← List.mem_reverse, ← eq_of_beq he]
    exact List.getElem_mem hlt

theorem firstIdx_ok {l : List γ} {x : γ} {i : ℕ} (h : firstIdx l x = .ok i) : l[i]? = some x := by
  unfold firstIdx at h
  split at h
  · rename_i k hk
    cases h
    rw [List.idxOf?, List.findIdx?_eq_some_iff_getElem] at hk
    obtain ⟨hlt, he, _⟩ := hk
    rw [List.getElem?_eq_getElem hlt]
    exact congrArg some (eq_of_beq he)
  · cases h

theorem firstIdx_mem {l : List γ} {x : γ} (h : x ∈ l) : ∃ i, firstIdx l x = .ok i := by
  unfold firstIdx
  cases hk : l.idxOf? x with
  | some k => exact ⟨_, rfl⟩
  | none =>
    rw [List.idxOf?, List.findIdx?_eq_none_iff] at hk
    have := hk x h
    simp at this

theorem firstIdx_not_mem {l : List γ} {x : γ} (h : x ∉ l) : firstIdx l x = .error .valueError := by
  unfold firstIdx
  cases hk : l.idxOf? x with
  | none => rfl
  | some k =>
    rw [List.idxOf?, List.findIdx?_eq_some_iff_getElem] at hk
    obtain ⟨hlt, he, _⟩ := hk
    exfalso
    apply h
    rw [← eq_of_beq he]
    exact List.getElem_mem hlt

theorem nodup_idx {l : List γ} (hn : l.Nodup) {i j : ℕ} {x : γ} (hi : l[i]? = some x)
    (hj : l[j]? = some x) : i = j := by
  obtain ⟨h1, h1'⟩ := List.getElem?_eq_some_iff.1 hi
  obtain ⟨h2, h2'⟩ := List.getElem?_eq_some_iff.1 hj
  exact (List.Nodup.getElem_inj_iff hn).1 (h1'.trans h2'.symm)

theorem lastIdx_eq {l : List γ} (hn : l.Nodup) {i : ℕ} {x : γ} (hi : l[i]? = some x) :
    lastIdx l x = .ok i := by
  obtain ⟨k, hk⟩ := lastIdx_mem (List.mem_of_getElem? hi)
  rw [hk, nodup_idx hn (lastIdx_ok hk) hi]

theorem firstIdx_eq {l : List γ} (hn : l.Nodup) {i : ℕ} {x : γ} (hi : l[i]? = some x) :
    firstIdx l x = .ok i := by
  obtain ⟨k, hk⟩ := firstIdx_mem (List.mem_of_getElem? hi)
  rw [hk, nodup_idx hn (firstIdx_ok hk) hi]

/-- Indices of a list of known names. -/
theorem mapM_lastIdx {l : List γ} {xs : List γ} (h : ∀ x ∈ xs, x ∈ l) :
    ∃ is, xs.mapM (lastIdx l) = .ok is ∧ List.Forall₂ (fun x i => l[i]? = some x) xs is :=
  mapM_ok' fun x hx => by
    obtain ⟨i, hi⟩ := lastIdx_mem (h x hx)
    exact ⟨i, hi, lastIdx_ok hi⟩

theorem mapM_lastIdx_err {l : List γ} {xs : List γ} (h : ∃ x ∈ xs, x ∉ l) :
    xs.mapM (lastIdx l) = .error .keyError := by
  apply mapM_err
  · intro x _
    by_cases hx : x ∈ l
    · exact Or.inr (lastIdx_mem hx)
    · exact Or.inl (lastIdx_not_mem hx)
  · obtain ⟨x, hx, hn⟩ := h
    exact ⟨x, hx, lastIdx_not_mem hn⟩

end

namespace Ctx

variable {α β : Type} [DecidableEq α] [DecidableEq β]

/-- The table has a cross at `(i, j)`. -/
def Bit (c : Ctx α β) (i j : ℕ) : Prop := ∃ r, c.nd.rows[i]? = some r ∧ r[j]? = some true

theorem inc_iff {c : Ctx α β} (ho : c.objects.Nodup) (ha : c.attributes.Nodup) {i j : ℕ} {o : α} {a : β}
    (hi : c.objects[i]? = some o) (hj : c.attributes[j]? = some a) : c.Inc o a ↔ c.Bit i j := by
  constructor
  · rintro ⟨i', j', r, hi', hj', hr, hb⟩
    rw [nodup_idx ho hi' hi] at hr
    rw [nodup_idx ha hj' hj] at hb
    exact ⟨r, hr, hb⟩
  · rintro ⟨r, hr, hb⟩
    exact ⟨i, j, r, hi, hj, hr, hb⟩

theorem Inc.mem {c : Ctx α β} {o : α} {a : β} (h : c.Inc o a) : o ∈ c.objects ∧ a ∈ c.attributes := by
  obtain ⟨i, j, r, hi, hj, _⟩ := h
  exact ⟨List.mem_of_getElem? hi, List.mem_of_getElem? hj⟩

theorem WFw.row {c : Ctx α β} (h : WFw c) {i : ℕ} (hi : i < c.objects.length) :
    ∃ r, c.nd.rows[i]? = some r ∧ c.nd.row i = .ok r ∧ r.length = c.attributes.length := by
  have hi' : i < c.nd.rows.length := h.nrows ▸ hi
  refine ⟨c.nd.rows[i], List.getElem?_eq_getElem hi', ?_, h.width _ (List.getElem_mem hi')⟩
  unfold Nd.row
  rw [h.shape (by intro he; simp [he] at hi')]
  exact pyGet_ok (List.getElem?_eq_getElem hi')

theorem lt_of_getElem? {γ : Type} {l : List γ} {i : ℕ} {x : γ} (h : l[i]? = some x) :
    i < l.length := (List.getElem?_eq_some_iff.1 h).1

theorem WFw.bit_lt {c : Ctx α β} (h : WFw c) {i j : ℕ} (hb : c.Bit i j) :
    i < c.objects.length ∧ j < c.attributes.length := by
  obtain ⟨r, hr, hj⟩ := hb
  have h1 := lt_of_getElem? hr
  have h2 := lt_of_getElem? hj
  rw [h.width r (List.mem_of_getElem? hr)] at h2
  exact ⟨h.nrows ▸ h1, h2⟩

/-- Executable incidence test. -/
def incB (c : Ctx α β) (o : α) (a : β) : Bool :=
  match c.getValue o a with
  | .ok b => b
  | .error _ => false

theorem WFw.cell {c : Ctx α β} (h : WFw c) {i j : ℕ} (hi : i < c.objects.length)
    (hj : j < c.attributes.length) : ∃ b, c.nd.cell i j = .ok b ∧ (b = true ↔ c.Bit i j) := by
  obtain ⟨r, hr, _, hl⟩ := h.row hi
  refine ⟨r[j]'(hl ▸ hj), ?_, ?_⟩
  · unfold Nd.cell
    rw [pyGet_ok hr]
    exact pyGet_ok (List.getElem?_eq_getElem _)
  · constructor
    · intro hb
      exact ⟨r, hr, by rw [List.getElem?_eq_getElem (hl ▸ hj), hb]⟩
    · rintro ⟨r', hr', hb⟩
      rw [hr] at hr'
      cases hr'
      rw [List.getElem?_eq_getElem (hl ▸ hj)] at hb
      simpa using hb

theorem WFw.getValue {c : Ctx α β} (h : WFw c) {o : α} {a : β} (ho : o ∈ c.objects)
    (ha : a ∈ c.attributes) : ∃ b, c.getValue o a = .ok b ∧ (b = true ↔ c.Inc o a) := by
  obtain ⟨i, hi⟩ := List.mem_iff_getElem?.1 ho
  obtain ⟨j, hj⟩ := List.mem_iff_getElem?.1 ha
  obtain ⟨b, hb, hbit⟩ := h.cell (lt_of_getElem? hi) (lt_of_getElem? hj)
  refine ⟨b, ?_, ?_⟩
  · unfold Ctx.getValue
    rw [firstIdx_eq h.onodup hi, firstIdx_eq h.anodup hj]
    exact hb
  · rw [hbit, inc_iff h.onodup h.anodup hi hj]

theorem WFw.incB {c : Ctx α β} (h : WFw c) (o : α) (a : β) : c.incB o a = true ↔ c.Inc o a := by
  by_cases ho : o ∈ c.objects
  · by_cases ha : a ∈ c.attributes
    · obtain ⟨b, hb, hbi⟩ := h.getValue ho ha
      rw [← hbi]
      unfold Ctx.incB
      rw [hb]
    · constructor
      · unfold Ctx.incB Ctx.getValue
        obtain ⟨i, hi⟩ := firstIdx_mem ho
        rw [hi, firstIdx_not_mem ha]
        simp
      · intro hI; exact absurd hI.mem.2 ha
  · constructor
    · unfold Ctx.incB Ctx.getValue
      rw [firstIdx_not_mem ho]
      simp
    · intro hI; exact absurd hI.mem.1 ho

/-- Attributes shared by the objects in `A`. -/
def upF (c : Ctx α β) (A : Finset α) : Finset β :=
  c.attributes.toFinset.filter fun a => ∀ o ∈ A, c.incB o a = true

/-- Objects having all attributes in `B`. -/
def downF (c : Ctx α β) (B : Finset β) : Finset α :=
  c.objects.toFinset.filter fun o => ∀ a ∈ B, c.incB o a = true

theorem WFw.mem_upF {c : Ctx α β} (h : WFw c) {A : Finset α} {a : β} :
    a ∈ c.upF A ↔ a ∈ c.attributes ∧ ∀ o ∈ A, c.Inc o a := by
  simp [upF, h.incB]

theorem WFw.mem_downF {c : Ctx α β} (h : WFw c) {B : Finset β} {o : α} :
    o ∈ c.downF B ↔ o ∈ c.objects ∧ ∀ a ∈ B, c.Inc o a := by
  simp [downF, h.incB]

theorem mapM_pyGet {γ : Type} {l : List γ} {is : List ℕ} (h : ∀ i ∈ is, i < l.length) :
    ∃ xs, is.mapM (pyGet l) = .ok xs ∧ ∀ x, x ∈ xs ↔ ∃ i ∈ is, l[i]? = some x := by
  obtain ⟨xs, h1, h2⟩ := mapM_ok' (f := pyGet l) (R := fun i x => l[i]? = some x) (l := is)
    (fun i hi => ⟨l[i]'(h i hi), pyGet_ok (List.getElem?_eq_getElem _),
      List.getElem?_eq_getElem _⟩)
  refine ⟨xs, h1, fun x => ⟨fun hx => forall₂_mem_right h2 x hx, ?_⟩⟩
  rintro ⟨i, hi, hix⟩
  obtain ⟨y, hy, hiy⟩ := forall₂_mem_left h2 i hi
  rw [hix] at hiy; cases hiy; exact hy

theorem WFw.intentByIndex {c : Ctx α β} (h : WFw c) {i : ℕ} {o : α} (hi : c.objects[i]? = some o) :
    c.intentByIndex i = .ok (c.upF {o}) := by
  obtain ⟨r, hr, hrow, hl⟩ := h.row (lt_of_getElem? hi)
  unfold Ctx.intentByIndex
  rw [hrow]
  obtain ⟨xs, h1, h2⟩ := mapM_pyGet (l := c.attributes) (is := nonzero r) (fun j hj => by
    rw [← hl]; exact lt_of_getElem? (mem_nonzero.1 hj))
  simp only [py_ok_bind, h1]
  congr 1
  ext a
  rw [List.mem_toFinset, h2, h.mem_upF]
  constructor
  · rintro ⟨j, hj, hja⟩
    refine ⟨List.mem_of_getElem? hja, ?_⟩
    intro o' ho'
    rw [Finset.mem_singleton] at ho'; subst ho'
    exact (inc_iff h.onodup h.anodup hi hja).2 ⟨r, hr, mem_nonzero.1 hj⟩
  · rintro ⟨ha, hI⟩
    obtain ⟨j, hj⟩ := List.mem_iff_getElem?.1 ha
    obtain ⟨r', hr', hb⟩ := (inc_iff h.onodup h.anodup hi hj).1 (hI o (by simp))
    rw [hr] at hr'; cases hr'
    exact ⟨j, mem_nonzero.2 hb, hj⟩

theorem WFw.objectIntent {c : Ctx α β} (h : WFw c) {o : α} (ho : o ∈ c.objects) :
    c.objectIntent o = .ok (c.upF {o}) := by
  obtain ⟨i, hi⟩ := List.mem_iff_getElem?.1 ho
  unfold Ctx.objectIntent
  rw [lastIdx_eq h.onodup hi]
  exact h.intentByIndex hi

theorem objectIntent_err {c : Ctx α β} {o : α} (ho : o ∉ c.objects) :
    c.objectIntent o = .error .keyError := by
  unfold Ctx.objectIntent
  rw [lastIdx_not_mem ho]; rfl

theorem getD_map_col (rows : List (List Bool)) (i j : ℕ) :
    (rows.map fun r => r.getD j false)[i]? = some true ↔ ∃ r, rows[i]? = some r ∧ r[j]? = some true := by
  rw [List.getElem?_map]
  cases hr : rows[i]? with
  | none => simp
  | some r =>
    simp only [Option.map_some, Option.some.injEq, List.getD_eq_getElem?_getD]
    cases hj : r[j]? with
    | none => simp [hj]
    | some b => simp [hj]

theorem col_ok {c : Ctx α β} (hc : c.nd.cols = some c.attributes.length) {j : ℕ}
    (hj : j < c.attributes.length) :
    c.nd.col j = .ok (c.nd.rows.map fun r => r.getD j false) := by
  unfold Nd.col; rw [hc]; simp [hj]

theorem WFw.extentByIndex {c : Ctx α β} (h : WFw c) (hc : c.nd.cols = some c.attributes.length)
    {j : ℕ} {a : β} (hj : c.attributes[j]? = some a) :
    c.extentByIndex j = .ok (c.downF {a}) := by
  unfold Ctx.extentByIndex
  rw [col_ok hc (lt_of_getElem? hj)]
  obtain ⟨xs, h1, h2⟩ := mapM_pyGet (l := c.objects)
    (is := nonzero (c.nd.rows.map fun r => r.getD j false)) (fun i hi => by
    have := lt_of_getElem? (mem_nonzero.1 hi)
    rw [List.length_map, h.nrows] at this
    exact this)
  simp only [py_ok_bind, h1]
  congr 1
  ext o
  rw [List.mem_toFinset, h2, h.mem_downF]
  constructor
  · rintro ⟨i, hi, hio⟩
    refine ⟨List.mem_of_getElem? hio, ?_⟩
    intro a' ha'
    rw [Finset.mem_singleton] at ha'; subst ha'
    exact (inc_iff h.onodup h.anodup hio hj).2 ((getD_map_col _ _ _).1 (mem_nonzero.1 hi))
  · rintro ⟨ho, hI⟩
    obtain ⟨i, hi⟩ := List.mem_iff_getElem?.1 ho
    exact ⟨i, mem_nonzero.2 ((getD_map_col _ _ _).2
      ((inc_iff h.onodup h.anodup hi hj).1 (hI a (by simp)))), hi⟩

theorem WFw.attributeExtent {c : Ctx α β} (h : WFw c) (hc : c.nd.cols = some c.attributes.length)
    {a : β} (ha : a ∈ c.attributes) : c.attributeExtent a = .ok (c.downF {a}) := by
  obtain ⟨j, hj⟩ := List.mem_iff_getElem?.1 ha
  unfold Ctx.attributeExtent
  rw [lastIdx_eq h.anodup hj]
  exact h.extentByIndex hc hj

theorem attributeExtent_err {c : Ctx α β} {a : β} (ha : a ∉ c.attributes) :
    c.attributeExtent a = .error .keyError := by
  unfold Ctx.attributeExtent
  rw [lastIdx_not_mem ha]; rfl

/-- A one-dimensional table makes `get_attribute_extent` raise. -/
theorem attributeExtent_none {c : Ctx α β} (hc : c.nd.cols = none) {a : β} (ha : a ∈ c.attributes) :
    c.attributeExtent a = .error .indexError := by
  obtain ⟨j, hj⟩ := lastIdx_mem ha
  unfold Ctx.attributeExtent Ctx.extentByIndex Nd.col
  rw [hj, hc]; rfl

/-! ### `andAll` -/

theorem andAll_ok {get : ℕ → Py (List Bool)} {g : ℕ → List Bool} :
    ∀ (is : List ℕ) (start : List Bool), (∀ i ∈ is, get i = .ok (g i)) →
      (∀ i ∈ is, (g i).length = start.length) →
      ∃ r, andAll get start is = .ok r ∧ r.length = start.length ∧
        ∀ j : ℕ, r[j]? = some true ↔ start[j]? = some true ∧ ∀ i ∈ is, (g i)[j]? = some true := by
  intro is
  induction is with
  | nil => intro start _ _; exact ⟨start, rfl, rfl, by simp⟩
  | cons i is ih =>
    intro start hg hl
    have hzl : (List.zipWith (· && ·) start (g i)).length = start.length := by
      rw [List.length_zipWith, hl i (by simp), Nat.min_self]
    obtain ⟨r, h1, h2, h3⟩ := ih (List.zipWith (· && ·) start (g i))
      (fun k hk => hg k (by simp [hk])) (fun k hk => by rw [hzl]; exact hl k (by simp [hk]))
    refine ⟨r, ?_, h2.trans hzl, ?_⟩
    · unfold andAll at h1 ⊢
      rw [List.foldlM_cons, hg i (by simp)]
      exact h1
    · intro j
      rw [h3]
      have : (List.zipWith (· && ·) start (g i))[j]? = some true ↔
          start[j]? = some true ∧ (g i)[j]? = some true := by
        rw [List.getElem?_zipWith]
        cases h1 : start[j]? <;> cases h2 : (g i)[j]? <;> simp
      rw [this]
      simp only [List.mem_cons, forall_eq_or_imp]
      tauto

theorem WFw.oprimeInds {c : Ctx α β} (h : WFw c) {is : List ℕ} (his : ∀ i ∈ is, i < c.objects.length) :
    ∃ js, c.oprimeInds is = .ok js ∧ js.Nodup ∧
      ∀ j, j ∈ js ↔ j < c.attributes.length ∧ ∀ i ∈ is, c.Bit i j := by
  match is with
  | [] => exact ⟨_, rfl, List.nodup_range, by simp⟩
  | i :: is =>
    obtain ⟨r, hr, hrow, hl⟩ := h.row (his i (by simp))
    have hget : ∀ k ∈ is, c.nd.row k = .ok (c.nd.rows.getD k []) := by
      intro k hk
      obtain ⟨r', hr', hrow', _⟩ := h.row (his k (by simp [hk]))
      rw [hrow', List.getD_eq_getElem?_getD, hr']; rfl
    obtain ⟨r', h1, h2, h3⟩ := andAll_ok (get := c.nd.row) (g := fun k => c.nd.rows.getD k []) is r
      hget (by
        intro k hk
        obtain ⟨r', hr', _, hl'⟩ := h.row (his k (by simp [hk]))
        rw [List.getD_eq_getElem?_getD, hr', hl]; exact hl')
    refine ⟨nonzero r', ?_, nonzero_nodup _, ?_⟩
    · unfold Ctx.oprimeInds
      simp only [hrow, h1, py_ok_bind]
    · intro j
      rw [mem_nonzero, h3]
      constructor
      · rintro ⟨hj, hall⟩
        refine ⟨hl ▸ lt_of_getElem? hj, ?_⟩
        intro k hk
        rcases List.mem_cons.1 hk with rfl | hk
        · exact ⟨r, hr, hj⟩
        · obtain ⟨r'', hr'', _⟩ := h.row (his k (by simp [hk]))
          have := hall k hk
          rw [List.getD_eq_getElem?_getD, hr''] at this
          exact ⟨r'', hr'', this⟩
      · rintro ⟨_, hall⟩
        constructor
        · obtain ⟨r'', hr'', hb⟩ := hall i (by simp)
          rw [hr] at hr''; cases hr''; exact hb
        · intro k hk
          obtain ⟨r'', hr'', hb⟩ := hall k (by simp [hk])
          rw [List.getD_eq_getElem?_getD, hr'']; exact hb

theorem WF.aprimeInds {c : Ctx α β} (h : WF c) {js : List ℕ} (hjs : ∀ j ∈ js, j < c.attributes.length) :
    ∃ is, c.aprimeInds js = .ok is ∧ is.Nodup ∧
      ∀ i, i ∈ is ↔ i < c.objects.length ∧ ∀ j ∈ js, c.Bit i j := by
  match js with
  | [] => exact ⟨_, rfl, List.nodup_range, by simp⟩
  | j :: js =>
    rcases h.shape0 with hc | hc
    · -- one-dimensional: no objects
      have hrows : c.nd.rows = [] := by
        by_contra hne
        have := h.shape hne
        rw [hc] at this; cases this
      have hobj : c.objects = [] := by
        have := h.nrows
        rw [hrows] at this
        exact List.eq_nil_of_length_eq_zero this.symm
      refine ⟨List.range c.objects.length, ?_, List.nodup_range, ?_⟩
      · unfold Ctx.aprimeInds Nd.col
        rw [hc]
      · intro i; simp [hobj]
    · have hcol := fun k hk => col_ok hc (hjs k hk)
      obtain ⟨r', h1, h2, h3⟩ := andAll_ok (get := c.nd.col)
        (g := fun k => c.nd.rows.map fun r => r.getD k false) js
        (c.nd.rows.map fun r => r.getD j false) (fun k hk => hcol k (by simp [hk]))
        (by intro k _; simp)
      refine ⟨nonzero r', ?_, nonzero_nodup _, ?_⟩
      · unfold Ctx.aprimeInds
        simp only [hcol j (by simp), h1, py_ok_bind]
      · intro i
        rw [mem_nonzero, h3]
        simp only [getD_map_col]
        constructor
        · rintro ⟨hi, hall⟩
          refine ⟨(h.bit_lt hi).1, ?_⟩
          intro k hk
          rcases List.mem_cons.1 hk with rfl | hk
          · exact hi
          · exact hall k hk
        · rintro ⟨_, hall⟩
          exact ⟨hall j (by simp), fun k hk => hall k (by simp [hk])⟩

/-! ### Methods `oprime`, `aprime`, `oclosure`, `aclosure` -/

/-- From indices to attribute names. -/
theorem WFw.names_up {c : Ctx α β} (h : WFw c) {is : List ℕ} {A : Finset α}
    (hA : ∀ o, o ∈ A ↔ ∃ i ∈ is, c.objects[i]? = some o) (his : ∀ i ∈ is, i < c.objects.length)
    {js : List ℕ}
    (hjs : ∀ j, j ∈ js ↔ j < c.attributes.length ∧ ∀ i ∈ is, c.Bit i j) :
    ∃ names, js.mapM (pyGet c.attributes) = .ok names ∧ names.toFinset = c.upF A := by
  obtain ⟨xs, h1, h2⟩ := mapM_pyGet (l := c.attributes) (is := js) (fun j hj => ((hjs j).1 hj).1)
  refine ⟨xs, h1, ?_⟩
  ext a
  rw [List.mem_toFinset, h2, h.mem_upF]
  constructor
  · rintro ⟨j, hj, hja⟩
    refine ⟨List.mem_of_getElem? hja, ?_⟩
    intro o ho
    obtain ⟨i, hi, hio⟩ := (hA o).1 ho
    exact (inc_iff h.onodup h.anodup hio hja).2 (((hjs j).1 hj).2 i hi)
  · rintro ⟨ha, hI⟩
    obtain ⟨j, hj⟩ := List.mem_iff_getElem?.1 ha
    refine ⟨j, (hjs j).2 ⟨lt_of_getElem? hj, ?_⟩, hj⟩
    intro i hi
    have hlt := his i hi
    exact (inc_iff h.onodup h.anodup (List.getElem?_eq_getElem hlt) hj).1
      (hI _ ((hA _).2 ⟨i, hi, List.getElem?_eq_getElem hlt⟩))

theorem WFw.names_down {c : Ctx α β} (h : WFw c) {js : List ℕ} {B : Finset β}
    (hB : ∀ a, a ∈ B ↔ ∃ j ∈ js, c.attributes[j]? = some a)
    (hjs : ∀ j ∈ js, j < c.attributes.length) {is : List ℕ}
    (his : ∀ i, i ∈ is ↔ i < c.objects.length ∧ ∀ j ∈ js, c.Bit i j) :
    ∃ names, is.mapM (pyGet c.objects) = .ok names ∧ names.toFinset = c.downF B := by
  obtain ⟨xs, h1, h2⟩ := mapM_pyGet (l := c.objects) (is := is) (fun j hj => ((his j).1 hj).1)
  refine ⟨xs, h1, ?_⟩
  ext o
  rw [List.mem_toFinset, h2, h.mem_downF]
  constructor
  · rintro ⟨i, hi, hio⟩
    refine ⟨List.mem_of_getElem? hio, ?_⟩
    intro a ha
    obtain ⟨j, hj, hja⟩ := (hB a).1 ha
    exact (inc_iff h.onodup h.anodup hio hja).2 (((his i).1 hi).2 j hj)
  · rintro ⟨ho, hI⟩
    obtain ⟨i, hi⟩ := List.mem_iff_getElem?.1 ho
    refine ⟨i, (his i).2 ⟨lt_of_getElem? hi, ?_⟩, hi⟩
    intro j hj
    have hlt := hjs j hj
    exact (inc_iff h.onodup h.anodup hi (List.getElem?_eq_getElem hlt)).1
      (hI _ ((hB _).2 ⟨j, hj, List.getElem?_eq_getElem hlt⟩))

/-- The indices found for a list of names. -/
theorem idx_names {γ : Type} [DecidableEq γ] {l xs : List γ} {is : List ℕ}
    (h : List.Forall₂ (fun x i => l[i]? = some x) xs is) :
    (∀ x, x ∈ xs.toFinset ↔ ∃ i ∈ is, l[i]? = some x) ∧ ∀ i ∈ is, i < l.length := by
  constructor
  · intro x
    rw [List.mem_toFinset]
    constructor
    · intro hx; exact forall₂_mem_left h x hx
    · rintro ⟨i, hi, hx⟩
      obtain ⟨y, hy, hiy⟩ := forall₂_mem_right h i hi
      rw [hx] at hiy; cases hiy; exact hy
  · intro i hi
    obtain ⟨y, _, hiy⟩ := forall₂_mem_right h i hi
    exact lt_of_getElem? hiy

theorem WFw.oprime {c : Ctx α β} (h : WFw c) {l : List α} (hl : ∀ o ∈ l, o ∈ c.objects) :
    c.oprime l = .ok (c.upF l.toFinset) := by
  obtain ⟨is, h1, h2⟩ := mapM_lastIdx hl
  obtain ⟨h3, h4⟩ := idx_names h2
  obtain ⟨js, h5, _, h6⟩ := h.oprimeInds h4
  obtain ⟨names, h7, h8⟩ := h.names_up h3 h4 h6
  unfold Ctx.oprime
  simp only [h1, h5, h7, py_ok_bind, h8]

theorem WF.aprime {c : Ctx α β} (h : WF c) {l : List β} (hl : ∀ a ∈ l, a ∈ c.attributes) :
    c.aprime l = .ok (c.downF l.toFinset) := by
  obtain ⟨js, h1, h2⟩ := mapM_lastIdx hl
  obtain ⟨h3, h4⟩ := idx_names h2
  obtain ⟨is, h5, _, h6⟩ := h.aprimeInds h4
  obtain ⟨names, h7, h8⟩ := h.names_down h3 h4 h6
  unfold Ctx.aprime
  simp only [h1, h5, h7, py_ok_bind, h8]

theorem oprime_err {c : Ctx α β} {l : List α} (hl : ∃ o ∈ l, o ∉ c.objects) :
    c.oprime l = .error .keyError := by
  unfold Ctx.oprime
  rw [mapM_lastIdx_err hl]; rfl

theorem aprime_err {c : Ctx α β} {l : List β} (hl : ∃ a ∈ l, a ∉ c.attributes) :
    c.aprime l = .error .keyError := by
  unfold Ctx.aprime
  rw [mapM_lastIdx_err hl]; rfl

/-- Indices in `js` name the attributes of `upF A`. -/
theorem WFw.upF_idx {c : Ctx α β} (h : WFw c) {is js : List ℕ} {A : Finset α}
    (hA : ∀ o, o ∈ A ↔ ∃ i ∈ is, c.objects[i]? = some o) (his : ∀ i ∈ is, i < c.objects.length)
    (hjs : ∀ j, j ∈ js ↔ j < c.attributes.length ∧ ∀ i ∈ is, c.Bit i j) (a : β) :
    a ∈ c.upF A ↔ ∃ j ∈ js, c.attributes[j]? = some a := by
  obtain ⟨names, h1, h2⟩ := h.names_up hA his hjs
  obtain ⟨xs, h3, h4⟩ := mapM_pyGet (l := c.attributes) (is := js) (fun j hj => ((hjs j).1 hj).1)
  rw [h1] at h3; cases h3
  rw [← h2, List.mem_toFinset, h4]

theorem WFw.downF_idx {c : Ctx α β} (h : WFw c) {is js : List ℕ} {B : Finset β}
    (hB : ∀ a, a ∈ B ↔ ∃ j ∈ js, c.attributes[j]? = some a)
    (hjs : ∀ j ∈ js, j < c.attributes.length)
    (his : ∀ i, i ∈ is ↔ i < c.objects.length ∧ ∀ j ∈ js, c.Bit i j) (o : α) :
    o ∈ c.downF B ↔ ∃ i ∈ is, c.objects[i]? = some o := by
  obtain ⟨names, h1, h2⟩ := h.names_down hB hjs his
  obtain ⟨xs, h3, h4⟩ := mapM_pyGet (l := c.objects) (is := is) (fun j hj => ((his j).1 hj).1)
  rw [h1] at h3; cases h3
  rw [← h2, List.mem_toFinset, h4]

theorem WF.oclosure {c : Ctx α β} (h : WF c) {l : List α} (hl : ∀ o ∈ l, o ∈ c.objects) :
    c.oclosure l = .ok (c.downF (c.upF l.toFinset)) := by
  obtain ⟨is, h1, h2⟩ := mapM_lastIdx hl
  obtain ⟨h3, h4⟩ := idx_names h2
  obtain ⟨js, h5, _, h6⟩ := h.oprimeInds h4
  have h7 : ∀ j ∈ js, j < c.attributes.length := fun j hj => ((h6 j).1 hj).1
  obtain ⟨ks, h8, _, h9⟩ := h.aprimeInds h7
  obtain ⟨names, h10, h11⟩ := h.names_down (h.upF_idx h3 h4 h6) h7 h9
  unfold Ctx.oclosure Ctx.oclosureInds
  simp only [h1, h5, h8, h10, py_ok_bind, h11]

theorem WF.aclosure {c : Ctx α β} (h : WF c) {l : List β} (hl : ∀ a ∈ l, a ∈ c.attributes) :
    c.aclosure l = .ok (c.upF (c.downF l.toFinset)) := by
  obtain ⟨js, h1, h2⟩ := mapM_lastIdx hl
  obtain ⟨h3, h4⟩ := idx_names h2
  obtain ⟨is, h5, _, h6⟩ := h.aprimeInds h4
  have h7 : ∀ i ∈ is, i < c.objects.length := fun j hj => ((h6 j).1 hj).1
  obtain ⟨ks, h8, _, h9⟩ := h.oprimeInds h7
  obtain ⟨names, h10, h11⟩ := h.names_up (h.downF_idx h3 h4 h6) h7 h9
  unfold Ctx.aclosure Ctx.aclosureInds
  simp only [h1, h5, h8, h10, py_ok_bind, h11]

/-! ### closure_operators -/

theorem foldlM_inter_ok {γ δ : Type} [DecidableEq δ] {f : γ → Py (Finset δ)} {g : γ → Finset δ} :
    ∀ (l : List γ) (start : Finset δ), (∀ x ∈ l, f x = .ok (g x)) →
      ∃ r, l.foldlM (fun acc x => do let s ← f x; .ok (acc ∩ s)) start = (.ok r : Py (Finset δ)) ∧
        ∀ y, y ∈ r ↔ y ∈ start ∧ ∀ x ∈ l, y ∈ g x := by
  intro l
  induction l with
  | nil => intro start _; exact ⟨start, rfl, by simp⟩
  | cons x l ih =>
    intro start h
    obtain ⟨r, h1, h2⟩ := ih (start ∩ g x) (fun y hy => h y (by simp [hy]))
    refine ⟨r, ?_, ?_⟩
    · rw [List.foldlM_cons, h x (by simp)]
      exact h1
    · intro y
      rw [h2]; simp only [Finset.mem_inter, List.mem_cons, forall_eq_or_imp]; tauto

theorem foldlM_inter_err {γ δ : Type} [DecidableEq δ] {f : γ → Py (Finset δ)} {e : PyErr} :
    ∀ (l : List γ) (start : Finset δ), (∀ x ∈ l, f x = .error e ∨ ∃ s, f x = .ok s) →
      (∃ x ∈ l, f x = .error e) →
      l.foldlM (fun acc x => do let s ← f x; .ok (acc ∩ s)) start = (.error e : Py (Finset δ)) := by
  intro l
  induction l with
  | nil => intro start _ h; obtain ⟨x, hx, _⟩ := h; simp at hx
  | cons x l ih =>
    intro start h hx
    rw [List.foldlM_cons]
    rcases h x (by simp) with he | ⟨s, hs⟩
    · rw [he]; rfl
    · rw [hs]
      obtain ⟨z, hz, hze⟩ := hx
      rcases List.mem_cons.1 hz with rfl | hz
      · rw [hs] at hze; cases hze
      · exact ih _ (fun y hy => h y (by simp [hy])) ⟨z, hz, hze⟩

theorem WFw.coOprime {c : Ctx α β} (h : WFw c) {l : List α} (hl : ∀ o ∈ l, o ∈ c.objects) :
    c.coOprime l = .ok (c.upF l.toFinset) := by
  obtain ⟨r, h1, h2⟩ := foldlM_inter_ok (f := c.objectIntent) (g := fun o => c.upF {o}) l
    c.attributes.toFinset (fun o ho => h.objectIntent (hl o ho))
  unfold Ctx.coOprime
  rw [h1]
  congr 1
  ext a
  rw [h2, h.mem_upF]
  simp only [List.mem_toFinset, h.mem_upF, Finset.mem_singleton, forall_eq]
  constructor
  · rintro ⟨ha, hall⟩; exact ⟨ha, fun o ho => (hall o ho).2⟩
  · rintro ⟨ha, hall⟩; exact ⟨ha, fun o ho => ⟨ha, hall o ho⟩⟩

theorem WFw.coOprime_err {c : Ctx α β} (h : WFw c) {l : List α} (hl : ∃ o ∈ l, o ∉ c.objects) :
    c.coOprime l = .error .keyError := by
  unfold Ctx.coOprime
  apply foldlM_inter_err
  · intro o _
    by_cases ho : o ∈ c.objects
    · exact Or.inr ⟨_, h.objectIntent ho⟩
    · exact Or.inl (objectIntent_err ho)
  · obtain ⟨o, ho, hn⟩ := hl
    exact ⟨o, ho, objectIntent_err hn⟩

theorem WFw.coAprime {c : Ctx α β} (h : WFw c) (hc : c.nd.cols = some c.attributes.length)
    {l : List β} (hl : ∀ a ∈ l, a ∈ c.attributes) :
    c.coAprime l = .ok (c.downF l.toFinset) := by
  obtain ⟨r, h1, h2⟩ := foldlM_inter_ok (f := c.attributeExtent) (g := fun a => c.downF {a}) l
    c.objects.toFinset (fun a ha => h.attributeExtent hc (hl a ha))
  unfold Ctx.coAprime
  rw [h1]
  congr 1
  ext o
  rw [h2, h.mem_downF]
  simp only [List.mem_toFinset, h.mem_downF, Finset.mem_singleton, forall_eq]
  constructor
  · rintro ⟨ha, hall⟩; exact ⟨ha, fun o ho => (hall o ho).2⟩
  · rintro ⟨ha, hall⟩; exact ⟨ha, fun o ho => ⟨ha, hall o ho⟩⟩

theorem WFw.coAprime_err {c : Ctx α β} (h : WFw c) (hc : c.nd.cols = some c.attributes.length)
    {l : List β} (hl : ∃ a ∈ l, a ∉ c.attributes) :
    c.coAprime l = .error .keyError := by
  unfold Ctx.coAprime
  apply foldlM_inter_err
  · intro o _
    by_cases ho : o ∈ c.attributes
    · exact Or.inr ⟨_, h.attributeExtent hc ho⟩
    · exact Or.inl (attributeExtent_err ho)
  · obtain ⟨o, ho, hn⟩ := hl
    exact ⟨o, ho, attributeExtent_err hn⟩

theorem upF_subset (c : Ctx α β) (A : Finset α) : c.upF A ⊆ c.attributes.toFinset :=
  Finset.filter_subset _ _

theorem downF_subset (c : Ctx α β) (B : Finset β) : c.downF B ⊆ c.objects.toFinset :=
  Finset.filter_subset _ _

theorem WFw.coAclosureSet {c : Ctx α β} (h : WFw c) (hc : c.nd.cols = some c.attributes.length)
    (ord : SetOrder α) {l : List β} (hl : ∀ a ∈ l, a ∈ c.attributes) :
    c.coAclosureSet ord l = .ok (c.upF (c.downF l.toFinset)) := by
  unfold Ctx.coAclosureSet
  rw [h.coAprime hc hl, py_ok_bind, h.coOprime, ord.toFinset]
  intro o ho
  rw [ord.mem] at ho
  exact List.mem_toFinset.1 (c.downF_subset _ ho)

theorem WFw.coOclosureSet {c : Ctx α β} (h : WFw c) (hc : c.nd.cols = some c.attributes.length)
    (ord : SetOrder β) {l : List α} (hl : ∀ a ∈ l, a ∈ c.objects) :
    c.coOclosureSet ord l = .ok (c.downF (c.upF l.toFinset)) := by
  unfold Ctx.coOclosureSet
  rw [h.coOprime hl, py_ok_bind, h.coAprime hc, ord.toFinset]
  intro o ho
  rw [ord.mem] at ho
  exact List.mem_toFinset.1 (c.upF_subset _ ho)

/-! ### Galois connection -/

theorem WFw.galois {c : Ctx α β} (h : WFw c) {A : Finset α} {B : Finset β}
    (hA : A ⊆ c.objects.toFinset) (hB : B ⊆ c.attributes.toFinset) :
    B ⊆ c.upF A ↔ A ⊆ c.downF B := by
  constructor
  · intro hs o ho
    rw [h.mem_downF]
    exact ⟨List.mem_toFinset.1 (hA ho), fun a ha => (h.mem_upF.1 (hs ha)).2 o ho⟩
  · intro hs a ha
    rw [h.mem_upF]
    exact ⟨List.mem_toFinset.1 (hB ha), fun o ho => (h.mem_downF.1 (hs ho)).2 a ha⟩

theorem upF_anti (c : Ctx α β) {A A' : Finset α} (h : A ⊆ A') : c.upF A' ⊆ c.upF A := by
  intro a ha
  simp only [upF, Finset.mem_filter] at ha ⊢
  exact ⟨ha.1, fun o ho => ha.2 o (h ho)⟩

theorem downF_anti (c : Ctx α β) {B B' : Finset β} (h : B ⊆ B') : c.downF B' ⊆ c.downF B := by
  intro a ha
  simp only [downF, Finset.mem_filter] at ha ⊢
  exact ⟨ha.1, fun o ho => ha.2 o (h ho)⟩

/-- Attribute closure of a context. -/
def aclF (c : Ctx α β) (B : Finset β) : Finset β := c.upF (c.downF B)
def oclF (c : Ctx α β) (A : Finset α) : Finset α := c.downF (c.upF A)

theorem WFw.aclF_ext {c : Ctx α β} (h : WFw c) {B : Finset β} (hB : B ⊆ c.attributes.toFinset) :
    B ⊆ c.aclF B := (h.galois (c.downF_subset B) hB).2 (Finset.Subset.refl _)

theorem WFw.oclF_ext {c : Ctx α β} (h : WFw c) {A : Finset α} (hA : A ⊆ c.objects.toFinset) :
    A ⊆ c.oclF A := (h.galois hA (c.upF_subset A)).1 (Finset.Subset.refl _)

theorem WFw.down_up_down {c : Ctx α β} (h : WFw c) {B : Finset β} (hB : B ⊆ c.attributes.toFinset) :
    c.downF (c.upF (c.downF B)) = c.downF B :=
  Finset.Subset.antisymm (c.downF_anti (h.aclF_ext hB)) (h.oclF_ext (c.downF_subset B))

theorem WFw.up_down_up {c : Ctx α β} (h : WFw c) {A : Finset α} (hA : A ⊆ c.objects.toFinset) :
    c.upF (c.downF (c.upF A)) = c.upF A :=
  Finset.Subset.antisymm (c.upF_anti (h.oclF_ext hA)) (h.aclF_ext (c.upF_subset A))

theorem WFw.aclF_closureOp {c : Ctx α β} (h : WFw c) :
    Spec.IsClosureOp c.attributes.toFinset c.aclF where
  into := fun _ _ => c.upF_subset _
  ext := fun _ hs => h.aclF_ext hs
  mono := fun _ _ hst _ => c.upF_anti (c.downF_anti hst)
  idem := fun s _ => by
    unfold aclF
    rw [h.up_down_up (c.downF_subset s)]

theorem WFw.oclF_closureOp {c : Ctx α β} (h : WFw c) :
    Spec.IsClosureOp c.objects.toFinset c.oclF where
  into := fun _ _ => c.downF_subset _
  ext := fun _ hs => h.oclF_ext hs
  mono := fun _ _ hst _ => c.downF_anti (c.upF_anti hst)
  idem := fun s _ => by
    unfold oclF
    rw [h.down_up_down (c.upF_subset s)]

end Ctx
