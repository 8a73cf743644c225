/-
Results of the constructor and of the mutators of `Context`.
-/
import Verif.Model.ContextOps
import Verif.Lemmas.Context
import Verif.Lemmas.Rename
import Verif.SpecHistory

set_option linter.unusedSectionVars false

namespace Ctx

open Spec

variable {α β : Type} [DecidableEq α] [DecidableEq β]

section ctor
variable [PyName α] [PyName β]

theorem ofLists_cols (table : List (List Bool)) (n : ℕ) (h : ∀ r ∈ table, r.length = n) :
    Nd.ofLists table = .ok ⟨if table = [] then none else some n, table⟩ := by
  cases table with
  | nil => rfl
  | cons r rs =>
    have h1 : r.length = n := h r (by simp)
    have : (rs.all fun s => s.length == r.length) = true := by
      rw [List.all_eq_true]
      intro s hs
      simp [h s (by simp [hs]), h1]
    rw [Nd.ofLists, if_pos this, if_neg (by simp), h1]

theorem make_ok {table : List (List Bool)} {objs : List α} {atts : List β}
    (h1 : table.length = objs.length) (h2 : ∀ r ∈ table, r.length = atts.length) :
    make table objs atts =
      .ok ⟨renameAll objs, renameAll atts, ⟨if table = [] then none else some atts.length, table⟩⟩ := by
  unfold make
  rw [if_neg (by simpa using h1), if_neg, ofLists_cols table _ h2]
  · rfl
  · rintro ⟨hne, hl⟩
    cases table with
    | nil => exact hne rfl
    | cons r rs => exact hl (h2 r (by simp))

theorem make_err {table : List (List Bool)} {objs : List α} {atts : List β}
    (h : table.length ≠ objs.length ∨ ∃ r ∈ table, r.length ≠ atts.length) :
    make table objs atts = .error .valueError := by
  unfold make
  split
  · rfl
  split
  · rfl
  rename_i h1 h2
  rcases h with h | ⟨r, hr, hne⟩
  · exact absurd h h1
  · have : Nd.ofLists table = .error .valueError := by
      cases table with
      | nil => simp at hr
      | cons s rs =>
        have hs : s.length = atts.length := by simpa using h2
        rcases List.mem_cons.1 hr with rfl | hr
        · exact absurd hs hne
        · have : (rs.all fun s' => s'.length == s.length) = false := by
            rw [List.all_eq_false]
            exact ⟨r, hr, by simp [hs, hne]⟩
          simp [Nd.ofLists, this]
    rw [this]; rfl

theorem make_cases (table : List (List Bool)) (objs : List α) (atts : List β) :
    (table.length = objs.length ∧ (∀ r ∈ table, r.length = atts.length) ∧
      make table objs atts =
        .ok ⟨renameAll objs, renameAll atts, ⟨if table = [] then none else some atts.length, table⟩⟩) ∨
    ((table.length ≠ objs.length ∨ ∃ r ∈ table, r.length ≠ atts.length) ∧
      make table objs atts = .error .valueError) := by
  by_cases h1 : table.length = objs.length
  · by_cases h2 : ∀ r ∈ table, r.length = atts.length
    · exact Or.inl ⟨h1, h2, make_ok h1 h2⟩
    · push Not at h2
      exact Or.inr ⟨Or.inr h2, make_err (Or.inr h2)⟩
  · exact Or.inr ⟨Or.inl h1, make_err (Or.inl h1)⟩

/-- The context for given names and table. -/
def mk' (objs : List α) (atts : List β) (table : List (List Bool)) : Ctx α β :=
  ⟨objs, atts, ⟨if table = [] then none else some atts.length, table⟩⟩

theorem make_nodup {table : List (List Bool)} {objs : List α} {atts : List β}
    (h1 : table.length = objs.length) (h2 : ∀ r ∈ table, r.length = atts.length)
    (ho : objs.Nodup) (ha : atts.Nodup) : make table objs atts = .ok (mk' objs atts table) := by
  rw [make_ok h1 h2, renameAll_nodup ho, renameAll_nodup ha]; rfl

theorem wf_mk' {table : List (List Bool)} {objs : List α} {atts : List β}
    (h1 : table.length = objs.length) (h2 : ∀ r ∈ table, r.length = atts.length)
    (ho : objs.Nodup) (ha : atts.Nodup) : (mk' objs atts table).WF := by
  refine ⟨⟨ho, ha, h1, h2, ?_⟩, ?_⟩
  · intro h; simp only [mk'] at h ⊢; rw [if_neg h]
  · simp only [mk']; by_cases h : table = [] <;> simp [h]

theorem ofNd_ok {t : Nd} {objs : List α} {atts : List β} (h1 : t.rows.length = objs.length)
    (h2 : ∀ r ∈ t.rows, r.length = atts.length) (ho : objs.Nodup) (ha : atts.Nodup) :
    ofNd t objs atts = .ok ⟨objs, atts, t⟩ := by
  unfold ofNd
  rw [if_neg (by simpa using h1), if_neg, renameAll_nodup ho, renameAll_nodup ha]
  rintro ⟨hne, hl⟩
  cases hr : t.rows with
  | nil => exact hne hr
  | cons r rs =>
    rw [hr] at hl
    exact hl (h2 r (by simp [hr]))

end ctor

/-- The context stores the table `t`. -/
structure Stores (c : Ctx α β) (t : Table α β) : Prop where
  wf : c.WFw
  objs : c.objects = t.objs
  atts : c.attributes = t.atts
  val : ∀ (i j : ℕ) (o : α) (a : β), c.objects[i]? = some o → c.attributes[j]? = some a →
    ∃ r, c.nd.rows[i]? = some r ∧ r[j]? = some (t.rel o a)

theorem Stores.getValue {c : Ctx α β} {t : Table α β} (h : Stores c t) {o : α} {a : β}
    (ho : o ∈ t.objs) (ha : a ∈ t.atts) : c.getValue o a = .ok (t.rel o a) := by
  rw [← h.objs] at ho
  rw [← h.atts] at ha
  obtain ⟨i, hi⟩ := List.mem_iff_getElem?.1 ho
  obtain ⟨j, hj⟩ := List.mem_iff_getElem?.1 ha
  obtain ⟨r, hr, hb⟩ := h.val i j o a hi hj
  unfold Ctx.getValue Nd.cell
  simp only [firstIdx_eq h.wf.onodup hi, firstIdx_eq h.wf.anodup hj, py_ok_bind, pyGet_ok hr,
    pyGet_ok hb]

theorem Stores.inc {c : Ctx α β} {t : Table α β} (h : Stores c t) (o : α) (a : β) :
    c.Inc o a ↔ o ∈ t.objs ∧ a ∈ t.atts ∧ t.rel o a = true := by
  constructor
  · intro hi
    obtain ⟨h1, h2⟩ := hi.mem
    rw [h.objs] at h1; rw [h.atts] at h2
    obtain ⟨b, hb, hbi⟩ := h.wf.getValue (h.objs ▸ h1) (h.atts ▸ h2)
    rw [h.getValue h1 h2] at hb
    cases hb
    exact ⟨h1, h2, hbi.2 hi⟩
  · rintro ⟨h1, h2, h3⟩
    obtain ⟨b, hb, hbi⟩ := h.wf.getValue (h.objs ▸ h1) (h.atts ▸ h2)
    rw [h.getValue h1 h2] at hb
    cases hb
    exact hbi.1 h3

theorem flags_get (n : ℕ) (is : List ℕ) (k : ℕ) (hk : k < n) :
    (flags n is)[k]? = some (decide (k ∈ is)) := by
  unfold flags
  have : ∀ (is : List ℕ) (l : List Bool) (b : Bool), l[k]? = some b →
      (is.foldl (fun l i => l.set i true) l)[k]? = some (b || decide (k ∈ is)) := by
    intro is
    induction is with
    | nil => intro l b h; simpa using h
    | cons i is ih =>
      intro l b h
      rw [List.foldl_cons, ih (l.set i true) (b || decide (k = i))]
      · by_cases hki : k = i <;> simp [hki]
      · rw [List.getElem?_set]
        have hl := (List.getElem?_eq_some_iff.1 h).1
        by_cases hki : i = k
        · subst hki; simp [hl]
        · rw [if_neg hki, h]; simp [show ¬ k = i from fun e => hki e.symm]
  rw [this is _ false]
  · simp
  · simp [hk]

theorem flags_length (n : ℕ) (is : List ℕ) : (flags n is).length = n := by
  unfold flags
  have : ∀ (is : List ℕ) (l : List Bool), (is.foldl (fun l i => l.set i true) l).length = l.length := by
    intro is
    induction is with
    | nil => intro l; rfl
    | cons i is ih => intro l; rw [List.foldl_cons, ih]; simp
  rw [this]; simp

theorem reinit_ok {c c' : Ctx α β} {r : Py (Ctx α β)} (h : c.reinit r = (c', none)) : r = .ok c' := by
  cases r with
  | ok x => simp [reinit] at h; rw [h]
  | error e => simp [reinit] at h

/-- A mutator that raises leaves the context as it was. -/
theorem reinit_err {c c' : Ctx α β} {r : Py (Ctx α β)} {e : PyErr} (h : c.reinit r = (c', some e)) :
    c' = c := by
  cases r with
  | ok x => simp [reinit] at h
  | error e => simp [reinit] at h; exact h.1.symm

theorem idxOf_of_nodup {γ : Type} [DecidableEq γ] {l : List γ} (hn : l.Nodup) {i : ℕ} {x : γ}
    (h : l[i]? = some x) : l.idxOf x = i := by
  obtain ⟨h1, h2⟩ := List.getElem?_eq_some_iff.1 h
  subst h2
  exact hn.idxOf_getElem i h1

section steps
variable [PyName α] [PyName β]

/-- Run one mutator. -/
def exec (c : Ctx α β) : TOp α β → Mut α β
  | .addObject row n => c.addObject row n
  | .addAttribute col n => c.addAttribute col n
  | .addObjectWithIntent B n => c.addObjectWithIntent B n
  | .addAttributeWithExtent A n => c.addAttributeWithExtent A n
  | .setObjectIntent B n => c.setObjectIntent B n
  | .setAttributeExtent A n => c.setAttributeExtent A n
  | .deleteObject n => c.deleteObject n
  | .deleteAttribute n => c.deleteAttribute n
  | .renameObject old new => c.renameObject old new
  | .renameAttribute old new => c.renameAttribute old new

/-- Run mutators one after the other; the first exception ends the run. -/
def execAll (c : Ctx α β) : List (TOp α β) → Mut α β
  | [] => (c, none)
  | op :: ops =>
    match c.exec op with
    | (c', none) => c'.execAll ops
    | (c', some e) => (c', some e)

variable {c c' : Ctx α β} {t : Table α β}

theorem bind_ok {γ δ : Type} {x : Py γ} {f : γ → Py δ} {y : δ} (h : (x >>= f) = .ok y) :
    ∃ z, x = .ok z ∧ f z = .ok y := by
  cases x with
  | ok z => exact ⟨z, rfl, h⟩
  | error e => cases h

theorem ofNd_result {t : Nd} {objs : List α} {atts : List β} (h : ofNd t objs atts = .ok c') :
    t.rows.length = objs.length ∧ (t.rows ≠ [] → (t.rows.headD []).length = atts.length) ∧
      c' = ⟨renameAll objs, renameAll atts, t⟩ := by
  unfold ofNd at h
  split at h
  · cases h
  split at h
  · cases h
  rename_i h1 h2
  cases h
  refine ⟨not_not.1 h1, ?_, rfl⟩
  intro hne
  by_contra hl
  exact h2 ⟨hne, hl⟩

theorem Stores.addObject (h : Stores c t) {row : List Bool} {n : α} (hn : n ∉ t.objs)
    (he : c.addObject row n = (c', none)) : Stores c' (t.apply (.addObject row n)) := by
  have he := reinit_ok he
  obtain ⟨nd, h1, h2⟩ := bind_ok he
  have hn' : (c.objects ++ [n]).Nodup := by
    rw [h.objs]
    exact List.nodup_append.2 ⟨h.objs ▸ h.wf.onodup, by simp, by rintro x hx y hy rfl; simp at hy; exact hn (hy ▸ hx)⟩
  have hrl : nd = ⟨some c.attributes.length, c.nd.rows ++ [row]⟩ ∧ row.length = c.attributes.length := by
    unfold Nd.stackRow at h1
    split at h1
    · rename_i hne
      unfold Nd.appendRow at h1
      rw [h.wf.shape hne] at h1
      dsimp only at h1
      split at h1
      · cases h1; exact ⟨rfl, by assumption⟩
      · cases h1
    · rename_i hne
      rw [not_not] at hne
      rw [ofLists_cols [row] row.length (by simp)] at h1
      cases h1
      obtain ⟨h3, h4, h5⟩ := ofNd_result h2
      have : row.length = c.attributes.length := by simpa using h4
      exact ⟨by simp [hne, this], this⟩
  obtain ⟨rfl, hl⟩ := hrl
  obtain ⟨h3, _, rfl⟩ := ofNd_result h2
  rw [renameAll_nodup hn', renameAll_nodup h.wf.anodup]
  refine ⟨⟨hn', h.wf.anodup, h3, ?_, fun _ => rfl⟩, by simp [Table.apply, h.objs], by simp [Table.apply, h.atts], ?_⟩
  · intro r hr
    rcases List.mem_append.1 hr with hr | hr
    · exact h.wf.width r hr
    · simp at hr; rw [hr]; exact hl
  · intro i j o a hi hj
    simp only at hi hj ⊢
    rw [List.getElem?_append] at hi
    rw [List.getElem?_append, h.wf.nrows]
    split at hi
    · rename_i hlt
      rw [if_pos hlt]
      obtain ⟨r, hr, hb⟩ := h.val i j o a hi hj
      refine ⟨r, hr, ?_⟩
      have : o ≠ n := by rintro rfl; exact hn (h.objs ▸ List.mem_of_getElem? hi)
      simp only [Table.apply, if_neg this, hb]
    · rename_i hlt
      rw [if_neg hlt]
      have h6 : i - c.objects.length = 0 := by
        have := lt_of_getElem? hi; simpa using this
      rw [h6] at hi ⊢
      have : n = o := by simpa using hi
      subst this
      refine ⟨row, rfl, ?_⟩
      simp only [Table.apply, if_true]
      rw [← h.atts, idxOf_of_nodup h.wf.anodup hj, List.getD_eq_getElem?_getD,
        List.getElem?_eq_getElem (by rw [hl]; exact lt_of_getElem? hj)]
      rfl

theorem Stores.addAttribute (h : Stores c t) {col : List Bool} {n : β} (hn : n ∉ t.atts)
    (he : c.addAttribute col n = (c', none)) : Stores c' (t.apply (.addAttribute col n)) := by
  have he := reinit_ok he
  obtain ⟨nd, h1, h2⟩ := bind_ok he
  have hn' : (c.attributes ++ [n]).Nodup := by
    rw [h.atts]
    exact List.nodup_append.2 ⟨h.atts ▸ h.wf.anodup, by simp, by rintro x hx y hy rfl; simp at hy; exact hn (hy ▸ hx)⟩
  have hrl : nd.rows = List.zipWith (fun r b => r ++ [b]) c.nd.rows col ∧
      (c.nd.rows ≠ [] → nd.cols = some (c.attributes.length + 1)) ∧ col.length = c.nd.rows.length := by
    unfold Nd.appendCol at h1
    split at h1
    · rename_i hc
      split at h1
      · rename_i hcol
        cases h1
        have : c.nd.rows = [] := by
          by_contra hne
          rw [h.wf.shape hne] at hc; cases hc
        simp [this, hcol]
      · cases h1
    · rename_i k hc
      split at h1
      · rename_i hcol
        cases h1
        refine ⟨rfl, ?_, hcol⟩
        intro hne
        have := h.wf.shape hne
        rw [hc] at this
        cases this; rfl
      · cases h1
  obtain ⟨hr1, hr2, hcl⟩ := hrl
  obtain ⟨h3, _, rfl⟩ := ofNd_result h2
  rw [renameAll_nodup hn', renameAll_nodup h.wf.onodup]
  have hz : ∀ (i : ℕ) (r' : List Bool), nd.rows[i]? = some r' → ∃ r b, c.nd.rows[i]? = some r ∧ col[i]? = some b ∧ r' = r ++ [b] := by
    intro i r' hr'
    rw [hr1, List.getElem?_zipWith_eq_some] at hr'
    obtain ⟨r, b, h5, h6, h7⟩ := hr'
    exact ⟨r, b, h5, h6, h7.symm⟩
  refine ⟨⟨h.wf.onodup, hn', h3, ?_, ?_⟩, by simp [Table.apply, h.objs], by simp [Table.apply, h.atts], ?_⟩
  · intro r' hr'
    obtain ⟨i, hi⟩ := List.mem_iff_getElem?.1 hr'
    obtain ⟨r, b, h5, h6, rfl⟩ := hz i r' hi
    simp [h.wf.width r (List.mem_of_getElem? h5)]
  · intro hne
    rw [hr2]
    · simp
    · intro h0; apply hne; rw [hr1, h0]; simp
  · intro i j o a hi hj
    simp only at hi hj ⊢
    obtain ⟨r, hr, _, hl⟩ := h.wf.row (lt_of_getElem? hi)
    have hic : i < col.length := by rw [hcl, h.wf.nrows]; exact lt_of_getElem? hi
    refine ⟨r ++ [col[i]], ?_, ?_⟩
    · rw [hr1, List.getElem?_zipWith_eq_some]
      exact ⟨r, col[i], hr, List.getElem?_eq_getElem hic, rfl⟩
    · rw [List.getElem?_append] at hj ⊢
      rw [hl]
      split at hj
      · rename_i hlt
        rw [if_pos hlt]
        obtain ⟨r', hr', hb⟩ := h.val i j o a hi hj
        rw [hr] at hr'; cases hr'
        have : a ≠ n := by rintro rfl; exact hn (h.atts ▸ List.mem_of_getElem? hj)
        simp only [Table.apply, if_neg this, hb]
      · rename_i hlt
        rw [if_neg hlt]
        have h6 : j - c.attributes.length = 0 := by
          have := lt_of_getElem? hj; simpa using this
        rw [h6] at hj ⊢
        have : n = a := by simpa using hj
        subst this
        simp only [Table.apply, if_true]
        rw [← h.objs, idxOf_of_nodup h.wf.onodup hi, List.getD_eq_getElem?_getD,
          List.getElem?_eq_getElem hic]
        rfl

theorem stores_congr {t' : Table α β} (h : Stores c t) (ho : t'.objs = t.objs) (ha : t'.atts = t.atts)
    (hr : ∀ o ∈ t.objs, ∀ a ∈ t.atts, t'.rel o a = t.rel o a) : Stores c t' := by
  refine ⟨h.wf, h.objs.trans ho.symm, h.atts.trans ha.symm, ?_⟩
  intro i j o a hi hj
  obtain ⟨r, h1, h2⟩ := h.val i j o a hi hj
  exact ⟨r, h1, by rw [h2, hr o (h.objs ▸ List.mem_of_getElem? hi) a (h.atts ▸ List.mem_of_getElem? hj)]⟩

theorem Stores.addObjectWithIntent (h : Stores c t) {B : Finset β} {n : α} (hn : n ∉ t.objs)
    (he : c.addObjectWithIntent B n = (c', none)) : Stores c' (t.apply (.addObjectWithIntent B n)) := by
  refine stores_congr (h.addObject hn he) rfl rfl ?_
  intro o _ a ha
  simp only [Table.apply]
  split
  · rw [← h.atts, List.getD_eq_getElem?_getD, List.getElem?_map]
    have ha' : a ∈ c.attributes := by simpa [Table.apply, h.atts] using ha
    rw [List.getElem?_eq_getElem (List.idxOf_lt_length_of_mem ha')]
    simp
  · rfl

theorem Stores.addAttributeWithExtent (h : Stores c t) {A : Finset α} {n : β} (hn : n ∉ t.atts)
    (he : c.addAttributeWithExtent A n = (c', none)) :
    Stores c' (t.apply (.addAttributeWithExtent A n)) := by
  refine stores_congr (h.addAttribute hn he) rfl rfl ?_
  intro o ho a _
  simp only [Table.apply]
  split
  · rw [← h.objs, List.getD_eq_getElem?_getD, List.getElem?_map]
    have ho' : o ∈ c.objects := by simpa [Table.apply, h.objs] using ho
    rw [List.getElem?_eq_getElem (List.idxOf_lt_length_of_mem ho')]
    simp
  · rfl

theorem mapM_lastIdx_inv {γ : Type} [DecidableEq γ] {l xs : List γ} {is : List ℕ}
    (h : xs.mapM (lastIdx l) = .ok is) :
    (∀ x ∈ xs, x ∈ l) ∧ List.Forall₂ (fun x i => l[i]? = some x) xs is := by
  have h1 : ∀ x ∈ xs, x ∈ l := by
    by_contra hc
    push Not at hc
    rw [mapM_lastIdx_err hc] at h
    cases h
  obtain ⟨is', h2, h3⟩ := mapM_lastIdx h1
  rw [h] at h2; cases h2
  exact ⟨h1, h3⟩

theorem mem_idx_iff {γ : Type} [DecidableEq γ] {l xs : List γ} (hn : l.Nodup) {is : List ℕ}
    (h : List.Forall₂ (fun x i => l[i]? = some x) xs is) {k : ℕ} {x : γ} (hk : l[k]? = some x) :
    k ∈ is ↔ x ∈ xs := by
  constructor
  · intro hki
    obtain ⟨y, hy, hy'⟩ := forall₂_mem_right h k hki
    rw [hk] at hy'; cases hy'; exact hy
  · intro hx
    obtain ⟨i, hi, hi'⟩ := forall₂_mem_left h x hx
    rw [nodup_idx hn hk hi']; exact hi

theorem Stores.setObjectIntent (h : Stores c t) {B : List β} {n : α}
    (he : c.setObjectIntent B n = (c', none)) : Stores c' (t.apply (.setObjectIntent B n)) := by
  have he := reinit_ok he
  obtain ⟨js, h1, he⟩ := bind_ok he
  obtain ⟨i, h2, he⟩ := bind_ok he
  obtain ⟨r0, h3, he⟩ := bind_ok he
  obtain ⟨hB, hF⟩ := mapM_lastIdx_inv h1
  have hin := lastIdx_ok h2
  obtain ⟨hl, _, rfl⟩ := ofNd_result he
  have hilt : i < c.nd.rows.length := by rw [h.wf.nrows]; exact lt_of_getElem? hin
  rw [renameAll_nodup h.wf.onodup, renameAll_nodup h.wf.anodup]
  refine ⟨⟨h.wf.onodup, h.wf.anodup, hl, ?_, ?_⟩, h.objs, h.atts, ?_⟩
  · intro r hr
    rcases List.mem_or_eq_of_mem_set hr with hr | rfl
    · exact h.wf.width r hr
    · exact flags_length _ _
  · intro hne
    exact h.wf.shape (by intro h0; apply hne; simp [h0])
  · intro k j o a hk hj
    simp only at hk hj ⊢
    rw [List.getElem?_set]
    by_cases hki : i = k
    · subst hki
      rw [hin] at hk; cases hk
      rw [if_pos rfl, if_pos hilt]
      refine ⟨_, rfl, ?_⟩
      rw [flags_get _ _ _ (lt_of_getElem? hj)]
      simp only [Table.apply, if_true]
      congr 1
      simp only [mem_idx_iff h.wf.anodup hF hj]
    · rw [if_neg hki]
      have : o ≠ n := by rintro rfl; exact hki (nodup_idx h.wf.onodup hin hk)
      obtain ⟨r, hr, hb⟩ := h.val k j o a hk hj
      exact ⟨r, hr, by simp only [Table.apply, if_neg this, hb]⟩

theorem Stores.setAttributeExtent (h : Stores c t) {A : List α} {n : β}
    (he : c.setAttributeExtent A n = (c', none)) : Stores c' (t.apply (.setAttributeExtent A n)) := by
  have he := reinit_ok he
  obtain ⟨is, h1, he⟩ := bind_ok he
  obtain ⟨j₀, h2, he⟩ := bind_ok he
  obtain ⟨r0, h3, he⟩ := bind_ok he
  obtain ⟨hA, hF⟩ := mapM_lastIdx_inv h1
  have hjn := lastIdx_ok h2
  have hz : ∀ (i : ℕ) (o : α) (r : List Bool), c.objects[i]? = some o → c.nd.rows[i]? = some r →
      (List.zipWith (fun r b => r.set j₀ b) c.nd.rows (flags c.objects.length is))[i]? =
        some (r.set j₀ (decide (o ∈ A))) := by
    intro i o r hi hr
    rw [List.getElem?_zipWith_eq_some]
    refine ⟨r, _, hr, flags_get _ _ _ (lt_of_getElem? hi), ?_⟩
    simp only [mem_idx_iff h.wf.onodup hF hi]
  have hw : ∀ r ∈ List.zipWith (fun r b => r.set j₀ b) c.nd.rows (flags c.objects.length is),
      r.length = c.attributes.length := by
    intro r' hr'
    obtain ⟨i, hi⟩ := List.mem_iff_getElem?.1 hr'
    rw [List.getElem?_zipWith_eq_some] at hi
    obtain ⟨r, b, h5, h6, rfl⟩ := hi
    simp [h.wf.width r (List.mem_of_getElem? h5)]
  have hl : (List.zipWith (fun r b => r.set j₀ b) c.nd.rows (flags c.objects.length is)).length =
      c.objects.length := by
    simp [flags_length, h.wf.nrows]
  rw [make_nodup hl hw h.wf.onodup h.wf.anodup] at he
  cases he
  refine ⟨(wf_mk' hl hw h.wf.onodup h.wf.anodup).toWFw, h.objs, h.atts, ?_⟩
  intro k j o a hk hj
  obtain ⟨r, hr, hb⟩ := h.val k j o a hk hj
  refine ⟨_, hz k o r hk hr, ?_⟩
  rw [List.getElem?_set]
  by_cases hji : j₀ = j
  · subst hji
    have hjn' : c.attributes[j₀]? = some a := hj
    rw [hjn] at hjn'; cases hjn'
    rw [if_pos rfl, if_pos (lt_of_getElem? hb)]
    simp only [Table.apply, if_true]
  · rw [if_neg hji]
    have : a ≠ n := by rintro rfl; exact hji (nodup_idx h.wf.anodup hjn hj)
    simp only [Table.apply, if_neg this, hb]

theorem eraseIdx_eq_filter {γ : Type} [DecidableEq γ] {l : List γ} (hn : l.Nodup) {i : ℕ} {x : γ}
    (h : l[i]? = some x) : l.eraseIdx i = l.filter (· ≠ x) := by
  have h1 : l.eraseIdx i = l.erase x := by
    rw [List.erase_eq_eraseIdx_of_idxOf (idxOf_of_nodup hn h)]
  rw [h1, hn.erase_eq_filter]
  congr 1
  funext y
  by_cases h : y = x <;> simp [h]

theorem Stores.deleteObject (h : Stores c t) {n : α}
    (he : c.deleteObject n = (c', none)) : Stores c' (t.apply (.deleteObject n)) := by
  have he := reinit_ok he
  obtain ⟨i, h1, he⟩ := bind_ok he
  obtain ⟨r0, h2, he⟩ := bind_ok he
  have hin := lastIdx_ok h1
  have hil := lt_of_getElem? hin
  have hl : (c.nd.rows.eraseIdx i).length = (c.objects.eraseIdx i).length := by
    rw [List.length_eraseIdx, List.length_eraseIdx, h.wf.nrows]
  have hw : ∀ r ∈ c.nd.rows.eraseIdx i, r.length = c.attributes.length :=
    fun r hr => h.wf.width r (List.mem_of_mem_eraseIdx hr)
  have hon : (c.objects.eraseIdx i).Nodup := h.wf.onodup.sublist (List.eraseIdx_sublist _ _)
  rw [make_nodup hl hw hon h.wf.anodup] at he
  cases he
  refine ⟨(wf_mk' hl hw hon h.wf.anodup).toWFw, ?_, h.atts, ?_⟩
  · show c.objects.eraseIdx i = _
    rw [eraseIdx_eq_filter h.wf.onodup hin, h.objs]; rfl
  · intro k j o a hk hj
    simp only [mk'] at hk hj ⊢
    rw [List.getElem?_eraseIdx] at hk ⊢
    split at hk
    · rename_i hlt
      rw [if_pos hlt]; exact h.val _ j o a hk hj
    · rename_i hlt
      rw [if_neg hlt]; exact h.val _ j o a hk hj

theorem Stores.deleteAttribute (h : Stores c t) {n : β}
    (he : c.deleteAttribute n = (c', none)) : Stores c' (t.apply (.deleteAttribute n)) := by
  have he := reinit_ok he
  obtain ⟨j₀, h1, he⟩ := bind_ok he
  obtain ⟨r0, h2, he⟩ := bind_ok he
  have hjn := lastIdx_ok h1
  have hjl := lt_of_getElem? hjn
  have hl : (c.nd.rows.map fun r => r.eraseIdx j₀).length = c.objects.length := by
    rw [List.length_map, h.wf.nrows]
  have hw : ∀ r ∈ c.nd.rows.map (fun r => r.eraseIdx j₀), r.length = (c.attributes.eraseIdx j₀).length := by
    intro r hr
    obtain ⟨r', hr', rfl⟩ := List.mem_map.1 hr
    rw [List.length_eraseIdx, List.length_eraseIdx, h.wf.width r' hr']
  have han : (c.attributes.eraseIdx j₀).Nodup := h.wf.anodup.sublist (List.eraseIdx_sublist _ _)
  rw [make_nodup hl hw h.wf.onodup han] at he
  cases he
  refine ⟨(wf_mk' hl hw h.wf.onodup han).toWFw, h.objs, ?_, ?_⟩
  · show c.attributes.eraseIdx j₀ = _
    rw [eraseIdx_eq_filter h.wf.anodup hjn, h.atts]; rfl
  · intro k j o a hk hj
    simp only [mk'] at hk hj ⊢
    rw [List.getElem?_map]
    rw [List.getElem?_eraseIdx] at hj
    split at hj
    · rename_i hlt
      obtain ⟨r, hr, hb⟩ := h.val k _ o a hk hj
      refine ⟨r.eraseIdx j₀, by rw [hr]; rfl, ?_⟩
      rw [List.getElem?_eraseIdx, if_pos hlt]; exact hb
    · rename_i hlt
      obtain ⟨r, hr, hb⟩ := h.val k _ o a hk hj
      refine ⟨r.eraseIdx j₀, by rw [hr]; rfl, ?_⟩
      rw [List.getElem?_eraseIdx, if_neg hlt]; exact hb

theorem set_eq_map {γ : Type} [DecidableEq γ] {l : List γ} (hn : l.Nodup) {i : ℕ} {x y : γ}
    (h : l[i]? = some x) : l.set i y = l.map fun z => if z = x then y else z := by
  apply List.ext_getElem?
  intro k
  rw [List.getElem?_set, List.getElem?_map]
  by_cases hik : i = k
  · subst hik
    rw [if_pos rfl, if_pos (lt_of_getElem? h), h]; simp
  · rw [if_neg hik]
    cases hk : l[k]? with
    | none => rfl
    | some z =>
      have : z ≠ x := by rintro rfl; exact hik (nodup_idx hn h hk)
      simp [this]

theorem nodup_rename {γ : Type} [DecidableEq γ] {l : List γ} (hn : l.Nodup) {old new : γ}
    (hf : new ∉ l ∨ new = old) : (l.map fun z => if z = old then new else z).Nodup := by
  rw [List.nodup_map_iff_inj_on hn]
  intro x hx y hy hxy
  split at hxy <;> split at hxy
  · simp_all
  · rename_i h1 h2
    rcases hf with hf | hf
    · exact absurd (hxy ▸ hy) hf
    · exact absurd (hxy.symm.trans hf) h2
  · rename_i h1 h2
    rcases hf with hf | hf
    · exact absurd (hxy ▸ hx) hf
    · exact absurd (hxy.trans hf) h1
  · exact hxy

theorem Stores.renameObject (h : Stores c t) {old new : α} (hf : new ∉ t.objs ∨ new = old)
    (he : c.renameObject old new = (c', none)) : Stores c' (t.apply (.renameObject old new)) := by
  have he := reinit_ok he
  obtain ⟨i, h1, he⟩ := bind_ok he
  have hin := lastIdx_ok h1
  have hset := set_eq_map (y := new) h.wf.onodup hin
  have hnd : (c.objects.set i new).Nodup := by
    rw [hset]; exact nodup_rename h.wf.onodup (h.objs ▸ hf)
  obtain ⟨hl, _, rfl⟩ := ofNd_result he
  rw [renameAll_nodup hnd, renameAll_nodup h.wf.anodup]
  refine ⟨⟨hnd, h.wf.anodup, hl, h.wf.width, h.wf.shape⟩, ?_, h.atts, ?_⟩
  · show c.objects.set i new = _
    rw [hset, h.objs]; rfl
  · intro k j o a hk hj
    simp only at hk hj ⊢
    rw [List.getElem?_set] at hk
    split at hk
    · rename_i hik
      subst hik
      rw [if_pos (lt_of_getElem? hin)] at hk
      cases hk
      obtain ⟨r, hr, hb⟩ := h.val i j old a hin hj
      exact ⟨r, hr, by simp only [Table.apply, if_true, hb]⟩
    · rename_i hik
      obtain ⟨r, hr, hb⟩ := h.val k j o a hk hj
      refine ⟨r, hr, ?_⟩
      have : o ≠ new := by
        rintro rfl
        rcases hf with hf | hf
        · exact hf (h.objs ▸ List.mem_of_getElem? hk)
        · subst hf; exact hik (nodup_idx h.wf.onodup hin hk)
      simp only [Table.apply, if_neg this, hb]

theorem Stores.renameAttribute (h : Stores c t) {old new : β} (hf : new ∉ t.atts ∨ new = old)
    (he : c.renameAttribute old new = (c', none)) : Stores c' (t.apply (.renameAttribute old new)) := by
  have he := reinit_ok he
  obtain ⟨i, h1, he⟩ := bind_ok he
  have hin := lastIdx_ok h1
  have hset := set_eq_map (y := new) h.wf.anodup hin
  have hnd : (c.attributes.set i new).Nodup := by
    rw [hset]; exact nodup_rename h.wf.anodup (h.atts ▸ hf)
  obtain ⟨hl, _, rfl⟩ := ofNd_result he
  rw [renameAll_nodup hnd, renameAll_nodup h.wf.onodup]
  refine ⟨⟨h.wf.onodup, hnd, hl, ?_, ?_⟩, h.objs, ?_, ?_⟩
  · intro r hr; rw [h.wf.width r hr]; simp
  · intro hne; rw [h.wf.shape hne]; simp
  · show c.attributes.set i new = _
    rw [hset, h.atts]; rfl
  · intro k j o a hk hj
    simp only at hk hj ⊢
    rw [List.getElem?_set] at hj
    split at hj
    · rename_i hik
      subst hik
      rw [if_pos (lt_of_getElem? hin)] at hj
      cases hj
      obtain ⟨r, hr, hb⟩ := h.val k i o old hk hin
      exact ⟨r, hr, by simp only [Table.apply, if_true, hb]⟩
    · rename_i hik
      obtain ⟨r, hr, hb⟩ := h.val k j o a hk hj
      refine ⟨r, hr, ?_⟩
      have : a ≠ new := by
        rintro rfl
        rcases hf with hf | hf
        · exact hf (h.atts ▸ List.mem_of_getElem? hj)
        · subst hf; exact hik (nodup_idx h.wf.anodup hin hj)
      simp only [Table.apply, if_neg this, hb]

theorem Stores.exec (h : Stores c t) {op : TOp α β} (hf : op.Fresh t)
    (he : c.exec op = (c', none)) : Stores c' (t.apply op) := by
  cases op with
  | addObject row n => exact h.addObject hf he
  | addAttribute col n => exact h.addAttribute hf he
  | addObjectWithIntent B n => exact h.addObjectWithIntent hf he
  | addAttributeWithExtent A n => exact h.addAttributeWithExtent hf he
  | setObjectIntent B n => exact h.setObjectIntent he
  | setAttributeExtent A n => exact h.setAttributeExtent he
  | deleteObject n => exact h.deleteObject he
  | deleteAttribute n => exact h.deleteAttribute he
  | renameObject old new => exact h.renameObject hf he
  | renameAttribute old new => exact h.renameAttribute hf he

theorem Stores.execAll {ops : List (TOp α β)} (h : Stores c t) (hf : FreshAll t ops)
    (he : c.execAll ops = (c', none)) : Stores c' (ops.foldl Table.apply t) := by
  induction ops generalizing c t with
  | nil => cases he; exact h
  | cons op ops ih =>
    unfold Ctx.execAll at he
    split at he
    · rename_i c1 hc1
      exact ih (h.exec hf.1 hc1) hf.2 he
    · cases he

theorem ofNd_dims {t : Nd} {objs : List α} {atts : List β} (h1 : t.rows.length = objs.length)
    (h2 : ∀ r ∈ t.rows, r.length = atts.length) :
    ofNd t objs atts = .ok ⟨renameAll objs, renameAll atts, t⟩ := by
  unfold ofNd
  rw [if_neg (by simpa using h1), if_neg]
  rintro ⟨hne, hl⟩
  cases hr : t.rows with
  | nil => exact hne hr
  | cons r rs =>
    rw [hr] at hl
    exact hl (h2 r (by simp [hr]))

theorem addObject_returns (h : c.WFw) {row : List Bool} (hl : row.length = c.attributes.length)
    (n : α) : ∃ c', c.addObject row n = (c', none) := by
  have hs : ∃ k, c.nd.stackRow row = .ok ⟨k, c.nd.rows ++ [row]⟩ := by
    unfold Nd.stackRow Nd.appendRow
    by_cases hne : c.nd.rows ≠ []
    · rw [if_pos hne, h.shape hne]
      exact ⟨_, by simp only [hl, if_true]; rfl⟩
    · rw [if_neg hne, ofLists_cols [row] row.length (by simp)]
      exact ⟨_, by simp [not_not.1 hne]; rfl⟩
  obtain ⟨k, hk⟩ := hs
  unfold Ctx.addObject
  simp only [hk, py_ok_bind]
  rw [ofNd_dims (by simp [h.nrows])]
  · exact ⟨_, rfl⟩
  · intro r hr
    rcases List.mem_append.1 hr with hr | hr
    · exact h.width r hr
    · simp at hr; rw [hr, hl]

theorem addAttribute_returns (h : c.WFw) (hne : c.nd.rows ≠ []) {col : List Bool}
    (hl : col.length = c.objects.length) (n : β) : ∃ c', c.addAttribute col n = (c', none) := by
  unfold Ctx.addAttribute Nd.appendCol
  rw [h.shape hne]
  simp only [hl, h.nrows, if_true, py_ok_bind]
  rw [ofNd_dims]
  · exact ⟨_, rfl⟩
  · simp [hl, h.nrows]
  · intro r' hr'
    obtain ⟨i, hi⟩ := List.mem_iff_getElem?.1 hr'
    rw [List.getElem?_zipWith_eq_some] at hi
    obtain ⟨r, b, h5, h6, rfl⟩ := hi
    simp [h.width r (List.mem_of_getElem? h5)]

theorem Stores.returns (h : Stores c t) (hne : t.objs ≠ []) {op : TOp α β} (hl : op.Legal t) :
    ∃ c', c.exec op = (c', none) := by
  have hrows : c.nd.rows ≠ [] := by
    intro h0
    apply hne
    rw [← h.objs, ← List.length_eq_zero_iff, ← h.wf.nrows, h0]; rfl
  cases op with
  | addObject row n => exact addObject_returns h.wf (h.atts ▸ hl) n
  | addAttribute col n => exact addAttribute_returns h.wf hrows (h.objs ▸ hl) n
  | addObjectWithIntent B n => exact addObject_returns h.wf (by simp) n
  | addAttributeWithExtent A n => exact addAttribute_returns h.wf hrows (by simp) n
  | setObjectIntent B n =>
    obtain ⟨hB, hn⟩ := hl
    rw [← h.atts] at hB; rw [← h.objs] at hn
    obtain ⟨js, h1, _⟩ := mapM_lastIdx hB
    obtain ⟨i, hi⟩ := List.mem_iff_getElem?.1 hn
    obtain ⟨r, _, hr, _⟩ := h.wf.row (lt_of_getElem? hi)
    simp only [Ctx.exec, Ctx.setObjectIntent, h1, lastIdx_eq h.wf.onodup hi, hr, py_ok_bind]
    rw [ofNd_dims]
    · exact ⟨_, rfl⟩
    · simp [h.wf.nrows]
    · intro r hr
      rcases List.mem_or_eq_of_mem_set hr with hr | rfl
      · exact h.wf.width r hr
      · exact flags_length _ _
  | setAttributeExtent A n =>
    obtain ⟨hA, hn⟩ := hl
    rw [← h.objs] at hA; rw [← h.atts] at hn
    obtain ⟨is, h1, _⟩ := mapM_lastIdx hA
    obtain ⟨j, hj⟩ := List.mem_iff_getElem?.1 hn
    simp only [Ctx.exec, Ctx.setAttributeExtent, h1, lastIdx_eq h.wf.anodup hj,
      col_ok (h.wf.shape hrows) (lt_of_getElem? hj), py_ok_bind]
    rw [make_ok]
    · exact ⟨_, rfl⟩
    · simp [flags_length, h.wf.nrows]
    · intro r' hr'
      obtain ⟨i, hi⟩ := List.mem_iff_getElem?.1 hr'
      rw [List.getElem?_zipWith_eq_some] at hi
      obtain ⟨r, b, h5, h6, rfl⟩ := hi
      simp [h.wf.width r (List.mem_of_getElem? h5)]
  | deleteObject n =>
    have hn : n ∈ c.objects := h.objs ▸ hl
    obtain ⟨i, hi⟩ := List.mem_iff_getElem?.1 hn
    obtain ⟨r, _, hr, _⟩ := h.wf.row (lt_of_getElem? hi)
    simp only [Ctx.exec, Ctx.deleteObject, lastIdx_eq h.wf.onodup hi, hr, py_ok_bind]
    rw [make_ok]
    · exact ⟨_, rfl⟩
    · rw [List.length_eraseIdx, List.length_eraseIdx, h.wf.nrows]
    · exact fun r hr => h.wf.width r (List.mem_of_mem_eraseIdx hr)
  | deleteAttribute n =>
    have hn : n ∈ c.attributes := h.atts ▸ hl
    obtain ⟨j, hj⟩ := List.mem_iff_getElem?.1 hn
    have hc : c.nd.checkCols [j] = .ok () := by
      unfold Nd.checkCols
      rw [h.wf.shape hrows]
      simp [lt_of_getElem? hj]
    simp only [Ctx.exec, Ctx.deleteAttribute, lastIdx_eq h.wf.anodup hj, hc, py_ok_bind]
    rw [make_ok]
    · exact ⟨_, rfl⟩
    · rw [List.length_map, h.wf.nrows]
    · intro r hr
      obtain ⟨r', hr', rfl⟩ := List.mem_map.1 hr
      rw [List.length_eraseIdx, List.length_eraseIdx, h.wf.width r' hr']
  | renameObject old new =>
    have hn : old ∈ c.objects := h.objs ▸ hl
    obtain ⟨i, hi⟩ := List.mem_iff_getElem?.1 hn
    simp only [Ctx.exec, Ctx.renameObject, lastIdx_eq h.wf.onodup hi, py_ok_bind]
    rw [ofNd_dims (by simp [h.wf.nrows]) h.wf.width]
    exact ⟨_, rfl⟩
  | renameAttribute old new =>
    have hn : old ∈ c.attributes := h.atts ▸ hl
    obtain ⟨i, hi⟩ := List.mem_iff_getElem?.1 hn
    simp only [Ctx.exec, Ctx.renameAttribute, lastIdx_eq h.wf.anodup hi, py_ok_bind]
    rw [ofNd_dims (by simp [h.wf.nrows]) (by simpa using h.wf.width)]
    exact ⟨_, rfl⟩

end steps

/-- Every well-formed context stores the table of its values. -/
theorem WFw.stores {c : Ctx α β} (h : c.WFw) :
    Stores c ⟨c.objects, c.attributes, c.incB⟩ := by
  refine ⟨h, rfl, rfl, ?_⟩
  intro i j o a hi hj
  obtain ⟨r, hr, _, hl⟩ := h.row (lt_of_getElem? hi)
  refine ⟨r, hr, ?_⟩
  have hjl : j < r.length := hl ▸ lt_of_getElem? hj
  rw [List.getElem?_eq_getElem hjl, Option.some.injEq, Bool.eq_iff_iff, h.incB,
    inc_iff h.onodup h.anodup hi hj]
  constructor
  · intro hb; exact ⟨r, hr, by rw [List.getElem?_eq_getElem hjl, hb]⟩
  · rintro ⟨r', hr', hb⟩
    rw [hr] at hr'; cases hr'
    rw [List.getElem?_eq_getElem hjl] at hb
    exact Option.some.inj hb

end Ctx
