/-
Property C116: the attributes of a context object fit together, and calls that raise leave it unchanged.
-/
import Verif.Model.ContextObject
import Verif.Lemmas.ContextOps
import Verif.Props.DeleteMany

set_option linter.unusedSectionVars false

open Spec

namespace OM

variable {σ γ δ : Type}

@[simp] theorem lift_ok (x : γ) (f : γ → OM σ δ) (s : σ) : (OM.lift (.ok x) >>= f) s = f x s := rfl

@[simp] theorem lift_err (e : PyErr) (f : γ → OM σ δ) (s : σ) : (OM.lift (.error e) >>= f) s = (.error e, s) := rfl

@[simp] theorem get_bind (f : σ → OM σ δ) (s : σ) : (OM.get >>= f) s = f s s := rfl

@[simp] theorem modify_bind (g : σ → σ) (f : Unit → OM σ δ) (s : σ) : (OM.modify g >>= f) s = f () (g s) := rfl

theorem bind_apply (m : OM σ γ) (f : γ → OM σ δ) (s : σ) :
    (m >>= f) s = match m s with
      | (.ok x, s') => f x s'
      | (.error e, s') => (.error e, s') := rfl

end OM

/-! ### Dictionaries of positions -/

section dict
variable {γ : Type} [DecidableEq γ]

theorem lookup_cons' {ν : Type} (p : γ × ν) (d : List (γ × ν)) (x : γ) :
    (p :: d).lookup x = if x = p.1 then some p.2 else d.lookup x := by
  obtain ⟨k, v⟩ := p
  rw [List.lookup_cons]
  by_cases hx : x = k
  · subst hx; simp
  · have : (x == k) = false := by simpa using hx
    rw [this, if_neg hx]

theorem lookup_dictSet {ν : Type} (d : List (γ × ν)) (k : γ) (v : ν) (x : γ) :
    (dictSet d k v).lookup x = if x = k then some v else d.lookup x := by
  unfold dictSet
  split
  · rename_i h
    have key : ∀ d : List (γ × ν), (d.map fun p => if p.1 = k then (k, v) else p).lookup x =
        if x = k ∧ (d.any fun p => decide (p.1 = k)) = true then some v else d.lookup x := by
      intro d
      induction d with
      | nil => simp
      | cons p d ih =>
        rw [List.map_cons, lookup_cons', lookup_cons', ih, List.any_cons]
        by_cases hp : p.1 = k
        · by_cases hx : x = k
          · simp [hp, hx]
          · simp [hp, hx]
        · by_cases hx : x = k
          · subst hx
            have hp' : ¬ x = p.1 := fun e => hp e.symm
            rw [if_neg hp, if_neg hp', if_neg hp', decide_eq_false hp, Bool.false_or]
          · simp [hp, hx]
    rw [key, h]
    simp
  · rename_i h
    induction d with
    | nil => rw [List.nil_append, lookup_cons']
    | cons p d ih =>
      have h' : ¬ (p.1 = k) ∧ ¬ (d.any fun p => decide (p.1 = k)) = true := by
        constructor
        · intro e; exact h (by simp [e])
        · intro e; exact h (by rw [List.any_cons, e, Bool.or_true])
      rw [List.cons_append, lookup_cons', ih h'.2, lookup_cons']
      by_cases hx : x = k
      · subst hx
        rw [if_neg fun e => h'.1 e.symm, if_pos rfl, if_pos rfl]
      · rw [if_neg hx, if_neg hx]

theorem lookup_foldl_dictSet {ν : Type} (items d : List (γ × ν)) (x : γ) :
    (items.foldl (fun d p => dictSet d p.1 p.2) d).lookup x =
      match items.reverse.lookup x with
      | some v => some v
      | none => d.lookup x := by
  induction items generalizing d with
  | nil => rfl
  | cons p items ih =>
    rw [List.foldl_cons, ih, List.reverse_cons, List.lookup_append, lookup_dictSet]
    cases items.reverse.lookup x with
    | some v => rfl
    | none =>
      rw [lookup_cons']
      by_cases hx : x = p.1
      · simp [hx]
      · simp [hx]

theorem lookup_zipIdx_reverse (l : List γ) (x : γ) (i : ℕ) :
    l.zipIdx.reverse.lookup x = some i ↔ l[i]? = some x ∧ ∀ k, l[k]? = some x → k ≤ i := by
  induction l using List.reverseRecOn with
  | nil => simp
  | append_singleton l y ih =>
    rw [List.zipIdx_append, List.reverse_append]
    simp only [List.zipIdx_cons, List.zipIdx_nil, List.reverse_cons, List.reverse_nil, List.nil_append,
      List.cons_append, List.lookup_cons]
    by_cases hx : x = y
    · subst hx
      simp only [beq_self_eq_true, Option.some.injEq]
      constructor
      · rintro rfl
        refine ⟨by simp, fun k hk => ?_⟩
        have := Ctx.lt_of_getElem? hk
        simp at this
        omega
      · rintro ⟨h1, h2⟩
        have a := Ctx.lt_of_getElem? h1
        have b := h2 l.length (by simp)
        simp at a
        omega
    · have hb : (x == y) = false := by simpa using hx
      rw [hb]
      simp only
      rw [ih]
      have key : ∀ k : ℕ, (l ++ [y])[k]? = some x ↔ l[k]? = some x := by
        intro k
        rw [List.getElem?_append]
        split
        · rfl
        · rename_i hk
          rw [List.getElem?_eq_none (l := l) (by omega)]
          constructor
          · intro h
            rw [List.getElem?_singleton] at h
            split at h
            · cases h; exact absurd rfl hx
            · cases h
          · intro h; cases h
      simp only [key]

/-- The dictionary has the last position of every name. -/
theorem indexDict_spec (l : List γ) (x : γ) (i : ℕ) :
    (indexDict l).lookup x = some i ↔ l[i]? = some x ∧ ∀ k, l[k]? = some x → k ≤ i := by
  have : (indexDict l).lookup x = l.zipIdx.reverse.lookup x := by
    unfold indexDict dictOf
    rw [lookup_foldl_dictSet]
    cases l.zipIdx.reverse.lookup x <;> rfl
  rw [this]
  exact lookup_zipIdx_reverse l x i

theorem lastIdx_last {l : List γ} {x : γ} {i : ℕ} (h : lastIdx l x = .ok i) : ∀ k, l[k]? = some x → k ≤ i := by
  intro k hk
  unfold lastIdx at h
  split at h
  · rename_i j hj
    cases h
    rw [List.idxOf?, List.findIdx?_eq_some_iff_getElem] at hj
    obtain ⟨hlt, he, hb⟩ := hj
    have hkl := Ctx.lt_of_getElem? hk
    by_contra hc
    have hlt' : j < l.length := by simpa using hlt
    have := hb (l.length - 1 - k) (by omega)
    rw [List.getElem_reverse] at this
    apply this
    have e : l.length - 1 - (l.length - 1 - k) = k := by omega
    simp only [e]
    rw [List.getElem?_eq_getElem hkl] at hk
    simpa using hk
  · cases h

theorem dictIdx_eq (l : List γ) (x : γ) : dictIdx (indexDict l) x = lastIdx l x := by
  unfold dictIdx
  cases h : (indexDict l).lookup x with
  | some i =>
    obtain ⟨h1, h2⟩ := (indexDict_spec l x i).1 h
    obtain ⟨k, hk⟩ := lastIdx_mem (List.mem_of_getElem? h1)
    rw [hk]
    have a := h2 k (lastIdx_ok hk)
    have b := lastIdx_last hk i h1
    have : i = k := by omega
    rw [this]
  | none =>
    symm
    apply lastIdx_not_mem
    intro hx
    obtain ⟨k, hk⟩ := lastIdx_mem hx
    have := (indexDict_spec l x k).2 ⟨lastIdx_ok hk, lastIdx_last hk⟩
    rw [h] at this
    cases this

theorem flagsPy_ok (n : ℕ) (is : List ℕ) (h : ∀ i ∈ is, i < n) : flagsPy n is = .ok (Ctx.flags n is) := by
  have key : ∀ (is : List ℕ) (l : List Bool), (∀ i ∈ is, i < l.length) →
      is.foldlM (fun l i => listAssign l i true) l = (.ok (is.foldl (fun l i => l.set i true) l) : Py _) := by
    intro is
    induction is with
    | nil => intro l _; rfl
    | cons i is ih =>
      intro l hl
      rw [List.foldlM_cons]
      unfold listAssign
      rw [if_pos (hl i (by simp))]
      exact ih _ fun k hk => by simpa using hl k (by simp [hk])
  exact key is _ fun i hi => by simpa using h i hi

end dict

namespace CObj

variable {α β : Type} [DecidableEq α] [DecidableEq β] [PyName α] [PyName β]

/-- Dimensions. -/
structure Shape (c : Ctx α β) : Prop where
  nrows : c.nd.rows.length = c.objects.length
  width : ∀ r ∈ c.nd.rows, r.length = c.attributes.length
  cols : c.nd.rows ≠ [] → c.nd.cols = some c.attributes.length

/-- The object for a context of the other model. -/
def of (c : Ctx α β) : CObj α β :=
  ⟨c.objects, c.attributes, c.nd, c.nd.rows, indexDict c.objects, indexDict c.attributes⟩

/-- What fits together: the dictionaries have the last position of every name and no other key, `cross_table` has the
entries of `np_table`, the dimensions are the numbers of names. -/
structure Consistent (s : CObj α β) : Prop where
  oidx : ∀ x i, s.oidx.lookup x = some i ↔ s.objects[i]? = some x ∧ ∀ k, s.objects[k]? = some x → k ≤ i
  aidx : ∀ x i, s.aidx.lookup x = some i ↔ s.attributes[i]? = some x ∧ ∀ k, s.attributes[k]? = some x → k ≤ i
  cross : s.cross = s.np.rows
  nrows : s.np.rows.length = s.objects.length
  width : ∀ r ∈ s.np.rows, r.length = s.attributes.length
  cols : s.np.rows ≠ [] → s.np.cols = some s.attributes.length

theorem of_consistent {c : Ctx α β} (h : Shape c) : (of c).Consistent :=
  ⟨indexDict_spec _, indexDict_spec _, rfl, h.nrows, h.width, h.cols⟩

/-- The outcome of a constructor call inside a mutator. -/
def result (s : CObj α β) : Py (Ctx α β) → Py Unit × CObj α β
  | .ok c => (.ok (), of c)
  | .error e => (.error e, s)

theorem init_eq (t : TableArg) (objs : List α) (atts : List β) (s : CObj α β) :
    init t objs atts s =
      if t.rows.length ≠ objs.length then (.error .valueError, s)
      else if t.rows ≠ [] ∧ (t.rows.headD []).length ≠ atts.length then (.error .valueError, s)
      else match t.toArray with
        | .ok a => (.ok (), ⟨renameAll objs, renameAll atts, a, a.rows, indexDict (renameAll objs), indexDict (renameAll atts)⟩)
        | .error e => (.error e, { s with objects := renameAll objs, attributes := renameAll atts }) := by
  unfold init
  by_cases h1 : t.rows.length ≠ objs.length
  · rw [if_pos h1, if_pos h1]; rfl
  rw [if_neg h1, if_neg h1]
  by_cases h2 : t.rows ≠ [] ∧ (t.rows.headD []).length ≠ atts.length
  · rw [if_pos h2, if_pos h2]; rfl
  rw [if_neg h2, if_neg h2]
  cases t.toArray <;> rfl

theorem init_array (t : Nd) (objs : List α) (atts : List β) (s : CObj α β) :
    init (.array t) objs atts s = result s (Ctx.ofNd t objs atts) := by
  rw [init_eq]
  unfold Ctx.ofNd
  by_cases h1 : (TableArg.array t).rows.length ≠ objs.length
  · rw [if_pos h1, if_pos (show t.rows.length ≠ objs.length from h1)]; rfl
  rw [if_neg h1, if_neg (show ¬ t.rows.length ≠ objs.length from h1)]
  by_cases h2 : (TableArg.array t).rows ≠ [] ∧ ((TableArg.array t).rows.headD []).length ≠ atts.length
  · rw [if_pos h2, if_pos (show t.rows ≠ [] ∧ (t.rows.headD []).length ≠ atts.length from h2)]; rfl
  rw [if_neg h2, if_neg (show ¬ (t.rows ≠ [] ∧ (t.rows.headD []).length ≠ atts.length) from h2)]
  rfl

theorem init_lists {l : List (List Bool)} {n : ℕ} (h : ∀ r ∈ l, r.length = n) (objs : List α) (atts : List β)
    (s : CObj α β) : init (.lists l) objs atts s = result s (Ctx.make l objs atts) := by
  rw [init_eq]
  unfold Ctx.make
  by_cases h1 : (TableArg.lists l).rows.length ≠ objs.length
  · rw [if_pos h1, if_pos (show l.length ≠ objs.length from h1)]; rfl
  rw [if_neg h1, if_neg (show ¬ l.length ≠ objs.length from h1)]
  by_cases h2 : (TableArg.lists l).rows ≠ [] ∧ ((TableArg.lists l).rows.headD []).length ≠ atts.length
  · rw [if_pos h2, if_pos (show l ≠ [] ∧ (l.headD []).length ≠ atts.length from h2)]; rfl
  rw [if_neg h2, if_neg (show ¬ (l ≠ [] ∧ (l.headD []).length ≠ atts.length) from h2), show TableArg.toArray (.lists l) = Nd.ofLists l from rfl, Ctx.ofLists_cols l n h]
  rfl

theorem shape_ofNd {t : Nd} {objs : List α} {atts : List β} {c : Ctx α β} (h : Ctx.ofNd t objs atts = .ok c)
    (hw : ∀ r ∈ t.rows, r.length = (t.rows.headD []).length)
    (hc : t.rows ≠ [] → t.cols = some (t.rows.headD []).length) : Shape c := by
  unfold Ctx.ofNd at h
  split at h
  · cases h
  split at h
  · cases h
  rename_i h1 h2
  cases h
  have e : t.rows ≠ [] → (t.rows.headD []).length = atts.length := fun hne => by
    by_contra hcon; exact h2 ⟨hne, hcon⟩
  refine ⟨?_, fun r hr => ?_, fun hne => ?_⟩
  · simpa [renameAll_length] using h1
  · rw [renameAll_length, hw r hr, e (List.ne_nil_of_mem hr)]
  · rw [renameAll_length, hc hne, e hne]

theorem shape_make {l : List (List Bool)} {objs : List α} {atts : List β} {c : Ctx α β}
    (h : Ctx.make l objs atts = .ok c) : Shape c := by
  rcases Ctx.make_cases l objs atts with ⟨h1, h2, h3⟩ | ⟨_, h3⟩
  · rw [h3] at h
    cases h
    refine ⟨?_, fun r hr => ?_, fun hne => ?_⟩
    · simpa [renameAll_length] using h1
    · rw [renameAll_length, h2 r hr]
    · rw [renameAll_length]
      exact if_neg hne
  · rw [h3] at h; cases h

/-- The outcome of a mutator in the other model. -/
def outcome (m : Ctx.Mut α β) : Py Unit × CObj α β :=
  (match m.2 with
   | none => .ok ()
   | some e => .error e, of m.1)

theorem result_of (c : Ctx α β) (r : Py (Ctx α β)) : result (of c) r = outcome (c.reinit r) := by
  cases r <;> rfl

theorem ofNd_shape {t : Nd} {objs : List α} {atts : List β} (h1 : t.rows.length = objs.length)
    (h2 : ∀ r ∈ t.rows, r.length = atts.length) : Ctx.ofNd t objs atts = .ok ⟨renameAll objs, renameAll atts, t⟩ := by
  unfold Ctx.ofNd
  rw [if_neg (by simpa using h1), if_neg]
  rintro ⟨hne, hl⟩
  cases hr : t.rows with
  | nil => exact hne hr
  | cons r rs =>
    rw [hr] at hl
    exact hl (h2 r (by simp [hr]))

theorem shape_reinit {c : Ctx α β} (h : Shape c) {r : Py (Ctx α β)} (hr : ∀ c', r = .ok c' → Shape c') :
    Shape (c.reinit r).1 := by
  cases r with
  | ok c' => exact hr c' rfl
  | error e => exact h

theorem result_ok {c c' : Ctx α β} {s : CObj α β} {r : Py (Ctx α β)} (h : r = .ok c') :
    result s r = outcome (c.reinit r) := by
  subst h; rfl

theorem appendCol_facts {c : Ctx α β} (h : Shape c) {col : List Bool} {t : Nd} (ht : c.nd.appendCol col = .ok t) :
    (∀ r ∈ t.rows, r.length = (t.rows.headD []).length) ∧ (t.rows ≠ [] → t.cols = some (t.rows.headD []).length) := by
  unfold Nd.appendCol at ht
  split at ht
  · split at ht
    · cases ht; exact ⟨by simp, by simp⟩
    · cases ht
  · rename_i n hn
    split at ht
    · rename_i hl
      cases ht
      have key : ∀ r ∈ List.zipWith (fun r b => r ++ [b]) c.nd.rows col, r.length = c.attributes.length + 1 := by
        intro r hr
        obtain ⟨i, hi, rfl⟩ := List.mem_iff_getElem.1 hr
        rw [List.getElem_zipWith, List.length_append, h.width _ (List.getElem_mem _)]
        rfl
      have hd : ∀ l : List (List Bool), l ≠ [] → (∀ r ∈ l, r.length = c.attributes.length + 1) →
          (l.headD []).length = c.attributes.length + 1 := by
        intro l hl h
        cases l with
        | nil => exact absurd rfl hl
        | cons r rs => exact h r (by simp)
      refine ⟨fun r hr => ?_, fun hne => ?_⟩
      · rw [key r hr, hd _ (List.ne_nil_of_mem hr) key]
      · rw [hd _ hne key]
        have hne' : c.nd.rows ≠ [] := by
          intro e; exact hne (by simp [e])
        rw [h.cols hne'] at hn
        cases hn
        rfl
    · cases ht

theorem stackRow_facts {c : Ctx α β} (h : Shape c) {row : List Bool} {t : Nd} (ht : c.nd.stackRow row = .ok t) :
    (∀ r ∈ t.rows, r.length = (t.rows.headD []).length) ∧ (t.rows ≠ [] → t.cols = some (t.rows.headD []).length) := by
  unfold Nd.stackRow at ht
  split at ht
  · rename_i hne
    unfold Nd.appendRow at ht
    rw [h.cols hne] at ht
    simp only at ht
    split at ht
    · rename_i hl
      cases ht
      cases hr : c.nd.rows with
      | nil => exact absurd hr hne
      | cons r rs =>
        have h0 := h.width r (by simp [hr])
        refine ⟨fun q hq => ?_, fun _ => ?_⟩
        · simp only [List.cons_append, List.headD_cons]
          rw [h0]
          rcases List.mem_append.1 hq with hq | hq
          · exact h.width q (by simpa [hr] using hq)
          · simp at hq; subst hq; exact hl
        · simp [h0]
    · cases ht
  · simp [Nd.ofLists] at ht
    subst ht
    exact ⟨by simp, by simp⟩

theorem mapM_dictIdx {γ : Type} [DecidableEq γ] (l xs : List γ) :
    xs.mapM (dictIdx (indexDict l)) = xs.mapM (lastIdx l) := by
  congr 1; funext x; exact dictIdx_eq l x

theorem addObject_of {c : Ctx α β} (h : Shape c) (row : List Bool) (n : α) :
    addObject row n (of c) = outcome (c.addObject row n) ∧ Shape (c.addObject row n).1 := by
  unfold addObject Ctx.addObject
  rw [OM.get_bind]
  cases hx : c.nd.stackRow row with
  | error e =>
    have : (of c).np.stackRow row = .error e := hx
    rw [this]
    exact ⟨rfl, h⟩
  | ok t =>
    have : (of c).np.stackRow row = .ok t := hx
    rw [this, OM.lift_ok, init_array, result_of]
    refine ⟨rfl, shape_reinit h fun c' hc => ?_⟩
    obtain ⟨a, b⟩ := stackRow_facts h hx
    exact shape_ofNd hc a b

theorem addAttribute_of {c : Ctx α β} (h : Shape c) (col : List Bool) (n : β) :
    addAttribute col n (of c) = outcome (c.addAttribute col n) ∧ Shape (c.addAttribute col n).1 := by
  unfold addAttribute Ctx.addAttribute
  rw [OM.get_bind]
  cases hx : c.nd.appendCol col with
  | error e =>
    have : (of c).np.appendCol col = .error e := hx
    rw [this]
    exact ⟨rfl, h⟩
  | ok t =>
    have : (of c).np.appendCol col = .ok t := hx
    rw [this, OM.lift_ok, init_array, result_of]
    refine ⟨rfl, shape_reinit h fun c' hc => ?_⟩
    obtain ⟨a, b⟩ := appendCol_facts h hx
    exact shape_ofNd hc a b

/-- The two models agree on a call. -/
def Sim (c : Ctx α β) (o : Py Unit × CObj α β) (r : Py (Ctx α β)) : Prop :=
  (∃ e, r = .error e ∧ o = (.error e, of c)) ∨ ∃ c', r = .ok c' ∧ Shape c' ∧ o = (.ok (), of c')

theorem Sim.done {c : Ctx α β} (h : Shape c) {o : Py Unit × CObj α β} {r : Py (Ctx α β)} (hs : Sim c o r) :
    o = outcome (c.reinit r) ∧ Shape (c.reinit r).1 := by
  rcases hs with ⟨e, rfl, rfl⟩ | ⟨c', rfl, h', rfl⟩
  · exact ⟨rfl, h⟩
  · exact ⟨rfl, h'⟩

theorem Sim.make {c : Ctx α β} {s : CObj α β} {l : List (List Bool)} {objs : List α} {atts : List β}
    (h1 : l.length = objs.length) (h2 : ∀ r ∈ l, r.length = atts.length) :
    Sim c (init (.lists l) objs atts s) (Ctx.make l objs atts) := by
  rw [init_lists h2, Ctx.make_ok h1 h2]
  exact Or.inr ⟨_, rfl, shape_make (Ctx.make_ok h1 h2), rfl⟩

theorem Sim.ofNd {c : Ctx α β} {s : CObj α β} {t : Nd} {objs : List α} {atts : List β}
    (h1 : t.rows.length = objs.length) (h2 : ∀ r ∈ t.rows, r.length = atts.length)
    (h3 : t.rows ≠ [] → t.cols = some atts.length) :
    Sim c (init (.array t) objs atts s) (Ctx.ofNd t objs atts) := by
  rw [init_array, ofNd_shape h1 h2]
  refine Or.inr ⟨_, rfl, ⟨?_, ?_, ?_⟩, rfl⟩
  · simpa [renameAll_length] using h1
  · intro r hr; rw [renameAll_length]; exact h2 r hr
  · intro hne; rw [renameAll_length]; exact h3 hne

theorem mapM_lastIdx_lt {γ : Type} [DecidableEq γ] {l xs : List γ} {is : List ℕ} (h : xs.mapM (lastIdx l) = .ok is) :
    ∀ i ∈ is, i < l.length := by
  intro i hi
  obtain ⟨x, _, hx⟩ := forall₂_mem_right (Ctx.mapM_lastIdx_inv h).2 i hi
  exact Ctx.lt_of_getElem? hx

theorem setAttributeExtent_of {c : Ctx α β} (h : Shape c) (A : List α) (n : β) :
    setAttributeExtent A n (of c) = outcome (c.setAttributeExtent A n) ∧ Shape (c.setAttributeExtent A n).1 := by
  refine Sim.done h ?_
  unfold setAttributeExtent
  rw [OM.get_bind, show (of c).oidx = indexDict c.objects from rfl, show (of c).aidx = indexDict c.attributes from rfl,
    show (of c).objects = c.objects from rfl, show (of c).attributes = c.attributes from rfl,
    show (of c).np = c.nd from rfl, mapM_dictIdx, dictIdx_eq]
  cases hi : A.mapM (lastIdx c.objects) with
  | error e => exact Or.inl ⟨e, rfl, rfl⟩
  | ok is =>
    rw [OM.lift_ok, flagsPy_ok _ _ (mapM_lastIdx_lt hi), OM.lift_ok, py_ok_bind]
    cases hj : lastIdx c.attributes n with
    | error e => exact Or.inl ⟨e, rfl, rfl⟩
    | ok j =>
      rw [OM.lift_ok, py_ok_bind]
      cases hc : c.nd.cols with
      | none =>
        have h1 : c.nd.setCol j (Ctx.flags c.objects.length is) = .error .indexError := by unfold Nd.setCol; rw [hc]
        have h2 : c.nd.col j = .error .indexError := by unfold Nd.col; rw [hc]
        rw [h1, h2]
        exact Or.inl ⟨_, rfl, rfl⟩
      | some m =>
        by_cases hm : j < m
        · have h1 : c.nd.setCol j (Ctx.flags c.objects.length is) =
              .ok ⟨some m, List.zipWith (fun r b => r.set j b) c.nd.rows (Ctx.flags c.objects.length is)⟩ := by
            unfold Nd.setCol; rw [hc]
            simp only
            rw [if_pos hm, if_pos (by rw [Ctx.flags_length, h.nrows])]
          have h2 : c.nd.col j = .ok (c.nd.rows.map fun r => r.getD j false) := by
            unfold Nd.col; rw [hc]; simp only; rw [if_pos hm]
          rw [h1, h2, OM.lift_ok, OM.modify_bind, py_ok_bind]
          refine Sim.make ?_ ?_
          · simp [Ctx.flags_length, h.nrows]
          · intro r hr
            obtain ⟨i, hi, rfl⟩ := List.mem_iff_getElem.1 hr
            rw [List.getElem_zipWith, List.length_set]
            exact h.width _ (List.getElem_mem _)
        · have h1 : c.nd.setCol j (Ctx.flags c.objects.length is) = .error .indexError := by
            unfold Nd.setCol; rw [hc]; simp only; rw [if_neg hm]
          have h2 : c.nd.col j = .error .indexError := by
            unfold Nd.col; rw [hc]; simp only; rw [if_neg hm]
          rw [h1, h2]
          exact Or.inl ⟨_, rfl, rfl⟩

theorem setObjectIntent_of {c : Ctx α β} (h : Shape c) (B : List β) (n : α) :
    setObjectIntent B n (of c) = outcome (c.setObjectIntent B n) ∧ Shape (c.setObjectIntent B n).1 := by
  refine Sim.done h ?_
  unfold setObjectIntent
  rw [OM.get_bind, show (of c).oidx = indexDict c.objects from rfl, show (of c).aidx = indexDict c.attributes from rfl,
    show (of c).objects = c.objects from rfl, show (of c).attributes = c.attributes from rfl,
    show (of c).np = c.nd from rfl, mapM_dictIdx, dictIdx_eq]
  cases hj : B.mapM (lastIdx c.attributes) with
  | error e => exact Or.inl ⟨e, rfl, rfl⟩
  | ok js =>
    rw [OM.lift_ok, flagsPy_ok _ _ (mapM_lastIdx_lt hj), OM.lift_ok, py_ok_bind]
    cases hi : lastIdx c.objects n with
    | error e => exact Or.inl ⟨e, rfl, rfl⟩
    | ok i =>
      rw [OM.lift_ok, py_ok_bind]
      have hlt : i < c.nd.rows.length := by rw [h.nrows]; exact Ctx.lt_of_getElem? (lastIdx_ok hi)
      have hne : c.nd.rows ≠ [] := by intro e; rw [e] at hlt; simp at hlt
      have h1 : c.nd.setRow i (Ctx.flags c.attributes.length js) =
          .ok ⟨some c.attributes.length, c.nd.rows.set i (Ctx.flags c.attributes.length js)⟩ := by
        unfold Nd.setRow; rw [h.cols hne]
        simp only
        rw [if_pos hlt, if_pos (Ctx.flags_length _ _)]
      have h2 : c.nd.row i = .ok c.nd.rows[i] := by
        unfold Nd.row pyGet; rw [h.cols hne, List.getElem?_eq_getElem hlt]
      rw [h1, h2, OM.lift_ok, OM.modify_bind, py_ok_bind, ← h.cols hne]
      refine Sim.ofNd ?_ ?_ ?_
      · simp [h.nrows]
      · intro r hr
        rcases List.mem_or_eq_of_mem_set hr with hr | rfl
        · exact h.width r hr
        · exact Ctx.flags_length _ _
      · intro _; exact h.cols hne

theorem deleteObject_of {c : Ctx α β} (h : Shape c) (n : α) :
    deleteObject n (of c) = outcome (c.deleteObject n) ∧ Shape (c.deleteObject n).1 := by
  refine Sim.done h ?_
  unfold deleteObject
  rw [OM.get_bind, show (of c).oidx = indexDict c.objects from rfl,
    show (of c).objects = c.objects from rfl, show (of c).attributes = c.attributes from rfl,
    show (of c).np = c.nd from rfl, dictIdx_eq]
  cases hi : lastIdx c.objects n with
  | error e => exact Or.inl ⟨e, rfl, rfl⟩
  | ok i =>
    have hlo := Ctx.lt_of_getElem? (lastIdx_ok hi)
    have hlt : i < c.nd.rows.length := by rw [h.nrows]; exact hlo
    have hne : c.nd.rows ≠ [] := by intro e; rw [e] at hlt; simp at hlt
    have h1 : c.nd.deleteRow i = .ok ⟨c.nd.cols, c.nd.rows.eraseIdx i⟩ := by unfold Nd.deleteRow; rw [if_pos hlt]
    have h2 : c.nd.row i = .ok c.nd.rows[i] := by
      unfold Nd.row pyGet; rw [h.cols hne, List.getElem?_eq_getElem hlt]
    have h3 : listDel c.objects i = .ok (c.objects.eraseIdx i) := by unfold listDel; rw [if_pos hlo]
    rw [OM.lift_ok, py_ok_bind, h1, h2, OM.lift_ok, OM.modify_bind, h3, OM.lift_ok, OM.modify_bind, py_ok_bind]
    refine Sim.make ?_ ?_
    · rw [List.length_eraseIdx, List.length_eraseIdx, if_pos hlt, if_pos hlo, h.nrows]
    · intro r hr; exact h.width r (List.mem_of_mem_eraseIdx hr)

theorem eraseIdx_eq_positions {γ : Type} (l : List γ) (d : γ) {j : ℕ} (hj : j < l.length) :
    ((List.range l.length).filter (· ∉ [j])).map (fun k => l.getD k d) = l.eraseIdx j := by
  have e : l = (List.range l.length).map fun k => l.getD k d := by
    apply List.ext_getElem (by simp)
    intro k h1 h2
    simp [h1]
  have e2 : (List.range l.length).eraseIdx j = (List.range l.length).filter (· ≠ j) :=
    Ctx.eraseIdx_eq_filter List.nodup_range (by simp [hj])
  have e3 : ∀ (f : ℕ → γ) (m : List ℕ), (m.map f).eraseIdx j = (m.eraseIdx j).map f := by
    intro f m
    apply List.ext_getElem?
    intro k
    simp only [List.getElem?_eraseIdx, List.getElem?_map]
    split <;> rfl
  conv_rhs => rw [e, e3, e2]
  congr 1
  apply List.filter_congr
  intro k _
  simp

theorem deleteAttribute_of {c : Ctx α β} (h : Shape c) (n : β) :
    deleteAttribute n (of c) = outcome (c.deleteAttribute n) ∧ Shape (c.deleteAttribute n).1 := by
  refine Sim.done h ?_
  unfold deleteAttribute
  rw [OM.get_bind, show (of c).aidx = indexDict c.attributes from rfl,
    show (of c).objects = c.objects from rfl, show (of c).attributes = c.attributes from rfl,
    show (of c).np = c.nd from rfl, dictIdx_eq]
  cases hj : lastIdx c.attributes n with
  | error e => exact Or.inl ⟨e, rfl, rfl⟩
  | ok j =>
    have hlo := Ctx.lt_of_getElem? (lastIdx_ok hj)
    rw [OM.lift_ok, py_ok_bind]
    cases hc : c.nd.cols with
    | none =>
      have h1 : c.nd.deleteCols [j] = .error .axisError := by unfold Nd.deleteCols; rw [hc]
      have h2 : c.nd.checkCols [j] = .error .axisError := by unfold Nd.checkCols; rw [hc]
      rw [h1, h2]
      exact Or.inl ⟨_, rfl, rfl⟩
    | some m =>
      by_cases hm : ([j].all (· < m)) = true
      · have h2 : c.nd.checkCols [j] = .ok () := by unfold Nd.checkCols; rw [hc]; simp only; rw [if_pos hm]
        have er : (c.nd.rows.map fun r => ((List.range r.length).filter (· ∉ [j])).map fun k => r.getD k false) =
            c.nd.rows.map fun r => r.eraseIdx j := by
          apply List.map_congr_left
          intro r hr
          exact eraseIdx_eq_positions r false (by rw [h.width r hr]; exact hlo)
        have h1 : c.nd.deleteCols [j] = .ok ⟨some ((List.range m).filter (· ∉ [j])).length,
            c.nd.rows.map fun r => r.eraseIdx j⟩ := by
          unfold Nd.deleteCols; rw [hc]; simp only; rw [if_pos hm, er]
        have h3 : listDel c.attributes j = .ok (c.attributes.eraseIdx j) := by unfold listDel; rw [if_pos hlo]
        rw [h1, h2, OM.lift_ok, OM.modify_bind, h3, OM.lift_ok, OM.modify_bind, py_ok_bind]
        refine Sim.make (by simp [h.nrows]) ?_
        intro r hr
        obtain ⟨q, hq, rfl⟩ := List.mem_map.1 hr
        rw [List.length_eraseIdx, List.length_eraseIdx, h.width q hq]
      · have h2 : c.nd.checkCols [j] = .error .indexError := by unfold Nd.checkCols; rw [hc]; simp only; rw [if_neg hm]
        have h1 : c.nd.deleteCols [j] = .error .indexError := by unfold Nd.deleteCols; rw [hc]; simp only; rw [if_neg hm]
        rw [h1, h2]
        exact Or.inl ⟨_, rfl, rfl⟩

theorem renameObject_of {c : Ctx α β} (h : Shape c) (old n : α) :
    renameObject old n (of c) = outcome (c.renameObject old n) ∧ Shape (c.renameObject old n).1 := by
  refine Sim.done h ?_
  unfold renameObject
  rw [OM.get_bind, show (of c).oidx = indexDict c.objects from rfl,
    show (of c).objects = c.objects from rfl, show (of c).attributes = c.attributes from rfl,
    show (of c).np = c.nd from rfl, dictIdx_eq]
  cases hi : lastIdx c.objects old with
  | error e => exact Or.inl ⟨e, rfl, rfl⟩
  | ok i =>
    have h3 : listAssign c.objects i n = .ok (c.objects.set i n) := by
      unfold listAssign; rw [if_pos (Ctx.lt_of_getElem? (lastIdx_ok hi))]
    rw [OM.lift_ok, py_ok_bind, h3, OM.lift_ok, OM.modify_bind]
    exact Sim.ofNd (by simp [h.nrows]) h.width h.cols

theorem renameAttribute_of {c : Ctx α β} (h : Shape c) (old n : β) :
    renameAttribute old n (of c) = outcome (c.renameAttribute old n) ∧ Shape (c.renameAttribute old n).1 := by
  refine Sim.done h ?_
  unfold renameAttribute
  rw [OM.get_bind, show (of c).aidx = indexDict c.attributes from rfl,
    show (of c).objects = c.objects from rfl, show (of c).attributes = c.attributes from rfl,
    show (of c).np = c.nd from rfl, dictIdx_eq]
  cases hi : lastIdx c.attributes old with
  | error e => exact Or.inl ⟨e, rfl, rfl⟩
  | ok i =>
    have h3 : listAssign c.attributes i n = .ok (c.attributes.set i n) := by
      unfold listAssign; rw [if_pos (Ctx.lt_of_getElem? (lastIdx_ok hi))]
    rw [OM.lift_ok, py_ok_bind, h3, OM.lift_ok, OM.modify_bind]
    exact Sim.ofNd h.nrows (by simpa using h.width) (by simpa using h.cols)

/-- The mutators of the two models agree. -/
theorem exec_of {c : Ctx α β} (h : Shape c) (op : TOp α β) :
    exec op (of c) = outcome (c.exec op) ∧ Shape (c.exec op).1 := by
  cases op with
  | addObject row n => exact addObject_of h row n
  | addAttribute col n => exact addAttribute_of h col n
  | addObjectWithIntent B n => exact addObject_of h _ n
  | addAttributeWithExtent A n => exact addAttribute_of h _ n
  | setObjectIntent B n => exact setObjectIntent_of h B n
  | setAttributeExtent A n => exact setAttributeExtent_of h A n
  | deleteObject n => exact deleteObject_of h n
  | deleteAttribute n => exact deleteAttribute_of h n
  | renameObject old n => exact renameObject_of h old n
  | renameAttribute old n => exact renameAttribute_of h old n

/-! ### delete_attributes -/

theorem delNames_of (js : List ℕ) (s : CObj α β) :
    ∃ as, as.Sublist s.attributes ∧
      ((delNames js s = (.ok (), { s with attributes := as }) ∧ Ctx.delAll s.attributes js = .ok as) ∨
       (delNames js s = (.error .indexError, { s with attributes := as }) ∧
          Ctx.delAll s.attributes js = .error .indexError)) := by
  induction js generalizing s with
  | nil => exact ⟨_, List.Sublist.refl _, Or.inl ⟨rfl, rfl⟩⟩
  | cons j js ih =>
    have e : delNames (j :: js) s = ((OM.lift (listDel s.attributes j) : OM (CObj α β) _) >>= fun as => do
      OM.modify fun s => { s with attributes := as }
      delNames js) s := rfl
    by_cases hj : j < s.attributes.length
    · have h3 : listDel s.attributes j = .ok (s.attributes.eraseIdx j) := by unfold listDel; rw [if_pos hj]
      have h4 : Ctx.delAll s.attributes (j :: js) = Ctx.delAll (s.attributes.eraseIdx j) js := by
        rw [Ctx.delAll, if_pos hj]
      rw [e, h3, OM.lift_ok, OM.modify_bind, h4]
      obtain ⟨as, h1, h2⟩ := ih { s with attributes := s.attributes.eraseIdx j }
      exact ⟨as, h1.trans (List.eraseIdx_sublist _ _), h2⟩
    · have h3 : listDel s.attributes j = .error .indexError := by unfold listDel; rw [if_neg hj]
      have h4 : Ctx.delAll s.attributes (j :: js) = .error .indexError := by rw [Ctx.delAll, if_neg hj]
      rw [e, h3]
      exact ⟨s.attributes, List.Sublist.refl _, Or.inr ⟨rfl, h4⟩⟩

theorem delNames_shorter {j : ℕ} {js : List ℕ} {s s' : CObj α β} {r : Py Unit} (hj : j < s.attributes.length)
    (h : delNames (j :: js) s = (r, s')) : s'.attributes.length < s.attributes.length := by
  have h3 : listDel s.attributes j = .ok (s.attributes.eraseIdx j) := by unfold listDel; rw [if_pos hj]
  have e : delNames (j :: js) s = delNames js { s with attributes := s.attributes.eraseIdx j } := by
    show ((OM.lift (listDel s.attributes j) : OM (CObj α β) _) >>= fun as => do
      OM.modify fun s => { s with attributes := as }
      delNames js) s = _
    rw [h3, OM.lift_ok, OM.modify_bind]
  rw [e] at h
  obtain ⟨as, h1, h2⟩ := delNames_of js { s with attributes := s.attributes.eraseIdx j }
  have e2 : s' = { s with attributes := as } := by
    rcases h2 with ⟨h2, -⟩ | ⟨h2, -⟩ <;> rw [h2] at h <;> exact (Prod.mk.inj h).2.symm
  have := h1.length_le
  rw [e2]
  simp only [List.length_eraseIdx, if_pos hj] at this ⊢
  omega

theorem delAll_descending {γ : Type} {l : List γ} {js : List ℕ} (hs : js.Pairwise (· > ·)) (hl : ∀ j ∈ js, j < l.length) :
    ∃ r, Ctx.delAll l js = .ok r := by
  induction js generalizing l with
  | nil => exact ⟨l, rfl⟩
  | cons j js ih =>
    rw [List.pairwise_cons] at hs
    have hj := hl j (by simp)
    rw [Ctx.delAll, if_pos hj]
    refine ih hs.2 fun k hk => ?_
    have := hs.1 k hk
    rw [List.length_eraseIdx, if_pos hj]
    omega

theorem nodup_of_positions {γ : Type} {l xs : List γ} {js : List ℕ} (hn : xs.Nodup)
    (h : List.Forall₂ (fun x i => l[i]? = some x) xs js) : js.Nodup := by
  induction h with
  | nil => exact List.nodup_nil
  | @cons x i xs js h1 h2 ih =>
    rw [List.nodup_cons] at hn ⊢
    refine ⟨fun hi => hn.1 ?_, ih hn.2⟩
    obtain ⟨y, hy, hy'⟩ := forall₂_mem_right h2 i hi
    rw [h1] at hy'
    cases hy'
    exact hy

theorem length_filter_not_mem {n : ℕ} {js : List ℕ} (hn : js.Nodup) (hl : ∀ j ∈ js, j < n) :
    ((List.range n).filter (· ∉ js)).length + js.length = n := by
  have h4 : ((List.range n).filter (· ∉ js)).length + ((List.range n).filter (· ∈ js)).length = n := by
    have := List.length_eq_length_filter_add (l := List.range n) (fun k => decide (k ∈ js))
    simp only [List.length_range, ← decide_not] at this
    omega
  have h5 : ((List.range n).filter (· ∈ js)).Perm js := by
    refine (List.perm_ext_iff_of_nodup (List.nodup_range.filter _) hn).2 fun k => ?_
    rw [List.mem_filter, List.mem_range]
    simp only [decide_eq_true_eq]
    exact ⟨fun h => h.2, fun h => ⟨hl k h, h⟩⟩
  have := h5.length_eq
  omega

/-- Different names: the two models agree. -/
theorem deleteAttributes_of {c : Ctx α β} (h : Shape c) {names : List β} (hn : names.Nodup) :
    deleteAttributes names (of c) = outcome (c.deleteAttributes names) ∧ Shape (c.deleteAttributes names).1 := by
  refine Sim.done h ?_
  unfold deleteAttributes
  rw [OM.get_bind, show (of c).aidx = indexDict c.attributes from rfl, show (of c).np = c.nd from rfl, mapM_dictIdx]
  cases hj : names.mapM (lastIdx c.attributes) with
  | error e => exact Or.inl ⟨e, rfl, rfl⟩
  | ok js =>
    have hlt := mapM_lastIdx_lt hj
    have hjn : js.Nodup := nodup_of_positions hn (Ctx.mapM_lastIdx_inv hj).2
    rw [OM.lift_ok, py_ok_bind]
    cases hc : c.nd.cols with
    | none =>
      have h1 : c.nd.deleteCols js = .error .axisError := by unfold Nd.deleteCols; rw [hc]
      have h2 : c.nd.checkCols js = .error .axisError := by unfold Nd.checkCols; rw [hc]
      rw [h1, h2]
      exact Or.inl ⟨_, rfl, rfl⟩
    | some m =>
      by_cases hm : (js.all (· < m)) = true
      · have h2 : c.nd.checkCols js = .ok () := by unfold Nd.checkCols; rw [hc]; simp only; rw [if_pos hm]
        obtain ⟨rows, hr⟩ : ∃ rows, rows = c.nd.rows.map fun r =>
          ((List.range r.length).filter (· ∉ js)).map fun k => r.getD k false := ⟨_, rfl⟩
        have h1 : c.nd.deleteCols js = .ok ⟨some ((List.range m).filter (· ∉ js)).length, rows⟩ := by
          unfold Nd.deleteCols; rw [hc, hr]; simp only; rw [if_pos hm]
        rw [h1, h2, OM.lift_ok, OM.modify_bind, py_ok_bind]
        have hd : (js.insertionSort (· ≥ ·)).Pairwise (· > ·) := by
          have h5 : (js.insertionSort (· ≥ ·)).Nodup := (List.perm_insertionSort _ js).nodup_iff.2 hjn
          exact ((List.pairwise_insertionSort (· ≥ ·) js).and h5).imp fun ⟨a, b⟩ => lt_of_le_of_ne a (Ne.symm b)
        obtain ⟨as, h3⟩ := delAll_descending (l := c.attributes) hd fun j hj => hlt j ((List.mem_insertionSort _).1 hj)
        obtain ⟨as', -, h4⟩ := delNames_of (js.insertionSort (· ≥ ·))
          { of c with np := ⟨some ((List.range m).filter (· ∉ js)).length, rows⟩ }
        have h3' : Ctx.delAll (of c).attributes (js.insertionSort (· ≥ ·)) = .ok as := h3
        rcases h4 with ⟨h4, h5⟩ | ⟨-, h5⟩
        swap
        · rw [h3'] at h5; cases h5
        rw [h3'] at h5
        cases h5
        rw [OM.bind_apply, h4, ← hr, h3]
        refine Sim.make ?_ ?_
        · rw [hr, List.length_map]; exact h.nrows
        · intro r hrr
          rw [hr] at hrr
          obtain ⟨q, hq, rfl⟩ := List.mem_map.1 hrr
          have h6 := Ctx.delAll_length h3
          rw [List.length_insertionSort] at h6
          have h7 := length_filter_not_mem hjn hlt
          rw [List.length_map, h.width q hq]
          show _ = as.length
          omega
      · have h2 : c.nd.checkCols js = .error .indexError := by unfold Nd.checkCols; rw [hc]; simp only; rw [if_neg hm]
        have h1 : c.nd.deleteCols js = .error .indexError := by unfold Nd.deleteCols; rw [hc]; simp only; rw [if_neg hm]
        rw [h1, h2]
        exact Or.inl ⟨_, rfl, rfl⟩

/-! ### C116 -/

/-- An array whose rows have the length recorded in its shape. -/
def Regular : TableArg → Prop
  | .lists _ => True
  | .array t => ∀ r ∈ t.rows, t.cols = some r.length

/-- A successful constructor call makes the object of a context of the other model. -/
theorem init_reached {t : TableArg} (ht : Regular t) {objs : List α} {atts : List β} {s₀ s : CObj α β}
    (h : init t objs atts s₀ = (.ok (), s)) : ∃ c, Shape c ∧ s = of c := by
  rw [init_eq] at h
  split at h
  · simp at h
  split at h
  · simp at h
  rename_i h1 h2
  have hh : t.rows ≠ [] → (t.rows.headD []).length = atts.length := fun hne => by
    by_contra hcon; exact h2 ⟨hne, hcon⟩
  cases ha : t.toArray with
  | error e => rw [ha] at h; simp at h
  | ok a =>
    rw [ha] at h
    have hs : s = ⟨renameAll objs, renameAll atts, a, a.rows, indexDict (renameAll objs), indexDict (renameAll atts)⟩ :=
      (Prod.mk.inj h).2.symm
    refine ⟨⟨renameAll objs, renameAll atts, a⟩, ?_, hs⟩
    have key : a.rows = t.rows ∧ ∀ r ∈ a.rows, a.cols = some r.length ∧ r.length = atts.length := by
      cases t with
      | array t =>
        cases ha
        refine ⟨rfl, fun r hr => ⟨ht r hr, ?_⟩⟩
        cases hrows : a.rows with
        | nil => rw [hrows] at hr; simp at hr
        | cons q qs =>
          have h3 := ht q (by rw [hrows]; simp)
          have h4 := ht r hr
          rw [h3] at h4
          have h5 : q.length = r.length := by injection h4
          have h6 := hh (by show a.rows ≠ []; rw [hrows]; simp)
          have h7 : (a.rows.headD []).length = atts.length := h6
          rw [hrows] at h7
          rw [← h5]; exact h7
      | lists l =>
        have ha : Nd.ofLists l = .ok a := ha
        cases l with
        | nil => cases ha; exact ⟨rfl, fun r hr => by simp at hr⟩
        | cons q qs =>
          have h7 : q.length = atts.length := hh (by show q :: qs ≠ []; simp)
          by_cases hall : (qs.all fun s => s.length == q.length) = true
          · rw [Nd.ofLists, if_pos hall] at ha
            cases ha
            refine ⟨rfl, fun r hr => ?_⟩
            rcases List.mem_cons.1 hr with rfl | hr
            · exact ⟨rfl, h7⟩
            · have := List.all_eq_true.1 hall r hr
              have h8 : r.length = q.length := by simpa using this
              exact ⟨by rw [h8], by rw [h8]; exact h7⟩
          · rw [Nd.ofLists, if_neg hall] at ha
            cases ha
    refine ⟨?_, fun r hr => ?_, fun hne => ?_⟩
    · show a.rows.length = _
      rw [renameAll_length, key.1]
      exact not_not.1 h1
    · show r.length = (renameAll atts).length
      rw [renameAll_length]
      exact (key.2 r hr).2
    · show a.cols = some (renameAll atts).length
      obtain ⟨r, rs, hr⟩ := List.exists_cons_of_ne_nil hne
      obtain ⟨h3, h4⟩ := key.2 r (by show r ∈ a.rows; rw [show a.rows = r :: rs from hr]; simp)
      rw [h3, h4, renameAll_length]

/-- A call of `delete_attributes` lists different names. -/
def Call.Distinct : Call α β → Prop
  | .op _ => True
  | .deleteAttributes names => names.Nodup

/-- The same call in the other model. -/
def callCtx (c : Ctx α β) : Call α β → Ctx.Mut α β
  | .op o => c.exec o
  | .deleteAttributes names => c.deleteAttributes names

theorem call_of {c : Ctx α β} (h : Shape c) {k : Call α β} (hk : k.Distinct) :
    call k (of c) = outcome (callCtx c k) ∧ Shape (callCtx c k).1 := by
  cases k with
  | op o => exact exec_of h o
  | deleteAttributes names => exact deleteAttributes_of h hk

theorem history_of {c : Ctx α β} (h : Shape c) {ks : List (Call α β)} (hk : ∀ k ∈ ks, k.Distinct) :
    history (of c) ks = of (ks.foldl (fun c k => (callCtx c k).1) c) ∧
      Shape (ks.foldl (fun c k => (callCtx c k).1) c) := by
  induction ks generalizing c with
  | nil => exact ⟨rfl, h⟩
  | cons k ks ih =>
    obtain ⟨h1, h2⟩ := call_of h (hk k (by simp))
    have e : history (of c) (k :: ks) = history (call k (of c)).2 ks := rfl
    rw [e, h1]
    exact ih h2 fun k hk' => hk k (List.mem_cons_of_mem _ hk')

/-- C116: after the constructor and any calls, raising or not, the six attributes of the object fit together, provided no
call of `delete_attributes` lists a name twice. -/
theorem C116_consistent {t : TableArg} (ht : Regular t) {objs : List α} {atts : List β} {s₀ s : CObj α β}
    (h : init t objs atts s₀ = (.ok (), s)) {ks : List (Call α β)} (hk : ∀ k ∈ ks, k.Distinct) :
    (history s ks).Consistent := by
  obtain ⟨c, hc, rfl⟩ := init_reached ht h
  obtain ⟨h1, h2⟩ := history_of hc hk
  rw [h1]
  exact of_consistent h2

/-- C116: a further call that raises leaves every attribute as it was. -/
theorem C116_atomic {t : TableArg} (ht : Regular t) {objs : List α} {atts : List β} {s₀ s : CObj α β}
    (h : init t objs atts s₀ = (.ok (), s)) {ks : List (Call α β)} (hk : ∀ k ∈ ks, k.Distinct)
    {k : Call α β} (hd : k.Distinct) {e : PyErr} {s' : CObj α β} (he : call k (history s ks) = (.error e, s')) :
    s' = history s ks := by
  obtain ⟨c, hc, rfl⟩ := init_reached ht h
  obtain ⟨h1, h2⟩ := history_of hc hk
  rw [h1] at he ⊢
  obtain ⟨c', hc'⟩ : ∃ c', c' = ks.foldl (fun c k => (callCtx c k).1) c := ⟨_, rfl⟩
  rw [← hc'] at he h2 ⊢
  obtain ⟨h3, -⟩ := call_of h2 hd
  rw [h3] at he
  have key : ∀ r : Py (Ctx α β), outcome (c'.reinit r) = (.error e, s') → s' = of c' := by
    intro r hr
    cases r with
    | ok c'' => cases hr
    | error e => exact (Prod.mk.inj hr).2.symm
  cases k with
  | deleteAttributes names => exact key _ he
  | op o => cases o <;> exact key _ he

/-- C116: the readers of the object answer as those of the context in the other model. -/
theorem C116_refines {t : TableArg} (ht : Regular t) {objs : List α} {atts : List β} {s₀ s : CObj α β}
    (h : init t objs atts s₀ = (.ok (), s)) {ks : List (Call α β)} (hk : ∀ k ∈ ks, k.Distinct) :
    ∃ c : Ctx α β, s.objects = c.objects ∧ s.attributes = c.attributes ∧ s.np = c.nd ∧
      (∀ o, (history s ks).objectIntent o = (ks.foldl (fun c k => (callCtx c k).1) c).objectIntent o) ∧
      ∀ a, (history s ks).attributeExtent a = (ks.foldl (fun c k => (callCtx c k).1) c).attributeExtent a := by
  obtain ⟨c, hc, rfl⟩ := init_reached ht h
  obtain ⟨h1, -⟩ := history_of hc hk
  refine ⟨c, rfl, rfl, rfl, fun o => ?_, fun a => ?_⟩ <;> rw [h1]
  · unfold objectIntent Ctx.objectIntent
    rw [show (of (ks.foldl (fun c k => (callCtx c k).1) c)).oidx = indexDict _ from rfl, dictIdx_eq]
    rfl
  · unfold attributeExtent Ctx.attributeExtent
    rw [show (of (ks.foldl (fun c k => (callCtx c k).1) c)).aidx = indexDict _ from rfl, dictIdx_eq]
    rfl

/-- C116 fails for `delete_attributes` with a known name listed twice: it raises, the array has lost the columns, the list
of names has become shorter, and `cross_table` and the dictionaries are those from before the call. -/
theorem C116_repeated_violated {t : TableArg} (ht : Regular t) {objs : List α} {atts : List β} {s₀ s₁ s : CObj α β}
    (h : init t objs atts s₀ = (.ok (), s₁)) {ks : List (Call α β)} (hk : ∀ k ∈ ks, k.Distinct) (hs : s = history s₁ ks)
    (hne : s.objects ≠ []) (hna : s.attributes.Nodup) {names : List β} (hn : ¬ names.Nodup)
    (hmem : ∀ a ∈ names, a ∈ s.attributes) :
    ∃ e s', deleteAttributes names s = (.error e, s') ∧ s'.objects = s.objects ∧
      s'.np.rows = s.np.rows.map (fun r => ((s.attributes.zip r).filter (·.1 ∉ names)).map (·.2)) ∧
      s'.attributes.Sublist s.attributes ∧ s'.attributes.length < s.attributes.length ∧
      s'.cross = s.cross ∧ s'.oidx = s.oidx ∧ s'.aidx = s.aidx ∧ ¬ s'.Consistent := by
  obtain ⟨c, hc, rfl⟩ : ∃ c, Shape c ∧ s = of c := by
    obtain ⟨c, hc, rfl⟩ := init_reached ht h
    obtain ⟨h1, h2⟩ := history_of hc hk
    exact ⟨_, h2, hs.trans h1⟩
  clear hs h
  have hna : c.attributes.Nodup := hna
  have hmem : ∀ a ∈ names, a ∈ c.attributes := hmem
  obtain ⟨js, hj⟩ : ∃ js, js = names.map c.attributes.idxOf := ⟨_, rfl⟩
  have hget : ∀ a ∈ names, c.attributes[c.attributes.idxOf a]? = some a := fun a ha => by
    rw [List.getElem?_eq_getElem (List.idxOf_lt_length_of_mem (hmem a ha)), List.getElem_idxOf]
  have e1 : names.mapM (lastIdx c.attributes) = .ok js := by
    rw [hj]; exact mapM_ok fun a ha => lastIdx_eq hna (hget a ha)
  have hlt := mapM_lastIdx_lt e1
  have hjd : ¬ js.Nodup := by rw [hj]; exact fun h => hn h.of_map
  have hrne : c.nd.rows ≠ [] := by
    intro e
    have h1 := hc.nrows
    rw [e] at h1
    exact hne (List.length_eq_zero_iff.1 h1.symm)
  have hcol := hc.cols hrne
  obtain ⟨t', ht'⟩ : ∃ t' : Nd, t' = ⟨some ((List.range c.attributes.length).filter (· ∉ js)).length, c.nd.rows.map fun r =>
          ((List.range r.length).filter (· ∉ js)).map fun k => r.getD k false⟩ := ⟨_, rfl⟩
  have h1 : c.nd.deleteCols js = .ok t' := by
    unfold Nd.deleteCols
    rw [hcol, ht']
    simp only
    rw [if_pos]
    simpa using hlt
  obtain ⟨j0, ds, hds⟩ : ∃ j0 ds, js.insertionSort (· ≥ ·) = j0 :: ds := by
    apply List.exists_cons_of_ne_nil
    intro e
    have := (List.perm_insertionSort (· ≥ ·) js)
    rw [e] at this
    rw [List.nil_perm.1 this] at hjd
    exact hjd List.nodup_nil
  have hj0 : j0 < c.attributes.length := hlt j0 ((List.mem_insertionSort (· ≥ ·)).1 (by rw [hds]; simp))
  obtain ⟨as, h2, h3⟩ := delNames_of (js.insertionSort (· ≥ ·)) { of c with np := t' }
  have h2 : as.Sublist c.attributes := h2
  have hshort : as.length < c.attributes.length := by
    rcases h3 with ⟨h3, -⟩ | ⟨h3, -⟩ <;> rw [hds] at h3 <;> exact delNames_shorter (s := { of c with np := t' }) hj0 h3
  obtain ⟨s', hs'⟩ : ∃ s' : CObj α β, s' = { of c with np := t', attributes := as } := ⟨_, rfl⟩
  have hrun : deleteAttributes names (of c) = (delNames (js.insertionSort (· ≥ ·)) >>= fun _ => do
      let s ← OM.get
      init (.lists t'.rows) s.objects s.attributes) { of c with np := t' } := by
    unfold deleteAttributes
    rw [OM.get_bind, show (of c).aidx = indexDict c.attributes from rfl, show (of c).np = c.nd from rfl, mapM_dictIdx, e1,
      OM.lift_ok, h1, OM.lift_ok, OM.modify_bind]
  -- every case raises and leaves `s'`
  have hfin : ∃ e, deleteAttributes names (of c) = (.error e, s') := by
    rw [hrun, OM.bind_apply]
    rcases h3 with ⟨h3, h4⟩ | ⟨h3, -⟩
    · rw [h3]
      show ∃ e, init (.lists t'.rows) c.objects as { of c with np := t', attributes := as } = (.error e, s')
      rw [← hs', init_eq]
      refine ⟨.valueError, ?_⟩
      rw [if_neg, if_pos]
      · obtain ⟨r, rs, hr⟩ := List.exists_cons_of_ne_nil hrne
        refine ⟨?_, ?_⟩
        · show t'.rows ≠ []
          rw [ht', hr]; simp
        · show (t'.rows.headD []).length ≠ as.length
          have hwr : r.length = c.attributes.length := hc.width r (by rw [hr]; simp)
          have hh : (t'.rows.headD []).length = ((List.range c.attributes.length).filter (· ∉ js)).length := by
            rw [ht', hr]; simp [hwr]
          rw [hh]
          have hlen := Ctx.delAll_length h4
          rw [List.length_insertionSort] at hlen
          have hlen : as.length + js.length = c.attributes.length := hlen
          have h4 : ((List.range c.attributes.length).filter (· ∉ js)).length +
              ((List.range c.attributes.length).filter (· ∈ js)).length = c.attributes.length := by
            have := List.length_eq_length_filter_add (l := List.range c.attributes.length) (fun k => decide (k ∈ js))
            simp only [List.length_range, ← decide_not] at this
            omega
          have h5 : ((List.range c.attributes.length).filter (· ∈ js)).length < js.length := by
            have hsub : ((List.range c.attributes.length).filter (· ∈ js)).toFinset ⊆ js.toFinset := by
              intro k hk
              rw [List.mem_toFinset, List.mem_filter] at hk
              simpa using hk.2
            have := Finset.card_le_card hsub
            rw [List.toFinset_card_of_nodup (List.nodup_range.filter _)] at this
            have h6 : js.toFinset.card < js.length := by
              refine lt_of_le_of_ne (List.toFinset_card_le js) fun e => hjd ?_
              rw [List.card_toFinset] at e
              exact List.dedup_eq_self.1 ((List.dedup_sublist js).eq_of_length e)
            omega
          omega
      · show ¬ t'.rows.length ≠ c.objects.length
        rw [ht', not_not, List.length_map]
        exact hc.nrows
    · rw [h3, hs']
      exact ⟨_, rfl⟩
  obtain ⟨e, he⟩ := hfin
  refine ⟨e, s', he, by rw [hs'], ?_, by rw [hs']; exact h2, by rw [hs']; exact hshort, by rw [hs'], by rw [hs'],
    by rw [hs'], ?_⟩
  · rw [hs']
    show t'.rows = c.nd.rows.map fun r => ((c.attributes.zip r).filter (·.1 ∉ names)).map (·.2)
    rw [ht']
    apply List.map_congr_left
    intro r hr
    have hwr := hc.width r hr
    have ez : c.attributes.zip r = (List.range r.length).map fun k => ((c.attributes[k]?).getD (names.headD (c.attributes.head (by
        intro e; rw [e] at hj0; simp at hj0))), r.getD k false) := by
      apply List.ext_getElem (by simp [hwr])
      intro k h1 h2
      have hk : k < r.length := by simpa using h2
      simp [hk, hwr ▸ hk]
    rw [ez, List.filter_map, List.map_map]
    have : ((List.range r.length).filter (· ∉ js)) = (List.range r.length).filter
        ((fun p : β × Bool => decide (p.1 ∉ names)) ∘ fun k => ((c.attributes[k]?).getD (names.headD (c.attributes.head (by
        intro e; rw [e] at hj0; simp at hj0))), r.getD k false)) := by
      apply List.filter_congr
      intro k hk
      have hk : k < c.attributes.length := by rw [← hwr]; exact List.mem_range.1 hk
      simp only [Function.comp, List.getElem?_eq_getElem hk, Option.getD_some]
      congr 1
      rw [hj]
      simp only [List.mem_map, not_exists, not_and]
      apply propext
      constructor
      · intro h hm
        exact h _ hm (Ctx.idxOf_of_nodup hna (List.getElem?_eq_getElem hk))
      · rintro h a ha rfl
        apply h
        rw [List.getElem_idxOf]
        exact ha
    rw [this]
    apply List.map_congr_left
    intro k _
    rfl
  · intro hcon
    have hlast : c.attributes[c.attributes.length - 1]? = some (c.attributes[c.attributes.length - 1]'(by omega)) :=
      List.getElem?_eq_getElem _
    have hl := (indexDict_spec c.attributes _ (c.attributes.length - 1)).2 ⟨hlast, fun k hk => by
      have := Ctx.lt_of_getElem? hk
      omega⟩
    have h7 := ((hcon.aidx _ _).1 (by rw [hs']; exact hl)).1
    have h8 := Ctx.lt_of_getElem? h7
    rw [hs'] at h8
    have h8 : c.attributes.length - 1 < as.length := h8
    omega

/-- Two objects, three attributes. -/
def exObj : CObj (List Char) (List Char) :=
  ⟨[['x'], ['y']], [['a'], ['b'], ['c']], ⟨some 3, [[true, false, true], [false, true, false]]⟩,
    [[true, false, true], [false, true, false]], [(['x'], 0), (['y'], 1)], [(['a'], 0), (['b'], 1), (['c'], 2)]⟩

/-- The constructor makes it; a history with calls that raise in between. -/
example : init (.lists [[true, false, true], [false, true, false]]) [['x'], ['y']] [['a'], ['b'], ['c']] exObj = (.ok (), exObj) ∧
    call (.op (.deleteObject ['z'])) exObj = (.error .keyError, exObj) ∧
    call (.op (.addObject [true] ['z'])) exObj = (.error .valueError, exObj) ∧
    call (.deleteAttributes [['a'], ['z']]) exObj = (.error .keyError, exObj) ∧
    history exObj [.op (.addObject [true] ['z']), .deleteAttributes [['b'], ['a']], .op (.deleteObject ['z']),
        .op (.renameObject ['y'] ['w'])] =
      ⟨[['x'], ['w']], [['c']], ⟨some 1, [[true], [false]]⟩, [[true], [false]], [(['x'], 0), (['w'], 1)], [(['c'], 0)]⟩ := by
  decide +kernel

/-- A name listed twice: ValueError; afterwards the object answers `c` instead of
`b` for `y` and raises IndexError for `x`. -/
example : let s' : CObj (List Char) (List Char) := { exObj with np := ⟨some 2, [[false, true], [true, false]]⟩, attributes := [['c']] }
    deleteAttributes [['a'], ['a']] exObj = (.error .valueError, s') ∧
    exObj.objectIntent ['y'] = .ok {['b']} ∧ s'.objectIntent ['y'] = .ok {['c']} ∧
    exObj.objectIntent ['x'] = .ok {['a'], ['c']} ∧ s'.objectIntent ['x'] = .error .indexError := by
  decide +kernel

end CObj
