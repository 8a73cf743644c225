/-
Properties C121-C123: changes of a context through what its getters hand out.
-/
import Verif.Model.ContextAlias
import Verif.Props.ObjState
import Verif.Props.Equality

set_option linter.unusedSectionVars false

open Spec

namespace CObj

variable {α β : Type} [DecidableEq α] [DecidableEq β] [PyName α] [PyName β]

/-! ### Objects that differ in `cross_table` and in some entries of the dictionaries -/

/-- The lists and the array are the same, and the dictionaries are the same for names other than `N` and `NA`. -/
structure Agree (N : α → Prop) (NA : β → Prop) (s t : CObj α β) : Prop where
  objects : s.objects = t.objects
  attributes : s.attributes = t.attributes
  np : s.np = t.np
  oidx : ∀ y, ¬ N y → dictIdx s.oidx y = dictIdx t.oidx y
  aidx : ∀ y, ¬ NA y → dictIdx s.aidx y = dictIdx t.aidx y

/-- The same outcome, and the same object if there is no exception. -/
structure SameOut (N : α → Prop) (NA : β → Prop) (p q : Py Unit × CObj α β) : Prop where
  res : p.1 = q.1
  ok : p.1 = .ok () → p.2 = q.2
  agree : Agree N NA p.2 q.2

variable {N : α → Prop} {NA : β → Prop} {s t : CObj α β}

theorem SameOut.error (h : Agree N NA s t) (e : PyErr) : SameOut N NA (.error e, s) (.error e, t) :=
  ⟨rfl, (fun h => by cases h), h⟩

theorem Agree.withNp (h : Agree N NA s t) (a : Nd) : Agree N NA { s with np := a } { t with np := a } :=
  ⟨h.objects, h.attributes, rfl, h.oidx, h.aidx⟩

theorem Agree.withObjects (h : Agree N NA s t) (os : List α) : Agree N NA { s with objects := os } { t with objects := os } :=
  ⟨rfl, h.attributes, h.np, h.oidx, h.aidx⟩

theorem Agree.withAttributes (h : Agree N NA s t) (as : List β) :
    Agree N NA { s with attributes := as } { t with attributes := as } :=
  ⟨h.objects, rfl, h.np, h.oidx, h.aidx⟩

theorem Agree.init (h : Agree N NA s t) (a : TableArg) (os : List α) (as : List β) :
    SameOut N NA (init a os as s) (init a os as t) := by
  rw [init_eq, init_eq]
  split
  · exact .error h _
  split
  · exact .error h _
  split
  · exact ⟨rfl, fun _ => rfl, ⟨rfl, rfl, rfl, fun _ _ => rfl, fun _ _ => rfl⟩⟩
  · exact .error ((h.withObjects (renameAll os)).withAttributes (renameAll as)) _

/-- The same value obtained from both. -/
theorem Agree.lift {γ : Type} (h : Agree N NA s t) {r : Py γ} {f g : γ → OM (CObj α β) Unit}
    (hf : ∀ x, r = .ok x → SameOut N NA (f x s) (g x t)) :
    SameOut N NA ((OM.lift r >>= f) s) ((OM.lift r >>= g) t) := by
  cases r with
  | error e => exact .error h e
  | ok x => exact hf x rfl

theorem mapM_agree {γ δ : Type} {f g : γ → Py δ} {l : List γ} (h : ∀ x ∈ l, f x = g x) : l.mapM f = l.mapM g := by
  induction l with
  | nil => rfl
  | cons x l ih =>
    rw [List.mapM_cons, List.mapM_cons, h x (by simp), ih fun y hy => h y (by simp [hy])]

/-- Objects a call looks up. -/
def Call.objNames : Call α β → List α
  | .op (.setObjectIntent _ n) => [n]
  | .op (.setAttributeExtent A _) => A
  | .op (.deleteObject n) => [n]
  | .op (.renameObject old _) => [old]
  | _ => []

/-- Attributes a call looks up. -/
def Call.attNames : Call α β → List β
  | .op (.setObjectIntent B _) => B
  | .op (.setAttributeExtent _ n) => [n]
  | .op (.deleteAttribute n) => [n]
  | .op (.renameAttribute old _) => [old]
  | .deleteAttributes names => names
  | _ => []

theorem delNames_agree (js : List ℕ) (h : Agree N NA s t) :
    (delNames js s).1 = (delNames js t).1 ∧ Agree N NA (delNames js s).2 (delNames js t).2 := by
  induction js generalizing s t with
  | nil => exact ⟨rfl, h⟩
  | cons j js ih =>
    unfold delNames
    rw [OM.get_bind, OM.get_bind, h.attributes]
    cases listDel t.attributes j with
    | error e => exact ⟨rfl, h⟩
    | ok as =>
      rw [OM.lift_ok, OM.lift_ok, OM.modify_bind, OM.modify_bind]
      exact ih (h.withAttributes as)

theorem call_agree (h : Agree N NA s t) (k : Call α β) (hO : ∀ y ∈ k.objNames, ¬ N y) (hA : ∀ y ∈ k.attNames, ¬ NA y) :
    SameOut N NA (call k s) (call k t) := by
  cases k with
  | op o =>
    cases o with
    | addObject row n =>
      show SameOut N NA (addObject row n s) (addObject row n t)
      unfold addObject
      rw [OM.get_bind, OM.get_bind, h.np, h.objects, h.attributes]
      exact h.lift fun a _ => h.init _ _ _
    | addAttribute col n =>
      show SameOut N NA (addAttribute col n s) (addAttribute col n t)
      unfold addAttribute
      rw [OM.get_bind, OM.get_bind, h.np, h.objects, h.attributes]
      exact h.lift fun a _ => h.init _ _ _
    | addObjectWithIntent B n =>
      show SameOut N NA (addObject (s.attributes.map fun a => decide (a ∈ B)) n s)
        (addObject (t.attributes.map fun a => decide (a ∈ B)) n t)
      rw [h.attributes]
      unfold addObject
      rw [OM.get_bind, OM.get_bind, h.np, h.objects, h.attributes]
      exact h.lift fun a _ => h.init _ _ _
    | addAttributeWithExtent A n =>
      show SameOut N NA (addAttribute (s.objects.map fun o => decide (o ∈ A)) n s)
        (addAttribute (t.objects.map fun o => decide (o ∈ A)) n t)
      rw [h.objects]
      unfold addAttribute
      rw [OM.get_bind, OM.get_bind, h.np, h.objects, h.attributes]
      exact h.lift fun a _ => h.init _ _ _
    | setObjectIntent B n =>
      show SameOut N NA (setObjectIntent B n s) (setObjectIntent B n t)
      unfold setObjectIntent
      rw [OM.get_bind, OM.get_bind, h.np, h.objects, h.attributes,
        mapM_agree (l := B) fun x hx => h.aidx x (hA x hx), h.oidx n (hO n (by simp [Call.objNames]))]
      exact h.lift fun js _ => h.lift fun row _ => h.lift fun i _ => h.lift fun a _ => (h.withNp a).init _ _ _
    | setAttributeExtent A n =>
      show SameOut N NA (setAttributeExtent A n s) (setAttributeExtent A n t)
      unfold setAttributeExtent
      rw [OM.get_bind, OM.get_bind, h.np, h.objects, h.attributes,
        mapM_agree (l := A) fun x hx => h.oidx x (hO x hx), h.aidx n (hA n (by simp [Call.attNames]))]
      exact h.lift fun js _ => h.lift fun row _ => h.lift fun i _ => h.lift fun a _ => (h.withNp a).init _ _ _
    | deleteObject n =>
      show SameOut N NA (deleteObject n s) (deleteObject n t)
      unfold deleteObject
      rw [OM.get_bind, OM.get_bind, h.np, h.objects, h.attributes, h.oidx n (hO n (by simp [Call.objNames]))]
      exact h.lift fun i _ => h.lift fun a _ => (h.withNp a).lift fun os _ => ((h.withNp a).withObjects os).init _ _ _
    | deleteAttribute n =>
      show SameOut N NA (deleteAttribute n s) (deleteAttribute n t)
      unfold deleteAttribute
      rw [OM.get_bind, OM.get_bind, h.np, h.objects, h.attributes, h.aidx n (hA n (by simp [Call.attNames]))]
      exact h.lift fun i _ => h.lift fun a _ => (h.withNp a).lift fun as _ => ((h.withNp a).withAttributes as).init _ _ _
    | renameObject old n =>
      show SameOut N NA (renameObject old n s) (renameObject old n t)
      unfold renameObject
      rw [OM.get_bind, OM.get_bind, h.np, h.objects, h.attributes, h.oidx old (hO old (by simp [Call.objNames]))]
      exact h.lift fun i _ => h.lift fun os _ => (h.withObjects os).init _ _ _
    | renameAttribute old n =>
      show SameOut N NA (renameAttribute old n s) (renameAttribute old n t)
      unfold renameAttribute
      rw [OM.get_bind, OM.get_bind, h.np, h.objects, h.attributes, h.aidx old (hA old (by simp [Call.attNames]))]
      exact h.lift fun i _ => h.lift fun as _ => (h.withAttributes as).init _ _ _
  | deleteAttributes names =>
    show SameOut N NA (deleteAttributes names s) (deleteAttributes names t)
    unfold deleteAttributes
    rw [OM.get_bind, OM.get_bind, h.np, mapM_agree (l := names) fun x hx => h.aidx x (hA x hx)]
    refine h.lift fun js _ => h.lift fun a _ => ?_
    rw [OM.modify_bind, OM.modify_bind, OM.bind_apply, OM.bind_apply]
    obtain ⟨h1, h2⟩ := delNames_agree (js.insertionSort (· ≥ ·)) (h.withNp a)
    cases hs : delNames (js.insertionSort (· ≥ ·)) { s with np := a } with
    | mk r1 s1 =>
      cases ht : delNames (js.insertionSort (· ≥ ·)) { t with np := a } with
      | mk r2 t1 =>
        rw [hs, ht] at h1 h2
        simp only at h1 h2
        subst h1
        cases r1 with
        | error e => exact .error h2 e
        | ok u =>
          simp only
          rw [OM.get_bind, OM.get_bind, h2.objects, h2.attributes]
          exact h2.init _ _ _

theorem history_agree (h : Agree N NA s t) (ks : List (Call α β)) (hO : ∀ k ∈ ks, ∀ y ∈ k.objNames, ¬ N y)
    (hA : ∀ k ∈ ks, ∀ y ∈ k.attNames, ¬ NA y) : Agree N NA (history s ks) (history t ks) := by
  induction ks generalizing s t with
  | nil => exact h
  | cons k ks ih =>
    exact ih (call_agree h k (hO k (by simp)) (hA k (by simp))).agree (fun k' hk => hO k' (by simp [hk]))
      fun k' hk => hA k' (by simp [hk])

theorem Agree.objectIntent (h : Agree N NA s t) {o : α} (ho : ¬ N o) : s.objectIntent o = t.objectIntent o := by
  unfold CObj.objectIntent; rw [h.oidx o ho, h.np, h.attributes]

theorem Agree.attributeExtent (h : Agree N NA s t) {a : β} (ha : ¬ NA a) : s.attributeExtent a = t.attributeExtent a := by
  unfold CObj.attributeExtent; rw [h.aidx a ha, h.np, h.objects]

/-! ### C121: writing cells -/

/-- The context with another value in one cell. -/
def withCell (c : Ctx α β) (i j : ℕ) (v : Bool) : Ctx α β :=
  ⟨c.objects, c.attributes, ⟨c.nd.cols, c.nd.rows.modify i fun r => r.set j v⟩⟩

theorem withCell_shape {c : Ctx α β} (h : Shape c) (i j : ℕ) (v : Bool) : Shape (withCell c i j v) where
  nrows := by simp [withCell, h.nrows]
  width r hr := by
    obtain ⟨k, hk⟩ := List.mem_iff_getElem?.1 hr
    simp only [withCell, List.getElem?_modify, Option.map_eq_map, Option.map_eq_some_iff] at hk
    obtain ⟨r', hr', rfl⟩ := hk
    have := h.width r' (List.mem_of_getElem? hr')
    simp only [withCell]
    split <;> simp [this]
  cols hne := h.cols (by rintro h0; simp [withCell, h0] at hne)

theorem setCell_of {c : Ctx α β} (h : Shape c) {i j : ℕ} (v : Bool) (hi : i < c.objects.length)
    (hj : j < c.attributes.length) :
    setCell i j v (of c) = (.ok (), { of c with np := (withCell c i j v).nd }) := by
  have hne : c.nd.rows ≠ [] := by
    rintro h0
    have := h.nrows
    rw [h0] at this
    simp at this
    omega
  have hc := h.cols hne
  unfold setCell
  rw [OM.get_bind]
  have : (of c).np.setCell i j v = .ok (withCell c i j v).nd := by
    show Nd.setCell c.nd i j v = _
    unfold Nd.setCell
    rw [hc]
    simp only
    rw [if_pos ⟨by rw [h.nrows]; exact hi, hj⟩]
    simp [withCell, hc]
  rw [this, OM.lift_ok]
  rfl

theorem setCell_agree (c : Ctx α β) (i j : ℕ) (v : Bool) :
    Agree (fun _ => False) (fun _ => False) ({ of c with np := (withCell c i j v).nd } : CObj α β) (of (withCell c i j v)) :=
  ⟨rfl, rfl, rfl, fun _ _ => rfl, fun _ _ => rfl⟩

/-- C121: `c[i][j] = v` raises nothing for positions inside of the table. Afterwards intents and extents are those of the
context with `v` in this cell and the other cells as before; all later calls of mutators, in any order, return and raise
as for that context, and after one that returns the two are the same object. -/
theorem C121_cells {c : Ctx α β} (h : Shape c) {i j : ℕ} (v : Bool) (hi : i < c.objects.length)
    (hj : j < c.attributes.length) :
    ∃ (s' : CObj α β) (c' : Ctx α β), setCell i j v (of c) = (.ok (), s') ∧
      c'.objects = c.objects ∧ c'.attributes = c.attributes ∧ Shape c' ∧
      (∀ i' j', c'.nd.cell i' j' = if i' = i ∧ j' = j then .ok v else c.nd.cell i' j') ∧
      s'.view = c' ∧ (∀ o, s'.objectIntent o = c'.objectIntent o) ∧ (∀ a, s'.attributeExtent a = c'.attributeExtent a) ∧
      ∀ (ks : List (Call α β)) (k : Call α β),
        (call k (history s' ks)).1 = (call k (history (of c') ks)).1 ∧
        ((call k (history s' ks)).1 = .ok () → (call k (history s' ks)).2 = (call k (history (of c') ks)).2) := by
  have hag := setCell_agree c i j v
  refine ⟨_, withCell c i j v, setCell_of h v hi hj, rfl, rfl, withCell_shape h i j v, ?_, rfl, ?_, ?_, ?_⟩
  · intro i' j'
    have hlen : i < c.nd.rows.length := by rw [h.nrows]; exact hi
    simp only [withCell, Nd.cell, pyGet, List.getElem?_modify]
    by_cases h1 : i = i'
    · subst h1
      obtain ⟨r, hr⟩ : ∃ r, c.nd.rows[i]? = some r := ⟨_, List.getElem?_eq_getElem hlen⟩
      have hrl := h.width r (List.mem_of_getElem? hr)
      simp only [hr, if_true, true_and, Option.map_eq_map, Option.map_some, py_ok_bind, List.getElem?_set]
      by_cases h2 : j = j'
      · subst h2
        rw [if_pos rfl, if_pos (by omega), if_pos rfl]
      · rw [if_neg h2, if_neg (fun h => h2 h.symm)]
    · rw [if_neg (show ¬ (i' = i ∧ j' = j) from fun h => h1 h.1.symm)]
      simp [h1]
  · intro o
    rw [hag.objectIntent (o := o) (by simp)]
    unfold CObj.objectIntent Ctx.objectIntent
    rw [show (of (withCell c i j v)).oidx = indexDict _ from rfl, dictIdx_eq]
    rfl
  · intro a
    rw [hag.attributeExtent (a := a) (by simp)]
    unfold CObj.attributeExtent Ctx.attributeExtent
    rw [show (of (withCell c i j v)).aidx = indexDict _ from rfl, dictIdx_eq]
    rfl
  · intro ks k
    have := call_agree (history_agree hag ks (by simp) (by simp)) k (by simp) (by simp)
    exact ⟨this.res, this.ok⟩

/-- The comparison of objects whose attributes fit together is that of the other model (C42). -/
theorem eq_of (strO : α → List Char) (strA : β → List Char) (c d : Ctx α β) :
    CObj.eq strO strA (of c) (of d) = Ctx.eq strO strA c d := rfl

/-- C121: comparisons after `c[i][j] = v` are answered for the table before the change, unless the texts are equal. -/
theorem C121_stale_eq {c d : Ctx α β} (hc : c.WFw) (hd : d.WFw) {i j : ℕ} {v : Bool} (hi : i < c.objects.length)
    (hj : j < c.attributes.length) (strO : α → List Char) (strA : β → List Char) {s' : CObj α β}
    (hs : setCell i j v (of c) = (.ok (), s')) (h1 : s'.view.repr strO strA ≠ d.repr strO strA)
    (h2 : c.repr strO strA ≠ d.repr strO strA) :
    CObj.eq strO strA s' (of d) = Ctx.eq strO strA c d := by
  have hsh : Shape c := ⟨hc.nrows, hc.width, hc.shape⟩
  rw [setCell_of hsh v hi hj] at hs
  obtain rfl := (Prod.mk.inj hs).2
  have hw : (withCell c i j v).WFw := by
    have := withCell_shape hsh i j v
    exact ⟨hc.onodup, hc.anodup, this.nrows, this.width, this.cols⟩
  have hv : ({ of c with np := (withCell c i j v).nd } : CObj α β).view = withCell c i j v := rfl
  rw [hv] at h1
  unfold CObj.eq Ctx.eq
  rw [hv, show (of d).view = d from rfl]
  rw [hw.repr, hd.repr] at h1
  rw [hc.repr, hd.repr] at h2
  rw [hw.repr, hc.repr, hd.repr]
  simp only [py_ok_bind]
  rw [if_neg fun e => h1 (congrArg Except.ok e), if_neg fun e => h2 (congrArg Except.ok e)]
  rfl

/-- C121, violated: after a cell has been written, `c == d` and `d == c` can differ, and `c == d` can be True for tables
that differ. -/
theorem C121_eq_violated :
    ∃ (c d : Ctx (List Char) (List Char)) (s' : CObj (List Char) (List Char)), c.WFw ∧ d.WFw ∧
      setCell 0 0 true (of c) = (.ok (), s') ∧ s'.objectIntent ['x'] = .ok {['a']} ∧ d.objectIntent ['x'] = .ok ∅ ∧
      CObj.eq id id s' (of d) = .ok true ∧ CObj.eq id id (of d) s' = .ok false := by
  refine ⟨⟨[['x'], ['y']], [['a']], ⟨some 1, [[false], [true]]⟩⟩, ⟨[['y'], ['x']], [['a']], ⟨some 1, [[true], [false]]⟩⟩,
    { of ⟨[['x'], ['y']], [['a']], ⟨some 1, [[false], [true]]⟩⟩ with np := ⟨some 1, [[true], [true]]⟩ },
    by constructor <;> decide +kernel, by constructor <;> decide +kernel, ?_⟩
  decide +kernel

/-- A cell of a context with two objects and three attributes; then a mutator. -/
example : ∃ s', setCell 1 2 true exObj = (.ok (), s') ∧ s'.objectIntent ['y'] = .ok {['b'], ['c']} ∧
    s'.attributeExtent ['c'] = .ok {['x'], ['y']} ∧ s'.cross = exObj.cross ∧
    (call (.op (.deleteObject ['x'])) s') =
      (.ok (), of ⟨[['y']], [['a'], ['b'], ['c']], ⟨some 3, [[false, true, true]]⟩⟩) ∧
    setCell 2 0 true exObj = (.error .indexError, exObj) :=
  ⟨{ exObj with np := ⟨some 3, [[true, false, true], [false, true, true]]⟩ }, by decide +kernel⟩

/-! ### C122: changing the list of names -/

/-- The context with another name in one position. -/
def withName (c : Ctx α β) (i : ℕ) (x : α) : Ctx α β := ⟨c.objects.set i x, c.attributes, c.nd⟩

theorem putObject_of {c : Ctx α β} {i : ℕ} (x : α) (hi : i < c.objects.length) :
    putObject i x (of c) = (.ok (), { of c with objects := c.objects.set i x }) := by
  unfold putObject
  rw [OM.get_bind, show listAssign (of c).objects i x = .ok (c.objects.set i x) from if_pos hi, OM.lift_ok]
  rfl

theorem lastIdx_set {l : List α} (hn : l.Nodup) {i : ℕ} {old x y : α} (hi : l[i]? = some old) (hx : x ∉ l) (h1 : y ≠ old)
    (h2 : y ≠ x) : lastIdx (l.set i x) y = lastIdx l y := by
  by_cases hy : y ∈ l
  · obtain ⟨k, hk⟩ := List.mem_iff_getElem?.1 hy
    rw [lastIdx_eq hn hk]
    refine lastIdx_eq (List.Nodup.set hn hx) ?_
    rw [List.getElem?_set]
    rw [if_neg]
    · exact hk
    · rintro rfl
      rw [hk] at hi
      exact h1 (Option.some.inj hi)
  · rw [lastIdx_not_mem hy, lastIdx_not_mem]
    intro h
    rcases List.mem_or_eq_of_mem_set h with h | h
    · exact hy h
    · exact h2 h

theorem putObject_agree {c : Ctx α β} (hn : c.objects.Nodup) {i : ℕ} {old x : α} (hi : c.objects[i]? = some old)
    (hx : x ∉ c.objects) :
    Agree (fun y => y = old ∨ y = x) (fun _ => False) ({ of c with objects := c.objects.set i x } : CObj α β)
      (of (withName c i x)) := by
  refine ⟨rfl, rfl, rfl, fun y hy => ?_, fun _ _ => rfl⟩
  show dictIdx (indexDict c.objects) y = dictIdx (indexDict (c.objects.set i x)) y
  rw [dictIdx_eq, dictIdx_eq, lastIdx_set hn hi hx (fun h => hy (Or.inl h)) fun h => hy (Or.inr h)]

theorem objectIntent_of (c : Ctx α β) (o : α) : (of c).objectIntent o = c.objectIntent o := by
  unfold CObj.objectIntent Ctx.objectIntent
  rw [show (of c).oidx = indexDict _ from rfl, dictIdx_eq]
  rfl

theorem attributeExtent_of (c : Ctx α β) (a : β) : (of c).attributeExtent a = c.attributeExtent a := by
  unfold CObj.attributeExtent Ctx.attributeExtent
  rw [show (of c).aidx = indexDict _ from rfl, dictIdx_eq]
  rfl

/-- C122: after `c.objects[i] = x` with a new name the extents have the new name, but `get_object_intent(x)` raises
KeyError and the old name still gets the old answer. The intents of the other objects are as before. Calls of mutators
that do not look up one of the two names go on as for the renamed context, and the first one that returns makes the object
equal to it. -/
theorem C122_names_partial {c : Ctx α β} (hn : c.objects.Nodup) {i : ℕ} {old x : α} (hi : c.objects[i]? = some old)
    (hx : x ∉ c.objects) :
    ∃ (s' : CObj α β) (c' : Ctx α β), putObject i x (of c) = (.ok (), s') ∧
      c'.objects = c.objects.set i x ∧ c'.attributes = c.attributes ∧ c'.nd = c.nd ∧ s'.view = c' ∧
      (∀ a, s'.attributeExtent a = c'.attributeExtent a) ∧
      s'.objectIntent x = .error .keyError ∧ (∀ o, s'.objectIntent o = c.objectIntent o) ∧
      ∀ (ks : List (Call α β)) (k : Call α β),
        (∀ k' ∈ k :: ks, old ∉ k'.objNames ∧ x ∉ k'.objNames) →
        (call k (history s' ks)).1 = (call k (history (of c') ks)).1 ∧
        ((call k (history s' ks)).1 = .ok () → (call k (history s' ks)).2 = (call k (history (of c') ks)).2) := by
  have hlt : i < c.objects.length := Ctx.lt_of_getElem? hi
  have hag := putObject_agree hn hi hx
  have hint : ∀ o, ({ of c with objects := c.objects.set i x } : CObj α β).objectIntent o = c.objectIntent o := by
    intro o
    rw [← objectIntent_of]
    rfl
  refine ⟨_, withName c i x, putObject_of x hlt, rfl, rfl, rfl, rfl, ?_, ?_, hint, ?_⟩
  · intro a
    rw [hag.attributeExtent (a := a) (by simp), attributeExtent_of]
  · rw [hint]
    unfold Ctx.objectIntent
    rw [lastIdx_not_mem hx]
    rfl
  · intro ks k hk
    have hO : ∀ k' ∈ k :: ks, ∀ y ∈ k'.objNames, ¬ (y = old ∨ y = x) := by
      rintro k' hk' y hy (rfl | rfl)
      · exact (hk k' hk').1 hy
      · exact (hk k' hk').2 hy
    have := call_agree (history_agree hag ks (fun k' h => hO k' (by simp [h])) (by simp)) k (hO k (by simp)) (by simp)
    exact ⟨this.res, this.ok⟩

/-- C122, violated for every new name: it is listed, and its intent is a KeyError. -/
theorem C122_names_violated {c : Ctx α β} (hn : c.objects.Nodup) {i : ℕ} {x : α} (hi : i < c.objects.length)
    (hx : x ∉ c.objects) :
    ∃ s', putObject i x (of c) = (.ok (), s') ∧ x ∈ s'.objects ∧ s'.objectIntent x = .error .keyError := by
  obtain ⟨s', c', h1, h2, -, -, h3, -, h4, -⟩ := C122_names_partial hn (List.getElem?_eq_getElem hi) hx
  refine ⟨s', h1, ?_, h4⟩
  have : s'.objects = c'.objects := by rw [← h3]; rfl
  rw [this, h2]
  exact List.mem_set hi x

/-- `c.objects[0] = 'w'`: the extent of `a` has the new name, its intent is a KeyError; `add_object` repairs it. -/
example : ∃ s', putObject 0 ['w'] exObj = (.ok (), s') ∧ s'.attributeExtent ['a'] = .ok {['w']} ∧
    s'.objectIntent ['w'] = .error .keyError ∧ s'.objectIntent ['x'] = .ok {['a'], ['c']} ∧
    (call (.op (.addObject [true, true, true] ['z'])) s').2.objectIntent ['w'] = .ok {['a'], ['c']} ∧
    (call (.op (.addObject [true, true, true] ['z'])) s').2.objectIntent ['x'] = .error .keyError :=
  ⟨{ exObj with objects := [['w'], ['y']] }, by decide +kernel⟩

/-- More names than rows, by one. -/
structure Surplus (s : CObj α β) : Prop where
  rows : s.np.rows.length + 1 = s.objects.length
  cols : s.np.cols = none → s.np.rows = []

/-- An exception, and still a name more than rows. -/
def Stuck (p : Py Unit × CObj α β) : Prop := (∃ e, p.1 = .error e) ∧ Surplus p.2

theorem Stuck.error (h : Surplus s) (e : PyErr) : Stuck (.error e, s) := ⟨⟨e, rfl⟩, h⟩

theorem Stuck.lift {γ : Type} (h : Surplus s) {r : Py γ} {f : γ → OM (CObj α β) Unit} (hf : ∀ x, r = .ok x → Stuck (f x s)) :
    Stuck ((OM.lift r >>= f) s) := by
  cases r with
  | error e => exact .error h e
  | ok x => exact hf x rfl

theorem Stuck.init (h : Surplus s) {a : TableArg} {os : List α} (as : List β) (hl : a.rows.length + 1 = os.length) :
    Stuck (init a os as s) := by
  rw [init_eq, if_pos (by omega)]
  exact .error h _

theorem Surplus.withNp (h : Surplus s) {a : Nd} (h1 : a.rows.length = s.np.rows.length) (h2 : a.cols = none → a.rows = []) :
    Surplus { s with np := a } := ⟨by rw [← h.rows]; exact congrArg (· + 1) h1, h2⟩

theorem Surplus.delNames (h : Surplus s) (js : List ℕ) : Surplus (delNames js s).2 ∧ (CObj.delNames js s).2.objects = s.objects ∧
    (CObj.delNames js s).2.np = s.np := by
  induction js generalizing s with
  | nil => exact ⟨h, rfl, rfl⟩
  | cons j js ih =>
    unfold CObj.delNames
    rw [OM.get_bind]
    cases listDel s.attributes j with
    | error e => exact ⟨h, rfl, rfl⟩
    | ok as =>
      rw [OM.lift_ok, OM.modify_bind]
      exact ih (s := { s with attributes := as }) ⟨h.rows, h.cols⟩

theorem setCol_facts {t a : Nd} {j : ℕ} {col : List Bool} (h : t.setCol j col = .ok a) :
    a.rows.length = t.rows.length ∧ (a.cols = none → a.rows = []) := by
  unfold Nd.setCol at h
  split at h
  · cases h
  · split at h
    · split at h
      · rename_i hl
        cases h
        exact ⟨by simp [hl], by simp⟩
      · cases h
    · cases h

theorem setRow_facts {t a : Nd} {j : ℕ} {row : List Bool} (h : t.setRow j row = .ok a) :
    a.rows.length = t.rows.length ∧ (a.cols = none → a.rows = []) := by
  unfold Nd.setRow at h
  split at h
  · cases h
  · split at h
    · split at h
      · cases h
        exact ⟨by simp, by simp⟩
      · cases h
    · cases h

theorem deleteCols_facts {t a : Nd} {js : List ℕ} (h : t.deleteCols js = .ok a) :
    a.rows.length = t.rows.length ∧ (a.cols = none → a.rows = []) := by
  unfold Nd.deleteCols at h
  split at h
  · cases h
  · split at h
    · cases h
      exact ⟨by simp, by simp⟩
    · cases h

theorem deleteRow_facts {t a : Nd} {i : ℕ} (h : t.deleteRow i = .ok a) :
    i < t.rows.length ∧ a.rows.length + 1 = t.rows.length ∧ a.cols = t.cols := by
  unfold Nd.deleteRow at h
  split at h
  · rename_i hl
    cases h
    refine ⟨hl, ?_, rfl⟩
    simp only [List.length_eraseIdx, if_pos hl]
    omega
  · cases h

theorem appendCol_length (h : Surplus s) {a : Nd} {col : List Bool} (ha : s.np.appendCol col = .ok a) :
    a.rows.length = s.np.rows.length := by
  unfold Nd.appendCol at ha
  split at ha
  · rename_i hc
    split at ha
    · cases ha
      rw [h.cols hc]
    · cases ha
  · split at ha
    · rename_i hl
      cases ha
      simp [hl]
    · cases ha

theorem stackRow_length {t a : Nd} {row : List Bool} (ha : t.stackRow row = .ok a) :
    a.rows.length = t.rows.length + 1 := by
  unfold Nd.stackRow at ha
  split at ha
  · unfold Nd.appendRow at ha
    split at ha
    · cases ha
    · split at ha
      · cases ha
        simp
      · cases ha
  · rename_i h0
    have h0 : t.rows = [] := by simpa using h0
    have := Ctx.ofLists_cols [row] row.length (by simp)
    rw [this] at ha
    cases ha
    simp [h0]

theorem call_stuck (h : Surplus s) (k : Call α β) : Stuck (call k s) := by
  have hadd : ∀ row n, Stuck (addObject row n s) := by
    intro row n
    unfold addObject
    rw [OM.get_bind]
    refine .lift h fun a ha => .init h _ ?_
    have := h.rows
    show a.rows.length + 1 = _
    rw [stackRow_length ha, List.length_append, List.length_singleton]
    omega
  have hcol : ∀ col n, Stuck (addAttribute col n s) := by
    intro col n
    unfold addAttribute
    rw [OM.get_bind]
    refine .lift h fun a ha => .init h _ ?_
    show a.rows.length + 1 = _
    rw [appendCol_length h ha, h.rows]
  cases k with
  | op o =>
    cases o with
    | addObject row n => exact hadd row n
    | addAttribute col n => exact hcol col n
    | addObjectWithIntent B n => exact hadd _ n
    | addAttributeWithExtent A n => exact hcol _ n
    | setObjectIntent B n =>
      show Stuck (setObjectIntent B n s)
      unfold setObjectIntent
      rw [OM.get_bind]
      refine .lift h fun js _ => .lift h fun row _ => .lift h fun i _ => .lift h fun a ha => ?_
      have := setRow_facts ha
      exact .init (h.withNp this.1 this.2) _ (show a.rows.length + 1 = _ by rw [this.1, h.rows])
    | setAttributeExtent A n =>
      show Stuck (setAttributeExtent A n s)
      unfold setAttributeExtent
      rw [OM.get_bind]
      refine .lift h fun js _ => .lift h fun row _ => .lift h fun i _ => .lift h fun a ha => ?_
      have := setCol_facts ha
      exact .init (h.withNp this.1 this.2) _ (show a.rows.length + 1 = _ by rw [this.1, h.rows])
    | deleteObject n =>
      show Stuck (deleteObject n s)
      unfold deleteObject
      rw [OM.get_bind]
      refine .lift h fun i _ => .lift h fun a ha => ?_
      obtain ⟨h1, h2, h3⟩ := deleteRow_facts ha
      have h4 := h.rows
      have h5 : listDel s.objects i = .ok (s.objects.eraseIdx i) := if_pos (by omega)
      rw [OM.modify_bind, h5, OM.lift_ok, OM.modify_bind]
      have h6 : a.rows.length + 1 = (s.objects.eraseIdx i).length := by
        rw [List.length_eraseIdx, if_pos (by omega)]
        omega
      refine .init ⟨h6, fun hc => ?_⟩ _ h6
      have := h.cols (h3 ▸ hc)
      rw [this] at h1
      simp at h1
    | deleteAttribute n =>
      show Stuck (deleteAttribute n s)
      unfold deleteAttribute
      rw [OM.get_bind]
      refine .lift h fun i _ => .lift h fun a ha => ?_
      have := deleteCols_facts ha
      have h1 := h.withNp this.1 this.2
      exact .lift h1 fun as _ => Stuck.init (s := { s with np := a, attributes := as }) ⟨h1.rows, h1.cols⟩ _
        (a := .lists a.rows) h1.rows
    | renameObject old n =>
      show Stuck (renameObject old n s)
      unfold renameObject
      rw [OM.get_bind]
      refine .lift h fun i _ => .lift h fun os ho => ?_
      have hl : os.length = s.objects.length := by
        unfold listAssign at ho
        split at ho
        · cases ho
          simp
        · cases ho
      have h1 : s.np.rows.length + 1 = os.length := by rw [hl, h.rows]
      exact Stuck.init (s := { s with objects := os }) ⟨h1, h.cols⟩ _ (a := .array s.np) h1
    | renameAttribute old n =>
      show Stuck (renameAttribute old n s)
      unfold renameAttribute
      rw [OM.get_bind]
      exact .lift h fun i _ => .lift h fun as _ =>
        Stuck.init (s := { s with attributes := as }) ⟨h.rows, h.cols⟩ _ (a := .array s.np) h.rows
  | deleteAttributes names =>
    show Stuck (deleteAttributes names s)
    unfold deleteAttributes
    rw [OM.get_bind]
    refine .lift h fun js _ => .lift h fun a ha => ?_
    have hf := deleteCols_facts ha
    have h1 := h.withNp hf.1 hf.2
    rw [OM.modify_bind, OM.bind_apply]
    obtain ⟨h2, h3, h4⟩ := h1.delNames (js.insertionSort (· ≥ ·))
    cases hs : delNames (js.insertionSort (· ≥ ·)) { s with np := a } with
    | mk r1 s1 =>
      rw [hs] at h2 h3 h4
      simp only at h2 h3 h4
      cases r1 with
      | error e => exact .error h2 e
      | ok u =>
        simp only
        rw [OM.get_bind]
        refine .init h2 _ ?_
        show a.rows.length + 1 = _
        rw [h3, hf.1, h.rows]

/-- C122: after `c.objects.append(x)` every mutator raises, in every order and however often they are called. -/
theorem C122_append_violated {c : Ctx α β} (h : Shape c) (x : α) (ks : List (Call α β)) (k : Call α β) :
    ∃ s', appendObject x (of c) = (.ok (), s') ∧ ∃ e, (call k (history s' ks)).1 = .error e := by
  refine ⟨_, rfl, ?_⟩
  have h0 : Surplus ({ of c with objects := c.objects ++ [x] } : CObj α β) := by
    refine ⟨by simp [of, h.nrows], fun hc => ?_⟩
    by_contra hne
    have := h.cols hne
    rw [show c.nd.cols = none from hc] at this
    cases this
  have h1 : ∀ (ks : List (Call α β)) (s : CObj α β), Surplus s → Surplus (history s ks) := by
    intro ks
    induction ks with
    | nil => exact fun s hs => hs
    | cons k ks ih => exact fun s hs => ih _ (call_stuck hs k).2
  exact (call_stuck (h1 ks _ h0) k).1

/-- C122: what `delete_object` raises after `c.objects.append(x)`: ValueError the first time, and the row is gone from
`np_table` all the same; after it, IndexError for the last one of the objects the context had. -/
theorem C122_append_delete_violated {c : Ctx α β} (h : c.WFw) (x : α) {l : List α} {o y : α} (ho : o ∈ c.objects)
    (hy : c.objects = l ++ [y]) :
    ∃ s' s'' i, appendObject x (of c) = (.ok (), s') ∧ deleteObject o s' = (.error .valueError, s'') ∧
      c.objects[i]? = some o ∧ s''.np.rows = c.nd.rows.eraseIdx i ∧ s''.objects = c.objects.eraseIdx i ++ [x] ∧
      deleteObject y s'' = (.error .indexError, s'') := by
  obtain ⟨i, hi⟩ := lastIdx_mem ho
  have hio := lastIdx_ok hi
  have hil : i < c.objects.length := Ctx.lt_of_getElem? hio
  have hrow : i < c.nd.rows.length := by rw [h.nrows]; exact hil
  have hdel : c.nd.deleteRow i = .ok ⟨c.nd.cols, c.nd.rows.eraseIdx i⟩ := if_pos hrow
  have hld : listDel (c.objects ++ [x]) i = .ok (c.objects.eraseIdx i ++ [x]) := by
    unfold listDel
    rw [if_pos (by rw [List.length_append]; omega), List.eraseIdx_append_of_lt_length hil]
  have hlen : (c.nd.rows.eraseIdx i).length ≠ (c.objects.eraseIdx i ++ [x]).length := by
    rw [List.length_append, List.length_eraseIdx, List.length_eraseIdx, if_pos hrow, if_pos hil, h.nrows]
    simp
  refine ⟨_, { of c with objects := c.objects.eraseIdx i ++ [x], np := ⟨c.nd.cols, c.nd.rows.eraseIdx i⟩ }, i, rfl, ?_, hio,
    rfl, rfl, ?_⟩
  · unfold deleteObject
    rw [OM.get_bind]
    simp only [of, dictIdx_eq, hi, OM.lift_ok, hdel, OM.modify_bind, hld]
    unfold init
    rw [if_pos (show (TableArg.lists (c.nd.rows.eraseIdx i)).rows.length ≠ _ from hlen)]
    rfl
  · have hyi : lastIdx c.objects y = .ok l.length := lastIdx_eq h.onodup (by rw [hy]; simp)
    have hbad : Nd.deleteRow ⟨c.nd.cols, c.nd.rows.eraseIdx i⟩ l.length = .error .indexError := by
      refine if_neg ?_
      dsimp only
      rw [List.length_eraseIdx, if_pos hrow, h.nrows, hy]
      simp
    unfold deleteObject
    rw [OM.get_bind]
    simp only [of, dictIdx_eq, hyi, OM.lift_ok, hbad]
    rfl

/-- The hypotheses of `C122_append_delete_violated` are met by a context with two objects. -/
example : ∃ s' s'', appendObject ['w'] exObj = (.ok (), s') ∧ deleteObject ['x'] s' = (.error .valueError, s'') ∧
    deleteObject ['y'] s'' = (.error .indexError, s'') :=
  ⟨{ exObj with objects := [['x'], ['y'], ['w']] },
    { exObj with objects := [['y'], ['w']], np := ⟨some 3, [[false, true, false]]⟩ }, by decide +kernel⟩

/-- Three calls after `c.objects.append('w')`. -/
example : ∃ s', appendObject ['w'] exObj = (.ok (), s') ∧
    (call (.op (.addObject [true, true, true] ['z'])) s').1 = .error .valueError ∧
    (call (.op (.deleteObject ['w'])) s').1 = .error .keyError ∧
    (call (.op (.deleteObject ['x'])) s') =
      (.error .valueError, { exObj with objects := [['y'], ['w']], np := ⟨some 3, [[false, true, false]]⟩ }) :=
  ⟨{ exObj with objects := [['x'], ['y'], ['w']] }, by decide +kernel⟩

/-! ### C123: deleting in a loop -/

theorem shape_of_wfw {c : Ctx α β} (h : c.WFw) : Shape c := ⟨h.nrows, h.width, h.shape⟩

theorem delete_step {c : Ctx α β} {t : Table α β} (h : Ctx.Stores c t) {o : α} (ho : o ∈ t.objs) :
    ∃ c' i, deleteObject o (of c) = (.ok (), of c') ∧ Ctx.Stores c' ⟨t.objs.filter (· ≠ o), t.atts, t.rel⟩ ∧
      dictIdx (of c).oidx o = .ok i ∧ c.objects[i]? = some o := by
  obtain ⟨c', h1⟩ := h.returns (List.ne_nil_of_mem ho) (op := .deleteObject o) ho
  have h1' : c.deleteObject o = (c', none) := h1
  have hs := (deleteObject_of (shape_of_wfw h.wf) o).1
  rw [h1'] at hs
  have ho' : o ∈ c.objects := by rw [h.objs]; exact ho
  obtain ⟨i, hi⟩ := lastIdx_mem ho'
  refine ⟨c', i, hs, h.deleteObject h1', ?_, lastIdx_ok hi⟩
  rw [show (of c).oidx = indexDict c.objects from rfl, dictIdx_eq, hi]

theorem loop_copy (p : α → Bool) (fuel : ℕ) : ∀ (pos : ℕ) (held : List α) (c : Ctx α β) (t : Table α β), Ctx.Stores c t →
    held.length ≤ pos + fuel → (∀ y ∈ held.drop pos, y ∈ t.objs) → (held.drop pos).Nodup →
    ∃ c', deleteLoop p fuel pos held false (of c) = (.ok (), of c') ∧
      Ctx.Stores c' ⟨t.objs.filter fun y => !(p y && decide (y ∈ held.drop pos)), t.atts, t.rel⟩ := by
  induction fuel with
  | zero =>
    intro pos held c t h hl _ _
    refine ⟨c, rfl, ?_⟩
    rw [List.drop_eq_nil_of_le (by omega)]
    simpa using h
  | succ fuel ih =>
    intro pos held c t h hl hm hn
    unfold deleteLoop
    cases hg : held[pos]? with
    | none =>
      refine ⟨c, rfl, ?_⟩
      rw [List.drop_eq_nil_of_le (by simpa using hg)]
      simpa using h
    | some o =>
      simp only
      have hlt := Ctx.lt_of_getElem? hg
      have hd : held.drop pos = o :: held.drop (pos + 1) := by
        rw [List.drop_eq_getElem_cons hlt]
        congr 1
        rw [List.getElem?_eq_getElem hlt] at hg
        exact Option.some.inj hg
      rw [hd] at hm hn
      obtain ⟨hno, hn'⟩ := List.nodup_cons.1 hn
      cases hp : p o with
      | false =>
        rw [if_neg (by simp)]
        obtain ⟨c', h1, h2⟩ := ih (pos + 1) held c t h (by omega) (fun y hy => hm y (by simp [hy])) hn'
        refine ⟨c', h1, Ctx.stores_congr h2 ?_ rfl fun _ _ _ _ => rfl⟩
        show t.objs.filter _ = t.objs.filter _
        apply List.filter_congr
        intro y _
        rw [hd]
        by_cases hy : y = o
        · subst hy; simp [hp]
        · simp [hy]
      | true =>
        rw [if_pos rfl]
        obtain ⟨c1, i, h1, h2, h3, _⟩ := delete_step h (hm o (by simp))
        rw [h1, h3]
        simp only
        obtain ⟨c', h5, h6⟩ := ih (pos + 1) held c1 _ h2 (by omega) (fun y hy => List.mem_filter.2
          ⟨hm y (by simp [hy]), by
            simp only [ne_eq, decide_not, Bool.not_eq_eq_eq_not, Bool.not_true, decide_eq_false_iff_not]
            rintro rfl
            exact hno hy⟩) hn'
        refine ⟨c', h5, Ctx.stores_congr h6 ?_ rfl fun _ _ _ _ => rfl⟩
        show t.objs.filter _ = (t.objs.filter _).filter _
        rw [List.filter_filter]
        apply List.filter_congr
        intro y _
        rw [hd]
        by_cases hy : y = o
        · subst hy; simp [hp]
        · simp [hy]

theorem loop_prefix (p : α → Bool) (l1 l2 : List α) (hl1 : ∀ y ∈ l1, p y = false) (s : CObj α β) (fuel : ℕ) :
    deleteLoop p (l1.length + fuel) 0 (l1 ++ l2) true s = deleteLoop p fuel l1.length (l1 ++ l2) true s := by
  have : ∀ n pos, pos + n = l1.length →
      deleteLoop p (n + fuel) pos (l1 ++ l2) true s = deleteLoop p fuel l1.length (l1 ++ l2) true s := by
    intro n
    induction n with
    | zero => intro pos h; rw [show pos = l1.length by omega, Nat.zero_add]
    | succ n ih =>
      intro pos h
      rw [show n + 1 + fuel = (n + fuel) + 1 by omega]
      conv_lhs => unfold deleteLoop
      have hlt : pos < l1.length := by omega
      have hg : (l1 ++ l2)[pos]? = some l1[pos] := by
        rw [List.getElem?_append_left hlt, List.getElem?_eq_getElem hlt]
      rw [hg]
      simp only
      rw [if_neg (by simp [hl1 _ (List.getElem_mem hlt)])]
      exact ih (pos + 1) (by omega)
  exact this l1.length 0 (by omega)

/-- C123: the exact result of `for o in c.objects: if p(o): c.delete_object(o)`. The objects before the first that satisfies
`p` stay, this one is deleted, the one after it stays whatever `p` says, and of the rest those that satisfy `p` are deleted.
No exception is raised. -/
theorem C123_loop {c : Ctx α β} (h : c.WFw) (p : α → Bool) {l1 l2 : List α} {o : α} (hc : c.objects = l1 ++ o :: l2)
    (hl1 : ∀ y ∈ l1, p y = false) (ho : p o = true) {fuel : ℕ} (hf : c.objects.length ≤ fuel) :
    ∃ c', deleteLoop p fuel 0 c.objects true (of c) = (.ok (), of c') ∧
      Ctx.Stores c' ⟨l1 ++ l2.take 1 ++ (l2.drop 1).filter (fun y => !p y), c.attributes, c.incB⟩ := by
  have hnd := h.onodup
  rw [hc] at hnd
  rw [hc] at hf
  have hlen : (l1 ++ o :: l2).length = l1.length + l2.length + 1 := by simp; omega
  obtain ⟨f, rfl⟩ : ∃ f, fuel = l1.length + (f + 1) := ⟨fuel - l1.length - 1, by omega⟩
  rw [hc, loop_prefix p l1 (o :: l2) hl1]
  unfold deleteLoop
  have hg : (l1 ++ o :: l2)[l1.length]? = some o := by simp
  rw [hg]
  simp only
  rw [if_pos ho]
  obtain ⟨c1, i, h1, h2, h3, h4⟩ := delete_step h.stores (o := o) (by show o ∈ c.objects; rw [hc]; simp)
  rw [h1, h3]
  simp only [if_true]
  have hi : i = l1.length := by
    rw [hc] at h4
    exact nodup_idx hnd h4 hg
  have he : (l1 ++ o :: l2).eraseIdx i = l1 ++ l2 := by
    rw [hi, List.eraseIdx_append_of_length_le (le_refl _)]
    simp
  rw [he]
  have hnd2 : (l1 ++ l2).Nodup := by
    rw [← he]
    exact hnd.eraseIdx i
  have hno : o ∉ l1 ++ l2 := by
    rw [List.nodup_append] at hnd
    obtain ⟨_, a2, a3⟩ := hnd
    rw [List.mem_append]
    rintro (hx | hx)
    · exact a3 o hx o (by simp) rfl
    · exact (List.nodup_cons.1 a2).1 hx
  have hob : c.objects.filter (fun y => decide (y ≠ o)) = l1 ++ l2 := by
    rw [hc, List.filter_append, List.filter_cons_of_neg (by simp), ← List.filter_append]
    rw [List.filter_eq_self]
    intro y hy
    simp only [ne_eq, decide_not, Bool.not_eq_eq_eq_not, Bool.not_true, decide_eq_false_iff_not]
    rintro rfl
    exact hno hy
  have hd : (l1 ++ l2).drop (l1.length + 1) = l2.drop 1 := by
    rw [List.drop_append]
    simp
  obtain ⟨c', h5, h6⟩ := loop_copy p f (l1.length + 1) (l1 ++ l2) c1 _ h2 (by simp; omega) (by
    intro y hy
    show y ∈ c.objects.filter _
    rw [hob]
    exact List.mem_of_mem_drop hy) (hnd2.sublist (List.drop_sublist _ _))
  refine ⟨c', h5, Ctx.stores_congr h6 ?_ rfl fun _ _ _ _ => rfl⟩
  show l1 ++ l2.take 1 ++ (l2.drop 1).filter (fun y => !p y) = (c.objects.filter _).filter _
  rw [hob, hd]
  obtain ⟨_, b2, b3⟩ := List.nodup_append.1 hnd2
  rw [List.filter_append, List.append_assoc]
  congr 1
  · symm
    rw [List.filter_eq_self]
    intro y hy
    simp [hl1 y hy]
  · conv_rhs => rw [← List.take_append_drop 1 l2]
    rw [List.filter_append]
    congr 1
    · symm
      rw [List.filter_eq_self]
      intro y hy
      have : y ∉ l2.drop 1 := by
        intro hy2
        rw [← List.take_append_drop 1 l2] at b2
        exact (List.nodup_append.1 b2).2.2 y hy y hy2 rfl
      rw [List.take_append_drop, decide_eq_false this]
      simp
    · apply List.filter_congr
      intro y hy
      rw [List.take_append_drop, decide_eq_true hy]
      simp

/-- C123, violated: of two neighbours that satisfy `p`, the first of all such objects and the next one, the second is still
there after the loop. -/
theorem C123_skipped_violated {c : Ctx α β} (h : c.WFw) (p : α → Bool) {l1 l2 : List α} {o y : α}
    (hc : c.objects = l1 ++ o :: y :: l2) (hl1 : ∀ y ∈ l1, p y = false) (ho : p o = true) :
    ∃ c', deleteLoop p c.objects.length 0 c.objects true (of c) = (.ok (), of c') ∧ o ∉ c'.objects ∧ y ∈ c'.objects := by
  obtain ⟨c', h1, h2⟩ := C123_loop h p hc hl1 ho (le_refl _)
  refine ⟨c', h1, ?_, by rw [h2.objs]; simp⟩
  rw [h2.objs]
  have hnd := h.onodup
  rw [hc] at hnd
  obtain ⟨_, a2, a3⟩ := List.nodup_append.1 hnd
  obtain ⟨b1, _⟩ := List.nodup_cons.1 a2
  simp only [List.take_succ_cons, List.take_zero, List.mem_append, List.mem_filter, List.mem_singleton]
  rintro ((hx | hx) | hx)
  · exact a3 o hx o (by simp) rfl
  · exact b1 (by simp [hx])
  · exact b1 (by simp only [List.drop_succ_cons, List.drop_zero] at hx; simp [hx.1])

/-- C123: the loop deletes all objects that satisfy `p` if there is none or the one after the first does not. -/
theorem C123_loop_partial {c : Ctx α β} (h : c.WFw) (p : α → Bool)
    (hp : ∀ l1 l2 o y, c.objects = l1 ++ o :: y :: l2 → (∀ y ∈ l1, p y = false) → p o = true → p y = false) :
    ∃ c', deleteLoop p c.objects.length 0 c.objects true (of c) = (.ok (), of c') ∧
      Ctx.Stores c' ⟨c.objects.filter (fun y => !p y), c.attributes, c.incB⟩ := by
  by_cases hex : ∃ x ∈ c.objects, p x = true
  · obtain ⟨o, l1, l2, h0, h1, h2⟩ : ∃ o l1 l2, (∀ y ∈ l1, p y = false) ∧ p o = true ∧ c.objects = l1 ++ o :: l2 := by
      obtain ⟨x, hx, hpx⟩ := hex
      have : (c.objects.find? p).isSome := by
        rw [List.find?_isSome]
        exact ⟨x, hx, hpx⟩
      obtain ⟨o, ho⟩ := Option.isSome_iff_exists.1 this
      obtain ⟨h1, l1, l2, h2, h3⟩ := List.find?_eq_some_iff_append.1 ho
      exact ⟨o, l1, l2, fun y hy => by simpa using h3 y hy, h1, h2⟩
    obtain ⟨c', h3, h4⟩ := C123_loop h p h2 h0 h1 (le_refl _)
    refine ⟨c', h3, Ctx.stores_congr h4 ?_ rfl fun _ _ _ _ => rfl⟩
    show c.objects.filter _ = _
    rw [h2, List.filter_append, List.filter_cons_of_neg (by simp [h1]), List.append_assoc]
    congr 1
    · rw [List.filter_eq_self]
      intro y hy
      simp [h0 y hy]
    · cases l2 with
      | nil => rfl
      | cons y l2 =>
        rw [List.filter_cons_of_pos (by simp [hp l1 l2 o y h2 h0 h1])]
        rfl
  · have hno : ∀ y ∈ c.objects, p y = false := by
      intro y hy
      by_contra hh
      exact hex ⟨y, hy, by simpa using hh⟩
    refine ⟨c, ?_, ?_⟩
    · have := loop_prefix (β := β) p c.objects [] hno (of c) 0
      rw [List.append_nil, Nat.add_zero] at this
      rw [this]
      rfl
    · have : c.objects.filter (fun y => !p y) = c.objects := by
        rw [List.filter_eq_self]
        intro y hy
        simp [hno y hy]
      rw [this]
      exact h.stores

/-- C123: over a copy, `for o in list(c.objects)`, the loop deletes all objects that satisfy `p`. -/
theorem C123_copy {c : Ctx α β} (h : c.WFw) (p : α → Bool) :
    ∃ c', deleteLoop p c.objects.length 0 c.objects false (of c) = (.ok (), of c') ∧
      Ctx.Stores c' ⟨c.objects.filter (fun y => !p y), c.attributes, c.incB⟩ := by
  obtain ⟨c', h1, h2⟩ := loop_copy p c.objects.length 0 c.objects c _ h.stores (by omega) (fun y hy => hy) h.onodup
  refine ⟨c', h1, Ctx.stores_congr h2 ?_ rfl fun _ _ _ _ => rfl⟩
  show c.objects.filter _ = c.objects.filter _
  apply List.filter_congr
  intro y hy
  simp [hy]

/-- Four objects, one attribute. -/
def exLoop : Ctx (List Char) (List Char) :=
  ⟨[['x'], ['y'], ['z'], ['w']], [['a']], ⟨some 1, [[true], [false], [true], [true]]⟩⟩

/-- Without `x` and with the rest to be deleted: `z` stays. -/
example : exLoop.WFw ∧ (deleteLoop (fun o => decide (o ≠ ['x'])) 4 0 exLoop.objects true (of exLoop)) =
    (.ok (), of ⟨[['x'], ['z']], [['a']], ⟨some 1, [[true], [true]]⟩⟩) ∧
    (deleteLoop (fun o => decide (o ≠ ['x'])) 4 0 exLoop.objects false (of exLoop)) =
    (.ok (), of ⟨[['x']], [['a']], ⟨some 1, [[true]]⟩⟩) ∧
    (deleteLoop (fun o => decide (o = ['x'] ∨ o = ['z'])) 4 0 exLoop.objects true (of exLoop)) =
    (.ok (), of ⟨[['y'], ['w']], [['a']], ⟨some 1, [[false], [true]]⟩⟩) :=
  ⟨by constructor <;> decide +kernel, by decide +kernel⟩

end CObj
