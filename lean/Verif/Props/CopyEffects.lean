/-
Property C159, continued: what `delete_attributes` on a context does to a shallow copy of it, and what calls that raise do.
-/
import Verif.Props.ContextWorld
import Verif.Props.DeleteMany

set_option linter.unusedSectionVars false

open Spec

namespace CWorld

variable {α β : Type} [DecidableEq α] [DecidableEq β] [PyName α] [PyName β]

/-- Delete the positions one after another, as long as there is one (the list after the loop of fca/context.py:421-422,
whether or not it raises). -/
def eraseMany {γ : Type} (l : List γ) : List ℕ → List γ
  | [] => l
  | j :: js => if j < l.length then eraseMany (l.eraseIdx j) js else l

theorem eraseMany_of_delAll {γ : Type} {l r : List γ} {js : List ℕ} (h : Ctx.delAll l js = .ok r) : eraseMany l js = r := by
  induction js generalizing l with
  | nil => cases h; rfl
  | cons j js ih =>
    unfold Ctx.delAll at h
    unfold eraseMany
    split at h
    · rename_i hj
      rw [if_pos hj]
      exact ih h
    · cases h

theorem delNames_world (k : ℕ) (js : List ℕ) (w : CWorld α β) :
    (delNames k js w).2 =
      { w with alist := Function.update w.alist (w.recs k).a (eraseMany (w.alist (w.recs k).a) js) } ∧
    ((delNames k js w).1 = .ok () ∨
      ((delNames k js w).1 = .error .indexError ∧ Ctx.delAll (w.alist (w.recs k).a) js = .error .indexError)) := by
  induction js generalizing w with
  | nil =>
    refine ⟨?_, .inl rfl⟩
    show w = _
    rw [eraseMany, Function.update_eq_self]
  | cons j js ih =>
    unfold delNames
    rw [self_bind, show (w.load k).attributes = w.alist (w.recs k).a from rfl]
    unfold eraseMany Ctx.delAll
    by_cases hj : j < (w.alist (w.recs k).a).length
    · rw [show listDel (w.alist (w.recs k).a) j = .ok ((w.alist (w.recs k).a).eraseIdx j) from if_pos hj, OM.lift_ok,
        if_pos hj, if_pos hj]
      unfold writeAttributes
      rw [OM.modify_bind]
      have := ih { w with alist := Function.update w.alist (w.recs k).a ((w.alist (w.recs k).a).eraseIdx j) }
      simp only [Function.update_self, Function.update_idem] at this
      exact this
    · rw [show listDel (w.alist (w.recs k).a) j = .error .indexError from if_neg hj, OM.lift_err, if_neg hj, if_neg hj,
        Function.update_eq_self]
      exact ⟨rfl, .inr ⟨rfl, rfl⟩⟩

theorem bind_other {γ : Type} {m : OM (CWorld α β) γ} {f : γ → OM (CWorld α β) Unit} {w : CWorld α β} {j : ℕ}
    (h : ∀ x, (f x (m w).2).2.load j = (m w).2.load j) : ((m >>= f) w).2.load j = (m w).2.load j := by
  rw [OM.bind_apply]
  cases hm : m w with
  | mk r w' =>
    rw [hm] at h
    cases r with
    | ok x => exact h x
    | error e => rfl

/-- C159: `delete_attributes` on one of two objects with the same lists deletes the names from the list of the other, one
position after another and also if it raises because of a repeated name; nothing else of the other changes. -/
theorem C159_delete_attributes {w : CWorld α β} (hb : Bounded w) {j k : ℕ} (hj : j < w.size) (hs : Shared w j k)
    {c : Ctx α β} (hc : c.WFw) (hr : c.nd.rows ≠ []) (hl : w.load j = CObj.of c) (hlk : w.load k = CObj.of c)
    {names : List β} (hn : ∀ a ∈ names, a ∈ c.attributes) :
    (call k (.deleteAttributes names) w).2.load j =
        { CObj.of c with
          attributes := eraseMany c.attributes ((names.map c.attributes.idxOf).insertionSort (· ≥ ·)) } ∧
      (names.Nodup → (call k (.deleteAttributes names) w).2.load j =
        { CObj.of c with attributes := c.attributes.filter (· ∉ names) }) := by
  obtain ⟨hi, hmem, hnd⟩ := Ctx.positions hc hn
  have hlt : ∀ i ∈ names.map c.attributes.idxOf, i < c.attributes.length := fun i h => by
    obtain ⟨a, _, e⟩ := (hmem i).1 h
    exact Ctx.lt_of_getElem? e
  generalize hjs : names.map c.attributes.idxOf = js at *
  obtain ⟨t, ht⟩ : ∃ t, c.nd.deleteCols js = .ok t := by
    unfold Nd.deleteCols
    rw [hc.shape hr]
    dsimp only
    rw [if_pos (by simpa using hlt)]
    exact ⟨_, rfl⟩
  have ha : w.alist (w.recs k).a = c.attributes := by
    have := congrArg CObj.attributes hlk
    exact this
  have key : (call k (.deleteAttributes names) w).2.load j =
      { CObj.of c with attributes := eraseMany c.attributes (js.insertionSort (· ≥ ·)) } := by
    show (deleteAttributes k names w).2.load j = _
    unfold deleteAttributes
    rw [self_bind, hlk, show (CObj.of c).aidx = indexDict c.attributes from rfl, CObj.mapM_dictIdx, hi, OM.lift_ok,
      show (CObj.of c).np = c.nd from rfl, ht, OM.lift_ok]
    unfold bindArray
    rw [OM.modify_bind]
    rw [bind_other, (delNames_world k _ _).1]
    · rw [← hl]
      unfold load
      dsimp only
      rw [Function.update_of_ne hs.ne, Function.update_self, hs.a, Function.update_self, ha,
        Function.update_of_ne (Nat.ne_of_lt (hb j hj).2.2)]
    · intro _
      rw [self_bind, init_other hs.ne]
      rw [(delNames_world k _ _).1]
      dsimp only
      rw [Function.update_of_ne hs.ne]
      obtain ⟨b1, b2, b3⟩ := hb j hj
      exact ⟨by omega, by omega, by omega⟩
  refine ⟨key, fun hnn => ?_⟩
  rw [key]
  have hp : (js.insertionSort (· ≥ ·)).Perm js := List.perm_insertionSort _ _
  have hsort : (js.insertionSort (· ≥ ·)).Pairwise (· > ·) := by
    have h1 : (js.insertionSort (· ≥ ·)).Pairwise (· ≥ ·) := List.pairwise_insertionSort _ _
    have h2 : (js.insertionSort (· ≥ ·)).Nodup := hp.nodup_iff.2 (hnd hnn)
    exact (h1.and h2).imp fun ⟨a, b⟩ => lt_of_le_of_ne a (Ne.symm b)
  obtain ⟨ns, hns⟩ : ∃ ns : List β, List.Forall₂ (fun i x => c.attributes[i]? = some x) (js.insertionSort (· ≥ ·)) ns := by
    have : ∀ i ∈ js.insertionSort (· ≥ ·), ∃ x, c.attributes[i]? = some x := fun i h =>
      ⟨_, List.getElem?_eq_getElem (hlt i (hp.mem_iff.1 h))⟩
    generalize js.insertionSort (· ≥ ·) = is at this
    clear hsort hp
    induction is with
    | nil => exact ⟨[], .nil⟩
    | cons i is ih =>
      obtain ⟨x, hx⟩ := this i List.mem_cons_self
      obtain ⟨xs, hxs⟩ := ih fun z hz => this z (List.mem_cons_of_mem _ hz)
      exact ⟨x :: xs, .cons hx hxs⟩
  suffices c.attributes.filter (· ∉ ns) = c.attributes.filter (· ∉ names) by
    rw [eraseMany_of_delAll (Ctx.delAll_ok hc.anodup hsort hns), this]
  refine List.filter_congr fun a _ => decide_eq_decide.2 (not_congr ?_)
  constructor
  · intro h
    obtain ⟨i, h1, h2⟩ := forall₂_mem_right hns a h
    obtain ⟨b, hb, e⟩ := (hmem i).1 (hp.mem_iff.1 h1)
    rw [e] at h2
    cases h2
    exact hb
  · intro h
    have h1 : c.attributes.idxOf a ∈ js := by rw [← hjs]; exact List.mem_map_of_mem h
    obtain ⟨x, h2, h3⟩ := forall₂_mem_left hns _ (hp.mem_iff.2 h1)
    rw [List.getElem?_eq_getElem (hlt _ h1), List.getElem_idxOf] at h3
    cases h3
    exact h2

/-! ### Calls that raise -/

theorem init_array_raises {k : ℕ} {t : Nd} {objs : List α} {atts : List β} {w w' : CWorld α β} {e : PyErr}
    (h : init k (.array t) objs atts w = (.error e, w')) : w' = w := by
  unfold init at h
  split at h
  · cases h; rfl
  split at h
  · cases h; rfl
  · cases h

theorem init_ok {t : TableArg} {objs : List α} {atts : List β} (h1 : t.rows.length = objs.length)
    (h2 : ∀ r ∈ t.rows, r.length = atts.length) (k : ℕ) (w : CWorld α β) : (init k t objs atts w).1 = .ok () := by
  rw [(Lifts.init (k := k) t objs atts w).1]
  cases t with
  | lists l =>
    change l.length = _ at h1
    change ∀ r ∈ l, _ at h2
    rw [CObj.init_lists h2, Ctx.make_ok h1 h2]; rfl
  | array t =>
    change t.rows.length = _ at h1
    change ∀ r ∈ t.rows, _ at h2
    rw [CObj.init_array, CObj.ofNd_shape h1 h2]; rfl

/-- The computation changes nothing if it raises. -/
def Atomic {γ : Type} (m : OM (CWorld α β) γ) (w : CWorld α β) : Prop := ∀ e w', m w = (.error e, w') → w' = w

theorem atomic_lift {γ δ : Type} {r : Py γ} {f : γ → OM (CWorld α β) δ} {w : CWorld α β}
    (h : ∀ x, r = .ok x → Atomic (f x) w) : Atomic (OM.lift r >>= f) w := by
  intro e w' he
  cases r with
  | error e => rw [OM.lift_err] at he; cases he; rfl
  | ok x => rw [OM.lift_ok] at he; exact h x rfl e w' he

theorem atomic_of_ok {γ : Type} {m : OM (CWorld α β) γ} {w : CWorld α β} {x : γ} (h : (m w).1 = .ok x) : Atomic m w := by
  intro e w' he
  rw [he] at h
  cases h

/-- C159: on an object of a context a call that raises changes nothing at all, neither this object nor those that share
lists or the array with it. (With a repeated name `delete_attributes` raises after it has written; see
`C159_delete_attributes`.) -/
theorem C159_raises {w : CWorld α β} {k : ℕ} {c : Ctx α β} (hc : CObj.Shape c) (hk : w.load k = CObj.of c)
    {cl : CObj.Call α β} (hd : cl.Distinct) {e : PyErr} {w' : CWorld α β} (h : call k cl w = (.error e, w')) : w' = w := by
  suffices Atomic (call k cl) w from this e w' h
  clear h
  cases cl with
  | op o =>
    cases o with
    | addObject row n =>
      show Atomic (addObject k row n) w
      unfold Atomic addObject
      rw [self_bind]
      exact atomic_lift fun t _ e w' h => init_array_raises h
    | addAttribute col n =>
      show Atomic (addAttribute k col n) w
      unfold Atomic addAttribute
      rw [self_bind]
      exact atomic_lift fun t _ e w' h => init_array_raises h
    | addObjectWithIntent B n =>
      show Atomic (addObjectWithIntent k B n) w
      unfold Atomic addObjectWithIntent addObject
      rw [self_bind, self_bind]
      exact atomic_lift fun t _ e w' h => init_array_raises h
    | addAttributeWithExtent A n =>
      show Atomic (addAttributeWithExtent k A n) w
      unfold Atomic addAttributeWithExtent addAttribute
      rw [self_bind, self_bind]
      exact atomic_lift fun t _ e w' h => init_array_raises h
    | setObjectIntent B n =>
      show Atomic (setObjectIntent k B n) w
      unfold Atomic setObjectIntent
      rw [self_bind, hk, show (CObj.of c).np = c.nd from rfl]
      refine atomic_lift fun js _ => atomic_lift fun row hrow => atomic_lift fun i _ => atomic_lift fun t ht => ?_
      refine atomic_of_ok (x := ()) ?_
      unfold Nd.setRow at ht
      cases hcols : c.nd.cols with
      | none => rw [hcols] at ht; cases ht
      | some m =>
        rw [hcols] at ht
        dsimp only at ht
        split at ht
        swap
        · cases ht
        rename_i hi
        split at ht
        swap
        · cases ht
        rename_i hm
        cases ht
        have hne : c.nd.rows ≠ [] := by intro e; rw [e] at hi; simp at hi
        rw [hc.cols hne] at hcols
        cases hcols
        refine init_ok ?_ ?_ _ _
        · show (c.nd.rows.set i row).length = _
          rw [List.length_set]
          exact hc.nrows
        · intro r hr
          rcases List.mem_or_eq_of_mem_set hr with hr | rfl
          · exact hc.width r hr
          · exact hm
    | setAttributeExtent A n =>
      show Atomic (setAttributeExtent k A n) w
      unfold Atomic setAttributeExtent
      rw [self_bind, hk, show (CObj.of c).np = c.nd from rfl]
      refine atomic_lift fun js _ => atomic_lift fun col hcol => atomic_lift fun i _ => atomic_lift fun t ht => ?_
      refine atomic_of_ok (x := ()) ?_
      unfold Nd.setCol at ht
      cases hcols : c.nd.cols with
      | none => rw [hcols] at ht; cases ht
      | some m =>
        rw [hcols] at ht
        dsimp only at ht
        split at ht
        swap
        · cases ht
        split at ht
        swap
        · cases ht
        rename_i hm
        cases ht
        refine init_ok ?_ ?_ _ _
        · show (List.zipWith _ c.nd.rows col).length = _
          rw [List.length_zipWith, hm, min_self]
          exact hc.nrows
        · intro r hr
          change r ∈ List.zipWith _ c.nd.rows col at hr
          obtain ⟨i, hi, rfl⟩ := List.mem_iff_getElem.1 hr
          rw [List.getElem_zipWith, List.length_set]
          exact hc.width _ (List.getElem_mem _)
    | deleteObject n =>
      show Atomic (deleteObject k n) w
      unfold Atomic deleteObject
      rw [self_bind, hk, show (CObj.of c).np = c.nd from rfl, show (CObj.of c).objects = c.objects from rfl]
      refine atomic_lift fun i hi => atomic_lift fun t ht => atomic_of_ok (x := ()) ?_
      unfold Nd.deleteRow at ht
      split at ht
      swap
      · cases ht
      rename_i hr
      cases ht
      have ho : i < c.objects.length := hc.nrows ▸ hr
      unfold bindArray writeObjects
      rw [OM.modify_bind, show listDel c.objects i = .ok (c.objects.eraseIdx i) from if_pos ho, OM.lift_ok, OM.modify_bind]
      refine init_ok ?_ ?_ _ _
      · show (c.nd.rows.eraseIdx i).length = _
        rw [List.length_eraseIdx, List.length_eraseIdx, if_pos hr, if_pos ho, hc.nrows]
      · intro r h
        exact hc.width r (List.mem_of_mem_eraseIdx h)
    | deleteAttribute n =>
      show Atomic (deleteAttribute k n) w
      unfold Atomic deleteAttribute
      rw [self_bind, hk, show (CObj.of c).aidx = indexDict c.attributes from rfl, show (CObj.of c).np = c.nd from rfl,
        show (CObj.of c).attributes = c.attributes from rfl, dictIdx_eq]
      refine atomic_lift fun i hi => atomic_lift fun t ht => atomic_of_ok (x := ()) ?_
      have ho : i < c.attributes.length := Ctx.lt_of_getElem? (lastIdx_ok hi)
      unfold Nd.deleteCols at ht
      cases hcols : c.nd.cols with
      | none => rw [hcols] at ht; cases ht
      | some m =>
      rw [hcols] at ht
      dsimp only at ht
      split at ht
      swap
      · cases ht
      cases ht
      unfold bindArray writeAttributes
      rw [OM.modify_bind, show listDel c.attributes i = .ok (c.attributes.eraseIdx i) from if_pos ho, OM.lift_ok,
        OM.modify_bind]
      refine init_ok ?_ ?_ _ _
      · show (c.nd.rows.map _).length = _
        rw [List.length_map]
        exact hc.nrows
      · intro r h
        obtain ⟨q, hq, rfl⟩ := List.mem_map.1 h
        have hw := hc.width q hq
        rw [CObj.eraseIdx_eq_positions q false (hw ▸ ho), List.length_eraseIdx, List.length_eraseIdx, if_pos ho,
          if_pos (hw ▸ ho), hw]
    | renameObject old n =>
      show Atomic (renameObject k old n) w
      unfold Atomic renameObject
      rw [self_bind, hk]
      refine atomic_lift fun i hi => atomic_lift fun os hos => atomic_of_ok (x := ()) ?_
      unfold listAssign at hos
      split at hos
      swap
      · cases hos
      cases hos
      unfold writeObjects
      rw [OM.modify_bind]
      refine init_ok ?_ ?_ _ _
      · rw [List.length_set]
        exact hc.nrows
      · exact hc.width
    | renameAttribute old n =>
      show Atomic (renameAttribute k old n) w
      unfold Atomic renameAttribute
      rw [self_bind, hk]
      refine atomic_lift fun i hi => atomic_lift fun as has => atomic_of_ok (x := ()) ?_
      unfold listAssign at has
      split at has
      swap
      · cases has
      cases has
      unfold writeAttributes
      rw [OM.modify_bind]
      refine init_ok ?_ ?_ _ _
      · exact hc.nrows
      · intro r hr
        rw [List.length_set]
        exact hc.width r hr
  | deleteAttributes names =>
    show Atomic (deleteAttributes k names) w
    unfold Atomic deleteAttributes
    have ha : w.alist (w.recs k).a = c.attributes := congrArg CObj.attributes hk
    have ho : w.olist (w.recs k).o = c.objects := congrArg CObj.objects hk
    rw [self_bind, hk, show (CObj.of c).aidx = indexDict c.attributes from rfl, show (CObj.of c).np = c.nd from rfl,
      CObj.mapM_dictIdx]
    refine atomic_lift fun js hjs => atomic_lift fun t ht => atomic_of_ok (x := ()) ?_
    have hlt := CObj.mapM_lastIdx_lt hjs
    have hjn : js.Nodup := CObj.nodup_of_positions hd (Ctx.mapM_lastIdx_inv hjs).2
    have hsort : (js.insertionSort (· ≥ ·)).Pairwise (· > ·) := by
      have h5 : (js.insertionSort (· ≥ ·)).Nodup := (List.perm_insertionSort _ js).nodup_iff.2 hjn
      exact ((List.pairwise_insertionSort (· ≥ ·) js).and h5).imp fun ⟨a, b⟩ => lt_of_le_of_ne a (Ne.symm b)
    obtain ⟨as, has⟩ := CObj.delAll_descending (l := c.attributes) hsort fun j hj => hlt j ((List.mem_insertionSort _).1 hj)
    unfold bindArray
    rw [OM.modify_bind, OM.bind_apply]
    obtain ⟨e1, e2⟩ := delNames_world k (js.insertionSort (· ≥ ·)) { w with
      arr := Function.update w.arr w.next t
      recs := Function.update w.recs k { w.recs k with t := w.next }
      next := w.next + 1 }
    simp only [Function.update_self] at e1 e2
    rw [ha, has] at e2
    rw [ha, eraseMany_of_delAll has] at e1
    rcases e2 with e2 | ⟨_, e2⟩
    swap
    · cases e2
    cases hm : delNames k (js.insertionSort (· ≥ ·)) { w with
      arr := Function.update w.arr w.next t
      recs := Function.update w.recs k { w.recs k with t := w.next }
      next := w.next + 1 } with
    | mk r w₁ =>
    rw [hm] at e1 e2
    dsimp only at e1 e2
    subst e1 e2
    dsimp only
    rw [self_bind]
    unfold load
    dsimp only
    rw [Function.update_self, Function.update_self, ho]
    unfold Nd.deleteCols at ht
    cases hcols : c.nd.cols with
    | none => rw [hcols] at ht; cases ht
    | some m =>
    rw [hcols] at ht
    dsimp only at ht
    split at ht
    swap
    · cases ht
    cases ht
    refine init_ok ?_ ?_ _ _
    · show (c.nd.rows.map _).length = _
      rw [List.length_map]
      exact hc.nrows
    · intro r h
      obtain ⟨q, hq, rfl⟩ := List.mem_map.1 h
      have h6 := Ctx.delAll_length has
      rw [List.length_insertionSort] at h6
      have h7 := CObj.length_filter_not_mem hjn hlt
      rw [List.length_map, hc.width q hq]
      omega

/-! ### Cases -/

/-- Two objects, three attributes; object 1 is a shallow copy of object 0. -/
def exTwice : CWorld (List Char) (List Char) :=
  run ⟨fun _ => [], fun _ => [], fun _ => ⟨none, []⟩, 0, fun _ => ⟨0, 0, 0, [], [], [], none⟩, 0⟩
    [.construct (.lists [[true, false, true], [false, true, false]]) [['x'], ['y']] [['a'], ['b'], ['c']], .copy 0]

def exTwiceCtx : Ctx (List Char) (List Char) :=
  ⟨[['x'], ['y']], [['a'], ['b'], ['c']], ⟨some 3, [[true, false, true], [false, true, false]]⟩⟩

/-- `delete_attributes` with distinct names, with a repeated one (a name too many is gone from the list of the copy), and
with an unknown one (nothing happens). -/
example : exTwice.size = 2 ∧ exTwice.load 1 = CObj.of exTwiceCtx ∧ exTwice.load 0 = CObj.of exTwiceCtx ∧
    (exTwice.recs 1).a = (exTwice.recs 0).a ∧
    ((call 0 (.deleteAttributes [['a'], ['c']]) exTwice).2.load 1).attributes = [['b']] ∧
    (call 0 (.deleteAttributes [['a'], ['a']]) exTwice).1 = .error .valueError ∧
    ((call 0 (.deleteAttributes [['a'], ['a']]) exTwice).2.load 1).attributes = [['c']] ∧
    (call 0 (.deleteAttributes [['a'], ['z']]) exTwice).1 = .error .keyError ∧
    ((call 0 (.deleteAttributes [['a'], ['z']]) exTwice).2.load 1) = CObj.of exTwiceCtx := by
  decide +kernel

end CWorld
