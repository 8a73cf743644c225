/-
Property C170: the course of an exploration does not depend on the order in which Python iterates over sets
(fca/algorithms/exploration_/exploration.py, explorationtest.py).
-/
import Verif.Props.HashOrder
import Verif.Props.ObjState
import Verif.Props.TotalExamples

set_option linter.unusedSectionVars false

variable {α β : Type} [DecidableEq α] [DecidableEq β]

open Spec HashOrder

namespace ExplorationOrder

/-! ### Derivation in a context whose names may repeat -/

theorem foldlM_inter {γ δ : Type} [DecidableEq δ] (get : γ → Py (Finset δ)) (g : γ → Finset δ) (l : List γ) :
    ∀ s, (∀ x ∈ l, get x = .ok (g x)) →
      l.foldlM (fun acc x => do let y ← get x; .ok (acc ∩ y)) s = .ok (s.filter fun d => ∀ x ∈ l, d ∈ g x) := by
  induction l with
  | nil => intro s _; simp
  | cons x l ih =>
    intro s hl
    rw [List.foldlM_cons, hl x (by simp), py_ok_bind, py_ok_bind, ih _ fun y hy => hl y (by simp [hy])]
    congr 1
    ext d
    simp only [Finset.mem_filter, Finset.mem_inter, List.forall_mem_cons]
    tauto

theorem foldlM_inter_err {γ δ : Type} [DecidableEq δ] (get : γ → Py (Finset δ)) (e : PyErr) (l : List γ)
    (h1 : ∀ x ∈ l, get x = .error e ∨ ∃ y, get x = .ok y) (h2 : ∃ x ∈ l, get x = .error e) :
    ∀ s, l.foldlM (fun acc x => do let y ← get x; .ok (acc ∩ y)) s = .error e := by
  induction l with
  | nil => obtain ⟨x, hx, _⟩ := h2; simp at hx
  | cons x l ih =>
    intro s
    rw [List.foldlM_cons]
    rcases h1 x (by simp) with he | ⟨y, hy⟩
    · rw [he]; rfl
    · rw [hy, py_ok_bind, py_ok_bind]
      refine ih (fun z hz => h1 z (by simp [hz])) ?_ _
      obtain ⟨z, hz, hze⟩ := h2
      rcases List.mem_cons.1 hz with rfl | hz
      · rw [hy] at hze; cases hze
      · exact ⟨z, hz, hze⟩

/-- The intersection of sets, some of which cannot be looked up, does not depend on the order. -/
theorem foldlM_same {γ δ : Type} [DecidableEq δ] (get : γ → Py (Finset δ)) (e : PyErr)
    (h : ∀ x, get x = .error e ∨ ∃ y, get x = .ok y) {l l' : List γ} (hl : SameSet l l') (s : Finset δ) :
    l.foldlM (fun acc x => do let y ← get x; .ok (acc ∩ y)) s =
      l'.foldlM (fun acc x => do let y ← get x; .ok (acc ∩ y)) s := by
  by_cases he : ∃ x ∈ l, get x = .error e
  · rw [foldlM_inter_err get e l (fun x _ => h x) he, foldlM_inter_err get e l' (fun x _ => h x)]
    obtain ⟨x, hx, hxe⟩ := he
    exact ⟨x, (hl x).1 hx, hxe⟩
  · push Not at he
    have hg : ∀ x ∈ l, get x = .ok ((get x).toOption.getD ∅) := by
      intro x hx
      rcases h x with h' | ⟨y, h'⟩
      · exact absurd h' (he x hx)
      · rw [h']; rfl
    rw [foldlM_inter get (fun x => (get x).toOption.getD ∅) l s hg,
      foldlM_inter get (fun x => (get x).toOption.getD ∅) l' s fun x hx => hg x ((hl x).2 hx)]
    congr 1
    ext d
    simp only [Finset.mem_filter]
    exact and_congr_right fun _ => forall_congr' fun x => imp_congr_left (hl x)

/-- Looking up an attribute either works or raises KeyError. -/
theorem attributeExtent_cases {c : Ctx α β} (h : CObj.Shape c) (hne : c.objects ≠ []) (a : β) :
    c.attributeExtent a = .error .keyError ∨ ∃ S, c.attributeExtent a = .ok S := by
  unfold Ctx.attributeExtent
  by_cases ha : a ∈ c.attributes
  · right
    obtain ⟨j, hj⟩ := lastIdx_mem ha
    have hlt := Ctx.lt_of_getElem? (lastIdx_ok hj)
    have hrows : c.nd.rows ≠ [] := by
      intro he
      have := h.nrows
      rw [he] at this
      exact hne (List.length_eq_zero_iff.1 this.symm)
    rw [hj, py_ok_bind]
    unfold Ctx.extentByIndex Nd.col
    rw [h.cols hrows]
    simp only [hlt, if_true]
    rw [py_ok_bind]
    have : ∀ i ∈ nonzero (c.nd.rows.map fun r => r.getD j false), pyGet c.objects i = .ok (c.objects.getD i (c.objects.head hne)) := by
      intro i hi
      have hi' : i < c.objects.length := by
        have := List.mem_range.1 (List.mem_filter.1 hi).1
        rw [List.length_map, h.nrows] at this
        exact this
      unfold pyGet
      rw [List.getElem?_eq_getElem hi', List.getD_eq_getElem _ _ hi']
    rw [mapM_ok this, py_ok_bind]
    exact ⟨_, rfl⟩
  · left
    rw [lastIdx_not_mem ha]
    rfl

/-- Looking up an object either works or raises KeyError. -/
theorem objectIntent_cases {c : Ctx α β} (h : CObj.Shape c) (hne : c.objects ≠ []) (o : α) :
    c.objectIntent o = .error .keyError ∨ ∃ S, c.objectIntent o = .ok S := by
  unfold Ctx.objectIntent
  by_cases ho : o ∈ c.objects
  · right
    obtain ⟨i, hi⟩ := lastIdx_mem ho
    have hlt := Ctx.lt_of_getElem? (lastIdx_ok hi)
    have hrows : c.nd.rows ≠ [] := by
      intro he
      have := h.nrows
      rw [he] at this
      exact hne (List.length_eq_zero_iff.1 this.symm)
    rw [hi, py_ok_bind]
    unfold Ctx.intentByIndex Nd.row
    rw [h.cols hrows]
    rw [← h.nrows] at hlt
    simp only
    rw [show pyGet c.nd.rows i = .ok c.nd.rows[i] by unfold pyGet; rw [List.getElem?_eq_getElem hlt], py_ok_bind]
    have hw := h.width _ (List.getElem_mem hlt)
    have : ∀ j ∈ nonzero c.nd.rows[i], ∃ a, pyGet c.attributes j = .ok a := by
      intro j hj
      have hj' : j < c.attributes.length := by
        have := List.mem_range.1 (List.mem_filter.1 hj).1
        rw [hw] at this
        exact this
      exact ⟨c.attributes[j], by unfold pyGet; rw [List.getElem?_eq_getElem hj']⟩
    obtain ⟨l, hl, _⟩ := mapM_ok' (f := pyGet c.attributes) (R := fun _ _ => True) fun j hj => by
      obtain ⟨a, ha⟩ := this j hj
      exact ⟨a, ha, trivial⟩
    rw [hl, py_ok_bind]
    exact ⟨_, rfl⟩
  · left
    rw [lastIdx_not_mem ho]
    rfl

theorem coAprime_same {c : Ctx α β} (h : CObj.Shape c) (hne : c.objects ≠ []) {B B' : List β} (hB : SameSet B B') :
    c.coAprime B = c.coAprime B' :=
  foldlM_same c.attributeExtent .keyError (attributeExtent_cases h hne) hB _

theorem coOprime_same {c : Ctx α β} (h : CObj.Shape c) (hne : c.objects ≠ []) {A A' : List α} (hA : SameSet A A') :
    c.coOprime A = c.coOprime A' :=
  foldlM_same c.objectIntent .keyError (objectIntent_cases h hne) hA _

/-- The bases of contexts and partial contexts; names may repeat. -/
theorem C170_basis (ordA ordA' : SetOrder β) (ordO ordO' : SetOrder α) (bg : List (Imp β)) (cond : Finset β → Bool) :
    (∀ {c : Ctx α β}, CObj.Shape c → c.objects ≠ [] → ∀ ord₀ ord₀' ord ord',
      c.computeDgBasis ordA ordO ord₀ ord bg cond = c.computeDgBasis ordA' ordO' ord₀' ord' bg cond) ∧
    ∀ {p : PCtx α β}, CObj.Shape p.x → CObj.Shape p.q → p.x.objects ≠ [] → p.q.objects ≠ [] →
      p.dgBasis ordA ordO bg cond = p.dgBasis ordA' ordO' bg cond := by
  constructor
  · intro c h hne ord₀ ord₀' ord ord'
    unfold Ctx.computeDgBasis Ctx.dgBasisWith
    have : c.dgAclose ordA ordO = c.dgAclose ordA' ordO' := by
      funext s
      unfold Ctx.dgAclose Ctx.coAclosureSet
      rw [coAprime_same h hne (sameSet_enum ordA ordA' s)]
      congr 1
      funext t
      exact coOprime_same h hne (sameSet_enum ordO ordO' t)
    rw [this, C168_lin_closure ord₀ ord₀' ord ord']
  · intro p hx hq hnx hnq
    unfold PCtx.dgBasis
    have : p.xqAclosure ordA ordO = p.xqAclosure ordA' ordO' := by
      funext s
      unfold PCtx.xqAclosure
      rw [coAprime_same hx hnx (sameSet_enum ordA ordA' s)]
      congr 1
      funext t
      exact coOprime_same hq hnq (sameSet_enum ordO ordO' t)
    rw [this]

/-! ### The mutators keep the dimensions and the objects -/

section
variable [PyName α] [PyName β]

theorem make_objects {t : List (List Bool)} {objs : List α} {atts : List β} {c : Ctx α β}
    (h : Ctx.make t objs atts = .ok c) : c.objects.length = objs.length := by
  unfold Ctx.make at h
  split at h
  · cases h
  split at h
  · cases h
  obtain ⟨z, _, hz⟩ := Ctx.bind_ok h
  cases hz
  exact renameAll_length _

theorem ofNd_objects {t : Nd} {objs : List α} {atts : List β} {c : Ctx α β}
    (h : Ctx.ofNd t objs atts = .ok c) : c.objects.length = objs.length := by
  obtain ⟨-, -, rfl⟩ := Ctx.ofNd_result h
  exact renameAll_length _

theorem reinit_objects {c : Ctx α β} {r : Py (Ctx α β)} (h : ∀ c', r = .ok c' → c.objects.length ≤ c'.objects.length) :
    c.objects.length ≤ (c.reinit r).1.objects.length := by
  cases r with
  | error e => exact le_rfl
  | ok c' => exact h c' rfl

/-- Objects are lost by `delete_object` only. -/
theorem exec_objects (c : Ctx α β) {op : TOp α β} (hop : ∀ n, op ≠ .deleteObject n) :
    c.objects.length ≤ (c.exec op).1.objects.length := by
  cases op with
  | addObject row n =>
    refine reinit_objects fun c' h => ?_
    obtain ⟨_, _, h⟩ := Ctx.bind_ok h
    rw [ofNd_objects h]; simp
  | addAttribute col n =>
    refine reinit_objects fun c' h => ?_
    obtain ⟨_, _, h⟩ := Ctx.bind_ok h
    rw [ofNd_objects h]
  | addObjectWithIntent B n =>
    refine reinit_objects fun c' h => ?_
    obtain ⟨_, _, h⟩ := Ctx.bind_ok h
    rw [ofNd_objects h]; simp
  | addAttributeWithExtent A n =>
    refine reinit_objects fun c' h => ?_
    obtain ⟨_, _, h⟩ := Ctx.bind_ok h
    rw [ofNd_objects h]
  | setObjectIntent B n =>
    refine reinit_objects fun c' h => ?_
    obtain ⟨_, _, h⟩ := Ctx.bind_ok h
    obtain ⟨_, _, h⟩ := Ctx.bind_ok h
    obtain ⟨_, _, h⟩ := Ctx.bind_ok h
    rw [ofNd_objects h]
  | setAttributeExtent A n =>
    refine reinit_objects fun c' h => ?_
    obtain ⟨_, _, h⟩ := Ctx.bind_ok h
    obtain ⟨_, _, h⟩ := Ctx.bind_ok h
    obtain ⟨_, _, h⟩ := Ctx.bind_ok h
    rw [make_objects h]
  | deleteObject n => exact absurd rfl (hop n)
  | deleteAttribute n =>
    refine reinit_objects fun c' h => ?_
    obtain ⟨_, _, h⟩ := Ctx.bind_ok h
    obtain ⟨_, _, h⟩ := Ctx.bind_ok h
    rw [make_objects h]
  | renameObject o n =>
    refine reinit_objects fun c' h => ?_
    obtain ⟨_, _, h⟩ := Ctx.bind_ok h
    rw [ofNd_objects h]; simp
  | renameAttribute o n =>
    refine reinit_objects fun c' h => ?_
    obtain ⟨_, _, h⟩ := Ctx.bind_ok h
    rw [ofNd_objects h]

/-- The dimensions agree and there is an object. -/
def Usable (c : Ctx α β) : Prop := CObj.Shape c ∧ c.objects ≠ []

theorem Usable.exec {c : Ctx α β} (h : Usable c) {op : TOp α β} (hop : ∀ n, op ≠ .deleteObject n) :
    Usable (c.exec op).1 := by
  refine ⟨(CObj.exec_of h.1 op).2, fun he => h.2 ?_⟩
  have := exec_objects c hop
  rw [he] at this
  exact List.length_eq_zero_iff.1 (Nat.le_zero.1 this)

end

/-! ### Histories of a database over a context -/

section
variable [PyName α] [PyName β] {E E' : EDB.Env α β}

theorem modifier_same (hc : E.cond = E'.cond) {r : EDB α β × Option PyErr} (h : Usable r.1.ctx) :
    EDB.modifier E r = EDB.modifier E' r ∧ Usable (EDB.modifier E r).1.ctx := by
  obtain ⟨s, _ | e⟩ := r
  · unfold EDB.modifier EDB.relBasis
    dsimp only
    rw [hc, (C170_basis E.ordA E'.ordA E.ordO E'.ordO s.bg E'.cond).1 h.1 h.2 E.ord₀ E'.ord₀ E.ord E'.ord]
    refine ⟨rfl, ?_⟩
    split <;> exact h
  · exact ⟨rfl, h⟩

theorem editRename_usable {s : EDB α β} (h : Usable s.ctx) (n o : α) : Usable (s.editRename n o).1.ctx := by
  unfold EDB.editRename EDB.setCtx
  split
  · split
    · exact h
    · exact h.exec (op := .renameObject o n) (by simp)
  · exact h

/-- One call gives the same state and the same exception. -/
theorem exec_same (hc : E.cond = E'.cond) {s : EDB α β} (h : Usable s.ctx) (op : EDB.Op α β) :
    s.exec E op = s.exec E' op ∧ Usable (s.exec E op).1.ctx := by
  cases op with
  | confirm i => exact modifier_same hc (r := (_, none)) h
  | unconfirm i =>
    refine modifier_same hc ?_
    split <;> exact h
  | addExample n B =>
    refine modifier_same hc ?_
    split
    · exact h
    split
    · exact h
    · exact h.exec (op := .addObjectWithIntent B n) (by simp)
  | deleteExample n => exact ⟨rfl, h⟩
  | editExample n o B =>
    show s.editExample E n o B = s.editExample E' n o B ∧ Usable (s.editExample E n o B).1.ctx
    unfold EDB.editExample
    rw [setObjectIntent_same s.ctx (sameSet_enum E'.ordI E.ordI B) o]
    refine modifier_same hc ?_
    have h' : Usable (s.ctx.setObjectIntent (E.ordI.enum B) o).1 :=
      h.exec (op := .setObjectIntent (E.ordI.enum B) o) (by simp)
    unfold EDB.setCtx
    generalize s.ctx.setObjectIntent (E.ordI.enum B) o = m at h' ⊢
    obtain ⟨c', _ | e⟩ := m
    · cases s.ctx.objectIntent o with
      | error e => exact h
      | ok old =>
        dsimp only
        split
        · split
          · exact h
          · exact editRename_usable (s := { s with ctx := c' }) h' n o
        · exact editRename_usable h n o
    · cases s.ctx.objectIntent o with
      | error e => exact h
      | ok old =>
        dsimp only
        split
        · split
          · exact h
          · exact h'
        · exact editRename_usable h n o
  | addAttribute n A =>
    refine modifier_same hc ?_
    split
    · exact h
    · exact h.exec (op := .addAttributeWithExtent A n) (by simp)
  | deleteAttribute n => exact ⟨rfl, h⟩
  | editAttribute n o A =>
    show s.editAttribute E n o A = s.editAttribute E' n o A ∧ Usable (s.editAttribute E n o A).1.ctx
    unfold EDB.editAttribute
    rw [(C168_mutators s.ctx).2 (sameSet_enum E'.ordE E.ordE A) o]
    refine modifier_same hc ?_
    have h' : Usable (s.ctx.setAttributeExtent (E.ordE.enum A) o).1 :=
      h.exec (op := .setAttributeExtent (E.ordE.enum A) o) (by simp)
    unfold EDB.setCtx
    generalize s.ctx.setAttributeExtent (E.ordE.enum A) o = m at h' ⊢
    obtain ⟨c', _ | e⟩ := m
    · cases s.ctx.objects.mapM s.ctx.objectIntent with
      | error e => exact h
      | ok ints =>
        dsimp only
        split
        · exact h
        split
        · exact h
        · exact h'.exec (op := .renameAttribute o n) (by simp)
    · cases s.ctx.objects.mapM s.ctx.objectIntent with
      | error e => exact h
      | ok ints =>
        dsimp only
        split
        · exact h
        split
        · exact h
        · exact h'
  | touch => exact modifier_same hc (r := (_, none)) h

/-- The constructor and every history of calls, also of calls that raise: for two runs with different set orders the
state after the calls is the same, and every call raises the same exception or none. The context has an object and
fitting dimensions; the names may repeat, nothing is supposed about implications and examples. -/
theorem C170_history (hc : E.cond = E'.cond) {c : Ctx α β} (h : CObj.Shape c) (hne : c.objects ≠ [])
    (bg : List (Imp β)) :
    EDB.init E c bg = EDB.init E' c bg ∧
    ∀ s, EDB.init E c bg = .ok s → ∀ ops : List (EDB.Op α β), EDB.run E s ops = EDB.run E' s ops ∧
      ∀ op, ((EDB.run E s ops).exec E op) = ((EDB.run E' s ops).exec E' op) := by
  constructor
  · unfold EDB.init EDB.relBasis
    rw [hc, (C170_basis E.ordA E'.ordA E.ordO E'.ordO bg E'.cond).1 h hne E.ord₀ E'.ord₀ E.ord E'.ord]
  · intro s hs ops
    have hs' : Usable s.ctx := by
      unfold EDB.init at hs
      obtain ⟨r, _, hs⟩ := Ctx.bind_ok hs
      cases hs
      exact ⟨h, hne⟩
    have key : EDB.run E s ops = EDB.run E' s ops ∧ Usable (EDB.run E s ops).ctx := by
      clear hs
      unfold EDB.run
      induction ops generalizing s with
      | nil => exact ⟨rfl, hs'⟩
      | cons op ops ih =>
        simp only [List.foldl_cons]
        have := exec_same hc hs' op
        rw [← this.1]
        exact ih _ this.2
    refine ⟨key.1, fun op => ?_⟩
    rw [← key.1]
    exact (exec_same hc key.2 op).1

/-- `explore` with the expert of the tests: the same questions and the same end. -/
theorem C170_explore (hc : E.cond = E'.cond) {s : EDB α β} (h : CObj.Shape s.ctx) (hne : s.ctx.objects ≠ [])
    (name : Finset β → α) (basis : List (Imp β)) (fuel : ℕ) :
    EDB.explore E name basis fuel s = EDB.explore E' name basis fuel s ∧
    EDB.exploreQuestions E name basis fuel s = EDB.exploreQuestions E' name basis fuel s := by
  have hu : Usable s.ctx := ⟨h, hne⟩
  clear h hne
  induction fuel generalizing s with
  | zero => exact ⟨rfl, rfl⟩
  | succ n ih =>
    unfold EDB.explore EDB.exploreQuestions
    cases hl : s.openImps with
    | nil => exact ⟨rfl, rfl⟩
    | cons imp l =>
      dsimp only
      have h1 := exec_same hc hu (.confirm imp)
      have h2 : s.reject E name basis imp = s.reject E' name basis imp ∧ Usable (s.reject E name basis imp).1.ctx := by
        unfold EDB.reject
        dsimp only
        split
        · exact ⟨rfl, hu⟩
        · exact exec_same hc hu (.addExample _ _)
      have key : (if EDB.expertValid basis imp then s.confirm E imp else s.reject E name basis imp) =
          (if EDB.expertValid basis imp then s.confirm E' imp else s.reject E' name basis imp) ∧
          Usable (if EDB.expertValid basis imp then s.confirm E imp else s.reject E name basis imp).1.ctx := by
        split
        · exact h1
        · exact h2
      rw [← key.1]
      have hk := key.2
      generalize (if EDB.expertValid basis imp then s.confirm E imp else s.reject E name basis imp) = r at hk ⊢
      obtain ⟨s', _ | e⟩ := r
      · dsimp only
        rw [(ih hk).1, (ih hk).2]
        exact ⟨rfl, rfl⟩
      · exact ⟨rfl, rfl⟩

end

/-! ### A database over a partial context -/

section
variable [PyName α] [PyName β] {E E' : PDB.Env α β}

/-- Both tables have fitting dimensions and an object. -/
def UsableP (p : PCtx α β) : Prop := Usable p.x ∧ Usable p.q

theorem UsableP.add {p : PCtx α β} (h : UsableP p) (i : Finset β × Finset β) (n : α) :
    UsableP (p.addObjectWithIntent i n).1 := by
  have hx : Usable (p.x.addObjectWithIntent i.1 n).1 := h.1.exec (op := .addObjectWithIntent i.1 n) (by simp)
  have hq : Usable (p.q.addObjectWithIntent i.2 n).1 := h.2.exec (op := .addObjectWithIntent i.2 n) (by simp)
  unfold PCtx.addObjectWithIntent
  split
  · exact h
  dsimp only
  split
  · exact ⟨hx, h.2⟩
  split
  · exact ⟨hx, hq⟩
  · exact ⟨hx, hq⟩

theorem UsableP.completeOne {p : PCtx α β} (h : UsableP p) (ord : SetOrder β) (L : List (Imp β)) (o : α) :
    UsableP (p.completeOne ord L o).1 := by
  have hx : ∀ B, Usable (p.x.setObjectIntent B o).1 := fun B => h.1.exec (op := .setObjectIntent B o) (by simp)
  have hq : ∀ B, Usable (p.q.setObjectIntent B o).1 := fun B => h.2.exec (op := .setObjectIntent B o) (by simp)
  unfold PCtx.completeOne
  split
  · exact h
  dsimp only
  split
  · exact h
  split
  · exact h
  split
  · exact ⟨hx _, h.2⟩
  · exact ⟨hx _, hq _⟩

theorem UsableP.complete {p : PCtx α β} (h : UsableP p) (ord : SetOrder β) (L : List (Imp β)) :
    UsableP (p.complete ord L).1 := by
  unfold PCtx.complete
  generalize p.objects = os
  induction os generalizing p with
  | nil => exact h
  | cons o os ih =>
    have h1 := h.completeOne ord L o
    unfold PCtx.completeLoop
    generalize p.completeOne ord L o = m at h1 ⊢
    obtain ⟨p', _ | e⟩ := m
    · exact ih h1
    · exact h1

theorem recompute_same (hc : E.cond = E'.cond) {s : PDB α β} (h : UsableP s.ctx) :
    PDB.recompute E s = PDB.recompute E' s ∧ UsableP (PDB.recompute E s).1.ctx := by
  unfold PDB.recompute
  rw [hc, (C170_basis E.ordA E'.ordA E.ordO E'.ordO s.implications E'.cond).2 h.1.1 h.2.1 h.1.2 h.2.2]
  refine ⟨rfl, ?_⟩
  split <;> exact h

/-- The calls of `ExplorationDB` on a partial context. -/
inductive POp (α β : Type)
  | confirm (imp : Imp β)
  | unconfirm (imp : Imp β)
  | addExample (name : α) (intent : Finset β × Finset β)
  | complete

/-- One call: fca/algorithms/exploration_/exploration.py:68-83, 147-150. -/
def POp.exec (E : PDB.Env α β) (s : PDB α β) : POp α β → PDB α β × Option PyErr
  | confirm i => s.confirm E i
  | unconfirm i => s.unconfirm E i
  | addExample n i => s.addExample E n i
  | complete => s.complete E

theorem pexec_same (hc : E.cond = E'.cond) {s : PDB α β} (h : UsableP s.ctx) (op : POp α β) :
    op.exec E s = op.exec E' s ∧ UsableP (op.exec E s).1.ctx := by
  cases op with
  | confirm i => exact recompute_same hc (s := { s with implications := s.implications ++ [i] }) h
  | unconfirm i =>
    show s.unconfirm E i = s.unconfirm E' i ∧ UsableP (s.unconfirm E i).1.ctx
    unfold PDB.unconfirm
    cases s.implications.findIdx? fun x => x.pyEq i with
    | none => exact ⟨rfl, h⟩
    | some k => exact recompute_same hc (s := { s with implications := s.implications.eraseIdx k }) h
  | addExample n i =>
    show s.addExample E n i = s.addExample E' n i ∧ UsableP (s.addExample E n i).1.ctx
    have h' := h.add i n
    unfold PDB.addExample
    split
    · exact ⟨rfl, h⟩
    split
    · exact ⟨rfl, h⟩
    generalize s.ctx.addObjectWithIntent i n = m at h' ⊢
    obtain ⟨p', _ | e⟩ := m
    · exact recompute_same hc (s := { s with ctx := p' }) h'
    · exact ⟨rfl, h'⟩
  | complete =>
    show s.complete E = s.complete E' ∧ UsableP (s.complete E).1.ctx
    unfold PDB.complete
    rw [(C168_partial_context s.ctx E'.ordI E.ordI s.implications).1]
    exact ⟨rfl, h.complete _ _⟩

theorem pthen_same {r : PDB α β × Option PyErr} {f f' : PDB α β → PDB α β × Option PyErr} (h : UsableP r.1.ctx)
    (hf : ∀ s, UsableP s.ctx → f s = f' s ∧ UsableP (f s).1.ctx) :
    PDB.andThen r f = PDB.andThen r f' ∧ UsableP (PDB.andThen r f).1.ctx := by
  obtain ⟨s, _ | e⟩ := r
  · exact hf s h
  · exact ⟨rfl, h⟩

theorem pfold_same {γ : Type} {f f' : PDB α β → γ → PDB α β × Option PyErr} (l : List γ)
    (hf : ∀ s x, UsableP s.ctx → f s x = f' s x ∧ UsableP (f s x).1.ctx) :
    ∀ {r : PDB α β × Option PyErr}, UsableP r.1.ctx →
    l.foldl (fun r x => PDB.andThen r fun s => f s x) r = l.foldl (fun r x => PDB.andThen r fun s => f' s x) r ∧
      UsableP (l.foldl (fun r x => PDB.andThen r fun s => f s x) r).1.ctx := by
  induction l with
  | nil => intro r h; exact ⟨rfl, h⟩
  | cons x l ih =>
    intro r h
    simp only [List.foldl_cons]
    have := pthen_same (f := fun s => f s x) (f' := fun s => f' s x) h fun s hs => hf s x hs
    rw [← this.1]
    exact ih this.2

/-- The creation of a database over a partial context, every history of its calls, and one call of `confirm_implications` or
`reject_implication` (with partially given examples) after it: the same states and exceptions. -/
theorem C170_partial_context (hc : E.cond = E'.cond) {s : PDB α β} (hx : CObj.Shape s.ctx.x) (hq : CObj.Shape s.ctx.q)
    (hnx : s.ctx.x.objects ≠ []) (hnq : s.ctx.q.objects ≠ []) (bg : List (Imp β)) (ops : List (POp α β)) :
    PDB.make E s.ctx bg = PDB.make E' s.ctx bg ∧
    let t := ops.foldl (fun s op => (op.exec E s).1) s
    t = ops.foldl (fun s op => (op.exec E' s).1) s ∧ (∀ op : POp α β, op.exec E t = op.exec E' t) ∧
      (∀ imps, t.confirmAll E imps = t.confirmAll E' imps) ∧ ∀ imp exs, t.reject E imp exs = t.reject E' imp exs := by
  have hu : UsableP s.ctx := ⟨⟨hx, hnx⟩, ⟨hq, hnq⟩⟩
  refine ⟨by unfold PDB.make; rw [hc, (C170_basis E.ordA E'.ordA E.ordO E'.ordO bg E'.cond).2 hx hq hnx hnq], ?_⟩
  clear hx hq hnx hnq
  intro t
  have key : t = ops.foldl (fun s op => (op.exec E' s).1) s ∧ UsableP t.ctx := by
    show ops.foldl (fun s op => (op.exec E s).1) s = _ ∧ UsableP (ops.foldl (fun s op => (op.exec E s).1) s).ctx
    clear t
    induction ops generalizing s with
    | nil => exact ⟨rfl, hu⟩
    | cons op ops ih =>
      simp only [List.foldl_cons]
      have := pexec_same hc hu op
      rw [← this.1]
      exact ih this.2
  refine ⟨key.1, fun op => (pexec_same hc key.2 op).1, fun imps => ?_, fun imp exs => ?_⟩
  · unfold PDB.confirmAll
    have := pfold_same (f := PDB.confirm E) (f' := PDB.confirm E') imps
      (fun s i hs => pexec_same hc hs (.confirm i)) (r := (t, none)) key.2
    rw [← this.1]
    exact (pthen_same this.2 fun s hs => pexec_same hc hs .complete).1
  · unfold PDB.reject
    cases exs with
    | nil => rfl
    | cons e exs =>
      dsimp only
      split
      · rfl
      · have hadd : ∀ (s : PDB α β) (e : α × (Finset β × Finset β)), UsableP s.ctx →
            s.addExample E e.1 e.2 = s.addExample E' e.1 e.2 ∧ UsableP (s.addExample E e.1 e.2).1.ctx :=
          fun s e hs => pexec_same hc hs (.addExample e.1 e.2)
        have := pfold_same (f := fun s (e : α × (Finset β × Finset β)) => PDB.addExample E s e.1 e.2)
          (f' := fun s e => PDB.addExample E' s e.1 e.2) (e :: exs) hadd (r := (t, none)) key.2
        rw [← this.1]
        exact (pthen_same this.2 fun s hs => pexec_same hc hs .complete).1

end

/-! ### Concrete cases -/

/-- Two environments that iterate in opposite orders. -/
def envUp : PDB.Env (Fin 4) (Fin 3) := ⟨fun _ => true, .fin 3, .fin 4, .fin 3⟩
def envDown : PDB.Env (Fin 4) (Fin 3) := ⟨fun _ => true, .finRev 3, .finRev 4, .finRev 3⟩

/-- A partial context: what objects 0 and 1 certainly have, what they possibly have. -/
def pcxt : PCtx (Fin 4) (Fin 3) :=
  ⟨[0, 1], [0, 1, 2], ⟨[0, 1], [0, 1, 2], ⟨some 3, [[true, false, false], [false, true, false]]⟩⟩,
    ⟨[0, 1], [0, 1, 2], ⟨some 3, [[true, true, false], [true, true, true]]⟩⟩⟩

/-- A dialog that confirms, completes and adds an example gives the same database in both orders, … -/
example : let ops : List (POp (Fin 4) (Fin 3)) := [.confirm ⟨{0}, {1}⟩, .complete, .addExample 2 ({1, 2}, {1, 2})]
    let s : PDB (Fin 4) (Fin 3) := ⟨pcxt, [], []⟩
    ops.foldl (fun s op => (op.exec envUp s).1) s = ops.foldl (fun s op => (op.exec envDown s).1) s :=
  (C170_partial_context (E := envUp) (E' := envDown) rfl (s := ⟨pcxt, [], []⟩) (by constructor <;> decide +kernel)
    (by constructor <;> decide +kernel) (by decide) (by decide) [] _).2.1

/-- … which has changed by it. -/
example : let ops : List (POp (Fin 4) (Fin 3)) := [.confirm ⟨{0}, {1}⟩, .complete, .addExample 2 ({1, 2}, {1, 2})]
    let s : PDB (Fin 4) (Fin 3) := ⟨pcxt, [], []⟩
    (ops.foldl (fun s op => (op.exec envUp s).1) s).ctx.objects = [0, 1, 2] ∧
    (ops.foldl (fun s op => (op.exec envUp s).1) s).ctx.x.nd.rows =
      [[true, true, false], [false, true, false], [false, true, true]] := by decide +kernel

end ExplorationOrder
