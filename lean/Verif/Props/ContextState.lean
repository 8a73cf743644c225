/-
Properties of basis computations as methods of a context object: C31, C33.
-/
import Verif.Model.ContextState
import Verif.Props.DG
import Verif.Props.Reduce

set_option linter.unusedSectionVars false

open Spec

variable {α β : Type} [DecidableEq α] [DecidableEq β]

/-- What a computation returns if every question is answered from the table. -/
def Prog.direct {R : Type} (c : Ctx α β) : Prog α β R → Py R
  | .done r => r
  | .askO i k => (k (c.intentByIndex i)).direct c
  | .askA j k => (k (c.extentByIndex j)).direct c

namespace CSt

open Ctx

/-- The stored answers are the current ones. -/
def Fits {γ : Type} (f : ℕ → Py (Finset γ)) (ms : List (Memo γ)) : Prop :=
  ∀ m ∈ ms, ∀ i v, m i = some v → f i = .ok v

theorem memoCall_ok {γ : Type} {f : ℕ → Py (Finset γ)} {ms : List (Memo γ)} (h : Fits f ms) (i : ℕ) :
    (memoCall f ms i).2 = f i ∧ Fits f (memoCall f ms i).1 ∧ (memoCall f ms i).1.length = ms.length := by
  induction ms with
  | nil => exact ⟨rfl, h, rfl⟩
  | cons m ms ih =>
    obtain ⟨h1, h2, h3⟩ := ih fun m' hm' => h m' (List.mem_cons_of_mem _ hm')
    unfold memoCall
    cases hm : m i with
    | some v => exact ⟨(h m (by simp) i v hm).symm, h, rfl⟩
    | none =>
      dsimp only
      cases hr : (memoCall f ms i).2 with
      | ok v =>
        dsimp only
        refine ⟨by rw [← h1, hr], ?_, by simp [h3]⟩
        intro m' hm' j w hw
        rcases List.mem_cons.1 hm' with rfl | hm'
        · by_cases hj : j = i
          · subst hj
            rw [Function.update_self] at hw
            rw [← h1, hr, Option.some.inj hw]
          · rw [Function.update_of_ne hj] at hw
            exact h m (by simp) j w hw
        · exact h2 m' hm' j w hw
      | error e =>
        dsimp only
        refine ⟨by rw [← h1, hr], ?_, by simp [h3]⟩
        intro m' hm' j w hw
        rcases List.mem_cons.1 hm' with rfl | hm'
        · exact h m' (by simp) j w hw
        · exact h2 m' hm' j w hw

/-- All stored answers of the object are the current ones. -/
structure Clean (s : CSt α β) : Prop where
  o : Fits s.ctx.intentByIndex s.memoO
  a : Fits s.ctx.extentByIndex s.memoA

/-- Same table and cached basis, same number of wrappers. -/
structure Same (s t : CSt α β) : Prop where
  ctx : t.ctx = s.ctx
  objBasis : t.objBasis = s.objBasis
  memoO : t.memoO.length = s.memoO.length
  memoA : t.memoA.length = s.memoA.length

theorem exec_ok {R : Type} (p : Prog α β R) {s : CSt α β} (h : Clean s) :
    (exec p s).2 = p.direct s.ctx ∧ Clean (exec p s).1 ∧ Same s (exec p s).1 := by
  induction p generalizing s with
  | done r => exact ⟨rfl, h, rfl, rfl, rfl, rfl⟩
  | askO i k ih =>
    obtain ⟨h1, h2, h3⟩ := memoCall_ok h.o i
    obtain ⟨k1, k2, k3⟩ := ih (s.askO i).2 (s := (s.askO i).1) ⟨h2, h.a⟩
    have he : (s.askO i).2 = s.ctx.intentByIndex i := h1
    refine ⟨?_, k2, k3.ctx, k3.objBasis, k3.memoO.trans h3, k3.memoA⟩
    show (exec (k (s.askO i).2) (s.askO i).1).2 = _
    rw [k1, he]; rfl
  | askA i k ih =>
    obtain ⟨h1, h2, h3⟩ := memoCall_ok h.a i
    obtain ⟨k1, k2, k3⟩ := ih (s.askA i).2 (s := (s.askA i).1) ⟨h.o, h2⟩
    have he : (s.askA i).2 = s.ctx.extentByIndex i := h1
    refine ⟨?_, k2, k3.ctx, k3.objBasis, k3.memoO, k3.memoA.trans h3⟩
    show (exec (k (s.askA i).2) (s.askA i).1).2 = _
    rw [k1, he]; rfl

theorem fits_tail {γ : Type} {f : ℕ → Py (Finset γ)} {ms : List (Memo γ)} (h : Fits f ms) : Fits f ms.tail :=
  fun m hm => h m (List.mem_of_mem_tail hm)

theorem fits_push {γ : Type} {f : ℕ → Py (Finset γ)} {ms : List (Memo γ)} (h : Fits f ms) :
    Fits f ((fun _ => none) :: ms) := by
  intro m hm i v hv
  rcases List.mem_cons.1 hm with rfl | hm
  · simp at hv
  · exact h m hm i v hv

theorem basisComputation_ok {R : Type} (p : Prog α β R) {s : CSt α β} (h : Clean s) :
    (s.basisComputation p).2 = p.direct s.ctx ∧ Clean (s.basisComputation p).1 ∧
      (∀ x, (s.basisComputation p).2 = .ok x → Same s (s.basisComputation p).1) := by
  obtain ⟨h1, h2, h3⟩ := exec_ok p
    (s := { s with memoO := (fun _ => none) :: s.memoO, memoA := (fun _ => none) :: s.memoA })
    ⟨fits_push h.o, fits_push h.a⟩
  unfold basisComputation
  dsimp only
  cases hr : (exec p { s with memoO := (fun _ => none) :: s.memoO, memoA := (fun _ => none) :: s.memoA }).2 with
  | ok x =>
    dsimp only
    refine ⟨by rw [← hr, h1], ⟨fits_tail h2.o, fits_tail h2.a⟩, fun _ _ => ⟨h3.ctx, h3.objBasis, ?_, ?_⟩⟩
    · have := h3.memoO
      simp only [List.length_cons] at this
      simp [this]
    · have := h3.memoA
      simp only [List.length_cons] at this
      simp [this]
  | error e =>
    dsimp only
    exact ⟨by rw [← hr, h1], h2, fun x hx => by simp at hx⟩

theorem basisComputation_ctx {R : Type} (p : Prog α β R) {s : CSt α β} (h : Clean s) :
    (s.basisComputation p).1.ctx = s.ctx := by
  obtain ⟨-, -, h3⟩ := exec_ok p
    (s := { s with memoO := (fun _ => none) :: s.memoO, memoA := (fun _ => none) :: s.memoA })
    ⟨fits_push h.o, fits_push h.a⟩
  unfold basisComputation
  dsimp only
  split <;> exact h3.ctx

variable [PyName α] [PyName β]

/-- No basis computation of the history raises. -/
def Quiet : CSt α β → List (Op α β) → Prop
  | _, [] => True
  | s, op :: ops => (s.step op).2 = none ∧ Quiet (s.step op).1 ops

/-- The mutators of a history. -/
def mods : List (Op α β) → List (TOp α β)
  | [] => []
  | .modify op :: ops => op :: mods ops
  | _ :: ops => mods ops

theorem step_plain {s : CSt α β} (hO : s.memoO = []) (hA : s.memoA = []) {op : Op α β} (hq : (s.step op).2 = none) :
    (s.step op).1.memoO = [] ∧ (s.step op).1.memoA = [] ∧
      (s.step op).1.ctx = (mods [op]).foldl (fun c op => (c.exec op).1) s.ctx := by
  have hc : Clean s := ⟨by rw [hO]; simp [Fits], by rw [hA]; simp [Fits]⟩
  cases op with
  | modify op => exact ⟨hO, hA, rfl⟩
  | askO i =>
    refine ⟨?_, hA, rfl⟩
    show (memoCall _ s.memoO i).1 = []
    rw [hO]; rfl
  | askA i =>
    refine ⟨hO, ?_, rfl⟩
    show (memoCall _ s.memoA i).1 = []
    rw [hA]; rfl
  | basis R p =>
    obtain ⟨-, -, h3⟩ := basisComputation_ok p hc
    simp only [step] at hq ⊢
    rcases hb : s.basisComputation p with ⟨s', x | e⟩
    · rw [hb] at hq; simp at hq
    · rw [hb] at h3
      have hs := h3 _ rfl
      have h1 := hs.memoO; have h2 := hs.memoA
      rw [hO] at h1; rw [hA] at h2
      exact ⟨List.length_eq_zero_iff.1 h1, List.length_eq_zero_iff.1 h2, hs.ctx⟩
  | objectImplications b =>
    simp only [step, objectImplications] at hq ⊢
    cases ht : s.ctx.transpose with
    | error e => rw [ht] at hq; simp at hq
    | ok t =>
      rw [ht] at hq
      dsimp only at hq ⊢
      split_ifs at hq ⊢ with hb
      · exact ⟨hO, hA, rfl⟩
      · cases hr : b t with
        | error e => rw [hr] at hq; simp at hq
        | ok r => exact ⟨hO, hA, rfl⟩

theorem mods_cons (op : Op α β) (ops : List (Op α β)) : mods (op :: ops) = mods [op] ++ mods ops := by
  cases op <;> rfl

theorem run_plain {ops : List (Op α β)} {s : CSt α β} (hO : s.memoO = []) (hA : s.memoA = []) (hq : Quiet s ops) :
    (run s ops).memoO = [] ∧ (run s ops).memoA = [] ∧
      (run s ops).ctx = (mods ops).foldl (fun c op => (c.exec op).1) s.ctx := by
  induction ops generalizing s with
  | nil => exact ⟨hO, hA, rfl⟩
  | cons op ops ih =>
    obtain ⟨h1, h2, h3⟩ := step_plain hO hA hq.1
    obtain ⟨k1, k2, k3⟩ := ih h1 h2 hq.2
    refine ⟨k1, k2, ?_⟩
    show (run (s.step op).1 ops).ctx = _
    rw [mods_cons, List.foldl_append, k3, h3]

theorem step_clean {s : CSt α β} (hc : Clean s) {op : Op α β} (hm : ∀ t, op ≠ .modify t) :
    Clean (s.step op).1 ∧ (s.step op).1.ctx = s.ctx := by
  cases op with
  | modify op => exact absurd rfl (hm op)
  | askO i => exact ⟨⟨(memoCall_ok hc.o i).2.1, hc.a⟩, rfl⟩
  | askA i => exact ⟨⟨hc.o, (memoCall_ok hc.a i).2.1⟩, rfl⟩
  | basis R p =>
    obtain ⟨h1, h2, -⟩ := basisComputation_ok p hc
    have h4 := basisComputation_ctx p hc
    simp only [step]
    rcases hb : s.basisComputation p with ⟨s', x | e⟩ <;> rw [hb] at h2 h4 <;> exact ⟨h2, h4⟩
  | objectImplications b =>
    have hp : Clean { s with memoO := (fun _ => none) :: s.memoO, memoA := (fun _ => none) :: s.memoA } :=
      ⟨fits_push hc.o, fits_push hc.a⟩
    simp only [step, objectImplications]
    cases ht : s.ctx.transpose with
    | error e => exact ⟨hp, rfl⟩
    | ok t =>
      dsimp only
      split_ifs with hb
      · exact ⟨hc, rfl⟩
      · cases hr : b t with
        | error e => exact ⟨hp, rfl⟩
        | ok r => exact ⟨⟨hc.o, hc.a⟩, rfl⟩

theorem run_clean {ops : List (Op α β)} {s : CSt α β} (hc : Clean s) (hm : ∀ op ∈ ops, ∀ t, op ≠ .modify t) :
    Clean (run s ops) ∧ (run s ops).ctx = s.ctx := by
  induction ops generalizing s with
  | nil => exact ⟨hc, rfl⟩
  | cons op ops ih =>
    obtain ⟨h1, h2⟩ := step_clean hc (hm op (by simp))
    obtain ⟨k1, k2⟩ := ih h1 fun o ho => hm o (List.mem_cons_of_mem _ ho)
    exact ⟨k1, k2.trans h2⟩

end CSt

open CSt Ctx

variable [PyName α] [PyName β]

/-! ### C33 -/

/-- The result of a basis computation does not depend on the caching, and after a history of calls in which no basis
computation raised, every query is answered from the current table, which is the result of the mutators alone. Missing from
C33: basis computations that raise (false, see below). -/
theorem C33_transparent_partial (c : Ctx α β) (ops : List (CSt.Op α β)) (hq : CSt.Quiet (CSt.new c) ops)
    (s : CSt α β) (hs : s = CSt.run (CSt.new c) ops) :
    s.ctx = (CSt.mods ops).foldl (fun c op => (c.exec op).1) c ∧
    (∀ i, (s.askO i).2 = s.ctx.intentByIndex i) ∧ (∀ j, (s.askA j).2 = s.ctx.extentByIndex j) ∧
    (∀ o, (s.objectIntent o).2 = s.ctx.objectIntent o) ∧ (∀ a, (s.attributeExtent a).2 = s.ctx.attributeExtent a) ∧
    ∀ (R : Type) (p : Prog α β R), (s.basisComputation p).2 = p.direct s.ctx := by
  obtain ⟨h1, h2, h3⟩ := CSt.run_plain (s := CSt.new c) rfl rfl hq
  rw [← hs] at h1 h2 h3
  have hc : CSt.Clean s := ⟨by rw [h1]; simp [CSt.Fits], by rw [h2]; simp [CSt.Fits]⟩
  refine ⟨h3, fun i => (CSt.memoCall_ok hc.o i).1, fun j => (CSt.memoCall_ok hc.a j).1, ?_, ?_,
    fun R p => (CSt.basisComputation_ok p hc).1⟩
  · intro o
    unfold CSt.objectIntent Ctx.objectIntent
    cases lastIdx s.ctx.objects o with
    | error e => rfl
    | ok i => exact (CSt.memoCall_ok hc.o i).1
  · intro a
    unfold CSt.attributeExtent Ctx.attributeExtent
    cases lastIdx s.ctx.attributes a with
    | error e => rfl
    | ok i => exact (CSt.memoCall_ok hc.a i).1

/-- After a basis computation raised, the queries stay right as long as the table is not modified. -/
theorem C33_unmodified_partial (c : Ctx α β) (ops ops' : List (CSt.Op α β)) (hq : CSt.Quiet (CSt.new c) ops)
    (hm : ∀ op ∈ ops', ∀ t, op ≠ .modify t) (s : CSt α β) (hs : s = CSt.run (CSt.new c) (ops ++ ops')) :
    s.ctx = (CSt.mods ops).foldl (fun c op => (c.exec op).1) c ∧
    (∀ i, (s.askO i).2 = s.ctx.intentByIndex i) ∧ (∀ j, (s.askA j).2 = s.ctx.extentByIndex j) ∧
    ∀ (R : Type) (p : Prog α β R), (s.basisComputation p).2 = p.direct s.ctx := by
  obtain ⟨h1, h2, h3⟩ := CSt.run_plain (s := CSt.new c) rfl rfl hq
  have hc : CSt.Clean (CSt.run (CSt.new c) ops) := ⟨by rw [h1]; simp [CSt.Fits], by rw [h2]; simp [CSt.Fits]⟩
  have hrun : s = CSt.run (CSt.run (CSt.new c) ops) ops' := by
    rw [hs]; simp only [CSt.run, List.foldl_append]
  obtain ⟨k1, k2⟩ := CSt.run_clean hc hm
  rw [← hrun] at k1 k2
  exact ⟨k2.trans h3, fun i => (CSt.memoCall_ok k1.o i).1, fun j => (CSt.memoCall_ok k1.a j).1,
    fun R p => (CSt.basisComputation_ok p k1).1⟩

namespace CSt

def wit : Ctx (Fin 2) (Fin 2) := ⟨[0, 1], [0, 1], ⟨some 2, [[true, true], [false, true]]⟩⟩

theorem wit_wf : wit.WF := ⟨by constructor <;> decide +kernel, .inr rfl⟩

/-- A computation of all rows. -/
def allRows : Prog (Fin 2) (Fin 2) (List (Finset (Fin 2))) :=
  .askO 0 fun r => .askO 1 fun q => .done (do let x ← r; let y ← q; .ok [x, y])

end CSt

example : CSt.Quiet (CSt.new CSt.wit) [.basis _ CSt.allRows, .modify (.setObjectIntent [0] 1), .askO 1] ∧
    (CSt.run (CSt.new CSt.wit) [.basis _ CSt.allRows, .modify (.setObjectIntent [0] 1), .askO 1]).ctx.intentByIndex 1 =
      .ok {0} := by
  refine ⟨⟨by decide +kernel, by decide +kernel, by decide +kernel, trivial⟩, by decide +kernel⟩

example : ∀ op ∈ ([.objectImplications (CSt.dgBasisNone (SetOrder.fin 2) (SetOrder.fin 2)), .askO 1, .askO 1] :
    List (CSt.Op (Fin 2) (Fin 2))), ∀ t, op ≠ .modify t := by
  intro op hop t
  simp only [List.mem_cons, List.not_mem_nil, or_false] at hop
  rcases hop with rfl | rfl | rfl <;> simp

/-- Reading `object_implications` raises (see C31) and leaves the wrappers installed; afterwards `get_object_intent`
does not see changes of the table any more. -/
theorem C33_stale_violated :
    (∃ e, ((CSt.new CSt.wit).step (.objectImplications (CSt.dgBasisNone (SetOrder.fin 2) (SetOrder.fin 2)))).2 = some e) ∧
    ∃ s : CSt (Fin 2) (Fin 2), s = CSt.run (CSt.new CSt.wit)
        [.objectImplications (CSt.dgBasisNone (SetOrder.fin 2) (SetOrder.fin 2)), .askO 1,
          .modify (.setObjectIntent [0] 1)] ∧
      s.ctx.objectIntent 1 = .ok {0} ∧ (s.objectIntent 1).2 = .ok {1} := by
  exact ⟨⟨.typeError, by decide +kernel⟩, _, rfl, by decide +kernel, by decide +kernel⟩

/-! ### C31 -/

/-- `object_implications` (default arguments) raises TypeError for every context with an object and an attribute. -/
theorem C31_default_raises_violated {c : Ctx α β} (h : c.WFw) (ho : c.objects ≠ []) (ha : c.attributes ≠ [])
    (ordA : SetOrder α) (ordO : SetOrder β) :
    ((CSt.new c).objectImplications (CSt.dgBasisNone ordA ordO)).2 = .error .typeError := by
  obtain ⟨d, hd, -⟩ := h.transpose
  obtain ⟨h1, h2, h3, h4⟩ := h.transpose_inc hd
  have hl : d.attributes.length ≠ 0 := by rw [h3]; simpa using ho
  have hcl := h1.toWFw.dgAclose (h1.toWFw.cols (by rw [h2]; exact ha)) ordA ordO (s := ∅) (by simp)
  unfold CSt.objectImplications
  simp only [CSt.new, hd, CSt.dgBasisNone, if_neg hl, hcl, py_ok_bind]
  simp

example : CSt.wit.WFw ∧ CSt.wit.objects ≠ [] ∧ CSt.wit.attributes ≠ [] :=
  ⟨CSt.wit_wf.toWFw, by decide, by decide⟩

/-- With `confirmed=[]` the first call on an object returns a basis of the object implications of the current table:
the implications hold and every implication between sets of objects that holds follows. Later calls return the same
list. Missing from C31: the default argument, and modifications between two calls (both false). -/
theorem C31_first_call_partial (s : CSt α β) (h : s.ctx.WFw) (ha : s.ctx.attributes ≠ []) (hb : s.objBasis = [])
    (ordA : SetOrder α) (ordO : SetOrder β) (close : Finset α → List (Imp α) → Finset α)
    (hclose : Ctx.StdClose [] close) :
    ∃ res s', s.objectImplications (fun t => t.dgBasisWith ordA ordO close [] fun _ => true) = (s', .ok res) ∧
      s'.ctx = s.ctx ∧ s'.memoO = s.memoO ∧ s'.memoA = s.memoA ∧
      (∀ imp ∈ res, imp.premise ⊂ imp.conclusion ∧ imp.conclusion ⊆ s.ctx.G) ∧
      (∀ P C : Finset α, P ⊆ s.ctx.G → C ⊆ s.ctx.G →
        ((∀ a ∈ s.ctx.M, (∀ o ∈ P, s.ctx.Inc o a) → ∀ o ∈ C, s.ctx.Inc o a) ↔ Entails (specImps res) P C)) ∧
      (s'.objectImplications (fun t => t.dgBasisWith ordA ordO close [] fun _ => true)).2 = .ok res := by
  obtain ⟨d, hd, -⟩ := h.transpose
  obtain ⟨h1, h2, h3, h4⟩ := h.transpose_inc hd
  have hM : d.M = s.ctx.G := by unfold Ctx.M Ctx.G; rw [h3]
  have hG : d.G = s.ctx.M := by unfold Ctx.M Ctx.G; rw [h2]
  have hv : d.ValidBg [] := by intro i hi; simp at hi
  obtain ⟨res, hres⟩ := C24_basis_returns h1.toWFw (by rw [h2]; exact ha) ordA ordO close [] hclose
    (by simp) (fun _ => true)
  have hcall : s.objectImplications (fun t => t.dgBasisWith ordA ordO close [] fun _ => true) =
      ({ s with objBasis := res }, .ok res) := by
    unfold CSt.objectImplications
    simp only [hd, hb, ne_eq, not_true_eq_false, if_false, hres]
  refine ⟨res, _, hcall, rfl, rfl, rfl, ?_, ?_, ?_⟩
  · intro imp himp
    obtain ⟨-, -, k3, k4, -⟩ := C24_basis_sound h1.toWFw ordA ordO close [] (fun _ => true) res hres imp himp
    refine ⟨k4, ?_⟩
    rw [k3, ← hM]
    intro x hx
    simp only [attrClosure, Finset.mem_filter] at hx
    exact hx.1
  · intro P C hP hC
    have := C25_basis_complete h1.toWFw ordA ordO close [] hclose hv res hres P C (hM ▸ hP) (hM ▸ hC)
    rw [List.append_nil] at this
    rw [← this]
    unfold HoldsIn
    rw [hG]
    simp only [h4]
  · unfold CSt.objectImplications
    by_cases hr : res = []
    · simp only [hd, hr, ne_eq, not_true_eq_false, if_false, hres]
    · simp only [hd, hr, ne_eq, not_false_eq_true, if_true]

example : (CSt.new CSt.wit).ctx.WFw ∧ (CSt.new CSt.wit).objBasis = [] ∧
    ((CSt.new CSt.wit).objectImplications
      (fun t => t.dgBasisWith (SetOrder.fin 2) (SetOrder.fin 2) simpleClosure [] fun _ => true)).2 =
      .ok [⟨∅, {0}⟩] :=
  ⟨CSt.wit_wf.toWFw, rfl, by decide +kernel⟩

/-- The cached basis outlives modifications: after `set_attribute_extent` the second call returns an implication that does
not hold in the table. -/
theorem C31_stale_violated :
    ∃ s : CSt (Fin 2) (Fin 2), s = CSt.run (CSt.new CSt.wit)
        [.objectImplications fun t => t.dgBasisWith (SetOrder.fin 2) (SetOrder.fin 2) simpleClosure [] fun _ => true,
          .modify (.setObjectIntent [1] 0), .modify (.setObjectIntent [0] 1)] ∧ s.ctx.WFw ∧
      ∃ res imp, (s.objectImplications
          fun t => t.dgBasisWith (SetOrder.fin 2) (SetOrder.fin 2) simpleClosure [] fun _ => true).2 = .ok res ∧
        imp ∈ res ∧
        ¬ ∀ a ∈ s.ctx.M, (∀ o ∈ imp.premise, s.ctx.Inc o a) → ∀ o ∈ imp.conclusion, s.ctx.Inc o a := by
  have hw : (CSt.run (CSt.new CSt.wit)
        [.objectImplications fun t => t.dgBasisWith (SetOrder.fin 2) (SetOrder.fin 2) simpleClosure [] fun _ => true,
          .modify (.setObjectIntent [1] 0), .modify (.setObjectIntent [0] 1)]).ctx.WFw := by
    constructor <;> decide +kernel
  refine ⟨_, rfl, hw, [⟨∅, {0}⟩], ⟨∅, {0}⟩, by decide +kernel, by simp, ?_⟩
  simp only [← hw.incB]
  decide +kernel
