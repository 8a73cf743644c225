/-
Model of a `Context` object together with the parts of its state that basis computations change:
fca/context.py `memo`, `basis_computation`, `get_object_implications`.
-/
import Verif.Model.DGContext
import Verif.Model.ContextOps
import Verif.Lemmas.ContextOps

/-- fca/context.py:68-84 `memo`: the dict `cache` of one wrapper (index to answer). -/
abbrev Memo (γ : Type) := ℕ → Option (Finset γ)

/-- A `Context` object: the table with its names, the attribute `_obj_imp_basis` (`[]` stands for `None` as well: both
are replaced at the next call, fca/context.py:312), and the wrappers installed on the object around
`get_object_intent_by_index` and `get_attribute_extent_by_index`, outermost first. -/
structure CSt (α β : Type) where
  ctx : Ctx α β
  objBasis : List (Imp α)
  memoO : List (Memo β)
  memoA : List (Memo α)

/-- A deterministic computation that asks the context for rows and columns by index. -/
inductive Prog (α β R : Type) where
  | done (r : Py R)
  | askO (i : ℕ) (k : Py (Finset β) → Prog α β R)
  | askA (j : ℕ) (k : Py (Finset α) → Prog α β R)

/-- fca/context.py:73-78: the call of a wrapped function through all its wrappers. -/
def memoCall {γ : Type} (f : ℕ → Py (Finset γ)) : List (Memo γ) → ℕ → List (Memo γ) × Py (Finset γ)
  | [], i => ([], f i)
  | m :: ms, i =>
    match m i with
    | some v => (m :: ms, .ok v)
    | none =>
      let r := memoCall f ms i
      match r.2 with
      | .ok v => (Function.update m i (some v) :: r.1, .ok v)
      | .error e => (m :: r.1, .error e)

namespace CSt

variable {α β : Type} [DecidableEq α] [DecidableEq β]

/-- A new object. -/
def new (c : Ctx α β) : CSt α β := ⟨c, [], [], []⟩

/-- fca/context.py:330-337 `get_object_intent_by_index`, through the wrappers. -/
def askO (s : CSt α β) (i : ℕ) : CSt α β × Py (Finset β) :=
  let r := memoCall s.ctx.intentByIndex s.memoO i
  ({ s with memoO := r.1 }, r.2)

/-- fca/context.py:343-350 `get_attribute_extent_by_index`, through the wrappers. -/
def askA (s : CSt α β) (j : ℕ) : CSt α β × Py (Finset α) :=
  let r := memoCall s.ctx.extentByIndex s.memoA j
  ({ s with memoA := r.1 }, r.2)

/-- fca/context.py:339-341 `get_object_intent`. -/
def objectIntent (s : CSt α β) (o : α) : CSt α β × Py (Finset β) :=
  match lastIdx s.ctx.objects o with
  | .ok i => s.askO i
  | .error e => (s, .error e)

/-- fca/context.py:352-354 `get_attribute_extent`. -/
def attributeExtent (s : CSt α β) (a : β) : CSt α β × Py (Finset α) :=
  match lastIdx s.ctx.attributes a with
  | .ok j => s.askA j
  | .error e => (s, .error e)

/-- A computation on the object. -/
def exec {R : Type} : Prog α β R → CSt α β → CSt α β × Py R
  | .done r, s => (s, r)
  | .askO i k, s => let r := s.askO i; exec (k r.2) r.1
  | .askA j k, s => let r := s.askA j; exec (k r.2) r.1

/-- fca/context.py:97-110 `basis_computation(f)`, for `f` a computation that queries the object and does not modify it
(the sets obtained are not modified in place). If `f` raises, the wrappers stay. -/
def basisComputation {R : Type} (p : Prog α β R) (s : CSt α β) : CSt α β × Py R :=
  let r := exec p { s with memoO := (fun _ => none) :: s.memoO, memoA := (fun _ => none) :: s.memoA }
  match r.2 with
  | .ok x => ({ r.1 with memoO := r.1.memoO.tail, memoA := r.1.memoA.tail }, .ok x)
  | .error e => (r.1, .error e)

/-- fca/context.py:307-314 `get_object_implications`; `basis` is the function applied to the transposed context, a new
object, with the value of `confirmed`. -/
def objectImplications [PyName α] [PyName β] (basis : Ctx β α → Py (List (Imp α))) (s : CSt α β) :
    CSt α β × Py (List (Imp α)) :=
  let s' : CSt α β := { s with memoO := (fun _ => none) :: s.memoO, memoA := (fun _ => none) :: s.memoA }
  match s.ctx.transpose with
  | .error e => (s', .error e)
  | .ok t =>
    if s.objBasis ≠ [] then (s, .ok s.objBasis)
    else match basis t with
      | .ok r => ({ s with objBasis := r }, .ok r)
      | .error e => (s', .error e)

/-- fca/algorithms/dg_basis.py:57-96 with `imp_basis=None` and `lin_closure`: the loop is entered iff there is an attribute
(lin_closure returns `set()` for `None`, closure_operators.py:135), the closure of `set()` is computed, and then the last
attribute, not in `set()`, leads to `relative_basis + None` (line 90). -/
def dgBasisNone (ordA : SetOrder α) (ordO : SetOrder β) (t : Ctx β α) : Py (List (Imp α)) :=
  if t.attributes.length = 0 then .ok []
  else do
    let _ ← t.dgAclose ordA ordO ∅
    .error .typeError

/-- The calls a history consists of: mutators, queries, basis computations. -/
inductive Op (α β : Type) where
  | modify (op : Spec.TOp α β)
  | askO (i : ℕ)
  | askA (j : ℕ)
  | basis (R : Type) (p : Prog α β R)
  | objectImplications (basis : Ctx β α → Py (List (Imp α)))

/-- One call: the new state, and the exception raised by a basis computation. Mutators call `__init__` again, which
changes none of the other attributes of the object (fca/context.py:201-247). -/
def step [PyName α] [PyName β] (s : CSt α β) : Op α β → CSt α β × Option PyErr
  | .modify op => ({ s with ctx := (s.ctx.exec op).1 }, none)
  | .askO i => ((s.askO i).1, none)
  | .askA j => ((s.askA j).1, none)
  | .basis _ p =>
    match s.basisComputation p with
    | (s', .ok _) => (s', none)
    | (s', .error e) => (s', some e)
  | .objectImplications b =>
    match s.objectImplications b with
    | (s', .ok _) => (s', none)
    | (s', .error e) => (s', some e)

/-- A history. -/
def run [PyName α] [PyName β] (s : CSt α β) (ops : List (Op α β)) : CSt α β := ops.foldl (fun s op => (s.step op).1) s

end CSt
