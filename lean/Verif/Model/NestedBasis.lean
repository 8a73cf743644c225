/-
Model of basis computations with functions of the caller that use the same context object: fca/context.py
`basis_computation`, `get_attribute_implications` with an argument `cond` (or `basis`) that asks the context, computes
further bases or changes the context.
-/
import Verif.Model.ContextState

/-- A deterministic program on a `Context` object: it reads the lists of names and the table, asks for rows and columns by
index, calls mutators, and calls methods decorated with `basis_computation` (whose exceptions it may catch). -/
inductive Act (α β : Type) : Type → Type 1 where
  | done {R : Type} (r : Py R) : Act α β R
  | look {R : Type} (k : Ctx α β → Act α β R) : Act α β R
  | askO {R : Type} (i : ℕ) (k : Py (Finset β) → Act α β R) : Act α β R
  | askA {R : Type} (j : ℕ) (k : Py (Finset α) → Act α β R) : Act α β R
  | modify {R : Type} (op : Spec.TOp α β) (k : Option PyErr → Act α β R) : Act α β R
  | nested {R Q : Type} (p : Act α β Q) (k : Py Q → Act α β R) : Act α β R

namespace Act

variable {α β : Type}

/-- One program after the other; an exception of the first ends both. -/
def bind {R S : Type} (f : R → Act α β S) : Act α β R → Act α β S
  | .done (.ok x) => f x
  | .done (.error e) => .done (.error e)
  | .look k => .look fun c => (k c).bind f
  | .askO i k => .askO i fun r => (k r).bind f
  | .askA j k => .askA j fun r => (k r).bind f
  | .modify op k => .modify op fun r => (k r).bind f
  | .nested p k => .nested p fun r => (k r).bind f

variable [DecidableEq α] [DecidableEq β]

/-- fca/context.py:339-341 `get_object_intent`. -/
def objectIntent (o : α) : Act α β (Finset β) :=
  .look fun c => match lastIdx c.objects o with
    | .ok i => .askO i .done
    | .error e => .done (.error e)

/-- fca/context.py:352-354 `get_attribute_extent`. -/
def attributeExtent (a : β) : Act α β (Finset α) :=
  .look fun c => match lastIdx c.attributes a with
    | .ok j => .askA j .done
    | .error e => .done (.error e)

/-- fca/algorithms/closure_operators.py:14-15: the loop of `oprime`. -/
def oprimeLoop : List α → Finset β → Act α β (Finset β)
  | [], acc => .done (.ok acc)
  | o :: os, acc => (objectIntent o).bind fun s => oprimeLoop os (acc ∩ s)

/-- fca/algorithms/closure_operators.py:24-25: the loop of `aprime`. -/
def aprimeLoop : List β → Finset α → Act α β (Finset α)
  | [], acc => .done (.ok acc)
  | a :: as, acc => (attributeExtent a).bind fun s => aprimeLoop as (acc ∩ s)

/-- fca/algorithms/closure_operators.py:8-16, 18-26, 33-35 `aclosure` (as a set) on the object. -/
def aclose (ordA : SetOrder β) (ordO : SetOrder α) (s : Finset β) : Act α β (Finset β) :=
  (Act.look fun c => aprimeLoop (ordA.enum s) c.objects.toFinset).bind fun objs =>
    .look fun c => oprimeLoop (ordO.enum objs) c.attributes.toFinset

/-- fca/algorithms/dg_basis.py:74-96: the `while` loop (see `dgLoop`), where `cond(a)` is a program. -/
def dgLoop (atts : List β) (ordA : SetOrder β) (ordO : SetOrder α) (close : Finset β → List (Imp β) → Finset β)
    (bg : List (Imp β)) (cond : Finset β → Act α β Bool) :
    ℕ → List (Imp β) → Finset β → ℕ → Act α β (List (Imp β))
  | 0, _, _, _ => .done (.error .genericException)
  | fuel + 1, basis, a, i =>
    if a.card < atts.length then
      (aclose ordA ordO a).bind fun ac =>
        (if a ≠ ac then cond a else .done (.ok false)).bind fun yes =>
          let basis' := if yes then basis ++ [⟨a, ac⟩] else basis
          if (ac \ a) ∩ (atts.take i).toFinset ≠ ∅ then
            let r := dgNext close atts (basis' ++ bg) i (a \ (atts.drop i).toFinset)
            dgLoop atts ordA ordO close bg cond fuel basis' r.1 (r.2.getD i)
          else if ac.card = atts.length then .done (.ok basis')
          else
            let r := dgNext close atts (basis' ++ bg) atts.length ac
            dgLoop atts ordA ordO close bg cond fuel basis' r.1 (r.2.getD atts.length)
    else .done (.ok basis)

/-- fca/algorithms/dg_basis.py:11-25, 28-40 `compute_dg_basis(cxt, close, imp_basis, cond)`, not called through a method of
the context. The list of attributes is read once: programs `cond` that change it are not covered (`delete_attribute`
changes it in place). -/
def dgBasis (ordA : SetOrder β) (ordO : SetOrder α) (close : Finset β → List (Imp β) → Finset β)
    (bg : List (Imp β)) (cond : Finset β → Act α β Bool) : Act α β (List (Imp β)) :=
  .look fun c =>
    dgLoop c.attributes ordA ordO close bg cond (2 ^ c.attributes.length + 1) [] (close ∅ bg) c.attributes.length

/-- fca/context.py:292-297 `get_attribute_implications(basis, confirmed, cond)`, decorated. -/
def attributeImplications (ordA : SetOrder β) (ordO : SetOrder α) (close : Finset β → List (Imp β) → Finset β)
    (bg : List (Imp β)) (cond : Finset β → Act α β Bool) : Act α β (List (Imp β)) :=
  .nested (dgBasis ordA ordO close bg cond) .done

end Act

namespace CSt

variable {α β : Type} [DecidableEq α] [DecidableEq β] [PyName α] [PyName β]

/-- fca/context.py:99-102: new wrappers around the functions found on the object. -/
def push (s : CSt α β) : CSt α β :=
  { s with memoO := (fun _ => none) :: s.memoO, memoA := (fun _ => none) :: s.memoA }

/-- fca/context.py:104-107: the functions found at the start (`s`) are put back. They still go through the wrappers that
were installed then, with what has been stored in these since. Wrappers left by computations that raised in between are
dropped. -/
def restore (s t : CSt α β) : CSt α β :=
  { t with memoO := t.memoO.drop (t.memoO.length - s.memoO.length),
           memoA := t.memoA.drop (t.memoA.length - s.memoA.length) }

/-- A program run on the object. fca/context.py:97-110 `basis_computation`: no `finally`, if the inner program raises the
wrappers stay. -/
def act {R : Type} : Act α β R → CSt α β → CSt α β × Py R
  | .done r, s => (s, r)
  | .look k, s => act (k s.ctx) s
  | .askO i k, s => act (k (s.askO i).2) (s.askO i).1
  | .askA j k, s => act (k (s.askA j).2) (s.askA j).1
  | .modify op k, s => act (k (s.ctx.exec op).2) { s with ctx := (s.ctx.exec op).1 }
  | .nested p k, s =>
    let r := act p s.push
    match r.2 with
    | .ok x => act (k (.ok x)) (s.restore r.1)
    | .error e => act (k (.error e)) r.1

end CSt
