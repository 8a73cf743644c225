/-
Model of fca/context.py:281-285 `get_attribute_canonical_basis`, decorated with `basis_computation`:
fca/algorithms/aibasis.py as a program that asks the object for rows and columns, and which of these questions reach the
table.
-/
import Verif.Model.NestedBasis
import Verif.Model.AIBasis

namespace Act

variable {α β : Type} [DecidableEq α] [DecidableEq β]

/-- `cxt.get_object_intent_by_index(i)`. -/
def row (i : ℕ) : Act α β (Finset β) := .askO i .done

/-- `cxt.get_attribute_extent_by_index(j)`. -/
def column (j : ℕ) : Act α β (Finset α) := .askA j .done

/-- fca/algorithms/aibasis.py:16-20: the loop of `kclosure` over the generator `cxt.examples()` (fca/context.py:319-325),
which asks for a row when the loop asks for its next item. -/
def kclosureLoop (s : Finset β) : List ℕ → Finset β → Act α β (Finset β)
  | [], cl => .done (.ok cl)
  | i :: rest, cl => (row i).bind fun o =>
    if s = cl then .done (.ok cl)
    else if s ⊆ o then kclosureLoop s rest (cl ∩ o) else kclosureLoop s rest cl

/-- fca/algorithms/aibasis.py:11-21 `kclosure(s, k, cxt)`. -/
def kclosure (s : Finset β) (k : ℕ) : Act α β (Finset β) :=
  .look fun c => kclosureLoop s (List.range c.objects.length) (c.attributes.take k).toFinset

/-- fca/algorithms/aibasis.py:95-111 `process_stable_concept`. -/
def stableConcept (closure : Finset β → Act α β (Finset β)) (m : β) (extent : Finset α) (p : AI.Pre α β) (st : AI.St α β) :
    Act α β (AI.St α β) :=
  let premise := insert m p.set
  if st.newStable.all fun i => i.isRespected premise then
    (closure premise).bind fun cl =>
      if cl = premise then
        .done (.ok { st with newPre := st.newPre ++ [⟨p.ext ∩ extent, premise, none⟩] })
      else
        .done (.ok { st with
          newStable := st.newStable ++ [⟨premise, cl⟩]
          newPre := st.newPre ++ [⟨p.ext ∩ extent, premise, some cl⟩] })
  else .done (.ok st)

/-- fca/algorithms/aibasis.py:60-76: the loop over `preclosed`. The cases that do not ask the context are those of
`AI.stepPre`. -/
def loopPre (closure : Finset β → Act α β (Finset β)) (m : β) (extent : Finset α) :
    List (AI.Pre α β) → AI.St α β → Act α β (AI.St α β)
  | [], st => .done (.ok st)
  | p :: rest, st =>
    if p.ext ⊆ extent then
      loopPre closure m extent rest (if p.isConcept then AI.modifiedConcept m p st else AI.modifiedImplication m p st)
    else
      let st' := { st with newPre := st.newPre ++ [p] }
      if p.isConcept then (stableConcept closure m extent p st').bind fun st'' => loopPre closure m extent rest st''
      else loopPre closure m extent rest { st' with oldStable := st'.oldStable ++ [p.imp] }

/-- fca/algorithms/aibasis.py:45-92 `update_preclosed(i, cxt, preclosed, close)`. -/
def updatePreclosed (sort : List (AI.Pre α β) → List (AI.Pre α β)) (close : Finset β → List (Imp β) → Finset β)
    (i : ℕ) (preclosed : List (AI.Pre α β)) : Act α β (List (AI.Pre α β) × List (Imp β)) :=
  (Act.look fun c => .done (pyGet c.attributes i)).bind fun m =>
    (column i).bind fun extent =>
      (loopPre (fun s => kclosure s (i + 1)) m extent preclosed {}).bind fun st =>
        let r := AI.loopNonMin close (st.oldStable ++ st.newStable ++ st.minMod) st.nonMin.reverse [] st.modExtra
        .done (.ok (st.newPre ++ sort r.2, r.1))

/-- fca/algorithms/aibasis.py:40-41: the loop over the attribute indices. -/
def basisLoop (sort : List (AI.Pre α β) → List (AI.Pre α β)) (close : Finset β → List (Imp β) → Finset β) :
    List ℕ → List (AI.Pre α β) → List (Imp β) → Act α β (List (Imp β))
  | [], _, basis => .done (.ok basis)
  | i :: rest, pre, _ => (updatePreclosed sort close i pre).bind fun r => basisLoop sort close rest r.1 r.2

/-- fca/algorithms/aibasis.py:35-42 `compute_canonical_basis(cxt, close)`. -/
def canonicalBasis (sort : List (AI.Pre α β) → List (AI.Pre α β)) (close : Finset β → List (Imp β) → Finset β) :
    Act α β (List (Imp β)) :=
  .look fun c => basisLoop sort close (List.range c.attributes.length) [⟨c.objects.toFinset, ∅, none⟩] []

/-- fca/context.py:281-285 `get_attribute_canonical_basis()`, decorated; `get_basis(self)` uses the default `close`. -/
def attributeCanonicalBasis (sort : List (AI.Pre α β) → List (AI.Pre α β)) : Act α β (List (Imp β)) :=
  .nested (canonicalBasis sort simpleClosure) .done

end Act

/-- fca/context.py:73-78: the question reaches the function below all the wrappers. -/
def memoMiss {γ : Type} (ms : List (Memo γ)) (i : ℕ) : Bool := ms.all fun m => (m i).isNone

namespace CSt

variable {α β : Type} [DecidableEq α] [DecidableEq β] [PyName α] [PyName β]

/-- The rows read from the table while the program runs (executions of the body of fca/context.py:330-337 without
exception), in this order. -/
def rowReads {R : Type} : Act α β R → CSt α β → List ℕ
  | .done _, _ => []
  | .look k, s => rowReads (k s.ctx) s
  | .askO i k, s =>
    (if memoMiss s.memoO i ∧ (s.ctx.intentByIndex i).isOk then [i] else []) ++ rowReads (k (s.askO i).2) (s.askO i).1
  | .askA j k, s => rowReads (k (s.askA j).2) (s.askA j).1
  | .modify op k, s => rowReads (k (s.ctx.exec op).2) { s with ctx := (s.ctx.exec op).1 }
  | .nested p k, s =>
    let r := act p s.push
    rowReads p s.push ++ match r.2 with
      | .ok x => rowReads (k (.ok x)) (s.restore r.1)
      | .error e => rowReads (k (.error e)) r.1

/-- The columns read from the table while the program runs (fca/context.py:343-350). -/
def columnReads {R : Type} : Act α β R → CSt α β → List ℕ
  | .done _, _ => []
  | .look k, s => columnReads (k s.ctx) s
  | .askO i k, s => columnReads (k (s.askO i).2) (s.askO i).1
  | .askA j k, s =>
    (if memoMiss s.memoA j ∧ (s.ctx.extentByIndex j).isOk then [j] else []) ++ columnReads (k (s.askA j).2) (s.askA j).1
  | .modify op k, s => columnReads (k (s.ctx.exec op).2) { s with ctx := (s.ctx.exec op).1 }
  | .nested p k, s =>
    let r := act p s.push
    columnReads p s.push ++ match r.2 with
      | .ok x => columnReads (k (.ok x)) (s.restore r.1)
      | .error e => columnReads (k (.error e)) r.1

end CSt
