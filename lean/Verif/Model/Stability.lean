/-
Model of fca/algorithms/filtering (stability.py, separation.py, extentsize.py, intentsize.py,
filter.py). Quotients of integers are rationals (the code returns their floating-point rounding).
-/
import Verif.Model.Lattice
import Mathlib.Algebra.Field.Rat

variable {α β : Type} [DecidableEq α] [DecidableEq β]

/-! ### stability.py -/

/-- fca/algorithms/filtering/stability.py:49-54 (and 91-96): the inner loop over the remaining
concepts after `b` was removed. State: `count`, `subsets`, work-set. `below b c` is the condition
of the `if`. -/
def stabRelax (below : Concept α β → Concept α β → Bool) (b : Concept α β) (rem : List (Concept α β))
    (st : (Concept α β → ℤ) × (Concept α β → ℤ) × Finset (Concept α β)) :
    (Concept α β → ℤ) × (Concept α β → ℤ) × Finset (Concept α β) :=
  rem.foldl (fun st c =>
    if below b c then
      let sub := Function.update st.2.1 c (st.2.1 c - st.2.1 b)
      let cnt := Function.update st.1 c (st.1 c - 1)
      (cnt, sub, if cnt c = 0 then insert c st.2.2 else st.2.2)
    else st) st

/-- fca/algorithms/filtering/stability.py:44-54 (and 86-96): the `while` loop. The element popped from the
work-set in round `k` is the first one in the order `ord k`; popping an empty set raises KeyError, removing
an absent concept ValueError. `none` = fuel exhausted. -/
def stabLoop (below : Concept α β → Concept α β → Bool) (size : Concept α β → ℕ)
    (ord : ℕ → SetOrder (Concept α β)) :
    ℕ → List (Concept α β) → (Concept α β → ℤ) → (Concept α β → ℤ) → Finset (Concept α β) →
    (Concept α β → Option ℚ) → Option (Py (Concept α β → Option ℚ))
  | 0, _, _, _, _, _ => none
  | fuel + 1, rem, cnt, sub, work, stab =>
    if rem = [] then some (.ok stab)
    else
      match (ord fuel).enum work with
      | [] => some (.error .keyError)
      | b :: _ =>
        let stab' := Function.update stab b (some ((sub b : ℚ) / ((2 ^ size b : ℕ) : ℚ)))
        if b ∈ rem then
          let st := stabRelax below b (rem.erase b) (cnt, sub, work.erase b)
          stabLoop below size ord fuel (rem.erase b) st.1 st.2.1 st.2.2 stab'
        else some (.error .valueError)

/-- fca/algorithms/filtering/stability.py:16-55 `compute_istability`. -/
def istability (ord : ℕ → SetOrder (Concept α β)) (cs : List (Concept α β)) :
    Option (Py (Concept α β → Option ℚ)) :=
  match csBottom cs with
  | .error e => some (.error e)
  | .ok b =>
    stabLoop (fun b c => decide (c.intent ⊂ b.intent)) (fun c => c.extent.card) ord (cs.length + 1) cs
      (fun c => (cs.filter fun d => decide (d.extent ⊂ c.extent)).length) (fun c => ((2 ^ c.extent.card : ℕ) : ℤ))
      {b} (fun _ => none)

/-- fca/algorithms/filtering/stability.py:57-97 `compute_estability`. -/
def estability (ord : ℕ → SetOrder (Concept α β)) (cs : List (Concept α β)) :
    Option (Py (Concept α β → Option ℚ)) :=
  match csTop cs with
  | .error e => some (.error e)
  | .ok t =>
    stabLoop (fun b c => decide (b.intent ⊂ c.intent)) (fun c => c.intent.card) ord (cs.length + 1) cs
      (fun c => (cs.filter fun d => decide (d.intent ⊂ c.intent)).length) (fun c => ((2 ^ c.intent.card : ℕ) : ℤ))
      {t} (fun _ => none)

/-! ### Other indices -/

/-- `a / b` for integers. -/
def pyDiv (a b : ℤ) : Py ℚ := if b = 0 then .error .zeroDivisionError else .ok ((a : ℚ) / b)

/-- fca/algorithms/filtering/separation.py:12-26: the index of one concept; `ordO`, `ordA` are the
iteration orders of extent and intent. -/
def separationOf (c : Ctx α β) (ordO : SetOrder α) (ordA : SetOrder β) (x : Concept α β) : Py ℚ := do
  let square : ℤ := (x.intent.card : ℤ) * x.extent.card
  let ea ← (ordA.enum x.intent).mapM c.attributeExtent
  let eo ← (ordO.enum x.extent).mapM c.objectIntent
  let crossed : ℤ := (ea.map fun s => (s.card : ℤ)).sum + (eo.map fun s => (s.card : ℤ)).sum - square
  if square = 0 then .ok 1 else pyDiv square crossed

/-- fca/algorithms/filtering/separation.py:8-28 `compute_separation_index`: dict items in the order of
the concepts. -/
def separation (c : Ctx α β) (ordO : SetOrder α) (ordA : SetOrder β) (cs : List (Concept α β)) :
    Py (List (Concept α β × ℚ)) :=
  cs.mapM fun x => do
    let q ← separationOf c ordO ordA x
    .ok (x, q)

/-- fca/algorithms/filtering/extentsize.py:3-10 `compute_extent_size`. -/
def extentSize (c : Ctx α β) (cs : List (Concept α β)) : Py (List (Concept α β × ℚ)) :=
  cs.mapM fun x => do
    let q ← pyDiv x.extent.card c.objects.length
    .ok (x, q)

/-- fca/algorithms/filtering/intentsize.py:3-10 `compute_intent_size`. -/
def intentSize (c : Ctx α β) (cs : List (Concept α β)) : Py (List (Concept α β × ℚ)) :=
  cs.mapM fun x => do
    let q ← pyDiv x.intent.card c.attributes.length
    .ok (x, q)

/-! ### filter.py -/

/-- The `mode` argument of `filter_concepts`. -/
inductive FilterMode | part | abs | value | other
  deriving DecidableEq

/-- fca/algorithms/filtering/filter.py:16-62 `filter_concepts` on the items of the index dict.
`sorted(list, key_, reverse=True)` in `_filter_abs` and `_filter_part` passes the key function as a
positional argument and raises TypeError; with an empty dict or an unknown mode `ret` is unbound. -/
def filterConcepts (items : List (Concept α β × ℚ)) (mode : FilterMode) (opt : ℚ) :
    Py (List (Concept α β)) :=
  if items = [] then .error .unboundLocalError
  else
    match mode with
    | .part => .error .typeError
    | .abs => .error .typeError
    | .value => .ok ((items.filter fun it => decide (opt ≤ it.2)).map Prod.fst)
    | .other => .error .unboundLocalError
