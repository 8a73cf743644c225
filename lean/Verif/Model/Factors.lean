/-
Model of fca/algorithms/factors.py. A generator is modelled by the list of the values it yields together
with the way it ends (`.ok ()`: StopIteration). Quotients are rationals, `fidelity` is a rational.
The iteration order of the set of candidate attributes, which decides ties, is an arbitrary function of the
sets `U` and `D`; within a run no pair `(U, D)` occurs twice, so every execution is covered.
-/
import Verif.Model.Stability
import Verif.Model.ContextOps
import Mathlib.Data.Finset.Prod
import Mathlib.Data.Finset.Image
import Mathlib.Algebra.Order.Field.Rat

variable {α β : Type} [DecidableEq α] [DecidableEq β]

/-- `max(l, key=lambda x: x[0])`: the first entry with the greatest key; `none` for an empty list. -/
def pyMaxKey {κ γ : Type} [LinearOrder κ] : List (κ × γ) → Option (κ × γ)
  | [] => none
  | x :: l => some (l.foldl (fun b y => if b.1 < y.1 then y else b) x)

/-- fca/algorithms/factors.py:55-64 `_oplus`; the pairs are those of fca/concept.py:73-78. -/
def oplus (c : Ctx α β) (ordO : SetOrder α) (dobjs : Finset α) (y : β) (U : Finset (α × β)) :
    Py (Finset (α × β)) := do
  let yprime ← c.attributeExtent y
  let dy := dobjs ∩ yprime
  let i ← c.oprime (ordO.enum dy)
  .ok ((dy ×ˢ i) ∩ U)

/-! ### algorithm2 -/

/-- fca/algorithms/factors.py:90-96: the list of measures and its maximum. -/
def alg2Best (c : Ctx α β) (ordA : SetOrder β) (ordO : SetOrder α) (U : Finset (α × β)) (cand D : Finset β) :
    Py (Option (ℕ × β)) := do
  let dobjs ← c.aprime (ordA.enum D)
  let ls ← (ordA.enum (cand \ D)).mapM fun j => do
    let s ← oplus c ordO dobjs j U
    .ok (s.card, j)
  .ok (pyMaxKey ls)

/-- fca/algorithms/factors.py:99-101: the concept generated by `D` and `j`. -/
def alg2Next (c : Ctx α β) (ordA : SetOrder β) (ordO : SetOrder α) (Dj : Finset β) :
    Py (Finset α × Finset β) := do
  let C ← c.aprime (ordA.enum Dj)
  let D ← c.oprime (ordO.enum C)
  .ok (C, D)

/-- fca/algorithms/factors.py:89-105: the inner `while True`. `C` is unbound before the first update;
it is only read after one, since lines 106-108 precede its use. With no candidates left `maxDj[0] = 0`
is not greater than `V`. `none` = fuel exhausted. -/
def alg2Inner (c : Ctx α β) (ordA : Finset β → SetOrder β) (ordO : SetOrder α) (U : Finset (α × β)) :
    ℕ → Finset β → ℕ → Finset α → Finset (α × β) →
      Option (Py (Finset α × Finset β × Finset (α × β)))
  | 0, _, _, _, _ => none
  | fuel + 1, D, V, C, rem =>
    match alg2Best c (ordA D) ordO U c.attributes.toFinset D with
    | .error e => some (.error e)
    | .ok none => some (.ok (C, D, rem))
    | .ok (some (k, j)) =>
      if V < k then
        match alg2Next c (ordA D) ordO (insert j D) with
        | .error e => some (.error e)
        | .ok (C', D') =>
          alg2Inner c ordA ordO U fuel D' ((C' ×ˢ D') ∩ U).card C' ((C' ×ˢ D') ∩ U)
      else some (.ok (C, D, rem))

/-- fca/algorithms/factors.py:85-110: the outer `while`. -/
def alg2Loop (c : Ctx α β) (ordA : Finset (α × β) → Finset β → SetOrder β) (ordO : SetOrder α) (fid : ℚ)
    (n : ℕ) : ℕ → Finset (α × β) → Option (List (Concept α β × ℚ) × Py Unit)
  | 0, _ => none
  | fuel + 1, U =>
    match pyDiv ((n : ℤ) - U.card) n with
    | .error e => some ([], .error e)
    | .ok q =>
      if q < fid then
        match alg2Inner c (ordA U) ordO U (c.attributes.length + 2) ∅ 0 ∅ ∅ with
        | none => none
        | some (.error e) => some ([], .error e)
        | some (.ok (C, D, rem)) =>
          if rem.card = 0 then some ([], .error .assertionError)
          else
            match alg2Loop c ordA ordO fid n fuel (U \ rem) with
            | none => none
            | some (ys, r) => some ((⟨C, D⟩, (rem.card : ℚ) / n) :: ys, r)
      else some ([], .ok ())

/-- fca/algorithms/factors.py:67-110 `algorithm2`. -/
def algorithm2 (c : Ctx α β) (ordA : Finset (α × β) → Finset β → SetOrder β) (ordO : SetOrder α) (fid : ℚ) :
    Option (List (Concept α β × ℚ) × Py Unit) :=
  match c.pairs with
  | .error e => some ([], .error e)
  | .ok ps => alg2Loop c ordA ordO fid ps.toFinset.card (ps.toFinset.card + 1) ps.toFinset

/-! ### algorithm2_weighted -/

section weighted
variable {ν : Type} [DecidableEq ν]

/-- fca/algorithms/factors.py:132-136 `score`. -/
def wScore (c : Ctx ν ν) (s : Finset (ν × ν)) : Py ℚ :=
  pyDiv (((s.image Prod.fst).card : ℤ) * (s.image Prod.snd).card)
    ((c.objects.length : ℤ) * c.attributes.length)

/-- fca/algorithms/factors.py:144-160: the inner `while True`. Line 145 passes the set `D` of
attributes to `oprime`, so object and attribute names are of one type here. -/
def weightedInner (c : Ctx ν ν) (ordA : Finset ν → SetOrder ν) (ordO : SetOrder ν) (U : Finset (ν × ν)) :
    ℕ → Finset ν → ℚ → Finset ν → Finset (ν × ν) → ℚ →
      Option (Py (Finset ν × Finset ν × Finset (ν × ν) × ℚ))
  | 0, _, _, _, _, _ => none
  | fuel + 1, D, V, C, rem, js =>
    match (do
      let dobjs ← c.oprime ((ordA D).enum D)
      let ls ← ((ordA D).enum (c.attributes.toFinset \ D)).mapM fun j => do
        let s ← oplus c ordO dobjs j U
        let q ← wScore c s
        .ok (q, j)
      .ok (pyMaxKey ls) : Py (Option (ℚ × ν))) with
    | .error e => some (.error e)
    | .ok none => some (.ok (C, D, rem, js))
    | .ok (some (k, j)) =>
      if V < k then
        match alg2Next c (ordA D) ordO (insert j D) with
        | .error e => some (.error e)
        | .ok (C', D') =>
          weightedInner c ordA ordO U fuel D' ((C' ×ˢ D') ∩ U).card C' ((C' ×ˢ D') ∩ U) k
      else some (.ok (C, D, rem, js))

/-- fca/algorithms/factors.py:140-165: the outer `while`. -/
def weightedLoop (c : Ctx ν ν) (ordA : Finset (ν × ν) → Finset ν → SetOrder ν) (ordO : SetOrder ν) (fid : ℚ)
    (n : ℕ) : ℕ → Finset (ν × ν) → Option (List (Concept ν ν × ℚ) × Py Unit)
  | 0, _ => none
  | fuel + 1, U =>
    match pyDiv ((n : ℤ) - U.card) n with
    | .error e => some ([], .error e)
    | .ok q =>
      if q < fid then
        match weightedInner c (ordA U) ordO U (c.attributes.length + 2) ∅ 0 ∅ ∅ 0 with
        | none => none
        | some (.error e) => some ([], .error e)
        | some (.ok (C, D, rem, js)) =>
          if rem.card = 0 then some ([], .error .assertionError)
          else
            match weightedLoop c ordA ordO fid n fuel (U \ rem) with
            | none => none
            | some (ys, r) => some ((⟨C, D⟩, js) :: ys, r)
      else some ([], .ok ())

/-- fca/algorithms/factors.py:113-165 `algorithm2_weighted`. -/
def algorithm2Weighted (c : Ctx ν ν) (ordA : Finset (ν × ν) → Finset ν → SetOrder ν) (ordO : SetOrder ν)
    (fid : ℚ) : Option (List (Concept ν ν × ℚ) × Py Unit) :=
  match c.pairs with
  | .error e => some ([], .error e)
  | .ok ps => weightedLoop c ordA ordO fid ps.toFinset.card (ps.toFinset.card + 1) ps.toFinset

end weighted

/-! ### algorithm2_w_condition -/

/-- Parameters of `algorithm2_w_condition` (fca/algorithms/factors.py:168-170). -/
structure WParams where
  fidelity : ℚ := 1
  allowRepetitions : Bool := true
  minSize : ℤ := 3
  objsGeAtts : Bool := false

/-- fca/algorithms/factors.py:191-196 `good_factor`. -/
def WParams.good (p : WParams) (C : Finset α) (D : Finset β) : Bool :=
  if p.objsGeAtts then decide (D.card ≤ C.card) && decide (p.minSize ≤ D.card)
  else decide (p.minSize ≤ C.card) && decide (p.minSize ≤ D.card)

/-- How the inner loop is left: `return` (line 216), early restart (lines 225-228) with the new `U` and
`removed_atts`, or a factor with its `to_remove` (lines 237-245). -/
inductive WOut (α β : Type)
  | ret
  | restart (U : Finset (α × β)) (removed : Finset β)
  | factor (C : Finset α) (D : Finset β) (rem : Finset (α × β))

/-- fca/algorithms/factors.py:210-247: the inner `while True`. -/
def wInner (c : Ctx α β) (p : WParams) (ordA : Finset β → SetOrder β) (ordO : SetOrder α)
    (U : Finset (α × β)) (removed avail : Finset β) :
    ℕ → Finset β → Finset α → ℕ → Finset (α × β) → Option (Py (WOut α β))
  | 0, _, _, _, _ => none
  | fuel + 1, D, C, V, rem =>
    match alg2Best c (ordA D) ordO U avail D with
    | .error e => some (.error e)
    | .ok none => some (.ok .ret)
    | .ok (some (k, j)) =>
      if V < k ∨ p.good C D = false then
        match c.aprime ((ordA D).enum (insert j D)) with
        | .error e => some (.error e)
        | .ok C' =>
          if (C'.card : ℤ) < p.minSize ∨ avail \ D = ∅ then
            some (.ok (.restart (U.filter fun u => u.2 ∉ insert j D) (removed ∪ insert j D)))
          else
            match c.oprime (ordO.enum C') with
            | .error e => some (.error e)
            | .ok D' =>
              wInner c p ordA ordO U removed avail fuel D' C' ((C' ×ˢ D') ∩ U).card
                (if p.allowRepetitions then (C' ×ˢ D') ∩ U
                 else ((C' ×ˢ c.attributes.toFinset) ∪ (c.objects.toFinset ×ˢ D')) ∩ U)
      else if p.good C D = true then
        if rem.card = 0 then some (.error .genericException) else some (.ok (.factor C D rem))
      else some (.error .assertionError)

/-- fca/algorithms/factors.py:204-247: the outer `while`. -/
def wLoop (c : Ctx α β) (p : WParams) (ordA : Finset (α × β) → Finset β → SetOrder β) (ordO : SetOrder α)
    (n : ℕ) : ℕ → Finset (α × β) → Finset β → Option (List (Concept α β × ℚ × ℚ) × Py Unit)
  | 0, _, _ => none
  | fuel + 1, U, removed =>
    if ((n : ℚ) - U.card) / n < p.fidelity then
      match wInner c p (ordA U) ordO U removed (U.image Prod.snd \ removed) (c.attributes.length + 2) ∅
          c.objects.toFinset 0 ∅ with
      | none => none
      | some (.error e) => some ([], .error e)
      | some (.ok .ret) => some ([], .ok ())
      | some (.ok (.restart U' removed')) => wLoop c p ordA ordO n fuel U' removed'
      | some (.ok (.factor C D rem)) =>
        match wLoop c p ordA ordO n fuel (U \ rem) removed with
        | none => none
        | some (ys, r) =>
          some ((⟨C, D⟩, (rem.card : ℚ) / n, ((n : ℚ) - (U \ rem).card) / n) :: ys, r)
    else some ([], .ok ())

/-- fca/algorithms/factors.py:168-247 `algorithm2_w_condition`. -/
def algorithm2WCondition (c : Ctx α β) (p : WParams) (ordA : Finset (α × β) → Finset β → SetOrder β)
    (ordO : SetOrder α) : Option (List (Concept α β × ℚ × ℚ) × Py Unit) :=
  match c.pairs with
  | .error e => some ([], .error e)
  | .ok ps =>
    if ps.toFinset.card = 0 then some ([], .ok ())
    else wLoop c p ordA ordO ps.toFinset.card (ps.toFinset.card + 1) ps.toFinset ∅

/-! ### make_factor_cxts -/

/-- fca/algorithms/factors.py:24-30 `el_ind`. The dict numbers its keys 0, 1, … in the order of insertion,
so it is represented by the list of its keys. -/
def elInd {γ : Type} [DecidableEq γ] (d : List γ) (x : γ) : List γ × ℕ :=
  match d.idxOf? x with
  | some k => (d, k)
  | none => (d ++ [x], d.length)

/-- fca/algorithms/factors.py:39 (and 40): the set of indices of one extent, in the iteration order `xs`. -/
def indRow {γ : Type} [DecidableEq γ] (d : List γ) (xs : List γ) : List γ × Finset ℕ :=
  xs.foldl (fun st x => ((elInd st.1 x).1, insert (elInd st.1 x).2 st.2)) (d, ∅)

/-- fca/algorithms/factors.py:38-40: the loop over the factors; `xs` lists the extents (intents) in their
iteration orders. -/
def indTable {γ : Type} [DecidableEq γ] (d : List γ) : List (List γ) → List γ × List (Finset ℕ)
  | [] => (d, [])
  | xs :: rest =>
    let r := indRow d xs
    let t := indTable r.1 rest
    (t.1, r.2 :: t.2)

/-- fca/algorithms/factors.py:16-52 `make_factor_cxts`. `ordO i`, `ordA i` are the iteration orders of the
extent and intent of the `i`-th factor, `fname i` is `'f{}'.format(i)`. Sorting the keys of the dicts by
their numbers gives the order of insertion. -/
def makeFactorCxts {φ : Type} [DecidableEq φ] [PyName α] [PyName β] [PyName φ] (fname : ℕ → φ)
    (ordO : ℕ → SetOrder α) (ordA : ℕ → SetOrder β) (factors : List (Concept α β)) :
    Py (Ctx α φ × Ctx φ β) := do
  let tb := indTable [] (factors.mapIdx fun i x => (ordO i).enum x.extent)
  let ta := indTable [] (factors.mapIdx fun i x => (ordA i).enum x.intent)
  let names := (List.range factors.length).map fname
  let tableO := if tb.2 = [] then [] else
    (List.range tb.1.length).map fun x => tb.2.map fun row => decide (x ∈ row)
  let tableA := ta.2.map fun row => (List.range ta.1.length).map fun x => decide (x ∈ row)
  let l ← Ctx.make tableO tb.1 names
  let r ← Ctx.make tableA names ta.1
  .ok (l, r)
