/-
Floating-point quotients in fca/algorithms/factors.py and fca/algorithms/filtering. `a / b` for integers is the quotient
rounded to a double; the other models take the exact quotient. Here the rounding is explicit. A double is represented by
its value, infinities and NaN do not occur: every quotient below is at most 1 in absolute value or its denominator is
positive and its numerator bounded by the size of the lattice, and a quotient beyond the range of doubles would raise
OverflowError in Python.
-/
import Verif.Model.Factors
import Verif.Model.Filtering
import Mathlib.Data.Int.Log
import Mathlib.Algebra.Order.Floor.Ring
import Mathlib.Data.Rat.Floor

/-- A rounding to doubles: monotone, and exact on the finite doubles `m * 2 ^ e`. All rounding modes of IEEE 754
are of this kind, below the overflow threshold. -/
structure Rounding where
  rnd : ℚ → ℚ
  mono : Monotone rnd
  exact : ∀ m e : ℤ, |m| < 2 ^ 53 → -1074 ≤ e → e ≤ 971 → rnd (m * 2 ^ e) = m * 2 ^ e

/-- The nearest integer, ties to the even one. -/
def halfEven (q : ℚ) : ℤ :=
  if q - ⌊q⌋ < 1 / 2 then ⌊q⌋
  else if 1 / 2 < q - ⌊q⌋ then ⌊q⌋ + 1
  else if ⌊q⌋ % 2 = 0 then ⌊q⌋ else ⌊q⌋ + 1

/-- The exponent of the last place of a double near `q > 0`: 53 binary digits, at least `2 ^ (-1074)`. -/
def lastPlace (q : ℚ) : ℤ := max (Int.log 2 q - 52) (-1074)

/-- Rounding to the nearest double for `q > 0`, with gradual underflow. -/
def toDoublePos (q : ℚ) : ℚ := halfEven (q / 2 ^ lastPlace q) * 2 ^ lastPlace q

/-- Rounding to the nearest double, ties to even: what `a / b` does in CPython. -/
def toDouble (q : ℚ) : ℚ := if 0 < q then toDoublePos q else if q < 0 then -toDoublePos (-q) else 0

/-- `a / b` for integers (fca/algorithms/factors.py:85, 140, 204, 244, stability.py:47, separation.py:26). -/
def pyDivF (R : Rounding) (a b : ℤ) : Py ℚ :=
  if b = 0 then .error .zeroDivisionError else .ok (R.rnd ((a : ℚ) / b))

variable {α β : Type} [DecidableEq α] [DecidableEq β]

/-! ### factors.py -/

/-- fca/algorithms/factors.py:85-110: the outer `while` of `algorithm2`. -/
def alg2LoopF (R : Rounding) (c : Ctx α β) (ordA : Finset (α × β) → Finset β → SetOrder β) (ordO : SetOrder α)
    (fid : ℚ) (n : ℕ) : ℕ → Finset (α × β) → Option (List (Concept α β × ℚ) × Py Unit)
  | 0, _ => none
  | fuel + 1, U =>
    match pyDivF R ((n : ℤ) - U.card) n with
    | .error e => some ([], .error e)
    | .ok q =>
      if q < fid then
        match alg2Inner c (ordA U) ordO U (c.attributes.length + 2) ∅ 0 ∅ ∅ with
        | none => none
        | some (.error e) => some ([], .error e)
        | some (.ok (C, D, rem)) =>
          if rem.card = 0 then some ([], .error .assertionError)
          else
            match alg2LoopF R c ordA ordO fid n fuel (U \ rem) with
            | none => none
            | some (ys, r) => some ((⟨C, D⟩, R.rnd ((rem.card : ℚ) / n)) :: ys, r)
      else some ([], .ok ())

/-- fca/algorithms/factors.py:67-110 `algorithm2`. -/
def algorithm2F (R : Rounding) (c : Ctx α β) (ordA : Finset (α × β) → Finset β → SetOrder β) (ordO : SetOrder α)
    (fid : ℚ) : Option (List (Concept α β × ℚ) × Py Unit) :=
  match c.pairs with
  | .error e => some ([], .error e)
  | .ok ps => alg2LoopF R c ordA ordO fid ps.toFinset.card (ps.toFinset.card + 1) ps.toFinset

/-- fca/algorithms/factors.py:204-247: the outer `while` of `algorithm2_w_condition`. -/
def wLoopF (R : Rounding) (c : Ctx α β) (p : WParams) (ordA : Finset (α × β) → Finset β → SetOrder β)
    (ordO : SetOrder α) (n : ℕ) : ℕ → Finset (α × β) → Finset β → Option (List (Concept α β × ℚ × ℚ) × Py Unit)
  | 0, _, _ => none
  | fuel + 1, U, removed =>
    if R.rnd (((n : ℚ) - U.card) / n) < p.fidelity then
      match wInner c p (ordA U) ordO U removed (U.image Prod.snd \ removed) (c.attributes.length + 2) ∅
          c.objects.toFinset 0 ∅ with
      | none => none
      | some (.error e) => some ([], .error e)
      | some (.ok .ret) => some ([], .ok ())
      | some (.ok (.restart U' removed')) => wLoopF R c p ordA ordO n fuel U' removed'
      | some (.ok (.factor C D rem)) =>
        match wLoopF R c p ordA ordO n fuel (U \ rem) removed with
        | none => none
        | some (ys, r) =>
          some ((⟨C, D⟩, R.rnd ((rem.card : ℚ) / n), R.rnd (((n : ℚ) - (U \ rem).card) / n)) :: ys, r)
    else some ([], .ok ())

/-- fca/algorithms/factors.py:168-247 `algorithm2_w_condition`. -/
def algorithm2WConditionF (R : Rounding) (c : Ctx α β) (p : WParams)
    (ordA : Finset (α × β) → Finset β → SetOrder β) (ordO : SetOrder α) :
    Option (List (Concept α β × ℚ × ℚ) × Py Unit) :=
  match c.pairs with
  | .error e => some ([], .error e)
  | .ok ps =>
    if ps.toFinset.card = 0 then some ([], .ok ())
    else wLoopF R c p ordA ordO ps.toFinset.card (ps.toFinset.card + 1) ps.toFinset ∅

/-! ### filtering -/

/-- fca/algorithms/filtering/stability.py:44-54 (and 86-96), as `stabLoop`; the subtractions are on integers. -/
def stabLoopF (R : Rounding) (below : Concept α β → Concept α β → Bool) (size : Concept α β → ℕ)
    (ord : ℕ → SetOrder (Concept α β)) :
    ℕ → List (Concept α β) → (Concept α β → ℤ) → (Concept α β → ℤ) → Finset (Concept α β) →
    (Concept α β → Option ℚ) → Option (Py (Concept α β → Option ℚ))
  | 0, _, _, _, _, _ => none
  | fuel + 1, rem, cnt, sub, work, stab =>
    if rem = [] then some (.ok stab)
    else
      match (ord fuel).enum work with
      | [] => some (.error .keyError)
      | b :: _ =>
        let stab' := Function.update stab b (some (R.rnd ((sub b : ℚ) / ((2 ^ size b : ℕ) : ℚ))))
        if b ∈ rem then
          let st := stabRelax below b (rem.erase b) (cnt, sub, work.erase b)
          stabLoopF R below size ord fuel (rem.erase b) st.1 st.2.1 st.2.2 stab'
        else some (.error .valueError)

/-- fca/algorithms/filtering/stability.py:16-55 `compute_istability`. -/
def istabilityF (R : Rounding) (ord : ℕ → SetOrder (Concept α β)) (cs : List (Concept α β)) :
    Option (Py (Concept α β → Option ℚ)) :=
  match csBottom cs with
  | .error e => some (.error e)
  | .ok b =>
    stabLoopF R (fun b c => decide (c.intent ⊂ b.intent)) (fun c => c.extent.card) ord (cs.length + 1) cs
      (fun c => (cs.filter fun d => decide (d.extent ⊂ c.extent)).length) (fun c => ((2 ^ c.extent.card : ℕ) : ℤ))
      {b} (fun _ => none)

/-- fca/algorithms/filtering/stability.py:57-97 `compute_estability`. -/
def estabilityF (R : Rounding) (ord : ℕ → SetOrder (Concept α β)) (cs : List (Concept α β)) :
    Option (Py (Concept α β → Option ℚ)) :=
  match csTop cs with
  | .error e => some (.error e)
  | .ok t =>
    stabLoopF R (fun b c => decide (b.intent ⊂ c.intent)) (fun c => c.intent.card) ord (cs.length + 1) cs
      (fun c => (cs.filter fun d => decide (d.intent ⊂ c.intent)).length) (fun c => ((2 ^ c.intent.card : ℕ) : ℤ))
      {t} (fun _ => none)

/-- fca/algorithms/filtering/separation.py:12-26: the index of one concept. -/
def separationOfF (R : Rounding) (c : Ctx α β) (ordO : SetOrder α) (ordA : SetOrder β) (x : Concept α β) : Py ℚ := do
  let square : ℤ := (x.intent.card : ℤ) * x.extent.card
  let ea ← (ordA.enum x.intent).mapM c.attributeExtent
  let eo ← (ordO.enum x.extent).mapM c.objectIntent
  let crossed : ℤ := (ea.map fun s => (s.card : ℤ)).sum + (eo.map fun s => (s.card : ℤ)).sum - square
  if square = 0 then .ok 1 else pyDivF R square crossed

/-- fca/algorithms/filtering/separation.py:8-28 `compute_separation_index`. -/
def separationF (R : Rounding) (c : Ctx α β) (ordO : SetOrder α) (ordA : SetOrder β) (cs : List (Concept α β)) :
    Py (List (Concept α β × ℚ)) :=
  cs.mapM fun x => do
    let q ← separationOfF R c ordO ordA x
    .ok (x, q)

/-- fca/algorithms/filtering/extentsize.py:3-10 `compute_extent_size`. -/
def extentSizeF (R : Rounding) (c : Ctx α β) (cs : List (Concept α β)) : Py (List (Concept α β × ℚ)) :=
  cs.mapM fun x => do
    let q ← pyDivF R x.extent.card c.objects.length
    .ok (x, q)

/-- fca/algorithms/filtering/intentsize.py:3-10 `compute_intent_size`. -/
def intentSizeF (R : Rounding) (c : Ctx α β) (cs : List (Concept α β)) : Py (List (Concept α β × ℚ)) :=
  cs.mapM fun x => do
    let q ← pyDivF R x.intent.card c.attributes.length
    .ok (x, q)
