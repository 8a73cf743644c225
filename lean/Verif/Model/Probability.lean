/-
Model of fca/algorithms/filtering/probability.py. Floating-point numbers are real numbers: rounding and underflow are
not modelled; `math.log` raises ValueError outside its domain.
-/
import Verif.Model.Lattice
import Mathlib.Analysis.SpecialFunctions.Log.Basic

variable {α β : Type} [DecidableEq α] [DecidableEq β]

/-- `math.log`. -/
noncomputable def pyLog (x : ℝ) : Py ℝ :=
  open Classical in if 0 < x then .ok (Real.log x) else .error .valueError

/-- fca/algorithms/filtering/probability.py:64-69: the value `p_m[attr]`. -/
noncomputable def attrProb (c : Ctx α β) (a : β) : Py ℝ := do
  let os ← (List.range c.len).mapM c.intentByIndex
  let m : ℕ := os.foldl (fun k o => if a ∈ o then k + 1 else k) 0
  if c.len = 0 then .error .zeroDivisionError else .ok ((m : ℝ) / (c.len : ℝ))

/-- fca/algorithms/filtering/probability.py:51-58 `log_subset_probability`; `l` lists the subset. Attributes whose
logarithm raises are skipped. -/
noncomputable def logSubset (p : β → ℝ) (l : List β) : ℝ :=
  l.foldl (fun ans a => match pyLog (p a) with | .ok x => ans + x | .error _ => ans) 0

/-- fca/algorithms/filtering/probability.py:23-32: `mult`, or `none` if `mult_is_zero`; `l` lists `not_B`. -/
noncomputable def probMult (p : β → ℝ) (k : ℕ) (l : List β) : Option ℝ :=
  l.foldl (fun acc a =>
    match acc with
    | none => none
    | some mult => match pyLog (1 - p a ^ k) with | .ok x => some (mult + x) | .error _ => none) (some 0)

/-- fca/algorithms/filtering/probability.py:36-41: the value `t`, 0 if a logarithm raised. -/
noncomputable def probTerm (pB logpB : ℝ) (n k : ℕ) (mult : ℝ) : ℝ :=
  match pyLog (1 - pB) with
  | .ok x => Real.exp (k * logpB + ((n : ℝ) - k) * x + mult)
  | .error _ => 0

/-- fca/algorithms/filtering/probability.py:42-47: the multiplication with the quotients `nom[i] / den[i]`. Both lists
have `k` elements. -/
noncomputable def probBinom (n k : ℕ) (t : ℝ) : ℝ :=
  ((List.range' (n - k + 1) (n + 1 - (n - k + 1))).zip (List.range' 1 (k + 1 - 1))).foldl
    (fun t q => t * ((q.1 : ℝ) / (q.2 : ℝ))) t

/-- fca/algorithms/filtering/probability.py:22-49: the loop over `k`, with its early `return`. -/
noncomputable def probLoop (p : β → ℝ) (notB : List β) (pB logpB : ℝ) (n : ℕ) : List ℕ → ℝ → ℝ
  | [], ans => ans
  | k :: ks, ans =>
    match probMult p k notB with
    | none => probLoop p notB pB logpB n ks ans
    | some mult =>
      open Classical in
      if pB = 1 ∧ n = k then Real.exp mult
      else probLoop p notB pB logpB n ks (ans + probBinom n k (probTerm pB logpB n k mult))

/-- fca/algorithms/filtering/probability.py:10-49 `get_intent_probability(B, p_m, n)`; `keys` are the keys of `p_m`.
`ord₁` is the iteration order of `B`, `ord₂` the one of `not_B`. The exponential of `log_p_B` and the case of an empty
`B` are as in lines 12-16. -/
noncomputable def intentProb (ord₁ ord₂ : SetOrder β) (p : β → ℝ) (keys : List β) (n : ℕ) (B : Finset β) : ℝ :=
  let log₀ := logSubset p (ord₁.enum B)
  let pB := if B.card = 0 then 1 else Real.exp log₀
  let logpB := if B.card = 0 then 0 else log₀
  let notB := (keys.filter fun a => decide (a ∉ B)).toFinset
  probLoop p (ord₂.enum notB) pB logpB n (List.range (n + 1)) 0

/-- fca/algorithms/filtering/probability.py:60-75 `compute_probability(lattice)`: dict items in the order of the
concepts. The dict `p_m` is given by its keys, the attributes, and the function `p`; equal names get equal values. -/
noncomputable def computeProbability (ord₁ ord₂ : SetOrder β) (L : CLattice α β) : Py (List (Concept α β × ℝ)) := do
  let n := L.context.len
  let ps ← L.context.attributes.mapM (attrProb L.context)
  let p : β → ℝ := fun a => ((L.context.attributes.zip ps).lookup a).getD 0
  .ok (L.concepts.map fun x => (x, intentProb ord₁ ord₂ p L.context.attributes n x.intent))
