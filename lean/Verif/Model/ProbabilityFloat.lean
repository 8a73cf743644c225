/-
Model of fca/algorithms/filtering/probability.py with the rounding of floating-point operations. A double is represented
by its value. `Verif.Model.Probability` has the same functions on real numbers.
-/
import Verif.Model.Probability

variable {α β : Type} [DecidableEq α] [DecidableEq β]

/-- The floating-point operations the function uses: `rnd` is applied to the exact result of `+`, `-`, `*`, `/`; `log` is
`math.log` on positive numbers, `exp` is `math.exp` (its arguments here are not positive up to rounding, so that it does not
overflow), `pow` is `**` of a double and a natural number. -/
structure Libm where
  rnd : ℝ → ℝ
  log : ℝ → ℝ
  exp : ℝ → ℝ
  pow : ℝ → ℕ → ℝ

namespace Libm

variable (F : Libm)

/-- `math.log`: ValueError unless the argument is positive. -/
noncomputable def pyLog (x : ℝ) : Py ℝ :=
  open Classical in if 0 < x then .ok (F.log x) else .error .valueError

/-- fca/algorithms/filtering/probability.py:64-69: the value `p_m[attr]`. -/
noncomputable def attrProb (c : Ctx α β) (a : β) : Py ℝ := do
  let os ← (List.range c.len).mapM c.intentByIndex
  let m : ℕ := os.foldl (fun k o => if a ∈ o then k + 1 else k) 0
  if c.len = 0 then .error .zeroDivisionError else .ok (F.rnd ((m : ℝ) / (c.len : ℝ)))

/-- fca/algorithms/filtering/probability.py:51-58 `log_subset_probability`; `l` lists the subset. -/
noncomputable def logSubset (p : β → ℝ) (l : List β) : ℝ :=
  l.foldl (fun ans a => match F.pyLog (p a) with | .ok x => F.rnd (ans + x) | .error _ => ans) 0

/-- fca/algorithms/filtering/probability.py:23-32: `mult`, or `none` if `mult_is_zero`; `l` lists `not_B`. -/
noncomputable def probMult (p : β → ℝ) (k : ℕ) (l : List β) : Option ℝ :=
  l.foldl (fun acc a =>
    match acc with
    | none => none
    | some mult => match F.pyLog (F.rnd (1 - F.pow (p a) k)) with
      | .ok x => some (F.rnd (mult + x))
      | .error _ => none) (some 0)

/-- fca/algorithms/filtering/probability.py:36-41: the value `t`, 0 if a logarithm raised. -/
noncomputable def probTerm (pB logpB : ℝ) (n k : ℕ) (mult : ℝ) : ℝ :=
  match F.pyLog (F.rnd (1 - pB)) with
  | .ok x => F.exp (F.rnd (F.rnd (F.rnd (k * logpB) + F.rnd (((n : ℝ) - k) * x)) + mult))
  | .error _ => 0

/-- fca/algorithms/filtering/probability.py:42-47: the multiplication with the quotients `nom[i] / float(den[i])`. -/
noncomputable def probBinom (n k : ℕ) (t : ℝ) : ℝ :=
  ((List.range' (n - k + 1) (n + 1 - (n - k + 1))).zip (List.range' 1 (k + 1 - 1))).foldl
    (fun t q => F.rnd (t * F.rnd ((q.1 : ℝ) / (q.2 : ℝ)))) t

/-- fca/algorithms/filtering/probability.py:22-49: the loop over `k`, with its early `return`. -/
noncomputable def probLoop (p : β → ℝ) (notB : List β) (pB logpB : ℝ) (n : ℕ) : List ℕ → ℝ → ℝ
  | [], ans => ans
  | k :: ks, ans =>
    match F.probMult p k notB with
    | none => probLoop p notB pB logpB n ks ans
    | some mult =>
      open Classical in
      if pB = 1 ∧ n = k then F.exp mult
      else probLoop p notB pB logpB n ks (F.rnd (ans + F.probBinom n k (F.probTerm pB logpB n k mult)))

/-- fca/algorithms/filtering/probability.py:10-49 `get_intent_probability(B, p_m, n)`; as `intentProb`. -/
noncomputable def intentProb (ord₁ ord₂ : SetOrder β) (p : β → ℝ) (keys : List β) (n : ℕ) (B : Finset β) : ℝ :=
  let log₀ := F.logSubset p (ord₁.enum B)
  let pB := if B.card = 0 then 1 else F.exp log₀
  let logpB := if B.card = 0 then 0 else log₀
  let notB := (keys.filter fun a => decide (a ∉ B)).toFinset
  F.probLoop p (ord₂.enum notB) pB logpB n (List.range (n + 1)) 0

/-- fca/algorithms/filtering/probability.py:60-75 `compute_probability(lattice)`. -/
noncomputable def computeProbability (ord₁ ord₂ : SetOrder β) (L : CLattice α β) : Py (List (Concept α β × ℝ)) := do
  let n := L.context.len
  let ps ← L.context.attributes.mapM (F.attrProb L.context)
  let p : β → ℝ := fun a => ((L.context.attributes.zip ps).lookup a).getD 0
  .ok (L.concepts.map fun x => (x, F.intentProb ord₁ ord₂ p L.context.attributes n x.intent))

end Libm
