/-
Model of fca/algorithms/filtering/__init__.py: the table of index functions, applied to a lattice or to a concept system
(the result of `filter_concepts`).
-/
import Verif.Model.Stability
import Verif.Model.Probability

variable {α β : Type} [DecidableEq α] [DecidableEq β]

/-- What an index function is called with: a `ConceptLattice` or a `ConceptSystem`. -/
inductive LatArg (α β : Type)
  | lattice (L : CLattice α β)
  | system (cs : List (Concept α β))

/-- fca/concept_lattice.py:40-43 `context`; a `ConceptSystem` (fca/concept_system.py:7-113) has no such attribute. -/
def LatArg.context : LatArg α β → Py (Ctx α β)
  | .lattice L => .ok L.context
  | .system _ => .error .attributeError

/-- `lattice[:]`, iteration (fca/concept_lattice.py:72, fca/concept_system.py:55). -/
def LatArg.concepts : LatArg α β → List (Concept α β)
  | .lattice L => L.concepts
  | .system cs => cs

/-- The functions in the table. -/
inductive IndexFn | probability | separation | istability | estability | extentSize | intentSize
  deriving DecidableEq

/-- fca/algorithms/filtering/__init__.py:9-16 `get_compute_functions`. -/
def computeFunctions : List (String × IndexFn) :=
  [("Probability index", .probability), ("Separation index", .separation), ("Intensional stability", .istability),
    ("Extensional stability", .estability), ("Extent size", .extentSize), ("Intent size", .intentSize)]

/-- fca/algorithms/filtering/__init__.py:18-19 `get_modes`, with what `filter_concepts` understands by them
(fca/algorithms/filtering/filter.py:54-60). -/
def filterModes : List (String × FilterMode) := [("part", .part), ("abs", .abs), ("value", .value)]

/-- A dict given by its items; a later item replaces an earlier one with the same key. -/
def itemsDict {γ δ : Type} [DecidableEq γ] (items : List (γ × δ)) (x : γ) : Option δ :=
  (items.reverse.find? fun it => decide (it.1 = x)).map Prod.snd

/-- The iteration orders of the sets that occur. -/
structure IndexEnv (α β : Type) where
  ordO : SetOrder α
  ordA : SetOrder β
  ordP : SetOrder β
  ordN : SetOrder β
  ordC : ℕ → SetOrder (Concept α β)

/-- A dict of rationals as a dict of reals. -/
noncomputable def castDict (d : Concept α β → Option ℚ) (x : Concept α β) : Option ℝ := (d x).map fun q => (q : ℝ)

/-- `function(lattice)` (fca/algorithms/filtering/filter.py:54) for the functions of the table. The first thing that
`compute_probability`, `compute_separation_index`, `compute_extent_size` and `compute_intent_size` do is to take
`lattice.context` (fca/algorithms/filtering/probability.py:60, separation.py:9, extentsize.py:4, intentsize.py:4);
`compute_istability` and `compute_estability` make a `ConceptSystem` of the argument (stability.py:34, 76). -/
noncomputable def IndexFn.run (E : IndexEnv α β) (a : LatArg α β) : IndexFn → Option (Py (Concept α β → Option ℝ))
  | .probability => some (match a with
    | .lattice L => (computeProbability E.ordP E.ordN L).map itemsDict
    | .system _ => .error .attributeError)
  | .separation => some (do
    let c ← a.context
    let items ← _root_.separation c E.ordO E.ordA a.concepts
    .ok (castDict (itemsDict items)))
  | .istability => (_root_.istability E.ordC a.concepts).map fun r => r.map castDict
  | .estability => (_root_.estability E.ordC a.concepts).map fun r => r.map castDict
  | .extentSize => some (do
    let c ← a.context
    let items ← _root_.extentSize c a.concepts
    .ok (castDict (itemsDict items)))
  | .intentSize => some (do
    let c ← a.context
    let items ← _root_.intentSize c a.concepts
    .ok (castDict (itemsDict items)))

open Classical in
/-- fca/algorithms/filtering/filter.py:28-31 `_filter_value`, on the items of the dict. -/
noncomputable def filterValue (items : List (Concept α β × ℝ)) (v : ℝ) : List (Concept α β) :=
  (items.filter fun it => decide (v ≤ it.2)).map Prod.fst
