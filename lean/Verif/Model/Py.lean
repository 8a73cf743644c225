/-
Fragments of the Python runtime used by the model: exceptions as values and the
iteration order of sets.
-/
import Mathlib.Data.Finset.Basic
import Mathlib.Data.Finset.Dedup
import Mathlib.Data.Finset.Sort
import Mathlib.Data.List.FinRange

/-- Exceptions raised by the modelled code (only the exception class is kept). -/
inductive PyErr
  | valueError | keyError | indexError | typeError | assertionError | attributeError
  | zeroDivisionError | unboundLocalError | axisError | stopIteration | csvError | nameError | genericException
  | multiplicationException          -- fca/context.py:34
  | notCounterExamplePremise         -- fca/algorithms/exploration.py:19
  | notCounterExampleConclusion      -- fca/algorithms/exploration.py:31
  | basisConflict                    -- fca/algorithms/exploration.py:11
  | notCounterexample                -- fca/algorithms/exploration_/exploration.py:10
  | illegalContextModification       -- fca/algorithms/exploration_/exploration.py:13
  | notUniqueObjectName              -- fca/algorithms/exploration_/exploration.py:18
  | notUniqueAttributeName           -- fca/algorithms/exploration_/exploration.py:21
  | falseCounterexample              -- fca/algorithms/exploration2/exploration.py:11
  | attributeMismatch                -- fca/algorithms/patterns.py:23
  | notNegativeExample               -- fca/algorithms/patterns.py:37
  | notAPositivePattern              -- fca/algorithms/patterns.py:72
  | notANegativePattern              -- fca/algorithms/patterns.py:80
  deriving DecidableEq, Repr

/-- The result of a Python call: a value or an exception. -/
abbrev Py := Except PyErr

instance {α} [DecidableEq α] : DecidableEq (Py α) := fun a b =>
  match a, b with
  | .ok x, .ok y => if h : x = y then .isTrue (by rw [h]) else .isFalse (by simp [h])
  | .error x, .error y => if h : x = y then .isTrue (by rw [h]) else .isFalse (by simp [h])
  | .ok _, .error _ => .isFalse (by simp)
  | .error _, .ok _ => .isFalse (by simp)

/-- An iteration order for Python sets: some listing of the elements without repetition.
CPython's order depends on hashes and on the history of the set, so model functions that iterate
over a set take an arbitrary `SetOrder` and theorems quantify over it. -/
structure SetOrder (α : Type*) where
  enum : Finset α → List α
  nodup : ∀ s, (enum s).Nodup
  mem : ∀ s x, x ∈ enum s ↔ x ∈ s

attribute [simp] SetOrder.mem

/-- Some order exists for every type. -/
noncomputable def SetOrder.any (α : Type*) : SetOrder α :=
  ⟨fun s => s.toList, fun s => s.nodup_toList, fun s x => by simp⟩

/-- On a linearly ordered type: increasing order (used in executable examples). -/
def SetOrder.sorted (α : Type*) [LinearOrder α] : SetOrder α :=
  ⟨fun s => s.sort (· ≤ ·), fun s => s.sort_nodup _, fun s x => by simp⟩

theorem SetOrder.toFinset {α : Type*} [DecidableEq α] (o : SetOrder α) (s : Finset α) :
    (o.enum s).toFinset = s := by
  ext x; simp

theorem SetOrder.length {α : Type*} [DecidableEq α] (o : SetOrder α) (s : Finset α) :
    (o.enum s).length = s.card := by
  rw [← List.toFinset_card_of_nodup (o.nodup s), o.toFinset]

/-- Order given by the position in the list of all elements of `Fin n` (executable examples). -/
def SetOrder.fin (n : ℕ) : SetOrder (Fin n) :=
  ⟨fun s => (List.finRange n).filter (fun x => decide (x ∈ s)),
   fun _ => (List.nodup_finRange n).filter _, fun s x => by simp⟩

/-- The reverse order (executable examples). -/
def SetOrder.finRev (n : ℕ) : SetOrder (Fin n) :=
  ⟨fun s => ((List.finRange n).filter (fun x => decide (x ∈ s))).reverse,
   fun _ => List.nodup_reverse.2 ((List.nodup_finRange n).filter _), fun s x => by simp⟩
