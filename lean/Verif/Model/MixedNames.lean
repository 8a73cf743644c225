/-
Sorting of names that Python cannot always compare (fca/concept.py, fca/implication.py,
fca/algorithms/closure_operators.py), and what depends on it: `ConceptLattice` and `compute_dg_basis`.
-/
import Verif.Model.Lattice
import Verif.Model.DGContext
import Mathlib.Data.List.Lex
import Mathlib.Data.Char

/-! ### Comparisons -/

/-- Names of several kinds (`int`, `str`, ...). `lt x y` is the value of `x < y` for names of one kind, where it is a
strict total order; between kinds the comparison raises TypeError. -/
class Kinded (γ : Type) where
  kind : γ → ℕ
  lt : γ → γ → Bool
  irrefl : ∀ x, lt x x = false
  trans : ∀ x y z, kind x = kind y → kind y = kind z → lt x y = true → lt y z = true → lt x z = true
  total : ∀ x y, kind x = kind y → x ≠ y → lt x y = true ∨ lt y x = true

/-- `x < y` -/
def pyLt {γ : Type} [Kinded γ] (x y : γ) : Py Bool :=
  if Kinded.kind x = Kinded.kind y then .ok (Kinded.lt x y) else .error .typeError

/-! ### `sorted` -/

/-- A sorting algorithm that knows its input only through comparisons `l[i] < l[j]`: what it asks, how it goes on
after either answer, and the order of the positions it returns. -/
inductive SortTree
  | done (p : List ℕ)
  | ask (i j : ℕ) (yes no : SortTree)

/-- Runs the algorithm; an exception of a comparison ends it. -/
def SortTree.run (lt : ℕ → ℕ → Py Bool) : SortTree → Py (List ℕ)
  | .done p => .ok p
  | .ask i j yes no =>
    match lt i j with
    | .error e => .error e
    | .ok true => yes.run lt
    | .ok false => no.run lt

/-- Only positions of the list are compared. -/
def SortTree.InRange (n : ℕ) : SortTree → Prop
  | .done _ => True
  | .ask i j yes no => i < n ∧ j < n ∧ yes.InRange n ∧ no.InRange n

/-- A strict total order of the positions below `n`. -/
structure StrictTot (n : ℕ) (lt : ℕ → ℕ → Bool) : Prop where
  irrefl : ∀ i < n, lt i i = false
  trans : ∀ i < n, ∀ j < n, ∀ k < n, lt i j = true → lt j k = true → lt i k = true
  total : ∀ i < n, ∀ j < n, i ≠ j → lt i j = true ∨ lt j i = true

/-- Python's `list.sort` and `sorted`, of which nothing is assumed but this: the algorithm compares elements of the list,
and sorts it whenever the comparisons are those of a strict total order. -/
structure Sorter where
  tree : ℕ → SortTree
  inRange : ∀ n, (tree n).InRange n
  sorts : ∀ n lt, StrictTot n lt →
    ∃ p, (tree n).run (fun i j => .ok (lt i j)) = .ok p ∧ p.Perm (List.range n) ∧ p.Pairwise fun i j => lt i j = true

/-- `sorted(l)`, `l.sort()`. -/
def sortPy {γ : Type} [Kinded γ] (T : Sorter) (l : List γ) : Py (List γ) := do
  let p ← (T.tree l.length).run fun i j => do
    let x ← pyGet l i
    let y ← pyGet l j
    pyLt x y
  .ok (p.filterMap (l[·]?))

/-! ### Strings of concepts and implications -/

/-- `str(l)` for a list; `rep` is `repr` of the elements. -/
def listText {γ : Type} (rep : γ → List Char) (l : List γ) : List Char :=
  '[' :: List.intercalate [',', ' '] (l.map rep) ++ [']']

section
variable {α β : Type} [DecidableEq α] [DecidableEq β] [Kinded α] [Kinded β]

/-- What sorting and formatting depend on: the sort, the iteration orders of sets, `repr` of names. -/
structure SortEnv (α β : Type) where
  sorter : Sorter
  ordO : SetOrder α
  ordA : SetOrder β
  reprO : α → List Char
  reprA : β → List Char

/-- fca/concept.py:44-49 and 50-55: one side of the string, sorted unless the other side is empty. -/
def sideText {γ : Type} [Kinded γ] (T : Sorter) (ord : SetOrder γ) (rep : γ → List Char) (letter : Char) (other : ℕ)
    (s : Finset γ) : Py (List Char) :=
  if other > 0 then
    match sortPy T (ord.enum s) with
    | .error e => .error e
    | .ok l => .ok (listText rep l)
  else .ok [letter]

/-- fca/concept.py:42-60 `Concept.__str__` for an empty `meta`. -/
def conceptText (E : SortEnv α β) (x : Concept α β) : Py (List Char) := do
  let e ← sideText E.sorter E.ordO E.reprO 'G' x.intent.card x.extent
  let i ← sideText E.sorter E.ordA E.reprA 'M' x.extent.card x.intent
  .ok ('(' :: e ++ [',', ' '] ++ i ++ [')'])

/-- fca/concept_lattice.py:34-38 `ConceptLattice.__init__` with the hashes: the dict of
fca/algorithms/norris.py:143 stores every concept under the hash of its string (fca/concept.py:70-71). Later
hashes are those of the same concepts and are left out. -/
def makeLatticeSorted (E : SortEnv α β) (c : Ctx α β) : Py (CLattice α β) := do
  let cs ← norris c
  let _ ← cs.mapM (conceptText E)
  let P ← coveringRelation cs
  let b ← csBottom cs
  let t ← csTop cs
  .ok ⟨cs, P, b, t, c⟩

/-- fca/implication.py:55-69 `Implication.__repr__`, which is also what `__hash__` (lines 81-82) hashes. Whatever is
raised in the `try` block is dropped; the `except` block sorts again. `asText` is the name itself if it is a
string (`join` accepts nothing else), `str` is `str(name)`. -/
def impText {γ : Type} [DecidableEq γ] [Kinded γ] (T : Sorter) (ord : SetOrder γ) (asText : γ → Option (List Char))
    (str : γ → List Char) (x : Imp γ) : Py (List Char) :=
  let join := List.intercalate [',', ' ']
  let body := fun f : γ → Py (List Char) => do
    let p ← (← sortPy T (ord.enum x.premise)).mapM f
    let q ← (← sortPy T (ord.enum (x.conclusion \ x.premise))).mapM f
    (.ok (join p ++ [' ', '=', '>', ' '] ++ join q) : Py (List Char))
  match body fun n => match asText n with | some t => .ok t | none => .error .typeError with
  | .ok s => .ok s
  | .error _ => body fun n => .ok (str n)

namespace Ctx

/-- fca/algorithms/closure_operators.py:28-30 `oclosure` for arbitrary names. -/
def oclosureSorted (E : SortEnv α β) (c : Ctx α β) (objs : List α) : Py (List α) := do
  let s ← c.coOclosureSet E.ordA objs
  sortPy E.sorter (E.ordO.enum s)

/-- fca/algorithms/closure_operators.py:33-35 `aclosure` for arbitrary names. -/
def aclosureSorted (E : SortEnv α β) (c : Ctx α β) (atts : List β) : Py (List β) := do
  let s ← c.coAclosureSet E.ordO atts
  sortPy E.sorter (E.ordA.enum s)

/-- fca/algorithms/dg_basis.py:20, 75: `set(aclose(a))`. -/
def dgAcloseSorted (E : SortEnv α β) (c : Ctx α β) (s : Finset β) : Py (Finset β) := do
  let l ← c.aclosureSorted E (E.ordA.enum s)
  .ok l.toFinset

/-- fca/algorithms/dg_basis.py:11-25, 27-40 `compute_dg_basis`, `compute_dg_basis_simple` for arbitrary names, with an
explicit closure function. -/
def dgBasisSorted (E : SortEnv α β) (c : Ctx α β) (close : Finset β → List (Imp β) → Finset β) (bg : List (Imp β))
    (cond : Finset β → Bool) : Py (List (Imp β)) :=
  dgBasis c.attributes (c.dgAcloseSorted E) close bg cond

end Ctx
end

/-! ### Integers and strings -/

/-- A name that is an integer or a string. -/
inductive PName
  | int (n : ℤ)
  | str (s : List Char)
  deriving DecidableEq

/-- `str(n)` for an integer. -/
def intText (n : ℤ) : List Char := (if n < 0 then ['-'] else []) ++ Nat.toDigits 10 n.natAbs

/-- `str(x)` -/
def PName.text : PName → List Char
  | .int n => intText n
  | .str s => s

/-- `str(x) + '_{}'.format(i)` (fca/context.py:228, 238) is a string also for an integer `x`. -/
instance : PyName PName := ⟨fun x i => .str (x.text ++ '_' :: Nat.toDigits 10 i)⟩

instance : Kinded PName where
  kind | .int _ => 0 | .str _ => 1
  lt | .int a, .int b => decide (a < b) | .str a, .str b => decide (a < b) | _, _ => false
  irrefl x := by cases x <;> simp
  trans
    | .int _, .int _, .int _, _, _ => by simpa using lt_trans
    | .str _, .str _, .str _, _, _ => by simpa using lt_trans
    | .int _, .str _, _, h, _ | .str _, .int _, _, h, _ => by cases h
    | .int _, .int _, .str _, _, h | .str _, .str _, .int _, _, h => by cases h
  total
    | .int _, .int _, _, h => by simpa using lt_or_gt_of_ne (fun he => h (by rw [he]))
    | .str _, .str _, _, h => by simpa using lt_or_gt_of_ne (fun he => h (by rw [he]))
    | .int _, .str _, h, _ | .str _, .int _, h, _ => by cases h
