/-
Model of fca/implication.py (class Implication) and of the closure functions on
implication lists in fca/algorithms/closure_operators.py.
-/
import Verif.Spec
import Verif.Model.Py

variable {α : Type*} [DecidableEq α]

/-- fca/implication.py:28-33 `Implication.__init__`: the two sets `_premise` and `_conclusion`. -/
structure Imp (α : Type*) where
  premise : Finset α
  conclusion : Finset α

instance : DecidableEq (Imp α) := fun i j =>
  decidable_of_iff (i.premise = j.premise ∧ i.conclusion = j.conclusion)
    (by cases i; cases j; simp)

namespace Imp

/-- fca/implication.py:50-54 `get_reduced_conclusion`, the property `conclusion`:
`_conclusion - _premise`. -/
def reduced (i : Imp α) : Finset α := i.conclusion \ i.premise

/-- Key under which an implication is stored in a dict or set: fca/implication.py:74-82.
`__eq__` compares premise and reduced conclusion; `__hash__` hashes `str(self)`, which
is a function of premise and reduced conclusion, so equal implications share a hash and dict
lookup is lookup by this key. -/
def key (i : Imp α) : Finset α × Finset α := (i.premise, i.reduced)

/-- fca/implication.py:74-79 `__eq__`. -/
def pyEq (i j : Imp α) : Bool := i.premise == j.premise && i.reduced == j.reduced

/-- fca/implication.py:84-89 `is_respected` on a set. -/
def isRespected (i : Imp α) (s : Finset α) : Bool :=
  !(decide (i.premise ⊆ s)) || decide (i.reduced ⊆ s)

/-- fca/implication.py:90-93 `is_respected` on a partial example (pair of sets). -/
def isRespectedPartial (i : Imp α) (s : Finset α × Finset α) : Bool :=
  decide (i.reduced ⊆ s.2) || !(decide (i.premise ⊆ s.1))

/-- The pair (premise, conclusion) used by the specification. -/
def toSpec (i : Imp α) : Finset α × Finset α := (i.premise, i.conclusion)

end Imp

/-- View of an implication list as specification implications. -/
def specImps (L : List (Imp α)) : Spec.Imps α := L.map Imp.toSpec

/-! ### `simple_closure` -/

/-- fca/algorithms/closure_operators.py:78-84: one pass of the `for` loop. The state is
`(new_closure, changed, to_remove)`. -/
def simplePass (unused : List (Imp α)) (cl : Finset α) : Finset α × Bool × List (Imp α) :=
  unused.foldl (fun st imp =>
    if imp.premise ⊆ st.1 then (st.1 ∪ imp.conclusion, true, imp :: st.2.2) else st)
    (cl, false, [])

/-- fca/algorithms/closure_operators.py:77-86: the `while changed` loop (with fuel;
`none` = fuel exhausted, shown impossible). `imp in to_remove` is set membership, i.e. by `__eq__`. -/
def simpleLoop : ℕ → List (Imp α) → Finset α → Option (Finset α)
  | 0, _, _ => none
  | fuel + 1, unused, cl =>
    let r := simplePass unused cl
    if r.2.1 then
      simpleLoop fuel (unused.filter fun imp => !(r.2.2.any fun x => x.pyEq imp)) r.1
    else some r.1

/-- fca/algorithms/closure_operators.py:38-86 `simple_closure(s, implications)`. The default
of `getD` is never used (`simpleLoop_isSome`). -/
def simpleClosure (s : Finset α) (imps : List (Imp α)) : Finset α :=
  (simpleLoop (imps.length + 1) imps s).getD s

/-! ### `lin_closure` -/

/-- fca/algorithms/closure_operators.py:126-133 and 152-154: `decrease_count` mapped over
`current_imps`, joined with `set.union`. `count` is the dict keyed by implications. -/
def linCounts (cur : List (Imp α)) (count : Finset α × Finset α → ℕ) :
    (Finset α × Finset α → ℕ) × Finset α :=
  cur.foldl (fun st imp =>
    if st.1 imp.key = 0 then st
    else
      let count' := Function.update st.1 imp.key (st.1 imp.key - 1)
      if count' imp.key = 0 then (count', st.2 ∪ imp.conclusion) else (count', st.2))
    (count, ∅)

/-- fca/algorithms/closure_operators.py:149-158: the `while update` loop. `upd` is the list
`update` with its end at the head (`pop` takes the head, `extend` pushes one by one);
`ord k` is the iteration order of the set `add` in step `k`. `imps[m]` (lines 143-146) is the
sublist of implications whose premise contains `m`. -/
def linLoop (imps : List (Imp α)) (ord : ℕ → SetOrder α) :
    ℕ → List α → (Finset α × Finset α → ℕ) → Finset α → Option (Finset α)
  | 0, _, _, _ => none
  | _ + 1, [], _, cl => some cl
  | fuel + 1, m :: upd, count, cl =>
    let r := linCounts (imps.filter fun imp => decide (m ∈ imp.premise)) count
    let add := r.2 \ cl
    linLoop imps ord fuel (((ord fuel).enum add).reverse ++ upd) r.1 (cl ∪ add)

/-- Upper bound for the number of loop iterations of `linLoop`. -/
def linFuel (s : Finset α) (imps : List (Imp α)) : ℕ :=
  (s ∪ imps.foldr (fun i acc => i.conclusion ∪ acc) ∅).card + 1

/-- fca/algorithms/closure_operators.py:137-140: `s` together with the conclusions of the
implications with empty premise. -/
def linStart (s : Finset α) (imps : List (Imp α)) : Finset α :=
  (imps.filter fun i => decide (i.premise = ∅)).foldl (fun acc i => acc ∪ i.conclusion) s

/-- fca/algorithms/closure_operators.py:88-158 `lin_closure(s, implications)`.
`ord₀` is the iteration order of `list(new_closure)` in line 147. The dict `count` (lines 141-142)
maps an implication to the size of its premise; it is only looked up for implications of the
list, so it is modelled as a total function on keys. -/
def linClosure (ord₀ : SetOrder α) (ord : ℕ → SetOrder α) (s : Finset α)
    (imps : List (Imp α)) : Finset α :=
  if imps = [] then s
  else
    let start := linStart s imps
    (linLoop imps ord (linFuel s imps) (ord₀.enum start).reverse (fun k => k.1.card) start).getD s

/-! ### `closure` (prefix guarded) -/

/-- fca/algorithms/closure_operators.py:178-181: the two sets agree on the listed elements. -/
def agreeOn (base : List α) (a b : Finset α) : Bool :=
  base.all fun x => decide (x ∈ a) == decide (x ∈ b)

/-- fca/algorithms/closure_operators.py:174-183: the `for imp in unused_imps` loop;
`none` = the early `return False, set()`; otherwise `(new_closure, delete_list)`. -/
def closurePass (pre : List α) (current : Finset α) :
    List (Imp α) → Finset α → List (Imp α) → Option (Finset α × List (Imp α))
  | [], cl, del => some (cl, del)
  | imp :: rest, cl, del =>
    if imp.premise ⊆ cl then
      if agreeOn pre (cl ∪ imp.conclusion) current then
        closurePass pre current rest (cl ∪ imp.conclusion) (del ++ [imp])
      else none
    else closurePass pre current rest cl del

/-- fca/algorithms/closure_operators.py:170-188: the `while` loop. Outer `none` = fuel
exhausted (shown impossible), inner `none` = `(False, set())`, `some c` = `(True, c)`.
The loop condition `old_closure != new_closure` is true on entry because a list
(`base_set`) never equals a set; afterwards it says that the last pass changed the set.
`unused_imps.remove(imp)` removes the first equal implication. -/
def closureLoop (pre : List α) (current : Finset α) :
    ℕ → List (Imp α) → Finset α → Option (Option (Finset α))
  | 0, _, _ => none
  | fuel + 1, unused, cl =>
    match closurePass pre current unused cl [] with
    | none => some none
    | some (cl', del) =>
      if cl = cl' then some (some cl')
      else closureLoop pre current fuel (del.foldl (fun l d => l.eraseP (fun x => x.pyEq d)) unused) cl'

/-- fca/algorithms/closure_operators.py:161-188 `closure(current, base_set, implications,
prefLen)` for `base_set` a list (it is sliced in line 178, so a set would raise). -/
def prefixClosure (current : Finset α) (base : List α) (imps : List (Imp α)) (prefLen : ℕ) :
    Bool × Finset α :=
  match (closureLoop (base.take prefLen) current (imps.length + 2) imps current).getD none with
  | none => (false, ∅)
  | some c => (true, c)
