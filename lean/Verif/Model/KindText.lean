/-
Model of the class method `str2imp` and of the text form for the subclasses `UnitImplication` and `NegativeImplication`
(fca/implication.py:56-69, 95-113, 124-136), for names that are strings.
-/
import Verif.Model.ImpKinds

namespace KImp

/-- The second argument of `UnitImplication(premise, conclusion)`: a name, or a set of names. -/
inductive UnitArg (α : Type)
  | name (c : α)
  | set (s : Finset α)

/-- fca/implication.py:106-113 `UnitImplication.__init__`: the set display `{conclusion}` (line 112) hashes the argument,
which raises TypeError for a `set`. -/
def mkUnitArg {α : Type} (premise : Finset α) : UnitArg α → Py (KImp α)
  | .name c => .ok (mkUnit premise c)
  | .set _ => .error .typeError

/-- `cls(premise, conclusion)` for two sets: fca/implication.py:28-33, for `UnitImplication` 106-113.
`NegativeImplication` inherits the constructor. -/
def mk2 {α : Type} (k : ImpKind) (premise conclusion : Finset α) : Py (KImp α) :=
  match k with
  | .unit => mkUnitArg premise (.set conclusion)
  | k => .ok ⟨k, ⟨premise, conclusion⟩⟩

/-- fca/implication.py:95-102 `str2imp` called on the class `k`; unpacking (line 99) raises ValueError unless there are two
parts. -/
def str2impK (k : ImpKind) (ws : Char → Bool) (s : List Char) : Py (KImp (List Char)) :=
  match splitArrow s with
  | [p, c] => mk2 k (Imp.str2set ws p) (Imp.str2set ws c)
  | _ => .error .valueError

/-- `str(imp)`: fca/implication.py:56-69, inherited by `UnitImplication`, where it reads `_conclusion` and not the property
with the assertion; 124-136 for `NegativeImplication`. `ord` stands for `sorted`, `o₁`, `o₂` for the iteration orders of
the two sets. -/
def text (ord o₁ o₂ : SetOrder (List Char)) (i : KImp (List Char)) : List Char :=
  match i.kind with
  | .negative => negText o₁ o₂ i.imp
  | _ => i.imp.text ord

end KImp
