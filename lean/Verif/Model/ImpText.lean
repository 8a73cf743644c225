/-
Model of the text form of implications, fca/implication.py:56-69 (`__repr__`) and 95-102 (`str2imp`),
for names that are strings (lists of characters).
-/
import Verif.Model.ContextOps

/-- `s.split(c)` for a one-character separator. -/
def splitC (c : Char) : List Char → List (List Char)
  | [] => [[]]
  | x :: xs =>
    if x = c then [] :: splitC c xs
    else match splitC c xs with
      | [] => [[x]]
      | y :: ys => (x :: y) :: ys

/-- `s.split('=>')`. -/
def splitArrow : List Char → List (List Char)
  | [] => [[]]
  | [x] => [[x]]
  | x :: y :: xs =>
    if x = '=' ∧ y = '>' then [] :: splitArrow xs
    else match splitArrow (y :: xs) with
      | [] => [[x]]
      | z :: zs => (x :: z) :: zs

/-- `str.strip`; `ws` says which characters are white space. -/
def strip (ws : Char → Bool) (s : List Char) : List Char :=
  ((s.dropWhile ws).reverse.dropWhile ws).reverse

namespace Imp

/-- fca/implication.py:56-69 `__repr__`; `ord` stands for `sorted`, only its being an enumeration
of the set is used. -/
def text (ord : SetOrder (List Char)) (i : Imp (List Char)) : List Char :=
  Ctx.joinC [' ', '=', '>', ' '] [Ctx.joinC [',', ' '] (ord.enum i.premise),
    Ctx.joinC [',', ' '] (ord.enum i.reduced)]

/-- fca/implication.py:97-98 `str2set`. -/
def str2set (ws : Char → Bool) (s : List Char) : Finset (List Char) :=
  ((splitC ',' s).map (strip ws)).toFinset

/-- fca/implication.py:95-102 `str2imp`; unpacking a list of length other than two raises
ValueError. -/
def str2imp (ws : Char → Bool) (s : List Char) : Py (Imp (List Char)) :=
  match splitArrow s with
  | [p, c] => .ok ⟨str2set ws p, str2set ws c⟩
  | _ => .error .valueError

end Imp
