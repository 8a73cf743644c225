/-
Model of the texts of exceptions (fca/context.py, fca/algorithms/exploration.py, fca/algorithms/patterns.py) and of
the text of a `BasicExploration`.
-/
import Verif.Model.BasicExploration
import Verif.Model.ImpText

namespace Msg

/-- A decimal number. -/
def digits (s : List Char) : Option ℕ :=
  s.foldl (fun n c => n.bind fun k =>
    if '0'.toNat ≤ c.toNat ∧ c.toNat ≤ '9'.toNat then some (10 * k + (c.toNat - '0'.toNat)) else none) (some 0)

/-- `template.format(*args, **kw)`: `{}` stands for the next positional argument, `{n}` for the `n`-th, `{name}` for
the keyword argument. Escaped braces and format specifications, which no template of fca has, are not modelled.
Arguments that are not used are no error. `k` counts the fields `{}`; `fuel` is the length of the template. -/
def formatAux (args : List (List Char)) (kw : List (List Char × List Char)) : ℕ → ℕ → List Char → Py (List Char)
  | 0, _, t => .ok t
  | _ + 1, _, [] => .ok []
  | fuel + 1, k, c :: t =>
    if c = '{' then
      let field := t.takeWhile (· ≠ '}')
      let rest := (t.dropWhile (· ≠ '}')).tail
      if field = [] then do
        let x ← pyGet args k
        let r ← formatAux args kw fuel (k + 1) rest
        .ok (x ++ r)
      else match digits field with
        | some n => do
          let x ← pyGet args n
          let r ← formatAux args kw fuel k rest
          .ok (x ++ r)
        | none =>
          match kw.find? fun e => e.1 = field with
          | some e => do
            let r ← formatAux args kw fuel k rest
            .ok (e.2 ++ r)
          | none => .error .keyError
    else do
      let r ← formatAux args kw fuel k t
      .ok (c :: r)

def format (t : String) (args : List (List Char)) (kw : List (List Char × List Char) := []) : Py (List Char) :=
  formatAux args kw t.toList.length 0 t.toList

/-- fca/context.py:34-43 `MultiplicationException`; `str` is the text of a number. -/
def multiplication {α β γ δ : Type} (str : ℕ → List Char) (l : Ctx α β) (r : Ctx γ δ) : Py (List Char) := do
  let a ← format "Attributes of the first context:\n" [str l.attributes.length]
  let b ← format "\nand number of objects of the second context:\n" [str r.objects.length]
  .ok (a ++ b ++ "\nshould be the same.".toList)

/-- fca/context.py:45-52 `NotUniqueElementException`; `x` is the text of the element. -/
def notUnique (x : List Char) : Py (List Char) := do
  let a ← format "Element {} " [x]
  .ok (a ++ "is already in context (object or attribute).".toList)

/-- fca/context.py:57-65 `IncorrectAttributeException`. -/
def incorrectAttribute (x : List Char) : Py (List Char) :=
  format "Attribute {att} is not among context attributes." [] [("att".toList, x)]

/-- fca/algorithms/exploration.py:11-17 `BasisConflict`. -/
def basisConflict (set : List Char) : Py (List Char) :=
  format "{0} conflict with confirmed implications" [set]

/-- fca/algorithms/exploration.py:19-29 `NotCounterExamplePremise`. -/
def notCounterExamplePremise (set imp : List Char) : Py (List Char) := do
  let a ← format "{0} is not counter example to {1}. " [set, imp]
  .ok (a ++ "Counter example doesn't contain all elements from premise".toList)

/-- fca/algorithms/exploration.py:31-42 `NotCounterExampleConclusion`. -/
def notCounterExampleConclusion (set imp : List Char) : Py (List Char) := do
  let a ← format "{0} is not counter example to {1}. " [set, imp]
  .ok (a ++ "Counter example intent contains all elements from conclusion".toList)

/-- fca/algorithms/patterns.py:37-46 `NotNegativeExample`. -/
def notNegativeExample (intent pattern : List Char) : Py (List Char) := do
  let a ← format "{0} is not a counter-example to {1}. " [intent, pattern]
  .ok (a ++ "Negative example doesn't contain all attributes of the pattern".toList)

/-- fca/algorithms/patterns.py:49-58 `ConfirmedPatternsConflict`. -/
def confirmedPatternsConflict (intent pattern : List Char) : Py (List Char) :=
  format "The attributes of the given example: {atts} conflict with the confirmed pattern: {pattern}" []
    [("atts".toList, intent), ("pattern".toList, pattern)]

/-- fca/algorithms/patterns.py:61-69 `NotAPatternException`. -/
def notAPattern (atts : List Char) : Py (List Char) :=
  format "A combination of attributes {atts} is not a pattern" [] [("atts".toList, atts)]

/-- fca/algorithms/patterns.py:72-77 `NotAPositivePattern`. -/
def notAPositivePattern (atts : List Char) : Py (List Char) :=
  format "A combination of attributes {atts} does not occur in the positive context" [] [("atts".toList, atts)]

/-- fca/algorithms/patterns.py:80-85 `NotANegativePattern`. -/
def notANegativePattern (atts : List Char) : Py (List Char) :=
  format "A combination of attributes {atts} occurs in the negative context" [] [("atts".toList, atts)]

end Msg

namespace BExp

/-- The lines of a list of implications. -/
def lines (ord : SetOrder (List Char)) (L : List (Imp (List Char))) : List Char :=
  (L.map fun i => i.text ord ++ ['\n']).flatten

/-- fca/algorithms/exploration.py:61-82 `__repr__` for names that are strings; `ord` stands for `sorted`. -/
def repr (ord : SetOrder (List Char)) (s : BExp (List Char) (List Char)) : Py (List Char) := do
  let c ← s.ctx.repr id id
  .ok ("Context:\n========\n".toList ++ c ++ ['\n'] ++
    "Attribute implications:\n=======================\n".toList ++ lines ord s.attrImps ++
    "Confirmed attribute implications:\n=================================\n".toList ++ lines ord s.confAttr ++
    "Object implications:\n====================\n".toList ++ lines ord s.objImps ++
    "Confirmed object implications:\n==============================\n".toList ++ lines ord s.confObj)

end BExp
