/-
Specification of the text formats: tab separated tables with names (fca/readwrite/tab_separated.py:10-17, the documented
format) and lines of tokens.
-/
import Mathlib.Data.List.Basic

namespace Spec

/-- Fields of a line, separated by tabs. -/
def tabbed : List (List Char) → List Char
  | [] => []
  | x :: l => x ++ l.flatMap fun y => '\t' :: y

/-- The attributes' names, an empty line, and for every object a line with its name and its cells. -/
def tabFile (atts : List (List Char)) (table : List (List Char × List Bool)) : List Char :=
  tabbed atts ++ '\n' :: '\n' :: table.flatMap fun p =>
    tabbed (p.1 :: p.2.map fun b => if b then ['1'] else ['0']) ++ ['\n']

/-- `raw` is `x` with blanks before and after it, and `x` neither begins nor ends with a blank. -/
def Padded (blank : Char → Bool) (raw x : List Char) : Prop :=
  ∃ l r, raw = l ++ x ++ r ∧ (∀ c ∈ l, blank c = true) ∧ (∀ c ∈ r, blank c = true) ∧
    (∀ c, x.head? = some c → blank c = false) ∧ ∀ c, x.getLast? = some c → blank c = false

/-- Fields of a line, separated by `sep`. -/
def fieldLine (sep : Char) : List (List Char) → List Char
  | [] => []
  | x :: l => x ++ l.flatMap fun y => sep :: y

/-- The attributes' names, an empty line, and for every object a line with its cells
(fca/readwrite/tab_separated.py:52-57). -/
def boolFile (atts : List (List Char)) (rows : List (List Bool)) : List Char :=
  fieldLine '\t' atts ++ '\n' :: '\n' :: rows.flatMap fun r =>
    fieldLine '\t' (r.map fun b => if b then ['1'] else ['0']) ++ ['\n']

/-- The objects' names, the attributes' names, an empty line, and for every object a line with its values. -/
def mvFile (objs atts : List (List Char)) (rows : List (List (List Char))) : List Char :=
  fieldLine '\t' objs ++ '\n' :: (fieldLine '\t' atts ++ '\n' :: '\n' :: rows.flatMap fun r =>
    fieldLine '\t' r ++ ['\n'])

/-- The attributes' names and for every object a line with its name and its values
(fca/readwrite/comma_separated.py:10-15). -/
def csvFile (atts : List (List Char)) (table : List (List Char × List (List Char))) : List Char :=
  fieldLine ',' atts ++ '\n' :: table.flatMap fun p => fieldLine ',' (p.1 :: p.2) ++ ['\n']

/-- Statements of a diagram in the dot language: nodes, edges and labels (above or below a node, with the number of
lines). -/
inductive DotStmt
  | node (i : ℕ)
  | edge (k i : ℕ)
  | label (head : Bool) (i : ℕ) (text : List Char) (n : ℕ)
  deriving DecidableEq

/-- The text of a statement; `dist` is the distance of a label with the given number of lines. -/
def DotStmt.render (dist : Bool → ℕ → List Char) : DotStmt → List Char
  | .node i => 'c' :: Nat.toDigits 10 i ++ " [width=0.25]\n".toList
  | .edge k i => 'c' :: Nat.toDigits 10 k ++ " -> c".toList ++ Nat.toDigits 10 i ++ ['\n']
  | .label head i text n =>
    'c' :: Nat.toDigits 10 i ++ " -> c".toList ++ Nat.toDigits 10 i ++
      (if head then "[headlabel=\"" else "[taillabel=\"").toList ++ text ++ "\", labeldistance=".toList ++ dist head n ++
      (if head then ",labelangle=270,color=transparent]\n" else ",labelangle=90,color=transparent]\n").toList

/-- Lines of tokens, each token followed by a blank. -/
def tokenLines (ls : List (List (List Char))) : List Char :=
  ls.flatMap fun l => l.flatMap (fun t => t ++ [' ']) ++ ['\n']

end Spec
