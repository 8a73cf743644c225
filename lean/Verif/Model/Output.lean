/-
Model of what the library writes with `print`: `PartialContext.complete` (fca/partial_context.py:114-119) and
`compute_implication_cover` (fca/algorithms/implication_covers.py:22, 27). One entry of the output is the text of one call
of `print`, without the line break at its end. `print(a, b)` writes `str(a)`, a blank and `str(b)`.
-/
import Verif.Model.PartialText
import Verif.Model.Covers
import Verif.Model.ReadWrite

variable {α β : Type} [DecidableEq α] [DecidableEq β]

namespace PCtx

section
variable [PyName α] [PyName β]

/-- fca/partial_context.py:100-119: one round of the loop of `complete` with what it prints; `strO` is `str` on objects,
`ord` as in `completeOne`. -/
def completeOneOut (strO : α → List Char) (ord : SetOrder β) (imps : List (Imp β)) (p : PCtx α β) (o : α) :
    List (List Char) × Mut α β :=
  match p.x.objectIntent o with
  | .error e => ([], (p, some e))
  | .ok xi =>
    let nx := simpleClosure xi imps
    match p.q.objectIntent o with
    | .error e => ([], (p, some e))
    | .ok qi =>
      if ¬ nx ⊆ qi then ([], (p, some .valueError))
      else
        let mx := p.x.setObjectIntent (ord.enum nx) o
        match mx.2 with
        | some e => ([], ({ p with x := mx.1 }, some e))
        | none =>
          let nq := qi.filter fun a => a ∈ nx ∨ simpleClosure (nx ∪ {a}) imps ⊆ qi
          let mq := p.q.setObjectIntent (ord.enum nq) o
          match mq.2 with
          | some e => ([], ({ p with x := mx.1, q := mq.1 }, some e))
          | none =>
            (if xi ≠ nx ∨ qi ≠ nq then
              ["Object ".toList ++ strO o, p.intentToStr xi qi, "completed to ".toList, p.intentToStr nx nq]
             else [], ({ p with x := mx.1, q := mq.1 }, none))

/-- fca/partial_context.py:99-119: the loop; it ends with the first exception. -/
def completeLoopOut (strO : α → List Char) (ord : SetOrder β) (imps : List (Imp β)) :
    List α → PCtx α β → List (List Char) × Mut α β
  | [], p => ([], (p, none))
  | o :: os, p =>
    match p.completeOneOut strO ord imps o with
    | (out, (p', some e)) => (out, (p', some e))
    | (out, (p', none)) =>
      let r := completeLoopOut strO ord imps os p'
      (out ++ r.1, r.2)

/-- fca/partial_context.py:98-119 `complete` with its output. -/
def completeOut (strO : α → List Char) (ord : SetOrder β) (p : PCtx α β) (imps : List (Imp β)) :
    List (List Char) × Mut α β :=
  p.completeLoopOut strO ord imps p.objects

end

end PCtx

namespace Cover

/-- fca/algorithms/implication_covers.py:19-28: the loop over the examples with what it prints; `k` is `i` of the code
before line 21. An exception ends the loop after line 22. -/
def coverLoopOut (ord : ℕ → SetOrder β) (attributes : Finset β) :
    ℕ → List (Finset β) → List (Imp β) → List (List Char) × Py (List (Imp β))
  | _, [], basis => ([], .ok basis)
  | k, intent :: rest, basis =>
    match updatedBasis (ord k) intent basis attributes with
    | .error e => (["object  ".toList ++ natStr (k + 1)], .error e)
    | .ok b =>
      let r := coverLoopOut ord attributes (k + 1) rest b
      (("object  ".toList ++ natStr (k + 1)) :: (natStr b.length ++ " implications".toList) :: r.1, r.2)

/-- fca/algorithms/implication_covers.py:12-28 `compute_implication_cover` with its output. `cxt.examples()` is lazy; an
exception of it would come after the lines about the objects before (no difference for well-formed contexts, where there
is none). -/
def computeCoverOut (c : Ctx α β) (ord : ℕ → SetOrder β) : List (List Char) × Py (List (Imp β)) :=
  match c.examples with
  | .error e => ([], .error e)
  | .ok es => coverLoopOut ord c.attributes.toFinset 0 es [⟨∅, c.attributes.toFinset⟩]

end Cover
