/-
Model of the text written by fca/readwrite/dot.py. Names are strings; `show(n/1.8 + 0.5)` is a parameter.
-/
import Verif.Model.ReadWrite

section

/-- fca/readwrite/dot.py:26-32: the beginning of the file. -/
def dotHead : List Char :=
  ("digraph L{" ++ "\n" ++ "nodesep=.25;\n" ++ "node[shape=circle,label=\"\"];" ++ "\n" ++
    "edge[dir=\"none\",minlen=2,fontsize=11,labelfloat=true,fontname=Arial];" ++ "\n").toList

/-- fca/readwrite/dot.py:71-77: the beginning of the file of `uwrite_dot`. -/
def udotHead : List Char :=
  ("digraph L{" ++ "\n" ++ "nodesep=.25;\n" ++ "node[shape=circle,label=\"\"];" ++ "\n" ++
    "edge[dir=\"none\",minlen=2,fontsize=9,labelfloat=true,fontname=Arial,color=grey,style=\"setlinewidth(.7)\"];" ++
    "\n").toList

/-- fca/readwrite/dot.py:37, 83: `"c%i [width=0.25]\n" % i`. -/
def dotNodeText (i : ℕ) : List Char := 'c' :: natStr i ++ " [width=0.25]\n".toList

/-- fca/readwrite/dot.py:39, 60: `"c%i -> c%i" % (k, i)`. -/
def dotArrow (k i : ℕ) : List Char := 'c' :: natStr k ++ " -> c".toList ++ natStr i

/-- fca/readwrite/dot.py:38-46, 47-55: the label of a node, `kind` is `headlabel` or `taillabel`, `tail` the rest of the
statement; nothing, if there are no names. -/
def dotLabelText (kind tail : List Char) (i : ℕ) (own label : List (List Char)) : List Char :=
  if own.length ≠ 0 then
    dotArrow i i ++ ('[' :: kind ++ "=\"".toList ++ Ctx.joinC "\\n ".toList label ++ "\", ".toList) ++ tail
  else []

/-- fca/readwrite/dot.py:58-60: the edges. -/
def dotEdgeText (es : List (ℕ × ℕ)) : List Char := es.flatMap fun e => dotArrow e.1 e.2 ++ ['\n']

variable (ordo orda : SetOrder (List Char)) (ordc : SetOrder (Concept (List Char) (List Char)))

/-- fca/readwrite/dot.py:6-63 `write_dot`: the contents of the file; `cs` has no repeated concepts. -/
def writeDot (path : List Char) (cs : List (Concept (List Char) (List Char))) : Py (List Char) :=
  if path.length = 0 then .error .assertionError
  else do
    let body ← (List.range cs.length).mapM fun i => do
      let con ← pyGet cs i
      let os := ownObjects ordo cs con
      let as := ownAttributes orda cs con
      .ok (dotNodeText i ++
        dotLabelText "headlabel".toList "labeldistance=1,labelangle=270,color=transparent]\n".toList i os (dotLabel os) ++
        dotLabelText "taillabel".toList "labeldistance=2,labelangle=90,color=transparent]\n".toList i as (dotLabel as))
    let es ← dotEdges ordc cs
    .ok (dotHead ++ body.flatten ++ dotEdgeText es ++ ['}'])

/-- fca/readwrite/dot.py:94-98, 107-111: the names in a label of `uwrite_dot`: their number, or with `full` at most six
of them. -/
def udotLabel (full : Bool) (l : List (List Char)) : List (List Char) :=
  let l := if !full then (if 1 ≤ l.length then [natStr l.length] else l) else l
  if 6 < l.length then l.take 6 ++ ["...".toList] else l

/-- fca/readwrite/dot.py:65-120 `uwrite_dot`; `dist n` is `"{0}".format(n/1.8 + 0.5)`. -/
def uwriteDot (dist : ℕ → List Char) (path : List Char) (cs : List (Concept (List Char) (List Char))) (full : Bool) :
    Py (List Char) :=
  if path.length = 0 then .error .assertionError
  else do
    let es ← dotEdges ordc cs
    let labels ← (List.range cs.length).mapM fun i => do
      let con ← pyGet cs i
      let os := udotLabel full (ownObjects ordo cs con)
      let as := udotLabel full (ownAttributes orda cs con)
      .ok (dotLabelText "headlabel".toList
          ("labeldistance=".toList ++ dist os.length ++ ",labelangle=270,color=transparent]\n".toList) i
          (ownObjects ordo cs con) os ++
        dotLabelText "taillabel".toList
          ("labeldistance=".toList ++ dist as.length ++ ",labelangle=90,color=transparent]\n".toList) i
          (ownAttributes orda cs con) as)
    .ok (udotHead ++ ((List.range cs.length).flatMap dotNodeText) ++ dotEdgeText es ++ labels.flatten ++ ['}'])

end
