/-
The expected values in the tests and docstrings of /repo, checked for the model. These are tests of the model, not proofs of
properties: the code in /repo is not run, but its authors wrote down what it returns, and the model has to return the same.
Names are numbered (`Fin n`) where their text does not matter. Sets are iterated in the order of the numbers.
-/
import Verif.Model.DGContext
import Verif.Model.AIBasis
import Verif.Model.Factors
import Verif.Model.ImpText
import Verif.Model.ImpKinds
import Verif.Model.Lattice
import Verif.Model.ReadWrite
import Verif.Model.Scaling
import Verif.Props.Reduce
import Mathlib.Data.List.Lex
import Mathlib.Data.List.Sort
import Mathlib.Data.Char

namespace Conformance

/-- A table of zeros and ones. -/
def tab (l : List (List ℕ)) : List (List Bool) := l.map fun r => r.map (· == 1)

/-- Increasing order, computed by insertion. -/
def ins (α : Type) [LinearOrder α] : SetOrder α where
  enum s := Quot.liftOn s.val (List.insertionSort (· ≤ ·)) fun a b h =>
    List.Perm.eq_of_pairwise' (List.pairwise_insertionSort _ _) (List.pairwise_insertionSort _ _)
      ((List.perm_insertionSort _ a).trans (h.trans (List.perm_insertionSort _ b).symm))
  nodup s := by
    obtain ⟨⟨l⟩, h⟩ := s
    exact (List.perm_insertionSort _ l).nodup_iff.2 h
  mem s x := by
    obtain ⟨⟨l⟩, h⟩ := s
    exact (List.perm_insertionSort _ l).mem_iff

/-! ### tests/test_context.py -/

/-- `test_multiply` (lines 64-88). -/
example : (do
    let l ← Ctx.make (tab [[1,0,1,1], [0,0,0,1], [0,1,1,0], [1,0,0,1], [1,1,0,1]]) (List.finRange 5) (List.finRange 4)
    let r ← Ctx.make (tab [[0,0,1,0,0,1], [0,1,0,1,0,1], [1,0,0,0,1,1], [0,0,1,0,0,0]]) (List.finRange 4) (List.finRange 6)
    let m ← l.mul r
    (.ok (m.nd.rows, m.objects, m.attributes) : Py _)) =
    .ok (tab [[1,0,1,0,1,1], [0,0,1,0,0,0], [1,1,0,1,1,1], [0,0,1,0,0,1], [0,1,1,1,0,1]], List.finRange 5,
      List.finRange 6) := by
  decide +kernel

/-- `cxt1` and `cxt2` (lines 20-25); `g1`, `g2`, `g3` are 0, 1, 2, and so are `m1`, `m2`, `m3`. -/
def cxt1 : Ctx (Fin 3) (Fin 3) := ⟨[1, 0, 2], [0, 2, 1], ⟨some 3, tab [[1,1,0], [0,1,1], [0,0,1]]⟩⟩
def cxt2 : Ctx (Fin 3) (Fin 3) := ⟨[0, 1, 2], [0, 1, 2], ⟨some 3, tab [[0,1,1], [1,0,1], [0,1,0]]⟩⟩

example : Ctx.make (tab [[1,1,0], [0,1,1], [0,0,1]]) [1, 0, 2] [0, 2, 1] = .ok cxt1 ∧
    Ctx.make (tab [[0,1,1], [1,0,1], [0,1,0]]) [0, 1, 2] [0, 1, 2] = .ok cxt2 := by
  decide +kernel

/-- `test_eq` (lines 90-91). -/
example : Ctx.eq (fun i => ['g', (Char.ofNat (49 + i.val))]) (fun i => ['m', (Char.ofNat (49 + i.val))]) cxt1 cxt2 =
    .ok true := by
  decide +kernel

/-- `test_get_object_attribute_pairs` (lines 93-96). -/
example : cxt2.pairs = .ok [(0, 1), (0, 2), (1, 0), (1, 2), (2, 1)] := by decide +kernel

/-- `test_basis` (lines 98-102): one implication `m1 => m3` for both. -/
example : (do
    let b1 ← AI.computeCanonicalBasis (AI.pySortShort AI.Pre.lt) simpleClosure cxt1
    let b2 ← AI.computeCanonicalBasis (AI.pySortShort AI.Pre.lt) simpleClosure cxt2
    (.ok (b1.map Imp.key, b2.length) : Py _)) = .ok ([({0}, {2})], 1) := by
  decide +kernel

/-- `m1 => m3` as text (line 101). -/
example : Imp.text (ins _) ⟨{"m1".toList}, {"m3".toList}⟩ = "m1 => m3".toList := by
  decide +kernel

/-! ### tests/test_implication.py and the docstring of fca/implication.py -/

/-- `test_unit_implication` (lines 10-13); `.conclusion` is a new set, so that `pop` does not change `imp`. -/
example : KImp.pyEq (KImp.mkUnit {1, 2, 3} 4) ⟨.plain, ⟨{1, 2, 3}, {4}⟩⟩ = .ok true := by decide +kernel

/-- fca/implication.py:13-25. -/
example : Imp.text (ins _) ⟨{"a".toList, "b".toList}, {"c".toList}⟩ = "a, b => c".toList := by decide +kernel
example : let imp : Imp Char := ⟨{'a', 'b'}, {'c'}⟩
    [imp.isRespected {'a', 'b'}, imp.isRespected {'a', 'b', 'c'}, imp.isRespected {'a', 'c'}, imp.isRespected {'b'}] =
      [false, true, true, true] := by
  decide +kernel

/-! ### Docstrings of fca/algorithms/closure_operators.py -/

def cd2a : Imp Char := ⟨{'c', 'd'}, {'a'}⟩
def ad2c : Imp Char := ⟨{'a', 'd'}, {'c'}⟩
def ab2cd : Imp Char := ⟨{'a', 'b'}, {'c', 'd'}⟩
def a2bc : Imp Char := ⟨{'a'}, {'b', 'c'}⟩
def ce2abd : Imp Char := ⟨{'c', 'e'}, {'a', 'b', 'd'}⟩
def de2abc : Imp Char := ⟨{'d', 'e'}, {'a', 'b', 'c'}⟩
def cd2abe : Imp Char := ⟨{'c', 'd'}, {'a', 'b', 'e'}⟩

/-- The six calls of the docstrings of `simple_closure` (lines 46-69) and `lin_closure` (lines 100-124). -/
def calls (f : Finset Char → List (Imp Char) → Finset Char) : List (Finset Char) :=
  [f {'a'} [cd2a, ad2c, ab2cd], f ∅ [cd2a, ad2c, ab2cd], f {'b', 'c', 'd'} [cd2a, ad2c, ab2cd],
    f {'b', 'a'} [a2bc, ce2abd, de2abc, cd2abe], f {'a', 'e'} [a2bc, ce2abd, de2abc, cd2abe],
    f {'a', 'e'} [ce2abd, a2bc, de2abc, cd2abe]]

def answers : List (Finset Char) :=
  [{'a'}, ∅, {'a', 'b', 'c', 'd'}, {'a', 'b', 'c'}, {'a', 'b', 'c', 'd', 'e'}, {'a', 'b', 'c', 'd', 'e'}]

example : calls simpleClosure = answers := by decide +kernel
example : calls (linClosure (ins _) fun _ => ins _) = answers := by decide +kernel

/-! ### Docstrings of fca/context.py, fca/algorithms/norris.py, fca/concept_lattice.py -/

/-- The context of the docstrings; 1, …, 4 are 0, …, 3, and so are `a`, …, `d`. -/
def doc : Ctx (Fin 4) (Fin 4) :=
  ⟨List.finRange 4, List.finRange 4, ⟨some 4, tab [[1,0,0,1], [1,0,1,0], [0,1,1,0], [0,1,1,1]]⟩⟩

example : Ctx.make (tab [[1,0,0,1], [1,0,1,0], [0,1,1,0], [0,1,1,1]]) (List.finRange 4) (List.finRange 4) = .ok doc := by
  decide +kernel

/-- fca/context.py:159-166: the rows of the transposed context. -/
example : (do let t ← doc.transpose; (.ok t.nd.rows : Py _)) =
    .ok (tab [[1,1,0,0], [0,0,1,1], [0,1,1,1], [1,0,0,1]]) := by
  decide +kernel

/-- fca/context.py:177-178. -/
example : doc.intentByIndex 1 = .ok {0, 2} := by decide +kernel

/-- fca/context.py:187-192: `c, d => b`, `b => c`, `a, c, b => d`, in this order. -/
example : (do
    let b ← doc.computeDgBasis (ins _) (ins _) (ins _) (fun _ => ins _) [] fun _ => true
    (.ok (b.map Imp.key) : Py _)) = .ok [({2, 3}, {1}), ({1}, {2}), ({0, 1, 2}, {3})] := by
  decide +kernel

/-- The nine concepts of fca/algorithms/norris.py:29-37, in this order. -/
def docConcepts : List (Concept (Fin 4) (Fin 4)) :=
  [⟨∅, {0, 1, 2, 3}⟩, ⟨{0}, {0, 3}⟩, ⟨{1}, {0, 2}⟩, ⟨{0, 1}, {0}⟩, ⟨{2, 3}, {1, 2}⟩, ⟨{1, 2, 3}, {2}⟩,
    ⟨{0, 1, 2, 3}, ∅⟩, ⟨{3}, {1, 2, 3}⟩, ⟨{0, 3}, {3}⟩]

example : norris doc = .ok docConcepts := by decide +kernel

/-- fca/algorithms/norris.py:119-140: the parents of the nine concepts. -/
example : (do
    let P ← coveringRelation docConcepts
    docConcepts.mapM (dictGet P)) =
    .ok [{⟨{0}, {0, 3}⟩, ⟨{1}, {0, 2}⟩, ⟨{3}, {1, 2, 3}⟩}, {⟨{0, 1}, {0}⟩, ⟨{0, 3}, {3}⟩},
      {⟨{0, 1}, {0}⟩, ⟨{1, 2, 3}, {2}⟩}, {⟨{0, 1, 2, 3}, ∅⟩}, {⟨{1, 2, 3}, {2}⟩}, {⟨{0, 1, 2, 3}, ∅⟩}, ∅,
      {⟨{2, 3}, {1, 2}⟩, ⟨{0, 3}, {3}⟩}, {⟨{0, 1, 2, 3}, ∅⟩}] := by
  decide +kernel

/-- fca/concept_lattice.py:28-31. -/
example : (do
    let P ← coveringRelation docConcepts
    let L : CLattice (Fin 4) (Fin 4) := ⟨docConcepts, P, ⟨∅, {0, 1, 2, 3}⟩, ⟨{0, 1, 2, 3}, ∅⟩, doc⟩
    let p ← L.parentsOf ⟨{1, 2, 3}, {2}⟩
    let k ← L.children ⟨{0, 1, 2, 3}, ∅⟩
    (.ok (L.concepts, p, k) : Py _)) =
    .ok (docConcepts, {⟨{0, 1, 2, 3}, ∅⟩}, {⟨{1, 2, 3}, {2}⟩, ⟨{0, 1}, {0}⟩, ⟨{0, 3}, {3}⟩}) := by
  decide +kernel

example : (do let L ← makeLattice doc; (.ok (L.concepts, L.bottom, L.top) : Py _)) =
    .ok (docConcepts, ⟨∅, {0, 1, 2, 3}⟩, ⟨{0, 1, 2, 3}, ∅⟩) := by
  decide +kernel

/-! ### tests/algorithms/test_dg_basis.py -/

/-- The context of `AirlinesTest` (lines 11-36), names numbered. -/
def airlines : Ctx (Fin 13) (Fin 9) :=
  ⟨List.finRange 13, List.finRange 9, ⟨some 9, tab
    [[1,1,1,1,1,0,1,1,1], [0,1,0,1,0,0,0,0,1], [0,1,0,1,0,0,0,0,1], [0,0,0,1,0,0,0,0,0], [0,1,1,1,1,1,0,0,1],
     [0,1,0,0,0,0,0,0,0], [1,1,1,1,1,1,1,0,1], [1,0,1,0,0,0,1,1,1], [1,1,0,1,0,1,0,0,1], [0,1,1,1,1,1,0,0,1],
     [1,1,0,1,0,0,0,1,1], [1,1,1,1,0,0,1,1,1], [1,1,0,1,0,1,1,0,1]]⟩⟩

/-- The expected implications (lines 40-76). -/
def airlineImps : List (Imp (Fin 9)) :=
  [⟨{7}, {8, 7, 0}⟩, ⟨{6}, {8, 0, 6}⟩, ⟨{5}, {1, 8, 3, 5}⟩, ⟨{4}, {2, 1, 3, 8, 4}⟩, ⟨{8, 3}, {1, 8, 3}⟩, ⟨{2}, {2, 8}⟩,
   ⟨{1, 8}, {1, 8, 3}⟩, ⟨{1, 3}, {1, 8, 3}⟩, ⟨{2, 1, 3, 5, 8}, {2, 1, 3, 5, 8, 4}⟩, ⟨{0}, {8, 0}⟩,
   ⟨{8, 7, 0, 6}, {2, 8, 7, 0, 6}⟩, ⟨{2, 8, 0}, {2, 8, 0, 6}⟩, ⟨{1, 3, 5, 8, 7, 0}, {2, 1, 3, 6, 5, 8, 4, 7, 0}⟩]

/-- `test_attribute_implications` (lines 78-81). -/
example : (do
    let b ← airlines.computeDgBasis (ins _) (ins _) (ins _) (fun _ => ins _) [] fun _ => true
    (.ok (b.length, airlineImps.all fun i => b.any fun j => i.pyEq j) : Py _)) = .ok (13, true) := by
  decide +kernel

/-- `RelativeBasisTest` (lines 94-100). -/
example : (do
    let s ← doc.computeDgBasis (ins _) (ins _) (ins _) (fun _ => ins _) [] fun _ => true
    let r ← doc.computeDgBasis (ins _) (ins _) (ins _) (fun _ => ins _) [⟨{2, 3}, {1}⟩] fun _ => true
    (.ok (s.length, r.length, r.any fun i => i.pyEq ⟨{2, 3}, {1}⟩) : Py _)) = .ok (3, 2, false) := by
  decide +kernel

/-- The context of `BasisTest2` (lines 103-111). -/
def basis2 : Ctx (Fin 4) (Fin 4) :=
  ⟨List.finRange 4, List.finRange 4, ⟨some 4, tab [[1,1,1,1], [1,0,1,0], [0,1,1,0], [0,1,1,1]]⟩⟩

/-- `BasisTest2` (lines 113-128). -/
example : (do
    let r ← basis2.computeDgBasis (ins _) (ins _) (ins _) (fun _ => ins _) [⟨∅, {2}⟩] fun _ => true
    let s ← basis2.computeDgBasis (ins _) (ins _) (ins _) (fun _ => ins _) [] fun _ => true
    (.ok (r.any fun i => i.pyEq ⟨∅, {2}⟩, s.all fun i => (s.filter fun j => i.pyEq j).length == 1) : Py _)) =
    .ok (false, true) := by
  decide +kernel

/-! ### tests/algorithms/test_factors.py -/

def fac2 : Ctx (Fin 3) (Fin 3) := ⟨[0, 1, 2], [0, 1, 2], ⟨some 3, tab [[0,1,1], [1,0,1], [0,1,1]]⟩⟩
def fac3 : Ctx (Fin 5) (Fin 6) :=
  ⟨List.finRange 5, List.finRange 6, ⟨some 6, tab
    [[1,0,1,0,1,1], [0,0,1,0,0,0], [1,1,0,1,1,1], [0,0,1,0,0,1], [0,1,1,1,0,1]]⟩⟩

/-- `test_factors1` (lines 37-39) and `test_factors3` (lines 67-69). -/
example : (algorithm2 fac2 (fun _ _ => ins _) (ins _) 1).map (fun r => (r.1.length, r.2)) = some (2, .ok ()) := by
  decide +kernel
example : (algorithm2 fac3 (fun _ _ => ins _) (ins _) 1).map (fun r => (r.1.length, r.2)) = some (4, .ok ()) := by
  decide +kernel

/-- `test_make_factor_cxts` (lines 71-81), up to the order of objects and attributes. -/
example : (do
    let (l, r) ← makeFactorCxts (α := Fin 3) (β := Fin 3) (φ := Fin 2) (fun i => if i = 0 then 0 else 1) (fun _ => ins _)
      (fun _ => ins _) [⟨{0, 2}, {1, 0}⟩, ⟨{1}, {1, 2}⟩]
    let e ← Ctx.eq (fun i : Fin 3 => ['g', Char.ofNat (49 + i.val)]) (fun i : Fin 2 => ['f', Char.ofNat (48 + i.val)]) l
      ⟨[0, 1, 2], [0, 1], ⟨some 2, tab [[1,0], [0,1], [1,0]]⟩⟩
    let e' ← Ctx.eq (fun i : Fin 2 => ['f', Char.ofNat (48 + i.val)]) (fun i : Fin 3 => ['m', Char.ofNat (49 + i.val)]) r
      ⟨[0, 1], [0, 1, 2], ⟨some 3, tab [[1,1,0], [0,1,1]]⟩⟩
    (.ok (e, e') : Py _)) = .ok (true, true) := by
  decide +kernel

/-- `test_oplus` (lines 83-96). -/
example : (do
    let ps ← cxt2.pairs
    let d ← cxt2.aprime [2]
    let d' ← cxt2.aprime []
    let a ← oplus cxt2 (ins _) d 1 ps.toFinset
    let b ← oplus cxt2 (ins _) d' 1 ps.toFinset
    (.ok (a, b) : Py _)) = .ok ({(0, 1), (0, 2)}, {(0, 1), (2, 1)}) := by
  decide +kernel

/-- `TestFactorsWCondition.test_cxt1` (lines 131-142): nothing is yielded. -/
example : (algorithm2WCondition (α := Fin 2) (β := Fin 4)
      ⟨[0, 1], [0, 1, 2, 3], ⟨some 4, tab [[1,0,0,0], [0,0,0,1]]⟩⟩ ⟨1, true, 3, true⟩ (fun _ _ => ins _) (ins _)).map
      (fun r => (r.1.length, r.2)) = some (0, .ok ()) := by
  decide +kernel

/-! ### Files of tests/algorithms and the docstring of fca/algorithms/scaling.py -/

/-- tests/algorithms/scale.cxt; evaluating `value>5` is a NameError, evaluating `>5` a SyntaxError. -/
def scaleFile : List Char :=
  "B\n\n2\n2\n\nvalue>5\nvalue==1\n>5\n==1\nX.\n.X\n".toList

def scaleCxt : Ctx (List Char) (List Char) :=
  ⟨["value>5".toList, "value==1".toList], [">5".toList, "==1".toList], ⟨some 2, tab [[1,0], [0,1]]⟩⟩

example : readCxt (fun _ _ => .unknown) scaleFile = .ok scaleCxt := by decide +kernel

/-- fca/algorithms/scaling.py:18-36. The docstring shows the names without the `:` that line 56 puts between them. -/
example : (do
    let c ← scaleMv (fun x y => x ++ ':' :: y)
      (fun w v => if w = "value>5".toList then .ok (decide (v > 5)) else .ok (decide (v = 1)))
      ["g1".toList, "g2".toList, "g3".toList] ["attr1".toList, "attr2".toList, "attr3".toList]
      [[7, 6, 7], [7, 2, 9], [1, 3, 4]] [scaleCxt, scaleCxt, scaleCxt]
    (.ok (c.nd.rows, c.objects, c.attributes) : Py _)) =
    .ok (tab [[1,0,1,0,1,0], [1,0,0,0,1,0], [0,1,0,0,0,0]], ["g1".toList, "g2".toList, "g3".toList],
      ["attr1:>5".toList, "attr1:==1".toList, "attr2:>5".toList, "attr2:==1".toList, "attr3:>5".toList,
        "attr3:==1".toList]) := by
  decide +kernel

/-- tests/algorithms/small_cxt.cxt. -/
def smallFile : List Char :=
  ("B\n\n10\n20\n\ng0\ng1\ng2\ng3\ng4\ng5\ng6\ng7\ng8\ng9\nm0\nm1\nm2\nm3\nm4\nm5\nm6\nm7\nm8\nm9\nm10\nm11\nm12\nm13\nm14\nm15\nm16\nm17\nm18\nm19\n" ++
   ".X.XXX..X...X..XXXX.\nXX.....XX.......X..X\nX.XXX..X.XXXXX..XX.X\nX....X.XX....X......\nX..X..X....X...X.X..\n..XXXX...X......X...\nXX.X....XXX......X..\n.......XXXX.X....XXX\nXX...X....X..XXX....\nXX.......X....XX..XX\n").toList

/-- The same, names numbered. -/
def smallCxt : Ctx (Fin 10) (Fin 20) :=
  ⟨List.finRange 10, List.finRange 20, ⟨some 20, tab
    [[0,1,0,1,1,1,0,0,1,0,0,0,1,0,0,1,1,1,1,0], [1,1,0,0,0,0,0,1,1,0,0,0,0,0,0,0,1,0,0,1], [1,0,1,1,1,0,0,1,0,1,1,1,1,1,0,0,1,1,0,1], [1,0,0,0,0,1,0,1,1,0,0,0,0,1,0,0,0,0,0,0], [1,0,0,1,0,0,1,0,0,0,0,1,0,0,0,1,0,1,0,0],
     [0,0,1,1,1,1,0,0,0,1,0,0,0,0,0,0,1,0,0,0], [1,1,0,1,0,0,0,0,1,1,1,0,0,0,0,0,0,1,0,0], [0,0,0,0,0,0,0,1,1,1,1,0,1,0,0,0,0,1,1,1], [1,1,0,0,0,1,0,0,0,0,1,0,0,1,1,1,0,0,0,0], [1,1,0,0,0,0,0,0,0,1,0,0,0,0,1,1,0,0,1,1]]⟩⟩

example : (do let c ← readCxt (ν := List Char) (fun _ _ => .unknown) smallFile; (.ok (c.nd, c.objects, c.attributes) : Py _)) =
    .ok (smallCxt.nd, (List.range 10).map (fun i => 'g' :: natStr i), (List.range 20).map (fun i => 'm' :: natStr i)) := by
  decide +kernel

/-- tests/algorithms/test_lattice.py:10-14 `test_norris`. -/
example : (do let cs ← norris smallCxt; (.ok (decide ((⟨Finset.univ, ∅⟩ : Concept _ _) ∈ cs),
      decide ((⟨∅, Finset.univ⟩ : Concept _ _) ∈ cs),
      decide (2 < cs.length)) : Py _)) = .ok (true, true, true) := by
  decide +kernel

end Conformance
