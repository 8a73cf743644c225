# Formal model of artreven/fca in Lean 4

## Approach

The library is a pure/stateful core over small tables, so the model is a *shallow*
one: every Python function becomes a total, computable Lean function over `List`,
`Finset`, `Nat` and small structures, branch by branch, with exceptions as values
(`Except PyErr`). Every definition cites the file and lines it models.

* **Names** (objects, attributes) are elements of an arbitrary type with decidable
  equality (Python: hashable values). Where the code calls `str`, `sorted` or renames,
  the type gets a class/parameter for exactly that (`PyName`, a linear order ...).
* **Python sets** are `Finset`s. Where the code *iterates* over a set (the order
  depends on hashing), the model takes the order as an arbitrary oracle
  (`SetOrder`, per call site/step), and theorems quantify over all oracles.
  `set.pop()` and `max` with ties over a set are treated the same way.
* **numpy arrays**: a boolean array is a list of rows together with its shape (a table
  without rows is one-dimensional in numpy, `shape == (0,)`, which changes which
  operations raise; that is modelled). Ragged input raises `ValueError` (numpy >= 1.24).
* **Mutation** becomes returning the new value. Aliasing was checked by reading:
  `Context.__init__` copies the name lists and the table; the places where aliasing is
  observable (aibasis' shared premise sets, memo wrappers, exploration2 sessions sharing one
  context) are modelled explicitly.
* **Loops** become structural recursion or recursion on fuel, with a theorem that the
  given fuel is never exhausted (that is the termination statement).
* **Generators** are modelled by the list of yielded values (and, where the property is
  about prefixes/consumers, by the list of states at the yields).
* **Floats**: quotients of integers are modelled in `ℚ`; `compute_probability`, which uses
  `exp` and `log`, in `ℝ`.

Layout (`/verif/lean/Verif`):

* `Spec*.lean` small specifications, independent of the model (Galois derivations on a
  relation, least closed superset, relative pseudo-intents, stability, ...).
* `Model/*.lean` the model, function by function.
* `Lemmas/*.lean` helper lemmas and proofs.
* `Props/*.lean` property theorems `C01_...` with non-vacuity examples.
* `Conformance.lean` tests of the model (not proofs of properties): the expected values in the
  tests and docstrings of the repository, computed by the model.

If model and code agree but the property is false of both, the negation is proved with
a concrete witness (`..._violated`/`..._counterexample`) and the true restricted statement is proved as
`..._partial`.

## Plan per property

| Id | Model | Proof |
|---|---|---|
| C01 | `Ctx.mk'` with all checks | case analysis on the guards, both directions |
| C02 | the renaming loop over a list mutated while iterated | witness `['a_1','a','a']`; distinct input unchanged; partial: no generated name collides |
| C03 | `step : Ctx → Op → Except PyErr Ctx` | refinement to an abstract relation, induction over op lists |
| C04 | accessors by index dict / `.index` / nonzero | characterisation lemma per accessor |
| C05, C06 | index-based methods incl. the caught `IndexError`; set-based functions with order oracle | both shown equal to the relational spec |
| C07 | double loop building lines | list/nth extensionality |
| C08 | boolean matrix product incl. numpy shapes | membership characterisation |
| C09 | `__eq__` incl. the `repr` shortcut | permutation invariance; converse under injective `repr`; witness otherwise |
| C10, C11 | dict-from-zip semantics (first position, last value) | strong induction on row size for C11; simulation of the machine integers by unbounded ones |
| C12 | same | witness (index/code confusion); exact description of the removed rows for every context (`C12_exact`, `C12_iff`) |
| C13 | `list2int` on 64-bit integers | injective up to 64 bits, collision beyond |
| C14, C15 | numpy `+` on booleans is `or` | C15: always raises on non-empty contexts |
| C16-C18 | comprehensions, Counter | membership / count characterisation |
| C19 | `Imp` | direct |
| C20 | `simple_closure` loop with fuel | invariant: subset of every closed superset; exit ⇒ closed |
| C21 | `lin_closure` with dict counters keyed by *equality of implications*, pop order oracle | counter invariant; duplicates: witness; exact value for every list (`C21_exact`, `C21_iff`) |
| C22 | `closure` | invariant + monotonicity |
| C23 | strings as char lists | split/join lemmas; witness for empty premise |
| C24-C30 | `generalized_compute_dg_basis` with fuel | lectic-order invariant (Ganter); all parts from one invariant |
| C31 | default `confirmed=None`, cached `_obj_imp_basis` | always raises `TypeError` with an object |
| C32 | `update_preclosed` with aliasing, sort as in CPython | theorem for subset-respecting sort; search for a witness for the real sort |
| C33 | memo wrapper state machine | transparency for returning runs, witness for raising runs |
| C34, C35 | the double loop | induction over objects: list = concepts of the subcontext |
| C36-C40 | dict keyed by (hash, eq); hash depends on meta | direct; C39 witness |
| C41, C42 | work-set loop with pop oracle | counting invariant, topological order |
| C43-C45 | `ℚ` valued | direct |
| C46-C49 | greedy loops with tie oracle | invariants on uncovered pairs |
| C50, C51 | as is | C50: stuck assertion for every context with disjoint names; values, scores and end for arbitrary names |
| C52-C54 | `updated_basis` with the lost `.update` on a temporary | invariant; witness by search for C53 |
| C55-C62 | state machines over call histories | invariants by induction over the history, witnesses for the violated ones |
| C63-C65 | `eval` as predicate parameter | direct |
| C66-C69 | text as `List Char`/lines, `eval` as parameter | round trip by induction |
| C70, C71 | float index ⇒ `TypeError` | direct; C71 on the operator |
| C72 | `algorithm2_w_condition` with repetitions | witness |
| C73 | `compute_implication_cover` | invariant over objects: direct and irredundant |
| C74 | `BasicExploration` histories | completeness invariant of open and confirmed implications |
| C75 | `ExplorationDB` | outcome of each call, state unchanged |
| C76 | sessions of exploration2 | invariant over histories |
| C77 | `patterns.py` | characterisation of the result |
| C78, C79 | readers and writers, diagram edges | outcome of reading; covering relation |
| C80-C82 | `PartialContext` | completion = closure of certain data, possible attributes; histories; basis |
| C83-C85 | `AttributeExploration` with partial examples | domain invariant, measure, witness for C85 |
| C86 | `compute_index` on association lists | direct |
| C87-C89 | the three implication classes as one type | case analysis |
| C90 | `compute_probability` with `Real.exp`, `Real.log` | product formula, distributing sums over products |
| C91, C92 | the `numbers` example: predicates on `ℤ`, loop of `explore` with an answer strategy | arithmetic; gap measure, first object treated apart |
| C93 | `compute_dg_basis` with a condition | loop invariant for quasi-closed sets; pseudo-intents meeting a hereditary condition; witness |
| C94-C96 | the bi-unar example: terms, equalities, symmetry, background, examples | symmetry as a permutation of the 21 attributes; equivalence relations on the terms |
| C97 | exploration up to a symmetry with partial examples | symmetric invariant on top of C83, C93 |
| C98, C99 | `ManyValuedContext` as a context of truth values with its own constructor | reduction to C15-C19; witnesses |
| C100, C101 | csv readers with the mode of `open` as a parameter | every reader raises; round trip of the bodies in text mode |
| C102 | xml at the level of parser events | every call raises; induction over the document for the handlers |
| C103 | text of the dot files | as rendering of a list of statements |
| C104 | `algorithm2_w_condition` with all its parameters | loop invariants; witnesses |
| C105 | diagram edges and labels | paths along covering pairs = order; C68, C79 |
| C106 | container methods, iteration through `__getitem__` | induction over histories |
| C107 | a Python set as list of (hash when added, position in the heap of concepts) | C35 says what was yielded; witness |
| C108 | random numbers as an arbitrary sequence | cells by index arithmetic; product measure |
| C109 | `compare_tuples` on finite sets | the least element of the symmetric difference |
| C110 | the generator with contexts that depend on the values yielded | one-round lemma of C26; invariant on the sets left behind; witness |
| C111 | the three removal functions on arbitrary lists, compared by the sets that respect them | loop invariant up to `==`; witness for `remove_subsumed_plus` |
| C112, C113, C115 | text and copies of partial contexts; answers as sequences of calls that stop at an exception | direct; rows have equal lengths, so the text determines the cells; IndexError for every context with a cell |
| C114 | `np.delete` once per column, `del` once per listed name | positions sorted downwards, induction; counting for repeated names |
| C117 | positions as integers, guard on the first access only | positions outside are separated from those inside; natural numbers give the model used elsewhere |
| C118 | `csv.reader` as a state machine on lines, `Parser.step` | the reader as a function of the stream of characters; induction over fields and lines |
| C119 | `readHead`, `readNames`, `readRows`, `pyInt` on lists of characters | lines of a file with blanks; two files that differ in a final line break are read in parallel |
| C116 | the object with all six attributes, assignments in their order, state kept when a call raises | each mutator is simulated by `ContextOps`; half-changed state for repeated names |
| C120 | `norris` as a generator that reads the context again at the second `next` and in every round | the rows read in the beginning decide, if names keep their places; witnesses |
| C121, C122 | the object of C116, changed from outside | objects that differ in `cross_table` and some dictionary entries only are kept equal by all calls; surplus names never go away |
| C123 | the caller's loop with the list it holds and whether the object still has the same list | induction over the rest of the list, after the first deletion |
| C124 | `algorithm2`, `makeFactorCxts`, `mul`, `eq`, `removeEmptyObjects` composed as in the tests | from C46-C49 and the semantics of `==` (C06) |
| C125 | `computeCanonicalBasis` with any sort and closure function, `computeDgBasis` | invariant of `Lemmas/AIBasis`: the premises in the four lists are pairwise distinct |
| C126 | `sortPy`, `conceptText`, `impText`, `makeLatticeSorted`, `dgBasisSorted` of `MixedNames` | any comparison sort asks a pair of different kinds: two orders that agree within the kinds cannot have the same result |
| C127 | the functions that join or write names, in `TextNames`: a list of pieces, written until one raises | pieces before the first name without text; own names of a concept are the names with equal rows or columns |
| C128 | `DGTrace`: the loop of `DG` with the list of calls it makes | the same invariant as for the basis, one round (`dgRound_step`) at a time |
| C129 | `norris`, the mutators | an intent is the set of common attributes of some set of objects; counting of lists without repetition |
| C130 | `Covers`, `DG` | after `minimize` every premise is closed under the other implications; such implications with full conclusions are those of the pseudo-intents, by induction on the size of the premise |
| C131 | `DG`, `norris` | a closure operator is determined by its fixed points, the pseudo-intents by the closure operator; sorted lists with the same members are equal |
| C132 | `Stability`, `Lattice` | every set of objects generates exactly one concept; a set that does not generate the intent lies in the extent of a lower neighbour |
| C133 | `Lattice`, `norris`, `Scaling` | the basic theorem: an element corresponds to the objects below and the attributes above it, a concept to the join of its objects |
| C134, C135 | `alg2Inner`, `alg2Loop` | the inner loop is as good as its first and its last candidates; the attribute concepts cover what is left; witnesses |
| C136 | `EDB.explore`, `EDB.exploreQuestions`, `cliExplore`, `cliQuestions` | `Lemmas/ExploreOrder.lean`: sets below the last premise asked that respect the accepted implications are closed in the examples, so every accepted premise is a pseudo-intent of the domain; the four implications of the numbers from a context of six numbers with the same closure |
| C137 | `reduceObjects`, `reduceAttributes`, `makeLattice`, `CLattice.children`, `CLattice.parentsOf` | an intent with a least intent above it is an irreducible row, on the level of `IsIntent`; the dual by exchanging objects and attributes; counts with `Set.ncard`; correspondences of lattices and of rows as `Equiv` of subtypes |
| C138 | `Ctx.mul`, `Ctx.transpose`, `makeFactorCxts` | equality of whole contexts (names, order, table), from the relational description of C08 and the fact that names and incidence determine a context with an object; decompositions as relations with `IsConcept` |
| C139 | `EDB.run`, `E2.run`, `computeDgBasis` | minimality of C27 with the completeness of C58 and C76; accepting `P → cl P` for a pseudo-intent `P` removes exactly `P` from the pseudo-intents (`Spec.pseudo_accept`) |
| C140 | `Ctx.eq`, `PyObj.eq`, `PyObj.mem` | `Same` and equality of the texts; the order in which Python tries the two operands is part of the model (`PyObj.eq`) |
| C141 | `scaleMv`, `ordinalScale`, `nominalScale`, `norris` | `IsConcept` in the scaled context and in the scales; `OneRow` says that exactly one condition of a scale holds for a value |
| C142 | `dgBasisWith` before and after `addObjectWithIntent`, `deleteObject`, `addAttributeWithExtent`, `deleteAttribute`, `renameAttribute` | `Entails`, `attrClosure` |
| C143 | `BExp.init`, `BExp.exec`, `BExp.run` with truthful calls only | `Domain`, `Truthful`, `HoldsIn`, `Entails` |
| C144 | `Msg.format`, texts of the exceptions, `BExp.repr` | injectivity of the texts |
| C145 | `Ctx.transpose`, `makeLattice`, `parentsOf`, `children`, `istability`, `estability`, `separation`, `extentSize`, `intentSize` | exchange of extent and intent |
| C146 | `extractSubcontext`, `extractFiltered`, `removeEmptyObjects`, `reduceAttributes`, `dgBasisWith` | `Entails`, `HoldsIn`, `keptAbove` |
| C147 | `Cover.minimizeObj` (objects with identity) | `Closed`, `Cover.minimize` |
| C148 | `AIObj.computeCanonicalBasis` (set objects, changed in place) | `AI.computeCanonicalBasis`, `Closed`, `attrClosure` |
| C149 | `IndexFn.run`, `computeFunctions`, `filterValue`, `filterConcepts`, `istability`, `estability` | `IsIndex`, `IsConcept`, `intensionalStability`, `extensionalStability` |
| C150 | `simpleClosureW`, `linClosureW`, `norrisW` (with counters) | `simpleClosure`, `linClosure`, `norris`, numbers of elements |
| C151 | `norris`, `iterNorris`, `makeLattice`, `istability`, `estability`, `dgBasisWith` on `Ctx.renamed f g c` | the results on `c`, mapped |
| C152 | `PExp.iterateNew`, `addAll`, `ask`, `session` | positive rows and the domain (a relation between names and sets of attributes) |
| C153 | `PCtx.dgBasis`, called again with its results (`PCtx.rounds`) | `Refutes` on the rows, `Entails` |
| C154 | `Ctx.computeDgBasis`, `Ctx.computeDgBasisSimple` | `EarlyClosed` and `earlyImps` (equal implications counted together), `IsPseudo`, `Entails` |
| C155 | `DBs.exec`, `DBs.run` (several `EDB` on one context) | `HoldsIn`, `IsPseudo`, `Entails` on the shared context |
| C156 | `BExp.confirmAttrZ`, `BExp.runZ` (any integer position) | `AtPos`: the list split at the position |
| C157 | `E2W.exec`, `E2W.run` (objects by position) | `HoldsIn` on the context of the session, frame conditions, simulation of `E2` |
| C158 | `DGObj.basisO`, `DGObj.simpleO`, `DGObj.linO` (sets as addresses) | simulation of `dgLoop`, `Sep`, frame conditions |
| C159 | `CWorld.call`, `construct`, `deepcopy`, `shallow`, `basis`, `run` (lists and arrays as addresses) | simulation of `CObj.call`, frame conditions, induction on programs |
| C160 | `Rounding`, `toDouble`, `algorithm2F`, `algorithm2WConditionF` | monotonicity of rounding, lockstep with the exact run; binades for `toDouble` |
| C161 | `stabLoopF`, `separationF`, `extentSizeF`, `intentSizeF` | the loops commute with rounding; dyadic quotients are exact |
| C162 | PatternsLive: unexplainedLive, examplesLive, positiveLive, newLive, askLive | generators as loops with an arbitrary consumer between the steps; states threaded; measure: names of the domain not yet added |
| C163 | ConceptObjects: hit, add, remove, get, modify, covers, fill, parents, children, exec, run | explicit form of the dict after each pair of the loop; frame: only values of members matter; invariant of all programs |
| C164 | BaseObjects: ofObjs, minimizeBase; ExplorationDB; DG | two runs side by side: invariant that contexts, open implications and theories agree; relative pseudo-intents depend on closed sets only |
| C165 | ProbabilityFloat: Libm, computeProbability | forward error analysis: perturbation of log and exp, rounded sums and products against the exact loop of C90; bounded range: all intermediate values agree with those of the library extended without overflow (`Libm.extend`) |
| C166 | NestedBasis: Act, act, dgBasis, attributeImplications | programs as trees; induction over the program with the stack of caches as invariant; expert invariant along the loop; concrete context for the violation |
| C167 | CoverExact: computeCover | no trivial implication is added (loop by loop); with the antichain and the one-step property of C73 the members are characterised and unique | |
| C168 | HashOrder: setObjectIntent, aclosure, linClosure, computeDgBasis, complete, istability, nominalScale | uniqueness of the specified values; flags depend on membership only; concrete orders for the violations | |
| C169 | TotalExamples: xqAclosure, complete, AttributeExploration on both kinds of context | simulation: one call at a time, with the invariant that the background is valid and without repetitions | |
| C170 | EDB, PDB, computeDgBasis, PCtx.dgBasis, coAprime/coOprime | derivation as a filter over the enumerated list, depends on its set only; invariant Usable over all calls | |
| C171 | PCtx.completeOut, Cover.computeCoverOut (Model/Output.lean) | erasure of the output; invariant that each round changes one row; loop prefix = cover of the first objects | |
| C172 | Model/ContextOps.lean | equations between compositions of operations via a normal form for each of them | |
| C173 | `Cover.computeCover`, `AI.computeCanonicalBasis`, `BExp.run`, `PExp.run` | characterisation of covers and bases by closures; congruence of the calls | |
| C174 | EDB, `EDB.rejectWith`, `EDB.explore` | open implications as relative pseudo-intents; closure of a context with one more row | |
| C175 | Act.canonicalBasis, attributeCanonicalBasis, CSt.rowReads, columnReads | read-only programs on clean caches; answers held by the oldest wrapper are kept |
| C176 | Model/IntentArgs | case analysis over the kinds, simulation by calls with sets |
| C177 | Model.TupleNames | exceptions keep the state (OM); invariants through calls; the failed deletion as an invariant under which every call raises |
| C178 | str2impK, mk2, mkUnitArg, KImp.text | splitting at the first arrow; total length of the names for negative implications |
| C179 | computeDgBasis, addAttributeWithExtent, EDB.run | closures of the family; pseudo-intents are the transversals; C26, C27, C139 |
| C180 | dgBasisWith, minimize, simpleClosure, famCtx | maximal closed sets without a given attribute; C27, C130, C131 |
| C181 | `EDB.exec`, `EDB.run` | rows changed by a call; irreducible closed sets (C180); induction over the history |
| C182 | `norris`, `dgBasisWith`, `computeCover`, `minimize` | counting the sets an implication excludes; left-minimal premises (C167), contexts with a given theory (C180) |

## Trusted base

* Lean's kernel (4.33.0). Nothing is proved by `native_decide` or `bv_decide`; there is no
  `sorry` and no axiom of our own.
* Axioms: every theorem depends on at most `propext`, `Classical.choice` and `Quot.sound`.
  `AXIOMS.txt` lists the axioms of each theorem named in `MANIFEST.json`.
* That the definitions in `Model/*.lean` say what the Python code does. Each definition
  cites the lines it was read from. No code of the repository was executed.
* That the statements in `Props/*.lean` and the small specifications `Spec*.lean` say what
  the properties mean.

### What is modelled

| Model file | Code |
|---|---|
| `Py` | exceptions as values, list indexing, dict lookup, set iteration orders |
| `Context`, `ContextOps`, `ContextState` | `fca/context.py` (all methods but the ones listed below), `fca/compare_context.py` |
| `Indices` | `fca/context.py`: the methods on positions, for all integers |
| `ReduceMachine` | `reduce_objects`, `reduce_attributes` with 64-bit row codes |
| `ContextAlias` | `fca/context.py`: changes through `c[i]` and `c.objects`, `__eq__` with the table it reads |
| `NorrisLive` | `norris.py`: the iterator while its consumer changes the context |
| `ContextObject` | `fca/context.py`: `__init__` and the mutators, assignment by assignment. C116 shows that the simpler `Ctx`, without `cross_table` and the dictionaries, answers the same |
| `Implication`, `ImpText`, `ImpKinds` | `fca/implication.py` |
| `DG`, `DGContext`, `DGLive`, `DGTrace` | `fca/algorithms/dg_basis.py`, `closure_operators.py` |
| `AIBasis` | `fca/algorithms/aibasis.py` |
| `AIObjects` | the same with set objects that are shared and changed in place |
| `DGObjects` | dg_basis.py, `simple_closure`, `lin_closure` with set objects that are shared and changed in place |
| `ContextWorld` | `fca/context.py`: several `Context` objects with the lists and arrays they share, `copy.copy`, `copy.deepcopy`, methods left on an object by a basis computation |
| `Rounding` | the quotients of `fca/algorithms/factors.py` and `fca/algorithms/filtering/*.py` as doubles |
| `Covers` | `fca/algorithms/implication_covers.py` |
| `CoverObjects` | `minimize` with implication objects |
| `Work` | `simple_closure`, `lin_closure`, `norris` with counters of loop executions |
| `Filtering` | `get_compute_functions`, `get_modes`; the index functions on lattices and on concept systems |
| `Lattice` | `norris.py`, `concept.py`, `concept_lattice.py`, `concept_system.py`, `algorithms/__init__.py`, `filter.py` |
| `Containers` | container methods of `concept_system.py`, `concept_lattice.py`; sets of concepts, `concept.py` `__hash__`, `__eq__` |
| `Random` | `make_random_context`, `aibasis.compare_tuples` |
| `Stability`, `Probability` | `fca/algorithms/filtering/*.py` |
| `ProbabilityFloat` | `fca/algorithms/filtering/probability.py` with rounding |
| `NestedBasis` | `fca/context.py` `basis_computation`, `get_attribute_implications` with functions of the caller that use the same context |
| `CanonicalMethod` | `fca/context.py` `get_attribute_canonical_basis` with its caches; which questions reach the table |
| `IntentArgs` | arguments that are not sets: `fca/context.py` 380-401, `fca/implication.py` `is_respected`, the three explorations, `fca/algorithms/patterns.py` 150-159 |
| `TupleNames` | `fca/context.py`: the constructor and mutators with names in tuples, strings or ranges; `__mul__`; strings in place of sets; `get_value` on strings |
| `KindText` | `fca/implication.py` 95-113: `str2imp` called on the three classes, `UnitImplication` with a set; texts of the three classes |
| `Factors` | `fca/algorithms/factors.py` |
| `Patterns` | `fca/algorithms/patterns.py` |
| `PatternsLive` | the generators of `fca/algorithms/patterns.py`, resumed step by step while the exploration changes |
| `ConceptObjects` | `Concept` objects with identity and meta data, in `ConceptSystem` and `ConceptLattice` objects that share them; dicts and sets with stored hashes |
| `BaseObjects` | `minimize(db.base)`: the accepted implications of an `ExplorationDB` as objects |
| `BasicExploration`, `ExplorationIndices`, `Messages` | `fca/algorithms/exploration.py`; texts of exceptions in `context.py`, `exploration.py`, `patterns.py` |
| `ExplorationDB` | `fca/algorithms/exploration_/exploration.py` |
| `SharedDB` | `fca/algorithms/exploration_/exploration.py`: several databases on one context object |
| `ExplorationCalls` | `fca/algorithms/exploration_/exploration.py:157-191`: the calls of `AttributeExploration` on both kinds of context |
| `Output` | what `fca/partial_context.py:98-119` (`complete`) and `fca/algorithms/implication_covers.py:12-28` print; one entry per call of `print` |
| `Exploration2` | `fca/algorithms/exploration2/exploration.py` |
| `Exploration2World` | `fca/algorithms/exploration2/exploration.py`: any number of explorations, sessions and contexts |
| `Numbers` | `fca/algorithms/exploration2/examples/numbers.py` |
| `BiUnars` | `fca/algorithms/exploration_/examples/bi_unars.py` |
| `PartialContext`, `PartialText` | `fca/partial_context.py` and `AttributeExploration` of `exploration_/exploration.py` |
| `Scaling`, `MvContext`, `ClassEq` | `fca/algorithms/scaling.py`, `fca/scale.py`, `fca/mvcontext.py`; `==` between the classes |
| `MixedNames` | sorting in `fca/concept.py`, `fca/implication.py`, `closure_operators.py`, and its effect on `concept_lattice.py`, `dg_basis.py` |
| `TextNames` | the functions of `fca/context.py`, `scaling.py` and `fca/readwrite/*.py` that need strings, for names of any kind |
| `ReadWrite`, `CsvFiles`, `Xml`, `DotText` | `fca/readwrite/*.py` |

### Assumptions of the model

* Python 3, numpy >= 1.24. Names and values are immutable and hashable, `==` on them is
  an equivalence compatible with `hash`.
* Floats are exact: no rounding, overflow or underflow. C160 and C161 say what remains when the quotients in `factors.py`
  and `filtering/` (except `compute_probability`) are rounded, in any mode; there too nothing overflows. C165 treats
  `compute_probability` with rounding and underflow, for any operations with the accuracy stated in `Libm.Accurate`, and
  with overflow for `Libm.AccurateTo` (accurate up to a bound, beyond it only signs are known).
* `str(concept)` sorts names: names are comparable, except in C126 (`MixedNames`), where `sort` is an arbitrary comparison-based algorithm and
  comparisons between kinds raise TypeError.
* Hashes of strings are an arbitrary function, where hashes matter (C39, C89).
* `sort` in `aibasis` is CPython's for short lists (binary insertion sort); `sorted` is
  stable (`patterns`).
* In `DG`, `AIBasis` and `Covers` sets and implications are values; C158, C148 and C147 relate this to the objects (for `minimize`
  it is right for lists of different objects only).
* `basis_computation` caching is left out of `relBasis`; C33 says when this is right.
* Row indices given by callers in `BasicExploration` are natural numbers, except in C156, which relates integer positions to them.
* Sets handed to a context, database or session are not modified by the caller
  afterwards, and the context is not modified except through the calls of the history (C121-C123: also through the
  list and the rows its getters return; a list of length one assigned to an empty column, which numpy would accept,
  raises the same exception one step later).
* In `Exploration2` the sessions share one `Exploration` (related to the general case by `C157_single`); `str(set)` used as a key in C59 is injective.
* Conditions evaluated by `eval` in scaling have no side effects; names of scaled
  attributes are formatted injectively where the theorem says so. In `read_cxt`, `eval` is an
  arbitrary oracle.
* Files are lists of characters; encodings and file system errors are left out. `int()` is modelled
  for the digits 0-9 with sign and underscores. The csv reader of `read_txt_with_names` is modelled with
  quoting (`CsvReader`, the state machine of CPython's `_csv.c` for the dialect in use; it agreed with the `csv` module of
  the standard library on 3000 random texts), that of the other readers for lines without quotation marks; in binary mode
  it raises `csv.Error`.
  numpy's conversion of strings to truth values, `float(str)` and the formatting of floats are parameters.
* Printing is left out, except in `Output` (C171), where it is added to `complete` and `compute_implication_cover`.
* The tables of a partial context are given as lists of lists, and as arrays in its `__deepcopy__`.

### What is not modelled

* `print_basis`, texts of exceptions without arguments (constants) and of `NotTableException` (never raised),
  `__str__` of lattices (the same program as that of concept systems, which is modelled).
* `clear_cxt_vars`.
* The xml parser and the serialisation of documents by minidom: only the events given to the handlers.
* The test programs; input and output of the command line examples.
* Performance, apart from the numbers of loop executions in C128 and C150.

## How to read `seeded/LOG.jsonl`

Each line is one edit of a model definition and the declarations whose proofs no longer compile. A proof that fails does not
show that its statement is false for the edited program: the proof may only follow the text of the definition. Modules that
import a failing one are not built, so the list ends at the first layer that fails.

Of 1354 entries, 61 list no failure. Of the other 1293,

* 555 list at least one property theorem,
* 145 list no property theorem but a concrete case (`example`),
* 593 list internal lemmas only. For these the log shows that the edit is noticed, not that a claim is false. Some may be
  programs for which all claims still hold.

Lemmas proved by `rfl` fail for every edit of what they restate. Seven entries written before this was noticed, and two written
since, list only such lemmas. The five of them about `step2` of the covers were evaluated on all 585 contexts with three attributes
and at most three objects: three falsify claims, two agree with the original everywhere and are marked in their notes as no real
kills. For `list2int` the values are fixed by `rowNumber_eq` and `testBit_list2int`; the two message texts are literals.

A random sample of 23 of the 593 was rechecked: in a scratch copy the failing internal lemmas were stubbed out and the build
went on. For 8 of them a concrete case then evaluated to false, which is independent of how proofs are written. For 15 none did:
the concrete cases of the build do not reach the edited behaviour, and neither outcome is established for the general theorems.
The notes of these entries say which. The remaining 570 were not rechecked. For three of the
15, concrete cases were added afterwards; those edits were not run again.
