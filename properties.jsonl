{"id": "C01", "title": "Constructor accepts exactly rectangular input and stores it faithfully", "statement": "Context(table, objects, attributes) raises ValueError exactly when the number of rows differs from the number of objects, or a row's length differs from the number of attributes; otherwise len(c), c[i][j], c.objects and c.attributes give back the arguments (names up to the documented renaming of duplicates).", "quantifier": "all tables, object lists and attribute lists", "why_tests_cant": "unit tests check a handful of literal contexts; the claim is about every context of every size", "anchors": ["fca/context.py: Context.__init__, __len__, __getitem__"]}
{"id": "C02", "title": "Names are pairwise distinct after construction", "statement": "After Context(table, objects, attributes) no two attributes (and no two objects) of the context have the same name; lists that were already free of duplicates are kept unchanged.", "quantifier": "all lists of names", "why_tests_cant": "collisions between generated and given names only appear for unusual name lists", "anchors": ["fca/context.py: Context.__init__ (lines 222-241)"]}
{"id": "C03", "title": "Mutators act like updates of an abstract cross table for every history", "statement": "After any sequence of successful add_object, add_attribute, add_object_with_intent, add_attribute_with_extent, set_object_intent, set_attribute_extent, delete_object, delete_attribute, rename_object, rename_attribute (fresh names) the value get_value(o,a) is what the same sequence of updates on an abstract map (object,attribute)->bool gives, and the table stays rectangular with matching name lists.", "quantifier": "all contexts and all finite operation sequences", "why_tests_cant": "tests exercise one operation at a time; consistency of name lists, index dictionaries and table is a property of whole histories", "anchors": ["fca/context.py: add_object, add_attribute, add_object_with_intent, add_attribute_with_extent, set_object_intent, set_attribute_extent, delete_object, delete_attribute, rename_object, rename_attribute"]}
{"id": "C04", "title": "All views of the incidence relation agree", "statement": "For every object o and attribute a of a context: a in get_object_intent(o) iff o in get_attribute_extent(a) iff get_value(o,a) iff (o,a) in object_attribute_pairs; unknown names raise.", "quantifier": "all contexts, objects and attributes", "why_tests_cant": "unit tests check a handful of literal contexts; the claim is about every context of every size", "anchors": ["fca/context.py: get_object_intent, get_attribute_extent, get_value, get_object_attribute_pairs, examples"]}
{"id": "C05", "title": "oprime and aprime form a Galois connection", "statement": "For every set A of objects and B of attributes of the context: B is a subset of oprime(A) iff A is a subset of aprime(B); oprime(A) is exactly the set of attributes shared by all of A and aprime(B) exactly the set of objects having all of B; both for the Context methods and for the functions of closure_operators, whatever the set iteration order; unknown names raise KeyError.", "quantifier": "all contexts, all subsets, all set iteration orders", "why_tests_cant": "unit tests check a handful of literal contexts; the claim is about every context of every size", "anchors": ["fca/context.py: oprime, aprime, oprime_inds, aprime_inds", "fca/algorithms/closure_operators.py: oprime, aprime"]}
{"id": "C06", "title": "aclosure and oclosure are closure operators and both implementations agree", "statement": "aclosure and oclosure are extensive, monotone and idempotent, return known names only, and Context.aclosure(B) contains the same elements as closure_operators.aclosure(B, cxt) (same for oclosure), the latter in sorted order without repetition.", "quantifier": "all contexts and all attribute/object subsets", "why_tests_cant": "unit tests check a handful of literal contexts; the claim is about every context of every size", "anchors": ["fca/context.py: aclosure, oclosure, aclosure_inds, oclosure_inds", "fca/algorithms/closure_operators.py: aclosure, oclosure"]}
{"id": "C07", "title": "transpose is an involution that swaps the two derivations", "statement": "c.transpose() has value at (a,o) equal to c's value at (o,a), exchanges objects and attributes, exchanges oprime and aprime, and transposing twice gives back the same table and names.", "quantifier": "all contexts", "why_tests_cant": "unit tests check a handful of literal contexts; the claim is about every context of every size", "anchors": ["fca/context.py: transpose"]}
{"id": "C08", "title": "Context multiplication is the composition of relations", "statement": "(l*r) raises MultiplicationException exactly when l.attributes != r.objects; otherwise for contexts with at least one middle element object g has attribute m in l*r iff some middle element f has g-f in l and f-m in r.", "quantifier": "all pairs of contexts", "why_tests_cant": "unit tests check a handful of literal contexts; the claim is about every context of every size", "anchors": ["fca/context.py: __mul__"]}
{"id": "C09", "title": "Equality of contexts ignores the order of objects and attributes", "statement": "Two contexts that differ only in the order of rows and columns compare equal; contexts that compare equal have the same objects, attributes and relation (names compared by value).", "quantifier": "all pairs of contexts and permutations", "why_tests_cant": "needs all permutations and all pairs of contexts", "anchors": ["fca/context.py: __eq__, __repr__"]}
{"id": "C10", "title": "clarify_objects keeps exactly the distinct rows", "statement": "clarify_objects returns a context in which every row of the original occurs exactly once, each row labelled by an object having that row in the original, with the same attributes and the same concept intents; the original is unchanged.", "quantifier": "all contexts", "why_tests_cant": "unit tests check a handful of literal contexts; the claim is about every context of every size", "anchors": ["fca/context.py: clarify_objects"]}
{"id": "C11", "title": "reduce_objects and reduce_attributes preserve the concept lattice", "statement": "reduce_objects returns a context with a subset of the original rows (same labels, original order) whose concept intents are exactly those of the original, up to the full attribute set; reduce_attributes does the same for extents.", "quantifier": "all contexts with at most 63 attributes (objects), all row orders", "why_tests_cant": "loss of a concept occurs only for special combinations of rows", "anchors": ["fca/context.py: reduce_objects, reduce_attributes, list2int"]}
{"id": "C12", "title": "reduce_objects removes every reducible object", "statement": "After reduce_objects no row is the intersection of other rows of the result (rows equal to the full attribute set are kept by documentation).", "quantifier": "all contexts", "why_tests_cant": "needs the right coincidence of row index and row code to show up", "anchors": ["fca/context.py: reduce_objects"]}
{"id": "C13", "title": "Row codes used for reduction identify rows", "statement": "The integer code of a row used by reduce_objects is different for different rows of the same context, so no two different objects are merged.", "quantifier": "all pairs of rows of any width", "why_tests_cant": "fails only for wide tables (machine integers)", "anchors": ["fca/context.py: list2int, reduce_objects"]}
{"id": "C14", "title": "complementary negates every cell", "statement": "c.complementary() keeps the objects, renames attribute m to 'not m', and object g has 'not m' iff g does not have m in c; doing it twice restores the table.", "quantifier": "all contexts", "why_tests_cant": "unit tests check a handful of literal contexts; the claim is about every context of every size", "anchors": ["fca/context.py: complementary"]}
{"id": "C15", "title": "compound context lists each attribute together with its negation", "statement": "c.compound() has the attributes of c followed by their negations and, for every object and attribute, exactly one of m and 'not m' holds.", "quantifier": "all contexts", "why_tests_cant": "the claim is about every non-empty context", "anchors": ["fca/context.py: compound"]}
{"id": "C16", "title": "Subcontext extraction keeps exactly the requested rows/columns", "statement": "extract_subcontext(names) restricts the relation to the named attributes and raises ValueError iff an unknown name is given; extract_subcontext_filtered_by_attributes(names, mode) keeps exactly the objects having all (mode 'and') / at least one (mode 'or') of the names, with their rows unchanged.", "quantifier": "all contexts, name lists and both modes", "why_tests_cant": "unit tests check a handful of literal contexts; the claim is about every context of every size", "anchors": ["fca/context.py: extract_subcontext, extract_subcontext_filtered_by_attributes, _extract_subtable, _extract_subtable_by_attribute_values, _has_values, _has_at_least_one_value, _check_attribute_names"]}
{"id": "C17", "title": "remove_empty_objects removes exactly the empty rows", "statement": "After c.remove_empty_objects() the objects are exactly those having at least one attribute, in the original order, with unchanged intents; the set of object-attribute pairs is unchanged.", "quantifier": "all contexts with distinct object names", "why_tests_cant": "unit tests check a handful of literal contexts; the claim is about every context of every size", "anchors": ["fca/context.py: remove_empty_objects, delete_object"]}
{"id": "C18", "title": "associative_aclosure reports exact supports", "statement": "associative_aclosure(B) returns (d, n) with n = |aprime(B)| and d[m] = number of objects having B and m (missing = 0); m is in aclosure(B) iff its count equals n.", "quantifier": "all contexts and attribute sets", "why_tests_cant": "unit tests check a handful of literal contexts; the claim is about every context of every size", "anchors": ["fca/context.py: associative_aclosure, associative_oprime_inds, associative_aprime, associative_aprime_inds"]}
{"id": "C19", "title": "Implication.is_respected has the logical meaning, and equality of implications is semantic", "statement": "imp.is_respected(S) is true iff premise not a subset of S or conclusion a subset of S; two implications that compare equal are respected by the same sets and have equal hash keys.", "quantifier": "all implications and all sets", "why_tests_cant": "quantifies over all sets", "anchors": ["fca/implication.py: Implication.is_respected, __eq__, __hash__, get_reduced_conclusion"]}
{"id": "C20", "title": "simple_closure computes the least closed superset", "statement": "simple_closure(s, imps) terminates and returns the smallest superset of s respecting every implication in imps; the arguments are not modified.", "quantifier": "all sets and all implication lists (any order, with repetitions)", "why_tests_cant": "tests cover three doctest bases; least-fixpoint-ness quantifies over all sets", "anchors": ["fca/algorithms/closure_operators.py: simple_closure"]}
{"id": "C21", "title": "lin_closure computes the same closure as simple_closure", "statement": "lin_closure(s, imps) terminates and equals simple_closure(s, imps) for every list of implications and every iteration order of sets.", "quantifier": "all sets, all implication lists including ones with repeated implications, all pop orders", "why_tests_cant": "repeated implications share one counter; pop order depends on hashing", "anchors": ["fca/algorithms/closure_operators.py: lin_closure"]}
{"id": "C22", "title": "closure(current, base, imps, k) is the prefix-guarded closure", "statement": "closure(current, base, imps, k) returns (True, C) with C the least closed superset of current if C and current agree on the first k elements of base, and (False, {}) otherwise.", "quantifier": "all sets, base lists, implication lists and prefix lengths", "why_tests_cant": "unit tests check a handful of literal contexts; the claim is about every context of every size", "anchors": ["fca/algorithms/closure_operators.py: closure"]}
{"id": "C23", "title": "Implication text round trip", "statement": "Implication.str2imp(str(imp)) == imp.", "quantifier": "all implications over names without commas, '=>' and surrounding blanks", "why_tests_cant": "depends on emptiness of premise/conclusion and characters in names", "anchors": ["fca/implication.py: Implication.__repr__, str2imp"]}
{"id": "C24", "title": "Basis soundness", "statement": "Every implication returned by compute_dg_basis (any closure function, any background imp_basis, any cond) is respected by every object of the context, has conclusion aclosure(premise) and is not trivial.", "quantifier": "all contexts, backgrounds over the context's attributes, and conditions", "why_tests_cant": "unit tests check a handful of literal contexts; the claim is about every context of every size", "anchors": ["fca/algorithms/dg_basis.py: compute_dg_basis, compute_dg_basis_simple, generalized_compute_dg_basis"]}
{"id": "C25", "title": "Basis completeness", "statement": "If the background implications hold in the context (cond default), the closure of any attribute set under returned basis + background equals aclosure of that set in the context; hence an implication holds in the context iff it follows from basis + background.", "quantifier": "all contexts, all backgrounds valid in the context, all attribute sets", "why_tests_cant": "unit tests check a handful of literal contexts; the claim is about every context of every size", "anchors": ["fca/algorithms/dg_basis.py: generalized_compute_dg_basis"]}
{"id": "C26", "title": "Basis premises are exactly the pseudo-intents, each once", "statement": "The premises returned are exactly the pseudo-intents of the context relative to the background (recursively defined), each occurring once, in lectic order.", "quantifier": "all contexts and valid backgrounds", "why_tests_cant": "unit tests check a handful of literal contexts; the claim is about every context of every size", "anchors": ["fca/algorithms/dg_basis.py: generalized_compute_dg_basis"]}
{"id": "C27", "title": "Basis minimality", "statement": "No list of implications that together with the background is sound and complete for the context is shorter than the returned basis; removing any implication from the basis loses completeness.", "quantifier": "all contexts, all competing implication lists", "why_tests_cant": "quantifies over all competing bases", "anchors": ["fca/algorithms/dg_basis.py: generalized_compute_dg_basis"]}
{"id": "C28", "title": "Basis computation terminates", "statement": "compute_dg_basis terminates after at most 2^|M| iterations of its main loop for every context, every background over the context's attributes (valid in the context or not) and every cond.", "quantifier": "all contexts, backgrounds, conditions", "why_tests_cant": "non-termination cannot be refuted by finitely many runs", "anchors": ["fca/algorithms/dg_basis.py: generalized_compute_dg_basis"]}
{"id": "C29", "title": "The basis iterator produces the same sequence as the list version", "statement": "list(dg_basis_iter_simple(cxt, imp_basis=b, cond=c)) equals compute_dg_basis_simple(cxt, imp_basis=b, cond=c), and every prefix taken from the iterator is a prefix of it.", "quantifier": "all contexts, backgrounds, conditions, prefixes", "why_tests_cant": "unit tests check a handful of literal contexts; the claim is about every context of every size", "anchors": ["fca/algorithms/dg_basis.py: dg_basis_iter_simple, generalized_dg_basis_iter", "fca/context.py: attribute_implications_iter"]}
{"id": "C30", "title": "The two closure functions give the same basis", "statement": "compute_dg_basis (lin_closure) and compute_dg_basis_simple (simple_closure) return the same list for every background without repeated implications.", "quantifier": "all contexts, backgrounds", "why_tests_cant": "unit tests check a handful of literal contexts; the claim is about every context of every size", "anchors": ["fca/algorithms/dg_basis.py: compute_dg_basis, compute_dg_basis_simple"]}
{"id": "C31", "title": "object_implications describes the current context", "statement": "cxt.object_implications returns a basis of the object implications of the current state of cxt.", "quantifier": "all contexts and all histories of modifications", "why_tests_cant": "depends on default arguments and on a cache that outlives modifications", "anchors": ["fca/context.py: get_object_implications, basis_computation"]}
{"id": "C32", "title": "The canonical basis by attribute-incremental construction equals the Duquenne-Guigues basis", "statement": "get_attribute_canonical_basis() returns exactly the implications P -> aclosure(P) for the pseudo-intents P of the context.", "quantifier": "all contexts and attribute orders", "why_tests_cant": "the order of intermediate lists only matters for larger contexts", "anchors": ["fca/algorithms/aibasis.py: compute_canonical_basis, update_preclosed, kclosure", "fca/context.py: get_attribute_canonical_basis"]}
{"id": "C33", "title": "Basis computations leave the context's observable behaviour unchanged", "statement": "After get_attribute_implications / get_attribute_canonical_basis / object_implications (returning or raising) every later query of the context answers from its current table.", "quantifier": "all contexts, basis functions and later histories", "why_tests_cant": "a stale cache is visible only in specific histories after an exception", "anchors": ["fca/context.py: memo, basis_computation"]}
{"id": "C34", "title": "norris enumerates every formal concept exactly once", "statement": "norris(cxt, False) / cxt.concepts contains for every formal concept of cxt exactly one entry with that extent and intent, and nothing else.", "quantifier": "all contexts", "why_tests_cant": "unit tests check a handful of literal contexts; the claim is about every context of every size", "anchors": ["fca/algorithms/norris.py: norris, iterative_norris"]}
{"id": "C35", "title": "Concepts handed out by the iterator have their final intent, and are consistent with the objects read so far", "statement": "When iterate_concepts yields a concept its intent is an intent of the context and never changes later; its extent at that time is the extent restricted to the objects processed so far, and after exhaustion it is the full extent.", "quantifier": "all contexts and all points where the consumer stops", "why_tests_cant": "unit tests check a handful of literal contexts; the claim is about every context of every size", "anchors": ["fca/algorithms/norris.py: iterative_norris"]}
{"id": "C36", "title": "compute_covering_relation is the Hasse diagram", "statement": "parents[c] is exactly the set of concepts p with p.intent a proper subset of c.intent and no concept of the list strictly between; no exception is raised.", "quantifier": "all lists of concepts (also with repetitions)", "why_tests_cant": "unit tests check a handful of literal contexts; the claim is about every context of every size", "anchors": ["fca/algorithms/norris.py: compute_covering_relation", "fca/concept_system.py: compute_covering_relation"]}
{"id": "C37", "title": "Lattice top and bottom", "statement": "ConceptLattice(cxt).top_concept is the concept whose extent is all objects and bottom_concept the one whose intent is all attributes; every concept lies between them; top/bottom of a ConceptSystem are minimal/maximal in intent.", "quantifier": "all contexts", "why_tests_cant": "unit tests check a handful of literal contexts; the claim is about every context of every size", "anchors": ["fca/concept_lattice.py: ConceptLattice", "fca/concept_system.py: get_top_concept, get_bottom_concept"]}
{"id": "C38", "title": "parents and children are inverse relations", "statement": "p in lattice.parents(c) iff c in lattice.children(p), and filter/ideal are the strict up-set and down-set.", "quantifier": "all contexts / concept systems", "why_tests_cant": "unit tests check a handful of literal contexts; the claim is about every context of every size", "anchors": ["fca/concept_lattice.py: parents, children, filter, ideal", "fca/concept_system.py: parents, children"]}
{"id": "C39", "title": "Lattice navigation works after indices were attached to concepts", "statement": "After compute_index(lattice, f, name) lattice.parents(c) and children(c) give the same answers as before.", "quantifier": "all lattices and index functions", "why_tests_cant": "hash of a concept changes with its meta data; the failing lookup needs that history", "anchors": ["fca/algorithms/filtering/filter.py: compute_index", "fca/concept.py: __hash__, __str__", "fca/concept_lattice.py: parents"]}
{"id": "C40", "title": "ConceptSystem covers follow the current list of concepts", "statement": "After any sequence of append, remove, parents and children calls, parents(c) is the covering relation of the current concepts.", "quantifier": "all operation histories", "why_tests_cant": "cache invalidation is a property of histories", "anchors": ["fca/concept_system.py: append, remove, parents, children"]}
{"id": "C41", "title": "Intensional stability", "statement": "compute_istability(lattice)[c] equals the fraction of subsets A of c.extent with oprime(A) = c.intent, for every concept c; the work-list never runs dry, whatever order the work-set is popped in.", "quantifier": "all contexts, concepts and pop orders", "why_tests_cant": "unit tests check a handful of literal contexts; the claim is about every context of every size", "anchors": ["fca/algorithms/filtering/stability.py: compute_istability"]}
{"id": "C42", "title": "Extensional stability", "statement": "compute_estability(lattice)[c] equals the fraction of subsets B of c.intent with aprime(B) = c.extent, for every concept c and pop order.", "quantifier": "all contexts, concepts and pop orders", "why_tests_cant": "unit tests check a handful of literal contexts; the claim is about every context of every size", "anchors": ["fca/algorithms/filtering/stability.py: compute_estability"]}
{"id": "C43", "title": "Separation index", "statement": "compute_separation_index(lattice)[c] is the size of the rectangle extent x intent divided by the number of crosses in rows of the extent or columns of the intent; it lies in (0,1].", "quantifier": "all contexts and concepts", "why_tests_cant": "unit tests check a handful of literal contexts; the claim is about every context of every size", "anchors": ["fca/algorithms/filtering/separation.py: compute_separation_index"]}
{"id": "C44", "title": "Extent and intent size indices", "statement": "compute_extent_size / compute_intent_size lie in [0,1], are monotone in the extent / intent and raise ZeroDivisionError exactly for contexts without objects / attributes.", "quantifier": "all contexts and concepts", "why_tests_cant": "unit tests check a handful of literal contexts; the claim is about every context of every size", "anchors": ["fca/algorithms/filtering/extentsize.py", "fca/algorithms/filtering/intentsize.py"]}
{"id": "C45", "title": "filter_concepts selects by index", "statement": "filter_concepts(lattice, f, 'value', v) returns exactly the concepts with index >= v in order; 'abs' returns the n best; 'part' a fraction of the best ones.", "quantifier": "all lattices, index functions, modes and options", "why_tests_cant": "unit tests check a handful of literal contexts; the claim is about every context of every size", "anchors": ["fca/algorithms/filtering/filter.py: filter_concepts"]}
{"id": "C46", "title": "Every factor is a formal concept", "statement": "Every concept produced by factors.algorithm2(cxt, fidelity) is a formal concept of cxt and covers at least one cross not covered before; the run never hits its internal assertion.", "quantifier": "all contexts with at least one cross, all fidelities <= 1, all tie-breaks", "why_tests_cant": "ties are broken by set iteration order", "anchors": ["fca/algorithms/factors.py: algorithm2, _oplus"]}
{"id": "C47", "title": "Factorisation covers exactly the relation", "statement": "With fidelity 1, algorithm2 terminates and the union of extent x intent over the factors is exactly the incidence relation; the number of factors is at most the number of crosses.", "quantifier": "all contexts with at least one cross, all tie-breaks", "why_tests_cant": "unit tests check a handful of literal contexts; the claim is about every context of every size", "anchors": ["fca/algorithms/factors.py: algorithm2"]}
{"id": "C48", "title": "Reported coverage is exact and reaches the requested fidelity", "statement": "The fraction reported with each factor is (newly covered crosses)/(all crosses); the fractions sum to the covered fraction which is >= fidelity when the iterator ends, and was < fidelity before the last factor.", "quantifier": "all contexts, fidelities and tie-breaks", "why_tests_cant": "unit tests check a handful of literal contexts; the claim is about every context of every size", "anchors": ["fca/algorithms/factors.py: algorithm2"]}
{"id": "C49", "title": "make_factor_cxts and multiplication rebuild the covered relation", "statement": "For a non-empty list of factors (with some object) (cxt_objs_fcts * cxt_fcts_atts) has the pair (g,m) iff some factor has g in its extent and m in its intent, for every iteration order of the sets; combined with algorithm2 it rebuilds the context's relation.", "quantifier": "all factor lists and iteration orders", "why_tests_cant": "unit tests check a handful of literal contexts; the claim is about every context of every size", "anchors": ["fca/algorithms/factors.py: make_factor_cxts", "fca/context.py: __mul__"]}
{"id": "C50", "title": "algorithm2_weighted produces factors", "statement": "algorithm2_weighted(cxt, fidelity) yields formal concepts covering the relation for every context with a cross.", "quantifier": "all contexts with disjoint object and attribute names", "why_tests_cant": "claim about all contexts", "anchors": ["fca/algorithms/factors.py: algorithm2_weighted"]}
{"id": "C51", "title": "algorithm2_w_condition respects its size conditions", "statement": "Every concept produced by algorithm2_w_condition(cxt, ...) is a formal concept of cxt with at least min_atts_and_objs objects and attributes (and |extent| >= |intent| when objs_ge_atts), and the iterator terminates.", "quantifier": "all contexts, parameters and tie-breaks", "why_tests_cant": "unit tests check a handful of literal contexts; the claim is about every context of every size", "anchors": ["fca/algorithms/factors.py: algorithm2_w_condition"]}
{"id": "C52", "title": "Implication cover soundness", "statement": "Every implication returned by compute_implication_cover(cxt) holds in cxt.", "quantifier": "all contexts and iteration orders", "why_tests_cant": "unit tests check a handful of literal contexts; the claim is about every context of every size", "anchors": ["fca/algorithms/implication_covers.py: compute_implication_cover, updated_basis, remove_subsumed, remove_subsumed_plus, remove_subsumed_simply, is_new"]}
{"id": "C53", "title": "Implication cover completeness", "statement": "Every implication holding in cxt follows from compute_implication_cover(cxt).", "quantifier": "all contexts and iteration orders", "why_tests_cant": "an implication is lost only for particular sequences of objects", "anchors": ["fca/algorithms/implication_covers.py: compute_implication_cover, updated_basis, remove_subsumed_plus"]}
{"id": "C54", "title": "minimize keeps the closure system and leaves no redundant implication", "statement": "minimize(cover) changes cover in place so that it has the same closures as before and contains no implication that follows from the others.", "quantifier": "all implication lists", "why_tests_cant": "unit tests check a handful of literal contexts; the claim is about every context of every size", "anchors": ["fca/algorithms/implication_covers.py: minimize"]}
{"id": "C55", "title": "Confirmed implications stay valid during basic exploration", "statement": "In every BasicExploration history each confirmed attribute (object) implication is respected by all objects (attributes) of the explored context.", "quantifier": "all initial contexts and all histories of confirm/counter-example/add/edit calls", "why_tests_cant": "interplay of edits on both sides of the table appears only in longer histories", "anchors": ["fca/algorithms/exploration.py: BasicExploration"]}
{"id": "C56", "title": "Invalid counter-examples are rejected without changing anything", "statement": "counter_example_for_attr_implication raises NotCounterExamplePremise / NotCounterExampleConclusion / BasisConflict exactly when the intent lacks the premise / contains the conclusion / violates a confirmed implication, and then the exploration state is unchanged; otherwise the implication no longer holds in the context afterwards.", "quantifier": "all states reached from a context with at least one object and one attribute by histories in which added names are new; all names, intents and indices of the call itself", "why_tests_cant": "unit tests check a handful of literal contexts; the claim is about every context of every size", "anchors": ["fca/algorithms/exploration.py: counter_example_for_attr_implication, check_intent_for_conflicts"]}
{"id": "C57", "title": "ExplorationDB: background knowledge stays valid", "statement": "If the background implications hold initially and only open implications are confirmed, then after any history of confirm_implication, unconfirm_implication, add_example, edit_example, add_attribute and touch calls every background implication is respected by every object, and the open implications are the relative basis of the current context.", "quantifier": "all histories", "why_tests_cant": "unit tests check a handful of literal contexts; the claim is about every context of every size", "anchors": ["fca/algorithms/exploration_/exploration.py: ExplorationDB"]}
{"id": "C58", "title": "Finished exploration means complete knowledge", "statement": "When get_open_implications() is empty, every implication between attributes holds in the context iff it follows from the confirmed base.", "quantifier": "all histories reaching an empty open list", "why_tests_cant": "unit tests check a handful of literal contexts; the claim is about every context of every size", "anchors": ["fca/algorithms/exploration_/exploration.py: ExplorationDB.get_open_implications, AttributeExploration"]}
{"id": "C59", "title": "Exploration with a truthful expert terminates with the expert's theory", "statement": "The loop 'take the first open implication, confirm it if it follows from the expert's theory, otherwise add the expert's counter-example' ends after finitely many answers, and then the confirmed base has exactly the expert's closures.", "quantifier": "all contexts consistent with the expert, all expert theories", "why_tests_cant": "termination quantifies over unbounded histories", "anchors": ["fca/algorithms/exploration_/exploration.py: AttributeExploration", "fca/algorithms/exploration_/explorationtest.py: GenericExpert"]}
{"id": "C60", "title": "exploration2 sessions protect accepted implications", "statement": "In an ExplorationSession every accepted candidate implication stays respected by all objects of the session's context, also when other sessions are created from the same Exploration.", "quantifier": "all histories over one or several sessions", "why_tests_cant": "interference needs two interleaved sessions", "anchors": ["fca/algorithms/exploration2/exploration.py"]}
{"id": "C61", "title": "Confirmed patterns never occur in the negative context", "statement": "In every BasicPatternExploration history no object of the negative context contains a confirmed pattern (unless it has all attributes).", "quantifier": "all histories", "why_tests_cant": "needs a negative example added after the confirmation", "anchors": ["fca/algorithms/patterns.py: BasicPatternExploration"]}
{"id": "C62", "title": "Unexplained examples are exactly those containing no confirmed pattern", "statement": "iterate_unexplained_examples yields exactly the positive objects whose intent contains no confirmed pattern, and confirming a pattern never makes an explained example unexplained.", "quantifier": "all states and histories", "why_tests_cant": "unit tests check a handful of literal contexts; the claim is about every context of every size", "anchors": ["fca/algorithms/patterns.py: is_explained, iterate_unexplained_examples, confirm_pattern, add_positive_example"]}
{"id": "C63", "title": "Conceptual scaling", "statement": "scale_mvcontext(mv, scales): object g has derived attribute 'm:s' iff some row of the scale of m whose condition holds for the value of (g,m) has a cross at s.", "quantifier": "all tables, scales and row conditions", "why_tests_cant": "unit tests check a handful of literal contexts; the claim is about every context of every size", "anchors": ["fca/algorithms/scaling.py: scale_mvcontext"]}
{"id": "C64", "title": "Ordinal and nominal scales", "statement": "OrdinalScale(min,max,mode): row 'value == v' has '<= w' iff v <= w ('>= w' iff v >= w for mode geq); NominalScale has a cross exactly on the diagonal.", "quantifier": "all integers min, max", "why_tests_cant": "unit tests check a handful of literal contexts; the claim is about every context of every size", "anchors": ["fca/scale.py: OrdinalScale, NominalScale"]}
{"id": "C65", "title": "ManyValuedContext keeps its values", "statement": "ManyValuedContext(table, objects, attributes)[i][j] is table[i][j].", "quantifier": "all tables of values", "why_tests_cant": "claim about all values", "anchors": ["fca/mvcontext.py: ManyValuedContext.__init__, __getitem__", "fca/context.py: Context.__init__"]}
{"id": "C66", "title": ".cxt round trip", "statement": "read_cxt after write_cxt returns a context with the same objects, attributes and table.", "quantifier": "all contexts with line-safe names", "why_tests_cant": "name evaluation and stripping depend on every possible name", "anchors": ["fca/readwrite/cxt.py: read_cxt, write_cxt"]}
{"id": "C67", "title": "Tab separated table with names", "statement": "read_txt_with_names reads back object names, attribute names and cells of a 0/1 table written in the documented format.", "quantifier": "all tables and names", "why_tests_cant": "object names that look like cells", "anchors": ["fca/readwrite/tab_separated.py: read_txt_with_names"]}
{"id": "C68", "title": "Each object and attribute labels exactly one node of the diagram", "statement": "In write_dot's node labels for a concept lattice every object is an own object of exactly one concept (the smallest containing it) and every attribute an own attribute of exactly one (the largest having it).", "quantifier": "all contexts", "why_tests_cant": "unit tests check a handful of literal contexts; the claim is about every context of every size", "anchors": ["fca/readwrite/dot.py: find_own_objects, find_own_attributes"]}
{"id": "C69", "title": "FIMI output lists the intents", "statement": "write_fimi writes one line per object, in object order, whose blank separated tokens are exactly the object's intent.", "quantifier": "all contexts with blank-free names, all set iteration orders", "why_tests_cant": "unit tests check a handful of literal contexts; the claim is about every context of every size", "anchors": ["fca/readwrite/fimi.py: write_fimi"]}
{"id": "C70", "title": "Partial contexts can be built from every consistent pair of tables", "statement": "PartialContext(x, q, objects, attributes) succeeds iff the tables have equal dimensions and x is cell-wise below q.", "quantifier": "all pairs of tables", "why_tests_cant": "claim about all tables", "anchors": ["fca/partial_context.py: PartialContext.__init__", "fca/compare_context.py: subseteq_table"]}
{"id": "C71", "title": "Implications of a partial context are compatible with it", "statement": "Every implication P -> C in the basis computed by generalized_compute_dg_basis for the +?-closure of a partial context is respected (in the partial sense) by every partial object, and an empty basis means that every implication not following from the background is refuted by some object.", "quantifier": "all pairs of tables x <= q, backgrounds", "why_tests_cant": "unit tests check a handful of literal contexts; the claim is about every context of every size", "anchors": ["fca/partial_context.py: xq_aclosure, get_attribute_implications", "fca/algorithms/dg_basis.py: compute_partial_dg_basis"]}
{"id": "C72", "title": "algorithm2_w_condition covers what it can", "statement": "With allow_repeatitions, when algorithm2_w_condition ends without an exception, the requested fraction of crosses is covered or no concept meeting the size conditions has an uncovered cross.", "quantifier": "all contexts, parameters and tie-breaks", "why_tests_cant": "unit tests check a handful of literal contexts; the claim is about every context of every size", "anchors": ["fca/algorithms/factors.py: algorithm2_w_condition"]}
{"id": "C73", "title": "The object-incremental cover is direct", "statement": "For every set of attributes, its closure in cxt is the set itself or its union with the conclusion of one implication of compute_implication_cover(cxt) whose premise it contains; no implication of the cover is subsumed by another.", "quantifier": "all contexts and iteration orders", "why_tests_cant": "unit tests check a handful of literal contexts; the claim is about every context of every size", "anchors": ["fca/algorithms/implication_covers.py: compute_implication_cover, updated_basis, remove_subsumed, remove_subsumed_plus"]}
{"id": "C74", "title": "Open and confirmed implications of BasicExploration are complete", "statement": "In every BasicExploration state the open implications hold in the explored context and, together with the confirmed ones, derive every implication that holds, on the attribute and on the object side; when no attribute implication is open and the confirmed ones hold, an implication holds exactly if it follows from the confirmed ones.", "quantifier": "all states reached from a context with at least one object and one attribute by histories in which added names are new, edits included", "why_tests_cant": "the completeness invariant concerns all histories", "anchors": ["fca/algorithms/exploration.py: recompute_basis, confirm_attribute_implication, confirm_object_implication"]}
{"id": "C75", "title": "ExplorationDB: attribute edits and deletions raise", "statement": "ExplorationDB.edit_attribute raises TypeError and changes nothing whenever the context has an object and the background is not empty; delete_example and delete_attribute always raise AttributeError and change nothing.", "quantifier": "all states and arguments", "why_tests_cant": "unit tests check a handful of literal contexts; the claim is about every context of every size", "anchors": ["fca/algorithms/exploration_/exploration.py: ExplorationDB.edit_attribute, delete_example, delete_attribute"]}
{"id": "C76", "title": "exploration2: candidates and completeness", "statement": "In the session created last, get_candidates always returns; every candidate holds in the context and does not follow from the accepted implications; if there is no candidate, an implication holds in the context exactly if it follows from the accepted ones.", "quantifier": "all histories over sessions of one Exploration in which only candidates are accepted and added objects have new names", "why_tests_cant": "unit tests check a handful of literal contexts; the claim is about every context of every size", "anchors": ["fca/algorithms/exploration2/exploration.py: ExplorationSession, Basis"]}
{"id": "C77", "title": "Unconfirmed patterns are reported with their examples", "statement": "get_unconfirmed_patterns_with_examples returns the patterns of the pattern generator (by default the intents of concepts of the reduced positive context that occur in no incomplete negative object) that contain no confirmed pattern, with the number of unexplained positive objects having them, sorted by falling number.", "quantifier": "all states", "why_tests_cant": "unit tests check a handful of literal contexts; the claim is about every context of every size", "anchors": ["fca/algorithms/patterns.py: iterate_positive_concepts, get_unconfirmed_patterns_with_examples"]}
{"id": "C78", "title": "uread_cxt reads what uwrite_cxt wrote", "statement": "uread_cxt applied to a file written by uwrite_cxt from a context returns a context with the same objects, attributes and table.", "quantifier": "all contexts with string names without line breaks", "why_tests_cant": "unit tests check a handful of literal contexts; the claim is about every context of every size", "anchors": ["fca/readwrite/cxt.py: uread_cxt, uwrite_cxt"]}
{"id": "C79", "title": "Edges of the diagram are the covering relation", "statement": "write_dot draws an edge c_k -> c_i exactly if the k-th concept is an upper neighbour of the i-th one, each edge once.", "quantifier": "all duplicate-free concept systems, all set iteration orders", "why_tests_cant": "unit tests check a handful of literal contexts; the claim is about every context of every size", "anchors": ["fca/readwrite/dot.py: write_dot", "fca/algorithms/__init__.py: compute_covering_relation"]}
{"id": "C80", "title": "Completion of partial contexts", "statement": "PartialContext.complete(implications) makes an attribute certain for an object exactly if every completion of the object's data that respects the implications has it, and leaves it possible exactly if some such completion has it; it raises an exception exactly if an object has no such completion.", "quantifier": "all partial contexts, all lists of implications, all set iteration orders", "why_tests_cant": "unit tests check a handful of literal contexts; the claim is about every context of every size", "anchors": ["fca/partial_context.py: complete, _complete_one_partial_example"]}
{"id": "C81", "title": "Histories of a partial context", "statement": "After every sequence of add_object_with_intent and complete calls the list of objects is that of both tables, names are unique and what is known to hold is possible.", "quantifier": "all partial contexts, all sequences of calls, also with failing ones", "why_tests_cant": "unit tests check a handful of literal contexts; the claim is about every context of every size", "anchors": ["fca/partial_context.py: add_object_with_intent, complete"]}
{"id": "C82", "title": "Basis of a partial context entails every unrefuted implication", "statement": "Every implication over the attributes that no partial object refutes follows from the basis computed for the partial context (with its background).", "quantifier": "all partial contexts", "why_tests_cant": "unit tests check a handful of literal contexts; the claim is about every context of every size", "anchors": ["fca/partial_context.py: get_attribute_implications", "fca/algorithms/dg_basis.py: generalized_compute_dg_basis"]}
{"id": "C83", "title": "Exploration with partial examples: correct end", "statement": "If the answers are truthful with respect to a domain (confirmed implications hold, partial examples describe members of the domain), no call raises an exception, and when no implication is open the implications holding in the domain are exactly those following from the base.", "quantifier": "all domains, all truthful sessions, all orders of questions and set iteration orders", "why_tests_cant": "unit tests check a handful of literal contexts; the claim is about every context of every size", "anchors": ["fca/algorithms/exploration_/exploration.py: ExplorationDB.confirm_implication, add_example, complete, AttributeExploration.confirm_implications, reject_implication"]}
{"id": "C84", "title": "Exploration with partial examples ends", "statement": "A session of truthful answers to open implications has at most 2^m (m + 1) answers, m the number of attributes.", "quantifier": "all domains, all truthful sessions", "why_tests_cant": "unit tests check a handful of literal contexts; the claim is about every context of every size", "anchors": ["fca/algorithms/exploration_/exploration.py: confirm_implications, reject_implication"]}
{"id": "C85", "title": "Open implications are never refuted", "statement": "After every call of AttributeExploration no implication listed as open is refuted by a partial object of the context.", "quantifier": "all partial contexts, all calls", "why_tests_cant": "unit tests check a handful of literal contexts; the claim is about every context of every size", "anchors": ["fca/algorithms/exploration_/exploration.py: confirm_implications, complete"]}
{"id": "C86", "title": "compute_index stores the values of the index", "statement": "After compute_index(lattice, f, name) every concept of the lattice has f(c) under name in its meta data, its other entries are as before, and concepts outside the lattice are untouched.", "quantifier": "all lattices, index functions, names and earlier meta data", "why_tests_cant": "unit tests check a handful of literal contexts; the claim is about every context of every size", "anchors": ["fca/algorithms/filtering/filter.py: compute_index"]}
{"id": "C87", "title": "NegativeImplication.is_respected has the documented meaning", "statement": "A set respects NegativeImplication(P, C) iff it does not contain P together with an element of C; on a partial example the answer is the same kind of possibility test as for Implication.", "quantifier": "all sets P, C, all sets and partial examples", "why_tests_cant": "unit tests check a handful of literal contexts; the claim is about every context of every size", "anchors": ["fca/implication.py: NegativeImplication.is_respected"]}
{"id": "C88", "title": "UnitImplication behaves as the implication with one conclusion", "statement": "UnitImplication(P, c).is_respected(s) returns whether s contains c if it contains P, for all P, c, s.", "quantifier": "all sets P and s, all elements c", "why_tests_cant": "unit tests check a handful of literal contexts; the claim is about every context of every size", "anchors": ["fca/implication.py: UnitImplication.get_reduced_conclusion", "fca/implication.py: Implication.is_respected"]}
{"id": "C89", "title": "Equal implications and copies give the same answers", "statement": "Implications that compare equal, and a deep copy and its original, give the same answer for every set and have the same hash.", "quantifier": "all implications of the three classes, all sets", "why_tests_cant": "unit tests check a handful of literal contexts; the claim is about every context of every size", "anchors": ["fca/implication.py: Implication.__eq__, __hash__, __deepcopy__", "fca/implication.py: NegativeImplication.__repr__"]}
{"id": "C90", "title": "compute_probability is the probability of a closed intent", "statement": "compute_probability(lattice) gives every concept the probability that its intent is closed in a random table with the same objects whose cells are drawn independently with the relative frequencies of the attributes; the value lies between 0 and 1.", "quantifier": "all contexts, all set iteration orders", "why_tests_cant": "unit tests check a handful of literal contexts; the claim is about every context of every size", "anchors": ["fca/algorithms/filtering/probability.py: compute_probability"]}
{"id": "C91", "title": "Number predicates of the example are right", "statement": "is_prime(n) is True iff n is a prime number; is_factorial(n) is true iff n = k! for some k; the tests for even, odd and divisible by three are right.", "quantifier": "all integers", "why_tests_cant": "unit tests check a handful of literal contexts; the claim is about every context of every size", "anchors": ["fca/algorithms/exploration2/examples/numbers.py: is_prime", "fca/algorithms/exploration2/examples/numbers.py: is_factorial", "fca/algorithms/exploration2/examples/numbers.py: CommandLineExploration.__init__"]}
{"id": "C92", "title": "Command line exploration ends with a base of the domain", "statement": "CommandLineExploration().explore() with right answers (an implication called valid holds in the domain, a counterexample violates the implication) ends, raises no exception, and the accepted implications entail exactly the implications that hold for all elements of the domain.", "quantifier": "all attribute lists, all domains, finite or infinite, all right answers", "why_tests_cant": "unit tests check a handful of literal contexts; the claim is about every context of every size", "anchors": ["fca/algorithms/exploration2/examples/numbers.py: explore, get_intent", "fca/algorithms/exploration2/exploration.py: get_candidates, accept_implication, reject_implication"]}
{"id": "C93", "title": "Basis with a condition on the premises", "statement": "get_attribute_implications(confirmed, cond) returns exactly those implications of the unconditional result whose premises meet cond.", "quantifier": "all contexts, backgrounds and conditions", "why_tests_cant": "unit tests check a handful of literal contexts; the claim is about every context of every size", "anchors": ["fca/context.py: get_attribute_implications", "fca/algorithms/dg_basis.py: compute_dg_basis, generalized_compute_dg_basis"]}
{"id": "C94", "title": "Symmetry functions of the bi-unar example", "statement": "Exchanging f and g: the intent of automorphic_copy is the symmetric attribute set of the intent; an implication is valid for all bi-unars iff its symmetric implication is; is_orbit_maximal holds for at least one of two symmetric sets, and for both only if they are equal; get_symmetric_equality returns the symmetric attribute.", "quantifier": "all pairs of tuples of equal length, all sets and implications over the 21 attributes, all set iteration orders", "why_tests_cant": "unit tests check a handful of literal contexts; the claim is about every context of every size", "anchors": ["fca/algorithms/exploration_/examples/bi_unars.py: get_symmetric_attribute_set, get_symmetric_implication, is_orbit_maximal, get_symmetric_equality, automorphic_copy"]}
{"id": "C95", "title": "Background of the bi-unar example is equational reasoning", "statement": "Every intent of a bi-unar respects generate_background_implications(attributes), and an equality follows from a set of equalities under this background exactly if it follows by reflexivity, symmetry and transitivity.", "quantifier": "all bi-unars, all sets of equalities", "why_tests_cant": "unit tests check a handful of literal contexts; the claim is about every context of every size", "anchors": ["fca/algorithms/exploration_/examples/bi_unars.py: generate_background_implications, bu_intent"]}
{"id": "C96", "title": "Examples and counterexamples of the bi-unar example", "statement": "generate_examples(n) lists all pairs of maps of {1..n} once; find_counter_example(n, imp) returns one of them violating imp or, if there is none, None; generate_partial_counterexample decides only attributes of the implication, is true of the bi-unar, and refutes the implication iff the bi-unar does; generate_context(n, attributes) builds the context of these examples.", "quantifier": "all n, all implications, all bi-unars", "why_tests_cant": "unit tests check a handful of literal contexts; the claim is about every context of every size", "anchors": ["fca/algorithms/exploration_/examples/bi_unars.py: generate_examples, find_counter_example, generate_partial_counterexample, generate_context"]}
{"id": "C97", "title": "Exploration up to symmetry is complete", "statement": "If the condition selects at least one of each two mirrored premises and every answer is given together with its mirror image, then when no implication is open the implications holding in the domain are exactly those following from the base; for the bi-unars with is_orbit_maximal a correct answer always exists and is accepted, and at most 2^21 * 22 questions are asked.", "quantifier": "all domains, all symmetries of order two, all truthful symmetric sessions; all sessions of the bi-unar exploration", "why_tests_cant": "unit tests check a handful of literal contexts; the claim is about every context of every size", "anchors": ["fca/algorithms/exploration_/examples/bi_unars.py: CommandLineExpert.explore, provide_counterexample, is_orbit_maximal", "fca/algorithms/exploration_/exploration.py: confirm_implications, reject_implication"]}
{"id": "C98", "title": "Mutators of a many-valued context act like updates of a table", "statement": "After every sequence of add_object, add_object_with_intent, add_attribute, add_attribute_with_extent, set_object_intent, set_attribute_extent, delete_object, delete_attribute, rename_object and rename_attribute calls a ManyValuedContext stores the table obtained by the same updates; a call that raises leaves it unchanged; a deep copy has the same names and values.", "quantifier": "all many-valued contexts, all sequences of calls", "why_tests_cant": "unit tests check a handful of literal contexts; the claim is about every context of every size", "anchors": ["fca/mvcontext.py: ManyValuedContext", "fca/context.py: add_object, add_attribute, set_object_intent, rename_object, delete_object, __deepcopy__"]}
{"id": "C99", "title": "Subcontexts of a many-valued context", "statement": "extract_subcontext keeps exactly the named attributes; extract_subcontext_by_condition keeps exactly the objects whose index satisfies the condition; extract_subcontext_by_attribute_values keeps exactly the objects having the given values; all keep the other names, the order of objects and the values.", "quantifier": "all many-valued contexts, name lists, conditions and value dictionaries", "why_tests_cant": "unit tests check a handful of literal contexts; the claim is about every context of every size", "anchors": ["fca/mvcontext.py: extract_subcontext, extract_subcontext_by_condition, extract_subcontext_by_attribute_values", "fca/context.py: _extract_subtable, _extract_subtable_by_condition, _extract_subtable_by_attribute_values"]}
{"id": "C100", "title": "Readers of tab and comma separated files return the table in the file", "statement": "read_txt, read_mv_txt, uread_mv_txt, read_mv_csv and read_csv applied to a file in the documented format return a context with the names and the values in the file.", "quantifier": "all tables of names and values without separators, line breaks and quotation marks", "why_tests_cant": "unit tests check a handful of literal contexts; the claim is about every context of every size", "anchors": ["fca/readwrite/tab_separated.py: read_txt, read_mv_txt, uread_mv_txt", "fca/readwrite/comma_separated.py: read_mv_csv, read_csv"]}
{"id": "C101", "title": "write_mv_txt writes the context, and it can be read back", "statement": "write_mv_txt and uwrite_mv_txt write names and values such that different contexts give different files; read_mv_txt applied to the file returns the context.", "quantifier": "all contexts with names without tabs, line breaks and quotation marks", "why_tests_cant": "unit tests check a handful of literal contexts; the claim is about every context of every size", "anchors": ["fca/readwrite/tab_separated.py: write_mv_txt, uwrite_mv_txt, read_mv_txt"]}
{"id": "C102", "title": "Concept systems survive write_xml and read_xml", "statement": "read_xml (uread_xml) applied to a file written by write_xml returns the same concepts with the same meta data.", "quantifier": "all concept systems, all set iteration orders", "why_tests_cant": "unit tests check a handful of literal contexts; the claim is about every context of every size", "anchors": ["fca/readwrite/xml_.py: write_xml, read_xml, uread_xml"]}
{"id": "C103", "title": "The dot file is the diagram of the concept system", "statement": "write_dot and uwrite_dot write one node per concept, one edge per pair of neighbours and one label per concept with own objects or own attributes, each once and nothing else; in a concept lattice the numbers in the labels add up to the numbers of objects and attributes; different diagrams give different files.", "quantifier": "all concept systems without repeated concepts, all set iteration orders", "why_tests_cant": "unit tests check a handful of literal contexts; the claim is about every context of every size", "anchors": ["fca/readwrite/dot.py: write_dot, uwrite_dot, find_own_objects, find_own_attributes"]}
{"id": "C104", "title": "algorithm2_w_condition reports its coverage truthfully and does not get stuck", "statement": "For every factor yielded by algorithm2_w_condition the second number is the fraction of crosses first covered by that factor and the third is the fraction covered so far; the third stays below fidelity before the last factor; with allow_repeatitions=False every factor has an attribute that occurs in no earlier factor; the iterator never raises.", "quantifier": "all contexts with a cross, all parameters, all tie-breaks, all prefixes of the run", "why_tests_cant": "unit tests check a handful of literal contexts; the claim is about every context of every size", "anchors": ["fca/algorithms/factors.py:168-247 algorithm2_w_condition"]}
{"id": "C105", "title": "The diagram shows the order of the concepts and determines the context", "statement": "In the graph written by write_dot for a concept lattice a node is reached from another one by going up exactly when its extent contains the other extent; an object has an attribute exactly when the node labelled with the attribute is reached from the node labelled with the object; contexts with the same names and the same labelled diagram are equal; any concepts of the lattice have a greatest common subconcept and a least common superconcept.", "quantifier": "all contexts, all set iteration orders", "why_tests_cant": "unit tests check a handful of literal contexts; the claim is about every context of every size", "anchors": ["fca/readwrite/dot.py: write_dot, find_own_objects, find_own_attributes", "fca/algorithms/__init__.py: compute_covering_relation"]}
{"id": "C106", "title": "Concept systems and lattices behave as sequences of concepts", "statement": "After any history of append, remove, parents and children (also with arguments that are no concepts, for which append raises TypeError and remove does nothing) a ConceptSystem is the expected list: iteration gives it, positions count from both ends and raise IndexError outside, membership and index agree with positions, parents follows the list; str has one line per concept.", "quantifier": "all systems, all histories of calls, all arguments", "why_tests_cant": "unit tests check a handful of literal contexts; the claim is about every context of every size", "anchors": ["fca/concept_system.py: ConceptSystem", "fca/concept_lattice.py: ConceptLattice"]}
{"id": "C107", "title": "Concepts collected in a set are found in it", "statement": "Every member of set(cxt.iterate_concepts()) and of set(cxt.concepts) is found in that set, exactly the concepts of the context are found, and the set has as many members as there are concepts.", "quantifier": "all contexts, all hash functions", "why_tests_cant": "unit tests check a handful of literal contexts; the claim is about every context of every size", "anchors": ["fca/concept.py:62-71 __eq__, __hash__", "fca/context.py:273-279 concepts, iterate_concepts", "fca/algorithms/norris.py"]}
{"id": "C108", "title": "make_random_context gives a well-formed context with crosses of probability d", "statement": "make_random_context(n, m, d) returns a context with n objects and m attributes (none for negative numbers), all names different; cell (i, j) holds exactly when the random number drawn for it is below d; if random.random() gives independent numbers uniform on [0, 1) and 0 <= d <= 1, a given table with k crosses is returned with probability d^k (1-d)^(nm-k).", "quantifier": "all n, m, d, all sequences of random numbers", "why_tests_cant": "a test sees one random context at a time; neither the distribution nor all sequences of random numbers can be tested", "anchors": ["fca/context.py: make_random_context"]}
{"id": "C109", "title": "compare_tuples is the comparison of a linear order", "statement": "compare_tuples returns 0 exactly for equal sets, changes sign when the arguments are exchanged, is transitive, and puts every set before its proper supersets; the smallest element in which the sets differ decides.", "quantifier": "all pairs of sets over any linear order", "why_tests_cant": "unit tests check a handful of literal contexts; the claim is about every context of every size", "anchors": ["fca/algorithms/aibasis.py: compare_tuples"]}
{"id": "C110", "title": "Implications taken from the iterator while the context grows", "statement": "A consumer of attribute_implications_iter (dg_basis_iter_simple) may add objects between two values: the iterator ends, each value holds in the context of the moment it is yielded and does not follow from the values before it; at the end values and background entail every implication of the context; if no value was refuted they are its Duquenne-Guigues basis; and the values that were not refuted entail every implication of the context at the end.", "quantifier": "all contexts, all backgrounds, all consumers (adaptive), all set iteration orders", "why_tests_cant": "the consumer is interleaved with the generator; tests run it on fixed contexts", "anchors": ["fca/context.py: attribute_implications_iter", "fca/algorithms/dg_basis.py: dg_basis_iter_simple, generalized_dg_basis_iter"]}
{"id": "C111", "title": "Putting an implication into a list loses nothing", "statement": "remove_subsumed(imp, l), remove_subsumed_simply(imp, l) and remove_subsumed_plus(imp, l) raise nothing and only remove elements; the list afterwards, with imp appended if the answer is True, is respected by exactly the sets that respect imp and every implication of the list before.", "quantifier": "all implications and all lists, also with equal or subsumed elements", "why_tests_cant": "the loss needs two implications with equal premises, which compute_implication_cover never passes", "anchors": ["fca/algorithms/implication_covers.py: remove_subsumed, remove_subsumed_simply, remove_subsumed_plus"]}
{"id": "C112", "title": "The text of a partial context shows what is known and what is possible", "statement": "repr of a partial context is the line of attributes, the line of objects and for every object a row with X for a known attribute, ? for one that is only possible and . otherwise; contexts with the same objects and attributes have the same text exactly if they agree in both relations. intents() yields for every object, in order, the set of known and the set of possible attributes.", "quantifier": "all well-formed partial contexts", "why_tests_cant": "unit tests check a handful of literal contexts; the claim is about every context of every size", "anchors": ["fca/partial_context.py: PartialContext.__repr__, _intent_to_str, intents"]}
{"id": "C113", "title": "A partial context can be copied", "statement": "copy.deepcopy of a partial context returns an equal partial context.", "quantifier": "all well-formed partial contexts", "why_tests_cant": "unit tests check a handful of literal contexts; the claim is about every context of every size", "anchors": ["fca/partial_context.py: PartialContext.__deepcopy__, __init__", "fca/compare_context.py: subseteq_table"]}
{"id": "C114", "title": "delete_attributes deletes the named columns and nothing else", "statement": "delete_attributes(names) removes exactly the named attributes with their columns, in whatever order and however often they are listed; all other cells stay. An unknown name raises KeyError and changes nothing.", "quantifier": "all contexts, all lists of names", "why_tests_cant": "the name list and the table are changed by two different procedures that agree only for lists without repetitions", "anchors": ["fca/context.py: delete_attributes"]}
{"id": "C115", "title": "A refused counterexample ends the answer", "statement": "reject_implication with several counterexamples adds those before the first one that is refused, raises its exception, and adds none of the later ones.", "quantifier": "all partial contexts, all lists of counterexamples", "why_tests_cant": "unit tests check a handful of literal contexts; the claim is about every context of every size", "anchors": ["fca/algorithms/exploration_/exploration.py: AttributeExploration.reject_implication"]}
{"id": "C116", "title": "The attributes of a context object fit together at any time", "statement": "After construction and any calls of the mutators, raising or not: np_table has one row per object and one column per attribute, cross_table has the entries of np_table, object_indices and attribute_indices map every name to its position and have no other keys. A call that raises leaves all six attributes of the object as they were.", "quantifier": "all tables, all histories of mutator calls with any arguments, exceptions caught", "why_tests_cant": "the mutators change several attributes one after another and may raise in between; tests look at one mutator and at contexts built afresh", "anchors": ["fca/context.py: __init__, add_attribute, add_object, set_attribute_extent, set_object_intent, delete_object, delete_attribute, delete_attributes, rename_object, rename_attribute"]}
{"id": "C117", "title": "Methods that take positions", "statement": "get_object_intent_by_index, get_attribute_extent_by_index, oprime_inds, aprime_inds, oclosure_inds and aclosure_inds answer for the objects and attributes at the given positions, negative positions counting from the end; oprime_inds gives the positions of exactly the common attributes, each once. A position outside the table raises IndexError.", "quantifier": "all contexts, all integers and lists of integers", "why_tests_cant": "an except clause around one access decides what happens to wrong positions; tests use right ones", "anchors": ["fca/context.py: get_object_intent_by_index, get_attribute_extent_by_index, oprime_inds, aprime_inds, oclosure_inds, aclosure_inds"]}
{"id": "C118", "title": "Quotation marks in tab separated files", "statement": "read_txt_with_names reads a table whose names are written plainly (no tabs, no line breaks, no quotation mark in front; quotation marks inside are allowed) or in quotation marks with inner ones doubled (then tabs and line breaks are allowed too) and gives the context with these names and cells. A name that begins with a quotation mark and is written plainly is read back as well.", "quantifier": "all tables, all names up to the field size limit of the csv module, files with any mixture of plain and quoted names", "why_tests_cant": "the docstring does not mention quoting; it comes from a state machine inside the csv module that tests of two or three plain names do not touch", "anchors": ["fca/readwrite/tab_separated.py: read_txt_with_names"]}
{"id": "C119", "title": "read_cxt does not depend on the layout of the file", "statement": "read_cxt gives the names and the table of every file with the lines B, anything, the number of objects, the number of attributes, anything, the names, the rows, and possibly more lines: blanks around the lines, the kind of line breaks and a line break at the end do not matter, and cells other than X are empty. A file whose first line is not B raises AssertionError, one whose numbers are not numbers ValueError.", "quantifier": "For all files (lists of characters), all names, tables, numbers of lines and blanks, all three kinds of line breaks, and every outcome of eval; no bounds.", "why_tests_cant": "The tests read two files written with one kind of line break and without blanks; the space of layouts is infinite.", "anchors": ["fca/readwrite/cxt.py:6-92"]}
{"id": "C120", "title": "Concepts while the context changes", "statement": "A consumer of the concept iterator may modify the context between two values: the values are the concepts of the context in which the iteration began.", "quantifier": "all contexts, all sequences of modifications between values", "why_tests_cant": "the iterator reads the context again in every round; tests consume it at once", "anchors": ["fca/algorithms/norris.py: norris", "fca/context.py: get_concepts, iterate_concepts"]}
{"id": "C121", "title": "Cells written through c[i][j]", "statement": "c[i][j] = v changes exactly this cell: afterwards intents, extents, comparisons with other contexts and all later calls of mutators are as for the context with this table.", "quantifier": "all contexts, positions and values, all later histories of calls", "why_tests_cant": "the table is stored twice and the tests write cells only through the mutators", "anchors": ["fca/context.py: __getitem__, __eq__, get_object_intent, get_attribute_extent and the mutators"]}
{"id": "C122", "title": "Names changed through c.objects", "statement": "c.objects[i] = x with a new name renames the object, and c.objects.append(x) leaves a context whose mutators still work.", "quantifier": "all contexts, positions and names, all later histories of calls", "why_tests_cant": "the getter hands out the list of the object, while the dictionary of positions is made by the constructor only", "anchors": ["fca/context.py: get_objects, __init__, get_object_intent, get_attribute_extent and the mutators"]}
{"id": "C123", "title": "Deleting objects in a loop over c.objects", "statement": "for o in c.objects: if p(o): c.delete_object(o) raises nothing and deletes exactly the objects that satisfy p.", "quantifier": "all contexts, all conditions p", "why_tests_cant": "the list is changed in place by the first deletion and copied by the constructor, so that only one neighbour is affected; short tests miss it", "anchors": ["fca/context.py: delete_object, get_objects, __init__"]}
{"id": "C124", "title": "The product of the factor contexts is the context", "statement": "What tests/algorithms/test_factors.py checks on random contexts holds for every context with a cross: the concepts yielded by algorithm2 with fidelity 1 give, by make_factor_cxts and multiplication, a context equal to c.remove_empty_objects(); with a smaller fidelity the product has at least this fraction of the crosses and no other crosses.", "quantifier": "all contexts with at least one cross, all fidelities in (0, 1], all iteration orders of the sets, all factor names", "why_tests_cant": "the tests draw a few random contexts; whether every attribute has an object is left to chance", "anchors": ["fca/algorithms/factors.py: algorithm2, make_factor_cxts", "fca/context.py: __mul__, __eq__, remove_empty_objects", "tests/algorithms/test_factors.py"]}
{"id": "C125", "title": "The incremental basis and the Duquenne-Guigues basis have the same closures and the same length", "statement": "What tests/algorithms/test_aibasis.py checks on one random context holds for every context with an object: lin_closure(s, aibasis) == lin_closure(s, ncbasis) for every set s, and len(aibasis) == len(ncbasis), where aibasis is the result of aibasis.compute_canonical_basis (with simple_closure or lin_closure) and ncbasis that of compute_dg_basis.", "quantifier": "all contexts with an object, all sets s, all iteration orders of sets, all outcomes of list.sort", "why_tests_cant": "one random context and sets with two elements are tested; lin_closure is wrong on lists with repeated implications, so that it matters that the premises are distinct", "anchors": ["fca/algorithms/aibasis.py: compute_canonical_basis, update_preclosed", "fca/algorithms/closure_operators.py: lin_closure", "fca/algorithms/dg_basis.py: compute_dg_basis", "tests/algorithms/test_aibasis.py"]}
{"id": "C126", "title": "Names that cannot be compared with each other", "statement": "Let names be of several kinds (say integers and strings), comparable within a kind only. For every context with distinct names: context.concepts returns; ConceptLattice(context) raises TypeError exactly if two objects of different kinds share an attribute, or two attributes of different kinds share an object, and otherwise builds the same lattice as with comparable names. closure_operators.aclosure/oclosure raise TypeError exactly if the closure has two kinds of names, repr/hash of an Implication exactly if its premise or its reduced conclusion has, and compute_dg_basis exactly if an object lacking an attribute has attributes of two kinds or some pseudo-intent has the closure of all attributes and these are of two kinds. Repeated integer names given to the constructor are such a case: they become strings, the others stay integers.", "quantifier": "all contexts with distinct names, all kinds of names, all comparison-based sorting algorithms and iteration orders of sets; for the basis: at least one object, valid background, no condition", "why_tests_cant": "needs every closure and every concept that a computation can reach, and independence from the sorting algorithm; a test would check one list of names", "anchors": ["fca/concept.py:42-60", "fca/concept.py:70-71", "fca/algorithms/norris.py:143", "fca/algorithms/closure_operators.py:28-35", "fca/implication.py:55-69", "fca/algorithms/dg_basis.py:57-96", "fca/context.py:222-241"]}
{"id": "C127", "title": "Names that are not strings, where text is made of them", "statement": "Let the names of a context with distinct names be integers or strings. complementary and compound raise TypeError exactly if an attribute is not a string. uwrite_cxt raises TypeError at the first name that is not a string, and the file holds exactly the header and the names before it. write_mv_txt writes nothing, or only the line of objects. write_dot of a lattice raises TypeError exactly if an object (attribute) that is not a string has the same intent (extent) as fewer than five objects (attributes); uwrite_dot exactly if full labels are asked for and one of the first six own names of a concept is not a string. scale_mvcontext raises exactly if such a name occurs in a pair that is joined. write_cxt and read_cxt return integers and strings as they were, if eval gives the integers back.", "quantifier": "all contexts with distinct names, all sets of names with or without text, all iteration orders of sets, all scales whose conditions evaluate", "why_tests_cant": "names in the tests are strings, except in a few that write nothing; which part of a file is written before the exception depends on all names", "anchors": ["fca/context.py: complementary, compound", "fca/readwrite/cxt.py: read_cxt, write_cxt, uwrite_cxt", "fca/readwrite/tab_separated.py: write_mv_txt", "fca/readwrite/dot.py: write_dot, uwrite_dot", "fca/algorithms/scaling.py: scale_mvcontext"]}
{"id": "C128", "title": "What the computation of the basis asks for", "statement": "compute_dg_basis of a context with an object, with a valid background and no condition, calls aclose for pairwise distinct sets in lectic order. Each of them is an intent other than the set of all attributes or the premise of an implication of the result; every premise is among them, and an intent not among them is the set of all attributes or a conclusion of the result. cond is called for the premises, in the order of the result; with a condition, for the sets given to aclose that are not closed, and the premises are those of them for which it is true. close is called at least as often as aclose and at most 1 + (attributes)*(calls of aclose) times. With n calls of aclose, len(context.concepts) <= n + 1 <= len(context.concepts) + len(basis), and len(context.concepts) + len(basis) <= 2^(number of attributes).", "quantifier": "all contexts with distinct names and at least one object, all valid backgrounds, both closure functions, all iteration orders of sets", "why_tests_cant": "tests see the returned basis, not the calls; the bounds relate two algorithms on all contexts", "anchors": ["fca/algorithms/dg_basis.py:41-54", "fca/algorithms/dg_basis.py:57-96", "fca/algorithms/norris.py: norris"]}
{"id": "C129", "title": "How the concepts change with the context", "statement": "add_object with a new name: the intents of the context's concepts afterwards are the intents before and their intersections with the new row; so the number of concepts does not fall and at most doubles. The same for extents with add_attribute, and backwards for delete_object and delete_attribute. transpose exchanges extent and intent of every concept. A context has at most 2^min(objects, attributes) concepts; it has 2^(attributes) exactly if its basis is empty; and for every n some context with n objects and n attributes has 2^n.", "quantifier": "all contexts with distinct names, all rows, columns and names for which the mutator returns", "why_tests_cant": "compares the results for a context before and after any change; the bound is attained only by contexts that grow with n", "anchors": ["fca/context.py: add_object, add_attribute, delete_object, delete_attribute, transpose", "fca/algorithms/norris.py: norris", "fca/algorithms/dg_basis.py:57-96"]}
{"id": "C130", "title": "minimize after compute_implication_cover gives the Duquenne-Guigues basis", "statement": "For every context, cover = compute_implication_cover(cxt); minimize(cover) leaves in cover exactly the implications that compute_dg_basis(cxt) returns, each once, up to their order. More generally, minimize of a list of implications whose conclusions contain all that follows from their premises leaves the implications of the pseudo-intents of the closure operator, so no list of implications with the same closed sets is shorter. Without this condition it may be longer than necessary: [a -> b, ab -> c] is left as it is.", "quantifier": "all contexts with distinct names, all iteration orders of sets, both closure functions in compute_dg_basis; all lists of implications with full conclusions", "why_tests_cant": "the two algorithms have nothing in common (one reads the objects one at a time, the other the attribute sets in lectic order); tests compare lengths on single contexts", "anchors": ["fca/algorithms/implication_covers.py:12-28", "fca/algorithms/implication_covers.py:144-158", "fca/algorithms/dg_basis.py:11-40"]}
{"id": "C131", "title": "The basis depends on the intents only", "statement": "Two contexts with the same attributes have the same compute_dg_basis, up to the order of the list, exactly if their concepts have the same intents; with the attributes in the same order the lists are equal. So names, order and repetitions of objects do not matter, the order of the attributes matters for the order of the list only, and clarify_objects and reduce_objects keep the list.", "quantifier": "all pairs of contexts (at least one object), all orders of iteration, both closure functions", "why_tests_cant": "the two runs visit different objects in different orders; tests compare the result with a stored list for one context", "anchors": ["fca/algorithms/dg_basis.py:11-40", "fca/algorithms/norris.py:12-60", "fca/context.py:717-755"]}
{"id": "C132", "title": "The stabilities of all concepts together", "statement": "For every lattice: the sum over all concepts c of compute_istability(lattice)[c] * 2**len(c.extent) is 2**len(objects); every value is greater than 0 and at most 1, and 1 for the bottom concept only; with children(c) = d1..dk it is at least 1 - sum of 2**(len(di.extent) - len(c.extent)), and at most 1 - 2**(len(d.extent) - len(c.extent)) for every concept d below c. The same for compute_estability with intents, the top concept and parents; compute_estability of a context is compute_istability of the transposed one.", "quantifier": "all contexts, all concepts, all orders in which the work-set is popped", "why_tests_cant": "a statement about all subsets of objects of all contexts; tests compare single values with stored ones", "anchors": ["fca/algorithms/filtering/stability.py:16-55", "fca/algorithms/filtering/stability.py:57-97", "fca/concept_lattice.py:84-91"]}
{"id": "C133", "title": "Which lattices are concept lattices", "statement": "Let the objects and attributes of a context be mapped to elements of a lattice V such that an object has an attribute exactly if its element is below that of the attribute, every element of V is determined by the objects below it, and by the attributes above it. Then ConceptLattice(cxt) is V: it has as many concepts, extents are ordered as the elements, parents are the upper neighbours, top_concept and bottom_concept belong to the greatest and the least element. Conversely, if the concepts are ordered as V there are such mappings. Every finite lattice is obtained, from Context([[x <= y for y in l] for x in l], l, l). The lattice of an OrdinalScale is a chain with as many concepts as values, that of a NominalScale with n >= 2 values has n + 2 concepts.", "quantifier": "all contexts, all finite lattices, all intervals of integers, all columns", "why_tests_cant": "quantifies over lattices; a test can only build single contexts", "anchors": ["fca/concept_lattice.py:34-38", "fca/concept_lattice.py:84-91", "fca/algorithms/norris.py:12-60", "fca/scale.py:57-78"]}
{"id": "C134", "title": "What each factor of algorithm2 is guaranteed to cover", "statement": "A factor yielded by factors.algorithm2 covers at least as many crosses not covered by the earlier factors as every attribute concept does, and as every concept obtained by adding one attribute to its intent; no concept (A, B) covers more than |B| times as many. So the fraction reported is at least (1 - fraction covered before) / |attributes|, after i factors at most (1 - 1/|attributes|)^i of the crosses is uncovered, and if k + 1 factors are yielded then 1 - fidelity < (1 - 1/|attributes|)^k and 1 <= |crosses| (1 - 1/|attributes|)^k.", "quantifier": "all contexts with a cross, all fidelities, all iteration orders of sets, all positions in the sequence of factors", "why_tests_cant": "bounds for every context and every tie; tests factorize single contexts", "anchors": ["fca/algorithms/factors.py:67-110", "fca/algorithms/factors.py:55-64"]}
{"id": "C135", "title": "The factors of algorithm2 are optimal", "statement": "factors.algorithm2(cxt) yields as few factors as possible to cover all crosses, in particular at most as many as there are objects or attributes, in the order of the fraction they newly cover.", "quantifier": "all contexts with a cross, all iteration orders of sets", "why_tests_cant": "optimality compares with all sets of concepts", "anchors": ["fca/algorithms/factors.py:1-3", "fca/algorithms/factors.py:67-110"]}
{"id": "C136", "title": "Explorations that ask the first open implication accept the canonical basis of the domain", "statement": "GenericExpert.explore and CommandLineExploration.explore always ask about the first open implication. With right answers the implications accepted are, premise and conclusion, exactly the Duquenne-Guigues basis of the domain (relative to the implications given in the beginning), in lectic order; compute_dg_basis returns the same list for the final context. The premises asked never decrease in lectic order, no implication is asked twice, and the number of questions is the number of accepted implications plus the number of objects added. For the numbers of the example these are always the same four implications.", "quantifier": "all domains, all initial contexts and backgrounds, all right answers and counterexamples, all iteration orders of sets", "why_tests_cant": "the result must not depend on which counterexamples are given; tests give one sequence of answers", "anchors": ["fca/algorithms/exploration_/explorationtest.py:21-27", "fca/algorithms/exploration2/examples/numbers.py:49-58", "fca/algorithms/dg_basis.py:9-60"]}
{"id": "C137", "title": "The reduced context is a normal form of the concept lattice", "statement": "A concept of ConceptLattice(cxt) has exactly one child if and only if it is the concept of an object whose row is not full and not an intersection of larger rows, and exactly one parent if and only if it is that of such an attribute. cxt.reduce_objects() keeps an object for each concept with one child; every context with the same intents has at least as many objects that do not have all attributes as there are such concepts, and the result has exactly as many if and only if it has no row that is an intersection of other rows (in particular if no row code of the context is both positive and smaller than the number of objects); dually for reduce_attributes. Reducing objects and then attributes keeps the lattice. Whenever the reductions of two contexts leave nothing redundant, the contexts have the same lattice if and only if the reductions are equal up to names, order and full rows and columns.", "quantifier": "all contexts, all pairs of contexts, all other contexts with the same intents", "why_tests_cant": "minimality compares with all contexts with the same lattice; tests compare one reduced table", "anchors": ["fca/context.py:718-765", "fca/concept_lattice.py:87-94", "fca/concept_system.py:82-113"]}
{"id": "C138", "title": "Products of contexts: associativity, transposition, unit, and concepts as optimal factors", "statement": "For contexts l, r, s where l and r have objects and r has attributes, (l * r) * s and l * (r * s) are the same context (same lists of names, same table) or both raise MultiplicationException, which happens if and only if a list of attributes differs from the next list of objects. The transpose of l * r is the product of the transposes in the other order. The context in which every name has exactly itself is a left and right unit. The crosses of a context with at least one cross are those of a product with at most k middle elements if and only if at most k of its concepts cover them, and make_factor_cxts of such concepts returns such a decomposition with one middle element for each concept; so no pair of contexts decomposes the table with fewer middle elements than the best set of concepts.", "quantifier": "all contexts, all lists of concepts, all numbers k", "why_tests_cant": "an equation between all triples of contexts, and minimality over all decompositions; no test multiplies three contexts", "anchors": ["fca/context.py:694-701", "fca/context.py:527-537", "fca/algorithms/factors.py:16-52"]}
{"id": "C139", "title": "How many implications an exploration accepts, whatever is answered", "statement": "A history of calls on an ExplorationDB that ends without open implications contains at least as many calls of confirm_implication as get_attribute_implications of the final context returns relative to what is left of the initial background, and at least that many implications were added to the background; likewise for the last session of exploration2 and the whole basis. In every reached state the implications that can be confirmed one after the other, with no other call in between, are exactly the different open ones, in any order; they are moved from the open implications to the background and the exploration is finished exactly when all of them are confirmed. If counterexamples come in between more implications than necessary may be accepted: there is a history with four confirmations whose final context has a basis of two.", "quantifier": "all histories of calls and answers, all orders of confirmation", "why_tests_cant": "quantifies over all histories of answers; the tests confirm the first open implication each time", "anchors": ["fca/algorithms/exploration_/exploration.py:50-133", "fca/algorithms/exploration2/exploration.py:46-115", "fca/context.py:292-301"]}
{"id": "C140", "title": "== is an equivalence relation on contexts, of either class", "statement": "For two Context objects == returns a truth value, and it is true exactly if the texts (repr) are equal or the contexts have the same objects, attributes and relation. == is reflexive, symmetric and transitive. A comparison of a context of either class with anything gives the same on both sides of ==; it raises TypeError exactly if the other operand is no context or both are ManyValuedContexts. c in l for a list of contexts of both classes returns whether c itself or an equal context is there; a ManyValuedContext can be found by identity only.", "quantifier": "all contexts, all lists of contexts", "why_tests_cant": "tests compare a few contexts; transitivity is about triples, and fails", "anchors": ["fca/context.py:663-692", "fca/mvcontext.py:8", "fca/mvcontext.py:67-82"]}
{"id": "C141", "title": "The concepts of a scaled context are made of the concepts of the scales", "statement": "Let every scale have, for each value in its column, exactly one row whose condition is true of the value. Then the extents of scale_mvcontext(mvc, scales) are exactly the sets of objects obtained by taking one extent of every scale and collecting the objects all of whose values fall into the chosen extents; hence len(c.concepts) is at most the product of the numbers of concepts of the scales. For OrdinalScale on every attribute these are the sets of objects whose values reach (mode geq) or do not exceed (leq) a threshold per attribute, thresholds within the ranges; for NominalScale of every column the non-empty extents are the non-empty sets of objects described by prescribing the values of some attributes.", "quantifier": "all many-valued contexts with distinct object names and a value for every attribute, all lists of well-formed scales of that kind with pairwise different joined names, all conditions and values", "why_tests_cant": "The test scales one small table and compares the cells of the result. The statement is about the concept lattice of the result, for all tables and scales.", "anchors": ["fca/algorithms/scaling.py:6-59", "fca/scale.py:31-73", "fca/algorithms/norris.py:8-49"]}
{"id": "C142", "title": "How the basis changes with the context", "statement": "Let B be the basis of c and B' the basis after a mutator that returned. add_object_with_intent(S, name) with a new name: P -> C follows from B' iff it follows from B and S respects it; B' == B iff S (its part in c.attributes) is closed, i.e. aclosure(S) == S. delete_object: the converse, with the intent of the deleted object and the context left. add_attribute_with_extent(A, name) with a new name: between old attributes exactly the same implications follow; the new attribute follows from P iff all objects having P are in A; P with the new attribute implies C iff every object of A having P has C. delete_attribute: between the remaining attributes exactly the same implications follow. rename_attribute to a new name: the same implications, with the name exchanged.", "quantifier": "all well-formed contexts, all arguments for which the mutator returns, all premises and conclusions, every closure function and iteration order of the two computations", "why_tests_cant": "Tests of the bases compare lists for single contexts; no test changes a context and compares what follows before and after.", "anchors": ["fca/context.py:361-413", "fca/context.py:288-299", "fca/algorithms/dg_basis.py:11-97"]}
{"id": "C143", "title": "A truthful exploration ends with the theory of the domain", "statement": "Let a BasicExploration start from a context (with an object and an attribute) that is a part of a finite domain, and let the user call only confirm_attribute_implication and confirm_object_implication on implications that hold in the domain, counter_example_for_attr_implication and counter_example_for_obj_implication with violating objects and attributes of the domain and their true description, and add_object and add_attribute with new members of the domain. Then no call raises; every confirmed implication holds in the whole domain; every open implication has such an answer; the number of calls is bounded by the domain (3^attributes + 3^objects + objects + attributes); and when no attribute (object) implication is open, an implication over the attributes (objects) of the context follows from the confirmed ones exactly when it holds in the domain, and no further object (attribute) of the domain would add a new intent (extent).", "quantifier": "all domains, all contexts contained in it with at least one object and one attribute, all sequences of truthful calls in any order on both sides, all sorts of the basis computation", "why_tests_cant": "a test answers a few questions about one small domain; it cannot show that every order of answers on both sides ends, nor that nothing valid is missed", "anchors": ["fca/algorithms/exploration.py:92-106", "fca/algorithms/exploration.py:108-162", "fca/algorithms/exploration.py:192-204"]}
{"id": "C144", "title": "What messages and the text of an exploration tell", "statement": "The text of an exception names what the exception is about: for NotUniqueElementException, IncorrectAttributeException, BasisConflict, NotAPatternException, NotAPositivePattern and NotANegativePattern different elements give different texts; for NotCounterExamplePremise, NotCounterExampleConclusion, NotNegativeExample and ConfirmedPatternsConflict the text and one of the two things named determine the other; formatting never raises, and the classes that stand for different mistakes have different texts; MultiplicationException tells the two numbers that differ. repr of a BasicExploration tells its state: two explorations of the same context with the same text have the same open and confirmed implications (as texts) on both sides, if names have no line breaks.", "quantifier": "all elements, sets and patterns as texts, all pairs of contexts, all explorations with string names", "why_tests_cant": "tests check that the exceptions are raised but not their texts, and one example of a text does not show that different states have different texts", "anchors": ["fca/context.py:34-65", "fca/algorithms/exploration.py:11-42", "fca/algorithms/exploration.py:61-82", "fca/algorithms/patterns.py:23-85"]}
{"id": "C145", "title": "Transposing a context dualises everything computed for it", "statement": "Let d = c.transpose(), L = ConceptLattice(c) and L' = ConceptLattice(d). The concepts of L' are those of L with extent and intent exchanged, each once; the top of L' is the exchanged bottom of L and conversely; the parents of an exchanged concept in L' are the exchanged children in L and conversely; compute_istability on L' gives compute_estability on L and conversely; compute_extent_size on L' gives compute_intent_size on L and conversely; compute_separation_index gives the same value.", "quantifier": "all well-formed contexts (sizes and separation: with an object and an attribute), all iteration orders of sets, independently on the two sides", "why_tests_cant": "a test compares a few values on one lattice and its dual; it cannot show the agreement of two different loops (istability, estability) under all iteration orders", "anchors": ["fca/context.py:527-540", "fca/concept_lattice.py:27-94", "fca/algorithms/filtering/stability.py:16-102", "fca/algorithms/filtering/separation.py:8-41", "fca/algorithms/filtering/extentsize.py:3-9", "fca/algorithms/filtering/intentsize.py:3-9"]}
{"id": "C146", "title": "What follows from the bases of derived contexts", "statement": "extract_subcontext(names): an implication over the names follows from the basis of the subcontext exactly when it follows from the basis of the context. extract_subcontext_filtered_by_attributes(names): mode 'and' turns the names into a further premise, mode 'or' keeps what follows with each of the names as a further premise. remove_empty_objects: what followed before is what follows afterwards, except that with an empty row nothing follows from the empty premise. reduce_attributes: the basis of the reduced context together with the equivalence of every removed attribute with the kept attributes above it is as strong as the basis of the context. (clarify_objects and reduce_objects do not change the basis: C131.)", "quantifier": "all well-formed contexts, all lists of names (without repetition for extract_subcontext), all premises and conclusions over the attributes, both closure functions and all iteration orders", "why_tests_cant": "a test compares two lists on one context; the statement is about everything that follows from them, and reduce_attributes changes the set of attributes the implications speak of", "anchors": ["fca/context.py:539-570", "fca/context.py:757-763", "fca/algorithms/dg_basis.py:11-97"]}
{"id": "C147", "title": "minimize changes the implication objects it is given", "statement": "minimize assigns to the premises of the implication objects in the list, so other holders of the objects see the change. For a list of different objects the list afterwards has the values that minimize gives for implications as values, consists of some of the objects, no other object is changed, conclusions stay and premises only grow; another list that holds all of the objects keeps its closed sets. Afterwards every list that holds some of the objects has the same consequences as before, and the cover keeps its consequences if an object stands twice in it.", "quantifier": "all implication objects, all lists of them, with and without repetitions", "why_tests_cant": "tests use lists of fresh, different objects and do not look at other lists that hold them", "anchors": ["fca/algorithms/implication_covers.py:144-158", "fca/implication.py:29-48"]}
{"id": "C148", "title": "compute_canonical_basis with its shared sets computes on values", "statement": "In aibasis a premise set is at the same time the second component of a tuple in preclosed and the premise of the implication, and sets are changed in place with add and |=. For every context, closure function, sort and sets existing before: the implications returned have the values that the algorithm without sharing returns, or both raise the same exception; the implications returned share no set object with each other nor with anything that existed before, premise and conclusion of one are different objects, and no set that existed before is changed. With the default closure function and at least one object the implications are sound and complete.", "quantifier": "all contexts, all closure functions, all permuting sorts that see only the keys, all initial heaps", "why_tests_cant": "tests compare the resulting values on a few contexts; an accidental alias would show only when a later step changes the shared set", "anchors": ["fca/algorithms/aibasis.py:35-137"]}
{"id": "C149", "title": "The table of index functions on lattices and on filtered systems", "statement": "The dict returned by get_compute_functions has six different names for six different functions. For every context with objects and attributes and every iteration order, each of them returns a dict with exactly the concepts of the lattice as keys and values in [0, 1], the ones its name promises; so mode 'value' with a threshold of at most 0 keeps all concepts, with one above 1 none, and a larger threshold keeps fewer. The functions can be applied again to the concept system that filter_concepts returns: values in [0, 1] again; for the system of concepts with extent size at least v compute_estability gives the values in the lattice, for that by intent size compute_istability.", "quantifier": "all contexts, lattices, concept systems of concepts of one context, thresholds, iteration orders", "why_tests_cant": "tests apply each function to one lattice; filtering the result of a filtering is not tested", "anchors": ["fca/algorithms/filtering/__init__.py:9-19", "fca/algorithms/filtering/stability.py:25-103", "fca/algorithms/filtering/filter.py:28-62"]}
{"id": "C150", "title": "How often the loops of the closure functions and of norris are executed", "statement": "lin_closure executes the body of its while loop once for each element of the result and calls decrease_count once for each pair of an implication and an element of its premise in the result, so at most as often as the premises have elements together; this holds for every list and every iteration order. simple_closure makes at most one pass more than there are applicable implications and tests at most n(n+1)/2 premises for n implications; for every n there is a list for which it tests that many while lin_closure calls decrease_count n times. norris looks at each concept of the objects before once for each object, and compares with earlier objects at most L*n(n-1)/2 times for L concepts and n objects.", "quantifier": "all sets, all lists of implications (with repetitions), all contexts, all iteration orders", "why_tests_cant": "tests check results, not work; a loop that visits elements twice gives the same results", "anchors": ["fca/algorithms/closure_operators.py:74-86", "fca/algorithms/closure_operators.py:126-158", "fca/algorithms/norris.py:51-83"]}
{"id": "C151", "title": "Names do not matter", "statement": "Let a context be given and let its objects and attributes be renamed injectively, the table being left as it is. Then norris on the renamed context returns the renamed concepts in the same order, the iterative version hands out the renamed intermediate lists, and if one raises an exception so does the other, the same one; this also for contexts that are not well formed. The lattice has the renamed top, bottom, parents and children, and each concept has the same intensional and extensional stability as before, whatever the iteration orders of sets (hence the hashes of the names). The canonical basis relative to the renamed background is the renamed basis in the same order, with any of the closure functions. Renaming that gives two attributes the same name can change the lattice.", "quantifier": "all contexts, all injective renamings between any types of names, all backgrounds, all iteration orders", "why_tests_cant": "tests use one set of names each; dependence on hashes or on comparisons of names is invisible in them", "anchors": ["fca/algorithms/norris.py:8-153", "fca/concept_lattice.py:34-91", "fca/algorithms/filtering/stability.py:25-103", "fca/algorithms/dg_basis.py:11-96"]}
{"id": "C152", "title": "Pattern exploration with an honest expert", "statement": "A client who has a BasicPatternExploration asks the expert about patterns: it adds what iterate_new_objects yields with add_negative_example and then calls confirm_pattern. Let the expert be honest about a domain of negative examples: what it returns are objects of the domain with new names that have the pattern, and if the domain refutes the pattern (some object has it and lacks an attribute) and the negative context does not, at least one of the objects returned does. Then, for every list of patterns over the attributes, the confirmed patterns are exactly those asked about that occur in a positive object lacking some attribute and are not refuted by the domain, in the order of the questions; they do not depend on which honest expert is asked; and the negative context contains only objects of the domain. The expert who shows everything that is not there yet and the one who shows only the first refuting object are honest, for every finite domain with distinct names. Without an expert (the default) asking raises TypeError; with one who shows nothing, refuted patterns are confirmed.", "quantifier": "all positive and negative contexts over the same attributes, all domains, all honest experts, all lists of patterns", "why_tests_cant": "there are no tests of the class", "anchors": ["fca/algorithms/patterns.py:98-117", "fca/algorithms/patterns.py:132-155"]}
{"id": "C153", "title": "Repeating the basis computation on a partial context completes it", "statement": "One call of get_attribute_implications on a partial context can miss unrefuted implications (C82). If a client calls it again and again, each time passing as confirmed implications what it got so far together with the background, then at most as many calls return something new as there are attributes; from then on the call returns the empty list. Every implication over the attributes that no partial object refutes then follows from the collected list, and no collected implication is refuted. Taken together the collected implications may entail an implication that an object refutes.", "quantifier": "all partial contexts with an object, all backgrounds over the attributes, all iteration orders", "why_tests_cant": "tests call the function once, on contexts without unknown cells", "anchors": ["fca/partial_context.py:85-89", "fca/algorithms/dg_basis.py:42-96"]}
{"id": "C154", "title": "compute_dg_basis with a background that contains equal implications", "statement": "compute_dg_basis(cxt, imp_basis=bg) with the default lin_closure counts equal background implications together: if an implication with n attributes in the premise occurs m times, it acts as soon as n/m of them (rounded up) are there. The call returns exactly the pseudo-intents relative to that stronger background, each once, in lectic order, with their closures as conclusions; that is what compute_dg_basis_simple returns for the expanded list. Every implication of the context follows from the result and the expanded background. For a given bg the default call is complete together with bg on all contexts in which bg is valid if and only if the sets closed under bg are closed in the sense of lin_closure; in particular if only implications with at most one attribute in the premise are repeated.", "quantifier": "for all well-formed contexts, all background lists with conclusions among the attributes (valid or not, with or without repetitions) and all iteration orders of the sets; the equivalence: for all attribute lists and all such background lists", "why_tests_cant": "The loss shows only on contexts and backgrounds with a repeated implication of two or more attributes, and one has to know all pseudo-intents to see what is missing; the equivalence quantifies over all contexts.", "anchors": ["fca/algorithms/dg_basis.py:11-25", "fca/algorithms/dg_basis.py:57-96", "fca/algorithms/closure_operators.py:88-158"]}
{"id": "C155", "title": "Several ExplorationDBs on one context", "statement": "ExplorationDB keeps the context and the list of implications it is given, without copying them. If several databases get the same context and the same list, then in every history of their calls in which an implication is confirmed only if it is open after touch() of that database, the shared background holds for every object; after every call that returned, the open implications of that database are exactly those of the pseudo-intents relative to the background, and if there are none the background is complete. Whatever was done to the context by others, touch() makes the open implications those of the current context, and they hold in it. Without touch() a stale implication can be confirmed, so that the background becomes false; databases with lists of their own do not protect each other's background.", "quantifier": "all numbers of databases, all interleaved histories of calls (those that raise included), all iteration orders; at least one object; edits use the old name or a new one", "why_tests_cant": "tests have one database per context; the loss shows only in certain interleavings", "anchors": ["fca/algorithms/exploration_/exploration.py:24-46", "fca/algorithms/exploration_/exploration.py:50-60", "fca/algorithms/exploration_/exploration.py:68-133"]}
{"id": "C156", "title": "Positions of open implications may be any integers", "statement": "In BasicExploration, confirm_attribute_implication, confirm_object_implication and the two counter-example methods accept any integer as position: from -len to len-1 it denotes the element Python's lists have there, confirm moves exactly that implication to the end of the confirmed ones, outside it IndexError is raised and the exploration is unchanged; every history with such positions leads to a state of a history of the same calls with positions counted from the beginning.", "quantifier": "all states, all integers, all arguments, all histories", "why_tests_cant": "tests use position 0 of a few explorations; what negative or too large positions do after an arbitrary history, and that the append before the deletion never takes effect alone, is a statement about all states", "anchors": ["fca/algorithms/exploration.py:108-116", "fca/algorithms/exploration.py:118-162"]}
{"id": "C157", "title": "Explorations of exploration2 that share contexts", "statement": "For programs with any number of contexts, ExplorationContext, Exploration (exploration2) and session objects: a call changes only the context it adds an object to, the accepted implications of its own session, or the basis of the ExplorationContext a session is created on; an intent is checked only against the session whose basis the used ExplorationContext has; what a session has accepted holds in its context as long as it accepts its candidates and objects enter the context only checked against this session; the ExplorationContext made by the client itself never gets a basis, so add_object on it always raises AttributeError; with one exploration everything is as in C60. Sessions created after set_context with the same client object do not check what earlier sessions accepted.", "quantifier": "all programs (sequences of calls, raising ones included) on all collections of contexts", "why_tests_cant": "sharing of objects between explorations, copies made by the constructor and set_context, and interleavings of sessions are unbounded; tests use one exploration with one session", "anchors": ["fca/algorithms/exploration2/exploration.py:19-50", "fca/algorithms/exploration2/exploration.py:76-103", "fca/algorithms/exploration2/exploration.py:105-115"]}
{"id": "C158", "title": "dg_basis on set objects: same result as on values, nothing shared, nothing older changed", "statement": "generalized_compute_dg_basis changes its current set in place (`a -= ...`, `a.remove(m)`), makes it another name for `a_closed` and for what `close` returned, and `lin_closure` returns its argument object when there are no implications. Nevertheless: with simple_closure, lin_closure, or any closure function that changes no existing set and returns a new set or the very set it got, the implications returned are, read after the call, those computed on values; the sets of the returned implications are pairwise different objects that did not exist before the call; no set that existed before the call (background implications included) has changed. With a closure function that computes the right sets but hands out sets it keeps, this fails: a first call returns the basis and damages the kept sets, a second call on the same context never ends.", "quantifier": "all attribute lists, aclose functions (raising ones too), background implications, conditions, heaps, numbers of rounds; the last part is shown by one context", "why_tests_cant": "Sharing of set objects shows only for particular sequences of closures; a test compares values at the end and does not see which sets are shared.", "anchors": ["fca/algorithms/dg_basis.py:57-96", "fca/algorithms/closure_operators.py:74-86", "fca/algorithms/closure_operators.py:135-158", "fca/implication.py:28-34"]}
{"id": "C159", "title": "Several contexts in one program: which mutators reach other contexts, copy.deepcopy and copy.copy", "statement": "In a program that makes contexts with the constructor and copy.deepcopy, calls mutators on them (also ones that raise) and computes bases, every context at the end is what the calls on it alone would have made of it, and its getters answer from its own table. copy.deepcopy of a context returns one with the same names and table. copy.copy gives a context that holds the same lists and the same array: as long as only add_object, add_attribute and their variants are called, the contexts are independent all the same, and every mutator that returns detaches its context from all others; but rename_object on one replaces the name in the list of the other, whose dictionary keeps the old name; delete_object deletes the name from the other, which then raises ValueError in add_object and in copy.deepcopy; set_object_intent and set_attribute_extent change the table of the other, not its cross_table. After a basis computation get_object_intent of the shallow copy reads the table of the original, and for an object added to the copy it raises IndexError.", "quantifier": "all contexts, numbers of contexts and programs; the statements on shared lists hold for all contexts with distinct names and a table of their shape", "why_tests_cant": "What is shared depends on the history of both objects; a test would have to run every mutator on one context and check every attribute of all others.", "anchors": ["fca/context.py:97-108", "fca/context.py:201-249", "fca/context.py:263-266", "fca/context.py:330-354", "fca/context.py:361-431"]}
{"id": "C160", "title": "Factorisation with floating-point quotients", "statement": "algorithm2 and algorithm2_w_condition with quotients rounded to doubles, in any rounding mode: algorithm2 on a context with a cross ends after at most as many factors as crosses; each factor is a formal concept with a new cross, reported with the rounded fraction of its new crosses, and the run goes on exactly as long as the rounded fraction of the covered crosses is below the fidelity. With fidelity 1 and at most 2^53 crosses the factors cover every cross, and the run is the one with exact quotients, up to the rounding of the reported fractions; so is that of algorithm2_w_condition. With a double as fidelity the run is an initial part of the exact one, and the fraction covered in the end is greater than the double before the fidelity. The exact fraction may stay below the fidelity: with fidelity=0.2 the run on the identity on five objects ends with 1/5 of the crosses covered, which is less than the double 0.2. Fractions are reported with an error of at most 2^-53.", "quantifier": "all contexts, fidelities, tie-breaks and rounding modes (monotone, exact on doubles); the bounds on the number of crosses as stated", "why_tests_cant": "Whether a comparison of a quotient with the fidelity is affected by rounding depends on the numbers of crosses; tests with a few contexts see exact quotients.", "anchors": ["fca/algorithms/factors.py:67-110", "fca/algorithms/factors.py:168-247"]}
{"id": "C161", "title": "Indices of concepts with floating-point quotients", "statement": "With quotients rounded to doubles, in any rounding mode, compute_istability and compute_estability give every concept of a lattice its stability rounded once, and exactly if its extent (intent) has at most 53 elements; with 54 objects a stability less than 1 can be reported as 1. compute_separation_index gives the rounded index: positive, at most 1, and 1 only if the exact index is 1 (up to 2^53 crosses). compute_extent_size and compute_intent_size give rounded relative sizes, which compare exactly as the sizes do (up to 2^51 objects or attributes). filter_concepts in mode 'value' with a double as threshold keeps every concept whose exact index reaches the threshold, and besides only concepts whose index is rounded to the threshold; with stability and at most 53 objects it keeps exactly those that reach it.", "quantifier": "all contexts, iteration orders, thresholds and rounding modes (monotone, exact on doubles); the bounds on sizes as stated", "why_tests_cant": "Rounding changes an answer only for particular quotients and large extents.", "anchors": ["fca/algorithms/filtering/stability.py:16-97", "fca/algorithms/filtering/separation.py:8-28", "fca/algorithms/filtering/extentsize.py:3-10", "fca/algorithms/filtering/intentsize.py:3-10", "fca/algorithms/filtering/filter.py:28-31"]}
{"id": "C162", "title": "Generators of a pattern exploration, consumed while the exploration changes", "statement": "For a program that calls confirm_pattern, add_negative_example and add_positive_example between the steps of a generator: iterate_unexplained_examples does not raise, yields positive objects of the beginning in their order with their attributes, none of them explained at its step, and every object not yielded is explained in the end; iterate_examples yields the examples at the time of the call; iterate_positive_concepts goes through the concepts of the reduced positive context of the beginning and leaves out exactly those refuted at their step. If an honest expert is asked about every pattern yielded, the patterns confirmed are exactly the intents of the reduced positive context that the domain does not refute; iterate_new_objects with an expert that is itself a generator reading the contexts gives the same confirmed patterns as one that returns a list, and the loop ends if the domain has finitely many names. Every pattern supported by a positive object and not refuted by the domain should be found.", "quantifier": "all contexts, all sequences of calls between the steps (depending on everything seen), all honest experts and domains, all set iteration orders", "why_tests_cant": "The tests of patterns.py exhaust each generator at once with list(...) and use experts that return lists.", "anchors": ["fca/algorithms/patterns.py:88-93", "fca/algorithms/patterns.py:140-169", "fca/context.py:367-379"]}
{"id": "C163", "title": "Concept objects that change while they are in systems and lattices", "statement": "In a program with concept objects (extent, intent, meta data, changed at any time, also by compute_index), ConceptSystems and ConceptLattices that share them, parents(c) and children(c) always give the upper and lower neighbours of c by the present intents, for every c that is in the system. In particular this holds for a system from its creation, from an append or from a successful remove on, as long as its concepts do not change, whatever happens to other concepts, systems and lattices; and for a lattice whenever its concepts have the values they had when it was made; c is found exactly if a member agrees with it in hash and value.", "quantifier": "all programs (sequences of changes of concepts, creations, append, remove, parents, children, changes of the sets returned by parents and of lattice.concepts), all hash functions, any number of systems and lattices", "why_tests_cant": "The tests navigate in lattices right after they are made; they never attach an index before navigating or share concepts between systems.", "anchors": ["fca/concept.py:36-71", "fca/concept_system.py:69-110", "fca/concept_lattice.py:34-91", "fca/algorithms/filtering/filter.py:7-14"]}
{"id": "C164", "title": "An exploration depends on the accepted implications only through what follows from them; minimize on the base", "statement": "Two explorations that start with different lists of accepted implications with the same consequences (for example db.base and minimize(db.base)) go on alike: after any calls of confirm_implication with an open implication, add_example, edit_example, add_attribute, edit_attribute, delete_example, delete_attribute and touch they have the same context and the same open implications, and every call raises the same exception. The same holds for compute_dg_basis with simple_closure, and for the basis and complete of partial contexts. minimize(db.base) in the middle of an exploration changes the implication objects of the database, but nothing that can be observed through open implications.", "quantifier": "all contexts, lists of implications, histories of calls, set iteration orders; all conditions for the simple_closure variants", "why_tests_cant": "The tests never minimize the base of an exploration, and never compare explorations with different bases.", "anchors": ["fca/algorithms/exploration_/exploration.py:48-139", "fca/algorithms/implication_covers.py:144-158", "fca/algorithms/dg_basis.py:11-96", "fca/partial_context.py:85-119"]}
{"id": "C165", "title": "compute_probability in floating point: error and underflow", "statement": "With floating-point operations (+, -, *, /, math.log, math.exp, **) of relative accuracy u and absolute accuracy eta, compute_probability on a context with n > 0 objects and m attributes gives every concept of the lattice, in the order of the lattice, its probability of being closed up to an error of at most 33 n^2 (m+9)^2 (1 + log n) u + 3 (n+1) 2^n eta, as long as this bound is at most 1; for doubles and at most 100 objects and attributes the error is at most 10^-5. The call never raises and never gives a negative value, whatever the size. Without the bound on the size the values are not approximations: with one attribute that half of at least 1100 objects have, all summands underflow in exp, and the concept with all attributes gets 0 instead of 1.", "quantifier": "all contexts with an object, set iteration orders, floating-point libraries with the accuracy; the underflow for all contexts with one attribute of frequency 1/2 and at least 1100 objects", "why_tests_cant": "The function has no tests; a test on a few contexts cannot bound the rounding errors of all, and contexts of more than a thousand objects are not tried.", "anchors": ["fca/algorithms/filtering/probability.py:8-75"]}
{"id": "C166", "title": "Conditions of basis computations that use the context themselves", "statement": "get_attribute_implications(basis, confirmed, cond) calls cond(a) while the caches of basis_computation are installed on the context. A cond that asks the context for rows and columns and computes further bases of it (also ones that raise, if it catches the exception) changes nothing: the method returns what compute_dg_basis computes from the table with cond as a plain test, and the object is as before. Whatever cond does, once the outermost computation has returned every row and column is answered from the table as it is then. A cond that stands for an expert of a domain (it adds objects of the domain as counterexamples and answers True only if a implies its closure in the domain) gets only implications that hold in the domain and in the final context. Called as function compute_dg_basis this is so; called through the method the caches hide the added objects and the result can contain implications that the final context refutes.", "quantifier": "every context, every background list and closure function, every program cond built from reading the names and the table, asking for rows and columns, mutators, and nested decorated calls; every domain of intents and every expert for it", "why_tests_cant": "The caches are exercised only with the default cond; a test with one condition cannot show that no other nesting of calls leaves a stale answer behind.", "anchors": ["fca/context.py:97-110", "fca/context.py:292-297", "fca/algorithms/dg_basis.py:57-96", "fca/algorithms/closure_operators.py:8-35"]}
{"id": "C167", "title": "The implications of compute_implication_cover", "statement": "For a context with attributes compute_implication_cover returns, compared by ==, exactly the implications P -> P''\\P for the sets P of attributes that are not closed and whose P''\\P is contained in Q''\\Q for no proper subset Q of P; each of them once. So the set of implications does not depend on the order of the rows, nor on the order in which Python iterates over sets (hash seed); only the order in the list does. No list of valid implications that yields the closure of every set by one implication is shorter. Without attributes the result is the trivial implication alone.", "quantifier": "every context, with or without objects and attributes, every iteration order of sets in every round", "why_tests_cant": "The update removes and adds implications depending on the order of lists and sets; a run shows one order.", "anchors": ["fca/algorithms/implication_covers.py:12-28", "fca/algorithms/implication_covers.py:64-141"]}
{"id": "C168", "title": "Results do not depend on the hash seed", "statement": "Python iterates over sets in an order that depends on the hash seed of the process. For every two orders: set_object_intent and set_attribute_extent given a set leave the same context and raise the same exception; oprime, aprime, oclosure, aclosure give the same sets; lin_closure the same closure; compute_dg_basis and dg_basis_iter_simple the same implications in the same order, with any background implications and condition; PartialContext.complete the same tables and exception, its get_attribute_implications the same list; the stability, separation and probability indices the same values; NominalScale contexts that compare equal. The factors of algorithm2 (even how many there are), the text of write_fimi, and the kind of the exception of compute_dg_basis for a context without objects do depend on it.", "quantifier": "every context, every list of implications, condition and background, every pair of iteration orders (one for each set that is iterated over)", "why_tests_cant": "A test run has one hash seed; numpy-free tests use names whose order rarely changes.", "anchors": ["fca/context.py:388-401", "fca/context.py:433-489", "fca/implication.py:160-214", "fca/algorithms/dg_basis.py:11-150", "fca/partial_context.py:80-119", "fca/algorithms/filtering/stability.py:16-97", "fca/algorithms/filtering/separation.py:8-28", "fca/scale.py:31-54", "fca/algorithms/factors.py:67-110", "fca/readwrite/fimi.py:1-10"]}
{"id": "C169", "title": "A partial context without question marks is explored as a context", "statement": "For a PartialContext whose two tables are the table of a Context: xq_aclosure is the closure of the context; get_attribute_implications gives the same list as for the context; complete never changes a table and raises ValueError exactly if one of the implications does not hold in the context; add_object_with_intent((B, B), name) with a new name gives the PartialContext of the extended context. Hence an ExplorationDB over the PartialContext, driven through AttributeExploration (confirm_implications, reject_implication with complete examples, unconfirm_implication) in any order, goes through the same states, offers the same open implications and raises the same exceptions as one over the Context, as long as the implications confirmed are new and hold in the context, as the open ones always do. Confirming an implication that an object refutes, or one implication twice, makes a difference.", "quantifier": "every well-formed context, background, condition on premises, dialog of any length (also with calls that raise), every iteration order of sets", "why_tests_cant": "The tests of the partial exploration use other data than those of the plain one; the two databases are never driven in parallel.", "anchors": ["fca/partial_context.py:80-119", "fca/algorithms/dg_basis.py:11-97", "fca/algorithms/exploration_/exploration.py:24-83", "fca/algorithms/exploration_/exploration.py:147-191"]}
{"id": "C170", "title": "The course of an exploration does not depend on the iteration order of sets", "statement": "With at least one object in the context (names may even repeat, only the dimensions of the table have to fit), ExplorationDB is created with the same relative basis, every sequence of its calls (confirming and unconfirming implications, adding, editing and deleting examples and attributes) goes through the same states and raises the same exceptions, and the exploration loop of explorationtest.py asks the same questions and ends in the same state, whatever the orders in which Python iterates over the sets involved. The same holds for the database over a PartialContext, including complete, confirm_implications and reject_implication. Exceptions are part of the statement: unknown attribute names in the background give KeyError in every order. Without objects the kind of the exception can depend on the order (C168).", "quantifier": "every context and partial context with fitting dimensions and an object, every background, condition, history of calls (also with calls that raise), every pair of iteration orders", "why_tests_cant": "String hashing is randomised per process; a test sees one order per run and compares the final basis at most.", "anchors": ["fca/algorithms/exploration_/exploration.py:24-191", "fca/algorithms/exploration_/explorationtest.py:21-27", "fca/algorithms/dg_basis.py:11-97", "fca/algorithms/closure_operators.py:1-60"]}
{"id": "C171", "title": "What complete and compute_implication_cover print", "statement": "PartialContext.complete prints, for exactly those objects whose row has changed, in the order of the objects, four lines: the object, its row before, 'completed to ', its row after (X known, ? possible, . neither). This also holds if it raises ValueError: what has been printed is the difference between the partial context before and after. Nothing is printed exactly if nothing has changed, and a second call with the same implications prints nothing. compute_implication_cover prints two lines for every object, its number and the number of implications so far, which is the number of left-minimal sets of attributes for the objects up to this one.", "quantifier": "every well-formed partial context, list of implications, text of object names, iteration order of sets; every well-formed context with an attribute", "why_tests_cant": "Tests do not capture standard output.", "anchors": ["fca/partial_context.py:68-77", "fca/partial_context.py:98-119", "fca/algorithms/implication_covers.py:12-28"]}
{"id": "C172", "title": "Laws of the operations that make contexts from contexts", "statement": "Equations between results of the methods of Context, for every well-formed context: (1) extract_subcontext(A) followed by extract_subcontext(B) is extract_subcontext(B) when B is among A, raises ValueError when it is not, and extract_subcontext of all attributes is a copy. (2) extract_subcontext_filtered_by_attributes(B, mode) and extract_subcontext(A) can be exchanged when B is among A. (3) Filters commute and are idempotent, two filters in mode 'and' are one filter for both lists, a filter for no names keeps everything ('and') or nothing ('or'). (4) remove_empty_objects leaves what the filter for all attributes in mode 'or' gives, and doing it again changes nothing. (5) complementary of extract_subcontext(A) is extract_subcontext of complementary for the negated names; each object is kept either by the filter of the context for all (one) of A or by the filter of the complement for one (all) of the negated names, never by both. (6) clarify_objects is idempotent and commutes with filters and with complementary; clarifying before extract_subcontext and clarify_objects gives the same rows in the same order, but the names of the kept objects can differ. (7) The product is associative, its transpose is the product of the transposes in the other order, and extract_subcontext of a product is the product with extract_subcontext of the right factor (the factors having objects and attributes).", "quantifier": "all well-formed contexts, all lists of known attributes (without repetitions where they become attributes), both modes, all injective negations; for products all factors with matching names and with objects and attributes", "why_tests_cant": "each law compares two programs on every table; tests compare single operations with single expected tables", "anchors": ["fca/context.py:539-553", "fca/context.py:562-582", "fca/context.py:597-642", "fca/context.py:694-715", "fca/context.py:765-778", "fca/context.py:527-537"]}
{"id": "C173", "title": "What the covers, bases and explorations depend on", "statement": "Two contexts with the same attributes (their objects may differ in number and kind) have the same compute_implication_cover, up to the order of the list, exactly if they have the same intents; clarify_objects, reduce_objects and any other order of rows and columns therefore leave the cover as it is. The incremental bases of aibasis.compute_canonical_basis of two such contexts have the same consequences exactly if the intents are the same, and they are equal up to their order if list.sort leaves no set behind a proper superset; with list.sort of CPython they are not: exchanging two columns of a table changes the number of implications. A BasicExploration and a BasicPatternExploration take the same course, with the same exceptions, whatever the order in which Python traverses the sets given to their methods; iterate_positive_concepts yields the same list and iterate_examples the same examples up to their order.", "quantifier": "all well-formed contexts with the same attributes, with objects for the incremental basis; all iteration orders; all histories of calls of the explorations, for patterns with new names for new objects", "why_tests_cant": "dependence on the intents alone quantifies over pairs of tables of different shape, and independence from iteration orders over hash seeds; a test runs one table under one seed", "anchors": ["fca/algorithms/implication_covers.py:12-47", "fca/algorithms/aibasis.py:60-110", "fca/algorithms/exploration.py:108-218", "fca/algorithms/patterns.py:88-159"]}
{"id": "C174", "title": "What explorationtest.py checks, for every database and every history", "statement": "In every state of an ExplorationDB on a Context: confirm_implication of an open implication appends it to the base and removes exactly this one from the open implications. add_example with a new name raises IllegalContextModification without effect exactly if the set violates the base, otherwise it adds one object, and the open implications stay the same exactly if the given attributes are an intent. reject_implication of an open implication with one example raises NotCounterexample if the set respects the implication, IllegalContextModification if it violates the base, otherwise the example is added and the implication is not open any more; a counterexample equal to the premise is always accepted, premise and conclusion together never. Premise and conclusion of an open implication as an example change no open implication; the premise of a confirmed implication as an example is refused. After explore() with an expert who knows a list of implications the base is never longer than this list, and every question not confirmed has given one object.", "quantifier": "all contexts with objects, all backgrounds that hold and do not repeat themselves, all histories of calls in which only open implications are confirmed and edits use no name in use, all sets as examples, all new names, all iteration orders", "why_tests_cant": "the tests check one context with four objects and the first open implication; here all states, implications and examples are covered", "anchors": ["fca/algorithms/exploration_/exploration.py: ExplorationDB, AttributeExploration", "fca/algorithms/exploration_/explorationtest.py"]}
{"id": "C175", "title": "get_attribute_canonical_basis as a method, and what the caches of basis computations save and leave behind", "statement": "For every well-formed context without leftover caches get_attribute_canonical_basis() returns, or raises, what compute_canonical_basis computes from the table (with every outcome of mod_extra.sort), and when it returns the object is as before. During any method decorated with basis_computation, also one that asks, modifies or nests further computations, no row and no column is read twice from the table, so get_attribute_canonical_basis and get_attribute_implications read at most len(objects) rows and len(attributes) columns; called as functions the algorithms read rows more often. A decorated method that raises leaves its two caches on the object; get_attribute_canonical_basis raises IndexError for every context with attributes that was made of an empty table, and a row asked for after that is answered from the cache even when it has been changed since.", "quantifier": "all well-formed contexts, sort outcomes, conditions, and programs with mutators and nested basis computations", "why_tests_cant": "The number of reads of the table is not observable in results, programs nested in a computation and outcomes of an ill-defined sort cannot be enumerated.", "anchors": ["fca/context.py:68-84", "fca/context.py:97-110", "fca/context.py:281-285", "fca/algorithms/aibasis.py:11-21", "fca/algorithms/aibasis.py:35-92"]}
{"id": "C176", "title": "Intents given as frozensets, lists, pairs of sets or iterators", "statement": "Adding an object or attribute with a frozenset or a list does what adding it with the set of the elements does. An iterator over l gives True exactly for the longest initial part of the names of the context that is a sublist of l, which is the right row only if the names of l that belong to the context come first there and in the same order; a pair of sets gives an empty row. set_object_intent and set_attribute_extent accept all of these like sets, except a pair of sets, which raises TypeError and changes nothing. In BasicExploration every call with such an argument does what the same call with some set does or raises and changes nothing, so what C55 says for sets holds; in ExplorationDB and exploration2 the same is true except for objects added with pairs of sets. ExplorationDB.add_example rejects frozensets, lists and iterators with TypeError or IndexError as soon as there is background knowledge. A pair of sets is checked as a partial example and stored as an empty row, which can violate the background knowledge or accepted implications and can satisfy the implication it is to refute. add_negative_example with a pattern and an iterator stores an example without attributes; edit_attribute of ExplorationDB reads an iterator before using it, and edits as if it were empty unless it yields all objects in order.", "quantifier": "all contexts, argument kinds, states of the three explorations and the pattern exploration, and histories of calls", "why_tests_cant": "An argument of a wrong kind is often accepted without an exception and the stored row depends on the order of the names, so only sequences nobody writes down as a test show the difference.", "anchors": ["fca/context.py:380-401", "fca/implication.py:84-93", "fca/algorithms/exploration.py:118-218", "fca/algorithms/exploration_/exploration.py:62-133", "fca/algorithms/exploration_/exploration.py:175-185", "fca/algorithms/exploration2/exploration.py:46-74", "fca/algorithms/exploration2/exploration.py:99-103", "fca/algorithms/patterns.py:150-159"]}
{"id": "C177", "title": "Names given as tuples, strings or ranges, strings given as sets", "statement": "Context(table, objects, attributes) with names in a tuple, string or range makes the object made with lists of these names if they are distinct; equal names raise TypeError where equal names in a list are renamed. Such names stay for ever: adding or renaming objects then raises TypeError and changes nothing (attributes alike), and histories of the calls that ask for no such change go as for lists. delete_object raises TypeError too but the row is gone: objects before the deleted one keep their intents, each later one is answered with the intent of its successor, the last one raises IndexError, and every further mutator call in every history raises. The same happens for delete_attribute with columns, until no row is left. A product of contexts with the same names in a list and a tuple raises MultiplicationException. An object added with a string in place of the intent has the attributes whose names are substrings, which is the set of letters if all names are letters, and the single attribute of that name exactly if no other name is a substring; set_object_intent with a string raises KeyError without effect if a letter is no name. With names in strings get_value answers for a text of several letters as for its first letter where lists raise ValueError.", "quantifier": "all contexts, kinds of sequences, calls, histories and strings", "why_tests_cant": "The constructor takes any sequence silently; the difference shows only in later calls of some of the methods, and the state after the exception has to be compared with one nobody writes down.", "anchors": ["fca/context.py:201-249", "fca/context.py:356-359", "fca/context.py:361-431", "fca/context.py:694-701"]}
{"id": "C178", "title": "str2imp and the text of implications on the subclasses", "statement": "Implication.str2imp and NegativeImplication.str2imp return exactly for texts with one '=>', an object of the class they are called on whose sets are the parts between the commas without blanks around them; these sets are never empty; all other texts raise ValueError. UnitImplication.str2imp returns for no text: TypeError with one arrow, else ValueError. For every implication read from a text, reading its text again gives an equal implication exactly if some name of the conclusion is not in the premise or the empty name is in the premise, and the second and third readings are always equal. Implication.str2imp reads the text of UnitImplication(P, c), P not empty, as an implication equal to it if c is not in P; otherwise comparing the two raises AssertionError. The text of a NegativeImplication is read by NegativeImplication.str2imp as an equal one exactly if nothing of the conclusion is left beside the premise and the premise contains the name 'not ()'; with two names left, texts in opposite iteration orders are read as different implications.", "quantifier": "all texts, all implications over names without commas, '=>' and surrounding blanks, all iteration orders", "why_tests_cant": "str2imp is inherited, and only its use on Implication is tried by hand; which texts and names go wrong depends on every character.", "anchors": ["fca/implication.py: Implication.str2imp, __repr__", "fca/implication.py: UnitImplication.__init__", "fca/implication.py: NegativeImplication.__repr__"]}
{"id": "C179", "title": "How large the basis of a small context can be", "statement": "For every n >= 1 there is a context with 3n objects and 2n+1 attributes for which compute_dg_basis returns, in every iteration order and with either closure, exactly 2^n implications: their premises are the sets with one attribute of each of n pairs, their conclusions add the last attribute. No list of implications valid in this context from which all valid ones follow has fewer than 2^n members. The last attribute alone is responsible: without it the basis is empty, and add_attribute_with_extent with it gives the context with 2^n implications. An exploration without background that finishes with this context has confirmed at least 2^n implications; starting with it and confirming what is open, exactly 2^n.", "quantifier": "all n >= 1, iteration orders, both closures, lists of implications, histories of an exploration", "why_tests_cant": "That the output grows exponentially while the context grows linearly is a statement about all n; the lower bound for all lists of implications cannot be tried out at all.", "anchors": ["fca/algorithms/dg_basis.py: compute_dg_basis", "fca/context.py: add_attribute_with_extent", "fca/algorithms/exploration_/exploration.py: confirm_implication"]}
{"id": "C180", "title": "Lists of implications and contexts: realisation, fewest objects, shortest list", "statement": "Every list of implications over a list of attributes is the theory of a context: exactly its consequences hold there. A context has the theory L if and only if L holds in it and each set closed under L is separated from each attribute outside by an object; the context of all closed sets is one. In each context with the theory L every meet-irreducible closed set is the intent of an object, and the context with just these objects has the theory L, so no other has fewer objects. compute_dg_basis on a context with the theory L returns a list with the same consequences that is not longer than L, and contexts with theories L and L' over the same list of attributes have the same basis if and only if L and L' have the same consequences. The shortest list is found without a context: completing the conclusions with simple_closure and calling minimize leaves, up to == and order, the basis of every context with this theory.", "quantifier": "all lists of implications over the attributes, all contexts, iteration orders and both closures", "why_tests_cant": "The statements are about all contexts with a given theory and about all lists with the same consequences; tests have neither.", "anchors": ["fca/algorithms/dg_basis.py: compute_dg_basis", "fca/algorithms/implication_covers.py: minimize", "fca/algorithms/closure_operators.py: simple_closure"]}
{"id": "C181", "title": "How many examples an exploration needs", "statement": "After any history of calls of the exploration database that ends without open implications, every meet-irreducible closed set of the accepted theory is the intent of an object; so the number of add_example calls is at least the number of these sets minus the number of objects at the start, and if no attribute is added or edited, the number of add_example and edit_example calls is at least the number of irreducible closed sets that were not intents at the start. This bound is attained: an implication over the attributes that does not follow from the theory of the domain is refuted by an irreducible closed set, and if all examples are of this kind, each refuting an open implication, and only consequences are confirmed, then the finished exploration has accepted exactly the theory of the domain with exactly this number of add_example calls, in whatever order implications are considered. Such a history never makes more than 2**len(attributes) calls and, with enough names, can always be finished from wherever it is. The same lower bound on the rows added holds for the sessions of exploration2.py when the last session has no candidates, and in BasicExploration, when no attribute (object) implication is open and the confirmed ones hold, every irreducible closed set of the confirmed attribute (object) implications is the intent of an object (extent of an attribute).", "quantifier": "all contexts, theories, backgrounds, iteration orders and call histories of any length", "why_tests_cant": "The number of examples is compared with all possible histories of answers, and the attaining histories are those of any length in any order.", "anchors": ["fca/algorithms/exploration_/exploration.py: ExplorationDB.add_example", "fca/algorithms/exploration_/exploration.py: ExplorationDB.edit_example", "fca/algorithms/exploration_/exploration.py: ExplorationDB.confirm_implication"]}
{"id": "C182", "title": "How many concepts a list of implications leaves, and how much longer than the basis a cover can be", "statement": "If all implications of a context over n attributes follow from a list of implications, then norris returns at least 2**n minus the sum of 2**(n-len(P)) - 2**(n-len(P|C)) over the implications P -> C of the list, in particular for the list returned by compute_dg_basis; so a short basis with long premises means many concepts. compute_implication_cover can return exponentially more implications than compute_dg_basis: for every n there is a context with 3n objects and 2n+1 attributes whose basis has at most n+1 implications, while compute_implication_cover returns at least 2**n, in every iteration order, and minimize then leaves at most n+1 of them.", "quantifier": "all contexts, complete lists of implications, iteration orders and both closures; all n for the family", "why_tests_cant": "The bound compares all complete lists with the number of concepts, and the family is for all n; the exponential growth is out of reach of tests.", "anchors": ["fca/algorithms/norris.py: norris", "fca/algorithms/dg_basis.py: compute_dg_basis", "fca/algorithms/implication_covers.py: compute_implication_cover", "fca/algorithms/implication_covers.py: minimize"]}
