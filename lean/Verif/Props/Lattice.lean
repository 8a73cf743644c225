/-
Properties C34-C40: Norris' algorithm, covering relation, lattices and concept systems.
-/
import Verif.Lemmas.Lattice
import Verif.Lemmas.ContextOps

set_option linter.unusedSectionVars false

variable {α β : Type} [DecidableEq α] [DecidableEq β]

open Spec

/-! ### C34 -/

/-- `norris` returns every formal concept of the context exactly once, and nothing else. -/
theorem C34_norris {c : Ctx α β} (h : c.WFw) :
    ∃ cs, norris c = .ok cs ∧ cs.Nodup ∧
      ∀ x, x ∈ cs ↔ IsConcept c.G c.M c.Inc x.extent x.intent := by
  obtain ⟨exs, tr, cs, -, -, h3, h4, -, -, h7, h8⟩ := norris_inv h
  exact ⟨cs, h3, h4.nodup.of_map, fun x => NInv.mem_iff h h7 h8 h4 x.extent x.intent⟩

/-! ### C35 -/

/-- After the `n`-th yield the consumer holds `n+1` concepts; their intents are intents of the
context and are those of the first `n+1` concepts of the final list; for some number `k` of objects
read so far, the concept just yielded has as extent those of the first `k` objects that have its
intent, and every concept held those of the first `k` or `k - 1`. At the end all extents are
complete. -/
theorem C35_iterator {c : Ctx α β} (h : c.WFw) :
    ∃ tr cs, iterNorris c = .ok (tr, cs) ∧ tr.length = cs.length ∧
      (∀ (n : ℕ) L, tr[n]? = some L → L.length = n + 1 ∧
        L.map Concept.intent = (cs.map Concept.intent).take (n + 1) ∧
        (∀ x ∈ L, IsIntent c.G c.M c.Inc x.intent) ∧
        ∃ k ≤ c.objects.length,
          (∀ x, L.getLast? = some x → ∀ g, g ∈ x.extent ↔ g ∈ c.objects.take k ∧ ∀ m ∈ x.intent, c.Inc g m) ∧
          ∀ x ∈ L, (∀ g, g ∈ x.extent ↔ g ∈ c.objects.take k ∧ ∀ m ∈ x.intent, c.Inc g m) ∨
            ∀ g, g ∈ x.extent ↔ g ∈ c.objects.take (k - 1) ∧ ∀ m ∈ x.intent, c.Inc g m) ∧
      ∀ x ∈ cs, ∀ g, g ∈ x.extent ↔ g ∈ c.objects ∧ ∀ m ∈ x.intent, c.Inc g m := by
  obtain ⟨exs, tr, cs, -, h2, -, h4, h5, h6, h7, h8⟩ := norris_inv h
  rw [Prod.mk.injEq] at h5
  obtain ⟨htr, hcs⟩ := h5
  have hmem : ∀ x ∈ cs, IsConcept c.G c.M c.Inc x.extent x.intent :=
    fun x hx => (NInv.mem_iff h h7 h8 h4 x.extent x.intent).1 hx
  obtain ⟨t1, t2⟩ := norrisLoop_trace (M := c.M) [] (c.objects.zip exs) [⟨∅, c.M⟩] (NInv.init _)
    (by rw [List.nil_append, h8]; exact h.onodup)
  rw [← hcs] at t1 t2
  have hintents : ∀ L : List (Concept α β), L.map Concept.intent <+: cs.map Concept.intent →
      ∀ x ∈ L, ∃ y ∈ cs, y.intent = x.intent := by
    intro L hL x hx
    have : x.intent ∈ cs.map Concept.intent := hL.subset (List.mem_map.2 ⟨x, hx, rfl⟩)
    obtain ⟨y, hy, he⟩ := List.mem_map.1 this
    exact ⟨y, hy, he⟩
  refine ⟨tr, cs, h2, by rw [htr, t1]; simp; omega, ?_, ?_⟩
  · intro n L hL
    rw [htr] at hL
    cases n with
    | zero =>
      simp only [List.getElem?_cons_zero, Option.some.injEq] at hL
      subst hL
      have hpre := norrisLoop_prefix [] (c.objects.zip exs) [(⟨∅, c.M⟩ : Concept α β)]
      rw [← hcs] at hpre
      refine ⟨rfl, ?_, ?_, 0, by omega, ?_, ?_⟩
      · have := List.prefix_iff_eq_take.1 hpre
        simpa using this
      · intro x hx
        obtain ⟨y, hy, he⟩ := hintents _ hpre x hx
        exact ⟨y.extent, he ▸ hmem y hy⟩
      · intro x hx g
        simp only [List.getLast?_singleton, Option.some.injEq] at hx
        subst hx; simp
      · intro x hx
        simp only [List.mem_singleton] at hx
        subst hx
        left; intro g; simp
    | succ n =>
      simp only [List.getElem?_cons_succ] at hL
      obtain ⟨l1, l2, P, p, Q, l3, l4, pre, x, l5, l6⟩ := t2 n L hL
      simp only [List.nil_append] at l3
      have l1' : L.length = n + 1 + 1 := by rw [l1]; simp; omega
      have hPlen : P.length + 1 ≤ c.objects.length := by
        have := congrArg List.length l3
        simp [h6] at this
        omega
      have hfst1 : (P ++ [p]).map Prod.fst = c.objects.take (P.length + 1) := by
        conv_rhs => rw [← h8, l3]
        simp [List.take_append]
      have hfst0 : P.map Prod.fst = c.objects.take P.length := by
        conv_rhs => rw [← h8, l3]
        simp
      have hsub1 : ∀ q ∈ P ++ [p], q ∈ c.objects.zip exs := by
        intro q hq
        rw [l3]; simp only [List.mem_append, List.mem_cons, List.not_mem_nil, or_false] at hq ⊢; tauto
      have hsub0 : ∀ q ∈ P, q ∈ c.objects.zip exs := fun q hq => hsub1 q (by simp [hq])
      have hBM : ∀ y ∈ L, y.intent ⊆ c.M := by
        intro y hy m hm
        obtain ⟨z, hz, he⟩ := hintents L l2 y hy
        exact (((hmem z hz).1 m).1 (he ▸ hm)).1
      refine ⟨l1', ?_, ?_, P.length + 1, hPlen, ?_, ?_⟩
      · have := List.prefix_iff_eq_take.1 l2
        rw [this]; simp [l1']
      · intro y hy
        obtain ⟨z, hz, he⟩ := hintents L l2 y hy
        exact ⟨z.extent, he ▸ hmem z hz⟩
      · intro y hy g
        rw [l5, List.getLast?_append] at hy
        simp only [List.getLast?_singleton, Option.some_or, Option.some.injEq] at hy
        subst hy
        rw [l6, nex_eq h h7 (hBM x (by rw [l5]; simp)) _ hsub1, hfst1]
      · intro y hy
        rcases l4 y hy with he | he
        · right; intro g
          rw [he, nex_eq h h7 (hBM y hy) _ hsub0, hfst0]; simp
        · left; intro g
          rw [he, nex_eq h h7 (hBM y hy) _ hsub1, hfst1]
  · intro x hx g
    rw [(hmem x hx).2 g]; simp

/-! ### C36 -/

/-- `compute_covering_relation` never raises; for every member of the list it has exactly the upper
neighbours, and no other keys. -/
theorem C36_covering (cs : List (Concept α β)) :
    ∃ P, coveringRelation cs = .ok P ∧
      (∀ c ∈ cs, ∃ S, dictGet P c = .ok S ∧ ∀ p, p ∈ S ↔ Covers Concept.intent cs p c) ∧
      ∀ c, c ∉ cs → dictGet P c = .error .keyError := by
  obtain ⟨P, h1, h2, h3⟩ := coveringRelation_ok cs
  refine ⟨P, h1, fun c hc => ?_, fun c hc => ?_⟩
  · obtain ⟨S, hS, hS'⟩ := h3 c hc
    exact ⟨S, by simp only [dictGet, hS], hS'⟩
  · simp only [dictGet, h2 c hc]

/-! ### C37 -/

/-- What the constructor of `ConceptLattice` computes. -/
theorem makeLattice_ok {c : Ctx α β} (h : c.WFw) :
    ∃ L, makeLattice c = .ok L ∧ L.context = c ∧ L.concepts.Nodup ∧ norris c = .ok L.concepts ∧
      (∀ x, x ∈ L.concepts ↔ IsConcept c.G c.M c.Inc x.extent x.intent) ∧
      coveringRelation L.concepts = .ok L.parents ∧
      csTop L.concepts = .ok L.top ∧ csBottom L.concepts = .ok L.bottom ∧ L.concepts ≠ [] := by
  obtain ⟨cs, h1, h2, h3⟩ := C34_norris h
  obtain ⟨P, h4, -⟩ := coveringRelation_ok cs
  have hne : cs ≠ [] := by
    have : (⟨c.G, c.upF c.G⟩ : Concept α β) ∈ cs := by
      rw [h3]
      refine ⟨fun m => ?_, fun g => ?_⟩
      · simp only; rw [h.mem_upF]; simp
      · simp only; constructor
        · intro hg; exact ⟨hg, fun m hm => (h.mem_upF.1 hm).2 g hg⟩
        · rintro ⟨hg, -⟩; exact hg
    exact List.ne_nil_of_mem this
  obtain ⟨t, ht, -⟩ := csTop_ok cs hne
  obtain ⟨b, hb, -⟩ := csBottom_ok cs hne
  exact ⟨⟨cs, P, b, t, c⟩, by simp only [makeLattice, h1, h4, hb, ht, py_ok_bind], rfl, h2, h1, h3, h4, ht, hb, hne⟩

/-- The top concept has all objects, the bottom concept all attributes, and every concept lies
between them. -/
theorem C37_top_bottom {c : Ctx α β} (h : c.WFw) :
    ∃ L, makeLattice c = .ok L ∧ L.top ∈ L.concepts ∧ L.bottom ∈ L.concepts ∧
      L.top.extent = c.G ∧ L.bottom.intent = c.M ∧
      ∀ x ∈ L.concepts, L.bottom.extent ⊆ x.extent ∧ x.extent ⊆ L.top.extent ∧
        L.top.intent ⊆ x.intent ∧ x.intent ⊆ L.bottom.intent := by
  obtain ⟨L, h1, -, h2, -, h3, h4, h5, h6, hne⟩ := makeLattice_ok h
  obtain ⟨t, ht, ht1, ht2⟩ := csTop_ok L.concepts hne
  obtain ⟨b, hb, hb1, hb2⟩ := csBottom_ok L.concepts hne
  rw [h5] at ht; cases ht
  rw [h6] at hb; cases hb
  have hG : (⟨c.G, c.upF c.G⟩ : Concept α β) ∈ L.concepts := by
    rw [h3]
    refine ⟨fun m => ?_, fun g => ?_⟩
    · simp only; rw [h.mem_upF]; simp
    · simp only; constructor
      · intro hg; exact ⟨hg, fun m hm => (h.mem_upF.1 hm).2 g hg⟩
      · rintro ⟨hg, -⟩; exact hg
  have hM : (⟨c.downF c.M, c.M⟩ : Concept α β) ∈ L.concepts := by
    rw [h3]
    refine ⟨fun m => ?_, fun g => ?_⟩
    · simp only; constructor
      · intro hg; exact ⟨hg, fun g' hg' => (h.mem_downF.1 hg').2 m hg⟩
      · rintro ⟨hg, -⟩; exact hg
    · simp only; rw [h.mem_downF]; simp
  have htc := (h3 _).1 ht1
  have hbc := (h3 _).1 hb1
  have htop : L.top.intent = c.upF c.G := by
    have hsub : c.upF c.G ⊆ L.top.intent := by
      intro m hm
      rw [htc.1 m]
      have := h.mem_upF.1 hm
      exact ⟨by simpa using this.1, fun g hg => this.2 g ((htc.2 g).1 hg).1⟩
    by_contra hne
    exact ht2 _ hG (Finset.ssubset_iff_subset_ne.2 ⟨hsub, fun he => hne he.symm⟩)
  have hbot : L.bottom.intent = c.M := by
    have hsub : L.bottom.intent ⊆ c.M := fun m hm => ((hbc.1 m).1 hm).1
    by_contra hne
    exact hb2 _ hM (Finset.ssubset_iff_subset_ne.2 ⟨hsub, hne⟩)
  have htopE : L.top.extent = c.G := by
    ext g
    rw [htc.2 g, htop]
    constructor
    · rintro ⟨hg, -⟩; exact hg
    · intro hg; exact ⟨hg, fun m hm => (h.mem_upF.1 hm).2 g hg⟩
  refine ⟨L, h1, ht1, hb1, htopE, hbot, fun x hx => ?_⟩
  have hxc := (h3 _).1 hx
  have hxM : x.intent ⊆ c.M := fun m hm => ((hxc.1 m).1 hm).1
  have hxG : x.extent ⊆ c.G := fun m hm => ((hxc.2 m).1 hm).1
  refine ⟨fun g hg => ?_, by rw [htopE]; exact hxG, fun m hm => ?_, by rw [hbot]; exact hxM⟩
  · rw [hbc.2 g, hbot] at hg
    exact (hxc.2 g).2 ⟨hg.1, fun m hm => hg.2 m (hxM hm)⟩
  · rw [htc.1 m, htopE] at hm
    exact (hxc.1 m).2 ⟨hm.1, fun g hg => hm.2 g (hxG hg)⟩

/-- Top and bottom of a `ConceptSystem` are members with minimal / maximal intent; on an empty
system IndexError is raised. -/
theorem C37_system (cs : List (Concept α β)) :
    (cs = [] → csTop cs = .error .indexError ∧ csBottom cs = .error .indexError) ∧
    (cs ≠ [] → ∃ t b, csTop cs = .ok t ∧ csBottom cs = .ok b ∧ t ∈ cs ∧ b ∈ cs ∧
      ∀ x ∈ cs, ¬ x.intent ⊂ t.intent ∧ ¬ b.intent ⊂ x.intent) := by
  constructor
  · rintro rfl; exact ⟨rfl, rfl⟩
  · intro hne
    obtain ⟨t, ht, ht1, ht2⟩ := csTop_ok cs hne
    obtain ⟨b, hb, hb1, hb2⟩ := csBottom_ok cs hne
    exact ⟨t, b, ht, hb, ht1, hb1, fun x hx => ⟨ht2 x hx, hb2 x hx⟩⟩

/-! ### C38 -/

/-- In a lattice, `parents` gives the upper neighbours, `children` is the inverse relation, and
`filter` / `ideal` are the strict up-set / down-set in the concept order. -/
theorem C38_parents_children {c : Ctx α β} (h : c.WFw) :
    ∃ L, makeLattice c = .ok L ∧
      (∀ x ∈ L.concepts, ∃ S T, L.parentsOf x = .ok S ∧ L.children x = .ok T ∧
        (∀ p, p ∈ S ↔ Covers Concept.intent L.concepts p x) ∧
        ∀ d, d ∈ T ↔ d ∈ L.concepts ∧ ∃ S', L.parentsOf d = .ok S' ∧ x ∈ S') ∧
      ∀ x ∈ L.concepts, ∀ y,
        (y ∈ csFilter L.concepts x ↔ y ∈ L.concepts ∧ x.extent ⊂ y.extent) ∧
        (y ∈ csIdeal L.concepts x ↔ y ∈ L.concepts ∧ y.extent ⊂ x.extent) := by
  obtain ⟨L, h1, -, h2, -, h3, h4, -⟩ := makeLattice_ok h
  obtain ⟨P, h5, -, h6⟩ := coveringRelation_ok L.concepts
  rw [h4] at h5; cases h5
  refine ⟨L, h1, fun x hx => ?_, ?_⟩
  · obtain ⟨S, hS, hS'⟩ := h6 x hx
    obtain ⟨T, hT, hT'⟩ := childrenOf_ok L.concepts L.parents h6 x
    refine ⟨S, T, by simp only [CLattice.parentsOf, dictGet, hS], hT, hS', fun d => ?_⟩
    rw [hT']
    constructor
    · rintro ⟨hd, hc⟩
      obtain ⟨S', hS1, hS2⟩ := h6 d hd
      exact ⟨hd, S', by simp only [CLattice.parentsOf, dictGet, hS1], (hS2 x).2 hc⟩
    · rintro ⟨hd, S', hS1, hxS⟩
      obtain ⟨S'', hS2, hS3⟩ := h6 d hd
      simp only [CLattice.parentsOf, dictGet, hS2, Except.ok.injEq] at hS1
      exact ⟨hd, (hS3 x).1 (hS1 ▸ hxS)⟩
  · have anti : ∀ x ∈ L.concepts, ∀ y ∈ L.concepts, x.extent ⊆ y.extent ↔ y.intent ⊆ x.intent := by
      intro x hx y hy
      have hxc := (h3 _).1 hx
      have hyc := (h3 _).1 hy
      constructor
      · intro hs m hm
        exact (hxc.1 m).2 ⟨((hyc.1 m).1 hm).1, fun g hg => ((hyc.1 m).1 hm).2 g (hs hg)⟩
      · intro hs g hg
        exact (hyc.2 g).2 ⟨((hxc.2 g).1 hg).1, fun m hm => ((hxc.2 g).1 hg).2 m (hs hm)⟩
    intro x hx y
    simp only [csFilter, csIdeal, List.mem_filter, decide_eq_true_eq]
    constructor
    · refine and_congr_right fun hy => ?_
      rw [Finset.ssubset_def, Finset.ssubset_def, anti x hx y hy, anti y hy x hx]
    · refine and_congr_right fun hy => ?_
      rw [Finset.ssubset_def, Finset.ssubset_def, anti x hx y hy, anti y hy x hx]

/-! ### C39 -/

/-- Without meta data the string is that of extent and intent; after `compute_index` the index follows it. -/
theorem conceptStr_exact (base : Concept α β → List Char) (fmt : Meta → List Char)
    (cs : List (Concept α β)) (idx : Concept α β → ℚ) (name : List Char) (x : Concept α β) (hx : x ∈ cs) :
    conceptStr base fmt x [] = base x ∧
    conceptStr base fmt x (computeIndex cs idx name (fun _ => []) x) =
      base x ++ (" meta: ".toList ++ fmt [(name, idx x)]) := by
  simp [conceptStr, computeIndex, hx]

/-- Attaching an index changes the string of every concept of the lattice. -/
theorem conceptStr_computeIndex (base : Concept α β → List Char) (fmt : Meta → List Char)
    (cs : List (Concept α β)) (idx : Concept α β → ℚ) (name : List Char) (x : Concept α β) (hx : x ∈ cs) :
    conceptStr base fmt x (computeIndex cs idx name (fun _ => []) x) ≠ conceptStr base fmt x [] := by
  simp [conceptStr, computeIndex, hx]

/-- C39 fails: after `compute_index` on a lattice whose concepts had no meta data, `parents` of every
concept, and `children` of everything, raises KeyError, unless the hashes of the two different
strings happen to collide. -/
theorem C39_navigation_violated {H : Type} [DecidableEq H] {c : Ctx α β} (h : c.WFw)
    (base : Concept α β → List Char) (fmt : Meta → List Char) (hash : List Char → H)
    (idx : Concept α β → ℚ) (name : List Char) :
    ∃ L, makeLattice c = .ok L ∧ L.concepts ≠ [] ∧
      ∀ metas, metas = computeIndex L.concepts idx name (fun _ => []) →
        (∀ x ∈ L.concepts, conceptStr base fmt x (metas x) ≠ conceptStr base fmt x []) ∧
        (∀ x ∈ L.concepts, conceptStr base fmt x [] = base x ∧
          conceptStr base fmt x (metas x) = base x ++ (" meta: ".toList ++ fmt [(name, idx x)])) ∧
        ((∀ x ∈ L.concepts, hash (conceptStr base fmt x (metas x)) ≠ hash (conceptStr base fmt x [])) →
          (∀ x ∈ L.concepts, L.parentsMeta (conceptStr base fmt) hash metas x = .error .keyError) ∧
          ∀ x, L.childrenMeta (conceptStr base fmt) hash metas x = .error .keyError) := by
  obtain ⟨L, h1, -, -, -, -, -, -, -, hne⟩ := makeLattice_ok h
  refine ⟨L, h1, hne, ?_⟩
  rintro metas rfl
  refine ⟨fun x hx => conceptStr_computeIndex base fmt _ idx name x hx,
    fun x hx => conceptStr_exact base fmt _ idx name x hx, fun hcol => ?_⟩
  have hp : ∀ x ∈ L.concepts, L.parentsMeta (conceptStr base fmt) hash
      (computeIndex L.concepts idx name (fun _ => [])) x = .error .keyError :=
    fun x hx => by unfold CLattice.parentsMeta; rw [if_neg (hcol x hx)]
  refine ⟨hp, fun x => ?_⟩
  unfold CLattice.childrenMeta childrenOf
  cases hcs : L.concepts with
  | nil => exact absurd hcs hne
  | cons y ys =>
    rw [hcs] at hp
    rw [List.filterMapM_cons, hp y (by simp), py_err_bind, py_err_bind, py_err_bind]

/-- What remains of C39: as long as no concept of the lattice carries meta data, navigation gives
the same answers as without. -/
theorem C39_navigation_partial {H : Type} [DecidableEq H] (L : CLattice α β)
    (str : Concept α β → Meta → List Char) (hash : List Char → H) (metas : Concept α β → Meta)
    (hm : ∀ x ∈ L.concepts, metas x = []) :
    (∀ x ∈ L.concepts, L.parentsMeta str hash metas x = L.parentsOf x) ∧
    ∀ x, L.childrenMeta str hash metas x = L.children x := by
  have hp : ∀ x ∈ L.concepts, L.parentsMeta str hash metas x = L.parentsOf x := by
    intro x hx; unfold CLattice.parentsMeta; rw [hm x hx, if_pos rfl]
  refine ⟨hp, fun x => ?_⟩
  unfold CLattice.childrenMeta CLattice.children childrenOf
  have : ∀ l : List (Concept α β), (∀ y ∈ l, y ∈ L.concepts) →
      (l.filterMapM fun d => do
        let S ← L.parentsMeta str hash metas d
        .ok (if x ∈ S then some d else none) : Py (List (Concept α β))) =
      (l.filterMapM fun d => do
        let S ← L.parentsOf d
        .ok (if x ∈ S then some d else none)) := by
    intro l
    induction l with
    | nil => intro _; rfl
    | cons y l ih =>
      intro hl
      rw [List.filterMapM_cons, List.filterMapM_cons, hp y (hl y (by simp)), ih fun z hz => hl z (by simp [hz])]
  rw [this _ fun y hy => hy]

/-! ### C40 -/

namespace CSys

/-- The list of concepts after a history, without any cache. -/
def listStep (l : List (Concept α β)) : Op α β → List (Concept α β)
  | .append c => l ++ [c]
  | .remove c => l.erase c
  | .parents _ => l
  | .children _ => l

/-- The cache, if any, is the covering relation of the current list. -/
def Good (s : CSys α β) : Prop := ∀ P, s.cache = some P → coveringRelation s.concepts = .ok P

theorem fill_ok (s : CSys α β) (h : s.Good) :
    ∃ P, coveringRelation s.concepts = .ok P ∧ s.fill = .ok (⟨s.concepts, some P⟩, P) := by
  obtain ⟨P, hP, -⟩ := coveringRelation_ok s.concepts
  refine ⟨P, hP, ?_⟩
  unfold fill
  cases hc : s.cache with
  | none => simp only [hP, py_ok_bind]
  | some Q =>
    have := h Q hc
    rw [hP] at this; cases this
    simp only [hP, py_ok_bind]
    split
    · rfl
    · cases s; simp only at hc; rw [hc]

theorem step_good (s : CSys α β) (h : s.Good) (op : Op α β) :
    (s.step op).Good ∧ (s.step op).concepts = listStep s.concepts op := by
  obtain ⟨P, hP, hf⟩ := fill_ok s h
  cases op with
  | append c => exact ⟨fun Q hQ => by simp [step, append] at hQ, rfl⟩
  | remove c =>
    simp only [step, remove, listStep]
    split
    · exact ⟨fun Q hQ => by simp at hQ, rfl⟩
    · next hc => exact ⟨h, (List.erase_of_not_mem hc).symm⟩
  | parents c =>
    simp only [step, parents, hf, listStep]
    exact ⟨fun Q hQ => by cases hQ; exact hP, trivial⟩
  | children c =>
    simp only [step, children, hf, listStep]
    split
    · exact ⟨h, rfl⟩
    · exact ⟨fun Q hQ => by cases hQ; exact hP, rfl⟩

/-- After any history the list of concepts is the expected one, `parents` gives the upper neighbours
in the current list (KeyError for concepts not in it), and `children` the lower ones. -/
theorem C40_histories (cs : List (Concept α β)) (ops : List (Op α β)) (s : CSys α β)
    (hs : s = ops.foldl step (CSys.make cs)) :
    s.concepts = ops.foldl listStep cs ∧
    (∀ c ∈ s.concepts, ∃ S, (s.parents c).2 = .ok S ∧ ∀ p, p ∈ S ↔ Covers Concept.intent s.concepts p c) ∧
    (∀ c, c ∉ s.concepts → (s.parents c).2 = .error .keyError) ∧
    ∀ c, ∃ S, (s.children c).2 = .ok S ∧
      ∀ d, d ∈ S ↔ d ∈ s.concepts ∧ Covers Concept.intent s.concepts c d := by
  have hinv : ∀ (ops : List (Op α β)) (s : CSys α β), s.Good →
      (ops.foldl step s).Good ∧ (ops.foldl step s).concepts = ops.foldl listStep s.concepts := by
    intro ops
    induction ops with
    | nil => intro s h; exact ⟨h, rfl⟩
    | cons op ops ih =>
      intro s h
      obtain ⟨h1, h2⟩ := step_good s h op
      simp only [List.foldl_cons]
      rw [← h2]
      exact ih _ h1
  have hg0 : (CSys.make cs).Good := fun P hP => by simp [CSys.make] at hP
  obtain ⟨hg, hl⟩ := hinv ops _ hg0
  rw [← hs] at hg hl
  obtain ⟨P, hP, hf⟩ := fill_ok s hg
  obtain ⟨Q, hQ, hQ1, hQ2⟩ := coveringRelation_ok s.concepts
  rw [hP] at hQ; cases hQ
  refine ⟨hl, fun c hc => ?_, fun c hc => ?_, fun c => ?_⟩
  · obtain ⟨S, hS, hS'⟩ := hQ2 c hc
    exact ⟨S, by simp only [parents, hf, dictGet, hS], hS'⟩
  · simp only [parents, hf, dictGet, hQ1 c hc]
  · unfold children
    cases hcs : s.concepts with
    | nil => exact ⟨∅, rfl, by simp⟩
    | cons y ys =>
      simp only [hf]
      have := childrenOf_ok s.concepts P hQ2 c
      rw [hcs] at this
      exact this

end CSys

/-! ### Concrete cases -/

/-- A context with three concepts besides the top. -/
def cxtL : Ctx (Fin 3) (Fin 3) :=
  ⟨[0, 1, 2], [0, 1, 2], ⟨some 3, [[true, true, false], [false, true, true], [true, false, true]]⟩⟩

theorem cxtL_wf : cxtL.WFw := by constructor <;> decide +kernel

example : (do
    let cs ← norris cxtL
    .ok (cs.length, cs.map fun x => (x.extent.card, x.intent.card)) : Py _) =
    .ok (8, [(0, 3), (1, 2), (1, 2), (2, 1), (1, 2), (2, 1), (2, 1), (3, 0)]) := by decide +kernel

/-- The hypotheses of `C39_navigation_violated` are met with the strings themselves as hashes. -/
example : ∃ L, makeLattice cxtL = .ok L ∧ ∃ x ∈ L.concepts,
    L.parentsMeta (conceptStr (fun _ => []) (fun _ => [])) id
      (computeIndex L.concepts (fun _ => 0) ['i'] (fun _ => [])) x = .error .keyError := by
  obtain ⟨L, h1, h2, h3⟩ := C39_navigation_violated cxtL_wf (fun _ => []) (fun _ => []) id (fun _ => 0) ['i']
  obtain ⟨x, hx⟩ := List.exists_mem_of_ne_nil _ h2
  exact ⟨L, h1, x, hx, ((h3 _ rfl).2.2 (h3 _ rfl).1).1 x hx⟩

/-- A history with a removal between two navigations. -/
example : ((([CSys.Op.parents ⟨{0}, {0, 1}⟩, .remove ⟨{0, 1}, {0}⟩].foldl CSys.step
      (CSys.make [⟨{0, 1, 2}, ∅⟩, ⟨{0, 1}, {0}⟩, ⟨{0}, {0, 1}⟩] : CSys (Fin 3) (Fin 3))).parents
      ⟨{0}, {0, 1}⟩).2) = .ok {⟨{0, 1, 2}, ∅⟩} := by decide +kernel


theorem lookup_map_set (m : Meta) (n name : List Char) (q : ℚ) :
    (m.map fun p => if p.1 = name then (name, q) else p).lookup n =
      if n = name then (if m.any (fun p => p.1 = name) then some q else none) else m.lookup n := by
  induction m with
  | nil => simp
  | cons p m ih =>
    obtain ⟨k, v⟩ := p
    rw [List.map_cons, List.any_cons]
    by_cases hk : k = name
    · subst hk
      rw [if_pos rfl, List.lookup_cons, List.lookup_cons, ih]
      by_cases hn : n = k
      · subst hn; simp
      · have : (n == k) = false := by simpa using hn
        simp [this, hn]
    · rw [if_neg hk, List.lookup_cons, List.lookup_cons, ih]
      by_cases hn : n = name
      · subst hn
        have : (n == k) = false := by simpa using fun h => hk h.symm
        simp only [Bool.or_eq_true, decide_eq_true_eq, hk, false_or]
        simp [this]
      · simp [hn]

/-- C86: `compute_index` stores the index of every concept of the lattice under the name, keeps the values under other names
and the meta data of other concepts; the keys stay pairwise distinct. -/
theorem C86_compute_index (cs : List (Concept α β)) (idx : Concept α β → ℚ) (name : List Char)
    (metas : Concept α β → Meta) (hk : ∀ c, ((metas c).map Prod.fst).Nodup) (c : Concept α β) :
    (c ∈ cs → (computeIndex cs idx name metas c).lookup name = some (idx c) ∧
      ∀ n, n ≠ name → (computeIndex cs idx name metas c).lookup n = (metas c).lookup n) ∧
    (c ∉ cs → computeIndex cs idx name metas c = metas c) ∧
    ((computeIndex cs idx name metas c).map Prod.fst).Nodup := by
  refine ⟨fun hc => ?_, fun hc => by simp [computeIndex, hc], ?_⟩
  · unfold computeIndex
    rw [if_pos hc]
    by_cases ha : ((metas c).any fun p => p.1 = name) = true
    · rw [if_pos ha]
      refine ⟨by rw [lookup_map_set, if_pos rfl, if_pos ha], fun n hn => by rw [lookup_map_set, if_neg hn]⟩
    · rw [if_neg ha]
      have hno : ∀ m : Meta, ¬ (m.any fun p => p.1 = name) = true → m.lookup name = none := by
        intro m hm
        induction m with
        | nil => rfl
        | cons p m ih =>
          simp only [List.any_cons, Bool.or_eq_true, decide_eq_true_eq, not_or] at hm
          have : (name == p.1) = false := by simpa using fun h => hm.1 h.symm
          rw [List.lookup_cons, this]
          exact ih hm.2
      have happ : ∀ (m : Meta) n, (m ++ [(name, idx c)]).lookup n = ((m.lookup n).or (List.lookup n [(name, idx c)])) := by
        intro m n
        induction m with
        | nil => simp
        | cons p m ih =>
          rw [List.cons_append, List.lookup_cons, List.lookup_cons, ih]
          cases n == p.1 <;> simp
      refine ⟨by rw [happ, hno _ ha]; simp, fun n hn => ?_⟩
      rw [happ]
      have : (n == name) = false := by simpa using hn
      simp [List.lookup_cons, this]
  · unfold computeIndex
    split
    · split
      · have : ((metas c).map fun p => if p.1 = name then (name, idx c) else p).map Prod.fst = (metas c).map Prod.fst := by
          rw [List.map_map]
          refine List.map_congr_left fun p _ => ?_
          simp only [Function.comp]
          split
          · rename_i h; exact h.symm
          · rfl
        rw [this]; exact hk c
      · rename_i hc ha
        rw [List.map_append, List.nodup_append]
        refine ⟨hk c, by simp, ?_⟩
        intro a hm b hb
        simp only [List.map_cons, List.map_nil, List.mem_singleton] at hb
        rintro rfl
        subst hb
        obtain ⟨p, hp, rfl⟩ := List.mem_map.1 hm
        exact ha (List.any_eq_true.2 ⟨p, hp, by simp⟩)
    · exact hk c

example : (computeIndex [⟨{0}, {1}⟩] (fun _ => 1/2) ['i'] (fun _ => [(['i'], 1), (['j'], 2)]) (⟨{0}, {1}⟩ : Concept (Fin 2) (Fin 2))) =
    [(['i'], 1/2), (['j'], 2)] := by decide +kernel
