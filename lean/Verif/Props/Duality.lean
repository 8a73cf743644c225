/-
C145: what is computed for the transposed context is the dual of what is computed for the context.
-/
import Verif.Props.Stability
import Verif.Props.Context
import Verif.Props.Reduce

set_option linter.unusedSectionVars false

open Spec

variable {α β : Type} [DecidableEq α] [DecidableEq β]

/-- The concept with extent and intent exchanged. -/
def Concept.dual (x : Concept α β) : Concept β α := ⟨x.intent, x.extent⟩

namespace Ctx

theorem dual_dual (x : Concept α β) : x.dual.dual = x := rfl

theorem dual_injective : Function.Injective (Concept.dual : Concept α β → Concept β α) := by
  intro x y h
  have := congrArg Concept.dual h
  exact this

theorem isConcept_dual {G : Finset α} {M : Finset β} {I : α → β → Prop} {A : Finset α} {B : Finset β} :
    IsConcept M G (fun a o => I o a) B A ↔ IsConcept G M I A B := by
  unfold IsConcept
  exact And.comm

theorem crossesTouching_dual {G : Finset α} {M : Finset β} {I : α → β → Prop} {A : Finset α} {B : Finset β} :
    crossesTouching M G (fun a o => I o a) B A = crossesTouching G M I A B := by
  classical
  unfold crossesTouching
  refine Finset.card_bij (fun p _ => (p.2, p.1)) ?_ ?_ ?_
  · intro p hp
    simp only [Finset.mem_filter, Finset.mem_product] at hp ⊢
    exact ⟨⟨hp.1.2, hp.1.1⟩, hp.2.1, hp.2.2.symm⟩
  · rintro ⟨a, b⟩ - ⟨c, d⟩ - h
    simp only [Prod.mk.injEq] at h ⊢
    exact ⟨h.2, h.1⟩
  · rintro ⟨o, a⟩ hp
    simp only [Finset.mem_filter, Finset.mem_product] at hp
    refine ⟨(a, o), ?_, rfl⟩
    simp only [Finset.mem_filter, Finset.mem_product]
    exact ⟨⟨hp.1.2, hp.1.1⟩, hp.2.1, hp.2.2.symm⟩

variable [PyName α] [PyName β]

/-- What is used of a transposed context. -/
structure Dual (c : Ctx α β) (d : Ctx β α) : Prop where
  wf : d.WFw
  objs : d.objects = c.attributes
  atts : d.attributes = c.objects
  inc : d.Inc = fun a o => c.Inc o a

theorem Dual.G {c : Ctx α β} {d : Ctx β α} (h : Dual c d) : d.G = c.M := by unfold Ctx.G Ctx.M; rw [h.objs]

theorem Dual.M {c : Ctx α β} {d : Ctx β α} (h : Dual c d) : d.M = c.G := by unfold Ctx.G Ctx.M; rw [h.atts]

theorem WFw.dual {c : Ctx α β} (h : c.WFw) {d : Ctx β α} (hd : c.transpose = .ok d) : Dual c d := by
  obtain ⟨h1, h2, h3, h4⟩ := h.transpose_inc hd
  exact ⟨h1.toWFw, h2, h3, by funext a o; exact propext (h4 a o)⟩

theorem Dual.concepts {c : Ctx α β} (h : c.WFw) {d : Ctx β α} (hd : Dual c d) {L : CLattice α β} {L' : CLattice β α}
    (hL : makeLattice c = .ok L) (hL' : makeLattice d = .ok L') (x : Concept α β) :
    x.dual ∈ L'.concepts ↔ x ∈ L.concepts := by
  obtain ⟨K, h1, -, -, -, h2, -⟩ := makeLattice_ok h
  obtain ⟨K', h1', -, -, -, h2', -⟩ := makeLattice_ok hd.wf
  rw [hL] at h1; cases h1
  rw [hL'] at h1'; cases h1'
  rw [h2, h2', hd.G, hd.M, hd.inc]
  exact isConcept_dual

/-- The concepts are exchanged, top and bottom with them. -/
theorem C145_concepts {c : Ctx α β} (h : c.WFw) {d : Ctx β α} (hd : c.transpose = .ok d) {L : CLattice α β}
    {L' : CLattice β α} (hL : makeLattice c = .ok L) (hL' : makeLattice d = .ok L') :
    L'.concepts.Perm (L.concepts.map Concept.dual) ∧ L'.top = L.bottom.dual ∧ L'.bottom = L.top.dual := by
  have hD := h.dual hd
  obtain ⟨K, h1, -, hn, -, h2, -⟩ := makeLattice_ok h
  obtain ⟨K', h1', -, hn', -, h2', -⟩ := makeLattice_ok hD.wf
  rw [hL] at h1; cases h1
  rw [hL'] at h1'; cases h1'
  obtain ⟨K, h1, t1, t2, t3, t4, -⟩ := C37_top_bottom h
  obtain ⟨K', h1', t1', t2', t3', t4', -⟩ := C37_top_bottom hD.wf
  rw [hL] at h1; cases h1
  rw [hL'] at h1'; cases h1'
  have hmem := hD.concepts h hL hL'
  have ext : ∀ x ∈ L.concepts, ∀ y ∈ L.concepts, x.extent = y.extent ∨ x.intent = y.intent → x = y := by
    intro x hx y hy he
    have ex := (h2 x).1 hx
    have ey := (h2 y).1 hy
    obtain ⟨xe, xi⟩ := x
    obtain ⟨ye, yi⟩ := y
    dsimp only at he ex ey ⊢
    rcases he with rfl | rfl
    · congr 1
      ext m
      rw [ex.1, ey.1]
    · congr 1
      ext g
      rw [ex.2, ey.2]
  refine ⟨(List.perm_ext_iff_of_nodup hn' (hn.map dual_injective)).2 ?_, ?_, ?_⟩
  · intro y
    rw [List.mem_map]
    constructor
    · intro hy
      exact ⟨y.dual, (hmem y.dual).1 hy, rfl⟩
    · rintro ⟨x, hx, rfl⟩
      exact (hmem x).2 hx
  · have hm : L'.top.dual ∈ L.concepts := (hmem _).1 t1'
    have := ext _ hm _ t2 (.inr (by rw [t4]; show L'.top.extent = _; rw [t3', hD.G]))
    rw [← this]; rfl
  · have hm : L'.bottom.dual ∈ L.concepts := (hmem _).1 t2'
    have := ext _ hm _ t1 (.inl (by rw [t3]; show L'.bottom.intent = _; rw [t4', hD.M]))
    rw [← this]; rfl

/-- Parents become children. -/
theorem C145_neighbours {c : Ctx α β} (h : c.WFw) {d : Ctx β α} (hd : c.transpose = .ok d) {L : CLattice α β}
    {L' : CLattice β α} (hL : makeLattice c = .ok L) (hL' : makeLattice d = .ok L') {x : Concept α β}
    (hx : x ∈ L.concepts) :
    ∃ S T S' T', L.parentsOf x = .ok S ∧ L.children x = .ok T ∧ L'.parentsOf x.dual = .ok S' ∧
      L'.children x.dual = .ok T' ∧ (∀ y, y.dual ∈ S' ↔ y ∈ T) ∧ ∀ y, y.dual ∈ T' ↔ y ∈ S := by
  have hD := h.dual hd
  have hmem := hD.concepts h hL hL'
  obtain ⟨K, h1, h2, -⟩ := C38_parents_children h
  obtain ⟨K', h1', h2', -⟩ := C38_parents_children hD.wf
  rw [hL] at h1; cases h1
  rw [hL'] at h1'; cases h1'
  obtain ⟨K, h1, -, -, -, hc, -⟩ := makeLattice_ok h
  rw [hL] at h1; cases h1
  obtain ⟨S, T, p1, p2, p3, p4⟩ := h2 x hx
  obtain ⟨S', T', q1, q2, q3, q4⟩ := h2' x.dual ((hmem x).2 hx)
  have mono : ∀ y ∈ L.concepts, ∀ z ∈ L.concepts, (y.intent ⊆ z.intent ↔ z.extent ⊆ y.extent) := by
    intro y hy z hz
    have ey := (hc y).1 hy
    have ez := (hc z).1 hz
    constructor
    · intro hs g hg
      rw [ey.2]
      exact ⟨((ez.2 g).1 hg).1, fun m hm => ((ez.2 g).1 hg).2 m (hs hm)⟩
    · intro hs m hm
      rw [ez.1]
      exact ⟨((ey.1 m).1 hm).1, fun g hg => ((ey.1 m).1 hm).2 g (hs hg)⟩
  have mono' : ∀ y ∈ L.concepts, ∀ z ∈ L.concepts, (y.intent ⊂ z.intent ↔ z.extent ⊂ y.extent) := by
    intro y hy z hz
    rw [Finset.ssubset_def, Finset.ssubset_def, mono y hy z hz, mono z hz y hy]
  have cov : ∀ y z, z ∈ L.concepts → (Covers Concept.intent L'.concepts y.dual z.dual ↔
      z ∈ L.concepts ∧ y ∈ L.concepts ∧ Covers Concept.intent L.concepts z y) := by
    intro y z hz
    constructor
    · intro hcv
      obtain ⟨a1, a2, a3⟩ := hcv
      have hy := (hmem y).1 a1
      refine ⟨hz, hy, hz, (mono' z hz y hy).2 a2, ?_⟩
      rintro ⟨k, hk, hb⟩
      refine a3 ⟨k.dual, (hmem k).2 hk, ?_, ?_⟩
      · exact (mono' k hk y hy).1 hb.2
      · exact (mono' z hz k hk).1 hb.1
    · rintro ⟨-, hy, hcv⟩
      obtain ⟨a1, a2, a3⟩ := hcv
      refine ⟨(hmem y).2 hy, (mono' z hz y hy).1 a2, ?_⟩
      rintro ⟨k, hk, hb⟩
      have hk' := (hmem k.dual).1 hk
      refine a3 ⟨k.dual, hk', ?_, ?_⟩
      · exact (mono' z hz k.dual hk').2 hb.2
      · exact (mono' k.dual hk' y hy).2 hb.1
  have par : ∀ z ∈ L.concepts, ∀ y, (∃ S, L.parentsOf z = .ok S ∧ y ∈ S) ↔ Covers Concept.intent L.concepts y z := by
    intro z hz y
    obtain ⟨S, T, p1, -, p3, -⟩ := h2 z hz
    rw [← p3 y]
    constructor
    · rintro ⟨S₂, e1, e2⟩
      rw [p1] at e1; cases e1
      exact e2
    · intro hy; exact ⟨S, p1, hy⟩
  have par' : ∀ z ∈ L.concepts, ∀ y, (∃ S, L'.parentsOf z.dual = .ok S ∧ y ∈ S) ↔
      Covers Concept.intent L'.concepts y z.dual := by
    intro z hz y
    obtain ⟨S, T, p1, -, p3, -⟩ := h2' z.dual ((hmem z).2 hz)
    rw [← p3 y]
    constructor
    · rintro ⟨S₂, e1, e2⟩
      rw [p1] at e1; cases e1
      exact e2
    · intro hy; exact ⟨S, p1, hy⟩
  refine ⟨S, T, S', T', p1, p2, q1, q2, fun y => ?_, fun y => ?_⟩
  · rw [q3, cov y x hx, p4]
    constructor
    · rintro ⟨-, hy, hcv⟩
      exact ⟨hy, (par y hy x).2 hcv⟩
    · rintro ⟨hy, hcv⟩
      exact ⟨hx, hy, (par y hy x).1 hcv⟩
  · rw [q4, p3]
    constructor
    · rintro ⟨hy, hcv⟩
      have hy' := (hmem y).1 hy
      exact ((cov x y hy').1 ((par' y hy' x.dual).1 hcv)).2.2
    · intro hcv
      have hy : y ∈ L.concepts := hcv.1
      exact ⟨(hmem y).2 hy, (par' y hy x.dual).2 ((cov x y hy).2 ⟨hy, hx, hcv⟩)⟩

/-- Intensional and extensional stability are exchanged. -/
theorem C145_stability {c : Ctx α β} (h : c.WFw) {d : Ctx β α} (hd : c.transpose = .ok d) {L : CLattice α β}
    {L' : CLattice β α} (hL : makeLattice c = .ok L) (hL' : makeLattice d = .ok L')
    (ord : ℕ → SetOrder (Concept α β)) (ord' : ℕ → SetOrder (Concept β α)) :
    ∃ i e i' e', istability ord L.concepts = some (.ok i) ∧ estability ord L.concepts = some (.ok e) ∧
      istability ord' L'.concepts = some (.ok i') ∧ estability ord' L'.concepts = some (.ok e') ∧
      ∀ x, i' x.dual = e x ∧ e' x.dual = i x := by
  have hD := h.dual hd
  have hmem := hD.concepts h hL hL'
  obtain ⟨K, i, h1, a1, a2, a3⟩ := C41_istability h ord
  rw [hL] at h1; cases h1
  obtain ⟨K, e, h1, b1, b2, b3⟩ := C42_estability h ord
  rw [hL] at h1; cases h1
  obtain ⟨K, i', h1, c1, c2, c3⟩ := C41_istability hD.wf ord'
  rw [hL'] at h1; cases h1
  obtain ⟨K, e', h1, d1, d2, d3⟩ := C42_estability hD.wf ord'
  rw [hL'] at h1; cases h1
  refine ⟨i, e, i', e', a1, b1, c1, d1, fun x => ?_⟩
  by_cases hx : x ∈ L.concepts
  · rw [a2 x hx, b2 x hx, c2 _ ((hmem x).2 hx), d2 _ ((hmem x).2 hx), hD.M, hD.G, hD.inc]
    exact ⟨rfl, rfl⟩
  · have hx' : x.dual ∉ L'.concepts := fun hx' => hx ((hmem x).1 hx')
    rw [a3 x hx, b3 x hx, c3 _ hx', d3 _ hx']
    exact ⟨rfl, rfl⟩

/-- Extent size and intent size are exchanged. -/
theorem C145_sizes {c : Ctx α β} (h : c.WFw) {d : Ctx β α} (hd : c.transpose = .ok d) {L : CLattice α β}
    {L' : CLattice β α} (hL : makeLattice c = .ok L) (hL' : makeLattice d = .ok L')
    (ho : c.objects ≠ []) (ha : c.attributes ≠ []) :
    ∃ es is es' is', extentSize c L.concepts = .ok es ∧ intentSize c L.concepts = .ok is ∧
      extentSize d L'.concepts = .ok es' ∧ intentSize d L'.concepts = .ok is' ∧
      ∀ x q, ((x.dual, q) ∈ es' ↔ (x, q) ∈ is) ∧ ((x.dual, q) ∈ is' ↔ (x, q) ∈ es) := by
  have hD := h.dual hd
  have hmem := hD.concepts h hL hL'
  obtain ⟨K, h1, -, -, e1, i1⟩ := C44_sizes h
  rw [hL] at h1; cases h1
  obtain ⟨K, h1, -, -, e2, i2⟩ := C44_sizes hD.wf
  rw [hL'] at h1; cases h1
  obtain ⟨es, a1, a2, a3, -⟩ := e1 ho
  obtain ⟨is, b1, b2, b3, -⟩ := i1 ha
  obtain ⟨es', c1, c2, c3, -⟩ := e2 (by rw [hD.objs]; exact ha)
  obtain ⟨is', d1, d2, d3, -⟩ := i2 (by rw [hD.atts]; exact ho)
  have key : ∀ {γ δ : Type} {l : List (Concept γ δ × ℚ)} {cs : List (Concept γ δ)} {f : Concept γ δ → ℚ},
      l.map Prod.fst = cs → (∀ x q, (x, q) ∈ l → q = f x) → ∀ x q, (x, q) ∈ l ↔ x ∈ cs ∧ q = f x := by
    intro γ δ l cs f hl hf x q
    constructor
    · intro hm
      exact ⟨hl ▸ List.mem_map.2 ⟨_, hm, rfl⟩, hf x q hm⟩
    · rintro ⟨hx, rfl⟩
      rw [← hl] at hx
      obtain ⟨⟨y, r⟩, hm, rfl⟩ := List.mem_map.1 hx
      rw [← hf y r hm]
      exact hm
  refine ⟨es, is, es', is', a1, b1, c1, d1, fun x q => ⟨?_, ?_⟩⟩
  · rw [key c2 (fun x q hm => (c3 x q hm).1), key b2 (fun x q hm => (b3 x q hm).1), hmem, hD.G]
    rfl
  · rw [key d2 (fun x q hm => (d3 x q hm).1), key a2 (fun x q hm => (a3 x q hm).1), hmem, hD.M]
    rfl

/-- The separation index does not change. -/
theorem C145_separation {c : Ctx α β} (h : c.WFw) {d : Ctx β α} (hd : c.transpose = .ok d) {L : CLattice α β}
    {L' : CLattice β α} (hL : makeLattice c = .ok L) (hL' : makeLattice d = .ok L')
    (ho : c.objects ≠ []) (ha : c.attributes ≠ []) (ordO : SetOrder α) (ordA : SetOrder β) :
    ∃ s s', separation c ordO ordA L.concepts = .ok s ∧ separation d ordA ordO L'.concepts = .ok s' ∧
      ∀ x q, (x.dual, q) ∈ s' ↔ (x, q) ∈ s := by
  have hD := h.dual hd
  have hmem := hD.concepts h hL hL'
  obtain ⟨K, s, h1, a1, a2, a3⟩ := C43_separation_partial h (.inl ho) ordO ordA
  rw [hL] at h1; cases h1
  obtain ⟨K, s', h1, b1, b2, b3⟩ := C43_separation_partial hD.wf (.inl (by rw [hD.objs]; exact ha)) ordA ordO
  rw [hL'] at h1; cases h1
  refine ⟨s, s', a1, b1, fun x q => ?_⟩
  have hq : ∀ x ∈ L.concepts, ∃ q, (x, q) ∈ s := by
    intro x hx
    rw [← a2] at hx
    obtain ⟨⟨y, r⟩, hm, rfl⟩ := List.mem_map.1 hx
    exact ⟨r, hm⟩
  have hq' : ∀ x ∈ L'.concepts, ∃ q, (x, q) ∈ s' := by
    intro x hx
    rw [← b2] at hx
    obtain ⟨⟨y, r⟩, hm, rfl⟩ := List.mem_map.1 hx
    exact ⟨r, hm⟩
  have hval : ∀ q r, (x, q) ∈ s → (x.dual, r) ∈ s' → q = r := by
    intro q r h1 h2
    rw [(a3 x q h1).1, (b3 _ r h2).1, hD.G, hD.M, hD.inc, crossesTouching_dual]
    show (if x.extent = ∅ ∨ x.intent = ∅ then (1 : ℚ) else _) = if x.intent = ∅ ∨ x.extent = ∅ then 1 else
      ((x.intent.card * x.extent.card : ℕ) : ℚ) / _
    simp only [or_comm, Nat.mul_comm]
    rfl
  constructor
  · intro hm
    have hx : x ∈ L.concepts := (hmem x).1 (b2 ▸ List.mem_map.2 ⟨_, hm, rfl⟩)
    obtain ⟨r, hr⟩ := hq x hx
    rwa [← hval r q hr hm]
  · intro hm
    have hx : x ∈ L.concepts := a2 ▸ List.mem_map.2 ⟨_, hm, rfl⟩
    obtain ⟨r, hr⟩ := hq' _ ((hmem x).2 hx)
    rwa [hval q r hm hr]

/-! ### A case -/

/-- Two objects, three attributes; the lattice is a chain of three concepts. -/
def dualW : Ctx (Fin 2) (Fin 3) := ⟨[0, 1], [0, 1, 2], ⟨some 3, [[true, true, false], [false, true, false]]⟩⟩

/-- Its transpose. -/
def dualT : Ctx (Fin 3) (Fin 2) :=
  ⟨[0, 1, 2], [0, 1], ⟨some 2, [[true, false], [true, true], [false, false]]⟩⟩

theorem dualW_wf : dualW.WFw := by constructor <;> decide +kernel

example : dualW.transpose = .ok dualT := by decide +kernel

example : (makeLattice dualW).map (fun L => (L.concepts, L.top, L.bottom)) =
    .ok ([⟨∅, {0, 1, 2}⟩, ⟨{0}, {0, 1}⟩, ⟨{0, 1}, {1}⟩], ⟨{0, 1}, {1}⟩, ⟨∅, {0, 1, 2}⟩) := by decide +kernel

example : (makeLattice dualT).map (fun L => (L.top, L.bottom)) =
    .ok (⟨{0, 1, 2}, ∅⟩, ⟨{1}, {0, 1}⟩) := by decide +kernel

example : ∃ L L', makeLattice dualW = .ok L ∧ makeLattice dualT = .ok L' ∧
    L'.concepts.Perm (L.concepts.map Concept.dual) ∧ L'.top = L.bottom.dual ∧ L'.bottom = L.top.dual ∧
    ∃ s s', separation dualW (SetOrder.fin 2) (SetOrder.fin 3) L.concepts = .ok s ∧
      separation dualT (SetOrder.fin 3) (SetOrder.fin 2) L'.concepts = .ok s' ∧
      ∀ x q, (x.dual, q) ∈ s' ↔ (x, q) ∈ s := by
  have ht : dualW.transpose = .ok dualT := by decide +kernel
  obtain ⟨L, hL, -⟩ := makeLattice_ok dualW_wf
  obtain ⟨L', hL', -⟩ := makeLattice_ok (dualW_wf.dual ht).wf
  obtain ⟨h1, h2, h3⟩ := C145_concepts dualW_wf ht hL hL'
  exact ⟨L, L', hL, hL', h1, h2, h3, C145_separation dualW_wf ht hL hL' (by decide) (by decide) _ _⟩

end Ctx
