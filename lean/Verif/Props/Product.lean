/-
Property C138: the algebra of `*` for contexts (fca/context.py:694-701), and decompositions (fca/algorithms/factors.py).
-/
import Verif.Props.FactorTests
import Verif.Props.StabilitySum
import Verif.Props.Reduce

set_option linter.unusedSectionVars false

open Spec

namespace Ctx
variable {α β γ δ : Type} [DecidableEq α] [DecidableEq β] [DecidableEq γ] [DecidableEq δ] [PyName α] [PyName β] [PyName γ]
  [PyName δ]

omit [PyName α] [PyName β] in
/-- A context with an object is determined by its names and its incidence relation. -/
theorem WFw.ext_inc {c d : Ctx α β} (hc : c.WFw) (hd : d.WFw) (hne : c.objects ≠ []) (ho : c.objects = d.objects)
    (ha : c.attributes = d.attributes) (hi : ∀ o a, c.Inc o a ↔ d.Inc o a) : c = d := by
  have hrows : c.nd.rows = d.nd.rows := by
    rw [hc.rows_eq, hd.rows_eq, ho, ha]
    refine List.map_congr_left fun o _ => List.map_congr_left fun a _ => ?_
    rw [Bool.eq_iff_iff, hc.incB, hd.incB, hi]
  have hnn : c.nd.rows ≠ [] := by
    intro h0
    have := hc.nrows
    rw [h0] at this
    exact hne (List.length_eq_zero_iff.1 this.symm)
  have hcols : c.nd.cols = d.nd.cols := by rw [hc.shape hnn, hd.shape (hrows ▸ hnn), ha]
  obtain ⟨o1, a1, ⟨c1, r1⟩⟩ := c
  obtain ⟨o2, a2, ⟨c2, r2⟩⟩ := d
  simp only at ho ha hrows hcols
  subst ho ha hrows hcols
  rfl

/-- Products are associative: the two ways to multiply three contexts give the same context, or both raise
MultiplicationException. -/
theorem C138_associative {l : Ctx α β} {r : Ctx β γ} {s : Ctx γ δ} (hl : l.WFw) (hr : r.WFw) (hs : s.WFw)
    (hlo : l.objects ≠ []) (hro : r.objects ≠ []) (hra : r.attributes ≠ []) :
    (l.mul r >>= fun p => p.mul s) = (r.mul s >>= fun q => l.mul q) ∧
    ((l.mul r >>= fun p => p.mul s) = .error .multiplicationException ↔
      l.attributes ≠ r.objects ∨ r.attributes ≠ s.objects) ∧
    (l.attributes = r.objects → r.attributes = s.objects → ∃ p, (l.mul r >>= fun p => p.mul s) = .ok p ∧ p.WF ∧
      p.objects = l.objects ∧ p.attributes = s.attributes ∧ ∀ g m, p.Inc g m ↔ ∃ f e, l.Inc g f ∧ r.Inc f e ∧ s.Inc e m) := by
  by_cases h1 : l.attributes = r.objects
  · obtain ⟨p, p1, p2, p3, p4, p5⟩ := C08_mul_partial hl hr h1 hlo (h1 ▸ hro)
    by_cases h2 : r.attributes = s.objects
    · obtain ⟨q, q1, q2, q3, q4, q5⟩ := C08_mul_partial hr hs h2 hro hra
      obtain ⟨x, x1, x2, x3, x4, x5⟩ := C08_mul_partial p2.toWFw hs (p4.trans h2) (p3 ▸ hlo) (p4 ▸ hra)
      obtain ⟨y, y1, y2, y3, y4, y5⟩ := C08_mul_partial hl q2.toWFw (h1.trans q3.symm) hlo (h1 ▸ hro)
      rw [p1, q1, py_ok_bind, py_ok_bind, x1, y1]
      have hinc : ∀ g m, x.Inc g m ↔ ∃ f e, l.Inc g f ∧ r.Inc f e ∧ s.Inc e m := by
        intro g m
        rw [x5]
        constructor
        · rintro ⟨e, he, hs'⟩
          obtain ⟨f, hf, hf'⟩ := (p5 g e).1 he
          exact ⟨f, e, hf, hf', hs'⟩
        · rintro ⟨f, e, k1, k2, k3⟩
          exact ⟨e, (p5 g e).2 ⟨f, k1, k2⟩, k3⟩
      refine ⟨?_, ⟨(fun h => by cases h), (fun h => h.elim (fun h => absurd h1 h) (fun h => absurd h2 h))⟩, fun _ _ =>
        ⟨x, rfl, x2, x3.trans p3, x4, hinc⟩⟩
      congr 1
      refine WFw.ext_inc x2.toWFw y2.toWFw (by rw [x3, p3]; exact hlo) (by rw [x3, p3, y3]) (by rw [x4, y4, q4]) fun g m => ?_
      rw [hinc, y5]
      constructor
      · rintro ⟨f, e, k1, k2, k3⟩
        exact ⟨f, k1, (q5 f m).2 ⟨e, k2, k3⟩⟩
      · rintro ⟨f, k1, k2⟩
        obtain ⟨e, k3, k4⟩ := (q5 f m).1 k2
        exact ⟨f, e, k1, k3, k4⟩
    · have e1 : p.mul s = .error .multiplicationException := (C08_mul_rejects p s).2 (p4 ▸ h2)
      have e2 : r.mul s = .error .multiplicationException := (C08_mul_rejects r s).2 h2
      rw [p1, py_ok_bind, e1, e2]
      exact ⟨rfl, ⟨fun _ => Or.inr h2, fun _ => rfl⟩, fun _ h => absurd h h2⟩
  · have e1 : l.mul r = .error .multiplicationException := (C08_mul_rejects l r).2 h1
    rw [e1]
    refine ⟨?_, ⟨fun _ => Or.inl h1, fun _ => rfl⟩, fun h => absurd h h1⟩
    by_cases h2 : r.attributes = s.objects
    · obtain ⟨q, q1, q2, q3, q4, q5⟩ := C08_mul_partial hr hs h2 hro hra
      rw [q1, py_ok_bind, (C08_mul_rejects l q).2 (q3 ▸ h1)]
      rfl
    · rw [(C08_mul_rejects r s).2 h2]; rfl

/-- Transposing a product multiplies the transposed contexts in the other order. -/
theorem C138_transpose {l : Ctx α β} {r : Ctx β γ} (hl : l.WFw) (hr : r.WFw) (hm : l.attributes = r.objects)
    (hlo : l.objects ≠ []) (hlm : l.attributes ≠ []) (hra : r.attributes ≠ []) :
    ∃ p lt rt pt, l.mul r = .ok p ∧ p.transpose = .ok pt ∧ l.transpose = .ok lt ∧ r.transpose = .ok rt ∧
      rt.mul lt = .ok pt := by
  obtain ⟨p, p1, p2, p3, p4, p5⟩ := C08_mul_partial hl hr hm hlo hlm
  obtain ⟨pt, h1, -⟩ := p2.toWFw.transpose
  obtain ⟨ptw, pto, pta, pti⟩ := p2.toWFw.transpose_inc h1
  obtain ⟨lt, h2, -⟩ := hl.transpose
  obtain ⟨ltw, lto, lta, lti⟩ := hl.transpose_inc h2
  obtain ⟨rt, h3, -⟩ := hr.transpose
  obtain ⟨rtw, rto, rta, rti⟩ := hr.transpose_inc h3
  obtain ⟨q, q1, q2, q3, q4, q5⟩ := C08_mul_partial rtw.toWFw ltw.toWFw (by rw [rta, lto, hm]) (rto ▸ hra)
    (by rw [rta, ← hm]; exact hlm)
  refine ⟨p, lt, rt, pt, p1, h1, h2, h3, ?_⟩
  rw [q1]
  congr 1
  refine WFw.ext_inc q2.toWFw ptw.toWFw (by rw [q3, rto]; exact hra) (by rw [q3, rto, pto, p4]) (by rw [q4, lta, pta, p3])
    fun a o => ?_
  rw [q5, pti, p5]
  exact exists_congr fun f => by rw [rti, lti, and_comm]

/-- Multiplying by the context in which everything has exactly itself changes nothing, on both sides. -/
theorem C138_identity {c : Ctx α β} (h : c.WFw) (ho : c.objects ≠ []) (ha : c.attributes ≠ []) :
    ∃ (eo : Ctx α α) (ea : Ctx β β),
      make (c.objects.map fun x => c.objects.map fun y => decide (x = y)) c.objects c.objects = .ok eo ∧
      make (c.attributes.map fun x => c.attributes.map fun y => decide (x = y)) c.attributes c.attributes = .ok ea ∧
      eo.mul c = .ok c ∧ c.mul ea = .ok c := by
  obtain ⟨eo, e1, e2, -, e3⟩ := make_rel (objs := c.objects) (atts := c.objects) (fun x y => decide (x = y)) h.onodup h.onodup
  obtain ⟨ea, f1, f2, -, f3⟩ := make_rel (objs := c.attributes) (atts := c.attributes) (fun x y => decide (x = y)) h.anodup
    h.anodup
  refine ⟨eo, ea, e1, f1, ?_, ?_⟩
  · obtain ⟨p, p1, p2, p3, p4, p5⟩ := C08_mul_partial e2.toWFw h e3.atts (e3.objs ▸ ho) (e3.atts ▸ ho)
    rw [p1]
    congr 1
    refine WFw.ext_inc p2.toWFw h (by rw [p3, e3.objs]; exact ho) (by rw [p3, e3.objs]) p4 fun o a => ?_
    rw [p5]
    simp only [e3.inc, decide_eq_true_eq]
    constructor
    · rintro ⟨_, ⟨-, -, rfl⟩, hi⟩; exact hi
    · intro hi; exact ⟨o, ⟨hi.mem.1, hi.mem.1, rfl⟩, hi⟩
  · obtain ⟨p, p1, p2, p3, p4, p5⟩ := C08_mul_partial h f2.toWFw f3.objs.symm ho ha
    rw [p1]
    congr 1
    refine WFw.ext_inc p2.toWFw h (by rw [p3]; exact ho) p3 (by rw [p4, f3.atts]) fun o a => ?_
    rw [p5]
    simp only [f3.inc, decide_eq_true_eq]
    constructor
    · rintro ⟨_, hi, -, -, rfl⟩; exact hi
    · intro hi; exact ⟨a, hi, hi.mem.2, hi.mem.2, rfl⟩

/-- `make_factor_cxts` of concepts covering the crosses of a context decomposes it, with one middle element for each. -/
theorem C138_factors {φ : Type} [DecidableEq φ] [PyName φ] {c : Ctx α β} (hx : ∃ g m, c.Inc g m) (fname : ℕ → φ)
    (hf : Function.Injective fname) (ordO : ℕ → SetOrder α) (ordA : ℕ → SetOrder β) {cs : List (Concept α β)}
    (hcs : ∀ x ∈ cs, IsConcept c.G c.M c.Inc x.extent x.intent)
    (hcov : ∀ g m, c.Inc g m → ∃ x ∈ cs, g ∈ x.extent ∧ m ∈ x.intent) :
    ∃ l r p, makeFactorCxts fname ordO ordA cs = .ok (l, r) ∧ l.WF ∧ r.WF ∧ l.objects ≠ [] ∧ l.attributes ≠ [] ∧
      l.attributes.length = cs.length ∧ l.mul r = .ok p ∧ ∀ g m, p.Inc g m ↔ c.Inc g m := by
  have hne : ∃ x ∈ cs, x.extent ≠ ∅ := by
    obtain ⟨g, m, hgm⟩ := hx
    obtain ⟨x, hx, hg, -⟩ := hcov g m hgm
    exact ⟨x, hx, Finset.ne_empty_of_mem hg⟩
  obtain ⟨l, r, p, h1, h2, hl, hr, h3, h4, h5, h6⟩ := C49_factor_contexts fname hf ordO ordA cs hne
  obtain ⟨x, hx', hxe⟩ := hne
  obtain ⟨i, hi, he⟩ := List.getElem_of_mem hx'
  obtain ⟨g, hg⟩ := Finset.nonempty_iff_ne_empty.2 hxe
  have hI : l.Inc g (fname i) := ((h3 i x (by rw [List.getElem?_eq_getElem hi, he])).1 g).2 hg
  have hlen : l.attributes.length = cs.length := by
    unfold makeFactorCxts at h1
    simp only at h1
    generalize (if (indTable ([] : List α) _).2 = [] then [] else _ : List (List Bool)) = t at h1
    rcases hmk : make t (indTable ([] : List α) (cs.mapIdx fun i x => (ordO i).enum x.extent)).1
      ((List.range cs.length).map fname) with e | l'
    · rw [hmk] at h1; cases h1
    · rw [hmk, py_ok_bind] at h1
      have : l' = l := by
        revert h1
        generalize (make _ _ _ : Py (Ctx φ β)) = y
        intro h1
        rcases y with e | r' <;> cases h1
        rfl
      subst this
      unfold make at hmk
      split at hmk
      · cases hmk
      split at hmk
      · cases hmk
      rcases hn : Nd.ofLists t with e | t'
      · rw [hn] at hmk; cases hmk
      · rw [hn] at hmk; cases hmk
        simp [renameAll_length]
  refine ⟨l, r, p, h1, hl, hr, List.ne_nil_of_mem hI.mem.1, List.ne_nil_of_mem hI.mem.2, hlen, h2, fun g m => ?_⟩
  rw [h6]
  constructor
  · rintro ⟨y, hy, hg, hm⟩
    exact (((hcs y hy).1 m).1 hm).2 g hg
  · exact hcov g m

/-- Concepts are the best factors: the crosses of a context are those of a product with at most `k` middle elements if and
only if at most `k` of its concepts cover them. -/
theorem C138_decomposition {φ : Type} [DecidableEq φ] [PyName φ] [Infinite φ] {c : Ctx α β} (hx : ∃ g m, c.Inc g m) (k : ℕ) :
    (∃ (l : Ctx α φ) (r : Ctx φ β) (p : Ctx α β), l.WFw ∧ r.WFw ∧ l.objects ≠ [] ∧ l.attributes ≠ [] ∧ l.attributes.length ≤ k ∧
      l.mul r = .ok p ∧ ∀ g m, p.Inc g m ↔ c.Inc g m) ↔
    ∃ cs : List (Concept α β), cs.length ≤ k ∧ (∀ x ∈ cs, IsConcept c.G c.M c.Inc x.extent x.intent) ∧
      ∀ g m, c.Inc g m → ∃ x ∈ cs, g ∈ x.extent ∧ m ∈ x.intent := by
  constructor
  · rintro ⟨l, r, p, hl, hr, hlo, hla, hk, hp, hi⟩
    have hm : l.attributes = r.objects := by
      by_contra hc
      rw [(C08_mul_rejects l r).2 hc] at hp
      cases hp
    obtain ⟨q, q1, q2, q3, q4, q5⟩ := C08_mul_partial hl hr hm hlo hla
    rw [hp] at q1; cases q1
    classical
    have hex : ∀ f : φ, ∃ x : Concept α β, IsConcept c.G c.M c.Inc x.extent x.intent ∧ (∀ g ∈ c.G, l.Inc g f → g ∈ x.extent) ∧
        ∀ m ∈ c.M, r.Inc f m → m ∈ x.intent := by
      intro f
      obtain ⟨A, B, h1, h2, h3⟩ := exists_concept (G := c.G) (M := c.M) (I := c.Inc) (c.G.filter fun g => l.Inc g f)
        (Finset.filter_subset _ _)
      refine ⟨⟨A, B⟩, h1, fun g hg hgf => h2 (Finset.mem_filter.2 ⟨hg, hgf⟩), fun m hm' hfm => (h3 m).2 ⟨hm', fun g hg => ?_⟩⟩
      exact (hi g m).1 ((q5 g m).2 ⟨f, (Finset.mem_filter.1 hg).2, hfm⟩)
    choose x h1 h2 h3 using hex
    refine ⟨l.attributes.map x, by rw [List.length_map]; exact hk, ?_, fun g m hgm => ?_⟩
    · intro y hy
      obtain ⟨f, -, rfl⟩ := List.mem_map.1 hy
      exact h1 f
    · obtain ⟨f, k1, k2⟩ := (q5 g m).1 ((hi g m).2 hgm)
      exact ⟨x f, List.mem_map_of_mem k1.mem.2, h2 f g (List.mem_toFinset.2 hgm.mem.1) k1,
        h3 f m (List.mem_toFinset.2 hgm.mem.2) k2⟩
  · rintro ⟨cs, hk, hcs, hcov⟩
    obtain ⟨l, r, p, -, hl, hr, h1, h2, h3, h4, h5⟩ := C138_factors hx (Infinite.natEmbedding φ)
      (Infinite.natEmbedding φ).injective (fun _ => SetOrder.any α) (fun _ => SetOrder.any β) hcs hcov
    exact ⟨l, r, p, hl.toWFw, hr.toWFw, h1, h2, h3 ▸ hk, h4, h5⟩

end Ctx

section examples
open Ctx

def prL : Ctx (Fin 3) (Fin 2) := ⟨[0, 1, 2], [0, 1], ⟨some 2, [[true, false], [true, true], [false, true]]⟩⟩
def prR : Ctx (Fin 2) (Fin 3) := ⟨[0, 1], [0, 1, 2], ⟨some 3, [[true, true, false], [false, true, true]]⟩⟩
def prS : Ctx (Fin 3) (Fin 2) := ⟨[0, 1, 2], [1, 0], ⟨some 2, [[true, false], [false, false], [false, true]]⟩⟩
def prP : Ctx (Fin 3) (Fin 3) :=
  ⟨[0, 1, 2], [0, 1, 2], ⟨some 3, [[true, true, false], [true, true, true], [false, true, true]]⟩⟩

theorem prL_wf : prL.WFw := by constructor <;> decide +kernel
theorem prR_wf : prR.WFw := by constructor <;> decide +kernel
theorem prS_wf : prS.WFw := by constructor <;> decide +kernel
theorem prP_wf : prP.WFw := by constructor <;> decide +kernel

/-- Three contexts with a product. -/
example : ∃ p, (prL.mul prR >>= fun p => p.mul prS) = .ok p ∧ (prR.mul prS >>= fun q => prL.mul q) = .ok p ∧
    p.nd.rows = [[true, false], [true, true], [false, true]] := by
  obtain ⟨h1, -, h3⟩ := C138_associative prL_wf prR_wf prS_wf (by decide) (by decide) (by decide)
  obtain ⟨p, h4, -⟩ := h3 rfl rfl
  refine ⟨p, h4, h1 ▸ h4, ?_⟩
  have : (prL.mul prR >>= fun p => p.mul prS).map (fun p => p.nd.rows) =
    .ok [[true, false], [true, true], [false, true]] := by decide +kernel
  rw [h4] at this
  exact Except.ok.inj this

/-- The attributes of `prS` are 1, 0 and the objects of `prR` are 0, 1: `(prR * prS) * prR` does not exist. -/
example : (prR.mul prS >>= fun p => p.mul prR) = .error .multiplicationException := by decide +kernel

example : prL.mul prR = .ok prP ∧ ∃ lt rt pt, prP.transpose = .ok pt ∧ prL.transpose = .ok lt ∧ prR.transpose = .ok rt ∧
    rt.mul lt = .ok pt := by
  have h : prL.mul prR = .ok prP := by decide +kernel
  obtain ⟨p, lt, rt, pt, h1, h2⟩ := C138_transpose prL_wf prR_wf rfl (by decide) (by decide) (by decide)
  rw [h] at h1; cases h1
  exact ⟨h, lt, rt, pt, h2⟩

example : ∃ (eo ea : Ctx (Fin 3) (Fin 3)), eo.mul prP = .ok prP ∧ prP.mul ea = .ok prP := by
  obtain ⟨eo, ea, -, -, h⟩ := C138_identity prP_wf (by decide) (by decide)
  exact ⟨eo, ea, h⟩

/-- The seven crosses of `prP` are covered by two concepts and by no single one; so two middle elements are needed. -/
example : (∃ cs : List (Concept (Fin 3) (Fin 3)), cs.length ≤ 2 ∧
      (∀ x ∈ cs, IsConcept prP.G prP.M prP.Inc x.extent x.intent) ∧
      ∀ g m, prP.Inc g m → ∃ x ∈ cs, g ∈ x.extent ∧ m ∈ x.intent) ∧
    ¬∃ (l : Ctx (Fin 3) (List Char)) (r : Ctx (List Char) (Fin 3)) (p : Ctx (Fin 3) (Fin 3)), l.WFw ∧ r.WFw ∧ l.objects ≠ [] ∧
      l.attributes ≠ [] ∧ l.attributes.length ≤ 1 ∧ l.mul r = .ok p ∧ ∀ g m, p.Inc g m ↔ prP.Inc g m := by
  have hx : ∃ g m, prP.Inc g m := ⟨0, 0, by rw [← prP_wf.incB]; decide +kernel⟩
  constructor
  · refine ⟨[⟨{0, 1}, {0, 1}⟩, ⟨{1, 2}, {1, 2}⟩], by decide, ?_, ?_⟩
    · simp only [IsConcept, G, M, List.mem_toFinset, ← prP_wf.incB]
      decide +kernel
    · simp only [← prP_wf.incB]
      decide +kernel
  · rw [C138_decomposition hx]
    rintro ⟨cs, hk, hcs, hcov⟩
    obtain ⟨x, hxm, h1, h2⟩ := hcov 0 0 (by rw [← prP_wf.incB]; decide +kernel)
    obtain ⟨y, hym, h3, h4⟩ := hcov 2 2 (by rw [← prP_wf.incB]; decide +kernel)
    have : x = y := by
      rcases cs with _ | ⟨a, _ | ⟨b, t⟩⟩
      · cases hxm
      · simp only [List.mem_singleton] at hxm hym; rw [hxm, hym]
      · simp at hk
    subst this
    have := (((hcs x hxm).1 2).1 h4).2 0 h1
    rw [← prP_wf.incB] at this
    revert this
    decide +kernel

end examples
