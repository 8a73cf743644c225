/-
C124: what tests/algorithms/test_factors.py checks for random contexts, for all contexts.
-/
import Verif.Props.Factors
import Verif.Props.Equality
import Verif.Props.Reduce
import Verif.Props.Derived

set_option linter.unusedSectionVars false

open Spec

namespace Ctx

variable {α β φ : Type} [DecidableEq α] [DecidableEq β] [DecidableEq φ] [PyName α] [PyName β] [PyName φ]

/-- The product of the two factor contexts is a context whose objects and attributes are those of the factors. -/
theorem factor_product (fname : ℕ → φ) (hf : Function.Injective fname) (ordO : ℕ → SetOrder α) (ordA : ℕ → SetOrder β)
    (fs : List (Concept α β)) (hne : ∃ x ∈ fs, x.extent ≠ ∅) :
    ∃ l r p, makeFactorCxts fname ordO ordA fs = .ok (l, r) ∧ l.mul r = .ok p ∧ p.WFw ∧
      (∀ g, g ∈ p.objects ↔ ∃ x ∈ fs, g ∈ x.extent) ∧ (∀ m, m ∈ p.attributes ↔ ∃ x ∈ fs, m ∈ x.intent) ∧
      ∀ g m, p.Inc g m ↔ ∃ x ∈ fs, g ∈ x.extent ∧ m ∈ x.intent := by
  obtain ⟨l, r, p, h1, h2, hl, hr, h3, h4, h5, h6⟩ := C49_factor_contexts fname hf ordO ordA fs hne
  refine ⟨l, r, p, h1, h2, ?_, h4, h5, h6⟩
  obtain ⟨x, hx, hxe⟩ := hne
  obtain ⟨i, hi, he⟩ := List.getElem_of_mem hx
  obtain ⟨g, hg⟩ := Finset.nonempty_iff_ne_empty.2 hxe
  have hI : l.Inc g (fname i) := ((h3 i x (by rw [List.getElem?_eq_getElem hi, he])).1 g).2 hg
  have hm : l.attributes = r.objects := by
    by_contra hc
    rw [(C08_mul_rejects l r).2 hc] at h2
    cases h2
  obtain ⟨q, hq, hq', -⟩ := C08_mul_partial hl.toWFw hr.toWFw hm (List.ne_nil_of_mem (Inc.mem hI).1)
    (List.ne_nil_of_mem (Inc.mem hI).2)
  rw [h2] at hq
  cases hq
  exact hq'.toWFw

/-- tests/algorithms/test_factors.py:41-45 and 47-52, for every context with a cross and all orders of iteration: the
factorisation ends, the two factor contexts can be multiplied, the product has the objects and attributes with a cross and
the incidence relation of the context. It is equal to the context without its empty objects if and only if every attribute
has an object. -/
theorem C124_product (strO : α → List Char) (strA : β → List Char) (fname : ℕ → φ) (hf : Function.Injective fname)
    (ordO' : ℕ → SetOrder α) (ordA' : ℕ → SetOrder β) {c : Ctx α β} (h : c.WFw) (hx : ∃ g m, c.Inc g m)
    (ordA : Finset (α × β) → Finset β → SetOrder β) (ordO : SetOrder α) :
    ∃ ys l r p d, algorithm2 c ordA ordO 1 = some (ys, .ok ()) ∧
      makeFactorCxts fname ordO' ordA' (ys.map Prod.fst) = .ok (l, r) ∧ l.mul r = .ok p ∧
      c.removeEmptyObjects = (d, none) ∧ p.WFw ∧ (∀ g, g ∈ p.objects ↔ ∃ m, c.Inc g m) ∧
      (∀ m, m ∈ p.attributes ↔ ∃ g, c.Inc g m) ∧ (∀ g m, p.Inc g m ↔ c.Inc g m) ∧
      ((∀ m ∈ c.attributes, ∃ g, c.Inc g m) → p.eq strO strA d = .ok true) ∧
      (LineSafe strO strA c c → p.eq strO strA d = .ok true → ∀ m ∈ c.attributes, ∃ g, c.Inc g m) := by
  obtain ⟨ys, e1, e2⟩ := C46_factors_are_concepts h hx ordA ordO (fid := 1) le_rfl
  obtain ⟨ys', e1', e3, -⟩ := C47_exact_cover h hx ordA ordO
  rw [e1] at e1'
  cases e1'
  have hne : ∃ x ∈ ys.map Prod.fst, x.extent ≠ ∅ := by
    obtain ⟨g, m, hI⟩ := hx
    obtain ⟨y, hy, hg, -⟩ := (e3 g m).1 hI
    exact ⟨y.1, List.mem_map_of_mem hy, Finset.ne_empty_of_mem hg⟩
  obtain ⟨l, r, p, h1, h2, hp, h4, h5, h6⟩ := factor_product fname hf ordO' ordA' _ hne
  obtain ⟨d, hd, hdw, hda, -, hdo, hdi, -⟩ := C17_remove_empty h
  have hcr : ∀ y ∈ ys, ∃ g ∈ y.1.extent, ∃ m ∈ y.1.intent, True := by
    intro y hy
    obtain ⟨i, hi⟩ := List.mem_iff_getElem?.1 hy
    obtain ⟨g, hg, m, hm, -⟩ := (e2 i y hi).2
    exact ⟨g, hg, m, hm, trivial⟩
  have ho : ∀ g, g ∈ p.objects ↔ ∃ m, c.Inc g m := by
    intro g
    rw [h4]
    constructor
    · rintro ⟨x, hx, hg⟩
      obtain ⟨y, hy, rfl⟩ := List.mem_map.1 hx
      obtain ⟨-, -, m, hm, -⟩ := hcr y hy
      exact ⟨m, (e3 g m).2 ⟨y, hy, hg, hm⟩⟩
    · rintro ⟨m, hI⟩
      obtain ⟨y, hy, hg, -⟩ := (e3 g m).1 hI
      exact ⟨y.1, List.mem_map_of_mem hy, hg⟩
  have ha : ∀ m, m ∈ p.attributes ↔ ∃ g, c.Inc g m := by
    intro m
    rw [h5]
    constructor
    · rintro ⟨x, hx, hm⟩
      obtain ⟨y, hy, rfl⟩ := List.mem_map.1 hx
      obtain ⟨g, hg, -⟩ := hcr y hy
      exact ⟨g, (e3 g m).2 ⟨y, hy, hg, hm⟩⟩
    · rintro ⟨g, hI⟩
      obtain ⟨y, hy, -, hm⟩ := (e3 g m).1 hI
      exact ⟨y.1, List.mem_map_of_mem hy, hm⟩
  have hi : ∀ g m, p.Inc g m ↔ c.Inc g m := by
    intro g m
    rw [h6, e3]
    simp
  refine ⟨ys, l, r, p, d, e1, h1, h2, hd, hp, ho, ha, hi, fun hm => ?_, fun hs he m hm => ?_⟩
  · refine C09_permuted_equal hp hdw strO strA ⟨fun g => ?_, fun m => ?_, fun g m => by rw [hi, hdi]⟩
    · rw [ho, hdo]
      exact ⟨fun ⟨m, hI⟩ => ⟨(Inc.mem hI).1, m, hI⟩, fun hI => hI.2⟩
    · rw [ha, hda]
      exact ⟨fun ⟨g, hI⟩ => (Inc.mem hI).2, hm m⟩
  · have po : ∀ g ∈ p.objects, g ∈ c.objects := fun g hg => by
      obtain ⟨m, hI⟩ := (ho g).1 hg
      exact (Inc.mem hI).1
    have pa : ∀ m ∈ p.attributes, m ∈ c.attributes := fun m hm => by
      obtain ⟨g, hI⟩ := (ha m).1 hm
      exact (Inc.mem hI).2
    have dobj : ∀ g ∈ d.objects, g ∈ c.objects := fun g hg => ((hdo g).1 hg).1
    have hs' : LineSafe strO strA p d := by
      refine ⟨fun x hx y hy => hs.injO x (po x hx) y (dobj y hy), fun x hx y hy => hs.injA x (pa x hx) y (hda ▸ hy),
        fun x hx => hs.objs x (Or.inl (hx.elim (po x) (dobj x))), fun x hx => hs.atts x (Or.inl (hx.elim (pa x) fun h => hda ▸ h))⟩
    have := (C09_equal_same_partial hp hdw strO strA hs' he).2.1 m
    rw [hda, ha] at this
    exact this.2 hm

/-- tests/algorithms/test_factors.py:54-65, for every context with a cross and every fidelity above 0 and at most 1: the
product restores at least this fraction of the pairs. It has no other pairs (the assertion that is commented out). -/
theorem C124_approximate (fname : ℕ → φ) (hf : Function.Injective fname)
    (ordO' : ℕ → SetOrder α) (ordA' : ℕ → SetOrder β) {c : Ctx α β} (h : c.WFw) (hx : ∃ g m, c.Inc g m)
    (ordA : Finset (α × β) → Finset β → SetOrder β) (ordO : SetOrder α) {fid : ℚ} (h0 : 0 < fid) (hfid : fid ≤ 1) :
    ∃ ys l r p ps ps', algorithm2 c ordA ordO fid = some (ys, .ok ()) ∧
      makeFactorCxts fname ordO' ordA' (ys.map Prod.fst) = .ok (l, r) ∧ l.mul r = .ok p ∧
      c.pairs = .ok ps ∧ p.pairs = .ok ps' ∧ ps'.Nodup ∧ (∀ q ∈ ps', q ∈ ps) ∧
      fid ≤ (ps'.length : ℚ) / ps.length := by
  obtain ⟨ys, e1, e2⟩ := C46_factors_are_concepts h hx ordA ordO hfid
  obtain ⟨ys', r', e1', -, -, e3, -⟩ := C48_coverage h hx ordA ordO fid
  rw [e1] at e1'
  cases e1'
  have hcov := (e3 hfid).2
  obtain ⟨ps, hps, hnd, hmem⟩ := mem_pairs h
  have hcard : (crosses c.G c.M c.Inc).card = ps.length := by
    rw [← List.toFinset_card_of_nodup hnd]
    congr 1
    ext ⟨g, m⟩
    rw [mem_crosses, List.mem_toFinset, hmem]
  have hne : ∃ x ∈ ys.map Prod.fst, x.extent ≠ ∅ := by
    cases ys with
    | nil =>
      exfalso
      have : coveredFraction c.G c.M c.Inc (([] : List (Concept α β × ℚ)).map rectOf) = 0 := by
        unfold coveredFraction
        simp [InSome]
      rw [this] at hcov
      exact absurd h0 (not_lt.2 hcov)
    | cons y ys =>
      obtain ⟨g, hg, -⟩ := (e2 0 y rfl).2
      exact ⟨y.1, by simp, Finset.ne_empty_of_mem hg⟩
  obtain ⟨l, r, p, h1, h2, hp, -, -, h6⟩ := factor_product fname hf ordO' ordA' _ hne
  obtain ⟨ps', hps', hnd', hmem'⟩ := mem_pairs hp
  have hsub : ∀ g m, p.Inc g m → c.Inc g m := by
    intro g m hI
    obtain ⟨x, hx, hg, hm⟩ := (h6 g m).1 hI
    obtain ⟨y, hy, rfl⟩ := List.mem_map.1 hx
    obtain ⟨i, hi⟩ := List.mem_iff_getElem?.1 hy
    exact (((e2 i y hi).1.1 m).1 hm).2 g hg
  refine ⟨ys, l, r, p, ps, ps', e1, h1, h2, hps, hps', hnd', fun q hq => (hmem q.1 q.2).2 (hsub _ _ ((hmem' q.1 q.2).1 hq)), ?_⟩
  refine hcov.trans (le_of_eq ?_)
  unfold coveredFraction
  rw [hcard, ← List.toFinset_card_of_nodup hnd']
  congr 3
  ext ⟨g, m⟩
  rw [@Finset.mem_filter, mem_crosses, List.mem_toFinset, hmem', h6]
  constructor
  · rintro ⟨-, x, hx, hg, hm⟩
    obtain ⟨y, hy, rfl⟩ := List.mem_map.1 hx
    exact ⟨y.1, List.mem_map_of_mem hy, hg, hm⟩
  · rintro ⟨x, hx, hg, hm⟩
    obtain ⟨y, hy, rfl⟩ := List.mem_map.1 hx
    exact ⟨hsub g m ((h6 g m).2 ⟨y.1, hx, hg, hm⟩), rectOf y, List.mem_map_of_mem hy, hg, hm⟩

/-- The context of the test with an empty attribute `n`: the product is not equal to the context, although no object is
empty. -/
theorem C124_product_violated :
    ∃ c : Ctx (List Char) (List Char), c.WFw ∧ (∃ g m, c.Inc g m) ∧ (∀ g ∈ c.objects, ∃ m, c.Inc g m) ∧
      ∀ (fname : ℕ → List Char) (_ : Function.Injective fname) ordO' ordA' ordA ordO ys l r p d,
        algorithm2 c ordA ordO 1 = some (ys, .ok ()) → makeFactorCxts fname ordO' ordA' (ys.map Prod.fst) = .ok (l, r) →
        l.mul r = .ok p → c.removeEmptyObjects = (d, none) → p.eq id id d ≠ .ok true := by
  let c : Ctx (List Char) (List Char) :=
    ⟨["g".toList, "h".toList], ["m".toList, "n".toList], ⟨some 2, [[true, false], [true, false]]⟩⟩
  have hw : c.WFw := by constructor <;> decide +kernel
  have hI : ∀ g m, c.Inc g m ↔ c.incB g m = true := fun g m => (hw.incB g m).symm
  refine ⟨c, hw, ⟨"g".toList, "m".toList, (hI _ _).2 (by decide +kernel)⟩, ?_, ?_⟩
  · intro g hg
    refine ⟨"m".toList, (hI _ _).2 ?_⟩
    revert g
    decide +kernel
  · intro fname hf ordO' ordA' ordA ordO ys l r p d e1 e2 e3 e4 he
    obtain ⟨ys', l', r', p', d', a1, a2, a3, a4, -, -, -, -, -, a5⟩ := C124_product id id fname hf ordO' ordA' hw
      ⟨"g".toList, "m".toList, (hI _ _).2 (by decide +kernel)⟩ ordA ordO
    rw [e1] at a1
    cases a1
    rw [e2] at a2
    cases a2
    rw [e3] at a3
    cases a3
    rw [e4] at a4
    cases a4
    have hs : LineSafe id id c c := by
      refine ⟨fun x _ y _ h => h, fun x _ y _ h => h, fun x hx => ?_, fun x hx => ?_⟩
      · have : ∀ x ∈ c.objects, '\t' ∉ x ∧ '\n' ∉ x := by decide +kernel
        exact this x (hx.elim id id)
      · have : ∀ x ∈ c.attributes, x ≠ [] ∧ ',' ∉ x ∧ '\n' ∉ x := by decide +kernel
        exact this x (hx.elim id id)
    obtain ⟨g, hg⟩ := a5 hs he "n".toList (by decide +kernel)
    have hgo := (Inc.mem hg).1
    rw [hI] at hg
    have : ∀ g ∈ c.objects, c.incB g "n".toList = false := by decide +kernel
    rw [this g hgo] at hg
    cases hg

end Ctx

/-- A context that meets the hypotheses of `C124_product` and `C124_approximate`, with an empty object. -/
example : ∃ c : Ctx (Fin 3) (Fin 2), c.WFw ∧ (∃ g m, c.Inc g m) ∧ (∀ m ∈ c.attributes, ∃ g, c.Inc g m) ∧
    ¬ ∀ g ∈ c.objects, ∃ m, c.Inc g m := by
  have hw : (⟨[0, 1, 2], [0, 1], ⟨some 2, [[true, true], [false, false], [false, true]]⟩⟩ : Ctx (Fin 3) (Fin 2)).WFw := by
    constructor <;> decide +kernel
  refine ⟨_, hw, ?_⟩
  simp only [← hw.incB]
  decide +kernel
