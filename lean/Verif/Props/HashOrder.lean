/-
Property C168: which results depend on the order in which Python iterates over sets, i.e. on the hash seed
(fca/context.py, fca/implication.py, fca/partial_context.py, fca/scale.py, fca/algorithms).
-/
import Verif.Props.LinExact
import Verif.Props.PartialContext
import Verif.Props.Probability
import Verif.Props.Stability
import Verif.Props.Scaling
import Verif.Props.Equality
import Verif.Props.Factors
import Verif.Model.ReadWrite

set_option linter.unusedSectionVars false

variable {α β : Type} [DecidableEq α] [DecidableEq β]

open Spec

namespace HashOrder

/-! ### Sets as arguments -/

/-- Two lists with the same elements: a set in two iteration orders. -/
def SameSet {γ : Type} (l l' : List γ) : Prop := ∀ x, x ∈ l ↔ x ∈ l'

theorem SameSet.toFinset {γ : Type} [DecidableEq γ] {l l' : List γ} (h : SameSet l l') : l.toFinset = l'.toFinset := by
  ext x; simp [h x]

theorem sameSet_enum {γ : Type} (o o' : SetOrder γ) (s : Finset γ) : SameSet (o.enum s) (o'.enum s) := by
  intro x; simp

theorem mapM_lastIdx_same {γ δ : Type} [DecidableEq γ] {l l' names : List γ} (h : SameSet l l') (f : List ℕ → Py δ)
    (hf : ∀ is is', SameSet is is' → (∀ i ∈ is, i < names.length) → f is = f is') :
    (l.mapM (lastIdx names) >>= f) = (l'.mapM (lastIdx names) >>= f) := by
  by_cases hl : ∀ x ∈ l, x ∈ names
  · have hl' : ∀ x ∈ l', x ∈ names := fun x hx => hl x ((h x).2 hx)
    have hg : ∀ x ∈ names, ∃ i, lastIdx names x = .ok i ∧ i < names.length := fun x hx => by
      obtain ⟨i, hi⟩ := lastIdx_mem hx
      exact ⟨i, hi, Ctx.lt_of_getElem? (lastIdx_ok hi)⟩
    let g : γ → ℕ := fun x => if hx : x ∈ names then (hg x hx).choose else 0
    have hgo : ∀ x ∈ names, lastIdx names x = .ok (g x) ∧ g x < names.length := fun x hx => by
      simp only [g, dif_pos hx]; exact (hg x hx).choose_spec
    rw [mapM_ok (g := g) fun x hx => (hgo x (hl x hx)).1, mapM_ok (g := g) fun x hx => (hgo x (hl' x hx)).1,
      py_ok_bind, py_ok_bind]
    refine hf _ _ (fun i => ?_) fun i hi => ?_
    · simp only [List.mem_map]
      constructor
      · rintro ⟨x, hx, rfl⟩; exact ⟨x, (h x).1 hx, rfl⟩
      · rintro ⟨x, hx, rfl⟩; exact ⟨x, (h x).2 hx, rfl⟩
    · obtain ⟨x, hx, rfl⟩ := List.mem_map.1 hi
      exact (hgo x (hl x hx)).2
  · push Not at hl
    obtain ⟨x, hx, hn⟩ := hl
    rw [mapM_lastIdx_err ⟨x, hx, hn⟩, mapM_lastIdx_err ⟨x, (h x).1 hx, hn⟩]

theorem flags_same {n : ℕ} {is is' : List ℕ} (h : SameSet is is') : Ctx.flags n is = Ctx.flags n is' := by
  refine List.ext_getElem? fun k => ?_
  by_cases hk : k < n
  · rw [Ctx.flags_get _ _ _ hk, Ctx.flags_get _ _ _ hk]
    simp [h k]
  · rw [List.getElem?_eq_none (by rw [Ctx.flags_length]; omega), List.getElem?_eq_none (by rw [Ctx.flags_length]; omega)]

section mutators
variable [PyName α] [PyName β]

theorem setObjectIntent_same (c : Ctx α β) {B B' : List β} (hB : SameSet B B') (o : α) :
    c.setObjectIntent B o = c.setObjectIntent B' o := by
  unfold Ctx.setObjectIntent
  congr 1
  refine mapM_lastIdx_same hB _ fun is is' h _ => ?_
  simp only [flags_same h]

/-- `set_object_intent` and `set_attribute_extent` do the same whatever the order of the given set, for every context;
this includes the exceptions. -/
theorem C168_mutators (c : Ctx α β) :
    (∀ {B B' : List β}, SameSet B B' → ∀ o, c.setObjectIntent B o = c.setObjectIntent B' o) ∧
    ∀ {A A' : List α}, SameSet A A' → ∀ a, c.setAttributeExtent A a = c.setAttributeExtent A' a := by
  refine ⟨fun hB o => setObjectIntent_same c hB o, fun hA a => ?_⟩
  unfold Ctx.setAttributeExtent
  congr 1
  refine mapM_lastIdx_same hA _ fun is is' h _ => ?_
  simp only [flags_same h]

end mutators

/-- The derivation operators and closures of a context, as methods and as functions of `closure_operators`. -/
theorem C168_primes {c : Ctx α β} (h : c.WF) {B B' : List β} {A A' : List α} (hB : SameSet B B') (hA : SameSet A A') :
    c.oprime A = c.oprime A' ∧ c.aprime B = c.aprime B' ∧ c.oclosure A = c.oclosure A' ∧ c.aclosure B = c.aclosure B' ∧
    c.coOprime A = c.coOprime A' ∧
    (c.objects ≠ [] → c.coAprime B = c.coAprime B' ∧ ∀ (ordO ordO' : SetOrder α) (ordA ordA' : SetOrder β),
      c.coOclosureSet ordA A = c.coOclosureSet ordA' A' ∧ c.coAclosureSet ordO B = c.coAclosureSet ordO' B') := by
  have hw := h.toWFw
  have hO : c.oprime A = c.oprime A' ∧ c.oclosure A = c.oclosure A' ∧ c.coOprime A = c.coOprime A' ∧
      (c.objects ≠ [] → ∀ ordA ordA' : SetOrder β, c.coOclosureSet ordA A = c.coOclosureSet ordA' A') := by
    by_cases hl : ∀ x ∈ A, x ∈ c.objects
    · have hl' : ∀ x ∈ A', x ∈ c.objects := fun x hx => hl x ((hA x).2 hx)
      rw [hw.oprime hl, hw.oprime hl', h.oclosure hl, h.oclosure hl', hw.coOprime hl, hw.coOprime hl', hA.toFinset]
      refine ⟨rfl, rfl, rfl, fun hne ordA ordA' => ?_⟩
      rw [hw.coOclosureSet (hw.cols hne) _ hl, hw.coOclosureSet (hw.cols hne) _ hl', hA.toFinset]
    · push Not at hl
      obtain ⟨x, hx, hn⟩ := hl
      have e : ∃ o ∈ A, o ∉ c.objects := ⟨x, hx, hn⟩
      have e' : ∃ o ∈ A', o ∉ c.objects := ⟨x, (hA x).1 hx, hn⟩
      unfold Ctx.coOclosureSet Ctx.oclosure
      rw [Ctx.oprime_err e, Ctx.oprime_err e', hw.coOprime_err e, hw.coOprime_err e', mapM_lastIdx_err e,
        mapM_lastIdx_err e']
      exact ⟨rfl, rfl, rfl, fun _ _ _ => rfl⟩
  have hAt : c.aprime B = c.aprime B' ∧ c.aclosure B = c.aclosure B' ∧ (c.objects ≠ [] → c.coAprime B = c.coAprime B' ∧
      ∀ ordO ordO' : SetOrder α, c.coAclosureSet ordO B = c.coAclosureSet ordO' B') := by
    by_cases hl : ∀ x ∈ B, x ∈ c.attributes
    · have hl' : ∀ x ∈ B', x ∈ c.attributes := fun x hx => hl x ((hB x).2 hx)
      rw [h.aprime hl, h.aprime hl', h.aclosure hl, h.aclosure hl', hB.toFinset]
      refine ⟨rfl, rfl, fun hne => ⟨?_, fun ordO ordO' => ?_⟩⟩
      · rw [hw.coAprime (hw.cols hne) hl, hw.coAprime (hw.cols hne) hl', hB.toFinset]
      · rw [hw.coAclosureSet (hw.cols hne) _ hl, hw.coAclosureSet (hw.cols hne) _ hl', hB.toFinset]
    · push Not at hl
      obtain ⟨x, hx, hn⟩ := hl
      have e : ∃ o ∈ B, o ∉ c.attributes := ⟨x, hx, hn⟩
      have e' : ∃ o ∈ B', o ∉ c.attributes := ⟨x, (hB x).1 hx, hn⟩
      unfold Ctx.coAclosureSet Ctx.aclosure
      rw [Ctx.aprime_err e, Ctx.aprime_err e', mapM_lastIdx_err e, mapM_lastIdx_err e']
      refine ⟨rfl, rfl, fun hne => ?_⟩
      rw [hw.coAprime_err (hw.cols hne) e, hw.coAprime_err (hw.cols hne) e']
      exact ⟨rfl, fun _ _ => rfl⟩
  exact ⟨hO.1, hAt.1, hO.2.1, hAt.2.1, hO.2.2.1, fun hne => ⟨(hAt.2.2 hne).1, fun ordO ordO' ordA ordA' =>
    ⟨hO.2.2.2 hne ordA ordA', (hAt.2.2 hne).2 ordO ordO'⟩⟩⟩

/-! ### Closures and bases -/

/-- `lin_closure` for all lists of implications. -/
theorem C168_lin_closure (ord₀ ord₀' : SetOrder β) (ord ord' : ℕ → SetOrder β) :
    linClosure ord₀ ord = linClosure ord₀' ord' := by
  funext s imps
  exact (C21_exact ord₀ ord s imps).unique (C21_exact ord₀' ord' s imps)

theorem dgAclose_same {c : Ctx α β} (h : c.WFw) (hne : c.objects ≠ []) (ordA ordA' : SetOrder β) (ordO ordO' : SetOrder α) :
    c.dgAclose ordA ordO = c.dgAclose ordA' ordO' := by
  funext s
  by_cases hs : s ⊆ c.M
  · rw [h.dgAclose (h.cols hne) ordA ordO hs, h.dgAclose (h.cols hne) ordA' ordO' hs]
  · obtain ⟨x, hx, hn⟩ := Finset.not_subset.1 hs
    have hn' : x ∉ c.attributes := fun hc => hn (List.mem_toFinset.2 hc)
    have e : ∀ o : SetOrder β, ∃ a ∈ o.enum s, a ∉ c.attributes := fun o => ⟨x, by simpa using hx, hn'⟩
    unfold Ctx.dgAclose Ctx.coAclosureSet
    rw [h.coAprime_err (h.cols hne) (e ordA), h.coAprime_err (h.cols hne) (e ordA')]
    rfl

/-- The basis computations return the same list of implications, or raise the same exception, for all iteration orders:
with any background implications and any condition. -/
theorem C168_basis {c : Ctx α β} (h : c.WFw) (hne : c.objects ≠ []) (ordA ordA' : SetOrder β) (ordO ordO' : SetOrder α)
    (ord₀ ord₀' : SetOrder β) (ord ord' : ℕ → SetOrder β) (close : Finset β → List (Imp β) → Finset β)
    (bg : List (Imp β)) (cond : Finset β → Bool) :
    c.computeDgBasis ordA ordO ord₀ ord bg cond = c.computeDgBasis ordA' ordO' ord₀' ord' bg cond ∧
    c.dgBasisWith ordA ordO close bg cond = c.dgBasisWith ordA' ordO' close bg cond ∧
    c.dgBasisIterSimple ordA ordO bg cond = c.dgBasisIterSimple ordA' ordO' bg cond := by
  unfold Ctx.computeDgBasis Ctx.dgBasisWith Ctx.dgBasisIterSimple
  rw [dgAclose_same h hne ordA ordA' ordO ordO', C168_lin_closure ord₀ ord₀' ord ord']
  exact ⟨rfl, rfl, rfl⟩

section partialContext
variable [PyName α] [PyName β]

/-- `PartialContext.complete`: the same state afterwards and the same exception, for all partial contexts and lists of
implications; `get_attribute_implications` returns the same list. -/
theorem C168_partial_context (p : PCtx α β) (ord ord' : SetOrder β) (L : List (Imp β)) :
    p.complete ord L = p.complete ord' L ∧
    (p.WF → p.objects ≠ [] → ∀ (ordA ordA' : SetOrder β) (ordO ordO' : SetOrder α) (cond : Finset β → Bool),
      p.dgBasis ordA ordO L cond = p.dgBasis ordA' ordO' L cond) := by
  constructor
  · have h1 : ∀ (q : PCtx α β) o, q.completeOne ord L o = q.completeOne ord' L o := by
      intro q o
      unfold PCtx.completeOne
      simp only [fun (c : Ctx α β) (s : Finset β) => setObjectIntent_same c (sameSet_enum ord ord' s) o]
    have h2 : ∀ os (q : PCtx α β), q.completeLoop ord L os = q.completeLoop ord' L os := by
      intro os
      induction os with
      | nil => intro q; rfl
      | cons o os ih => intro q; simp only [PCtx.completeLoop, h1, ih]
    exact h2 _ _
  · intro h hne ordA ordA' ordO ordO' cond
    unfold PCtx.dgBasis
    congr 1
    funext s
    by_cases hs : s ⊆ p.attributes.toFinset
    · rw [h.xqAclosure hne ordA ordO hs, h.xqAclosure hne ordA' ordO' hs]
    · obtain ⟨x, hx, hn⟩ := Finset.not_subset.1 hs
      have hn' : x ∉ p.x.attributes := fun hc => hn (List.mem_toFinset.2 (h.xa ▸ hc))
      have hcols := h.xw.cols (h.xo ▸ hne)
      have e : ∀ o : SetOrder β, ∃ a ∈ o.enum s, a ∉ p.x.attributes := fun o => ⟨x, by simpa using hx, hn'⟩
      unfold PCtx.xqAclosure
      rw [h.xw.coAprime_err hcols (e ordA), h.xw.coAprime_err hcols (e ordA')]
      rfl

end partialContext

/-! ### Indices of concepts -/

theorem items_eq {γ δ : Type} {f : γ → δ} {l : List (γ × δ)} (h : ∀ x q, (x, q) ∈ l → q = f x) :
    l = (l.map Prod.fst).map fun x => (x, f x) := by
  rw [List.map_map]
  conv_lhs => rw [← List.map_id l]
  refine List.map_congr_left fun p hp => ?_
  rw [Function.comp, ← h p.1 p.2 hp]
  rfl

/-- Stability, separation and probability of the concepts of a lattice. -/
theorem C168_indices {c : Ctx α β} (h : c.WFw) (hne : c.objects ≠ []) {L : CLattice α β} (hL : makeLattice c = .ok L)
    (ord ord' : ℕ → SetOrder (Concept α β)) (ordO ordO' : SetOrder α) (ordA ordA' ord₁ ord₁' : SetOrder β) :
    istability ord L.concepts = istability ord' L.concepts ∧ estability ord L.concepts = estability ord' L.concepts ∧
    separation c ordO ordA L.concepts = separation c ordO' ordA' L.concepts ∧
    computeProbability ordA ord₁ L = computeProbability ordA' ord₁' L := by
  refine ⟨?_, ?_, ?_, ?_⟩
  · obtain ⟨L₁, st₁, e1, f1, g1, k1⟩ := C41_istability h ord
    obtain ⟨L₂, st₂, e2, f2, g2, k2⟩ := C41_istability h ord'
    rw [hL] at e1 e2; cases e1; cases e2
    rw [f1, f2]
    have : st₁ = st₂ := by
      funext x
      by_cases hx : x ∈ L.concepts
      · rw [g1 x hx, g2 x hx]
      · rw [k1 x hx, k2 x hx]
    rw [this]
  · obtain ⟨L₁, st₁, e1, f1, g1, k1⟩ := C42_estability h ord
    obtain ⟨L₂, st₂, e2, f2, g2, k2⟩ := C42_estability h ord'
    rw [hL] at e1 e2; cases e1; cases e2
    rw [f1, f2]
    have : st₁ = st₂ := by
      funext x
      by_cases hx : x ∈ L.concepts
      · rw [g1 x hx, g2 x hx]
      · rw [k1 x hx, k2 x hx]
    rw [this]
  · obtain ⟨L₁, i₁, e1, f1, g1, k1⟩ := C43_separation_partial h (.inl hne) ordO ordA
    obtain ⟨L₂, i₂, e2, f2, g2, k2⟩ := C43_separation_partial h (.inl hne) ordO' ordA'
    rw [hL] at e1 e2; cases e1; cases e2
    rw [f1, f2, items_eq fun x q hx => (k1 x q hx).1, items_eq fun x q hx => (k2 x q hx).1, g1, g2]
  · obtain ⟨L₁, e1, f1⟩ := C90_probability h hne ordA ord₁
    obtain ⟨L₂, e2, f2⟩ := C90_probability h hne ordA' ord₁'
    rw [hL] at e1 e2; cases e1; cases e2
    rw [f1, f2]

/-! ### Scales -/

/-- Nominal scales built in different orders compare equal, though their rows and columns are permuted. -/
theorem C168_nominal_scale {W : Type} [DecidableEq W] [PyName W] (ord ord' : SetOrder W) (column : List W)
    (strO strA : W → List Char) :
    ∃ c c', nominalScale ord column = .ok c ∧ nominalScale ord' column = .ok c' ∧ c.eq strO strA c' = .ok true ∧
      c.objects.Perm c'.objects := by
  obtain ⟨c, e1, w1, o1, a1, i1⟩ := C64_nominal ord column
  obtain ⟨c', e2, w2, o2, a2, i2⟩ := C64_nominal ord' column
  refine ⟨c, c', e1, e2, ?_, ?_⟩
  · refine Ctx.C09_permuted_equal w1.toWFw w2.toWFw strO strA ⟨fun o => by rw [o1, o2], fun a => by rw [a1, a2, o1, o2],
      fun o a => by rw [i1, i2]⟩
  · exact (List.perm_ext_iff_of_nodup w1.onodup w2.onodup).2 fun o => by rw [o1, o2]

/-! ### Results that do depend on the order -/

/-- Three objects and attributes: rows 101, 110, 000. -/
def cxtHash : Ctx (Fin 3) (Fin 3) :=
  ⟨[0, 1, 2], [0, 1, 2], ⟨some 3, [[true, false, true], [true, true, false], [false, false, false]]⟩⟩

theorem cxtHash_wf : cxtHash.WFw := by constructor <;> decide +kernel

/-- The factors found by `algorithm2`, even their number, depend on the order: three factors or two. -/
theorem C168_factors_violated :
    ∃ (c : Ctx (Fin 3) (Fin 3)) (ord ord' : SetOrder (Fin 3)) (l l' : List (Concept (Fin 3) (Fin 3) × ℚ)), c.WFw ∧
      algorithm2 c (fun _ _ => ord) (SetOrder.fin 3) 1 = some (l, .ok ()) ∧
      algorithm2 c (fun _ _ => ord') (SetOrder.fin 3) 1 = some (l', .ok ()) ∧ l.length ≠ l'.length := by
  refine ⟨cxtHash, SetOrder.fin 3, SetOrder.finRev 3,
    [(⟨{0, 1}, {0}⟩, 1 / 2), (⟨{1}, {0, 1}⟩, 1 / 4), (⟨{0}, {0, 2}⟩, 1 / 4)],
    [(⟨{0}, {0, 2}⟩, 1 / 2), (⟨{1}, {0, 1}⟩, 1 / 2)], cxtHash_wf, by decide +kernel, by decide +kernel, by decide⟩

/-- The text written by `write_fimi`. -/
theorem C168_fimi_violated :
    ∃ (c : Ctx (Fin 3) (Fin 3)) (str : Fin 3 → List Char) (t t' : List Char), c.WFw ∧
      writeFimi str (SetOrder.fin 3) c = .ok t ∧ writeFimi str (SetOrder.finRev 3) c = .ok t' ∧ t ≠ t' :=
  ⟨cxtHash, fun i => [Char.ofNat (48 + i.1)], "0 2 \n0 1 \n\n".toList, "2 0 \n1 0 \n\n".toList, cxtHash_wf,
    by decide +kernel, by decide +kernel, by decide +kernel⟩

/-- A context without objects: with background implications that name an unknown attribute even the kind of the exception
depends on the order. -/
theorem C168_exception_violated :
    ∃ (c : Ctx (Fin 4) (Fin 4)) (bg : List (Imp (Fin 4))), c.WFw ∧
      c.dgBasisWith (SetOrder.fin 4) (SetOrder.fin 4) simpleClosure bg (fun _ => true) = .error .indexError ∧
      c.dgBasisWith (SetOrder.finRev 4) (SetOrder.fin 4) simpleClosure bg (fun _ => true) = .error .keyError :=
  ⟨⟨[], [0, 1, 2], ⟨none, []⟩⟩, [⟨∅, {0, 3}⟩], by constructor <;> decide +kernel, by decide +kernel, by decide +kernel⟩

/-! ### Concrete cases -/

/-- The basis of `cxtHash` in another order. -/
example : cxtHash.computeDgBasis (SetOrder.finRev 3) (SetOrder.fin 3) (SetOrder.finRev 3) (fun _ => SetOrder.finRev 3) []
    (fun _ => true) = .ok [⟨{2}, {0, 2}⟩, ⟨{1}, {0, 1}⟩] := by
  rw [(C168_basis cxtHash_wf (by decide) (SetOrder.finRev 3) (SetOrder.fin 3) (SetOrder.fin 3) (SetOrder.fin 3)
    (SetOrder.finRev 3) (SetOrder.fin 3) (fun _ => SetOrder.finRev 3) (fun _ => SetOrder.fin 3) simpleClosure [] _).1]
  decide +kernel

example : SameSet (["m", "n"] : List String) ["n", "m", "n"] := by intro x; simp; tauto

end HashOrder
