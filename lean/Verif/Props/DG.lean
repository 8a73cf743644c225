/-
Properties C24 - C30: the Duquenne-Guigues basis of a context
(fca/algorithms/dg_basis.py on top of fca/context.py and closure_operators.py).

`c.WFw` says that the context has distinct names and a rectangular table; every context built by
the constructor from distinct names satisfies it (see `C01`).
-/
import Verif.Lemmas.DGContext

open Spec

namespace Ctx

variable {α β : Type} [DecidableEq α] [DecidableEq β]

/-- The closure functions of the two entry points: `simple_closure` with any background, or
`lin_closure` (any set orders) with a background without repeated implications. -/
def StdClose (bg : List (Imp β)) (close : Finset β → List (Imp β) → Finset β) : Prop :=
  close = simpleClosure ∨
    ∃ ord₀ ord, close = linClosure ord₀ ord ∧ bg.Pairwise fun i j => i.pyEq j = false

/-- The background is valid in the context and talks about its attributes. -/
def ValidBg (c : Ctx α β) (bg : List (Imp β)) : Prop :=
  ∀ i ∈ bg, i.conclusion ⊆ c.M ∧ HoldsIn c.G c.Inc i.premise i.conclusion

theorem pairwise_keys {bg : List (Imp β)} (h : bg.Pairwise fun i j => i.pyEq j = false) :
    (bg.map Imp.key).Nodup := by
  unfold List.Nodup
  rw [List.pairwise_map]
  refine h.imp ?_
  intro i j hij he
  rw [(Imp.pyEq_iff i j).2 he] at hij
  cases hij

theorem StdClose.good {bg : List (Imp β)} {close : Finset β → List (Imp β) → Finset β}
    (h : StdClose bg close) (M : Finset β) : GoodClose M close := by
  rcases h with rfl | ⟨o, o', rfl, _⟩
  · exact goodClose_simple M
  · exact goodClose_lin M o o'

theorem StdClose.least {bg : List (Imp β)} {close : Finset β → List (Imp β) → Finset β}
    (h : StdClose bg close) : ∀ basis, GoodBasis bg basis → ∀ s,
      IsLeastClosed (specImps (basis ++ bg)) s (close s (basis ++ bg)) := by
  intro basis hb s
  rcases h with rfl | ⟨o, o', rfl, h⟩
  · exact goodBasis_simple hb s
  · exact goodBasis_lin o o' (pairwise_keys h) hb s

/-! ### C24 -/

/-- Every implication returned (any closure function, any background, any condition) is respected
by every object, its conclusion is the closure of its premise, and it is not trivial. -/
theorem C24_basis_sound {c : Ctx α β} (h : c.WFw) (ordA : SetOrder β) (ordO : SetOrder α)
    (close : Finset β → List (Imp β) → Finset β) (bg : List (Imp β)) (cond : Finset β → Bool)
    (res : List (Imp β)) (hres : c.dgBasisWith ordA ordO close bg cond = .ok res) :
    ∀ imp ∈ res, HoldsIn c.G c.Inc imp.premise imp.conclusion ∧
      (∀ o S, c.objectIntent o = .ok S → imp.isRespected S = true) ∧
      imp.conclusion = attrClosure c.G c.M c.Inc imp.premise ∧
      imp.premise ⊂ imp.conclusion ∧ cond imp.premise = true := by
  intro imp himp
  rcases dgLoop_returned _ _ _ _ _ (dgBasisFuel_of_ok hres) imp himp with hx | ⟨h1, h2, h3⟩
  · simp at hx
  · obtain ⟨hsub, hcl⟩ := h.dgAclose_returned h1
    have hext := h.attrClosure_op.ext _ hsub
    rw [← hcl] at hext
    have hholds : HoldsIn c.G c.Inc imp.premise imp.conclusion := by
      rw [holdsIn_iff h (hcl ▸ h.attrClosure_op.into _ hsub), hcl]
    refine ⟨hholds, ?_, hcl, Finset.ssubset_iff_subset_ne.2 ⟨hext, h2⟩, h3⟩
    intro o S hS
    have ho : o ∈ c.objects := by
      by_contra hn
      rw [objectIntent_err hn] at hS; cases hS
    rw [h.objectIntent ho] at hS
    cases hS
    rw [Imp.isRespected_iff]
    intro hp m hm
    rw [h.mem_upF]
    have := hcl ▸ h.attrClosure_op.into _ hsub
    refine ⟨List.mem_toFinset.1 (this hm), ?_⟩
    intro o' ho'
    rw [Finset.mem_singleton] at ho'; subst ho'
    exact hholds o' (List.mem_toFinset.2 ho) (fun a ha => (h.mem_upF.1 (hp ha)).2 o' (by simp)) m hm

/-- On a context with an object the computation returns, for every background whose conclusions are
attributes of the context (valid or not) and every condition. -/
theorem C24_basis_returns {c : Ctx α β} (h : c.WFw) (hne : c.objects ≠ []) (ordA : SetOrder β)
    (ordO : SetOrder α) (close : Finset β → List (Imp β) → Finset β) (bg : List (Imp β))
    (hclose : StdClose [] close) (hbg : ∀ i ∈ bg, i.conclusion ⊆ c.M) (cond : Finset β → Bool) :
    ∃ res, c.dgBasisWith ordA ordO close bg cond = .ok res := by
  obtain ⟨res, _, h1, _⟩ := dgBasis_generic (h.dgSetup (h.cols hne) ordA ordO (hclose.good c.M))
    hbg cond
  exact ⟨res, h1⟩

/-! ### C26 -/

theorem dg_main {c : Ctx α β} (h : c.WFw) {ordA : SetOrder β} {ordO : SetOrder α}
    {close : Finset β → List (Imp β) → Finset β} {bg : List (Imp β)} (hclose : StdClose bg close)
    (hbg : ∀ i ∈ bg, i.conclusion ⊆ c.M) {res : List (Imp β)}
    (hres : c.dgBasisWith ordA ordO close bg (fun _ => true) = .ok res) :
    (∀ x, x ∈ res ↔ IsPseudo c.M (specImps bg) (attrClosure c.G c.M c.Inc) x.premise ∧
      x.conclusion = attrClosure c.G c.M c.Inc x.premise) ∧
    res.Pairwise fun x y => LecticLt c.attributes x.premise y.premise := by
  have hr := h.dgBasis_returned hres
  obtain ⟨res', h1, h2, h3⟩ := dgBasis_correct (h.totalSetup ordA ordO (hclose.good c.M))
    h.attrClosure_op hbg (fun basis hb s _ => hclose.least basis hb s)
  rw [h1] at hr
  cases hr
  refine ⟨h2, h3.imp ?_⟩
  intro x y hxy
  exact (lecticLt_iff _ _ _).2 hxy

/-- The premises returned are exactly the pseudo-intents relative to the background, each once, in
lectic order; conclusions are closures. -/
theorem C26_basis_pseudo_intents {c : Ctx α β} (h : c.WFw) (ordA : SetOrder β) (ordO : SetOrder α)
    (close : Finset β → List (Imp β) → Finset β) (bg : List (Imp β)) (hclose : StdClose bg close)
    (hbg : c.ValidBg bg) (res : List (Imp β))
    (hres : c.dgBasisWith ordA ordO close bg (fun _ => true) = .ok res) :
    (∀ P, P ∈ res.map Imp.premise ↔
      IsPseudo c.M (specImps bg) (attrClosure c.G c.M c.Inc) P) ∧
    (∀ x ∈ res, x.conclusion = attrClosure c.G c.M c.Inc x.premise) ∧
    (res.map Imp.premise).Nodup ∧
    (res.map Imp.premise).Pairwise (LecticLt c.attributes) := by
  obtain ⟨h1, h2⟩ := dg_main h hclose (fun i hi => (hbg i hi).1) hres
  refine ⟨?_, fun x hx => ((h1 x).1 hx).2, ?_, ?_⟩
  · intro P
    rw [List.mem_map]
    constructor
    · rintro ⟨x, hx, rfl⟩; exact ((h1 x).1 hx).1
    · intro hP; exact ⟨⟨P, attrClosure c.G c.M c.Inc P⟩, (h1 _).2 ⟨hP, rfl⟩, rfl⟩
  · unfold List.Nodup
    rw [List.pairwise_map]
    refine h2.imp ?_
    intro x y hxy he
    rw [he] at hxy
    obtain ⟨j, z, _, h1, h2, _⟩ := hxy
    exact h1 h2
  · rw [List.pairwise_map]; exact h2

/-! ### C25 -/

/-- The closure of any attribute set under basis and background is its closure in the context. -/
theorem C25_basis_closure {c : Ctx α β} (h : c.WFw) (ordA : SetOrder β) (ordO : SetOrder α)
    (close : Finset β → List (Imp β) → Finset β) (bg : List (Imp β)) (hclose : StdClose bg close)
    (hbg : c.ValidBg bg) (res : List (Imp β))
    (hres : c.dgBasisWith ordA ordO close bg (fun _ => true) = .ok res) (s : Finset β)
    (hs : s ⊆ c.M) :
    IsLeastClosed (specImps (res ++ bg)) s (attrClosure c.G c.M c.Inc s) := by
  obtain ⟨h1, _⟩ := dg_main h hclose (fun i hi => (hbg i hi).1) hres
  exact isLeastClosed_basis h1 h.attrClosure_op
    (fun s _ => closed_attrClosure h (fun i hi => (hbg i hi).2) (fun i hi => (hbg i hi).1) s) hs

/-- An implication between attributes holds in the context iff it follows from basis and
background. -/
theorem C25_basis_complete {c : Ctx α β} (h : c.WFw) (ordA : SetOrder β) (ordO : SetOrder α)
    (close : Finset β → List (Imp β) → Finset β) (bg : List (Imp β)) (hclose : StdClose bg close)
    (hbg : c.ValidBg bg) (res : List (Imp β))
    (hres : c.dgBasisWith ordA ordO close bg (fun _ => true) = .ok res) (P C : Finset β)
    (hP : P ⊆ c.M) (hC : C ⊆ c.M) :
    HoldsIn c.G c.Inc P C ↔ Entails (specImps (res ++ bg)) P C := by
  have hl := C25_basis_closure h ordA ordO close bg hclose hbg res hres P hP
  rw [holdsIn_iff h hC]
  constructor
  · intro hsub S hS hPS
    exact hsub.trans (hl.2.2 S hPS hS)
  · intro hent
    exact hent _ hl.2.1 hl.1

/-! ### C27 -/

/-- No list of valid implications over the attributes that is complete together with the background is
shorter than the returned basis. -/
theorem C27_basis_minimal {c : Ctx α β} (h : c.WFw) (ordA : SetOrder β) (ordO : SetOrder α)
    (close : Finset β → List (Imp β) → Finset β) (bg : List (Imp β)) (hclose : StdClose bg close)
    (hbg : c.ValidBg bg) (res : List (Imp β))
    (hres : c.dgBasisWith ordA ordO close bg (fun _ => true) = .ok res)
    (L : Imps β) (hLover : ∀ pc ∈ L, pc.2 ⊆ c.M) (hLsound : ∀ pc ∈ L, HoldsIn c.G c.Inc pc.1 pc.2)
    (hLcomplete : ∀ P C, P ⊆ c.M → C ⊆ c.M → HoldsIn c.G c.Inc P C →
      Entails (L ++ specImps bg) P C) :
    res.length ≤ L.length := by
  obtain ⟨h1, _, h3, _⟩ := C26_basis_pseudo_intents h ordA ordO close bg hclose hbg res hres
  have := pseudo_length_le h.attrClosure_op (res.map Imp.premise) h3
    (fun P hP => (h1 P).1 hP) L
    (fun s _ he => closed_of_eq h hLsound hLover he)
    (by
      intro s hs hcl
      apply Finset.Subset.antisymm _ (h.attrClosure_op.ext s hs)
      have hi := h.attrClosure_op.into s hs
      exact hLcomplete s (attrClosure c.G c.M c.Inc s) hs hi
        ((holdsIn_iff h hi).2 (Finset.Subset.refl _)) s hcl (Finset.Subset.refl _))
  simpa using this

/-- Removing any implication from the basis loses a valid implication. -/
theorem C27_basis_irredundant {c : Ctx α β} (h : c.WFw) (ordA : SetOrder β) (ordO : SetOrder α)
    (close : Finset β → List (Imp β) → Finset β) (bg : List (Imp β)) (hclose : StdClose bg close)
    (hbg : c.ValidBg bg) (res : List (Imp β))
    (hres : c.dgBasisWith ordA ordO close bg (fun _ => true) = .ok res) (x : Imp β) (hx : x ∈ res) :
    ∃ P C, P ⊆ c.M ∧ C ⊆ c.M ∧ HoldsIn c.G c.Inc P C ∧
      ¬ Entails (specImps (res.erase x ++ bg)) P C := by
  by_contra hcon
  push Not at hcon
  have hs := C24_basis_sound h ordA ordO close bg _ res hres
  have := C27_basis_minimal h ordA ordO close bg hclose hbg res hres (specImps (res.erase x))
    (by
      intro pc hpc
      obtain ⟨i, hi, rfl⟩ := List.mem_map.1 hpc
      have hir := List.mem_of_mem_erase hi
      obtain ⟨_, _, h3, _⟩ := hs i hir
      rw [Imp.toSpec, h3, ← h.aclF_eq]
      exact c.upF_subset _)
    (by
      intro pc hpc
      obtain ⟨i, hi, rfl⟩ := List.mem_map.1 hpc
      exact (hs i (List.mem_of_mem_erase hi)).1)
    (by
      intro P C hP hC hh
      have := hcon P C hP hC hh
      rwa [specImps, List.map_append] at this)
  rw [specImps, List.length_map, List.length_erase_of_mem hx] at this
  have := List.length_pos_of_mem hx
  omega

/-! ### C28 -/

/-- The main loop is entered at most `2 ^ |M|` times: run with that much fuel it never runs out, for every
context, every background over its attributes (valid or not), every condition. -/
theorem C28_basis_terminates {c : Ctx α β} (h : c.WFw) (ordA : SetOrder β) (ordO : SetOrder α)
    (close : Finset β → List (Imp β) → Finset β) (bg : List (Imp β)) (hclose : StdClose [] close)
    (hbg : ∀ i ∈ bg, i.conclusion ⊆ c.M) (cond : Finset β → Bool) :
    (dgLoop c.attributes (c.dgAclose ordA ordO) close bg cond (2 ^ c.attributes.length) []
      (close ∅ bg) c.attributes.length).isSome = true := by
  have S := h.totalSetup ordA ordO (hclose.good c.M)
  obtain ⟨res, hr, _⟩ := dgLoop_generic S hbg cond (2 ^ c.attributes.length) [] (close ∅ bg)
    c.attributes.length (S.cinto ∅ bg (by simp) hbg) le_rfl (by intro i hi; simp at hi) (by simp)
    (by simp) (Nat.sub_le _ _)
  rcases dgLoop_or_err (h.total_cases ordA ordO) (2 ^ c.attributes.length) [] (close ∅ bg)
    c.attributes.length with he | ⟨e, he⟩
  · rw [he, hr]; rfl
  · rw [he]; rfl

/-! ### C29 -/

/-- The iterator yields exactly the list computed by the list version (and raises iff it does). -/
theorem C29_iterator_eq_list {c : Ctx α β} (h : c.WFw) (ordA : SetOrder β) (ordO : SetOrder α)
    (bg : List (Imp β)) (hbg : ∀ i ∈ bg, i.conclusion ⊆ c.M) (cond : Finset β → Bool) :
    (∀ res, c.computeDgBasisSimple ordA ordO bg cond = .ok res ↔
      c.dgBasisIterSimple ordA ordO bg cond = (res, .done)) ∧
    (∀ e, c.computeDgBasisSimple ordA ordO bg cond = .error e ↔
      (c.dgBasisIterSimple ordA ordO bg cond).2 = .raised e) := by
  have hterm := C28_basis_terminates h ordA ordO simpleClosure bg (Or.inl rfl) hbg cond
  have hfuel : (dgBasisFuel c.attributes (c.dgAclose ordA ordO) simpleClosure bg cond).isSome := by
    rcases h.dgBasis_cases ordA ordO simpleClosure bg cond with he | ⟨e, he⟩
    · obtain ⟨res, hr, _⟩ := dgBasis_generic (h.totalSetup ordA ordO (goodClose_simple c.M)) hbg cond
      rw [he, hr]; rfl
    · rw [he]; rfl
  have key := dgIterLoop_eq c.attributes (c.dgAclose ordA ordO) simpleClosure bg cond
    (2 ^ c.attributes.length + 1) [] (simpleClosure ∅ bg) c.attributes.length
  unfold computeDgBasisSimple dgBasisWith dgBasisIterSimple dgBasis dgIter
  unfold dgBasisFuel at hfuel ⊢
  generalize dgIterLoop c.attributes (c.dgAclose ordA ordO) simpleClosure bg cond
    (2 ^ c.attributes.length + 1) [] (simpleClosure ∅ bg) c.attributes.length = r at key ⊢
  obtain ⟨ys, e⟩ := r
  rw [key] at hfuel ⊢
  cases e with
  | done => simp
  | raised e => simp [eq_comm]
  | outOfFuel => simp at hfuel

/-! ### C30 -/

/-- `compute_dg_basis` and `compute_dg_basis_simple` return the same list (or raise the same
exception) for every background without repeated implications. -/
theorem C30_lin_eq_simple {c : Ctx α β} (h : c.WFw) (ordA : SetOrder β) (ordO : SetOrder α)
    (ord₀ : SetOrder β) (ord : ℕ → SetOrder β) (bg : List (Imp β))
    (hbg : ∀ i ∈ bg, i.conclusion ⊆ c.M) (hnd : bg.Pairwise fun i j => i.pyEq j = false) (cond : Finset β → Bool) :
    c.computeDgBasis ordA ordO ord₀ ord bg cond = c.computeDgBasisSimple ordA ordO bg cond := by
  have S := h.totalSetup ordA ordO (goodClose_simple c.M)
  have key := dgBasis_congr S (aclose' := c.dgAclose ordA ordO) (close' := linClosure ord₀ ord)
    (h.total_cases ordA ordO) hbg
    (fun s basis => by
      have := (simpleClosure_isLeast s (basis ++ bg)).2.1
      rw [closed_specImps] at this ⊢
      exact fun i hi => this i (List.mem_append_right _ hi))
    (fun basis hb s _ => (goodBasis_lin ord₀ ord (pairwise_keys hnd) hb s).unique
      (simpleClosure_isLeast s _)) cond
  unfold computeDgBasis computeDgBasisSimple dgBasisWith dgBasis
  rw [key]

/-! ### Concrete cases -/

/-- The context of the docstring of `Context` (fca/context.py:120-136): four objects, four
attributes. -/
def demo : Ctx (Fin 4) (Fin 4) :=
  ⟨[0, 1, 2, 3], [0, 1, 2, 3], ⟨some 4,
    [[true, false, false, true], [true, false, true, false], [false, true, true, false],
     [false, true, true, true]]⟩⟩

example : demo.WFw := ⟨by decide, by decide, by decide, by decide, by decide⟩
example : demo.objects ≠ [] := by decide
example : demo.computeDgBasis (SetOrder.fin 4) (SetOrder.finRev 4) (SetOrder.fin 4)
    (fun _ => SetOrder.finRev 4) [] (fun _ => true) =
    .ok [⟨{2, 3}, {1, 2, 3}⟩, ⟨{1}, {1, 2}⟩, ⟨{0, 1, 2}, {0, 1, 2, 3}⟩] := by decide +kernel
example : demo.computeDgBasisSimple (SetOrder.fin 4) (SetOrder.finRev 4) [⟨{1}, {2}⟩]
    (fun _ => true) =
    .ok [⟨{2, 3}, {1, 2, 3}⟩, ⟨{0, 1, 2}, {0, 1, 2, 3}⟩] := by decide +kernel
example : demo.dgBasisIterSimple (SetOrder.fin 4) (SetOrder.finRev 4) [⟨{1}, {2}⟩]
    (fun s => decide (0 ∈ s)) =
    ([⟨{0, 2, 3}, {0, 1, 2, 3}⟩, ⟨{0, 1, 2}, {0, 1, 2, 3}⟩], .done) := by decide +kernel
example : demo.ValidBg [⟨{1}, {2}⟩] := by
  intro i hi
  rw [List.mem_singleton] at hi; subst hi
  refine ⟨by decide, ?_⟩
  have h : demo.WFw := ⟨by decide, by decide, by decide, by decide, by decide⟩
  simp only [HoldsIn, ← h.incB]
  decide
example : StdClose [(⟨{1}, {2}⟩ : Imp (Fin 4))] (linClosure (SetOrder.fin 4) fun _ => SetOrder.fin 4) :=
  Or.inr ⟨_, _, rfl, by decide⟩

/-- Completeness fails for `compute_dg_basis` (with `lin_closure`) when the background repeats an
implication: one object without attributes, background `{0,1} → {2}` given twice. The implication
`{1} → {0,1,2}` holds but does not follow from result and background. -/
theorem C25_repeated_background_violated :
    ∃ (c : Ctx (Fin 1) (Fin 3)) (bg res : List (Imp (Fin 3))), c.WFw ∧ c.ValidBg bg ∧
      c.computeDgBasis (SetOrder.fin 3) (SetOrder.fin 1) (SetOrder.fin 3) (fun _ => SetOrder.fin 3)
        bg (fun _ => true) = .ok res ∧
      HoldsIn c.G c.Inc {1} {0, 1, 2} ∧ ¬ Entails (specImps (res ++ bg)) {1} {0, 1, 2} := by
  have h : (⟨[0], [0, 1, 2], ⟨some 3, [[false, false, false]]⟩⟩ : Ctx (Fin 1) (Fin 3)).WFw :=
    ⟨by decide, by decide, by decide, by decide, by decide⟩
  refine ⟨_, [⟨{0, 1}, {2}⟩, ⟨{0, 1}, {2}⟩], [⟨{2}, {0, 1, 2}⟩], h, ?_, by decide +kernel, ?_, ?_⟩
  · intro i hi
    simp only [List.mem_cons, List.not_mem_nil, or_false, or_self] at hi
    subst hi
    refine ⟨by decide, ?_⟩
    simp only [HoldsIn, ← h.incB]
    decide
  · simp only [HoldsIn, ← h.incB]
    decide
  · intro he
    have := he {1} (by rw [closed_specImps]; decide) (by decide)
    exact absurd this (by decide)

/-- On a context without objects a valid background makes the computation raise `IndexError`
(the array of an object-free context is one-dimensional). -/
theorem C25_objectfree_background_violated :
    ∃ (c : Ctx (Fin 1) (Fin 2)) (bg : List (Imp (Fin 2))), c.WF ∧ c.ValidBg bg ∧
      ∀ ordA ordO, c.computeDgBasisSimple ordA ordO bg (fun _ => true) = .error .indexError := by
  refine ⟨⟨[], [0, 1], ⟨none, []⟩⟩, [⟨∅, {0}⟩],
    ⟨⟨by decide, by decide, by decide, by decide, by decide⟩, Or.inl rfl⟩, ?_, ?_⟩
  · intro i hi
    rw [List.mem_singleton] at hi; subst hi
    exact ⟨by decide, fun g hg => by simp [G] at hg⟩
  · intro ordA ordO
    have h0 : simpleClosure (∅ : Finset (Fin 2)) [⟨∅, {0}⟩] = {0} := by decide
    have hen : ordA.enum {0} = [0] := by
      have h1 := ordA.length {0}
      have h2 := ordA.mem {0}
      match hl : ordA.enum {0}, h1 with
      | [x], _ =>
        have := (h2 x).1 (by rw [hl]; simp)
        rw [Finset.mem_singleton] at this; rw [this]
    unfold computeDgBasisSimple dgBasisWith dgBasis dgBasisFuel
    rw [h0]
    simp only [List.length_cons, List.length_nil]
    rw [dgLoop, if_pos (by decide)]
    have : (⟨[], [0, 1], ⟨none, []⟩⟩ : Ctx (Fin 1) (Fin 2)).dgAclose ordA ordO {0}
        = .error .indexError := by
      unfold dgAclose
      rw [hen]
      rfl
    rw [this]
    rfl

/-- Without background the object-free case is fine: the basis is `∅ → M`. -/
example : (⟨[], [0, 1], ⟨none, []⟩⟩ : Ctx (Fin 1) (Fin 2)).computeDgBasisSimple (SetOrder.fin 2)
    (SetOrder.fin 1) [] (fun _ => true) = .ok [⟨∅, {0, 1}⟩] := by decide +kernel

end Ctx
