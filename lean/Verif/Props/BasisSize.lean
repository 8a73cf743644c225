/-
Property C179: how large the basis of a small context can be. For every `n ≥ 1` there is a context with `3 n` objects
and `2 n + 1` attributes whose basis has exactly `2 ^ n` implications, no complete list of implications is shorter, and
the last attribute alone is responsible: without it the basis is empty.
-/
import Verif.Props.BasisChange
import Verif.Props.ExploreCount
import Mathlib.Data.Fintype.BigOperators
import Mathlib.Data.Fintype.Prod
import Mathlib.Data.Fintype.Option

set_option linter.unusedSectionVars false

open Spec

namespace Ctx

/-! ### The family -/

/-- Attributes `some (i, b)` come in `n` pairs, and there is one more, `none`. Object `(i, some b)` lacks the attribute
`some (i, b)` alone, object `(i, none)` lacks both attributes of the pair `i` and `none`. -/
def pairRel {n : ℕ} : Fin n × Option Bool → Option (Fin n × Bool) → Bool
  | (i, some b), some x => decide (x ≠ (i, b))
  | (_, some _), none => true
  | (i, none), some x => decide (x.1 ≠ i)
  | (_, none), none => false

def pairObjs (n : ℕ) : List (Fin n × Option Bool) :=
  (List.finRange n).flatMap fun i => [(i, none), (i, some false), (i, some true)]

def pairAtts (n : ℕ) : List (Option (Fin n × Bool)) :=
  (List.finRange n).flatMap fun i => [some (i, false), some (i, true)]

/-- The context without the last attribute. -/
def pairsCtx₀ (n : ℕ) : Ctx (Fin n × Option Bool) (Option (Fin n × Bool)) :=
  ⟨pairObjs n, pairAtts n, ⟨some (pairAtts n).length, (pairObjs n).map fun g => (pairAtts n).map (pairRel g)⟩⟩

def pairsCtx (n : ℕ) : Ctx (Fin n × Option Bool) (Option (Fin n × Bool)) :=
  ⟨pairObjs n, pairAtts n ++ [none],
    ⟨some ((pairAtts n).length + 1), (pairObjs n).map fun g => (pairAtts n ++ [none]).map (pairRel g)⟩⟩

theorem mem_pairObjs {n : ℕ} (g : Fin n × Option Bool) : g ∈ pairObjs n := by
  obtain ⟨i, _ | _ | _⟩ := g <;> simp [pairObjs]

theorem mem_pairAtts {n : ℕ} (m : Option (Fin n × Bool)) : m ∈ pairAtts n ↔ m ≠ none := by
  obtain _ | ⟨i, _ | _⟩ := m <;> simp [pairAtts]

theorem pairObjs_nodup (n : ℕ) : (pairObjs n).Nodup := by
  unfold pairObjs
  rw [List.nodup_flatMap]
  refine ⟨fun i _ => by simp, (List.nodup_finRange n).imp ?_⟩
  intro i j hij x hx hy
  simp only [List.mem_cons, List.not_mem_nil, or_false] at hx hy
  rcases hx with rfl | rfl | rfl <;> simp_all

theorem pairAtts_nodup (n : ℕ) : (pairAtts n).Nodup := by
  unfold pairAtts
  rw [List.nodup_flatMap]
  refine ⟨fun i _ => by simp, (List.nodup_finRange n).imp ?_⟩
  intro i j hij x hx hy
  simp only [List.mem_cons, List.not_mem_nil, or_false] at hx hy
  rcases hx with rfl | rfl <;> simp_all

theorem pairAtts_nodup' (n : ℕ) : (pairAtts n ++ [none]).Nodup := by
  rw [List.nodup_append]
  refine ⟨pairAtts_nodup n, by simp, ?_⟩
  rintro x hx y hy rfl
  rw [List.mem_singleton] at hy
  exact (mem_pairAtts x).1 hx hy

theorem pairsCtx_wf (n : ℕ) : (pairsCtx n).WFw where
  onodup := pairObjs_nodup n
  anodup := pairAtts_nodup' n
  nrows := by simp [pairsCtx]
  width := by
    intro r hr
    obtain ⟨i, -, rfl⟩ := List.mem_map.1 hr
    simp [pairsCtx]
  shape := fun _ => by simp [pairsCtx]

theorem pairsCtx₀_wf (n : ℕ) : (pairsCtx₀ n).WFw where
  onodup := pairObjs_nodup n
  anodup := pairAtts_nodup n
  nrows := by simp [pairsCtx₀]
  width := by
    intro r hr
    obtain ⟨i, -, rfl⟩ := List.mem_map.1 hr
    simp [pairsCtx₀]
  shape := fun _ => by simp [pairsCtx₀]

theorem pairsCtx_inc {n : ℕ} (g : Fin n × Option Bool) (m : Option (Fin n × Bool)) :
    (pairsCtx n).Inc g m ↔ pairRel g m = true := by
  obtain ⟨i, hi⟩ := List.mem_iff_getElem?.1 (mem_pairObjs g)
  have hm : m ∈ pairAtts n ++ [none] := by
    rw [List.mem_append, mem_pairAtts, List.mem_singleton]; tauto
  obtain ⟨j, hj⟩ := List.mem_iff_getElem?.1 hm
  rw [inc_iff (c := pairsCtx n) (pairObjs_nodup n) (pairAtts_nodup' n) hi hj]
  unfold Bit
  simp only [pairsCtx, List.getElem?_map, hi, Option.map_some]
  constructor
  · rintro ⟨r, h1, h2⟩
    cases h1
    rw [List.getElem?_map, hj] at h2
    simpa using h2
  · intro h
    refine ⟨_, rfl, ?_⟩
    rw [List.getElem?_map, hj]
    simp [h]

theorem pairsCtx₀_inc {n : ℕ} (g : Fin n × Option Bool) (m : Option (Fin n × Bool)) (hm : m ≠ none) :
    (pairsCtx₀ n).Inc g m ↔ pairRel g m = true := by
  obtain ⟨i, hi⟩ := List.mem_iff_getElem?.1 (mem_pairObjs g)
  obtain ⟨j, hj⟩ := List.mem_iff_getElem?.1 ((mem_pairAtts m).2 hm)
  rw [inc_iff (c := pairsCtx₀ n) (pairObjs_nodup n) (pairAtts_nodup n) hi hj]
  unfold Bit
  simp only [pairsCtx₀, List.getElem?_map, hi, Option.map_some]
  constructor
  · rintro ⟨r, h1, h2⟩
    cases h1
    rw [List.getElem?_map, hj] at h2
    simpa using h2
  · intro h
    refine ⟨_, rfl, ?_⟩
    rw [List.getElem?_map, hj]
    simp [h]

theorem pairsCtx_M (n : ℕ) : (pairsCtx n).M = Finset.univ := by
  ext m
  simp only [M, pairsCtx, List.mem_toFinset, List.mem_append, mem_pairAtts, List.mem_singleton, Finset.mem_univ, iff_true]
  tauto

theorem pairsCtx_G (n : ℕ) : (pairsCtx n).G = Finset.univ := by
  ext g
  simp [G, pairsCtx, mem_pairObjs]

/-! ### Its closures and pseudo-intents -/

/-- One attribute of every pair. -/
def transversal {n : ℕ} (f : Fin n → Bool) : Finset (Option (Fin n × Bool)) :=
  Finset.univ.image fun i => some (i, f i)

theorem mem_transversal {n : ℕ} {f : Fin n → Bool} {m : Option (Fin n × Bool)} :
    m ∈ transversal f ↔ ∃ i, m = some (i, f i) := by
  simp [transversal, eq_comm]

theorem transversal_injective (n : ℕ) : Function.Injective (transversal (n := n)) := by
  intro f g h
  funext i
  have : some (i, f i) ∈ transversal g := h ▸ mem_transversal.2 ⟨i, rfl⟩
  obtain ⟨j, hj⟩ := mem_transversal.1 this
  simp only [Option.some.injEq, Prod.mk.injEq] at hj
  rw [hj.2, hj.1]

theorem pairs_closure_some {n : ℕ} (X : Finset (Option (Fin n × Bool))) (x : Fin n × Bool) :
    some x ∈ attrClosure (pairsCtx n).G (pairsCtx n).M (pairsCtx n).Inc X ↔ some x ∈ X := by
  unfold attrClosure
  simp only [pairsCtx_M, pairsCtx_G, Finset.mem_filter, Finset.mem_univ, true_and, pairsCtx_inc, forall_const]
  constructor
  · intro h
    by_contra hx
    have := h (x.1, some x.2) (by
      rintro (_ | b) hb
      · rfl
      · simp only [pairRel, decide_eq_true_eq]
        rintro rfl
        exact hx hb)
    simp [pairRel] at this
  · exact fun h g hg => hg _ h

theorem pairs_closure_none {n : ℕ} (X : Finset (Option (Fin n × Bool))) :
    none ∈ attrClosure (pairsCtx n).G (pairsCtx n).M (pairsCtx n).Inc X ↔
      none ∈ X ∨ ∀ i, ∃ b, some (i, b) ∈ X := by
  unfold attrClosure
  simp only [pairsCtx_M, pairsCtx_G, Finset.mem_filter, Finset.mem_univ, true_and, pairsCtx_inc, forall_const]
  constructor
  · intro h
    by_contra hX
    push Not at hX
    obtain ⟨h1, i, h2⟩ := hX
    have := h (i, none) (by
      rintro (_ | ⟨j, b⟩) hb
      · exact absurd hb h1
      · simp only [pairRel, decide_eq_true_eq]
        rintro rfl
        exact h2 b hb)
    simp [pairRel] at this
  · rintro (h | h) ⟨i, _ | b⟩ hg
    · exact hg _ h
    · rfl
    · obtain ⟨b, hb⟩ := h i
      have := hg _ hb
      simp [pairRel] at this
    · rfl

theorem pairs_pseudo_of {n : ℕ} (f : Fin n → Bool) :
    IsPseudo (pairsCtx n).M [] (attrClosure (pairsCtx n).G (pairsCtx n).M (pairsCtx n).Inc) (transversal f) := by
  have hnone : none ∉ transversal f := by simp [transversal]
  rw [IsPseudo]
  refine ⟨by rw [pairsCtx_M]; exact Finset.subset_univ _, by simp [Closed], ?_, ?_⟩
  · intro h
    apply hnone
    rw [← h, pairs_closure_none]
    exact .inr fun i => ⟨f i, mem_transversal.2 ⟨i, rfl⟩⟩
  · intro Q hQ hps
    exfalso
    rw [IsPseudo] at hps
    apply hps.2.2.1
    obtain ⟨m, hm, hmQ⟩ := Finset.exists_of_ssubset hQ
    obtain ⟨i, rfl⟩ := mem_transversal.1 hm
    ext (_ | x)
    · rw [pairs_closure_none]
      constructor
      · rintro (h | h)
        · exact h
        · obtain ⟨b, hb⟩ := h i
          obtain ⟨j, hj⟩ := mem_transversal.1 (hQ.1 hb)
          simp only [Option.some.injEq, Prod.mk.injEq] at hj
          obtain ⟨rfl, rfl⟩ := hj
          exact absurd hb hmQ
      · exact .inl
    · rw [pairs_closure_some]

theorem pairs_pseudo_iff {n : ℕ} (P : Finset (Option (Fin n × Bool))) :
    IsPseudo (pairsCtx n).M [] (attrClosure (pairsCtx n).G (pairsCtx n).M (pairsCtx n).Inc) P ↔
      ∃ f, P = transversal f := by
  refine ⟨fun h => ?_, fun ⟨f, hf⟩ => hf ▸ pairs_pseudo_of f⟩
  rw [IsPseudo] at h
  obtain ⟨-, -, h3, h4⟩ := h
  have hno : none ∉ P := by
    intro hP
    apply h3
    ext (_ | x)
    · rw [pairs_closure_none]; tauto
    · rw [pairs_closure_some]
  have hall : ∀ i, ∃ b, some (i, b) ∈ P := by
    by_contra hex
    apply h3
    ext (_ | x)
    · rw [pairs_closure_none]; tauto
    · rw [pairs_closure_some]
  choose f hf using hall
  have hsub : transversal f ⊆ P := by
    intro m hm
    obtain ⟨i, rfl⟩ := mem_transversal.1 hm
    exact hf i
  refine ⟨f, ?_⟩
  by_contra hne
  apply hno
  apply h4 (transversal f) (Finset.ssubset_iff_subset_ne.2 ⟨hsub, Ne.symm hne⟩) (pairs_pseudo_of f)
  rw [pairs_closure_none]
  exact .inr fun i => ⟨f i, mem_transversal.2 ⟨i, rfl⟩⟩

/-! ### C179 -/

/-- The size of the context. -/
theorem C179_family (n : ℕ) : (pairsCtx n).WFw ∧ (pairsCtx n).objects.length = 3 * n ∧
    (pairsCtx n).attributes.length = 2 * n + 1 := by
  refine ⟨pairsCtx_wf n, ?_, ?_⟩
  · simp [pairsCtx, pairObjs, Nat.mul_comm]
  · simp [pairsCtx, pairAtts, Nat.mul_comm]

theorem pairObjs_ne {n : ℕ} (hn : 1 ≤ n) : pairObjs n ≠ [] := by
  intro h
  have : ((⟨0, hn⟩, none) : Fin n × Option Bool) ∈ pairObjs n := mem_pairObjs _
  rw [h] at this
  simp at this

/-- C179: the basis is computed, by every closure and in every iteration order; it consists of the implications from
one attribute of every pair to the last attribute, and there are `2 ^ n` of them. -/
theorem C179_basis_size {n : ℕ} (hn : 1 ≤ n) (ordA : SetOrder (Option (Fin n × Bool))) (ordO : SetOrder (Fin n × Option Bool))
    (close : Finset (Option (Fin n × Bool)) → List (Imp (Option (Fin n × Bool))) → Finset (Option (Fin n × Bool)))
    (hclose : StdClose [] close) :
    ∃ res, (pairsCtx n).dgBasisWith ordA ordO close [] (fun _ => true) = .ok res ∧ res.length = 2 ^ n ∧
      ∀ i, i ∈ res ↔ ∃ f : Fin n → Bool, i = ⟨transversal f, insert none (transversal f)⟩ := by
  obtain ⟨res, hres⟩ := C24_basis_returns (pairsCtx_wf n) (pairObjs_ne hn) ordA ordO close [] hclose (by simp) (fun _ => true)
  obtain ⟨h1, -⟩ := dg_main (pairsCtx_wf n) hclose (by simp) hres
  obtain ⟨h2, -, h3, -⟩ := C26_basis_pseudo_intents (pairsCtx_wf n) ordA ordO close [] hclose (fun i hi => by simp at hi) res hres
  refine ⟨res, hres, ?_, ?_⟩
  · have : (res.map Imp.premise).toFinset = Finset.univ.image (transversal (n := n)) := by
      ext P
      rw [List.mem_toFinset, h2]
      show IsPseudo _ [] _ P ↔ _
      rw [pairs_pseudo_iff]
      simp [eq_comm]
    have := congrArg Finset.card this
    rwa [List.toFinset_card_of_nodup h3, List.length_map, Finset.card_image_of_injective _ (transversal_injective n),
      Finset.card_univ, Fintype.card_fun, Fintype.card_bool, Fintype.card_fin] at this
  · have hcl : ∀ f : Fin n → Bool, attrClosure (pairsCtx n).G (pairsCtx n).M (pairsCtx n).Inc (transversal f) =
        insert none (transversal f) := by
      intro f
      ext (_ | x)
      · rw [pairs_closure_none]
        simp only [Finset.mem_insert, true_or, iff_true]
        exact .inr fun i => ⟨f i, mem_transversal.2 ⟨i, rfl⟩⟩
      · rw [pairs_closure_some]; simp
    rintro ⟨P, C⟩
    rw [h1]
    show IsPseudo _ [] _ P ∧ C = attrClosure _ _ _ P ↔ _
    rw [pairs_pseudo_iff]
    constructor
    · rintro ⟨⟨f, rfl⟩, rfl⟩
      exact ⟨f, by rw [hcl]⟩
    · rintro ⟨f, hf⟩
      cases hf
      exact ⟨⟨f, rfl⟩, (hcl f).symm⟩

/-- C179: no list of implications that is valid in this context and from which all valid ones follow is shorter than
`2 ^ n`. -/
theorem C179_no_shorter_list {n : ℕ} (hn : 1 ≤ n) (L : Imps (Option (Fin n × Bool)))
    (hs : ∀ pc ∈ L, HoldsIn (pairsCtx n).G (pairsCtx n).Inc pc.1 pc.2)
    (hc : ∀ P C, HoldsIn (pairsCtx n).G (pairsCtx n).Inc P C → Entails L P C) : 2 ^ n ≤ L.length := by
  obtain ⟨ord⟩ : Nonempty (SetOrder (Option (Fin n × Bool))) := ⟨⟨fun s => s.toList, fun s => s.nodup_toList, by simp⟩⟩
  obtain ⟨ordO⟩ : Nonempty (SetOrder (Fin n × Option Bool)) := ⟨⟨fun s => s.toList, fun s => s.nodup_toList, by simp⟩⟩
  obtain ⟨res, h1, h2, -⟩ := C179_basis_size hn ord ordO simpleClosure (.inl rfl)
  rw [← h2]
  refine C27_basis_minimal (pairsCtx_wf n) _ _ _ [] (.inl rfl) (fun i hi => by simp at hi) res h1 L ?_ hs ?_
  · intro pc _
    rw [pairsCtx_M]
    exact Finset.subset_univ _
  · intro P C _ _ h
    simpa [specImps] using hc P C h

/-- C179: without the last attribute the basis is empty, and adding it with its extent by
`add_attribute_with_extent` gives the context with `2 ^ n` implications. -/
theorem C179_one_attribute {n : ℕ} [PyName (Fin n × Option Bool)] [PyName (Option (Fin n × Bool))] (hn : 1 ≤ n) :
    (∀ ordA ordO close, StdClose [] close → (pairsCtx₀ n).dgBasisWith ordA ordO close [] (fun _ => true) = .ok []) ∧
    (pairsCtx₀ n).addAttributeWithExtent (Finset.univ.filter fun g => g.2.isSome) none = (pairsCtx n, none) := by
  constructor
  · intro ordA ordO close hclose
    obtain ⟨res, hres⟩ := C24_basis_returns (pairsCtx₀_wf n) (pairObjs_ne hn) ordA ordO close [] hclose (by simp)
      (fun _ => true)
    rw [hres]
    obtain ⟨h1, -⟩ := dg_main (pairsCtx₀_wf n) hclose (by simp) hres
    cases res with
    | nil => rfl
    | cons x res =>
      exfalso
      have hx := ((h1 x).1 (by simp)).1
      rw [IsPseudo] at hx
      obtain ⟨hM, -, hne, -⟩ := hx
      apply hne
      have hM' : ∀ m, m ∈ (pairsCtx₀ n).M ↔ m ≠ none := by
        intro m
        simp only [M, pairsCtx₀, List.mem_toFinset, mem_pairAtts]
      refine Finset.Subset.antisymm ?_ ((pairsCtx₀_wf n).attrClosure_op.ext _ hM)
      intro m hm
      simp only [attrClosure, Finset.mem_filter] at hm
      obtain ⟨hm1, hm2⟩ := hm
      obtain _ | y := m
      · exact absurd rfl ((hM' _).1 hm1)
      by_contra hy
      have := hm2 (y.1, some y.2) (by simp [G, pairsCtx₀, mem_pairObjs]) (by
        intro b hb
        rw [pairsCtx₀_inc _ _ ((hM' b).1 (hM hb))]
        obtain _ | b := b
        · rfl
        · simp only [pairRel, decide_eq_true_eq]
          rintro rfl
          exact hy hb)
      rw [pairsCtx₀_inc _ _ (by simp)] at this
      simp [pairRel] at this
  · have hrow : List.zipWith (fun r b => r ++ [b]) ((pairObjs n).map fun g => (pairAtts n).map (pairRel g))
        ((pairObjs n).map fun o => decide (o ∈ (Finset.univ.filter fun g : Fin n × Option Bool => g.2.isSome))) =
        (pairObjs n).map fun g => (pairAtts n ++ [none]).map (pairRel g) := by
      rw [List.zipWith_map, List.zipWith_self]
      apply List.map_congr_left
      rintro ⟨i, _ | b⟩ _ <;> simp [pairRel]
    have h2 : (pairsCtx n).nd.rows ≠ [] := by simp [pairsCtx, pairObjs_ne hn]
    unfold addAttributeWithExtent addAttribute Nd.appendCol
    simp only [pairsCtx₀, List.length_map, if_true, hrow, py_ok_bind]
    rw [ofNd_dims (by simp) (by
      intro r hr
      obtain ⟨g, -, rfl⟩ := List.mem_map.1 hr
      simp)]
    rw [renameAll_nodup (pairObjs_nodup n), renameAll_nodup (pairAtts_nodup' n)]
    rfl

end Ctx

/-! ### Exploration -/

namespace EDB

/-- C179: an exploration without background that ends with this context has confirmed at least `2 ^ n` implications,
whatever was asked and answered in between. -/
theorem C179_exploration {n : ℕ} [PyName (Fin n × Option Bool)] [PyName (Option (Fin n × Bool))] (hn : 1 ≤ n)
    {E : Env (Fin n × Option Bool) (Option (Fin n × Bool))} (hE : E.cond = fun _ => true)
    {c : Ctx (Fin n × Option Bool) (Option (Fin n × Bool))} (h : c.WFw) (hne : c.objects ≠ [])
    {s₀ : EDB (Fin n × Option Bool) (Option (Fin n × Bool))} (hi : init E c [] = .ok s₀)
    {ops : List (Op (Fin n × Option Bool) (Option (Fin n × Bool)))} (hf : OkRun E s₀ ops)
    (hc : (run E s₀ ops).ctx = Ctx.pairsCtx n) (hfin : (run E s₀ ops).openImps = []) :
    2 ^ n ≤ (confirmed ops).length := by
  obtain ⟨res, h1, -, h3⟩ := C139_confirm_calls hE h hne (by simp) (by simp) List.Pairwise.nil hi hf _ rfl hfin
  have h1 := h1 E hE
  rw [hc] at h1
  unfold relBasis Ctx.computeDgBasis at h1
  rw [hE] at h1
  obtain ⟨res', h4, h5, -⟩ := Ctx.C179_basis_size hn E.ordA E.ordO _ (.inr ⟨E.ord₀, E.ord, rfl, List.Pairwise.nil⟩)
  simp only [List.filter_nil] at h1
  rw [h4] at h1
  cases h1
  omega

/-- C179: the bound is attained: starting with the context itself and confirming the open implications in the order shown,
the exploration finishes after exactly `2 ^ n` confirmations. -/
theorem C179_exploration_attained {n : ℕ} [PyName (Fin n × Option Bool)] [PyName (Option (Fin n × Bool))] (hn : 1 ≤ n)
    {E : Env (Fin n × Option Bool) (Option (Fin n × Bool))} (hE : E.cond = fun _ => true) :
    ∃ s₀, init E (Ctx.pairsCtx n) [] = .ok s₀ ∧ OkRun E s₀ (s₀.openImps.map .confirm) ∧
      (run E s₀ (s₀.openImps.map .confirm)).ctx = Ctx.pairsCtx n ∧ (run E s₀ (s₀.openImps.map .confirm)).openImps = [] ∧
      s₀.openImps.length = 2 ^ n := by
  obtain ⟨s, h1, h2, h3, h4⟩ := init_ok (E := E) (bg := []) (Ctx.pairsCtx_wf n) (Ctx.pairObjs_ne hn)
    (fun i hi => by simp at hi) (fun i hi => by simp at hi)
  have hb := h4.basis
  rw [h2, h3] at hb
  unfold relBasis Ctx.computeDgBasis at hb
  rw [hE] at hb
  have hcl : Ctx.StdClose [] (linClosure E.ord₀ E.ord) := .inr ⟨_, _, rfl, List.Pairwise.nil⟩
  obtain ⟨res, h5, h6, -⟩ := Ctx.C179_basis_size hn E.ordA E.ordO _ hcl
  obtain ⟨-, -, h7, -⟩ := Ctx.C26_basis_pseudo_intents (Ctx.pairsCtx_wf n) E.ordA E.ordO _ [] hcl (fun i hi => by simp at hi)
    _ hb
  rw [h5] at hb
  cases hb
  obtain ⟨k1, k2⟩ := C139_any_order hE (Ctx.pairsCtx_wf n) (Ctx.pairObjs_ne hn) (by simp) (by simp) List.Pairwise.nil h1
    (ops := []) trivial s rfl s.openImps
  have hok := k1.2 ⟨h7.of_map _, fun i hi => hi⟩
  obtain ⟨s', e1, e2, -, -, e5⟩ := k2 hok
  refine ⟨s, h1, hok, ?_, ?_, h6⟩
  · rw [e1, e2, h2]
  · rw [e1]; exact e5.2 (List.Perm.refl _)

end EDB

/-! ### Concrete cases -/

namespace Ctx

/-- `n = 1`: `a → a z` and `b → b z`, in three objects. -/
example : (pairsCtx 1).objects = [(0, none), (0, some false), (0, some true)] ∧
    (pairsCtx 1).attributes = [some (0, false), some (0, true), none] ∧
    (pairsCtx 1).nd.rows = [[false, false, false], [false, true, true], [true, false, true]] := by decide +kernel

/-- `n = 2`: six objects and five attributes; the four premises. -/
example : (pairsCtx 2).objects.length = 6 ∧ (pairsCtx 2).attributes.length = 5 ∧
    (Finset.univ.image (transversal (n := 2))).card = 4 := by decide +kernel

/-- A list as `C179_no_shorter_list` asks for: the two implications for `n = 1`. -/
example : ∃ L : Imps (Option (Fin 1 × Bool)), L.length = 2 ∧
    (∀ pc ∈ L, HoldsIn (pairsCtx 1).G (pairsCtx 1).Inc pc.1 pc.2) ∧
    ∀ P C, HoldsIn (pairsCtx 1).G (pairsCtx 1).Inc P C → Entails L P C := by
  let ord : SetOrder (Option (Fin 1 × Bool)) := ⟨fun s => s.toList, fun s => s.nodup_toList, by simp⟩
  obtain ⟨res, h1, h2, -⟩ := C179_basis_size (le_refl 1) ord ⟨fun s => s.toList, fun s => s.nodup_toList, by simp⟩
    simpleClosure (.inl rfl)
  refine ⟨specImps res, by simpa [specImps] using h2, ?_, ?_⟩
  · intro pc hpc
    obtain ⟨i, hi, rfl⟩ := List.mem_map.1 hpc
    exact (C24_basis_sound (pairsCtx_wf 1) _ _ _ [] _ res h1 i hi).1
  · intro P C h
    have := (C25_basis_complete (pairsCtx_wf 1) _ _ _ [] (.inl rfl) (fun i hi => by simp at hi) res h1 P C
      (by rw [pairsCtx_M]; exact Finset.subset_univ _) (by rw [pairsCtx_M]; exact Finset.subset_univ _)).1 h
    simpa using this

end Ctx
