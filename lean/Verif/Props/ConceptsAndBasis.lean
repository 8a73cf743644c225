/-
Property C182: how many concepts a list of implications leaves, and how much longer than the basis a cover can be.
-/
import Verif.Props.BasisSize
import Verif.Props.ConceptCount
import Verif.Props.BasisChange
import Verif.Props.Realise
import Verif.Props.CoverExact
import Mathlib.Data.Finset.Interval

set_option linter.unusedSectionVars false

open Spec Cover

namespace Ctx

variable {α β : Type} [DecidableEq α] [DecidableEq β]

/-- C182: for every list of implications over the attributes from which all implications of the context follow: an
implication with premise `P` and conclusion `C` excludes `2 ** (n - len(P)) - 2 ** (n - len(P | C))` sets, and what no
implication excludes is an intent. -/
theorem C182_at_least {c : Ctx α β} (h : c.WFw) {cs : List (Concept α β)} (hcs : norris c = .ok cs) {L : Imps β}
    (hL : ∀ pc ∈ L, pc.1 ⊆ c.M ∧ pc.2 ⊆ c.M)
    (hc : ∀ P C, P ⊆ c.M → C ⊆ c.M → HoldsIn c.G c.Inc P C → Entails L P C) :
    2 ^ c.attributes.length ≤ cs.length +
      (L.map fun pc => 2 ^ (c.attributes.length - pc.1.card) - 2 ^ (c.attributes.length - (pc.1 ∪ pc.2).card)).sum := by
  have : PyName α := ⟨fun x _ => x⟩
  have : PyName β := ⟨fun x _ => x⟩
  obtain ⟨n1, m1⟩ := norris_intents h hcs
  have hM : c.M.card = c.attributes.length := List.toFinset_card_of_nodup h.anodup
  set ex : Finset β × Finset β → Finset (Finset β) := fun pc => Finset.Icc pc.1 c.M \ Finset.Icc (pc.1 ∪ pc.2) c.M with hex
  have hcard : ∀ pc ∈ L, (ex pc).card = 2 ^ (c.attributes.length - pc.1.card) -
      2 ^ (c.attributes.length - (pc.1 ∪ pc.2).card) := by
    intro pc hpc
    rw [hex]
    dsimp only
    rw [Finset.card_sdiff_of_subset (Finset.Icc_subset_Icc_left (by exact Finset.subset_union_left)),
      Finset.card_Icc_finset (hL pc hpc).1, Finset.card_Icc_finset (Finset.union_subset (hL pc hpc).1 (hL pc hpc).2), hM]
  have hun : ∀ K : Imps β, (K.foldr (fun pc acc => ex pc ∪ acc) ∅).card ≤ (K.map fun pc => (ex pc).card).sum := by
    intro K
    induction K with
    | nil => simp
    | cons pc K ih =>
      simp only [List.foldr_cons, List.map_cons, List.sum_cons]
      exact (Finset.card_union_le _ _).trans (by omega)
  have hmem : ∀ (K : Imps β) (S : Finset β), (∃ pc ∈ K, S ∈ ex pc) → S ∈ K.foldr (fun pc acc => ex pc ∪ acc) ∅ := by
    intro K S
    induction K with
    | nil => simp
    | cons pc K ih =>
      rintro ⟨q, hq, hS⟩
      simp only [List.foldr_cons, Finset.mem_union]
      rcases List.mem_cons.1 hq with rfl | hq
      · exact .inl hS
      · exact .inr (ih ⟨q, hq, hS⟩)
  have hsub : c.M.powerset ⊆ (cs.map fun x => x.intent).toFinset ∪ L.foldr (fun pc acc => ex pc ∪ acc) ∅ := by
    intro S hS
    have hS := Finset.mem_powerset.1 hS
    rw [Finset.mem_union, List.mem_toFinset, m1, isIntent_iff]
    by_cases hcl : Closed L S
    · left
      have hi := h.attrClosure_op.into S hS
      exact ⟨hS, Finset.Subset.antisymm
        (hc S _ hS hi ((holdsIn_iff h hi).2 (Finset.Subset.refl _)) S hcl (Finset.Subset.refl _)) (h.attrClosure_op.ext S hS)⟩
    · right
      unfold Closed Respects at hcl
      push Not at hcl
      obtain ⟨pc, hpc, hp, hq⟩ := hcl
      refine hmem L S ⟨pc, hpc, ?_⟩
      rw [hex]
      simp only [Finset.mem_sdiff, Finset.mem_Icc, not_and]
      exact ⟨⟨hp, hS⟩, fun hu => absurd (Finset.subset_union_right.trans hu) hq⟩
  have := (Finset.card_le_card hsub).trans (Finset.card_union_le _ _)
  rw [Finset.card_powerset, hM, List.toFinset_card_of_nodup n1, List.length_map] at this
  refine this.trans (Nat.add_le_add_left ((hun L).trans (le_of_eq ?_)) _)
  congr 1
  exact List.map_congr_left hcard

/-- C182: the basis itself. -/
theorem C182_basis {c : Ctx α β} (h : c.WFw) {cs : List (Concept α β)} (hcs : norris c = .ok cs) {res : List (Imp β)}
    (hr : c.BasisOf res) :
    2 ^ c.attributes.length ≤ cs.length +
      (res.map fun i => 2 ^ (c.attributes.length - i.premise.card) - 2 ^ (c.attributes.length - i.conclusion.card)).sum := by
  have : PyName α := ⟨fun x _ => x⟩
  have : PyName β := ⟨fun x _ => x⟩
  have hr' := hr
  obtain ⟨ordA, ordO, close, h1, h2⟩ := hr
  have hs := C24_basis_sound h ordA ordO close [] _ res h2
  have hcM : ∀ i ∈ res, i.conclusion ⊆ c.M := by
    intro i hi m hm
    rw [(hs i hi).2.2.1, ← h.aclF_eq] at hm
    exact List.mem_toFinset.2 (h.mem_aclF.1 hm).1
  have key := C182_at_least h hcs (L := specImps res) (by
    intro pc hpc
    obtain ⟨i, hi, rfl⟩ := List.mem_map.1 hpc
    exact ⟨(hs i hi).2.2.2.1.1.trans (hcM i hi), hcM i hi⟩) fun P C hP hC hh => (hr'.entails h hP hC).2 hh
  refine key.trans (Nat.add_le_add_left (le_of_eq ?_) _)
  unfold specImps
  rw [List.map_map]
  congr 1
  refine List.map_congr_left fun i hi => ?_
  show 2 ^ (_ - i.premise.card) - 2 ^ (_ - (i.premise ∪ i.conclusion).card) = _
  rw [Finset.union_eq_right.2 (hs i hi).2.2.2.1.1]

/-! ### A cover much longer than the basis -/

/-- `n` pairs of attributes and one more. The first attribute of a pair implies the second, and all second attributes
together imply the last attribute. -/
def ladder (n : ℕ) : Imps (Option (Fin n × Bool)) :=
  (List.finRange n).map (fun i => ({some (i, false)}, {some (i, true)})) ++
    [(Finset.univ.image fun i => some (i, true), {none})]

/-- Object `(i, some false)` lacks the first attribute of the pair `i`, `(i, some true)` both, and `(i, none)` both and the
last attribute. -/
def ladderRel {n : ℕ} : Fin n × Option Bool → Option (Fin n × Bool) → Bool
  | (i, some b), some x => decide (x.1 = i → b = false ∧ x.2 = true)
  | (_, some _), none => true
  | (i, none), some x => decide (x.1 ≠ i)
  | (_, none), none => false

def ladderCtx (n : ℕ) : Ctx (Fin n × Option Bool) (Option (Fin n × Bool)) :=
  ⟨pairObjs n, pairAtts n ++ [none],
    ⟨some ((pairAtts n).length + 1), (pairObjs n).map fun g => (pairAtts n ++ [none]).map (ladderRel g)⟩⟩

theorem ladderCtx_wf (n : ℕ) : (ladderCtx n).WFw where
  onodup := pairObjs_nodup n
  anodup := pairAtts_nodup' n
  nrows := by simp [ladderCtx]
  width := by
    intro r hr
    obtain ⟨i, -, rfl⟩ := List.mem_map.1 hr
    simp [ladderCtx]
  shape := fun _ => by simp [ladderCtx]

theorem ladderCtx_inc {n : ℕ} (g : Fin n × Option Bool) (m : Option (Fin n × Bool)) :
    (ladderCtx n).Inc g m ↔ ladderRel g m = true := by
  obtain ⟨i, hi⟩ := List.mem_iff_getElem?.1 (mem_pairObjs g)
  have hm : m ∈ pairAtts n ++ [none] := by
    rw [List.mem_append, mem_pairAtts, List.mem_singleton]; tauto
  obtain ⟨j, hj⟩ := List.mem_iff_getElem?.1 hm
  rw [inc_iff (c := ladderCtx n) (pairObjs_nodup n) (pairAtts_nodup' n) hi hj]
  unfold Bit
  simp only [ladderCtx, List.getElem?_map, hi, Option.map_some]
  constructor
  · rintro ⟨r, h1, h2⟩
    cases h1
    rw [List.getElem?_map, hj] at h2
    simpa using h2
  · intro h
    refine ⟨_, rfl, ?_⟩
    rw [List.getElem?_map, hj]
    simp [h]

theorem ladderCtx_M (n : ℕ) : (ladderCtx n).M = Finset.univ := pairsCtx_M n

theorem ladderCtx_G (n : ℕ) : (ladderCtx n).G = Finset.univ := pairsCtx_G n

theorem ladder_closed {n : ℕ} {S : Finset (Option (Fin n × Bool))} :
    Closed (ladder n) S ↔ (∀ i, some (i, false) ∈ S → some (i, true) ∈ S) ∧ ((∀ i, some (i, true) ∈ S) → none ∈ S) := by
  unfold Closed Respects ladder
  simp only [List.mem_append, List.mem_map, List.mem_finRange, true_and, List.mem_singleton]
  constructor
  · intro h
    constructor
    · intro i hi
      simpa using h _ (.inl ⟨i, rfl⟩) (by simpa using hi)
    · intro hall
      refine Finset.singleton_subset_iff.1 (h _ (.inr rfl) ?_)
      intro m hm
      obtain ⟨i, -, rfl⟩ := Finset.mem_image.1 hm
      exact hall i
  · rintro ⟨h1, h2⟩ pc (⟨i, rfl⟩ | rfl)
    · simpa using h1 i
    · intro hp
      exact Finset.singleton_subset_iff.2 (h2 fun i => hp (Finset.mem_image.2 ⟨i, Finset.mem_univ _, rfl⟩))

/-- The implications of the context are the consequences of the list. -/
theorem ladderCtx_theory (n : ℕ) : (ladderCtx n).TheoryIs (ladder n) := by
  rw [C180_theory_iff (ladderCtx_wf n) (fun pc _ => by rw [ladderCtx_M]; exact Finset.subset_univ _)]
  simp only [ladderCtx_G, ladderCtx_M, Finset.mem_univ, true_imp_iff, true_and, Finset.subset_univ]
  constructor
  · intro pc hpc g _ hp m hm
    simp only [ladderCtx_inc] at hp ⊢
    unfold ladder at hpc
    rw [List.mem_append, List.mem_map, List.mem_singleton] at hpc
    rcases hpc with ⟨i, -, rfl⟩ | rfl
    · have h1 := hp (some (i, false)) (by simp)
      simp only [Finset.mem_singleton] at hm
      subst hm
      obtain ⟨j, _ | b⟩ := g
      · simpa [ladderRel] using h1
      · simp only [ladderRel, decide_eq_true_eq] at h1 ⊢
        intro he
        have := (h1 he).2
        simp at this
    · simp only [Finset.mem_singleton] at hm
      subst hm
      obtain ⟨j, _ | b⟩ := g
      · have h1 := hp (some (j, true)) (Finset.mem_image.2 ⟨j, Finset.mem_univ _, rfl⟩)
        simp [ladderRel] at h1
      · rfl
  · intro S hcl m hm
    rw [ladder_closed] at hcl
    simp only [ladderCtx_inc]
    obtain _ | ⟨i, b⟩ := m
    · have : ¬ ∀ i, some (i, true) ∈ S := fun hall => hm (hcl.2 hall)
      push Not at this
      obtain ⟨i, hi⟩ := this
      refine ⟨(i, none), fun s hs => ?_, by simp [ladderRel]⟩
      obtain _ | ⟨j, b⟩ := s
      · exact absurd hs hm
      · simp only [ladderRel, decide_eq_true_eq]
        rintro rfl
        cases b
        · exact hi (hcl.1 _ hs)
        · exact hi hs
    · refine ⟨(i, some b), fun s hs => ?_, ?_⟩
      · obtain _ | ⟨j, b'⟩ := s
        · rfl
        · simp only [ladderRel, decide_eq_true_eq]
          rintro rfl
          cases b <;> cases b' <;> simp_all
      · cases b <;> simp [ladderRel]

theorem mem_attrClosure_iff {c : Ctx α β} (h : c.WFw) {L : Imps β} (ht : c.TheoryIs L) {S : Finset β} (hS : S ⊆ c.M) {m : β}
    (hm : m ∈ c.M) : m ∈ attrClosure c.G c.M c.Inc S ↔ Entails L S {m} := by
  rw [← ht S {m} hS (Finset.singleton_subset_iff.2 hm), holdsIn_iff h (Finset.singleton_subset_iff.2 hm),
    Finset.singleton_subset_iff]

/-- C182: a context with `3 * n` objects and `2 * n + 1` attributes whose basis has at most `n + 1` implications and for
which `compute_implication_cover` returns at least `2 ** n`, of which `minimize` leaves at most `n + 1`. -/
theorem C182_cover_exponential (n : ℕ) (ord : ℕ → SetOrder (Option (Fin n × Bool))) {res : List (Imp (Option (Fin n × Bool)))}
    (hr : (ladderCtx n).BasisOf res) :
    (ladderCtx n).WFw ∧ (ladderCtx n).objects.length = 3 * n ∧ (ladderCtx n).attributes.length = 2 * n + 1 ∧
    res.length ≤ n + 1 ∧ ∃ B r, computeCover (ladderCtx n) ord = .ok B ∧ 2 ^ n ≤ B.length ∧ minimize B = .ok r ∧
      r.length ≤ n + 1 := by
  have h := ladderCtx_wf n
  have ht := ladderCtx_theory n
  have hsz := C179_family n
  have hlen : res.length ≤ n + 1 := by
    have := (C180_basis h (fun pc _ => by rw [ladderCtx_M]; exact Finset.subset_univ _) ht hr).2
    simpa [ladder] using this
  refine ⟨h, hsz.2.1, hsz.2.2, hlen, ?_⟩
  · obtain ⟨B, h1, -, h3⟩ := C167_cover h (by simp [ladderCtx]) ord
    obtain ⟨ordA, ordO, close, hcl, hD⟩ := hr
    obtain ⟨B', r, k1, k2, k3⟩ := C130_canonical h ord ordA ordO close hcl hD
    rw [h1] at k1; cases k1
    refine ⟨B, r, h1, ?_, k2, by have := k3.length_eq; simp only [List.length_map] at this; omega⟩
    have hM : ∀ S : Finset (Option (Fin n × Bool)), S ⊆ (ladderCtx n).M := fun S => by
      rw [ladderCtx_M]; exact Finset.subset_univ _
    have hmem : ∀ {S : Finset (Option (Fin n × Bool))} {m}, m ∈ attrClosure (ladderCtx n).G (ladderCtx n).M (ladderCtx n).Inc S ↔
        Entails (ladder n) S {m} := fun {S m} => mem_attrClosure_iff h ht (hM S) (by rw [ladderCtx_M]; exact Finset.mem_univ _)
    have hleft : ∀ f : Fin n → Bool, LeftMinimal (ladderCtx n).M
        (attrClosure (ladderCtx n).G (ladderCtx n).M (ladderCtx n).Inc) (transversal f) := by
      intro f
      have hz : none ∈ attrClosure (ladderCtx n).G (ladderCtx n).M (ladderCtx n).Inc (transversal f) := by
        rw [hmem]
        intro S hS hf
        rw [ladder_closed] at hS
        refine Finset.singleton_subset_iff.2 (hS.2 fun i => ?_)
        have hi := hf (mem_transversal.2 ⟨i, rfl⟩)
        cases hfi : f i
        · rw [hfi] at hi; exact hS.1 i hi
        · rw [hfi] at hi; exact hi
      have hnone : none ∉ transversal f := by simp [transversal]
      refine ⟨hM _, fun he => hnone (he ▸ hz), fun Q hQ hs => ?_⟩
      have hzQ := (Finset.mem_sdiff.1 (hs (Finset.mem_sdiff.2 ⟨hz, hnone⟩))).1
      rw [hmem] at hzQ
      obtain ⟨m, hm, hmQ⟩ := Finset.exists_of_ssubset hQ
      obtain ⟨i, rfl⟩ := mem_transversal.1 hm
      have hcl : Closed (ladder n) (Finset.univ.filter fun m => m ≠ none ∧ m ≠ some (i, false) ∧ m ≠ some (i, true)) := by
        rw [ladder_closed]
        constructor
        · intro j hj
          simp only [Finset.mem_filter, Finset.mem_univ, true_and, ne_eq, Option.some.injEq, Prod.mk.injEq] at hj ⊢
          simp_all
        · intro hall
          have := hall i
          simp at this
      have := hzQ _ hcl (by
        intro x hx
        obtain ⟨j, rfl⟩ := mem_transversal.1 (hQ.1 hx)
        have hji : j ≠ i := by rintro rfl; exact hmQ hx
        simp [hji])
      simp at this
    have hsub : Finset.univ.image (transversal (n := n)) ⊆ (B.map Imp.premise).toFinset := by
      intro P hP
      obtain ⟨f, -, rfl⟩ := Finset.mem_image.1 hP
      have := (h3 (transversal f) _).2 ⟨hleft f, rfl⟩
      obtain ⟨b, hb, hbk⟩ := List.mem_map.1 this
      exact List.mem_toFinset.2 (List.mem_map.2 ⟨b, hb, (Prod.mk.inj hbk).1⟩)
    have hc := (Finset.card_le_card hsub).trans (List.toFinset_card_le _)
    rw [Finset.card_image_of_injective _ (transversal_injective n), List.length_map] at hc
    simpa using hc

/-! ### Concrete cases -/

/-- Five concepts, and `a → abc` excludes three sets: the bound of `C182_basis` is attained. -/
example : chainCtx.WFw ∧ (∃ cs, norris chainCtx = .ok cs ∧ cs.length = 5) ∧ chainCtx.BasisOf [⟨{0}, {0, 1, 2}⟩] ∧
    5 + (2 ^ (3 - ({0} : Finset (Fin 3)).card) - 2 ^ (3 - ({0, 1, 2} : Finset (Fin 3)).card)) = 2 ^ 3 := by
  refine ⟨chainCtx_wf, ?_, ⟨.fin 3, .fin 3, simpleClosure, .inl rfl, by decide +kernel⟩, by decide⟩
  obtain ⟨cs, hcs, -, -⟩ := C34_norris chainCtx_wf
  have : (norris chainCtx).map List.length = .ok 5 := by decide +kernel
  rw [hcs] at this
  exact ⟨cs, hcs, Except.ok.inj this⟩

/-- The list `a → b`, `ab → c` is not the basis; together its implications exclude three sets, too. -/
example : (∀ pc ∈ specImps chainImps, pc.1 ⊆ chainCtx.M ∧ pc.2 ⊆ chainCtx.M) ∧
    (∀ P C, P ⊆ chainCtx.M → C ⊆ chainCtx.M → HoldsIn chainCtx.G chainCtx.Inc P C → Entails (specImps chainImps) P C) ∧
    (chainImps.map fun i => 2 ^ (3 - i.premise.card) - 2 ^ (3 - (i.premise ∪ i.conclusion).card)).sum = 3 :=
  ⟨by decide +kernel, fun P C hP hC => (chainCtx_theory P C hP hC).1, by decide +kernel⟩

/-- A basis for the hypothesis of `C182_cover_exponential`. -/
example (n : ℕ) (hn : 1 ≤ n) (ordA : SetOrder (Option (Fin n × Bool))) (ordO : SetOrder (Fin n × Option Bool)) :
    ∃ res, (ladderCtx n).BasisOf res := by
  obtain ⟨res, hres⟩ := C24_basis_returns (ladderCtx_wf n) (pairObjs_ne hn) ordA ordO simpleClosure [] (.inl rfl) (by simp)
    (fun _ => true)
  exact ⟨res, ordA, ordO, simpleClosure, .inl rfl, hres⟩

end Ctx
