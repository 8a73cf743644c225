/-
Property C180: contexts whose implications are exactly the consequences of a given list, the fewest objects such a context
has, and the shortest list with the same consequences.
-/
import Verif.Props.BasisIntents
import Verif.Props.BasisChange
import Verif.Props.DGRepeated
import Verif.Props.CoverCanonical
import Mathlib.Data.Fintype.Powerset

set_option linter.unusedSectionVars false

open Spec Cover

namespace Ctx

variable {α α' β : Type} [DecidableEq α] [DecidableEq α'] [DecidableEq β]

/-! ### Specification -/

/-- The implications between attributes that hold in the context are the consequences of `L`. -/
def TheoryIs (c : Ctx α β) (L : Imps β) : Prop :=
  ∀ P C, P ⊆ c.M → C ⊆ c.M → (HoldsIn c.G c.Inc P C ↔ Entails L P C)

/-- A closed set that is not the intersection of larger ones: some `m` is in all larger closed sets and not in it. -/
def MeetIrr (M : Finset β) (L : Imps β) (X : Finset β) : Prop :=
  X ⊆ M ∧ Closed L X ∧ ∃ m ∈ M, m ∉ X ∧ ∀ Y, Y ⊆ M → Closed L Y → X ⊂ Y → m ∈ Y

/-! ### Which contexts these are -/

/-- C180: the theory of a context is `L` if and only if `L` holds in it and every set closed under `L` is separated by an
object from every attribute outside. -/
theorem C180_theory_iff {c : Ctx α β} (h : c.WFw) {L : Imps β} (hL : ∀ pc ∈ L, pc.2 ⊆ c.M) :
    c.TheoryIs L ↔ (∀ pc ∈ L, HoldsIn c.G c.Inc pc.1 pc.2) ∧
      ∀ S, S ⊆ c.M → Closed L S → ∀ m ∈ c.M, m ∉ S → ∃ g ∈ c.G, (∀ s ∈ S, c.Inc g s) ∧ ¬ c.Inc g m := by
  constructor
  · intro H
    constructor
    · intro pc hpc
      by_cases hP : pc.1 ⊆ c.M
      · exact (H _ _ hP (hL pc hpc)).2 fun S hS => hS pc hpc
      · intro g _ hg
        exact absurd (fun m hm => List.mem_toFinset.2 (hg m hm).mem.2) hP
    · intro S hS hcl m hm hmS
      by_contra hno
      push Not at hno
      have : HoldsIn c.G c.Inc S {m} := fun g hg hs x hx => by
        rw [Finset.mem_singleton] at hx
        exact hx ▸ hno g hg hs
      exact hmS ((H _ _ hS (Finset.singleton_subset_iff.2 hm)).1 this S hcl (Finset.Subset.refl _) (by simp))
  · rintro ⟨h1, h2⟩ P C hP hC
    rw [holdsIn_iff h hC]
    constructor
    · intro hh S hS hPS m hm
      by_contra hmS
      have hSM : Closed L (S ∩ c.M) := by
        intro pc hpc hp x hx
        exact Finset.mem_inter.2 ⟨hS pc hpc (hp.trans Finset.inter_subset_left) hx, hL pc hpc hx⟩
      obtain ⟨g, hg, hg1, hg2⟩ := h2 (S ∩ c.M) Finset.inter_subset_right hSM m (hC hm)
        (fun hc => hmS (Finset.mem_inter.1 hc).1)
      exact hg2 ((holdsIn_iff h hC).2 hh g hg (fun p hp => hg1 p (Finset.mem_inter.2 ⟨hPS hp, hP hp⟩)) m hm)
    · intro hh
      exact hh _ (closed_of_eq h h1 hL (h.attrClosure_op.idem P hP)) (h.attrClosure_op.ext P hP)

/-- The closed sets are the intents. -/
theorem TheoryIs.closed_iff {c : Ctx α β} (h : c.WFw) {L : Imps β} (hL : ∀ pc ∈ L, pc.2 ⊆ c.M) (ht : c.TheoryIs L)
    {S : Finset β} (hS : S ⊆ c.M) : Closed L S ↔ attrClosure c.G c.M c.Inc S = S := by
  have ht' := (C180_theory_iff h hL).1 ht
  constructor
  · intro hcl
    refine Finset.Subset.antisymm ?_ (h.attrClosure_op.ext S hS)
    have hi := h.attrClosure_op.into S hS
    exact (ht S _ hS hi).1 ((holdsIn_iff h hi).2 (Finset.Subset.refl _)) S hcl (Finset.Subset.refl _)
  · exact closed_of_eq h ht'.1 hL

/-- C180: every list of implications is the theory of a context, for example of the one whose objects are the closed
sets; its objects need only separate. -/
theorem C180_closed_sets {atts : List β} (ha : atts.Nodup) {L : Imps β} (hL : ∀ pc ∈ L, pc.2 ⊆ atts.toFinset)
    {F : List (Finset β)} (hF : F.Nodup) (hmem : ∀ S, S ∈ F ↔ S ⊆ atts.toFinset ∧ Closed L S) :
    (famCtx atts F).WFw ∧ (famCtx atts F).objects ≠ [] ∧ (famCtx atts F).TheoryIs L := by
  have hw := famCtx_wf ha hF
  have hinc : ∀ T ∈ F, ∀ a ∈ atts, (famCtx atts F).Inc T a ↔ a ∈ T := fun T hT a hat => famCtx_inc ha hF hT hat
  refine ⟨hw, ?_, (C180_theory_iff hw hL).2 ⟨?_, ?_⟩⟩
  · have : atts.toFinset ∈ F := (hmem _).2 ⟨Finset.Subset.refl _, fun pc hpc _ => hL pc hpc⟩
    exact List.ne_nil_of_mem this
  · intro pc hpc T hT hp m hm
    have hT : T ∈ F := List.mem_toFinset.1 hT
    rw [hinc T hT m (List.mem_toFinset.1 (hL pc hpc hm))]
    exact ((hmem T).1 hT).2 pc hpc (fun p hp' => (hinc T hT p (hp p hp').mem.2).1 (hp p hp')) hm
  · intro S hS hcl m hm hmS
    have hSF := (hmem S).2 ⟨hS, hcl⟩
    refine ⟨S, List.mem_toFinset.2 hSF, fun s hs => ?_, fun hc => hmS ?_⟩
    · exact (hinc S hSF s (List.mem_toFinset.1 (hS hs))).2 hs
    · exact (hinc S hSF m (List.mem_toFinset.1 hm)).1 hc

/-! ### The fewest objects -/

/-- C180: in every context with the theory `L` each irreducible closed set is the intent of an object. -/
theorem C180_irreducible_intents {c : Ctx α β} (h : c.WFw) {L : Imps β} (hL : ∀ pc ∈ L, pc.2 ⊆ c.M) (ht : c.TheoryIs L)
    {X : Finset β} (hX : MeetIrr c.M L X) : ∃ g ∈ c.objects, ∀ m ∈ c.M, c.Inc g m ↔ m ∈ X := by
  classical
  obtain ⟨h1, h2⟩ := (C180_theory_iff h hL).1 ht
  obtain ⟨hXM, hXc, m, hm, hmX, hY⟩ := hX
  obtain ⟨g, hg, hg1, hg2⟩ := h2 X hXM hXc m hm hmX
  refine ⟨g, List.mem_toFinset.1 hg, ?_⟩
  by_contra hne
  push Not at hne
  set Y := c.M.filter fun x => c.Inc g x with hYdef
  have hXY : X ⊆ Y := fun x hx => Finset.mem_filter.2 ⟨hXM hx, hg1 x hx⟩
  have hYc : Closed L Y := by
    intro pc hpc hp x hx
    exact Finset.mem_filter.2 ⟨hL pc hpc hx, h1 pc hpc g hg (fun p hp' => (Finset.mem_filter.1 (hp hp')).2) x hx⟩
  have hss : X ⊂ Y := by
    refine Finset.ssubset_iff_subset_ne.2 ⟨hXY, fun he => ?_⟩
    obtain ⟨x, hx, hxx⟩ := hne
    have : x ∈ X ↔ x ∈ Y := by rw [← he]
    rw [hYdef, Finset.mem_filter] at this
    tauto
  exact hg2 (Finset.mem_filter.1 (hY Y (Finset.filter_subset _ _) hYc hss)).2

/-- C180: the context whose objects are the irreducible closed sets has the theory `L`, and no context with the theory `L`
over these attributes has fewer objects. -/
theorem C180_fewest_objects {atts : List β} (ha : atts.Nodup) {L : Imps β} (hL : ∀ pc ∈ L, pc.2 ⊆ atts.toFinset)
    {F : List (Finset β)} (hF : F.Nodup) (hmem : ∀ X, X ∈ F ↔ MeetIrr atts.toFinset L X) :
    (famCtx atts F).TheoryIs L ∧
    ∀ c : Ctx α β, c.WFw → c.M = atts.toFinset → c.TheoryIs L → F.length ≤ c.objects.length := by
  classical
  have hw := famCtx_wf ha hF
  have hinc : ∀ T ∈ F, ∀ a ∈ atts, (famCtx atts F).Inc T a ↔ a ∈ T := fun T hT a hat => famCtx_inc ha hF hT hat
  constructor
  · refine (C180_theory_iff hw hL).2 ⟨?_, ?_⟩
    · intro pc hpc T hT hp m hm
      have hT : T ∈ F := List.mem_toFinset.1 hT
      rw [hinc T hT m (List.mem_toFinset.1 (hL pc hpc hm))]
      exact ((hmem T).1 hT).2.1 pc hpc (fun p hp' => (hinc T hT p (hp p hp').mem.2).1 (hp p hp')) hm
    · intro S hS hcl m hm hmS
      have hm' : m ∈ atts.toFinset := hm
      obtain ⟨Y, hYmem, hYmax⟩ := (atts.toFinset.powerset.filter fun Y => Closed L Y ∧ S ⊆ Y ∧ m ∉ Y).exists_max_image
        Finset.card ⟨S, Finset.mem_filter.2 ⟨Finset.mem_powerset.2 hS, hcl, Finset.Subset.refl _, hmS⟩⟩
      obtain ⟨hYM, hYc, hSY, hmY⟩ := Finset.mem_filter.1 hYmem
      have hYM := Finset.mem_powerset.1 hYM
      have hYF : Y ∈ F := by
        refine (hmem Y).2 ⟨hYM, hYc, m, hm', hmY, fun Z hZM hZc hYZ => ?_⟩
        by_contra hmZ
        have := hYmax Z (Finset.mem_filter.2 ⟨Finset.mem_powerset.2 hZM, hZc, hSY.trans hYZ.1, hmZ⟩)
        exact absurd (Finset.card_lt_card hYZ) (by omega)
      refine ⟨Y, List.mem_toFinset.2 hYF, fun s hs => ?_, fun hc => hmY ?_⟩
      · exact (hinc Y hYF s (List.mem_toFinset.1 (hS hs))).2 (hSY hs)
      · exact (hinc Y hYF m (List.mem_toFinset.1 hm)).1 hc
  · intro c hc hM ht
    have hex : ∀ X ∈ F, ∃ g ∈ c.objects, ∀ m ∈ c.M, c.Inc g m ↔ m ∈ X := fun X hX =>
      C180_irreducible_intents hc (hM ▸ hL) ht (hM ▸ (hmem X).1 hX)
    have hFM : ∀ X ∈ F, X ⊆ c.M := fun X hX => hM ▸ ((hmem X).1 hX).1
    have hsub : F.toFinset ⊆ c.G.image fun g => c.M.filter fun m => c.Inc g m := by
      intro X hX
      have hX := List.mem_toFinset.1 hX
      obtain ⟨g, hg, hgm⟩ := hex X hX
      refine Finset.mem_image.2 ⟨g, List.mem_toFinset.2 hg, ?_⟩
      ext m
      rw [Finset.mem_filter]
      exact ⟨fun h => (hgm m h.1).1 h.2, fun h => ⟨hFM X hX h, (hgm m (hFM X hX h)).2 h⟩⟩
    have := (Finset.card_le_card hsub).trans Finset.card_image_le
    rw [List.toFinset_card_of_nodup hF] at this
    exact this.trans (List.toFinset_card_le _)

/-! ### The shortest list -/

/-- C180: the basis computed for a context with the theory `L` has the same consequences as `L`, is not longer than `L`,
and not longer than any list over the attributes with the same consequences. -/
theorem C180_basis {c : Ctx α β} (h : c.WFw) {L : Imps β} (hL : ∀ pc ∈ L, pc.2 ⊆ c.M) (ht : c.TheoryIs L)
    {res : List (Imp β)} (hr : c.BasisOf res) :
    (∀ P C, P ⊆ c.M → C ⊆ c.M → (Entails (specImps res) P C ↔ Entails L P C)) ∧ res.length ≤ L.length := by
  refine ⟨fun P C hP hC => (hr.entails h hP hC).trans (ht P C hP hC), ?_⟩
  obtain ⟨ordA, ordO, close, h1, h2⟩ := hr
  refine C27_basis_minimal h ordA ordO close [] h1 (fun i hi => by simp at hi) res h2 L hL
    ((C180_theory_iff h hL).1 ht).1 fun P C hP hC hh => ?_
  simpa [specImps] using (ht P C hP hC).1 hh

/-- C180: the basis is a normal form of lists of implications: contexts with the theories `L` and `L'` over the same list of
attributes have the same basis if and only if `L` and `L'` have the same consequences. -/
theorem C180_normal_form {c : Ctx α β} {d : Ctx α' β} (hc : c.WFw) (hd : d.WFw) (hM : c.attributes = d.attributes)
    {L L' : Imps β} (hL : ∀ pc ∈ L, pc.2 ⊆ c.M) (hL' : ∀ pc ∈ L', pc.2 ⊆ c.M) (ht : c.TheoryIs L) (ht' : d.TheoryIs L')
    {rc rd : List (Imp β)} (hrc : c.BasisOf rc) (hrd : d.BasisOf rd) :
    rc = rd ↔ ∀ P C, P ⊆ c.M → C ⊆ c.M → (Entails L P C ↔ Entails L' P C) := by
  have hMM : c.M = d.M := by unfold M; rw [hM]
  constructor
  · rintro rfl P C hP hC
    rw [← (C180_basis hc hL ht hrc).1 P C hP hC, (C180_basis hd (hMM ▸ hL') ht' hrd).1 P C (hMM ▸ hP) (hMM ▸ hC)]
  · intro he
    obtain ⟨ordA, ordO, close, h1, h2⟩ := hrc
    obtain ⟨ordA', ordO', close', h1', h2'⟩ := hrd
    obtain ⟨cs, hcs, -, -⟩ := C34_norris hc
    obtain ⟨ds, hds, -, -⟩ := C34_norris hd
    have : PyName α := ⟨fun x _ => x⟩
    have : PyName α' := ⟨fun x _ => x⟩
    have : PyName β := ⟨fun x _ => x⟩
    rw [C131_same_list hc hd hM h1 h1' h2 h2' hcs hds]
    intro B
    rw [(norris_intents hc hcs).2, (norris_intents hd hds).2, isIntent_iff, isIntent_iff, ← hMM]
    refine and_congr_right fun hB => ?_
    rw [← ht.closed_iff hc hL hB, hMM, ← ht'.closed_iff hd (hMM ▸ hL') (hMM ▸ hB)]
    have key : ∀ {K : Imps β}, (∀ pc ∈ K, pc.2 ⊆ c.M) →
        (Closed K B ↔ ∀ C, C ⊆ c.M → Entails K B C → C ⊆ B) := by
      intro K hK
      constructor
      · intro hcl C _ hC
        exact hC B hcl (Finset.Subset.refl _)
      · intro hall pc hpc hp
        exact hall pc.2 (hK pc hpc) fun S hS hBS => hS pc hpc (hp.trans hBS)
    rw [key hL, key hL']
    exact forall_congr' fun C => forall_congr' fun hC => by rw [he B C hB hC]

/-- C180: completing the conclusions by `simple_closure` and calling `minimize` gives the basis of every context with the
theory of the list, compared by `==` and up to the order; so the shortest list is found without any context. -/
theorem C180_minimize {c : Ctx α β} (h : c.WFw) {L : List (Imp β)}
    (hL : ∀ i ∈ L, i.premise ⊆ c.M ∧ i.conclusion ⊆ c.M) (ht : c.TheoryIs (specImps L)) {D : List (Imp β)}
    (hD : c.BasisOf D) :
    ∃ res, minimize (L.map fun i => ⟨i.premise, simpleClosure i.premise L⟩) = .ok res ∧
      (res.map Imp.key).Perm (D.map Imp.key) ∧
      ∀ K : Imps β, (∀ S, S ⊆ c.M → (Closed K S ↔ Closed (specImps L) S)) → res.length ≤ K.length := by
  have hL2 : ∀ pc ∈ specImps L, pc.2 ⊆ c.M := by
    intro pc hpc
    obtain ⟨i, hi, rfl⟩ := List.mem_map.1 hpc
    exact (hL i hi).2
  have hcl : ∀ {S}, S ⊆ c.M → (Closed (specImps L) S ↔ attrClosure c.G c.M c.Inc S = S) := fun hS => ht.closed_iff h hL2 hS
  set L' := L.map fun i => (⟨i.premise, simpleClosure i.premise L⟩ : Imp β) with hL'
  have hop := h.attrClosure_op
  have hfull : ∀ i ∈ L, simpleClosure i.premise L = attrClosure c.G c.M c.Inc i.premise := by
    intro i hi
    obtain ⟨k1, k2, k3⟩ := simpleClosure_isLeast i.premise L
    have hp := (hL i hi).1
    have hi' := hop.into _ hp
    have hsub := k3 _ (hop.ext _ hp) ((hcl hi').2 (hop.idem _ hp))
    refine Finset.Subset.antisymm hsub ?_
    have := hop.mono _ _ k1 (hsub.trans hi')
    rwa [(hcl (hsub.trans hi')).1 k2] at this
  have hcl' : ∀ S, S ⊆ c.M → (Closed (specImps L') S ↔ attrClosure c.G c.M c.Inc S = S) := by
    intro S hS
    rw [← hcl hS, closed_specImps, closed_specImps]
    constructor
    · intro hall i hi hp
      have := hall _ (List.mem_map.2 ⟨i, hi, rfl⟩) hp
      have hleast := simpleClosure_isLeast i.premise L
      exact ((closed_specImps _ _).1 hleast.2.1 i hi hleast.1).trans this
    · intro hall i' hi' hp
      obtain ⟨i, hi, rfl⟩ := List.mem_map.1 hi'
      exact (simpleClosure_isLeast i.premise L).2.2 S hp ((closed_specImps _ _).2 hall)
  have hM' : ∀ i ∈ L', i.premise ⊆ c.M := by
    intro i' hi'
    obtain ⟨i, hi, rfl⟩ := List.mem_map.1 hi'
    exact (hL i hi).1
  have hfull' : ∀ i ∈ L', attrClosure c.G c.M c.Inc i.premise = i.premise ∪ i.conclusion := by
    intro i' hi'
    obtain ⟨i, hi, rfl⟩ := List.mem_map.1 hi'
    dsimp only
    rw [hfull i hi, Finset.union_eq_right.2 (hop.ext _ (hL i hi).1)]
  obtain ⟨res, r1, r2, r3, r4⟩ := C130_minimize_full hop L' hM' hcl' hfull'
  refine ⟨res, r1, ?_, fun K hK => C130_minimum hop L' hM' hcl' hfull' r1 K fun S hS => (hK S hS).trans (hcl hS)⟩
  obtain ⟨ordA, ordO, close, h1, h2⟩ := hD
  obtain ⟨d1, d2, d3, -⟩ := C26_basis_pseudo_intents h ordA ordO close [] h1 (fun i hi => by simp at hi) D h2
  set f : Finset β → Finset β × Finset β := fun P => (P, attrClosure c.G c.M c.Inc P \ P) with hf
  have e1 : res.map Imp.key = (res.map Imp.premise).map f := by
    rw [List.map_map]
    refine List.map_congr_left fun d hd => ?_
    simp only [Imp.key, Imp.reduced, Function.comp, hf, ← r4 d hd, Finset.union_sdiff_left]
  have e2 : D.map Imp.key = (D.map Imp.premise).map f := by
    rw [List.map_map]
    refine List.map_congr_left fun d hd => ?_
    simp only [Imp.key, Imp.reduced, Function.comp, hf, d2 d hd]
  rw [e1, e2]
  refine List.Perm.map f ((List.perm_ext_iff_of_nodup r3 d3).2 fun P => ?_)
  rw [r2, d1]
  rfl

/-! ### Concrete cases -/

/-- `a → b` and `ab → c`. -/
def chainImps : List (Imp (Fin 3)) := [⟨{0}, {1}⟩, ⟨{0, 1}, {2}⟩]

/-- Five closed sets, three of them irreducible: the hypotheses of `C180_closed_sets` and `C180_fewest_objects`. -/
example : (∀ pc ∈ specImps chainImps, pc.2 ⊆ [0, 1, 2].toFinset) ∧
    (∀ S : Finset (Fin 3), S ∈ [∅, {1}, {2}, {1, 2}, {0, 1, 2}] ↔ S ⊆ [0, 1, 2].toFinset ∧ Closed (specImps chainImps) S) ∧
    ∀ X : Finset (Fin 3), X ∈ [{1}, {2}, {1, 2}] ↔ MeetIrr [0, 1, 2].toFinset (specImps chainImps) X := by
  unfold MeetIrr Closed Respects
  decide +kernel

/-- A context with these three rows. Its theory is that of the list, and its basis is `a → abc`, one implication instead of
the two that `minimize` leaves; with completed conclusions `minimize` finds it. -/
def chainCtx : Ctx (Fin 3) (Fin 3) :=
  ⟨[0, 1, 2], [0, 1, 2], ⟨some 3, [[false, true, false], [false, false, true], [false, true, true]]⟩⟩

theorem chainCtx_wf : chainCtx.WFw := by constructor <;> decide +kernel

theorem chainCtx_theory : chainCtx.TheoryIs (specImps chainImps) := by
  rw [C180_theory_iff chainCtx_wf (by decide +kernel)]
  unfold HoldsIn Closed Respects
  have hI : ∀ g m, chainCtx.Inc g m ↔ (g, m) ∈ ({(0, 1), (1, 2), (2, 1), (2, 2)} : Finset (Fin 3 × Fin 3)) := by
    intro g m
    rw [inc_iff (c := chainCtx) (i := g.1) (j := m.1) chainCtx_wf.onodup chainCtx_wf.anodup
      (by revert g; decide +kernel) (by revert m; decide +kernel)]
    unfold Bit
    match g, m with
    | 0, 0 | 0, 1 | 0, 2 | 1, 0 | 1, 1 | 1, 2 | 2, 0 | 2, 1 | 2, 2 => simp [chainCtx]
  simp only [hI]
  refine ⟨by decide +kernel, fun S hS hcl m _ hm => ?_⟩
  have key : ∀ S : Finset (Fin 3), ∀ m, m ∉ S → (∀ pc ∈ specImps chainImps, pc.1 ⊆ S → pc.2 ⊆ S) →
      ∃ g : Fin 3, (∀ s ∈ S, (g, s) ∈ ({(0, 1), (1, 2), (2, 1), (2, 2)} : Finset (Fin 3 × Fin 3))) ∧
        (g, m) ∉ ({(0, 1), (1, 2), (2, 1), (2, 2)} : Finset (Fin 3 × Fin 3)) := by decide +kernel
  obtain ⟨g, hg⟩ := key S m hm hcl
  exact ⟨g, (by decide +kernel : ∀ g, g ∈ chainCtx.G) g, hg⟩

example : chainCtx.BasisOf [⟨{0}, {0, 1, 2}⟩] := ⟨.fin 3, .fin 3, simpleClosure, .inl rfl, by decide +kernel⟩

example : minimize chainImps = .ok chainImps ∧
    minimize (chainImps.map fun i => ⟨i.premise, simpleClosure i.premise chainImps⟩) = .ok [⟨{0}, {0, 1, 2}⟩] := by
  decide +kernel

end Ctx
