/-
Property C131: the basis depends on the intents of the context only.
-/
import Verif.Props.ConceptCount
import Verif.Props.ReduceExact
import Verif.Props.Derived

set_option linter.unusedSectionVars false

open Spec

section
variable {β : Type*} [DecidableEq β]

theorem IsPseudo.congr_cl {M : Finset β} {L₀ : Imps β} {cl cl' : Finset β → Finset β} (h : ∀ s, s ⊆ M → cl s = cl' s) :
    ∀ P, IsPseudo M L₀ cl P ↔ IsPseudo M L₀ cl' P := by
  intro P
  induction hn : P.card using Nat.strong_induction_on generalizing P with
  | _ n ih =>
    rw [IsPseudo, IsPseudo]
    constructor
    · rintro ⟨h1, h2, h3, h4⟩
      refine ⟨h1, h2, by rwa [← h P h1], fun Q hQ hp => ?_⟩
      rw [← h Q (hQ.1.trans h1)]
      exact h4 Q hQ ((ih _ (hn ▸ Finset.card_lt_card hQ) Q rfl).2 hp)
    · rintro ⟨h1, h2, h3, h4⟩
      refine ⟨h1, h2, by rwa [h P h1], fun Q hQ hp => ?_⟩
      rw [h Q (hQ.1.trans h1)]
      exact h4 Q hQ ((ih _ (hn ▸ Finset.card_lt_card hQ) Q rfl).1 hp)

/-- A closure operator is determined by its fixed points. -/
theorem closureOp_eq {M : Finset β} {cl cl' : Finset β → Finset β} (h : IsClosureOp M cl) (h' : IsClosureOp M cl')
    (hf : ∀ s, s ⊆ M → (cl s = s ↔ cl' s = s)) {s : Finset β} (hs : s ⊆ M) : cl s = cl' s := by
  have aux : ∀ {c c' : Finset β → Finset β}, IsClosureOp M c → IsClosureOp M c' → (∀ s, s ⊆ M → (c s = s → c' s = s)) →
      c' s ⊆ c s := by
    intro c c' k k' hk
    have := k'.mono s (c s) (k.ext s hs) (k.into s hs)
    rwa [hk (c s) (k.into s hs) (k.idem s hs)] at this
  exact Finset.Subset.antisymm (aux h' h fun s hs => (hf s hs).2) (aux h h' fun s hs => (hf s hs).1)

end

namespace Ctx
variable {α α' β : Type} [DecidableEq α] [DecidableEq α'] [DecidableEq β] [PyName α] [PyName α'] [PyName β]

/-- Lists sorted by the lectic order are equal if they are permutations of each other. -/
theorem lectic_list_eq {atts : List β} {l l' : List (Imp β)} (h : (l.map Imp.premise).Pairwise (LecticLt atts))
    (h' : (l'.map Imp.premise).Pairwise (LecticLt atts)) (hp : l.Perm l') : l = l' := by
  rw [List.pairwise_map] at h h'
  refine List.Perm.eq_of_pairwise (fun x y _ _ h1 h2 => ?_) h h' hp
  rw [lecticLt_iff] at h1 h2
  omega

theorem basis_mem_iff {c : Ctx α β} (h : c.WFw) {ordA : SetOrder β} {ordO : SetOrder α}
    {close : Finset β → List (Imp β) → Finset β} (hclose : StdClose [] close) {res : List (Imp β)}
    (hres : c.dgBasisWith ordA ordO close [] (fun _ => true) = .ok res) (i : Imp β) :
    i ∈ res ↔ IsPseudo c.M [] (attrClosure c.G c.M c.Inc) i.premise ∧ i.conclusion = attrClosure c.G c.M c.Inc i.premise := by
  obtain ⟨h1, -⟩ := dg_main h hclose (fun i hi => by simp at hi) hres
  simpa [specImps] using h1 i

/-- Contexts with the same attributes have the same basis, up to its order, exactly if they have the same intents. -/
theorem C131_same_intents {c : Ctx α β} {d : Ctx α' β} (hc : c.WFw) (hd : d.WFw) (hM : c.M = d.M)
    {ordA ordA' : SetOrder β} {ordO : SetOrder α} {ordO' : SetOrder α'}
    {close close' : Finset β → List (Imp β) → Finset β} (hclose : StdClose [] close) (hclose' : StdClose [] close')
    {rc rd : List (Imp β)} (hrc : c.dgBasisWith ordA ordO close [] (fun _ => true) = .ok rc)
    (hrd : d.dgBasisWith ordA' ordO' close' [] (fun _ => true) = .ok rd)
    {cs : List (Concept α β)} {ds : List (Concept α' β)} (hcs : norris c = .ok cs) (hds : norris d = .ok ds) :
    rc.Perm rd ↔ ∀ B, B ∈ cs.map (fun x => x.intent) ↔ B ∈ ds.map (fun x => x.intent) := by
  obtain ⟨-, m1⟩ := norris_intents hc hcs
  obtain ⟨-, m2⟩ := norris_intents hd hds
  simp only [m1, m2]
  constructor
  · intro hp B
    have k1 := fun s hs => C25_basis_closure hc ordA ordO close [] hclose (fun i hi => by simp at hi) rc hrc s hs
    have k2 := fun s hs => C25_basis_closure hd ordA' ordO' close' [] hclose' (fun i hi => by simp at hi) rd hrd s hs
    have key : ∀ B, B ⊆ c.M → attrClosure c.G c.M c.Inc B = attrClosure d.G d.M d.Inc B := by
      intro B hB
      refine (k1 B hB).unique ?_
      have := k2 B (hM ▸ hB)
      have hcl : ∀ S, Closed (specImps (rd ++ [])) S ↔ Closed (specImps (rc ++ [])) S := by
        intro S
        simp only [closed_specImps, List.append_nil]
        exact ⟨fun h i hi => h i (hp.mem_iff.1 hi), fun h i hi => h i (hp.mem_iff.2 hi)⟩
      exact ⟨this.1, (hcl _).1 this.2.1, fun S hS hS' => this.2.2 S hS ((hcl S).2 hS')⟩
    rw [isIntent_iff, isIntent_iff, ← hM]
    exact and_congr_right fun hB => by rw [key B hB, hM]
  · intro hB
    have key : ∀ B, B ⊆ c.M → attrClosure c.G c.M c.Inc B = attrClosure d.G d.M d.Inc B := by
      intro B hBM
      refine closureOp_eq hc.attrClosure_op (hM ▸ hd.attrClosure_op) (fun s hs => ?_) hBM
      have := hB s
      rw [isIntent_iff, isIntent_iff, ← hM] at this
      rw [← hM]
      exact ⟨fun h => (this.1 ⟨hs, h⟩).2, fun h => (this.2 ⟨hs, h⟩).2⟩
    have n1 := (C26_basis_pseudo_intents hc ordA ordO close [] hclose (fun i hi => by simp at hi) rc hrc).2.2.1
    have n2 := (C26_basis_pseudo_intents hd ordA' ordO' close' [] hclose' (fun i hi => by simp at hi) rd hrd).2.2.1
    rw [List.perm_ext_iff_of_nodup n1.of_map n2.of_map]
    intro i
    rw [basis_mem_iff hc hclose hrc, basis_mem_iff hd hclose' hrd, ← hM, IsPseudo.congr_cl key]
    rw [← hM] at key ⊢
    refine and_congr_right fun hi => ?_
    rw [IsPseudo] at hi
    rw [key _ hi.1]

/-- With the attributes in the same order the two lists are equal. -/
theorem C131_same_list {c : Ctx α β} {d : Ctx α' β} (hc : c.WFw) (hd : d.WFw) (hM : c.attributes = d.attributes)
    {ordA ordA' : SetOrder β} {ordO : SetOrder α} {ordO' : SetOrder α'}
    {close close' : Finset β → List (Imp β) → Finset β} (hclose : StdClose [] close) (hclose' : StdClose [] close')
    {rc rd : List (Imp β)} (hrc : c.dgBasisWith ordA ordO close [] (fun _ => true) = .ok rc)
    (hrd : d.dgBasisWith ordA' ordO' close' [] (fun _ => true) = .ok rd)
    {cs : List (Concept α β)} {ds : List (Concept α' β)} (hcs : norris c = .ok cs) (hds : norris d = .ok ds) :
    rc = rd ↔ ∀ B, B ∈ cs.map (fun x => x.intent) ↔ B ∈ ds.map (fun x => x.intent) := by
  rw [← C131_same_intents hc hd (by unfold M; rw [hM]) hclose hclose' hrc hrd hcs hds]
  constructor
  · rintro rfl; exact List.Perm.refl _
  · intro hp
    have n1 := (C26_basis_pseudo_intents hc ordA ordO close [] hclose (fun i hi => by simp at hi) rc hrc).2.2.2
    have n2 := (C26_basis_pseudo_intents hd ordA' ordO' close' [] hclose' (fun i hi => by simp at hi) rd hrd).2.2.2
    exact lectic_list_eq n1 (hM ▸ n2) hp

theorem row_closure {c : Ctx α β} {d : Ctx α' β} (hc : c.WFw) (hd : d.WFw) (hM : c.attributes = d.attributes)
    (hrows : ∀ r ∈ c.nd.rows, r ∈ d.nd.rows) {B : Finset β} (hB : B ⊆ d.M) :
    attrClosure d.G d.M d.Inc B ⊆ attrClosure c.G c.M c.Inc B := by
  classical
  intro m hm
  simp only [attrClosure, Finset.mem_filter] at hm ⊢
  refine ⟨by unfold M; rw [hM]; exact hm.1, fun g hg hgB => ?_⟩
  obtain ⟨i, hi⟩ := List.getElem?_of_mem (List.mem_toFinset.1 hg)
  obtain ⟨j, hj⟩ := List.getElem?_of_mem (hrows _ (List.mem_of_getElem? (hc.row_name hi)))
  have hlt : j < d.objects.length := by
    have := lt_of_getElem? hj
    rwa [hd.nrows] at this
  obtain ⟨g', hg'⟩ : ∃ g', d.objects[j]? = some g' := ⟨_, List.getElem?_eq_getElem hlt⟩
  rw [hd.row_name hg', Option.some.injEq, hM] at hj
  have he : ∀ a ∈ d.attributes, d.incB g' a = c.incB g a := fun a ha => List.map_inj_left.1 hj a ha
  have hdm : ∀ a ∈ d.M, (d.Inc g' a ↔ c.Inc g a) := by
    intro a ha
    rw [← hd.incB, ← hc.incB, he a (List.mem_toFinset.1 ha)]
  rw [← hdm m hm.1]
  exact hm.2 g' (List.mem_toFinset.2 (List.mem_of_getElem? hg')) fun b hb => (hdm b (hB hb)).2 (hgB b hb)

/-- Names, order and repetitions of the objects do not matter: the same rows give the same list. -/
theorem C131_same_rows {c : Ctx α β} {d : Ctx α' β} (hc : c.WFw) (hd : d.WFw) (hM : c.attributes = d.attributes)
    (hrows : ∀ r, r ∈ c.nd.rows ↔ r ∈ d.nd.rows)
    {ordA ordA' : SetOrder β} {ordO : SetOrder α} {ordO' : SetOrder α'}
    {close close' : Finset β → List (Imp β) → Finset β} (hclose : StdClose [] close) (hclose' : StdClose [] close')
    {rc rd : List (Imp β)} (hrc : c.dgBasisWith ordA ordO close [] (fun _ => true) = .ok rc)
    (hrd : d.dgBasisWith ordA' ordO' close' [] (fun _ => true) = .ok rd) : rc = rd := by
  obtain ⟨cs, hcs, -, -⟩ := C34_norris hc
  obtain ⟨ds, hds, -, -⟩ := C34_norris hd
  rw [C131_same_list hc hd hM hclose hclose' hrc hrd hcs hds]
  have hMM : c.M = d.M := by unfold M; rw [hM]
  have key : ∀ B, B ⊆ c.M → attrClosure c.G c.M c.Inc B = attrClosure d.G d.M d.Inc B := by
    intro B hB
    refine Finset.Subset.antisymm (row_closure hd hc hM.symm (fun r hr => (hrows r).2 hr) hB) ?_
    exact row_closure hc hd hM (fun r hr => (hrows r).1 hr) (hMM ▸ hB)
  intro B
  rw [(norris_intents hc hcs).2, (norris_intents hd hds).2, isIntent_iff, isIntent_iff, ← hMM]
  exact and_congr_right fun hB => by rw [key B hB, hMM]

/-- Nor does the order of the attributes, but for the order of the list. -/
theorem C131_same_relation {c d : Ctx α β} (hc : c.WFw) (hd : d.WFw) (hG : ∀ o, o ∈ c.objects ↔ o ∈ d.objects)
    (hM : ∀ a, a ∈ c.attributes ↔ a ∈ d.attributes) (hI : ∀ o a, c.Inc o a ↔ d.Inc o a)
    {ordA ordA' : SetOrder β} {ordO ordO' : SetOrder α}
    {close close' : Finset β → List (Imp β) → Finset β} (hclose : StdClose [] close) (hclose' : StdClose [] close')
    {rc rd : List (Imp β)} (hrc : c.dgBasisWith ordA ordO close [] (fun _ => true) = .ok rc)
    (hrd : d.dgBasisWith ordA' ordO' close' [] (fun _ => true) = .ok rd) : rc.Perm rd := by
  obtain ⟨cs, hcs, -, -⟩ := C34_norris hc
  obtain ⟨ds, hds, -, -⟩ := C34_norris hd
  have hMM : c.M = d.M := by ext a; simp [M, hM]
  have hGG : c.G = d.G := by ext a; simp [G, hG]
  have hII : c.Inc = d.Inc := by ext o a; exact hI o a
  rw [C131_same_intents hc hd hMM hclose hclose' hrc hrd hcs hds]
  intro B
  rw [(norris_intents hc hcs).2, (norris_intents hd hds).2, hMM, hGG, hII]

/-- `clarify_objects` keeps the basis. -/
theorem C131_clarify {c : Ctx α β} (hc : c.WFw) {ordA ordA' : SetOrder β} {ordO ordO' : SetOrder α}
    {close close' : Finset β → List (Imp β) → Finset β} (hclose : StdClose [] close) (hclose' : StdClose [] close')
    {rc : List (Imp β)} (hrc : c.dgBasisWith ordA ordO close [] (fun _ => true) = .ok rc) :
    ∃ d, c.clarifyObjects = .ok d ∧ (c.objects ≠ [] → d.dgBasisWith ordA' ordO' close' [] (fun _ => true) = .ok rc) := by
  obtain ⟨d, h1, h2, h3, -, h4, h5, -, h6, -⟩ := C10_clarify hc
  refine ⟨d, h1, fun hne => ?_⟩
  have hdne : d.objects ≠ [] := by
    obtain ⟨o, ho⟩ := List.exists_mem_of_ne_nil _ hne
    obtain ⟨o', ⟨ho', -⟩, -⟩ := h6 o ho
    exact List.ne_nil_of_mem ho'
  obtain ⟨rd, hrd⟩ := C24_basis_returns h2.toWFw hdne ordA' ordO' close' [] hclose' (fun i hi => by simp at hi) (fun _ => true)
  rw [hrd, C131_same_rows hc h2.toWFw h3.symm (fun r => (h4 r).symm) hclose hclose' hrc hrd]

/-- `reduce_objects` leaves an object, if there is one. -/
theorem reduceObjects_ne_nil {c d : Ctx α β} (hc : c.WFw) (hd : c.reduceObjects = .ok d) (hne : c.objects ≠ []) :
    d.objects ≠ [] := by
  classical
  intro hd0
  obtain ⟨d', h1, h2, -, h3, -, -, h4⟩ := C11_reduce_objects hc
  rw [hd] at h1
  obtain rfl : d = d' := by injection h1
  obtain ⟨d', R, h1, -, -, -, h5, h6, h7⟩ := C12_exact hc
  rw [hd] at h1
  obtain rfl : d = d' := by injection h1
  have hlast : c.objects.getLast hne ∈ c.objects := List.getLast_mem hne
  have hR : c.numberOf (c.objects.getLast hne) ∈ R := by
    by_contra hR
    have := (h5 _ hlast).2 ⟨hR, fun o' ho' _ => ?_⟩
    · rw [hd0] at this; cases this
    · have e : c.objects.idxOf (c.objects.getLast hne) = c.objects.length - 1 := by
        rw [List.getLast_eq_getElem, List.Nodup.idxOf_getElem hc.onodup]
      have := List.idxOf_lt_length_of_mem ho'
      omega
  obtain ⟨p, hp⟩ := List.getElem?_of_mem (h6 _ hR)
  obtain ⟨⟨⟨m, hm, hnm⟩, -⟩, -⟩ := (h7 _ hlast p hp).1 hR
  have hi : IsIntent c.G c.M c.Inc (attrClosure c.G c.M c.Inc ∅) :=
    isIntent_iff.2 ⟨hc.attrClosure_op.into _ (by simp), hc.attrClosure_op.idem _ (by simp)⟩
  rw [← h4, isIntent_iff] at hi
  have hmem : m ∈ attrClosure d.G d.M d.Inc (attrClosure c.G c.M c.Inc ∅) := by
    refine Finset.mem_filter.2 ⟨by unfold M; rw [h3]; exact List.mem_toFinset.2 hm, fun g hg => ?_⟩
    simp [G, hd0] at hg
  rw [hi.2] at hmem
  simp only [attrClosure, Finset.mem_filter] at hmem
  exact hnm (hmem.2 _ (List.mem_toFinset.2 hlast) (by simp))

/-- `reduce_objects` keeps the basis. -/
theorem C131_reduce {c : Ctx α β} (hc : c.WFw) {ordA ordA' : SetOrder β} {ordO ordO' : SetOrder α}
    {close close' : Finset β → List (Imp β) → Finset β} (hclose : StdClose [] close) (hclose' : StdClose [] close')
    {rc : List (Imp β)} (hrc : c.dgBasisWith ordA ordO close [] (fun _ => true) = .ok rc) :
    ∃ d, c.reduceObjects = .ok d ∧ (c.objects ≠ [] → d.dgBasisWith ordA' ordO' close' [] (fun _ => true) = .ok rc) := by
  obtain ⟨d, h1, h2, -, h3, -, -, h4⟩ := C11_reduce_objects hc
  refine ⟨d, h1, fun hne => ?_⟩
  obtain ⟨rd, hrd⟩ := C24_basis_returns h2.toWFw (reduceObjects_ne_nil hc h1 hne) ordA' ordO' close' [] hclose'
    (fun i hi => by simp at hi) (fun _ => true)
  obtain ⟨cs, hcs, -, -⟩ := C34_norris hc
  obtain ⟨ds, hds, -, -⟩ := C34_norris h2.toWFw
  have := (C131_same_list hc h2.toWFw h3.symm hclose hclose' hrc hrd hcs hds).2 fun B => by
    rw [(norris_intents hc hcs).2, (norris_intents h2.toWFw hds).2, h4]
  rw [hrd, this]

/-! ### Concrete cases -/

/-- Two contexts with the same rows, the second with one of them twice and other objects' names. -/
def cxtB1 : Ctx (Fin 2) (Fin 3) := ⟨[0, 1], [0, 1, 2], ⟨some 3, [[true, true, false], [false, true, true]]⟩⟩

def cxtB2 : Ctx (Fin 3) (Fin 3) :=
  ⟨[2, 1, 0], [0, 1, 2], ⟨some 3, [[false, true, true], [true, true, false], [false, true, true]]⟩⟩

example : cxtB1.WFw ∧ cxtB2.WFw ∧ cxtB1.attributes = cxtB2.attributes ∧ (∀ r, r ∈ cxtB1.nd.rows ↔ r ∈ cxtB2.nd.rows) ∧
    cxtB1.computeDgBasisSimple (SetOrder.fin 3) (SetOrder.fin 2) [] (fun _ => true) = .ok [⟨∅, {1}⟩] ∧
    cxtB2.computeDgBasisSimple (SetOrder.fin 3) (SetOrder.fin 3) [] (fun _ => true) = .ok [⟨∅, {1}⟩] := by
  refine ⟨by constructor <;> decide +kernel, by constructor <;> decide +kernel, rfl, fun r => ?_, by decide +kernel,
    by decide +kernel⟩
  simp only [cxtB1, cxtB2, List.mem_cons, List.not_mem_nil, or_false]
  tauto

/-- The intents matter: with a third row there is no implication left. -/
example : (⟨[0, 1, 2], [0, 1, 2], ⟨some 3, [[true, true, false], [false, true, true], [true, false, true]]⟩⟩ :
    Ctx (Fin 3) (Fin 3)).computeDgBasisSimple (SetOrder.fin 3) (SetOrder.fin 3) [] (fun _ => true) = .ok [] := by
  decide +kernel

end Ctx
