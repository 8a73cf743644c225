/-
Property C142: how the basis changes when the context changes.
-/
import Verif.Props.BasisIntents

set_option linter.unusedSectionVars false

open Spec

namespace Ctx

variable {α β : Type} [DecidableEq α] [DecidableEq β] [PyName α] [PyName β]

/-- `res` is what a basis computation without background returns for `c`. -/
def BasisOf (c : Ctx α β) (res : List (Imp β)) : Prop :=
  ∃ (ordA : SetOrder β) (ordO : SetOrder α) (close : Finset β → List (Imp β) → Finset β), StdClose [] close ∧
    c.dgBasisWith ordA ordO close [] (fun _ => true) = .ok res

omit [PyName α] [PyName β] in
theorem BasisOf.entails {c : Ctx α β} {res : List (Imp β)} (hr : c.BasisOf res) (h : c.WFw) {P C : Finset β}
    (hP : P ⊆ c.M) (hC : C ⊆ c.M) : Entails (specImps res) P C ↔ HoldsIn c.G c.Inc P C := by
  obtain ⟨ordA, ordO, close, h1, h2⟩ := hr
  have := C25_basis_complete h ordA ordO close [] h1 (fun i hi => by simp at hi) res h2 P C hP hC
  rw [this, List.append_nil]

/-- Two contexts with the same attributes have the same basis iff the same implications hold in them. -/
theorem BasisOf.eq_iff {c d : Ctx α β} {rc rd : List (Imp β)} (hc : c.WFw) (hd : d.WFw) (hM : c.attributes = d.attributes)
    (hrc : c.BasisOf rc) (hrd : d.BasisOf rd) :
    rc = rd ↔ ∀ P C, P ⊆ c.M → C ⊆ c.M → (HoldsIn c.G c.Inc P C ↔ HoldsIn d.G d.Inc P C) := by
  have hMM : c.M = d.M := by unfold M; rw [hM]
  constructor
  · rintro rfl P C hP hC
    rw [← hrc.entails hc hP hC, hrd.entails hd (hMM ▸ hP) (hMM ▸ hC)]
  · intro hh
    obtain ⟨ordA, ordO, close, h1, h2⟩ := hrc
    obtain ⟨ordA', ordO', close', h1', h2'⟩ := hrd
    obtain ⟨cs, hcs, -, -⟩ := C34_norris hc
    obtain ⟨ds, hds, -, -⟩ := C34_norris hd
    rw [C131_same_list hc hd hM h1 h1' h2 h2' hcs hds]
    intro B
    rw [(norris_intents hc hcs).2, (norris_intents hd hds).2, isIntent_iff, isIntent_iff, ← hMM]
    refine and_congr_right fun hB => ?_
    have : attrClosure c.G c.M c.Inc B = attrClosure d.G d.M d.Inc B := by
      refine Finset.Subset.antisymm ?_ ?_
      · rw [← holdsIn_iff hd (hMM ▸ hc.attrClosure_op.into _ hB), ← hh B _ hB (hc.attrClosure_op.into _ hB),
          holdsIn_iff hc (hc.attrClosure_op.into _ hB)]
      · have hsub : attrClosure d.G d.M d.Inc B ⊆ c.M := hMM ▸ hd.attrClosure_op.into _ (hMM ▸ hB)
        rw [← holdsIn_iff hc hsub, hh B _ hB hsub, holdsIn_iff hd (hMM ▸ hsub)]
    rw [this, hMM]

omit [PyName α] [PyName β] in
theorem holdsIn_insert {G : Finset α} {I : α → β → Prop} {n : α} {P C : Finset β} :
    HoldsIn (insert n G) I P C ↔ HoldsIn G I P C ∧ ((∀ m ∈ P, I n m) → ∀ m ∈ C, I n m) := by
  unfold HoldsIn
  simp only [Finset.mem_insert, forall_eq_or_imp]
  exact and_comm

omit [PyName α] [PyName β] in
theorem holdsIn_congr {G : Finset α} {I J : α → β → Prop} {P C : Finset β}
    (h : ∀ g ∈ G, ∀ m, m ∈ P ∨ m ∈ C → (I g m ↔ J g m)) : HoldsIn G I P C ↔ HoldsIn G J P C := by
  unfold HoldsIn
  refine forall_congr' fun g => imp_congr_right fun hg => ?_
  refine imp_congr (forall_congr' fun m => imp_congr_right fun hm => h g hg m (.inl hm)) ?_
  exact forall_congr' fun m => imp_congr_right fun hm => h g hg m (.inr hm)

omit [PyName α] [PyName β] in
/-- Adding a row `B` keeps the implications that `B` respects, and all implications iff `B` is closed. -/
theorem holds_all_iff {c : Ctx α β} (h : c.WFw) {B : Finset β} (hB : B ⊆ c.M) :
    (∀ P C, P ⊆ c.M → C ⊆ c.M → HoldsIn c.G c.Inc P C → P ⊆ B → C ⊆ B) ↔ attrClosure c.G c.M c.Inc B = B := by
  constructor
  · intro hh
    have hsub := h.attrClosure_op.into _ hB
    refine Finset.Subset.antisymm (hh B _ hB hsub ((holdsIn_iff h hsub).2 (Finset.Subset.refl _)) (Finset.Subset.refl _)) ?_
    exact h.attrClosure_op.ext _ hB
  · intro he P C hP hC hh hPB
    rw [holdsIn_iff h hC] at hh
    rw [← he]
    exact hh.trans (h.attrClosure_op.mono _ _ hPB hB)

/-- After `add_object_with_intent` with a new name: what follows from the new basis is what followed from the old one and
is respected by the new intent. The two lists are the same exactly if the intent (its part in the context) is closed. -/
theorem C142_add_object {c d : Ctx α β} (h : c.WFw) {B : Finset β} {n : α} (hn : n ∉ c.objects)
    (hd : c.addObjectWithIntent B n = (d, none)) {rc rd : List (Imp β)} (hrc : c.BasisOf rc) (hrd : d.BasisOf rd) :
    (∀ P C, P ⊆ c.M → C ⊆ c.M →
      (Entails (specImps rd) P C ↔ Entails (specImps rc) P C ∧ (P ⊆ B → C ⊆ B))) ∧
    (rd = rc ↔ attrClosure c.G c.M c.Inc (B ∩ c.M) = B ∩ c.M) := by
  have hst := h.stores.addObjectWithIntent hn hd
  have hatt : d.attributes = c.attributes := hst.atts
  have hG : d.G = insert n c.G := by
    have : d.objects = c.objects ++ [n] := hst.objs
    ext x
    simp [G, this]
  have hM : d.M = c.M := by simp [M, hatt]
  have key : ∀ P C, P ⊆ c.M → C ⊆ c.M →
      (HoldsIn d.G d.Inc P C ↔ HoldsIn c.G c.Inc P C ∧ (P ⊆ B → C ⊆ B)) := by
    intro P C hP hC
    rw [hG, holdsIn_insert]
    have hnew : ∀ m, m ∈ c.M → (d.Inc n m ↔ m ∈ B) := by
      intro m hm
      have hm' : m ∈ c.attributes := by simpa [M] using hm
      rw [hst.inc]
      simp [Table.apply, hm']
    refine and_congr (holdsIn_congr fun g hg m hm => ?_) ?_
    · have hgn : g ≠ n := fun e => hn (by simpa [G, e] using hg)
      have hg' : g ∈ c.objects := by simpa [G] using hg
      have hm' : m ∈ c.attributes := by
        rcases hm with hm | hm
        · simpa [M] using hP hm
        · simpa [M] using hC hm
      rw [hst.inc]
      simp only [Table.apply, List.mem_append, List.mem_singleton, hgn, if_false, or_false]
      rw [h.incB]
      exact ⟨fun h => h.2.2, fun h => ⟨hg', hm', h⟩⟩
    · refine imp_congr ?_ ?_
      · exact forall_congr' fun m => imp_congr_right fun hm => hnew m (hP hm)
      · exact forall_congr' fun m => imp_congr_right fun hm => hnew m (hC hm)
  refine ⟨fun P C hP hC => ?_, ?_⟩
  · rw [hrd.entails hst.wf (hM ▸ hP) (hM ▸ hC), hrc.entails h hP hC, key P C hP hC]
  · rw [BasisOf.eq_iff hst.wf h hatt hrd hrc, ← holds_all_iff h Finset.inter_subset_right]
    constructor
    · intro hh P C hP hC hh' hPB
      have := ((key P C hP hC).1 ((hh P C (hM ▸ hP) (hM ▸ hC)).2 hh')).2 (hPB.trans Finset.inter_subset_left)
      exact Finset.subset_inter this hC
    · intro hh P C hP hC
      rw [key P C (hM ▸ hP) (hM ▸ hC)]
      refine ⟨fun h => h.1, fun h' => ⟨h', fun hPB => ?_⟩⟩
      exact (hh P C (hM ▸ hP) (hM ▸ hC) h' (Finset.subset_inter hPB (hM ▸ hP))).trans Finset.inter_subset_left

/-- After `delete_object`: what followed before is what follows now and is respected by the intent of the deleted object.
The two lists are the same exactly if this intent is closed in the context left. -/
theorem C142_delete_object {c d : Ctx α β} (h : c.WFw) {n : α} (hn : n ∈ c.objects) {B : Finset β}
    (hB : c.objectIntent n = .ok B) (hd : c.deleteObject n = (d, none)) {rc rd : List (Imp β)} (hrc : c.BasisOf rc)
    (hrd : d.BasisOf rd) :
    (∀ P C, P ⊆ c.M → C ⊆ c.M →
      (Entails (specImps rc) P C ↔ Entails (specImps rd) P C ∧ (P ⊆ B → C ⊆ B))) ∧
    (rd = rc ↔ attrClosure d.G d.M d.Inc B = B) := by
  classical
  have hst := h.stores.deleteObject hd
  have hatt : d.attributes = c.attributes := hst.atts
  have hdo : d.objects = c.objects.filter (· ≠ n) := hst.objs
  have hM : d.M = c.M := by simp [M, hatt]
  have hG : c.G = insert n d.G := by
    ext x
    simp only [G, hdo, Finset.mem_insert, List.mem_toFinset, List.mem_filter, decide_eq_true_eq]
    constructor
    · intro hx
      by_cases e : x = n
      · exact .inl e
      · exact .inr ⟨hx, e⟩
    · rintro (rfl | hx)
      · exact hn
      · exact hx.1
  have hBm : ∀ m, m ∈ B ↔ m ∈ c.attributes ∧ c.Inc n m := by
    intro m
    rw [h.objectIntent hn] at hB
    cases hB
    rw [h.mem_upF]; simp
  have hBM : B ⊆ d.M := fun m hm => by simpa [M, hatt] using ((hBm m).1 hm).1
  have key : ∀ P C, P ⊆ c.M → C ⊆ c.M →
      (HoldsIn c.G c.Inc P C ↔ HoldsIn d.G d.Inc P C ∧ (P ⊆ B → C ⊆ B)) := by
    intro P C hP hC
    rw [hG, holdsIn_insert]
    have hnew : ∀ m, m ∈ c.M → (c.Inc n m ↔ m ∈ B) := by
      intro m hm
      rw [hBm]
      have hm' : m ∈ c.attributes := by simpa [M] using hm
      exact ⟨fun h => ⟨hm', h⟩, fun h => h.2⟩
    refine and_congr (holdsIn_congr fun g hg m hm => ?_) ?_
    · have hg' : g ∈ d.objects := by simpa [G] using hg
      have hm' : m ∈ c.attributes := by
        rcases hm with hm | hm
        · simpa [M] using hP hm
        · simpa [M] using hC hm
      rw [hst.inc]
      rw [hst.objs] at hg'
      simp only [Table.apply] at hg' ⊢
      rw [h.incB]
      exact ⟨fun h => ⟨hg', hm', h⟩, fun h => h.2.2⟩
    · refine imp_congr ?_ ?_
      · exact forall_congr' fun m => imp_congr_right fun hm => hnew m (hP hm)
      · exact forall_congr' fun m => imp_congr_right fun hm => hnew m (hC hm)
  refine ⟨fun P C hP hC => ?_, ?_⟩
  · rw [hrd.entails hst.wf (hM ▸ hP) (hM ▸ hC), hrc.entails h hP hC, key P C hP hC]
  · rw [BasisOf.eq_iff hst.wf h hatt hrd hrc, ← holds_all_iff hst.wf hBM]
    constructor
    · intro hh P C hP hC hh'
      exact ((key P C (hM ▸ hP) (hM ▸ hC)).1 ((hh P C hP hC).1 hh')).2
    · intro hh P C hP hC
      rw [key P C (hM ▸ hP) (hM ▸ hC)]
      exact ⟨fun h' => ⟨h', hh P C hP hC h'⟩, fun h => h.1⟩

/-- After `add_attribute_with_extent` with a new name: between the old attributes the same implications follow; the new
attribute follows from the sets all of whose objects are in the extent, and it implies what all objects in the extent
have. -/
theorem C142_add_attribute {c d : Ctx α β} (h : c.WFw) {A : Finset α} {n : β} (hn : n ∉ c.attributes)
    (hd : c.addAttributeWithExtent A n = (d, none)) {rc rd : List (Imp β)} (hrc : c.BasisOf rc) (hrd : d.BasisOf rd) :
    ∀ P C, P ⊆ c.M → C ⊆ c.M →
      (Entails (specImps rd) P C ↔ Entails (specImps rc) P C) ∧
      (Entails (specImps rd) P {n} ↔ ∀ g ∈ c.objects, (∀ m ∈ P, c.Inc g m) → g ∈ A) ∧
      (Entails (specImps rd) (insert n P) C ↔ ∀ g ∈ c.objects, g ∈ A → (∀ m ∈ P, c.Inc g m) → ∀ m ∈ C, c.Inc g m) := by
  have hst := h.stores.addAttributeWithExtent hn hd
  have hobj : d.objects = c.objects := hst.objs
  have hM : d.M = insert n c.M := by
    have : d.attributes = c.attributes ++ [n] := hst.atts
    ext x
    simp [M, this]
  have hG : d.G = c.G := by simp [G, hobj]
  have hold : ∀ g ∈ c.G, ∀ m ∈ c.M, (d.Inc g m ↔ c.Inc g m) := by
    intro g hg m hm
    have hg' : g ∈ c.objects := by simpa [G] using hg
    have hm' : m ∈ c.attributes := by simpa [M] using hm
    have hmn : m ≠ n := fun e => hn (e ▸ hm')
    rw [hst.inc]
    simp only [Table.apply, List.mem_append, hmn, if_false]
    rw [h.incB]
    exact ⟨fun h => h.2.2, fun h => ⟨hg', .inl hm', h⟩⟩
  have hnew : ∀ g ∈ c.G, (d.Inc g n ↔ g ∈ A) := by
    intro g hg
    have hg' : g ∈ c.objects := by simpa [G] using hg
    rw [hst.inc]
    simp [Table.apply, hg']
  intro P C hP hC
  have hMi : c.M ⊆ d.M := hM ▸ Finset.subset_insert _ _
  have hnM : n ∈ d.M := hM ▸ Finset.mem_insert_self _ _
  refine ⟨?_, ?_, ?_⟩
  · rw [hrd.entails hst.wf (hP.trans hMi) (hC.trans hMi), hrc.entails h hP hC, hG]
    exact holdsIn_congr fun g hg m hm => hold g hg m (hm.elim (fun hm => hP hm) fun hm => hC hm)
  · rw [hrd.entails hst.wf (hP.trans hMi) (by simpa using hnM), hG]
    unfold HoldsIn
    simp only [Finset.mem_singleton, forall_eq]
    refine forall_congr' fun g => ?_
    rw [show g ∈ c.G ↔ g ∈ c.objects by simp [G]]
    refine imp_congr_right fun hg => ?_
    have hg : g ∈ c.G := by simpa [G] using hg
    rw [hnew g hg]
    exact imp_congr_left (forall_congr' fun m => imp_congr_right fun hm => hold g hg m (hP hm))
  · rw [hrd.entails hst.wf (Finset.insert_subset hnM (hP.trans hMi)) (hC.trans hMi), hG]
    unfold HoldsIn
    simp only [Finset.mem_insert, forall_eq_or_imp]
    refine forall_congr' fun g => ?_
    rw [show g ∈ c.G ↔ g ∈ c.objects by simp [G]]
    refine imp_congr_right fun hg => ?_
    have hg : g ∈ c.G := by simpa [G] using hg
    rw [hnew g hg, and_imp]
    refine imp_congr_right fun _ => imp_congr ?_ ?_
    · exact forall_congr' fun m => imp_congr_right fun hm => hold g hg m (hP hm)
    · exact forall_congr' fun m => imp_congr_right fun hm => hold g hg m (hC hm)

/-- After `delete_attribute`: between the remaining attributes the same implications follow as before. -/
theorem C142_delete_attribute {c d : Ctx α β} (h : c.WFw) {n : β}
    (hd : c.deleteAttribute n = (d, none)) {rc rd : List (Imp β)} (hrc : c.BasisOf rc) (hrd : d.BasisOf rd) :
    (∀ m, m ∈ d.attributes ↔ m ∈ c.attributes ∧ m ≠ n) ∧
    ∀ P C, P ⊆ d.M → C ⊆ d.M → (Entails (specImps rd) P C ↔ Entails (specImps rc) P C) := by
  have hst := h.stores.deleteAttribute hd
  have hda : d.attributes = c.attributes.filter (· ≠ n) := hst.atts
  have hG : d.G = c.G := by
    have : d.objects = c.objects := hst.objs
    simp [G, this]
  have hMi : d.M ⊆ c.M := by
    intro m hm
    simp only [M, hda, List.mem_toFinset, List.mem_filter] at hm ⊢
    exact hm.1
  refine ⟨fun m => by simp [hda], fun P C hP hC => ?_⟩
  rw [hrd.entails hst.wf hP hC, hrc.entails h (hP.trans hMi) (hC.trans hMi), hG]
  refine holdsIn_congr fun g hg m hm => ?_
  have hg' : g ∈ c.objects := by simpa [G] using hg
  have hmd : m ∈ d.M := hm.elim (fun hm => hP hm) fun hm => hC hm
  have hm' : m ∈ d.attributes := by simpa [M] using hmd
  rw [hst.inc]
  rw [hst.atts] at hm'
  simp only [Table.apply] at hm' ⊢
  rw [h.incB]
  exact ⟨fun h => h.2.2, fun h => ⟨hg', hm', h⟩⟩

/-- After `rename_attribute` to a new name the same implications follow, with the name exchanged. -/
theorem C142_rename_attribute {c d : Ctx α β} (h : c.WFw) {old new : β} (hn : new ∉ c.attributes)
    (hd : c.renameAttribute old new = (d, none)) {rc rd : List (Imp β)} (hrc : c.BasisOf rc) (hrd : d.BasisOf rd) :
    ∀ P C, P ⊆ c.M → C ⊆ c.M →
      (Entails (specImps rd) (P.image fun m => if m = old then new else m) (C.image fun m => if m = old then new else m) ↔
        Entails (specImps rc) P C) := by
  have hst := h.stores.renameAttribute (.inl hn) hd
  have hG : d.G = c.G := by
    have : d.objects = c.objects := hst.objs
    simp [G, this]
  have hinc : ∀ g ∈ c.G, ∀ m ∈ c.M, (d.Inc g (if m = old then new else m) ↔ c.Inc g m) := by
    intro g hg m hm
    have hg' : g ∈ c.objects := by simpa [G] using hg
    have hm' : m ∈ c.attributes := by simpa [M] using hm
    have hmn : m ≠ new := fun e => hn (e ▸ hm')
    rw [hst.inc, ← h.incB]
    simp only [Table.apply]
    by_cases e : m = old
    · subst e
      simp only [if_true, hg', true_and, List.mem_map]
      exact ⟨fun h => h.2, fun h => ⟨⟨m, hm', by simp⟩, h⟩⟩
    · simp only [e, if_false, hmn, hg', true_and, List.mem_map]
      constructor
      · exact fun h => h.2
      · exact fun h => ⟨⟨m, hm', by simp [e]⟩, h⟩
  have hsub : ∀ S, S ⊆ c.M → S.image (fun m => if m = old then new else m) ⊆ d.M := by
    intro S hS x hx
    obtain ⟨m, hm, rfl⟩ := Finset.mem_image.1 hx
    have hm' : m ∈ c.attributes := by simpa [M] using hS hm
    have : d.attributes = _ := hst.atts
    simp only [M, this, Table.apply, List.mem_toFinset, List.mem_map]
    exact ⟨m, hm', rfl⟩
  intro P C hP hC
  rw [hrd.entails hst.wf (hsub P hP) (hsub C hC), hrc.entails h hP hC, hG]
  unfold HoldsIn
  refine forall_congr' fun g => imp_congr_right fun hg => ?_
  simp only [Finset.forall_mem_image]
  refine imp_congr ?_ ?_
  · exact forall_congr' fun m => imp_congr_right fun hm => hinc g hg m (hP hm)
  · exact forall_congr' fun m => imp_congr_right fun hm => hinc g hg m (hC hm)

/-! #### Cases -/

/-- Three attributes, two objects. -/
def ch142 : Ctx (Fin 4) (Fin 4) := ⟨[0, 1], [0, 1, 2], ⟨some 3, [[true, true, false], [false, true, true]]⟩⟩

theorem ch142_wf : ch142.WFw := by constructor <;> decide +kernel

theorem ch142_basis {c : Ctx (Fin 4) (Fin 4)} {res : List (Imp (Fin 4))}
    (h : c.dgBasisWith (SetOrder.fin 4) (SetOrder.fin 4) simpleClosure [] (fun _ => true) = .ok res) : c.BasisOf res :=
  ⟨SetOrder.fin 4, SetOrder.fin 4, simpleClosure, Or.inl rfl, h⟩

example : ch142.BasisOf [⟨∅, {1}⟩] := ch142_basis (by decide +kernel)

/-- An object with a closed intent changes nothing, one with the intent `{0}` does. -/
example : (ch142.addObjectWithIntent {1} 2).2 = none ∧
    (ch142.addObjectWithIntent {1} 2).1.BasisOf [⟨∅, {1}⟩] ∧
    (ch142.addObjectWithIntent {0} 2).2 = none ∧
    (ch142.addObjectWithIntent {0} 2).1.BasisOf [⟨{2}, {1, 2}⟩] :=
  ⟨by decide +kernel, ch142_basis (by decide +kernel), by decide +kernel, ch142_basis (by decide +kernel)⟩

example : (ch142.deleteObject 1).2 = none ∧ ch142.objectIntent 1 = .ok {1, 2} ∧
    (ch142.deleteObject 1).1.BasisOf [⟨∅, {0, 1}⟩] :=
  ⟨by decide +kernel, by decide +kernel, ch142_basis (by decide +kernel)⟩

example : (ch142.addAttributeWithExtent {0} 3).2 = none ∧
    (ch142.addAttributeWithExtent {0} 3).1.BasisOf [⟨∅, {1}⟩, ⟨{1, 3}, {0, 1, 3}⟩, ⟨{0, 1}, {0, 1, 3}⟩] :=
  ⟨by decide +kernel, ch142_basis (by decide +kernel)⟩

example : (ch142.deleteAttribute 0).2 = none ∧ (ch142.deleteAttribute 0).1.BasisOf [⟨∅, {1}⟩] :=
  ⟨by decide +kernel, ch142_basis (by decide +kernel)⟩

example : (ch142.renameAttribute 1 3).2 = none ∧ (ch142.renameAttribute 1 3).1.BasisOf [⟨∅, {3}⟩] :=
  ⟨by decide +kernel, ch142_basis (by decide +kernel)⟩

end Ctx
