/-
Property C146: what follows from the bases of derived contexts.
-/
import Verif.Props.BasisChange
import Verif.Props.Reduce

set_option linter.unusedSectionVars false

open Spec

namespace Ctx

variable {α β : Type} [DecidableEq α] [DecidableEq β] [PyName α] [PyName β]

/-- `extract_subcontext` (context.py:549-553): the basis of the subcontext says of its attributes what the basis of the
context says of them. -/
theorem C146_subcontext {c d : Ctx α β} (h : c.WFw) {names : List β} (hn : names.Nodup)
    (hd : c.extractSubcontext names = .ok d) {rc rd : List (Imp β)} (hrc : c.BasisOf rc) (hrd : d.BasisOf rd) :
    ∀ P C, P ⊆ names.toFinset → C ⊆ names.toFinset → (Entails (specImps rd) P C ↔ Entails (specImps rc) P C) := by
  have hall : ∀ a ∈ names, a ∈ c.attributes := by
    intro a ha
    by_contra hna
    have := (C16_subcontext h names).1 ⟨a, ha, hna⟩
    rw [this] at hd
    cases hd
  obtain ⟨d', h1, -, h3, h4⟩ := (C16_subcontext h names).2 hall
  rw [hd] at h1; cases h1
  obtain ⟨hw, ha, hi⟩ := h4 hn
  have hM : d.M = names.toFinset := by unfold M; rw [ha]
  have hG : d.G = c.G := by unfold G; rw [h3]
  intro P C hP hC
  have sub : names.toFinset ⊆ c.M := by
    intro a ha
    exact List.mem_toFinset.2 (hall a (List.mem_toFinset.1 ha))
  rw [hrd.entails hw.toWFw (hM ▸ hP) (hM ▸ hC), hrc.entails h (hP.trans sub) (hC.trans sub), hG]
  refine holdsIn_congr fun g hg m hm => ?_
  rw [hi g m]
  refine ⟨fun h => h.2, fun h => ⟨?_, h⟩⟩
  rcases hm with hm | hm
  · exact List.mem_toFinset.1 (hP hm)
  · exact List.mem_toFinset.1 (hC hm)

/-- `extract_subcontext_filtered_by_attributes` with mode "and": the chosen attributes have become a further premise. -/
theorem C146_filtered_and {c d : Ctx α β} (h : c.WFw) {names : List β} (hall : ∀ a ∈ names, a ∈ c.attributes)
    (hd : c.extractFiltered names .and = .ok d) {rc rd : List (Imp β)} (hrc : c.BasisOf rc) (hrd : d.BasisOf rd) :
    ∀ P C, P ⊆ c.M → C ⊆ c.M → (Entails (specImps rd) P C ↔ Entails (specImps rc) (P ∪ names.toFinset) C) := by
  obtain ⟨d', h1, h2, h3, -, h5, h6⟩ := (C16_filtered h names .and).2 hall (by decide)
  rw [hd] at h1; cases h1
  intro P C hP hC
  have hM : d.M = c.M := by unfold M; rw [h3]
  have sub : names.toFinset ⊆ c.M := fun a ha => List.mem_toFinset.2 (hall a (List.mem_toFinset.1 ha))
  rw [hrd.entails h2.toWFw (hM ▸ hP) (hM ▸ hC), hrc.entails h (Finset.union_subset hP sub) hC]
  unfold HoldsIn
  constructor
  · intro hh g hg hp m hm
    have hgd : g ∈ d.objects := (h5 g).2 ⟨List.mem_toFinset.1 hg, .inl ⟨rfl, fun a ha =>
      hp a (Finset.mem_union_right _ (List.mem_toFinset.2 ha))⟩⟩
    rw [← h6 g hgd]
    exact hh g (List.mem_toFinset.2 hgd) (fun m hm => (h6 g hgd m).2 (hp m (Finset.mem_union_left _ hm))) m hm
  · intro hh g hg hp m hm
    have hgd := List.mem_toFinset.1 hg
    obtain ⟨hgc, ⟨-, ha⟩ | ⟨hf, -⟩⟩ := (h5 g).1 hgd
    · rw [h6 g hgd]
      refine hh g (List.mem_toFinset.2 hgc) (fun m hm => ?_) m hm
      rcases Finset.mem_union.1 hm with hm | hm
      · exact (h6 g hgd m).1 (hp m hm)
      · exact ha m (List.mem_toFinset.1 hm)
    · cases hf

/-- `extract_subcontext_filtered_by_attributes` with mode "or": what follows with each of the chosen attributes. -/
theorem C146_filtered_or {c d : Ctx α β} (h : c.WFw) {names : List β} (hall : ∀ a ∈ names, a ∈ c.attributes)
    (hd : c.extractFiltered names .or = .ok d) {rc rd : List (Imp β)} (hrc : c.BasisOf rc) (hrd : d.BasisOf rd) :
    ∀ P C, P ⊆ c.M → C ⊆ c.M →
      (Entails (specImps rd) P C ↔ ∀ a ∈ names, Entails (specImps rc) (insert a P) C) := by
  obtain ⟨d', h1, h2, h3, -, h5, h6⟩ := (C16_filtered h names .or).2 hall (by decide)
  rw [hd] at h1; cases h1
  intro P C hP hC
  have hM : d.M = c.M := by unfold M; rw [h3]
  have ent : ∀ a ∈ names, (Entails (specImps rc) (insert a P) C ↔ HoldsIn c.G c.Inc (insert a P) C) := by
    intro a ha
    exact hrc.entails h (Finset.insert_subset (List.mem_toFinset.2 (hall a ha)) hP) hC
  rw [hrd.entails h2.toWFw (hM ▸ hP) (hM ▸ hC)]
  unfold HoldsIn at ent ⊢
  constructor
  · intro hh a ha
    rw [ent a ha]
    intro g hg hp m hm
    have hgd : g ∈ d.objects := (h5 g).2 ⟨List.mem_toFinset.1 hg, .inr ⟨rfl, a, ha, hp a (Finset.mem_insert_self _ _)⟩⟩
    rw [← h6 g hgd]
    exact hh g (List.mem_toFinset.2 hgd) (fun m hm => (h6 g hgd m).2 (hp m (Finset.mem_insert_of_mem hm))) m hm
  · intro hh g hg hp m hm
    have hgd := List.mem_toFinset.1 hg
    obtain ⟨hgc, ⟨hf, -⟩ | ⟨-, a, ha, hga⟩⟩ := (h5 g).1 hgd
    · cases hf
    · rw [h6 g hgd]
      refine (ent a ha).1 (hh a ha) g (List.mem_toFinset.2 hgc) (fun m hm => ?_) m hm
      rcases Finset.mem_insert.1 hm with rfl | hm
      · exact hga
      · exact (h6 g hgd m).1 (hp m hm)

/-- `remove_empty_objects`: before, nothing followed from the empty premise if there was an empty row; nothing else changes. -/
theorem C146_remove_empty {c d : Ctx α β} (h : c.WFw) (hd : c.removeEmptyObjects = (d, none))
    {rc rd : List (Imp β)} (hrc : c.BasisOf rc) (hrd : d.BasisOf rd) :
    ∀ P C, P ⊆ c.M → C ⊆ c.M → (Entails (specImps rc) P C ↔
      Entails (specImps rd) P C ∧ ((∃ o ∈ c.objects, ∀ a, ¬ c.Inc o a) → P = ∅ → C = ∅)) := by
  obtain ⟨d', h1, h2, h3, -, h5, h6, -⟩ := C17_remove_empty h
  rw [hd] at h1; cases h1
  intro P C hP hC
  have hM : d.M = c.M := by unfold M; rw [h3]
  rw [hrd.entails h2 (hM ▸ hP) (hM ▸ hC), hrc.entails h hP hC]
  unfold HoldsIn
  simp only [h6]
  constructor
  · intro hh
    refine ⟨fun g hg => hh g (List.mem_toFinset.2 ((h5 g).1 (List.mem_toFinset.1 hg)).1), ?_⟩
    rintro ⟨o, ho, he⟩ rfl
    refine Finset.eq_empty_iff_forall_notMem.2 fun m hm => ?_
    exact he m (hh o (List.mem_toFinset.2 ho) (by simp) m hm)
  · rintro ⟨hh, he⟩ g hg hp m hm
    by_cases hx : ∃ a, c.Inc g a
    · exact hh g (List.mem_toFinset.2 ((h5 g).2 ⟨List.mem_toFinset.1 hg, hx⟩)) hp m hm
    · push Not at hx
      have hPe : P = ∅ := Finset.eq_empty_iff_forall_notMem.2 fun m hm => hx m (hp m hm)
      rw [he ⟨g, List.mem_toFinset.1 hg, hx⟩ hPe] at hm
      simp at hm

/-- The kept attributes that all objects with `m` have. -/
noncomputable def keptAbove (c d : Ctx α β) (m : β) : Finset β :=
  open Classical in d.M.filter fun n => ∀ g ∈ c.G, c.Inc g m → c.Inc g n

/-- For each removed attribute `m` the implications `m → N` and `N → m`, where `N` are the kept attributes above `m`. -/
noncomputable def linkImps (c d : Ctx α β) : Imps β :=
  (c.attributes.filter fun m => decide (m ∉ d.attributes)).flatMap fun m =>
    [({m}, keptAbove c d m), (keptAbove c d m, {m})]

/-- `reduce_attributes`: the basis of the reduced context and, for each removed attribute, its equivalence with kept
attributes, are together as strong as the basis of the context. -/
theorem C146_reduce_attributes {c d : Ctx α β} (h : c.WFw) (hd : c.reduceAttributes = .ok d)
    {rc rd : List (Imp β)} (hrc : c.BasisOf rc) (hrd : d.BasisOf rd) :
    ∀ P C, P ⊆ c.M → C ⊆ c.M → (Entails (specImps rc) P C ↔ Entails (specImps rd ++ linkImps c d) P C) := by
  classical
  obtain ⟨d', h1, h2, h3, h4, h5, h6⟩ := C11_reduce_attributes h
  rw [hd] at h1; cases h1
  have hG : d.G = c.G := by unfold G; rw [h4]
  have hMs : d.M ⊆ c.M := fun a ha => List.mem_toFinset.2 (h3.subset (List.mem_toFinset.1 ha))
  have hNs : ∀ m, keptAbove c d m ⊆ d.M := fun m => Finset.filter_subset _ _
  -- the column of every attribute is an extent of the reduced context
  have hcol : ∀ m ∈ c.M, ∀ g ∈ c.G, (∀ n ∈ keptAbove c d m, c.Inc g n) → c.Inc g m := by
    intro m hm g hg hgn
    have hext : IsExtent c.G c.M c.Inc (c.G.filter fun g => c.Inc g m) := by
      obtain ⟨B, hB⟩ : ∃ B, IsConcept c.G c.M c.Inc (c.G.filter fun g => c.Inc g m) B := by
        refine ⟨c.M.filter fun n => ∀ g ∈ c.G, c.Inc g m → c.Inc g n, ?_, ?_⟩
        · intro n
          simp only [Finset.mem_filter]
          exact ⟨fun h => ⟨h.1, fun g hg => h.2 g hg.1 hg.2⟩, fun h => ⟨h.1, fun g hg hgm => h.2 g ⟨hg, hgm⟩⟩⟩
        · intro g
          simp only [Finset.mem_filter]
          exact ⟨fun h => ⟨h.1, fun n hn => hn.2 g h.1 h.2⟩, fun h => ⟨h.1, h.2 m ⟨hm, fun _ _ h => h⟩⟩⟩
      exact ⟨B, hB⟩
    obtain ⟨B, hB⟩ := (h6 _).2 hext
    have hBN : B = keptAbove c d m := by
      ext n
      rw [hB.1]
      unfold keptAbove
      simp only [Finset.mem_filter]
      refine and_congr_right fun hn => ?_
      have hn' := List.mem_toFinset.1 hn
      exact ⟨fun h g hg hgm => (h5 g n hn').1 (h g ⟨hg, hgm⟩), fun h g hg => (h5 g n hn').2 (h g hg.1 hg.2)⟩
    have := (hB.2 g).2 ⟨hG ▸ hg, fun n hn => (h5 g n (List.mem_toFinset.1 (hNs m (hBN ▸ hn)))).2 (hgn n (hBN ▸ hn))⟩
    exact (Finset.mem_filter.1 this).2
  have hlink : ∀ pc ∈ linkImps c d, ∃ m ∈ c.M, m ∉ d.M ∧
      (pc = ({m}, keptAbove c d m) ∨ pc = (keptAbove c d m, {m})) := by
    intro pc hpc
    unfold linkImps at hpc
    rw [List.mem_flatMap] at hpc
    obtain ⟨m, hm, hpc⟩ := hpc
    rw [List.mem_filter, decide_eq_true_eq] at hm
    refine ⟨m, List.mem_toFinset.2 hm.1, fun h => hm.2 (List.mem_toFinset.1 h), by simpa using hpc⟩
  have hlink' : ∀ m ∈ c.M, m ∉ d.M → ({m}, keptAbove c d m) ∈ linkImps c d ∧
      (keptAbove c d m, ({m} : Finset β)) ∈ linkImps c d := by
    intro m hm hmd
    have : m ∈ c.attributes.filter fun m => decide (m ∉ d.attributes) := by
      rw [List.mem_filter, decide_eq_true_eq]
      exact ⟨List.mem_toFinset.1 hm, fun h => hmd (List.mem_toFinset.2 h)⟩
    unfold linkImps
    simp only [List.mem_flatMap]
    exact ⟨⟨m, this, by simp⟩, m, this, by simp⟩
  have hold : ∀ P C, P ⊆ d.M → C ⊆ d.M → (HoldsIn d.G d.Inc P C ↔ HoldsIn c.G c.Inc P C) := by
    intro P C hP hC
    rw [hG]
    refine holdsIn_congr fun g _ m hm => h5 g m (List.mem_toFinset.1 ?_)
    rcases hm with hm | hm
    · exact hP hm
    · exact hC hm
  intro P C hP hC
  constructor
  · intro hent S hS hPS
    rw [hrc.entails h hP hC] at hent
    have hSd : Closed (specImps rd) S := fun pc hpc => hS pc (List.mem_append_left _ hpc)
    have hkept : ∀ m ∈ S, m ∈ c.M → keptAbove c d m ⊆ S := by
      intro m hmS hm
      by_cases hmd : m ∈ d.M
      · refine (hrd.entails h2.toWFw (P := {m}) (by simpa using hmd) (hNs m)).2 ?_ S hSd (by simpa using hmS)
        rw [hold _ _ (by simpa using hmd) (hNs m)]
        intro g hg hgm n hn
        exact (Finset.mem_filter.1 hn).2 g hg (hgm m (by simp))
      · exact hS _ (List.mem_append_right _ (hlink' m hm hmd).1) (by simpa using hmS)
    -- the kept attributes that `P` amounts to
    set Q := P.biUnion (keptAbove c d) with hQ
    have hQd : Q ⊆ d.M := by
      intro n hn
      obtain ⟨m, -, hn⟩ := Finset.mem_biUnion.1 hn
      exact hNs m hn
    have hQS : Q ⊆ S := by
      intro n hn
      obtain ⟨m, hm, hn⟩ := Finset.mem_biUnion.1 hn
      exact hkept m (hPS hm) (hP hm) hn
    have hQP : ∀ g ∈ c.G, (∀ n ∈ Q, c.Inc g n) → ∀ m ∈ P, c.Inc g m := by
      intro g hg hq m hm
      exact hcol m (hP hm) g hg fun n hn => hq n (Finset.mem_biUnion.2 ⟨m, hm, hn⟩)
    intro m hm
    by_cases hmd : m ∈ d.M
    · have := (hrd.entails h2.toWFw hQd (C := {m}) (by simpa using hmd)).2 ?_ S hSd hQS
      · simpa using this
      · rw [hold _ _ hQd (by simpa using hmd)]
        intro g hg hq n hn
        rw [Finset.mem_singleton.1 hn]
        exact hent g hg (hQP g hg hq) m hm
    · have := (hrd.entails h2.toWFw hQd (hNs m)).2 ?_ S hSd hQS
      · have h7 := hS _ (List.mem_append_right _ (hlink' m (hC hm) hmd).2) this
        simpa using h7
      · rw [hold _ _ hQd (hNs m)]
        intro g hg hq n hn
        exact (Finset.mem_filter.1 hn).2 g hg (hent g hg (hQP g hg hq) m hm)
  · intro hent
    rw [hrc.entails h hP hC]
    intro g hg hp m hm
    have hcl : Closed (specImps rd ++ linkImps c d) (c.M.filter fun m => c.Inc g m) := by
      intro pc hpc hsub
      rcases List.mem_append.1 hpc with hpc | hpc
      · have hPd : pc.1 ∩ d.M ⊆ d.M := Finset.inter_subset_right
        unfold specImps at hpc
        obtain ⟨i, hi, rfl⟩ := List.mem_map.1 hpc
        obtain ⟨ordA, ordO, close, k1, k2⟩ := hrd
        have hi' := (basis_mem_iff h2.toWFw k1 k2 i).1 hi
        have hPM : i.premise ⊆ d.M := by
          have := hi'.1
          rw [IsPseudo] at this
          exact this.1
        have hCM : i.conclusion ⊆ d.M := by
          rw [hi'.2]
          exact h2.toWFw.attrClosure_op.into _ hPM
        have hh : HoldsIn c.G c.Inc i.premise i.conclusion := by
          rw [← hold _ _ hPM hCM, holdsIn_iff h2.toWFw hCM, hi'.2]
        intro n hn
        exact Finset.mem_filter.2 ⟨hMs (hCM hn), hh g hg (fun k hk => (Finset.mem_filter.1 (hsub hk)).2) n hn⟩
      · obtain ⟨n, hn, hnd, rfl | rfl⟩ := hlink pc hpc
        · have hgn : c.Inc g n := (Finset.mem_filter.1 (hsub (by simp))).2
          intro k hk
          exact Finset.mem_filter.2 ⟨hMs (hNs n hk), (Finset.mem_filter.1 hk).2 g hg hgn⟩
        · intro k hk
          rw [Finset.mem_singleton.1 hk]
          exact Finset.mem_filter.2 ⟨hn, hcol n hn g hg fun k hk => (Finset.mem_filter.1 (hsub hk)).2⟩
    exact (Finset.mem_filter.1 (hent _ hcl (fun k hk => Finset.mem_filter.2 ⟨hP hk, hp k hk⟩) hm)).2

/-! #### Cases -/

/-- Attribute 2 is the conjunction of 0 and 1; the last object is empty. -/
def der146 : Ctx (Fin 4) (Fin 4) := ⟨[0, 1, 2, 3], [0, 1, 2],
  ⟨some 3, [[true, true, true], [true, false, false], [false, true, false], [false, false, false]]⟩⟩

theorem der146_wf : der146.WFw := by constructor <;> decide +kernel

example : der146.BasisOf [⟨{2}, {0, 1, 2}⟩, ⟨{0, 1}, {0, 1, 2}⟩] := ch142_basis (by decide +kernel)

/-- The reduced context has no implications; all of them come from the equivalence of 2 with {0, 1}. -/
example : ∃ d, der146.reduceAttributes = .ok d ∧ d.attributes = [0, 1] ∧ d.BasisOf [] :=
  ⟨_, rfl, by decide +kernel, ch142_basis (by decide +kernel)⟩

example : ∃ d, der146.extractSubcontext [2, 0] = .ok d ∧ d.BasisOf [⟨{2}, {0, 2}⟩] :=
  ⟨_, rfl, ch142_basis (by decide +kernel)⟩

example : ∃ d, der146.extractFiltered [0] .and = .ok d ∧ d.BasisOf [⟨∅, {0}⟩, ⟨{0, 2}, {0, 1, 2}⟩, ⟨{0, 1}, {0, 1, 2}⟩] :=
  ⟨_, rfl, ch142_basis (by decide +kernel)⟩

example : ∃ d, der146.extractFiltered [0, 2] .or = .ok d ∧
    d.BasisOf [⟨∅, {0}⟩, ⟨{0, 2}, {0, 1, 2}⟩, ⟨{0, 1}, {0, 1, 2}⟩] :=
  ⟨_, rfl, ch142_basis (by decide +kernel)⟩

/-- With the empty row nothing follows from the empty premise; without it 0 does. -/
example : (⟨[0, 1], [0, 1], ⟨some 2, [[true, false], [false, false]]⟩⟩ : Ctx (Fin 4) (Fin 4)).removeEmptyObjects =
      (⟨[0], [0, 1], ⟨some 2, [[true, false]]⟩⟩, none) ∧
    (⟨[0, 1], [0, 1], ⟨some 2, [[true, false], [false, false]]⟩⟩ : Ctx (Fin 4) (Fin 4)).BasisOf [⟨{1}, {0, 1}⟩] ∧
    (⟨[0], [0, 1], ⟨some 2, [[true, false]]⟩⟩ : Ctx (Fin 4) (Fin 4)).BasisOf [⟨∅, {0}⟩] :=
  ⟨by decide +kernel, ch142_basis (by decide +kernel), ch142_basis (by decide +kernel)⟩

end Ctx
