/-
Property C129: how the concepts change when the context changes, and how many there are.
-/
import Verif.Props.DGTrace
import Verif.Props.Lattice
import Verif.Props.Context
import Verif.Lemmas.Derived2

set_option linter.unusedSectionVars false

open Spec

namespace Spec
variable {α β : Type} [DecidableEq α] [DecidableEq β]

/-- Intents are the sets of attributes common to a set of objects. -/
theorem isIntent_iff_common {G : Finset α} {M : Finset β} {I : α → β → Prop} {B : Finset β} :
    IsIntent G M I B ↔ ∃ A ⊆ G, ∀ m, m ∈ B ↔ m ∈ M ∧ ∀ g ∈ A, I g m := by
  classical
  constructor
  · rintro ⟨A, hB, hA⟩
    exact ⟨A, fun g hg => ((hA g).1 hg).1, hB⟩
  · rintro ⟨A, hAG, hB⟩
    refine ⟨G.filter fun g => ∀ m ∈ B, I g m, fun m => ?_, fun g => by simp⟩
    rw [hB]
    refine and_congr_right fun hm => ⟨fun h g hg => ?_, fun h g hg => h g ?_⟩
    · rw [Finset.mem_filter] at hg
      exact hg.2 m ((hB m).2 ⟨hm, h⟩)
    · exact Finset.mem_filter.2 ⟨hAG hg, fun m hm => ((hB m).1 hm).2 g hg⟩

theorem isExtent_iff_swap {G : Finset α} {M : Finset β} {I : α → β → Prop} {A : Finset α} :
    IsExtent G M I A ↔ IsIntent M G (fun m g => I g m) A :=
  exists_congr fun _ => and_comm

/-- One more object: the intents are the old ones and their intersections with the new row. -/
theorem isIntent_insert {G : Finset α} {M : Finset β} {I J : α → β → Prop} {n : α} {R : Finset β} (hn : n ∉ G)
    (hI : ∀ g ∈ G, ∀ m ∈ M, J g m ↔ I g m) (hR : ∀ m ∈ M, J n m ↔ m ∈ R) (B : Finset β) :
    IsIntent (insert n G) M J B ↔ IsIntent G M I B ∨ ∃ D, IsIntent G M I D ∧ B = D ∩ R := by
  classical
  simp only [isIntent_iff_common]
  constructor
  · rintro ⟨A, hA, hB⟩
    by_cases hnA : n ∈ A
    · right
      refine ⟨M.filter fun m => ∀ g ∈ A.erase n, I g m, ⟨A.erase n, ?_, fun m => by rw [Finset.mem_filter]⟩, ?_⟩
      · intro g hg
        rcases Finset.mem_insert.1 (hA (Finset.mem_of_mem_erase hg)) with h | h
        · exact absurd h (Finset.ne_of_mem_erase hg)
        · exact h
      · ext m
        rw [Finset.mem_inter, Finset.mem_filter, hB]
        constructor
        · rintro ⟨hm, h⟩
          refine ⟨⟨hm, fun g hg => ?_⟩, (hR m hm).1 (h n hnA)⟩
          obtain ⟨hgn, hgA⟩ := Finset.mem_erase.1 hg
          exact (hI g ((Finset.mem_insert.1 (hA hgA)).resolve_left hgn) m hm).1 (h g hgA)
        · rintro ⟨⟨hm, h⟩, hmR⟩
          refine ⟨hm, fun g hg => ?_⟩
          by_cases hgn : g = n
          · subst hgn; exact (hR m hm).2 hmR
          · exact (hI g ((Finset.mem_insert.1 (hA hg)).resolve_left hgn) m hm).2 (h g (Finset.mem_erase.2 ⟨hgn, hg⟩))
    · left
      have hAG : A ⊆ G := fun g hg => (Finset.mem_insert.1 (hA hg)).resolve_left fun e => hnA (e ▸ hg)
      refine ⟨A, hAG, fun m => ?_⟩
      rw [hB]
      exact and_congr_right fun hm => forall₂_congr fun g hg => hI g (hAG hg) m hm
  · rintro (⟨A, hA, hB⟩ | ⟨D, ⟨A, hA, hD⟩, rfl⟩)
    · refine ⟨A, hA.trans (Finset.subset_insert _ _), fun m => ?_⟩
      rw [hB]
      exact and_congr_right fun hm => forall₂_congr fun g hg => (hI g (hA hg) m hm).symm
    · refine ⟨insert n A, Finset.insert_subset_insert _ hA, fun m => ?_⟩
      rw [Finset.mem_inter, hD]
      constructor
      · rintro ⟨⟨hm, h⟩, hmR⟩
        refine ⟨hm, fun g hg => ?_⟩
        rcases Finset.mem_insert.1 hg with rfl | hg
        · exact (hR m hm).2 hmR
        · exact (hI g (hA hg) m hm).2 (h g hg)
      · rintro ⟨hm, h⟩
        exact ⟨⟨hm, fun g hg => (hI g (hA hg) m hm).1 (h g (Finset.mem_insert_of_mem hg))⟩,
          (hR m hm).1 (h n (Finset.mem_insert_self _ _))⟩

end Spec

namespace Ctx
variable {α β : Type} [DecidableEq α] [DecidableEq β]

/-- The set of intents of the concepts. -/
theorem norris_intents {c : Ctx α β} (h : c.WFw) {cs : List (Concept α β)} (hcs : norris c = .ok cs) :
    (cs.map fun x => x.intent).Nodup ∧ (∀ B, B ∈ cs.map (fun x => x.intent) ↔ IsIntent c.G c.M c.Inc B) := by
  obtain ⟨cs', hcs', hnd, hmem⟩ := C34_norris h
  rw [hcs] at hcs'
  obtain rfl : cs = cs' := by injection hcs'
  refine ⟨List.Nodup.map_on ?_ hnd, fun B => ?_⟩
  · intro x hx y hy he
    have e1 := ((hmem x).1 hx).2
    have e2 := ((hmem y).1 hy).2
    have : x.extent = y.extent := by
      ext g
      rw [e1, e2, he]
    cases x; cases y
    simp_all
  · rw [List.mem_map]
    constructor
    · rintro ⟨x, hx, rfl⟩
      exact ⟨x.extent, (hmem x).1 hx⟩
    · rintro ⟨A, hA⟩
      exact ⟨⟨A, B⟩, (hmem _).2 hA, rfl⟩

theorem norris_extents {c : Ctx α β} (h : c.WFw) {cs : List (Concept α β)} (hcs : norris c = .ok cs) :
    (cs.map fun x => x.extent).Nodup ∧ (∀ A, A ∈ cs.map (fun x => x.extent) ↔ IsExtent c.G c.M c.Inc A) := by
  obtain ⟨cs', hcs', hnd, hmem⟩ := C34_norris h
  rw [hcs] at hcs'
  obtain rfl : cs = cs' := by injection hcs'
  refine ⟨List.Nodup.map_on ?_ hnd, fun A => ?_⟩
  · intro x hx y hy he
    have e1 := ((hmem x).1 hx).1
    have e2 := ((hmem y).1 hy).1
    have : x.intent = y.intent := by
      ext m
      rw [e1, e2, he]
    cases x; cases y
    simp_all
  · rw [List.mem_map]
    constructor
    · rintro ⟨x, hx, rfl⟩
      exact ⟨x.intent, (hmem x).1 hx⟩
    · rintro ⟨B, hB⟩
      exact ⟨⟨A, B⟩, (hmem _).2 hB, rfl⟩

theorem count_grow {γ : Type} [DecidableEq γ] {l l' : List γ} {f : γ → γ} (hl : l.Nodup) (hl' : l'.Nodup)
    (h : ∀ x, x ∈ l' ↔ x ∈ l ∨ ∃ y ∈ l, x = f y) : l.length ≤ l'.length ∧ l'.length ≤ 2 * l.length := by
  constructor
  · exact (List.subperm_of_subset hl fun x hx => (h x).2 (.inl hx)).length_le
  · have : l' ⊆ l ++ l.map f := by
      intro x hx
      rcases (h x).1 hx with hx | ⟨y, hy, rfl⟩
      · exact List.mem_append_left _ hx
      · exact List.mem_append_right _ (List.mem_map_of_mem hy)
    have := (List.subperm_of_subset hl' this).length_le
    rw [List.length_append, List.length_map] at this
    omega

/-! ### C129 -/

section mutators
variable [PyName α] [PyName β]

/-- After `add_object` with a new name: the intents are the old ones and their intersections with the new row. -/
theorem C129_add_object {c d : Ctx α β} (h : c.WFw) {row : List Bool} {n : α} (hn : n ∉ c.objects)
    (hd : c.addObject row n = (d, none)) {cs ds : List (Concept α β)} (hcs : norris c = .ok cs) (hds : norris d = .ok ds) :
    (∀ B, B ∈ ds.map (fun x => x.intent) ↔ B ∈ cs.map (fun x => x.intent) ∨
      ∃ x ∈ cs, ∀ m, m ∈ B ↔ m ∈ x.intent ∧ row.getD (c.attributes.idxOf m) false = true) ∧
    cs.length ≤ ds.length ∧ ds.length ≤ 2 * cs.length := by
  have hst := h.stores.addObject hn hd
  obtain ⟨n1, m1⟩ := norris_intents h hcs
  obtain ⟨n2, m2⟩ := norris_intents hst.wf hds
  have hG : d.G = insert n c.G := by
    have : d.objects = c.objects ++ [n] := hst.objs
    ext x
    simp [G, this]
  have hM : d.M = c.M := by
    have : d.attributes = c.attributes := hst.atts
    simp [M, this]
  have hnG : n ∉ c.G := fun hm => hn (by simpa [G] using hm)
  have key : ∀ B, IsIntent d.G d.M d.Inc B ↔ IsIntent c.G c.M c.Inc B ∨
      ∃ D, IsIntent c.G c.M c.Inc D ∧
        B = D ∩ c.M.filter fun m => row.getD (c.attributes.idxOf m) false = true := by
    intro B
    rw [hG, hM]
    refine isIntent_insert hnG (fun g hg m hm => ?_) (fun m hm => ?_) B
    · have hgn : g ≠ n := fun e => hnG (e ▸ hg)
      have hg' : g ∈ c.objects := by simpa [G] using hg
      have hm' : m ∈ c.attributes := by simpa [M] using hm
      rw [hst.inc]
      simp only [Table.apply, List.mem_append, List.mem_singleton, hgn, if_false, or_false]
      rw [h.incB]
      exact ⟨fun h => h.2.2, fun h => ⟨hg', hm', h⟩⟩
    · have hm' : m ∈ c.attributes := by simpa [M] using hm
      rw [hst.inc, Finset.mem_filter]
      simp [Table.apply, hm, hm']
  have key' : ∀ B, B ∈ ds.map (fun x => x.intent) ↔ B ∈ cs.map (fun x => x.intent) ∨
      ∃ D ∈ cs.map (fun x => x.intent), B = D ∩ c.M.filter fun m => row.getD (c.attributes.idxOf m) false = true := by
    intro B
    rw [m2, key, m1]
    simp only [m1]
  refine ⟨fun B => ?_, ?_⟩
  · rw [key']
    refine or_congr_right ?_
    constructor
    · rintro ⟨D, hD, rfl⟩
      obtain ⟨x, hx, rfl⟩ := List.mem_map.1 hD
      have hxM : x.intent ⊆ c.M := (isIntent_iff.1 ((m1 _).1 hD)).1
      refine ⟨x, hx, fun m => ?_⟩
      rw [Finset.mem_inter, Finset.mem_filter]
      exact and_congr_right fun hm => ⟨fun h => h.2, fun h => ⟨hxM hm, h⟩⟩
    · rintro ⟨x, hx, hB⟩
      refine ⟨x.intent, List.mem_map_of_mem hx, ?_⟩
      have hxM : x.intent ⊆ c.M := (isIntent_iff.1 ((m1 _).1 (List.mem_map_of_mem hx))).1
      ext m
      rw [hB, Finset.mem_inter, Finset.mem_filter]
      exact and_congr_right fun hm => ⟨fun h => ⟨hxM hm, h⟩, fun h => h.2⟩
  · have := count_grow n1 n2 key'
    simpa using this

/-- After `add_attribute` with a new name: the extents are the old ones and their intersections with the new column. -/
theorem C129_add_attribute {c d : Ctx α β} (h : c.WFw) {col : List Bool} {n : β} (hn : n ∉ c.attributes)
    (hd : c.addAttribute col n = (d, none)) {cs ds : List (Concept α β)} (hcs : norris c = .ok cs)
    (hds : norris d = .ok ds) :
    (∀ A, A ∈ ds.map (fun x => x.extent) ↔ A ∈ cs.map (fun x => x.extent) ∨
      ∃ x ∈ cs, ∀ g, g ∈ A ↔ g ∈ x.extent ∧ col.getD (c.objects.idxOf g) false = true) ∧
    cs.length ≤ ds.length ∧ ds.length ≤ 2 * cs.length := by
  have hst := h.stores.addAttribute hn hd
  obtain ⟨n1, m1⟩ := norris_extents h hcs
  obtain ⟨n2, m2⟩ := norris_extents hst.wf hds
  have hM : d.M = insert n c.M := by
    have : d.attributes = c.attributes ++ [n] := hst.atts
    ext x
    simp [M, this]
  have hG : d.G = c.G := by
    have : d.objects = c.objects := hst.objs
    simp [G, this]
  have hnM : n ∉ c.M := fun hm => hn (by simpa [M] using hm)
  have key : ∀ A, IsExtent d.G d.M d.Inc A ↔ IsExtent c.G c.M c.Inc A ∨
      ∃ D, IsExtent c.G c.M c.Inc D ∧
        A = D ∩ c.G.filter fun g => col.getD (c.objects.idxOf g) false = true := by
    intro A
    simp only [isExtent_iff_swap]
    rw [hG, hM]
    refine isIntent_insert hnM (fun m hm g hg => ?_) (fun g hg => ?_) A
    · have hgn : m ≠ n := fun e => hnM (e ▸ hm)
      have hg' : g ∈ c.objects := by simpa [G] using hg
      have hm' : m ∈ c.attributes := by simpa [M] using hm
      rw [hst.inc]
      simp only [Table.apply, List.mem_append, List.mem_singleton, hgn, if_false, or_false]
      rw [h.incB]
      exact ⟨fun h => h.2.2, fun h => ⟨hg', hm', h⟩⟩
    · have hg' : g ∈ c.objects := by simpa [G] using hg
      rw [hst.inc, Finset.mem_filter]
      simp [Table.apply, hg, hg']
  have key' : ∀ A, A ∈ ds.map (fun x => x.extent) ↔ A ∈ cs.map (fun x => x.extent) ∨
      ∃ D ∈ cs.map (fun x => x.extent), A = D ∩ c.G.filter fun g => col.getD (c.objects.idxOf g) false = true := by
    intro A
    rw [m2, key, m1]
    simp only [m1]
  refine ⟨fun A => ?_, ?_⟩
  · rw [key']
    refine or_congr_right ?_
    have hsub : ∀ x ∈ cs, x.extent ⊆ c.G := by
      intro x hx g hg
      obtain ⟨B, -, hA⟩ := (m1 _).1 (List.mem_map_of_mem hx)
      exact ((hA g).1 hg).1
    constructor
    · rintro ⟨D, hD, rfl⟩
      obtain ⟨x, hx, rfl⟩ := List.mem_map.1 hD
      refine ⟨x, hx, fun m => ?_⟩
      rw [Finset.mem_inter, Finset.mem_filter]
      exact and_congr_right fun hm => ⟨fun h => h.2, fun h => ⟨hsub x hx hm, h⟩⟩
    · rintro ⟨x, hx, hB⟩
      refine ⟨x.extent, List.mem_map_of_mem hx, ?_⟩
      ext m
      rw [hB, Finset.mem_inter, Finset.mem_filter]
      exact and_congr_right fun hm => ⟨fun h => ⟨hsub x hx hm, h⟩, fun h => h.2⟩
  · have := count_grow n1 n2 key'
    simpa using this

/-- After `delete_object`: the intents that remain are intents of the old context, whose intents are these and their
intersections with the deleted row. -/
theorem C129_delete_object {c d : Ctx α β} (h : c.WFw) {n : α} (hn : n ∈ c.objects)
    (hd : c.deleteObject n = (d, none)) {cs ds : List (Concept α β)} (hcs : norris c = .ok cs) (hds : norris d = .ok ds) :
    (∀ B, B ∈ cs.map (fun x => x.intent) ↔ B ∈ ds.map (fun x => x.intent) ∨
      ∃ x ∈ ds, ∀ m, m ∈ B ↔ m ∈ x.intent ∧ c.Inc n m) ∧
    ds.length ≤ cs.length ∧ cs.length ≤ 2 * ds.length := by
  classical
  have hst := h.stores.deleteObject hd
  obtain ⟨n1, m1⟩ := norris_intents h hcs
  obtain ⟨n2, m2⟩ := norris_intents hst.wf hds
  have hdo : d.objects = c.objects.filter (· ≠ n) := hst.objs
  have hM : d.M = c.M := by
    have : d.attributes = c.attributes := hst.atts
    simp [M, this]
  have hnG : n ∉ d.G := by simp [G, hdo]
  have hG : c.G = insert n d.G := by
    ext x
    simp only [G, hdo, Finset.mem_insert, List.mem_toFinset, List.mem_filter, decide_eq_true_eq]
    constructor
    · intro hx
      by_cases e : x = n
      · exact .inl e
      · exact .inr ⟨hx, e⟩
    · rintro (rfl | hx)
      · exact hn
      · exact hx.1
  have key : ∀ B, IsIntent c.G c.M c.Inc B ↔ IsIntent d.G d.M d.Inc B ∨
      ∃ D, IsIntent d.G d.M d.Inc D ∧ B = D ∩ c.M.filter fun m => c.Inc n m := by
    intro B
    rw [hG, hM]
    refine isIntent_insert hnG (fun g hg m hm => ?_) (fun m hm => ?_) B
    · have hg' : g ∈ d.objects := by simpa [G] using hg
      have hm' : m ∈ c.attributes := by simpa [M] using hm
      rw [hst.inc]
      simp only [Table.apply, h.incB]
      rw [hdo] at hg'
      exact ⟨fun h => ⟨hg', hm', h⟩, fun h => h.2.2⟩
    · rw [Finset.mem_filter]
      exact ⟨fun h => ⟨hm, h⟩, fun h => h.2⟩
  have key' : ∀ B, B ∈ cs.map (fun x => x.intent) ↔ B ∈ ds.map (fun x => x.intent) ∨
      ∃ D ∈ ds.map (fun x => x.intent), B = D ∩ c.M.filter fun m => c.Inc n m := by
    intro B
    rw [m1, key, m2]
    simp only [m2]
  have hsub : ∀ x ∈ ds, x.intent ⊆ c.M := fun x hx =>
    hM ▸ (isIntent_iff.1 ((m2 _).1 (List.mem_map_of_mem hx))).1
  refine ⟨fun B => ?_, ?_⟩
  · rw [key']
    refine or_congr_right ?_
    constructor
    · rintro ⟨D, hD, rfl⟩
      obtain ⟨x, hx, rfl⟩ := List.mem_map.1 hD
      refine ⟨x, hx, fun m => ?_⟩
      rw [Finset.mem_inter, Finset.mem_filter]
      exact and_congr_right fun hm => ⟨fun h => h.2, fun h => ⟨hsub x hx hm, h⟩⟩
    · rintro ⟨x, hx, hB⟩
      refine ⟨x.intent, List.mem_map_of_mem hx, ?_⟩
      ext m
      rw [hB, Finset.mem_inter, Finset.mem_filter]
      exact and_congr_right fun hm => ⟨fun h => ⟨hsub x hx hm, h⟩, fun h => h.2⟩
  · have := count_grow n2 n1 key'
    simpa using this

/-- After `delete_attribute`: the same for extents. -/
theorem C129_delete_attribute {c d : Ctx α β} (h : c.WFw) {n : β} (hn : n ∈ c.attributes)
    (hd : c.deleteAttribute n = (d, none)) {cs ds : List (Concept α β)} (hcs : norris c = .ok cs)
    (hds : norris d = .ok ds) :
    (∀ A, A ∈ cs.map (fun x => x.extent) ↔ A ∈ ds.map (fun x => x.extent) ∨
      ∃ x ∈ ds, ∀ g, g ∈ A ↔ g ∈ x.extent ∧ c.Inc g n) ∧
    ds.length ≤ cs.length ∧ cs.length ≤ 2 * ds.length := by
  classical
  have hst := h.stores.deleteAttribute hd
  obtain ⟨n1, m1⟩ := norris_extents h hcs
  obtain ⟨n2, m2⟩ := norris_extents hst.wf hds
  have hda : d.attributes = c.attributes.filter (· ≠ n) := hst.atts
  have hG : d.G = c.G := by
    have : d.objects = c.objects := hst.objs
    simp [G, this]
  have hnM : n ∉ d.M := by simp [M, hda]
  have hM : c.M = insert n d.M := by
    ext x
    simp only [M, hda, Finset.mem_insert, List.mem_toFinset, List.mem_filter, decide_eq_true_eq]
    constructor
    · intro hx
      by_cases e : x = n
      · exact .inl e
      · exact .inr ⟨hx, e⟩
    · rintro (rfl | hx)
      · exact hn
      · exact hx.1
  have key : ∀ A, IsExtent c.G c.M c.Inc A ↔ IsExtent d.G d.M d.Inc A ∨
      ∃ D, IsExtent d.G d.M d.Inc D ∧ A = D ∩ c.G.filter fun g => c.Inc g n := by
    intro A
    simp only [isExtent_iff_swap]
    rw [hM, hG]
    refine isIntent_insert hnM (fun m hm g hg => ?_) (fun g hg => ?_) A
    · have hm' : m ∈ d.attributes := by simpa [M] using hm
      have hg' : g ∈ c.objects := by simpa [G] using hg
      rw [hst.inc]
      simp only [Table.apply, h.incB]
      rw [hda] at hm'
      exact ⟨fun h => ⟨hg', hm', h⟩, fun h => h.2.2⟩
    · rw [Finset.mem_filter]
      exact ⟨fun h => ⟨hg, h⟩, fun h => h.2⟩
  have key' : ∀ A, A ∈ cs.map (fun x => x.extent) ↔ A ∈ ds.map (fun x => x.extent) ∨
      ∃ D ∈ ds.map (fun x => x.extent), A = D ∩ c.G.filter fun g => c.Inc g n := by
    intro A
    rw [m1, key, m2]
    simp only [m2]
  have hsub : ∀ x ∈ ds, x.extent ⊆ c.G := by
    intro x hx g hg
    obtain ⟨B, -, hA⟩ := (m2 _).1 (List.mem_map_of_mem hx)
    exact hG ▸ ((hA g).1 hg).1
  refine ⟨fun A => ?_, ?_⟩
  · rw [key']
    refine or_congr_right ?_
    constructor
    · rintro ⟨D, hD, rfl⟩
      obtain ⟨x, hx, rfl⟩ := List.mem_map.1 hD
      refine ⟨x, hx, fun m => ?_⟩
      rw [Finset.mem_inter, Finset.mem_filter]
      exact and_congr_right fun hm => ⟨fun h => h.2, fun h => ⟨hsub x hx hm, h⟩⟩
    · rintro ⟨x, hx, hB⟩
      refine ⟨x.extent, List.mem_map_of_mem hx, ?_⟩
      ext m
      rw [hB, Finset.mem_inter, Finset.mem_filter]
      exact and_congr_right fun hm => ⟨fun h => ⟨hsub x hx hm, h⟩, fun h => h.2⟩
  · have := count_grow n2 n1 key'
    simpa using this

/-- The concepts of the transposed context are the concepts with extent and intent exchanged. -/
theorem C129_transpose {c : Ctx α β} (h : c.WFw) {cs : List (Concept α β)} (hcs : norris c = .ok cs) :
    ∃ d ds, c.transpose = .ok d ∧ norris d = .ok ds ∧ (∀ A B, ⟨B, A⟩ ∈ ds ↔ ⟨A, B⟩ ∈ cs) ∧ ds.length = cs.length := by
  obtain ⟨d, hd, -, -⟩ := h.transpose
  obtain ⟨hwf, h1, h2, h3⟩ := h.transpose_inc hd
  obtain ⟨ds, hds, hnd, hmem⟩ := C34_norris hwf.toWFw
  obtain ⟨cs', hcs', hnd', hmem'⟩ := C34_norris h
  rw [hcs] at hcs'
  obtain rfl : cs = cs' := by injection hcs'
  have key : ∀ A B, (⟨B, A⟩ : Concept β α) ∈ ds ↔ (⟨A, B⟩ : Concept α β) ∈ cs := by
    intro A B
    rw [hmem, hmem']
    unfold IsConcept G M
    simp only [h1, h2, h3]
    exact and_comm
  refine ⟨d, ds, hd, hds, key, ?_⟩
  have hperm : (ds.map fun x => (⟨x.intent, x.extent⟩ : Concept α β)).Perm cs := by
    refine (List.perm_ext_iff_of_nodup (hnd.map ?_) hnd').2 fun x => ?_
    · intro x y he
      cases x; cases y
      simp only [Concept.mk.injEq] at he ⊢
      exact ⟨he.2, he.1⟩
    · rw [List.mem_map]
      constructor
      · rintro ⟨y, hy, rfl⟩
        exact (key _ _).1 hy
      · intro hx
        exact ⟨⟨x.intent, x.extent⟩, (key _ _).2 hx, rfl⟩
  have := hperm.length_eq
  simpa using this

end mutators

/-- There are at most `2 ^ min(|G|, |M|)` concepts. -/
theorem C129_bound {c : Ctx α β} (h : c.WFw) {cs : List (Concept α β)} (hcs : norris c = .ok cs) :
    cs.length ≤ 2 ^ min c.objects.length c.attributes.length := by
  obtain ⟨n1, m1⟩ := norris_intents h hcs
  obtain ⟨n2, m2⟩ := norris_extents h hcs
  have hM : c.M.card = c.attributes.length := List.toFinset_card_of_nodup h.anodup
  have hG : c.G.card = c.objects.length := List.toFinset_card_of_nodup h.onodup
  have k1 : cs.length ≤ 2 ^ c.attributes.length := by
    have : (cs.map fun x => x.intent).toFinset ⊆ c.M.powerset := by
      intro s hs
      exact Finset.mem_powerset.2 (isIntent_iff.1 ((m1 s).1 (List.mem_toFinset.1 hs))).1
    have := Finset.card_le_card this
    rwa [List.toFinset_card_of_nodup n1, List.length_map, Finset.card_powerset, hM] at this
  have k2 : cs.length ≤ 2 ^ c.objects.length := by
    have : (cs.map fun x => x.extent).toFinset ⊆ c.G.powerset := by
      intro s hs
      obtain ⟨B, -, hA⟩ := (m2 s).1 (List.mem_toFinset.1 hs)
      exact Finset.mem_powerset.2 fun g hg => ((hA g).1 hg).1
    have := Finset.card_le_card this
    rwa [List.toFinset_card_of_nodup n2, List.length_map, Finset.card_powerset, hG] at this
  rcases le_total c.objects.length c.attributes.length with hle | hle
  · rwa [min_eq_left hle]
  · rwa [min_eq_right hle]

/-- There are `2 ^ |M|` concepts exactly if the basis is empty. -/
theorem C129_full {c : Ctx α β} (h : c.WFw) (ordA : SetOrder β) (ordO : SetOrder α)
    (close : Finset β → List (Imp β) → Finset β) (hclose : StdClose [] close) {res : List (Imp β)}
    (hres : c.dgBasisWith ordA ordO close [] (fun _ => true) = .ok res)
    {cs : List (Concept α β)} (hcs : norris c = .ok cs) :
    cs.length = 2 ^ c.attributes.length ↔ res = [] := by
  have hbg : c.ValidBg [] := fun i hi => absurd hi (by simp)
  constructor
  · intro hl
    have := C128_bound h ordA ordO close [] hclose hbg res hres cs hcs
    exact List.length_eq_zero_iff.1 (by omega)
  · rintro rfl
    obtain ⟨hp, -⟩ := C26_basis_pseudo_intents h ordA ordO close [] hclose hbg [] hres
    obtain ⟨n1, m1⟩ := norris_intents h hcs
    have hM : c.M.card = c.attributes.length := List.toFinset_card_of_nodup h.anodup
    have : (cs.map fun x => x.intent).toFinset = c.M.powerset := by
      ext s
      rw [List.mem_toFinset, m1, isIntent_iff, Finset.mem_powerset]
      refine ⟨fun h => h.1, fun hs => ⟨hs, ?_⟩⟩
      by_contra hne
      have := (hp s).2 (isPseudo_iff.2 ⟨⟨hs, fun pc hpc => absurd hpc (by simp [specImps]), fun Q _ hQ =>
        absurd ((hp Q).2 hQ) (by simp)⟩, hne⟩)
      simp at this
    have := congrArg Finset.card this
    rwa [List.toFinset_card_of_nodup n1, List.length_map, Finset.card_powerset, hM] at this

/-- `n` objects and `n` attributes, a cross everywhere but in the diagonal. -/
def contranominal (n : ℕ) : Ctx (Fin n) (Fin n) :=
  ⟨List.finRange n, List.finRange n,
    ⟨some n, (List.finRange n).map fun i => (List.finRange n).map fun j => decide (i ≠ j)⟩⟩

theorem contranominal_wf (n : ℕ) : (contranominal n).WFw where
  onodup := List.nodup_finRange n
  anodup := List.nodup_finRange n
  nrows := by simp [contranominal]
  width := by
    intro r hr
    obtain ⟨i, -, rfl⟩ := List.mem_map.1 hr
    simp [contranominal]
  shape := fun _ => by simp [contranominal]

theorem contranominal_inc (n : ℕ) (i j : Fin n) : (contranominal n).Inc i j ↔ i ≠ j := by
  constructor
  · rintro ⟨a, b, r, h1, h2, h3, h4⟩
    simp only [contranominal] at h1 h2 h3
    rw [List.getElem?_map, h1, Option.map_some, Option.some.injEq] at h3
    subst h3
    rw [List.getElem?_map, h2] at h4
    simpa using h4
  · intro hij
    have hg : ∀ k : Fin n, (List.finRange n)[k.1]? = some k := fun k => by simp
    refine ⟨i, j, (List.finRange n).map fun j => decide (i ≠ j), hg i, hg j, ?_, ?_⟩
    · simp only [contranominal, List.getElem?_map, hg, Option.map_some]
    · rw [List.getElem?_map, hg]
      simp [hij]

/-- For every `n` there is a context with `n` objects, `n` attributes and `2 ^ n` concepts. -/
theorem C129_attained (n : ℕ) : ∃ cs, norris (contranominal n) = .ok cs ∧ cs.length = 2 ^ n := by
  obtain ⟨cs, hcs, -, -⟩ := C34_norris (contranominal_wf n)
  refine ⟨cs, hcs, ?_⟩
  obtain ⟨n1, m1⟩ := norris_intents (contranominal_wf n) hcs
  have hMu : (contranominal n).M = Finset.univ := by
    ext x
    simp [M, contranominal]
  have hGu : (contranominal n).G = Finset.univ := by
    ext x
    simp [G, contranominal]
  have : (cs.map fun x => x.intent).toFinset = (Finset.univ : Finset (Fin n)).powerset := by
    ext s
    rw [List.mem_toFinset, m1, isIntent_iff_common, hMu, hGu]
    refine ⟨fun _ => by simp, fun _ => ⟨sᶜ, Finset.subset_univ _, fun m => ?_⟩⟩
    simp only [contranominal_inc, Finset.mem_univ, true_and, Finset.mem_compl]
    constructor
    · rintro hm g hg rfl
      exact hg hm
    · intro hm
      by_contra hms
      exact hm m hms rfl
  have := congrArg Finset.card this
  rwa [List.toFinset_card_of_nodup n1, List.length_map, Finset.card_powerset, Finset.card_univ, Fintype.card_fin] at this

/-! ### Concrete cases -/

example : (norris demo).map List.length = .ok 9 ∧ min demo.objects.length demo.attributes.length = 4 := by decide +kernel

/-- One object; adding a second one doubles the number of concepts, deleting it halves it again. -/
def oneRow : Ctx (List Char) (List Char) := ⟨[['a']], [['x'], ['y']], ⟨some 2, [[true, false]]⟩⟩

example : oneRow.WFw := by constructor <;> decide +kernel

example : (oneRow.addObject [false, true] ['b']).2 = none ∧
    (norris (oneRow.addObject [false, true] ['b']).1).map List.length = .ok 4 ∧
    (norris oneRow).map List.length = .ok 2 := by decide +kernel

example : ((oneRow.addObject [false, true] ['b']).1.deleteObject ['b']).2 = none ∧
    (norris ((oneRow.addObject [false, true] ['b']).1.deleteObject ['b']).1).map List.length = .ok 2 := by decide +kernel

example : (oneRow.addAttribute [true] ['z']).2 = none ∧
    (norris (oneRow.addAttribute [true] ['z']).1).map List.length = .ok 2 := by decide +kernel

example : (oneRow.transpose.bind norris).map List.length = .ok 2 := by decide +kernel

end Ctx
