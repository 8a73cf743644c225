/-
Property C151: names do not matter. Renaming objects and attributes injectively renames every result
and changes neither its order nor any number computed from it.
-/
import Verif.Props.BasisIntents
import Verif.Props.Stability

set_option linter.unusedSectionVars false

variable {α β α' β' : Type} [DecidableEq α] [DecidableEq β] [DecidableEq α'] [DecidableEq β']

open Spec

/-! ### Renamed contexts, concepts, implications -/

/-- The context with the same table whose objects and attributes are renamed by `f` and `g`. -/
def Ctx.renamed (f : α → α') (g : β → β') (c : Ctx α β) : Ctx α' β' :=
  ⟨c.objects.map f, c.attributes.map g, c.nd⟩

/-- The concept with renamed extent and intent. -/
def Concept.renamed (f : α → α') (g : β → β') (x : Concept α β) : Concept α' β' :=
  ⟨x.extent.image f, x.intent.image g⟩

/-- The implication with renamed attributes. -/
def Imp.renamed (g : β → β') (i : Imp β) : Imp β' := ⟨i.premise.image g, i.conclusion.image g⟩

theorem Concept.renamed_injective {f : α → α'} {g : β → β'} (hf : f.Injective) (hg : g.Injective) :
    (Concept.renamed f g).Injective := by
  rintro ⟨a, b⟩ ⟨a', b'⟩ h
  unfold Concept.renamed at h
  simp only [Concept.mk.injEq] at h
  rw [Finset.image_injective hf h.1, Finset.image_injective hg h.2]

theorem Imp.renamed_injective {g : β → β'} (hg : g.Injective) : (Imp.renamed g).Injective := by
  rintro ⟨a, b⟩ ⟨a', b'⟩ h
  unfold Imp.renamed at h
  simp only [Imp.mk.injEq] at h
  rw [Finset.image_injective hg h.1, Finset.image_injective hg h.2]

namespace Ctx

theorem WFw.renamed {c : Ctx α β} (h : c.WFw) {f : α → α'} {g : β → β'} (hf : f.Injective)
    (hg : g.Injective) : (c.renamed f g).WFw where
  onodup := h.onodup.map hf
  anodup := h.anodup.map hg
  nrows := by simpa [Ctx.renamed] using h.nrows
  width := by simpa [Ctx.renamed] using h.width
  shape := by simpa [Ctx.renamed] using h.shape

theorem renamed_G (c : Ctx α β) (f : α → α') (g : β → β') : (c.renamed f g).G = c.G.image f := by
  ext x; simp [Ctx.G, Ctx.renamed]

theorem renamed_M (c : Ctx α β) (f : α → α') (g : β → β') : (c.renamed f g).M = c.M.image g := by
  ext x; simp [Ctx.M, Ctx.renamed]

theorem renamed_inc (c : Ctx α β) {f : α → α'} {g : β → β'} (hf : f.Injective) (hg : g.Injective)
    (o : α) (a : β) : (c.renamed f g).Inc (f o) (g a) ↔ c.Inc o a := by
  unfold Ctx.Inc Ctx.renamed
  simp only [List.getElem?_map, Option.map_eq_some_iff]
  constructor
  · rintro ⟨i, j, r, ⟨o', h1, h1'⟩, ⟨a', h2, h2'⟩, h3, h4⟩
    exact ⟨i, j, r, hf h1' ▸ h1, hg h2' ▸ h2, h3, h4⟩
  · rintro ⟨i, j, r, h1, h2, h3, h4⟩
    exact ⟨i, j, r, ⟨o, h1, rfl⟩, ⟨a, h2, rfl⟩, h3, h4⟩

end Ctx

/-! ### Computations that may fail -/

theorem pyGet_map {γ δ : Type} (h : γ → δ) (l : List γ) (i : ℕ) :
    pyGet (l.map h) i = (pyGet l i).map h := by
  unfold pyGet
  rw [List.getElem?_map]
  cases l[i]? <;> rfl

theorem mapM_map_result {γ δ ε : Type} (h : δ → ε) (F : γ → Py δ) (l : List γ) :
    (l.mapM fun x => (F x).map h) = (l.mapM F).map (List.map h) := by
  induction l with
  | nil => rfl
  | cons x l ih =>
    rw [List.mapM_cons, List.mapM_cons, ih]
    cases F x with
    | error e => rfl
    | ok y => cases l.mapM F <;> rfl

theorem intentByIndex_renamed (c : Ctx α β) (f : α → α') (g : β → β') (i : ℕ) :
    (c.renamed f g).intentByIndex i = (c.intentByIndex i).map (Finset.image g) := by
  unfold Ctx.intentByIndex Ctx.renamed
  dsimp only
  cases c.nd.row i with
  | error e => rfl
  | ok r =>
    rw [py_ok_bind, py_ok_bind]
    have : pyGet (c.attributes.map g) = fun j => (pyGet c.attributes j).map g :=
      funext fun j => pyGet_map g c.attributes j
    rw [this, mapM_map_result]
    cases (nonzero r).mapM (pyGet c.attributes) with
    | error e => rfl
    | ok names =>
      refine congrArg Except.ok ?_
      ext x; simp

theorem examples_renamed (c : Ctx α β) (f : α → α') (g : β → β') :
    (c.renamed f g).examples = c.examples.map (List.map (Finset.image g)) := by
  unfold Ctx.examples
  rw [← mapM_map_result]
  have h1 : (c.renamed f g).objects.length = c.objects.length := by simp [Ctx.renamed]
  rw [h1]
  exact congrArg (fun F => List.mapM F _) (funext fun i => intentByIndex_renamed c f g i)

/-! ### Norris' algorithm -/

theorem norrisNew_renamed {f : α → α'} {g : β → β'} (hf : f.Injective) (hg : g.Injective)
    (seen : List (α × Finset β)) (x : Concept α β) (D : Finset β) :
    norrisNew (seen.map (Prod.map f (Finset.image g))) (x.renamed f g) (D.image g) = norrisNew seen x D := by
  unfold norrisNew
  rw [List.any_map]
  congr 1
  refine congrArg (fun F => List.any seen F) (funext fun p => ?_)
  simp only [Function.comp, Prod.map, Concept.renamed, Finset.image_subset_image_iff hg,
    hf.mem_finset_image]

theorem norrisInner_renamed {f : α → α'} {g : β → β'} (hf : f.Injective) (hg : g.Injective)
    (seen : List (α × Finset β)) (p : α × Finset β) (todo : List (Concept α β)) :
    ∀ done news, norrisInner (seen.map (Prod.map f (Finset.image g))) (Prod.map f (Finset.image g) p)
        (done.map (Concept.renamed f g)) (todo.map (Concept.renamed f g)) (news.map (Concept.renamed f g)) =
      Prod.map (List.map (List.map (Concept.renamed f g))) (List.map (Concept.renamed f g))
        (norrisInner seen p done todo news) := by
  induction todo with
  | nil => intro done news; simp [norrisInner]
  | cons x todo ih =>
    intro done news
    have hx : (⟨insert (f p.1) (x.extent.image f), x.intent.image g⟩ : Concept α' β') =
        Concept.renamed f g ⟨insert p.1 x.extent, x.intent⟩ := by
      simp [Concept.renamed, Finset.image_insert]
    have hD : (x.renamed f g).intent ∩ p.2.image g = (x.intent ∩ p.2).image g :=
      (Finset.image_inter _ _ hg).symm
    have hn : (⟨insert (f p.1) (x.extent.image f), (x.intent ∩ p.2).image g⟩ : Concept α' β') =
        Concept.renamed f g ⟨insert p.1 x.extent, x.intent ∩ p.2⟩ := by
      simp [Concept.renamed, Finset.image_insert]
    have hs : (x.renamed f g).intent ⊆ p.2.image g ↔ x.intent ⊆ p.2 := Finset.image_subset_image_iff hg
    rw [List.map_cons]
    unfold norrisInner
    dsimp only [Prod.map_fst, Prod.map_snd]
    rw [hD, norrisNew_renamed hf hg]
    by_cases h1 : x.intent ⊆ p.2
    · rw [if_pos h1, if_pos (hs.2 h1), ← ih]
      congr 1
      rw [List.map_append, List.map_cons, List.map_nil, ← hx]
      rfl
    · rw [if_neg h1, if_neg (mt hs.1 h1)]
      by_cases h2 : norrisNew seen x (x.intent ∩ p.2) = true
      · rw [if_pos h2, if_pos h2]
        have h3 := ih (done ++ [x]) (news ++ [⟨insert p.1 x.extent, x.intent ∩ p.2⟩])
        simp only [List.map_append, List.map_cons, List.map_nil, ← hn] at h3
        have h4 : (x.renamed f g).extent = x.extent.image f := rfl
        rw [h4, h3]
        simp [Prod.map, ← hn]
      · rw [if_neg h2, if_neg h2, ← ih]
        simp

theorem norrisLoop_renamed {f : α → α'} {g : β → β'} (hf : f.Injective) (hg : g.Injective)
    (rest : List (α × Finset β)) : ∀ seen cs,
      norrisLoop (seen.map (Prod.map f (Finset.image g))) (rest.map (Prod.map f (Finset.image g)))
        (cs.map (Concept.renamed f g)) =
      Prod.map (List.map (List.map (Concept.renamed f g))) (List.map (Concept.renamed f g))
        (norrisLoop seen rest cs) := by
  induction rest with
  | nil => intro seen cs; simp [norrisLoop]
  | cons p rest ih =>
    intro seen cs
    have h1 := norrisInner_renamed hf hg seen p cs [] []
    simp only [List.map_nil] at h1
    rw [List.map_cons]
    unfold norrisLoop
    dsimp only
    rw [h1]
    have h2 := ih (seen ++ [p]) (norrisInner seen p [] cs []).2
    rw [List.map_append, List.map_cons, List.map_nil] at h2
    dsimp only [Prod.map_fst, Prod.map_snd]
    rw [h2]
    simp [Prod.map]

/-- C151: whatever the context, well formed or not, the concepts of the renamed context are the renamed
concepts, in the same order; so are the states which the generator hands out; and if the computation of
one fails, so does the other, in the same way. -/
theorem C151_norris {f : α → α'} {g : β → β'} (hf : f.Injective) (hg : g.Injective) (c : Ctx α β) :
    norris (c.renamed f g) = (norris c).map (List.map (Concept.renamed f g)) ∧
    iterNorris (c.renamed f g) = (iterNorris c).map
      (Prod.map (List.map (List.map (Concept.renamed f g))) (List.map (Concept.renamed f g))) := by
  have key : iterNorris (c.renamed f g) = (iterNorris c).map
      (Prod.map (List.map (List.map (Concept.renamed f g))) (List.map (Concept.renamed f g))) := by
    unfold iterNorris
    rw [examples_renamed]
    cases c.examples with
    | error e => rfl
    | ok exs =>
      have ht : (⟨∅, (c.renamed f g).attributes.toFinset⟩ : Concept α' β') =
          Concept.renamed f g ⟨∅, c.attributes.toFinset⟩ := by
        unfold Concept.renamed Ctx.renamed
        rw [Finset.image_empty]
        congr 1
        ext x; simp
      have hz : (c.renamed f g).objects.zip (exs.map (Finset.image g)) =
          (c.objects.zip exs).map (Prod.map f (Finset.image g)) := by
        unfold Ctx.renamed
        rw [List.zip_map]
      have hl := norrisLoop_renamed hf hg (c.objects.zip exs) [] [⟨∅, c.attributes.toFinset⟩]
      rw [List.map_nil, List.map_cons, List.map_nil, ← ht, ← hz] at hl
      show Except.ok _ = Except.ok _
      refine congrArg Except.ok ?_
      rw [hl]
      simp [Prod.map, ht]
  refine ⟨?_, key⟩
  unfold norris
  rw [key]
  cases iterNorris c <;> rfl

/-! ### Order, top, bottom, stability -/

theorem renamed_intent_ssubset {f : α → α'} {g : β → β'} (hg : g.Injective) (x y : Concept α β) :
    (x.renamed f g).intent ⊂ (y.renamed f g).intent ↔ x.intent ⊂ y.intent :=
  Finset.image_ssubset_image hg

theorem covers_renamed {f : α → α'} {g : β → β'} (hg : g.Injective)
    (cs : List (Concept α β)) (q : Concept α' β') (x : Concept α β) :
    Covers Concept.intent (cs.map (Concept.renamed f g)) q (x.renamed f g) ↔
      ∃ p, Covers Concept.intent cs p x ∧ p.renamed f g = q := by
  unfold Covers
  constructor
  · rintro ⟨h1, h2, h3⟩
    obtain ⟨p, hp, rfl⟩ := List.mem_map.1 h1
    refine ⟨p, ⟨hp, (renamed_intent_ssubset hg _ _).1 h2, ?_⟩, rfl⟩
    rintro ⟨k, hk, h4, h5⟩
    exact h3 ⟨_, List.mem_map_of_mem hk, (renamed_intent_ssubset hg _ _).2 h4,
      (renamed_intent_ssubset hg _ _).2 h5⟩
  · rintro ⟨p, ⟨h1, h2, h3⟩, rfl⟩
    refine ⟨List.mem_map_of_mem h1, (renamed_intent_ssubset hg _ _).2 h2, ?_⟩
    rintro ⟨k, hk, h4, h5⟩
    obtain ⟨k, hk', rfl⟩ := List.mem_map.1 hk
    exact h3 ⟨k, hk', (renamed_intent_ssubset hg _ _).1 h4, (renamed_intent_ssubset hg _ _).1 h5⟩

theorem csFilter_renamed {f : α → α'} {g : β → β'} (hg : g.Injective)
    (cs : List (Concept α β)) (x : Concept α β) :
    csFilter (cs.map (Concept.renamed f g)) (x.renamed f g) = (csFilter cs x).map (Concept.renamed f g) := by
  unfold csFilter
  rw [List.filter_map]
  congr 2
  funext y
  simp only [Function.comp, renamed_intent_ssubset hg]

theorem csIdeal_renamed {f : α → α'} {g : β → β'} (hg : g.Injective)
    (cs : List (Concept α β)) (x : Concept α β) :
    csIdeal (cs.map (Concept.renamed f g)) (x.renamed f g) = (csIdeal cs x).map (Concept.renamed f g) := by
  unfold csIdeal
  rw [List.filter_map]
  congr 2
  funext y
  simp only [Function.comp, renamed_intent_ssubset hg]

theorem csTop_renamed {f : α → α'} {g : β → β'} (hg : g.Injective) (cs : List (Concept α β)) :
    csTop (cs.map (Concept.renamed f g)) = (csTop cs).map (Concept.renamed f g) := by
  unfold csTop
  rw [List.filter_map, pyGet_map]
  congr 3
  funext x
  simp only [Function.comp, csFilter_renamed hg, List.isEmpty_map]

theorem csBottom_renamed {f : α → α'} {g : β → β'} (hg : g.Injective) (cs : List (Concept α β)) :
    csBottom (cs.map (Concept.renamed f g)) = (csBottom cs).map (Concept.renamed f g) := by
  unfold csBottom
  rw [List.filter_map, pyGet_map]
  congr 3
  funext x
  simp only [Function.comp, csIdeal_renamed hg, List.isEmpty_map]

theorem generatingSubsets_renamed {f : α → α'} {g : β → β'} (hf : f.Injective) (hg : g.Injective)
    {I : α → β → Prop} {I' : α' → β' → Prop} (hI : ∀ x m, I' (f x) (g m) ↔ I x m) (M : Finset β)
    (A : Finset α) (B : Finset β) :
    generatingSubsets (M.image g) I' (A.image f) (B.image g) = generatingSubsets M I A B := by
  classical
  unfold generatingSubsets
  rw [← Finset.card_image_of_injective _ (Finset.image_injective hf)]
  congr 1
  have key : ∀ S : Finset α, (∀ m, m ∈ B.image g ↔ m ∈ M.image g ∧ ∀ x ∈ S.image f, I' x m) ↔
      ∀ m, m ∈ B ↔ m ∈ M ∧ ∀ x ∈ S, I x m := by
    intro S
    constructor
    · intro h m
      have := h (g m)
      rwa [hg.mem_finset_image, hg.mem_finset_image, Finset.forall_mem_image, forall₂_congr fun x _ => hI x m] at this
    · intro h m'
      constructor
      · intro hm
        obtain ⟨m, hm', rfl⟩ := Finset.mem_image.1 hm
        refine ⟨Finset.mem_image_of_mem _ ((h m).1 hm').1, ?_⟩
        rw [Finset.forall_mem_image]
        exact fun x hx => (hI x m).2 (((h m).1 hm').2 x hx)
      · rintro ⟨hm, h1⟩
        obtain ⟨m, hm', rfl⟩ := Finset.mem_image.1 hm
        rw [Finset.forall_mem_image] at h1
        exact Finset.mem_image_of_mem _ ((h m).2 ⟨hm', fun x hx => (hI x m).1 (h1 hx)⟩)
  ext T
  simp only [Finset.mem_filter, Finset.mem_powerset, Finset.mem_image]
  constructor
  · rintro ⟨h1, h2⟩
    obtain ⟨S, hS, rfl⟩ := Finset.subset_image_iff.1 h1
    exact ⟨S, ⟨hS, (key S).1 (by simpa only [Finset.mem_image] using h2)⟩, rfl⟩
  · rintro ⟨S, ⟨h1, h2⟩, rfl⟩
    exact ⟨Finset.image_subset_image h1, by simpa only [Finset.mem_image] using (key S).2 h2⟩

/-- C151: the lattice of the renamed context is the renamed lattice: the same list of concepts, the
same top and bottom, the same upper and lower neighbours, and the same stabilities, in whatever order
the sets of the two computations are iterated. -/
theorem C151_lattice {f : α → α'} {g : β → β'} (hf : f.Injective) (hg : g.Injective) {c : Ctx α β}
    (h : c.WFw) (ord₁ ord₂ : ℕ → SetOrder (Concept α β)) (ord₁' ord₂' : ℕ → SetOrder (Concept α' β')) :
    ∃ L L', makeLattice c = .ok L ∧ makeLattice (c.renamed f g) = .ok L' ∧
      L'.concepts = L.concepts.map (Concept.renamed f g) ∧
      L'.top = L.top.renamed f g ∧ L'.bottom = L.bottom.renamed f g ∧
      (∀ x ∈ L.concepts, ∃ S T, L.parentsOf x = .ok S ∧ L.children x = .ok T ∧
        L'.parentsOf (x.renamed f g) = .ok (S.image (Concept.renamed f g)) ∧
        L'.children (x.renamed f g) = .ok (T.image (Concept.renamed f g))) ∧
      ∃ si se si' se', istability ord₁ L.concepts = some (.ok si) ∧
        estability ord₂ L.concepts = some (.ok se) ∧
        istability ord₁' L'.concepts = some (.ok si') ∧
        estability ord₂' L'.concepts = some (.ok se') ∧
        ∀ x, si' (x.renamed f g) = si x ∧ se' (x.renamed f g) = se x := by
  have h' := h.renamed hf hg
  obtain ⟨L, h1, h1c, -, h2, -, -, ht, hb, -⟩ := makeLattice_ok h
  obtain ⟨L', h1', h1c', -, h2', -, -, ht', hb', -⟩ := makeLattice_ok h'
  have hcs : L'.concepts = L.concepts.map (Concept.renamed f g) := by
    have := (C151_norris hf hg c).1
    rw [h2, h2'] at this
    exact Except.ok.inj this
  have hinj := Concept.renamed_injective hf hg
  rw [hcs, csTop_renamed hg, ht] at ht'
  rw [hcs, csBottom_renamed hg, hb] at hb'
  obtain ⟨_, h3, h4, -⟩ := C38_parents_children h
  rw [h1] at h3; cases h3
  obtain ⟨_, h3', h4', -⟩ := C38_parents_children h'
  rw [h1'] at h3'; cases h3'
  have hpar : ∀ x ∈ L.concepts, ∀ S, L.parentsOf x = .ok S →
      L'.parentsOf (x.renamed f g) = .ok (S.image (Concept.renamed f g)) := by
    intro x hx S hS
    obtain ⟨S₁, -, e1, -, e2, -⟩ := h4 x hx
    rw [hS] at e1; cases e1
    obtain ⟨S', -, e1', -, e2', -⟩ := h4' (x.renamed f g) (hcs ▸ List.mem_map_of_mem hx)
    rw [e1']
    refine congrArg Except.ok (Finset.ext fun q => ?_)
    rw [e2', hcs, covers_renamed hg, Finset.mem_image]
    exact exists_congr fun p => and_congr_left fun _ => (e2 p).symm
  refine ⟨L, L', h1, h1', hcs, ?_, ?_, fun x hx => ?_, ?_⟩
  · exact (Except.ok.inj ht').symm
  · exact (Except.ok.inj hb').symm
  · obtain ⟨S, T, e1, e2, e3, e4⟩ := h4 x hx
    obtain ⟨S', T', e1', e2', e3', e4'⟩ := h4' (x.renamed f g) (hcs ▸ List.mem_map_of_mem hx)
    refine ⟨S, T, e1, e2, hpar x hx S e1, ?_⟩
    rw [e2']
    refine congrArg Except.ok (Finset.ext fun q => ?_)
    rw [e4', Finset.mem_image]
    constructor
    · rintro ⟨hq, S₂, hS₂, hx₂⟩
      rw [hcs] at hq
      obtain ⟨d, hd, rfl⟩ := List.mem_map.1 hq
      obtain ⟨S₃, -, e5, -⟩ := h4 d hd
      rw [hpar d hd S₃ e5] at hS₂
      cases hS₂
      exact ⟨d, (e4 d).2 ⟨hd, S₃, e5, hinj.mem_finset_image.1 hx₂⟩, rfl⟩
    · rintro ⟨d, hd, rfl⟩
      obtain ⟨hd, S₃, e5, hx₃⟩ := (e4 d).1 hd
      exact ⟨hcs ▸ List.mem_map_of_mem hd, _, hpar d hd S₃ e5, Finset.mem_image_of_mem _ hx₃⟩
  · obtain ⟨_, si, e1, e2, e3, e4⟩ := C41_istability h ord₁
    rw [h1] at e1; cases e1
    obtain ⟨_, se, e1, e5, e6, e7⟩ := C42_estability h ord₂
    rw [h1] at e1; cases e1
    obtain ⟨_, si', e1, e2', e3', e4'⟩ := C41_istability h' ord₁'
    rw [h1'] at e1; cases e1
    obtain ⟨_, se', e1, e5', e6', e7'⟩ := C42_estability h' ord₂'
    rw [h1'] at e1; cases e1
    refine ⟨si, se, si', se', e2, e5, e2', e5', fun x => ?_⟩
    by_cases hx : x ∈ L.concepts
    · have hx' : x.renamed f g ∈ L'.concepts := hcs ▸ List.mem_map_of_mem hx
      rw [e3 x hx, e6 x hx, e3' _ hx', e6' _ hx']
      unfold intensionalStability extensionalStability Concept.renamed
      dsimp only
      rw [Ctx.renamed_M, Ctx.renamed_G, generatingSubsets_renamed hf hg (c.renamed_inc hf hg),
        generatingSubsets_renamed hg hf (I := fun m o => c.Inc o m)
          (fun m o => c.renamed_inc hf hg o m), Finset.card_image_of_injective _ hf,
        Finset.card_image_of_injective _ hg]
      exact ⟨rfl, rfl⟩
    · have hx' : x.renamed f g ∉ L'.concepts := by
        rw [hcs, List.mem_map_of_injective hinj]
        exact hx
      rw [e4 x hx, e7 x hx, e4' _ hx', e7' _ hx']
      exact ⟨rfl, rfl⟩

/-! ### The canonical basis -/

theorem attrClosure_renamed {f : α → α'} {g : β → β'} (hf : f.Injective) (hg : g.Injective) (c : Ctx α β)
    (B : Finset β) :
    attrClosure (c.renamed f g).G (c.renamed f g).M (c.renamed f g).Inc (B.image g) =
      (attrClosure c.G c.M c.Inc B).image g := by
  rw [Ctx.renamed_G, Ctx.renamed_M]
  ext m'
  unfold attrClosure
  simp only [Finset.mem_filter, Finset.mem_image, forall_exists_index, and_imp,
    forall_apply_eq_imp_iff₂]
  constructor
  · rintro ⟨⟨m, hm, rfl⟩, h⟩
    refine ⟨m, ⟨hm, fun x hx hB => (c.renamed_inc hf hg x m).1 (h x hx fun b hb => ?_)⟩, rfl⟩
    exact (c.renamed_inc hf hg x b).2 (hB b hb)
  · rintro ⟨m, ⟨hm, h⟩, rfl⟩
    refine ⟨⟨m, hm, rfl⟩, fun x hx hB => (c.renamed_inc hf hg x m).2 (h x hx fun b hb => ?_)⟩
    exact (c.renamed_inc hf hg x b).1 (hB b hb)

theorem closed_renamed {g : β → β'} (hg : g.Injective) (L : List (Imp β)) (S : Finset β) :
    Closed (specImps (L.map (Imp.renamed g))) (S.image g) ↔ Closed (specImps L) S := by
  unfold Closed specImps Respects
  simp only [List.map_map, List.forall_mem_map, Function.comp, Imp.toSpec, Imp.renamed,
    Finset.image_subset_image_iff hg]

theorem isPseudo_renamed {g : β → β'} (hg : g.Injective) {M : Finset β} {L : List (Imp β)}
    {cl : Finset β → Finset β} {cl' : Finset β' → Finset β'}
    (hcl : ∀ B, cl' (B.image g) = (cl B).image g) (P : Finset β) :
    IsPseudo (M.image g) (specImps (L.map (Imp.renamed g))) cl' (P.image g) ↔
      IsPseudo M (specImps L) cl P := by
  induction P using Finset.strongInduction with
  | H P ih =>
    rw [IsPseudo, IsPseudo, Finset.image_subset_image_iff hg, closed_renamed hg, hcl,
      (Finset.image_injective hg).ne_iff]
    refine and_congr_right fun _ => and_congr_right fun _ => and_congr_right fun _ => ?_
    constructor
    · intro h Q hQ hp
      have := h (Q.image g) ((Finset.image_ssubset_image hg).2 hQ) ((ih Q hQ).2 hp)
      rwa [hcl, Finset.image_subset_image_iff hg] at this
    · intro h Q' hQ' hp
      obtain ⟨Q, -, rfl⟩ := Finset.subset_image_iff.1 hQ'.1
      have hQ := (Finset.image_ssubset_image hg).1 hQ'
      rw [hcl]
      exact Finset.image_subset_image (h Q hQ ((ih Q hQ).1 hp))

theorem lecticLt_renamed {g : β → β'} (hg : g.Injective) {l : List β} {A B : Finset β}
    (h : LecticLt l A B) : LecticLt (l.map g) (A.image g) (B.image g) := by
  obtain ⟨j, x, h1, h2, h3, h4⟩ := h
  refine ⟨j, g x, by rw [List.getElem?_map, h1]; rfl, by rwa [hg.mem_finset_image],
    Finset.mem_image_of_mem _ h3, ?_⟩
  intro y hy
  rw [← List.map_take] at hy
  obtain ⟨z, hz, rfl⟩ := List.mem_map.1 hy
  rw [hg.mem_finset_image, hg.mem_finset_image]
  exact h4 z hz

/-- C151: the basis of the renamed context relative to the renamed background is the renamed basis, in
the same order, with whichever of the closure functions and in whatever order sets are iterated. -/
theorem C151_basis {f : α → α'} {g : β → β'} (hf : f.Injective) (hg : g.Injective) {c : Ctx α β}
    (h : c.WFw) {ordA : SetOrder β} {ordO : SetOrder α} {ordA' : SetOrder β'} {ordO' : SetOrder α'}
    {close : Finset β → List (Imp β) → Finset β} {close' : Finset β' → List (Imp β') → Finset β'}
    {bg : List (Imp β)} (hclose : Ctx.StdClose bg close)
    (hclose' : Ctx.StdClose (bg.map (Imp.renamed g)) close') (hbg : ∀ i ∈ bg, i.conclusion ⊆ c.M)
    {res : List (Imp β)} {res' : List (Imp β')}
    (hres : c.dgBasisWith ordA ordO close bg (fun _ => true) = .ok res)
    (hres' : (c.renamed f g).dgBasisWith ordA' ordO' close' (bg.map (Imp.renamed g)) (fun _ => true) =
      .ok res') :
    res' = res.map (Imp.renamed g) := by
  have h' := h.renamed hf hg
  have hbg' : ∀ i ∈ bg.map (Imp.renamed g), i.conclusion ⊆ (c.renamed f g).M := by
    intro i hi
    obtain ⟨j, hj, rfl⟩ := List.mem_map.1 hi
    rw [Ctx.renamed_M]
    exact Finset.image_subset_image (hbg j hj)
  obtain ⟨h1, h2⟩ := Ctx.dg_main h hclose hbg hres
  obtain ⟨h1', h2'⟩ := Ctx.dg_main h' hclose' hbg' hres'
  have h2m : (res.map (Imp.renamed g)).Pairwise
      fun x y => LecticLt (c.renamed f g).attributes x.premise y.premise := by
    rw [List.pairwise_map]
    exact h2.imp fun hxy => lecticLt_renamed hg hxy
  have nodup : ∀ {l : List (Imp β')} {a : List β'}, (l.Pairwise fun x y => LecticLt a x.premise y.premise) →
      l.Nodup := by
    intro l a hl
    refine hl.imp ?_
    rintro x y ⟨j, z, -, hz1, hz2, -⟩ rfl
    exact hz1 hz2
  refine List.Perm.eq_of_pairwise (fun x y _ _ hx hy => by rw [lecticLt_iff] at hx hy; omega) h2' h2m
    ((List.perm_ext_iff_of_nodup (nodup h2') (nodup h2m)).2 fun i' => ?_)
  have hcl := attrClosure_renamed hf hg c
  have hps := fun P => isPseudo_renamed (M := c.M) (L := bg) hg hcl P
  rw [h1', List.mem_map]
  rw [Ctx.renamed_M] at *
  constructor
  · rintro ⟨e1, e2⟩
    have e3 : i'.premise ⊆ c.M.image g := by rw [IsPseudo] at e1; exact e1.1
    obtain ⟨P, -, hP⟩ := Finset.subset_image_iff.1 e3
    rw [← hP] at e1 e2
    refine ⟨⟨P, attrClosure c.G c.M c.Inc P⟩, (h1 _).2 ⟨(hps P).1 e1, rfl⟩, ?_⟩
    unfold Imp.renamed
    dsimp only
    rw [← hcl, ← e2, hP]
  · rintro ⟨i, hi, rfl⟩
    obtain ⟨e1, e2⟩ := (h1 i).1 hi
    refine ⟨(hps _).2 e1, ?_⟩
    unfold Imp.renamed
    dsimp only
    rw [hcl, ← e2]

/-! ### Witnesses -/

/-- Three objects; the third has the attributes of both others. -/
def renCtx : Ctx (Fin 3) (Fin 3) :=
  ⟨[0, 1, 2], [0, 1, 2], ⟨some 3, [[true, false, false], [false, true, false], [true, true, true]]⟩⟩

/-- `0`, `1`, `2` are called `c`, `b`, `a`. -/
def renName : Fin 3 → Char := fun i => if i = 0 then 'c' else if i = 1 then 'b' else 'a'

theorem renName_injective : renName.Injective := by
  intro i j
  revert i j
  decide +kernel

theorem renCtx_wf : renCtx.WFw := by constructor <;> decide +kernel

/-- Four concepts, before and after. -/
example : (norris renCtx).map List.length = .ok 4 ∧
    norris (renCtx.renamed renName renName) =
      .ok [⟨{'a'}, {'a', 'b', 'c'}⟩, ⟨{'c', 'a'}, {'c'}⟩, ⟨{'b', 'a'}, {'b'}⟩, ⟨{'a', 'b', 'c'}, ∅⟩] := by
  decide +kernel

/-- The basis of the renamed context. -/
example : renCtx.dgBasisWith (.fin 3) (.fin 3) simpleClosure [] (fun _ => true) =
      .ok [⟨{2}, {0, 1, 2}⟩, ⟨{0, 1}, {0, 1, 2}⟩] ∧
    (∃ ordA ordO, (renCtx.renamed renName renName).dgBasisWith ordA ordO simpleClosure [] (fun _ => true) =
      .ok [⟨{'a'}, {'c', 'b', 'a'}⟩, ⟨{'c', 'b'}, {'c', 'b', 'a'}⟩]) := by
  have h1 : renCtx.dgBasisWith (.fin 3) (.fin 3) simpleClosure [] (fun _ => true) =
      .ok [⟨{2}, {0, 1, 2}⟩, ⟨{0, 1}, {0, 1, 2}⟩] := by decide +kernel
  refine ⟨h1, SetOrder.any _, SetOrder.any _, ?_⟩
  have hw := renCtx_wf.renamed renName_injective renName_injective
  obtain ⟨res', h2⟩ := Ctx.C24_basis_returns hw (by decide) (SetOrder.any _) (SetOrder.any _) simpleClosure []
    (Or.inl rfl) (by simp) (fun _ => true)
  rw [h2, C151_basis renName_injective renName_injective renCtx_wf (bg := []) (close := simpleClosure)
    (close' := simpleClosure) (Or.inl rfl) (Or.inl rfl) (by simp) h1 h2]
  decide +kernel

/-- Without injectivity the statement fails: giving two attributes the same name changes the lattice. -/
theorem C151_merged_names_violated : ∃ (c : Ctx (Fin 3) (Fin 3)) (g : Fin 3 → Fin 3), c.WFw ∧
    norris (c.renamed id g) ≠ (norris c).map (List.map (Concept.renamed id g)) :=
  ⟨renCtx, fun _ => 0, renCtx_wf, by decide +kernel⟩
