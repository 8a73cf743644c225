/-
Covering relation, top and bottom of lists of concepts.
-/
import Verif.Lemmas.Norris
import Verif.SpecLattice

set_option linter.unusedSectionVars false

variable {α β : Type} [DecidableEq α] [DecidableEq β]

open Spec

/-- Decidable form of the cover condition. -/
def coverB (cs : List (Concept α β)) (p c : Concept α β) : Bool :=
  decide (p.intent ⊂ c.intent) &&
    !(cs.any fun ck => decide (p.intent ⊂ ck.intent) && decide (ck.intent ⊂ c.intent))

theorem coverB_iff (cs : List (Concept α β)) (p c : Concept α β) (hp : p ∈ cs) :
    coverB cs p c = true ↔ Covers Concept.intent cs p c := by
  unfold coverB Covers
  simp only [Bool.and_eq_true, decide_eq_true_eq, Bool.not_eq_true', ← Bool.not_eq_true, List.any_eq_true,
    hp, true_and]

/-- The sets of parents after the pairs `done`. -/
def coverState (cs : List (Concept α β)) (done : List (Concept α β × Concept α β)) : ParentDict α β :=
  fun c => if c ∈ cs then
    some ((done.filter fun ij => decide (ij.2 = c) && coverB cs ij.1 ij.2).map Prod.fst).toFinset
  else none

theorem coverStep_state (cs : List (Concept α β)) (done : List (Concept α β × Concept α β))
    (ij : Concept α β × Concept α β) (hj : ij.2 ∈ cs) :
    coverStep cs (coverState cs done) ij = .ok (coverState cs (done ++ [ij])) := by
  obtain ⟨ci, cj⟩ := ij
  simp only at hj
  unfold coverStep
  by_cases hlt : ci.intent ⊂ cj.intent
  · simp only [if_pos hlt]
    have e0 : coverState cs done cj =
        some ((done.filter fun ij => decide (ij.2 = cj) && coverB cs ij.1 ij.2).map Prod.fst).toFinset := by
      simp [coverState, hj]
    rw [e0]
    simp only
    unfold coverCheck
    by_cases hb : (cs.any fun ck => decide (ci.intent ⊂ ck.intent) && decide (ck.intent ⊂ cj.intent)) = true
    · have hnc : coverB cs ci cj = false := by simp only [coverB, hb, Bool.not_true, Bool.and_false]
      simp only [if_pos hb, Finset.mem_insert_self, if_true, py_ok_bind]
      congr 1
      funext c
      by_cases hc : c = cj
      · subst hc
        rw [Function.update_self]
        simp only [coverState, hj, if_true, List.filter_append, Option.some.injEq]
        have hni : ci ∉ ((done.filter fun ij => decide (ij.2 = c) && coverB cs ij.1 ij.2).map Prod.fst).toFinset := by
          rw [List.mem_toFinset, List.mem_map]
          rintro ⟨⟨a, b⟩, hm, rfl⟩
          rw [List.mem_filter] at hm
          simp only [Bool.and_eq_true, decide_eq_true_eq] at hm
          rw [hm.2.1, hnc] at hm
          exact absurd hm.2.2 (by simp)
        rw [Finset.erase_insert hni]
        simp [hnc]
      · rw [Function.update_of_ne hc]
        have : ¬ cj = c := fun h => hc h.symm
        simp [coverState, List.filter_append, this]
    · have hnc : coverB cs ci cj = true := by
        simp only [coverB, hlt, decide_true, Bool.true_and, Bool.not_eq_true']
        exact Bool.not_eq_true _ ▸ hb
      simp only [if_neg hb, py_ok_bind]
      congr 1
      funext c
      by_cases hc : c = cj
      · subst hc
        rw [Function.update_self]
        simp only [coverState, hj, if_true, List.filter_append, Option.some.injEq]
        ext x
        simp only [hnc, Finset.mem_insert, List.mem_toFinset, List.map_append, List.mem_append, List.filter_cons,
          decide_true, Bool.and_self, if_true, List.filter_nil, List.map_cons, List.map_nil, List.mem_singleton]
        tauto
      · rw [Function.update_of_ne hc]
        have : ¬ cj = c := fun h => hc h.symm
        simp [coverState, List.filter_append, this]
  · simp only [if_neg hlt]
    congr 1
    funext c
    have hnc : coverB cs ci cj = false := by simp [coverB, hlt]
    simp [coverState, List.filter_append, hnc]

theorem coverFold (cs : List (Concept α β)) (ps done : List (Concept α β × Concept α β))
    (h : ∀ ij ∈ ps, ij.2 ∈ cs) :
    ps.foldlM (coverStep cs) (coverState cs done) = .ok (coverState cs (done ++ ps)) := by
  induction ps generalizing done with
  | nil => simp
  | cons ij ps ih =>
    rw [List.foldlM_cons, coverStep_state cs done ij (h ij (by simp)), py_ok_bind,
      ih _ fun x hx => h x (by simp [hx])]
    simp

/-- `compute_covering_relation` returns the covers for the members of the list. -/
theorem coveringRelation_ok (cs : List (Concept α β)) :
    ∃ P, coveringRelation cs = .ok P ∧ (∀ c, c ∉ cs → P c = none) ∧
      ∀ c ∈ cs, ∃ S, P c = some S ∧ ∀ p, p ∈ S ↔ Covers Concept.intent cs p c := by
  refine ⟨coverState cs (cs.flatMap fun ci => cs.map fun cj => (ci, cj)), ?_, ?_, ?_⟩
  · unfold coveringRelation
    have h0 : (fun c => if c ∈ cs then some ∅ else none : ParentDict α β) = coverState cs [] := by
      funext c; simp [coverState]
    rw [h0, coverFold]
    · simp
    · intro ij hij
      simp only [List.mem_flatMap, List.mem_map] at hij
      obtain ⟨ci, _, cj, h2, rfl⟩ := hij
      exact h2
  · intro c hc; simp [coverState, hc]
  · intro c hc
    refine ⟨_, by simp only [coverState, hc, if_true]; rfl, ?_⟩
    intro p
    simp only [List.mem_toFinset, List.mem_map, List.mem_filter, List.mem_flatMap, Bool.and_eq_true,
      decide_eq_true_eq]
    constructor
    · rintro ⟨ij, ⟨⟨ci, hi, cj, hj, rfl⟩, h2, h3⟩, rfl⟩
      simp only at h2 h3 ⊢
      rw [coverB_iff cs _ _ hi, h2] at h3
      exact h3
    · intro h
      refine ⟨(p, c), ⟨⟨p, h.1, c, hc, rfl⟩, rfl, ?_⟩, rfl⟩
      rw [coverB_iff cs p c h.1]; exact h

/-- Some element has a minimal label. -/
theorem exists_minimal {γ δ : Type} (f : γ → Finset δ) (l : List γ) (h : l ≠ []) :
    ∃ x ∈ l, ∀ y ∈ l, ¬ f y ⊂ f x := by
  classical
  obtain ⟨x, hx, hm⟩ := l.toFinset.exists_min_image (fun x => (f x).card) (by
    obtain ⟨a, ha⟩ := List.exists_mem_of_ne_nil l h
    exact ⟨a, by simpa using ha⟩)
  refine ⟨x, by simpa using hx, fun y hy hlt => ?_⟩
  have := hm y (by simpa using hy)
  exact absurd (Finset.card_lt_card hlt) (by omega)

theorem exists_maximal {γ δ : Type} (f : γ → Finset δ) (l : List γ) (h : l ≠ []) :
    ∃ x ∈ l, ∀ y ∈ l, ¬ f x ⊂ f y := by
  classical
  obtain ⟨x, hx, hm⟩ := l.toFinset.exists_max_image (fun x => (f x).card) (by
    obtain ⟨a, ha⟩ := List.exists_mem_of_ne_nil l h
    exact ⟨a, by simpa using ha⟩)
  refine ⟨x, by simpa using hx, fun y hy hlt => ?_⟩
  have := hm y (by simpa using hy)
  exact absurd (Finset.card_lt_card hlt) (by omega)

theorem pyGet_zero_filter {γ : Type} {l : List γ} {p : γ → Bool} (h : ∃ x ∈ l, p x = true) :
    ∃ x, pyGet (l.filter p) 0 = .ok x ∧ x ∈ l ∧ p x = true := by
  obtain ⟨x, hx, hp⟩ := h
  cases hl : l.filter p with
  | nil =>
    have : x ∈ l.filter p := List.mem_filter.2 ⟨hx, hp⟩
    rw [hl] at this; simp at this
  | cons y ys =>
    have : y ∈ l.filter p := by rw [hl]; simp
    exact ⟨y, rfl, List.mem_filter.1 this⟩

theorem csTop_ok (cs : List (Concept α β)) (h : cs ≠ []) :
    ∃ t, csTop cs = .ok t ∧ t ∈ cs ∧ ∀ d ∈ cs, ¬ d.intent ⊂ t.intent := by
  obtain ⟨x, hx, hm⟩ := exists_minimal Concept.intent cs h
  obtain ⟨t, h1, h2, h3⟩ := pyGet_zero_filter (p := fun c => (csFilter cs c).isEmpty)
    ⟨x, hx, by simp only [csFilter, List.isEmpty_iff, List.filter_eq_nil_iff, decide_eq_true_eq]; exact hm⟩
  refine ⟨t, h1, h2, ?_⟩
  simpa only [csFilter, List.isEmpty_iff, List.filter_eq_nil_iff, decide_eq_true_eq] using h3

theorem csBottom_ok (cs : List (Concept α β)) (h : cs ≠ []) :
    ∃ t, csBottom cs = .ok t ∧ t ∈ cs ∧ ∀ d ∈ cs, ¬ t.intent ⊂ d.intent := by
  obtain ⟨x, hx, hm⟩ := exists_maximal Concept.intent cs h
  obtain ⟨t, h1, h2, h3⟩ := pyGet_zero_filter (p := fun c => (csIdeal cs c).isEmpty)
    ⟨x, hx, by simp only [csIdeal, List.isEmpty_iff, List.filter_eq_nil_iff, decide_eq_true_eq]; exact hm⟩
  refine ⟨t, h1, h2, ?_⟩
  simpa only [csIdeal, List.isEmpty_iff, List.filter_eq_nil_iff, decide_eq_true_eq] using h3

theorem filterMapM_ok {γ δ : Type} {f : γ → Py (Option δ)} {g : γ → Option δ} {l : List γ}
    (h : ∀ x ∈ l, f x = .ok (g x)) : l.filterMapM f = .ok (l.filterMap g) := by
  induction l with
  | nil => rfl
  | cons x l ih =>
    rw [List.filterMapM_cons, h x (by simp), py_ok_bind, ih fun y hy => h y (by simp [hy])]
    rw [List.filterMap_cons]
    cases g x <;> rfl

theorem childrenOf_ok (cs : List (Concept α β)) (P : ParentDict α β)
    (hP : ∀ c ∈ cs, ∃ S, P c = some S ∧ ∀ p, p ∈ S ↔ Covers Concept.intent cs p c) (c : Concept α β) :
    ∃ S, childrenOf cs (dictGet P) c = .ok S ∧ ∀ d, d ∈ S ↔ d ∈ cs ∧ Covers Concept.intent cs c d := by
  have h : ∀ d ∈ cs, (do
      let S ← dictGet P d
      .ok (if c ∈ S then some d else none) : Py (Option (Concept α β))) =
      .ok (if c ∈ (P d).getD ∅ then some d else none) := by
    intro d hd
    obtain ⟨S, hS, -⟩ := hP d hd
    simp only [dictGet, hS, py_ok_bind, Option.getD_some]
  unfold childrenOf
  rw [filterMapM_ok h, py_ok_bind]
  refine ⟨_, rfl, fun d => ?_⟩
  simp only [List.mem_toFinset, List.mem_filterMap]
  constructor
  · rintro ⟨x, hx, he⟩
    split at he
    · next hc =>
      obtain ⟨S, hS, hS'⟩ := hP x hx
      rw [hS, Option.getD_some, hS'] at hc
      cases he
      exact ⟨hx, hc⟩
    · cases he
  · rintro ⟨hd, hcov⟩
    obtain ⟨S, hS, hS'⟩ := hP d hd
    refine ⟨d, hd, ?_⟩
    rw [if_pos]
    rw [hS, Option.getD_some, hS']; exact hcov

/-- `norris` succeeds, and what it computes. -/
theorem norris_rows {c : Ctx α β} (h : c.WFw) :
    ∃ exs : List (Finset β), c.examples = .ok exs ∧ exs.length = c.objects.length ∧
      (∀ p, p ∈ c.objects.zip exs ↔ p.1 ∈ c.objects ∧ p.2 = c.upF {p.1}) := by
  have hex : c.examples = .ok (c.objects.map fun o => c.upF {o}) := by
    unfold Ctx.examples
    rw [mapM_ok (g := fun i => c.upF ((c.objects[i]?).toList.toFinset))]
    · congr 1
      apply List.ext_getElem?
      intro i
      by_cases hi : i < c.objects.length
      · simp [hi]
      · simp [hi]
    · intro i hi
      rw [List.mem_range] at hi
      have := h.intentByIndex (i := i) (o := c.objects[i]) (by simp [hi])
      rw [this]; simp [hi]
  refine ⟨_, hex, by simp, ?_⟩
  rintro ⟨o, B⟩
  simp only
  constructor
  · intro hm
    obtain ⟨i, hi⟩ := List.getElem?_of_mem hm
    rw [List.getElem?_zip_eq_some] at hi
    obtain ⟨h1, h2⟩ := hi
    rw [List.getElem?_map, h1] at h2
    exact ⟨List.mem_of_getElem? h1, by simpa using h2.symm⟩
  · rintro ⟨ho, rfl⟩
    obtain ⟨i, hi⟩ := List.getElem?_of_mem ho
    apply List.mem_of_getElem? (i := i)
    rw [List.getElem?_zip_eq_some]
    exact ⟨hi, by rw [List.getElem?_map, hi]; rfl⟩

theorem nex_eq {c : Ctx α β} (h : c.WFw) {exs : List (Finset β)}
    (hrows : ∀ p, p ∈ c.objects.zip exs ↔ p.1 ∈ c.objects ∧ p.2 = c.upF {p.1})
    {B : Finset β} (hB : B ⊆ c.M) (P : List (α × Finset β)) (hP : ∀ p ∈ P, p ∈ c.objects.zip exs) (o : α) :
    o ∈ nex P B ↔ o ∈ P.map Prod.fst ∧ ∀ m ∈ B, c.Inc o m := by
  rw [mem_nex, List.mem_map]
  have key : ∀ p ∈ P, B ⊆ p.2 ↔ ∀ m ∈ B, c.Inc p.1 m := by
    intro p hp
    have := (hrows p).1 (hP p hp)
    rw [this.2]
    constructor
    · intro hs m hm; exact (h.mem_upF.1 (hs hm)).2 p.1 (by simp)
    · intro hs m hm
      refine h.mem_upF.2 ⟨by simpa using hB hm, ?_⟩
      intro o' ho'; rw [Finset.mem_singleton] at ho'; subst ho'; exact hs m hm
  constructor
  · rintro ⟨p, hp, h1, rfl⟩; exact ⟨⟨p, hp, rfl⟩, (key p hp).1 h1⟩
  · rintro ⟨⟨p, hp, rfl⟩, h1⟩; exact ⟨p, hp, (key p hp).2 h1, rfl⟩

theorem ncl_eq {c : Ctx α β} (h : c.WFw) {exs : List (Finset β)}
    (hrows : ∀ p, p ∈ c.objects.zip exs ↔ p.1 ∈ c.objects ∧ p.2 = c.upF {p.1})
    {B : Finset β} (hB : B ⊆ c.M) : ncl c.M (c.objects.zip exs) B = c.aclF B := by
  ext m
  rw [mem_ncl, h.mem_aclF]
  have key : ∀ p ∈ c.objects.zip exs, B ⊆ p.2 ↔ ∀ m ∈ B, c.Inc p.1 m := by
    intro p hp
    rw [((hrows p).1 hp).2]
    constructor
    · intro hs m hm; exact (h.mem_upF.1 (hs hm)).2 p.1 (by simp)
    · intro hs m hm
      refine h.mem_upF.2 ⟨by simpa using hB hm, ?_⟩
      intro o' ho'; rw [Finset.mem_singleton] at ho'; subst ho'; exact hs m hm
  have hm : ∀ p ∈ c.objects.zip exs, m ∈ c.M → (m ∈ p.2 ↔ c.Inc p.1 m) := by
    intro p hp hmM
    rw [((hrows p).1 hp).2, h.mem_upF]
    simp only [Finset.mem_singleton, forall_eq]
    exact ⟨fun hx => hx.2, fun hx => ⟨by simpa using hmM, hx⟩⟩
  constructor
  · rintro ⟨h1, h2⟩
    refine ⟨by simpa using h1, fun o ho hI => ?_⟩
    have hp : (o, c.upF {o}) ∈ c.objects.zip exs := (hrows _).2 ⟨ho, rfl⟩
    exact (hm _ hp h1).1 (h2 _ hp ((key _ hp).2 hI))
  · rintro ⟨h1, h2⟩
    have h1' : m ∈ c.M := by simpa using h1
    exact ⟨h1', fun p hp hb => (hm p hp h1').2 (h2 p.1 ((hrows p).1 hp).1 ((key p hp).1 hb))⟩

/-- `norris` in terms of the invariant. -/
theorem norris_inv {c : Ctx α β} (h : c.WFw) :
    ∃ exs tr cs, c.examples = .ok exs ∧ iterNorris c = .ok (tr, cs) ∧ norris c = .ok cs ∧
      NInv c.M (c.objects.zip exs) cs ∧
      (tr, cs) = ([⟨∅, c.M⟩] :: (norrisLoop [] (c.objects.zip exs) [⟨∅, c.M⟩]).1,
        (norrisLoop [] (c.objects.zip exs) [⟨∅, c.M⟩]).2) ∧
      exs.length = c.objects.length ∧
      (∀ p, p ∈ c.objects.zip exs ↔ p.1 ∈ c.objects ∧ p.2 = c.upF {p.1}) ∧
      ((c.objects.zip exs).map Prod.fst) = c.objects := by
  obtain ⟨exs, h1, h2, h3⟩ := norris_rows h
  have hfst : (c.objects.zip exs).map Prod.fst = c.objects := List.map_fst_zip (by omega)
  have hit : iterNorris c = .ok ([⟨∅, c.M⟩] :: (norrisLoop [] (c.objects.zip exs) [⟨∅, c.M⟩]).1,
        (norrisLoop [] (c.objects.zip exs) [⟨∅, c.M⟩]).2) := by
    unfold iterNorris; rw [h1]; rfl
  refine ⟨exs, _, _, h1, hit, by unfold norris; rw [hit]; rfl, ?_, rfl, h2, h3, hfst⟩
  have := norrisLoop_inv (M := c.M) [] (c.objects.zip exs) [⟨∅, c.M⟩] (NInv.init _)
    (by rw [List.nil_append, hfst]; exact h.onodup)
  simpa using this

/-- The list made by `norris` consists of the formal concepts. -/
theorem NInv.mem_iff {c : Ctx α β} (h : c.WFw) {exs : List (Finset β)}
    (hrows : ∀ p, p ∈ c.objects.zip exs ↔ p.1 ∈ c.objects ∧ p.2 = c.upF {p.1})
    (hfst : ((c.objects.zip exs).map Prod.fst) = c.objects)
    {cs : List (Concept α β)} (hi : NInv c.M (c.objects.zip exs) cs) (A : Finset α) (B : Finset β) :
    (⟨A, B⟩ : Concept α β) ∈ cs ↔ IsConcept c.G c.M c.Inc A B := by
  constructor
  · intro hm
    obtain ⟨hB, hf⟩ := (hi.mem B).1 ⟨_, hm, rfl⟩
    have hA : A = nex (c.objects.zip exs) B := hi.ext _ hm
    have hmem : ∀ g, g ∈ A ↔ g ∈ c.objects ∧ ∀ m ∈ B, c.Inc g m := by
      intro g; rw [hA, nex_eq h hrows hB _ (fun _ hp => hp), hfst]
    rw [ncl_eq h hrows hB] at hf
    constructor
    · intro m
      conv_lhs => rw [← hf]
      rw [h.mem_aclF]
      simp only [hmem, List.mem_toFinset]
      constructor
      · rintro ⟨h1, h2⟩; exact ⟨h1, fun g hg => h2 g hg.1 hg.2⟩
      · rintro ⟨h1, h2⟩; exact ⟨h1, fun g hg hI => h2 g ⟨hg, hI⟩⟩
    · intro g; rw [hmem]; simp
  · rintro ⟨h1, h2⟩
    have hB : B ⊆ c.M := fun m hm => ((h1 m).1 hm).1
    have hf : c.aclF B = B := by
      ext m
      rw [h.mem_aclF, h1]
      simp only [h2, List.mem_toFinset]
      constructor
      · rintro ⟨h1, h2⟩; exact ⟨h1, fun g hg => h2 g hg.1 hg.2⟩
      · rintro ⟨h1, h2⟩; exact ⟨h1, fun g hg hI => h2 g ⟨hg, hI⟩⟩
    obtain ⟨d, hd, hdB⟩ := (hi.mem B).2 ⟨hB, by rw [ncl_eq h hrows hB]; exact hf⟩
    have hdA : d.extent = A := by
      ext g
      rw [hi.ext d hd, hdB, nex_eq h hrows hB _ (fun _ hp => hp), hfst, h2]; simp
    have : d = ⟨A, B⟩ := by cases d; simp only at hdA hdB; rw [hdA, hdB]
    rw [← this]; exact hd
