/-
Property C126: names that Python cannot compare with each other.
-/
import Verif.Lemmas.MixedNames
import Verif.Props.DG
import Verif.Props.Lattice

set_option linter.unusedSectionVars false

open Spec

/-- Names of two kinds. -/
def Mixed {γ : Type} [Kinded γ] (s : Finset γ) : Prop := ∃ x ∈ s, ∃ y ∈ s, Kinded.kind x ≠ Kinded.kind y

section
variable {γ : Type} [DecidableEq γ] [Kinded γ]

/-! ### C126: sorting -/

/-- `sorted` of a set raises TypeError exactly if the set has names of two kinds, whatever the sorting algorithm and
the iteration order of the set; else it returns the elements in increasing order. -/
theorem C126_sorted (T : Sorter) (ord : SetOrder γ) (s : Finset γ) :
    (sortPy T (ord.enum s) = .error .typeError ↔ Mixed s) ∧
    (¬ Mixed s → ∃ l, sortPy T (ord.enum s) = .ok l ∧ l.Nodup ∧ (∀ x, x ∈ l ↔ x ∈ s) ∧
      l.Pairwise (fun x y => Kinded.lt x y = true) ∧ ∀ (T' : Sorter) (ord' : SetOrder γ), sortPy T' (ord'.enum s) = .ok l) := by
  have hok : ¬ Mixed s → ∀ (T : Sorter) (ord : SetOrder γ), ∃ l, sortPy T (ord.enum s) = .ok l ∧ l.Perm (ord.enum s) ∧
      l.Pairwise fun x y => Kinded.lt x y = true := by
    intro hm T ord
    apply sortPy_uniform T (ord.nodup s)
    intro x hx y hy
    by_contra hne
    exact hm ⟨x, (ord.mem s x).1 hx, y, (ord.mem s y).1 hy, hne⟩
  refine ⟨⟨fun h => ?_, ?_⟩, fun hm => ?_⟩
  · by_contra hm
    obtain ⟨l, h1, -⟩ := hok hm T ord
    rw [h1] at h; cases h
  · rintro ⟨x, hx, y, hy, hk⟩
    exact sortPy_mixed T (ord.nodup s) ((ord.mem s x).2 hx) ((ord.mem s y).2 hy) hk
  · obtain ⟨l, h1, h2, h3⟩ := hok hm T ord
    refine ⟨l, h1, h2.nodup_iff.2 (ord.nodup s), fun x => by rw [h2.mem_iff, ord.mem], h3, fun T' ord' => ?_⟩
    obtain ⟨l', h1', h2', h3'⟩ := hok hm T' ord'
    have hperm : (ord'.enum s).Perm (ord.enum s) :=
      (List.perm_ext_iff_of_nodup (ord'.nodup s) (ord.nodup s)).2 fun x => by simp
    have heq : l' = l := by
      refine sorted_unique (fun x hx y hy => ?_) (h2'.trans (hperm.trans h2.symm)) h3' h3
      by_contra hne
      exact hm ⟨x, (ord'.mem s x).1 (h2'.mem_iff.1 hx), y, (ord'.mem s y).1 (h2'.mem_iff.1 hy), hne⟩
    rw [h1', heq]

theorem sort_cases (T : Sorter) (ord : SetOrder γ) (s : Finset γ) :
    (Mixed s ∧ sortPy T (ord.enum s) = .error .typeError) ∨
    (¬ Mixed s ∧ ∃ l, ∀ (T' : Sorter) (ord' : SetOrder γ), sortPy T' (ord'.enum s) = .ok l) := by
  obtain ⟨h1, h2⟩ := C126_sorted T ord s
  by_cases hm : Mixed s
  · exact .inl ⟨hm, h1.2 hm⟩
  · obtain ⟨l, -, -, -, -, h⟩ := h2 hm
    exact .inr ⟨hm, l, h⟩

theorem not_mixed_empty : ¬ Mixed (∅ : Finset γ) := by rintro ⟨x, hx, -⟩; simp at hx

end

section
variable {α β : Type} [DecidableEq α] [DecidableEq β] [Kinded α] [Kinded β]

/-! ### C126: strings and hashes -/

theorem side_cases {γ : Type} [DecidableEq γ] [Kinded γ] (rep : γ → List Char) (letter : Char) (other : ℕ) (s : Finset γ) :
    ((Mixed s ∧ 0 < other) ∧ ∀ T ord, sideText T ord rep letter other s = .error .typeError) ∨
    (¬ (Mixed s ∧ 0 < other) ∧ ∃ t, ∀ T ord, sideText T ord rep letter other s = .ok t) := by
  unfold sideText
  by_cases ho : 0 < other
  · simp only [gt_iff_lt, if_pos ho]
    by_cases hm : Mixed s
    · exact .inl ⟨⟨hm, ho⟩, fun T ord => by rw [(C126_sorted T ord s).1.2 hm]⟩
    · obtain ⟨l, hl⟩ := ((sort_cases Sorter.insertion (SetOrder.any γ) s).resolve_left (fun h => hm h.1)).2
      exact .inr ⟨fun h => hm h.1, _, fun T ord => by rw [hl T ord]⟩
  · exact .inr ⟨fun h => ho h.2, _, fun T ord => by rw [if_neg (by simpa using ho)]⟩

/-- `str(concept)`, and with it `hash(concept)`, raises TypeError exactly if the extent has names of two kinds and the
intent is not empty, or the other way round; no other exception. Else the string depends on the concept and on `repr` of
the names only: equal concepts have equal hashes. -/
theorem C126_concept_text (E : SortEnv α β) (x : Concept α β) :
    ((Mixed x.extent ∧ x.intent ≠ ∅) ∨ (Mixed x.intent ∧ x.extent ≠ ∅) → conceptText E x = .error .typeError) ∧
    (¬ ((Mixed x.extent ∧ x.intent ≠ ∅) ∨ (Mixed x.intent ∧ x.extent ≠ ∅)) →
      ∃ s, ∀ (T : Sorter) (ordO : SetOrder α) (ordA : SetOrder β),
        conceptText { E with sorter := T, ordO := ordO, ordA := ordA } x = .ok s) := by
  have hpos : ∀ {δ : Type} (s : Finset δ), s ≠ ∅ ↔ 0 < s.card := fun s => by
    rw [Finset.card_pos, Finset.nonempty_iff_ne_empty]
  rw [hpos, hpos]
  unfold conceptText
  rcases side_cases E.reprO 'G' x.intent.card x.extent with ⟨h1, e1⟩ | ⟨h1, t1, e1⟩
  · refine ⟨fun _ => ?_, fun hn => absurd (.inl h1) hn⟩
    rw [e1]; rfl
  · rcases side_cases E.reprA 'M' x.extent.card x.intent with ⟨h2, e2⟩ | ⟨h2, t2, e2⟩
    · refine ⟨fun _ => ?_, fun hn => absurd (.inr h2) hn⟩
      rw [e1, e2]; rfl
    · refine ⟨fun hm => hm.elim (fun h => absurd h h1) (fun h => absurd h h2), fun _ =>
        ⟨'(' :: t1 ++ [',', ' '] ++ t2 ++ [')'], fun T ordO ordA => ?_⟩⟩
      rw [e1, e2]; rfl

theorem conceptText_total (E : SortEnv α β) (x : Concept α β) :
    conceptText E x = .error .typeError ∨ ∃ s, conceptText E x = .ok s := by
  obtain ⟨h1, h2⟩ := C126_concept_text E x
  by_cases h : (Mixed x.extent ∧ x.intent ≠ ∅) ∨ (Mixed x.intent ∧ x.extent ≠ ∅)
  · exact .inl (h1 h)
  · obtain ⟨s, hs⟩ := h2 h
    exact .inr ⟨s, hs E.sorter E.ordO E.ordA⟩

theorem mapM_dichotomy {γ δ : Type} {f : γ → Py δ} {e : PyErr} (h : ∀ x, f x = .error e ∨ ∃ s, f x = .ok s) :
    ∀ l : List γ, (l.mapM f = .error e ∧ ∃ x ∈ l, f x = .error e) ∨
      ((∃ ss, l.mapM f = .ok ss) ∧ ∀ x ∈ l, ∃ s, f x = .ok s)
  | [] => .inr ⟨⟨[], rfl⟩, by simp⟩
  | x :: l => by
    rw [List.mapM_cons]
    rcases h x with hx | ⟨s, hx⟩
    · left; rw [hx]; exact ⟨rfl, x, by simp, hx⟩
    · rcases mapM_dichotomy h l with ⟨h1, y, hy, hy'⟩ | ⟨⟨ss, h1⟩, h2⟩
      · left; rw [hx, h1]; exact ⟨rfl, y, by simp [hy], hy'⟩
      · right; rw [hx, h1]
        refine ⟨⟨_, rfl⟩, ?_⟩
        intro y hy
        rcases List.mem_cons.1 hy with rfl | hy
        · exact ⟨s, hx⟩
        · exact h2 y hy

/-- `repr(imp)`, and with it `hash(imp)`, raises TypeError exactly if the premise or the reduced conclusion has names of two
kinds, although the exception of the first attempt is caught; no other exception. -/
theorem C126_imp_text {γ : Type} [DecidableEq γ] [Kinded γ] (T : Sorter) (ord : SetOrder γ)
    (asText : γ → Option (List Char)) (str : γ → List Char) (x : Imp γ) :
    (Mixed x.premise ∨ Mixed (x.conclusion \ x.premise) → impText T ord asText str x = .error .typeError) ∧
    (¬ (Mixed x.premise ∨ Mixed (x.conclusion \ x.premise)) → ∃ s, ∀ (T' : Sorter) (ord' : SetOrder γ),
      impText T' ord' asText str x = .ok s) := by
  have hmap : ∀ (l : List γ), l.mapM (fun n => (.ok (str n) : Py (List Char))) = .ok (l.map str) := by
    intro l
    induction l with
    | nil => rfl
    | cons a l ih => rw [List.mapM_cons, ih]; rfl
  constructor
  · intro h
    unfold impText
    dsimp only
    rcases sort_cases T ord x.premise with ⟨h1, e1⟩ | ⟨h1, l1, e1⟩
    · rw [e1]; rfl
    · have h2 := h.resolve_left h1
      rw [e1, (C126_sorted T ord (x.conclusion \ x.premise)).1.2 h2]
      simp only [py_ok_bind, hmap]
      cases List.mapM (fun n => match asText n with | some t => (.ok t : Py (List Char)) | none => .error .typeError) l1 <;> rfl
  · intro h
    rw [not_or] at h
    obtain ⟨l1, e1⟩ := ((sort_cases T ord x.premise).resolve_left (fun hm => h.1 hm.1)).2
    obtain ⟨l2, e2⟩ := ((sort_cases T ord (x.conclusion \ x.premise)).resolve_left (fun hm => h.2 hm.1)).2
    unfold impText
    simp only [e1, e2, py_ok_bind, hmap]
    generalize hb : (do
      let p ← List.mapM (fun n => match asText n with | some t => (.ok t : Py (List Char)) | none => .error .typeError) l1
      let q ← List.mapM (fun n => match asText n with | some t => (.ok t : Py (List Char)) | none => .error .typeError) l2
      (.ok (List.intercalate [',', ' '] p ++ [' ', '=', '>', ' '] ++ List.intercalate [',', ' '] q) : Py (List Char))) = r
    cases r with
    | ok s => exact ⟨s, fun _ _ => rfl⟩
    | error e => exact ⟨_, fun _ _ => rfl⟩

namespace Ctx

/-! ### C126: concept lattice -/

/-- For every context with distinct names: `concepts` always returns; `ConceptLattice` raises TypeError exactly if two
objects of different kinds share an attribute or two attributes of different kinds share an object, and is otherwise
the lattice of C36-C39. -/
theorem C126_lattice (E : SortEnv α β) {c : Ctx α β} (h : c.WFw) :
    (∃ cs, norris c = .ok cs) ∧
    (makeLatticeSorted E c = .error .typeError ↔
      (∃ o o' m, c.Inc o m ∧ c.Inc o' m ∧ Kinded.kind o ≠ Kinded.kind o') ∨
      (∃ o m m', c.Inc o m ∧ c.Inc o m' ∧ Kinded.kind m ≠ Kinded.kind m')) ∧
    (makeLatticeSorted E c ≠ .error .typeError → makeLatticeSorted E c = makeLattice c) := by
  obtain ⟨L, hL, -, -, hn, hmem, -⟩ := makeLattice_ok h
  refine ⟨⟨_, hn⟩, ?_⟩
  -- the condition on concepts
  have hcond : (∃ x ∈ L.concepts, (Mixed x.extent ∧ x.intent ≠ ∅) ∨ (Mixed x.intent ∧ x.extent ≠ ∅)) ↔
      (∃ o o' m, c.Inc o m ∧ c.Inc o' m ∧ Kinded.kind o ≠ Kinded.kind o') ∨
      (∃ o m m', c.Inc o m ∧ c.Inc o m' ∧ Kinded.kind m ≠ Kinded.kind m') := by
    constructor
    · rintro ⟨x, hx, ⟨⟨o, ho, o', ho', hk⟩, hi⟩ | ⟨⟨m, hm, m', hm', hk⟩, he⟩⟩
      · obtain ⟨m, hm⟩ := Finset.nonempty_iff_ne_empty.2 hi
        have hc := (hmem x).1 hx
        exact .inl ⟨o, o', m, ((hc.2 o).1 ho).2 m hm, ((hc.2 o').1 ho').2 m hm, hk⟩
      · obtain ⟨o, ho⟩ := Finset.nonempty_iff_ne_empty.2 he
        have hc := (hmem x).1 hx
        exact .inr ⟨o, m, m', ((hc.1 m).1 hm).2 o ho, ((hc.1 m').1 hm').2 o ho, hk⟩
    · rintro (⟨o, o', m, h1, h2, hk⟩ | ⟨o, m, m', h1, h2, hk⟩)
      · have hM := (Inc.mem h1).2
        refine ⟨⟨c.downF {m}, c.upF (c.downF {m})⟩, (hmem _).2 ⟨fun a => ?_, fun g => ?_⟩, .inl ⟨⟨o, ?_, o', ?_, hk⟩, ?_⟩⟩
        · simp only; rw [h.mem_upF]; simp
        · simp only
          constructor
          · intro hg
            exact ⟨by simpa using (h.mem_downF.1 hg).1, fun a ha => (h.mem_upF.1 ha).2 g hg⟩
          · rintro ⟨hg, hall⟩
            rw [h.mem_downF]
            refine ⟨by simpa using hg, fun a ha => ?_⟩
            rw [Finset.mem_singleton] at ha; subst ha
            exact hall a (h.mem_upF.2 ⟨hM, fun g' hg' => (h.mem_downF.1 hg').2 a (by simp)⟩)
        · exact h.mem_downF.2 ⟨(Inc.mem h1).1, by simpa using h1⟩
        · exact h.mem_downF.2 ⟨(Inc.mem h2).1, by simpa using h2⟩
        · exact Finset.ne_empty_of_mem (h.mem_upF.2 ⟨hM, fun g' hg' => (h.mem_downF.1 hg').2 m (by simp)⟩)
      · have hG := (Inc.mem h1).1
        refine ⟨⟨c.downF (c.upF {o}), c.upF {o}⟩, (hmem _).2 ⟨fun a => ?_, fun g => ?_⟩, .inr ⟨⟨m, ?_, m', ?_, hk⟩, ?_⟩⟩
        · simp only
          constructor
          · intro ha
            exact ⟨by simpa using (h.mem_upF.1 ha).1, fun g hg => (h.mem_downF.1 hg).2 a ha⟩
          · rintro ⟨ha, hall⟩
            rw [h.mem_upF]
            refine ⟨by simpa using ha, fun g hg => ?_⟩
            rw [Finset.mem_singleton] at hg; subst hg
            exact hall g (h.mem_downF.2 ⟨hG, fun a' ha' => (h.mem_upF.1 ha').2 g (by simp)⟩)
        · simp only; rw [h.mem_downF]; simp
        · exact h.mem_upF.2 ⟨(Inc.mem h1).2, by simpa using h1⟩
        · exact h.mem_upF.2 ⟨(Inc.mem h2).2, by simpa using h2⟩
        · exact Finset.ne_empty_of_mem (h.mem_downF.2 ⟨hG, fun a' ha' => (h.mem_upF.1 ha').2 o (by simp)⟩)
  rw [← hcond]
  rcases mapM_dichotomy (conceptText_total E) L.concepts with ⟨h1, x, hx, hx'⟩ | ⟨⟨ss, h1⟩, h2⟩
  · have he : makeLatticeSorted E c = .error .typeError := by
      unfold makeLatticeSorted
      rw [hn, py_ok_bind, h1]; rfl
    rw [he]
    refine ⟨⟨fun _ => ⟨x, hx, ?_⟩, fun _ => rfl⟩, fun hne => absurd rfl hne⟩
    by_contra hno
    obtain ⟨s, hs⟩ := (C126_concept_text E x).2 hno
    have := hs E.sorter E.ordO E.ordA
    rw [hx'] at this
    cases this
  · have he : makeLatticeSorted E c = makeLattice c := by
      unfold makeLatticeSorted makeLattice
      rw [hn, py_ok_bind, py_ok_bind, h1, py_ok_bind]
    rw [he, hL]
    refine ⟨⟨fun h => (nomatch h), ?_⟩, fun _ => rfl⟩
    rintro ⟨x, hx, hm⟩
    obtain ⟨s, hs⟩ := h2 x hx
    rw [(C126_concept_text E x).1 hm] at hs
    cases hs

/-! ### C126: closures and basis -/

/-- `closure_operators.aclosure` and `oclosure` raise TypeError exactly if the closure has names of two kinds, and
else return it in increasing order. -/
theorem C126_closures (E : SortEnv α β) {c : Ctx α β} (h : c.WFw) (hne : c.objects ≠ []) :
    (∀ atts : List β, (∀ a ∈ atts, a ∈ c.attributes) →
      (c.aclosureSorted E atts = .error .typeError ↔ Mixed (attrClosure c.G c.M c.Inc atts.toFinset)) ∧
      (¬ Mixed (attrClosure c.G c.M c.Inc atts.toFinset) → ∃ l, c.aclosureSorted E atts = .ok l ∧ l.Nodup ∧
        l.toFinset = attrClosure c.G c.M c.Inc atts.toFinset ∧ l.Pairwise fun x y => Kinded.lt x y = true)) ∧
    (∀ objs : List α, (∀ o ∈ objs, o ∈ c.objects) →
      (c.oclosureSorted E objs = .error .typeError ↔ Mixed (objClosure c.G c.M c.Inc objs.toFinset)) ∧
      (¬ Mixed (objClosure c.G c.M c.Inc objs.toFinset) → ∃ l, c.oclosureSorted E objs = .ok l ∧ l.Nodup ∧
        l.toFinset = objClosure c.G c.M c.Inc objs.toFinset ∧ l.Pairwise fun x y => Kinded.lt x y = true)) := by
  constructor
  · intro atts hatts
    unfold aclosureSorted
    rw [h.coAclosureSet (h.cols hne) E.ordO hatts, py_ok_bind, ← h.aclF_eq]
    obtain ⟨h1, h2⟩ := C126_sorted E.sorter E.ordA (c.aclF atts.toFinset)
    refine ⟨h1, fun hm => ?_⟩
    obtain ⟨l, h3, h4, h5, h6, -⟩ := h2 hm
    exact ⟨l, h3, h4, by ext x; simp [h5], h6⟩
  · intro objs hobjs
    unfold oclosureSorted
    rw [h.coOclosureSet (h.cols hne) E.ordA hobjs, py_ok_bind, ← h.oclF_eq]
    obtain ⟨h1, h2⟩ := C126_sorted E.sorter E.ordO (c.oclF objs.toFinset)
    refine ⟨h1, fun hm => ?_⟩
    obtain ⟨l, h3, h4, h5, h6, -⟩ := h2 hm
    exact ⟨l, h3, h4, by ext x; simp [h5], h6⟩

theorem dgAcloseSorted_cases (E : SortEnv α β) (c : Ctx α β) (s : Finset β) :
    c.dgAcloseSorted E s = c.dgAclose E.ordA E.ordO s ∨ ∃ e, c.dgAcloseSorted E s = .error e := by
  unfold dgAcloseSorted aclosureSorted Ctx.dgAclose
  cases hs : c.coAclosureSet E.ordO (E.ordA.enum s) with
  | error e => exact .inr ⟨e, rfl⟩
  | ok t =>
    rw [py_ok_bind]
    obtain ⟨h1, h2⟩ := C126_sorted E.sorter E.ordA t
    by_cases hm : Mixed t
    · right; rw [h1.2 hm]; exact ⟨_, rfl⟩
    · left
      obtain ⟨l, h3, -, h5, -⟩ := h2 hm
      rw [h3, py_ok_bind]
      congr 1
      ext x; simp [h5]

/-- `compute_dg_basis` and `compute_dg_basis_simple` (background valid, no condition): TypeError exactly if an object that
lacks some attribute has attributes of two kinds, or the attributes are of two kinds and some pseudo-intent is in the
intent of no object but of those with all attributes; else the basis of C24-C28. -/
theorem C126_basis (E : SortEnv α β) {c : Ctx α β} (h : c.WFw) (hne : c.objects ≠ [])
    (close : Finset β → List (Imp β) → Finset β) (bg : List (Imp β)) (hclose : StdClose bg close) (hbg : c.ValidBg bg) :
    (c.dgBasisSorted E close bg (fun _ => true) = .error .typeError ↔
      (∃ o m m' k, c.Inc o m ∧ c.Inc o m' ∧ Kinded.kind m ≠ Kinded.kind m' ∧ k ∈ c.attributes ∧ ¬ c.Inc o k) ∨
      (Mixed c.M ∧ ∃ P, IsPseudo c.M (specImps bg) (attrClosure c.G c.M c.Inc) P ∧
        ∀ o ∈ c.objects, (∀ m ∈ P, c.Inc o m) → ∀ m ∈ c.attributes, c.Inc o m)) ∧
    (c.dgBasisSorted E close bg (fun _ => true) ≠ .error .typeError →
      c.dgBasisSorted E close bg (fun _ => true) = c.dgBasisWith E.ordA E.ordO close bg (fun _ => true)) := by
  have hop := h.attrClosure_op
  have hmem : ∀ {B : Finset β} {m : β}, m ∈ attrClosure c.G c.M c.Inc B ↔
      m ∈ c.attributes ∧ ∀ o ∈ c.objects, (∀ a ∈ B, c.Inc o a) → c.Inc o m := by
    intro B m; rw [← h.aclF_eq]; exact h.mem_aclF
  have hM : c.attributes.toFinset = c.M := rfl
  have key := dgBasis_bad (aclose' := c.dgAcloseSorted E) (Bad := Mixed) (e := .typeError) (bg := bg)
    (h.dgSetup (h.cols hne) E.ordA E.ordO (hclose.good c.M)) hop
    (fun s hs hm => by
      have := ((C126_closures E h hne).1 (E.ordA.enum s) (fun a ha => List.mem_toFinset.1 (hs ((E.ordA.mem s a).1 ha)))).1
      rw [E.ordA.toFinset] at this
      unfold dgAcloseSorted
      rw [this.2 hm]; rfl)
    (fun s hs hm => by
      have := ((C126_closures E h hne).1 (E.ordA.enum s) (fun a ha => List.mem_toFinset.1 (hs ((E.ordA.mem s a).1 ha)))).2
      rw [E.ordA.toFinset] at this
      obtain ⟨l, h1, -, h2, -⟩ := this hm
      unfold dgAcloseSorted
      rw [h1, py_ok_bind, h2])
    (dgAcloseSorted_cases E c) (fun i hi => (hbg i hi).1) (fun basis hb s _ => hclose.least basis hb s)
  rw [hM] at key
  have hcond : (∃ T, Preclosed c.M (specImps bg) (attrClosure c.G c.M c.Inc) T ∧ T ≠ c.M ∧
        Mixed (attrClosure c.G c.M c.Inc T)) ↔
      (∃ o m m' k, c.Inc o m ∧ c.Inc o m' ∧ Kinded.kind m ≠ Kinded.kind m' ∧ k ∈ c.attributes ∧ ¬ c.Inc o k) ∨
      (Mixed c.M ∧ ∃ P, IsPseudo c.M (specImps bg) (attrClosure c.G c.M c.Inc) P ∧
        ∀ o ∈ c.objects, (∀ m ∈ P, c.Inc o m) → ∀ m ∈ c.attributes, c.Inc o m) := by
    constructor
    · rintro ⟨T, hT, hTM, m, hm, m', hm', hk⟩
      by_cases hfull : attrClosure c.G c.M c.Inc T = c.M
      · right
        refine ⟨⟨m, hfull ▸ hm, m', hfull ▸ hm', hk⟩, T, isPseudo_iff.2 ⟨hT, fun he => hTM (he.symm.trans hfull)⟩, ?_⟩
        intro o ho hoT a ha
        exact (hmem.1 (hfull.symm ▸ List.mem_toFinset.2 ha : a ∈ attrClosure c.G c.M c.Inc T)).2 o ho hoT
      · left
        obtain ⟨k, hkM, hk'⟩ : ∃ k ∈ c.M, k ∉ attrClosure c.G c.M c.Inc T := by
          by_contra hno
          push Not at hno
          exact hfull (Finset.Subset.antisymm (hop.into T hT.1) hno)
        rw [hmem, not_and] at hk'
        have := hk' (List.mem_toFinset.1 hkM)
        push Not at this
        obtain ⟨o, ho, hoT, hok⟩ := this
        exact ⟨o, m, m', k, (hmem.1 hm).2 o ho hoT, (hmem.1 hm').2 o ho hoT, hk, List.mem_toFinset.1 hkM, hok⟩
    · rintro (⟨o, m, m', k, h1, h2, hk, hkM, hok⟩ | ⟨⟨m, hm, m', hm', hk⟩, P, hP, hall⟩)
      · have hmu : ∀ {a}, a ∈ c.upF {o} ↔ a ∈ c.attributes ∧ c.Inc o a := by
          intro a; rw [h.mem_upF]; simp
        have hsub : c.upF {o} ⊆ c.M := fun a ha => List.mem_toFinset.2 (hmu.1 ha).1
        have hclosed : attrClosure c.G c.M c.Inc (c.upF {o}) = c.upF {o} := by
          refine Finset.Subset.antisymm (fun a ha => ?_) (hop.ext _ hsub)
          rw [hmem] at ha
          exact hmu.2 ⟨ha.1, ha.2 o (Inc.mem h1).1 fun b hb => (hmu.1 hb).2⟩
        refine ⟨c.upF {o}, preclosed_of_closed hop
          (fun s _ => closed_attrClosure h (fun i hi => (hbg i hi).2) (fun i hi => (hbg i hi).1) s) hsub hclosed, ?_, ?_⟩
        · intro he
          exact hok (hmu.1 (he.symm ▸ List.mem_toFinset.2 hkM : k ∈ c.upF {o})).2
        · rw [hclosed]
          exact ⟨m, hmu.2 ⟨(Inc.mem h1).2, h1⟩, m', hmu.2 ⟨(Inc.mem h2).2, h2⟩, hk⟩
      · obtain ⟨hpre, hnc⟩ := isPseudo_iff.1 hP
        have hfull : attrClosure c.G c.M c.Inc P = c.M := by
          refine Finset.Subset.antisymm (hop.into P hpre.1) fun a ha => ?_
          rw [hmem]
          exact ⟨List.mem_toFinset.1 ha, fun o ho hoP => hall o ho hoP a (List.mem_toFinset.1 ha)⟩
        refine ⟨P, hpre, fun he => hnc ?_, ?_⟩
        · rw [hfull, he]
        · rw [hfull]; exact ⟨m, hm, m', hm', hk⟩
  rw [← hcond]
  unfold dgBasisSorted dgBasisWith
  rcases key with ⟨h1, h2⟩ | ⟨h1, ⟨res, h2⟩, h3⟩
  · rw [h1]
    exact ⟨⟨fun _ => h2, fun _ => rfl⟩, fun hn => absurd rfl hn⟩
  · rw [h1, h2]
    refine ⟨⟨fun he => (nomatch he), ?_⟩, fun _ => rfl⟩
    rintro ⟨T, hT, hTM, hm⟩
    exact absurd hm (h3 T hT hTM)

/-! ### C126: repeated integer names -/

theorem intText_inj {a b : ℤ} (h : intText a = intText b) : a = b := by
  have hd : ∀ n : ℕ, '-' ∉ Nat.toDigits 10 n := fun n hm => by
    have := Nat.isDigit_of_mem_toDigits (by omega) (by omega) hm
    revert this; decide
  have hn : ∀ {m n : ℕ}, Nat.toDigits 10 m = Nat.toDigits 10 n → m = n := fun he => by
    have := congrArg (fun l => Nat.ofDigitChars 10 l 0) he
    simpa [Nat.ofDigitChars_ten_toDigits] using this
  unfold intText at h
  split at h <;> split at h
  · have := hn (List.append_cancel_left h)
    omega
  · exact absurd (by rw [List.nil_append] at h; rw [← h]; simp : '-' ∈ Nat.toDigits 10 b.natAbs) (hd _)
  · exact absurd (by rw [List.nil_append] at h; rw [h]; simp : '-' ∈ Nat.toDigits 10 a.natAbs) (hd _)
  · have := hn (List.append_cancel_left h)
    omega

theorem noClash_int (l : List ℤ) : NoClash (l.map PName.int) ∧ SuffixInjOn (l.map PName.int) := by
  constructor
  · rintro x hx _ i _ hs
    obtain ⟨n, -, hn⟩ := List.mem_map.1 hs
    cases hn
  · intro x hx y hy i j he
    obtain ⟨a, -, rfl⟩ := List.mem_map.1 hx
    obtain ⟨b, -, rfl⟩ := List.mem_map.1 hy
    have he' : (intText a ++ '_' :: Nat.toDigits 10 i) = (intText b ++ '_' :: Nat.toDigits 10 j) := by
      simpa [PyName.suffix, PName.text] using he
    obtain ⟨h1, h2⟩ := suffixInj_chars (intText a) (intText b) i j he'
    exact ⟨by rw [intText_inj h1], h2⟩

/-- Objects named by integers, some of them repeated: the repeated ones become strings, the others stay integers. The
names are distinct, but if one of either sort have a common attribute, `ConceptLattice` raises TypeError. -/
theorem C126_renamed [PyName β] (E : SortEnv PName β) (table : List (List Bool)) (objs : List ℤ) (atts : List β)
    (hatts : atts.Nodup) (c : Ctx PName β) (hc : make table (objs.map PName.int) atts = .ok c) :
    c.WFw ∧
    c.objects = objs.mapIdx (fun i n =>
      if 1 < objs.count n then .str (intText n ++ '_' :: Nat.toDigits 10 i) else .int n) ∧
    ∀ (i j k : ℕ) ri rj ni nj, objs[i]? = some ni → objs[j]? = some nj → 1 < objs.count ni → objs.count nj = 1 →
      table[i]? = some ri → table[j]? = some rj → ri[k]? = some true → rj[k]? = some true →
      makeLatticeSorted E c = .error .typeError := by
  rcases make_cases table (objs.map PName.int) atts with ⟨h1, h2, h3⟩ | ⟨-, h2⟩
  · rw [h3] at hc
    obtain ⟨hn1, hn2⟩ := noClash_int objs
    have hren : renameAll (objs.map PName.int) = objs.mapIdx (fun i n =>
        if 1 < objs.count n then PName.str (intText n ++ '_' :: Nat.toDigits 10 i) else .int n) := by
      rw [renameAll_noClash_on hn2 hn1]
      apply List.ext_getElem?
      intro i
      rw [List.getElem?_mapIdx, List.getElem?_mapIdx, List.getElem?_map, Option.map_map]
      congr 1
      funext n
      have : (objs.map PName.int).count (.int n) = objs.count n :=
        List.count_map_of_injective _ _ (fun a b h => by cases h; rfl) _
      simp only [Function.comp, this]
      rfl
    have hwf : c.WFw := by
      cases hc
      have hnd := renameAll_noClash_nodup_on hn2 hn1
      have hlen : table.length = (renameAll (objs.map PName.int)).length := by rw [renameAll_length]; exact h1
      rw [renameAll_nodup hatts]
      refine ⟨hnd, hatts, hlen, h2, fun hne => ?_⟩
      simp only at hne ⊢
      rw [if_neg hne]
    have hobj : c.objects = objs.mapIdx (fun i n =>
        if 1 < objs.count n then PName.str (intText n ++ '_' :: Nat.toDigits 10 i) else .int n) := by
      cases hc; exact hren
    refine ⟨hwf, hobj, ?_⟩
    intro i j k ri rj ni nj hi hj hci hcj hri hrj hki hkj
    have hrows : c.nd.rows = table := by cases hc; rfl
    have hat : c.attributes = atts := by cases hc; exact renameAll_nodup hatts
    have hk : k < c.attributes.length := by
      rw [hat, ← h2 ri (List.mem_of_getElem? hri)]
      exact (List.getElem?_eq_some_iff.1 hki).1
    obtain ⟨a, ha⟩ : ∃ a, c.attributes[k]? = some a := ⟨_, List.getElem?_eq_getElem hk⟩
    have hoi : c.objects[i]? = some (.str (intText ni ++ '_' :: Nat.toDigits 10 i)) := by
      rw [hobj, List.getElem?_mapIdx, hi, Option.map_some, if_pos hci]
    have hoj : c.objects[j]? = some (.int nj) := by
      rw [hobj, List.getElem?_mapIdx, hj, Option.map_some, if_neg (by omega)]
    refine (C126_lattice E hwf).2.1.2 (.inl ⟨_, _, a, ⟨i, k, ri, hoi, ha, hrows ▸ hri, hki⟩,
      ⟨j, k, rj, hoj, ha, hrows ▸ hrj, hkj⟩, by simp [Kinded.kind]⟩)
  · rw [h2] at hc; cases hc

/-! ### Examples -/

/-- Orders and texts for the examples. -/
noncomputable def demoEnv : SortEnv PName (List Char) :=
  ⟨.insertion, .any _, .any _, PName.text, fun s => s⟩

end Ctx
end

instance : Kinded (List Char) where
  kind _ := 0
  lt a b := decide (a < b)
  irrefl x := by simp
  trans x y z _ _ := by simpa using lt_trans
  total x y _ h := by simpa using lt_or_gt_of_ne h

namespace Ctx

/-- Two objects with the name 1, and one with the name 2; all share an attribute. -/
def mixedDemo : Ctx PName (List Char) := ⟨[.str "1_0".toList, .str "1_1".toList, .int 2], ["a".toList], ⟨some 1, [[true], [true], [true]]⟩⟩

theorem mixedDemo_make : make [[true], [true], [true]] ([1, 1, 2].map PName.int) ["a".toList] = .ok mixedDemo := by
  decide +kernel

example : makeLatticeSorted demoEnv mixedDemo = .error .typeError :=
  (C126_renamed demoEnv _ _ _ (by decide +kernel) _ mixedDemo_make).2.2 0 2 0 [true] [true] 1 2 rfl rfl (by decide) (by decide)
    rfl rfl rfl rfl

/-- The same table with three different integers: no exception. -/
example : ∃ L, makeLatticeSorted demoEnv (⟨[.int 1, .int 3, .int 2], ["a".toList], ⟨some 1, [[true], [true], [true]]⟩⟩ :
    Ctx PName (List Char)) = .ok L := by
  have hw : Ctx.WFw (⟨[.int 1, .int 3, .int 2], ["a".toList], ⟨some 1, [[true], [true], [true]]⟩⟩ :
    Ctx PName (List Char)) := by constructor <;> decide +kernel
  obtain ⟨-, h2, h3⟩ := C126_lattice demoEnv hw
  obtain ⟨L, hL, -⟩ := makeLattice_ok hw
  refine ⟨L, ?_⟩
  rw [h3, hL]
  rw [Ne, h2]
  have hk : ∀ o : PName, o ∈ [PName.int 1, .int 3, .int 2] → Kinded.kind o = 0 := by
    intro o ho
    simp only [List.mem_cons, List.not_mem_nil, or_false] at ho
    rcases ho with rfl | rfl | rfl <;> rfl
  rintro (⟨o, o', m, h1, h2, hne⟩ | ⟨o, m, m', h1, h2, hne⟩)
  · exact hne ((hk o (Inc.mem h1).1).trans (hk o' (Inc.mem h2).1).symm)
  · exact hne rfl

section
/-- Numbers as names: even and odd ones cannot be compared. -/
local instance {n : ℕ} : Kinded (Fin n) where
  kind i := i.val % 2
  lt i j := decide (i < j)
  irrefl i := by simp
  trans i j k _ _ := by simpa using lt_trans
  total i j _ h := by simpa using lt_or_gt_of_ne h

/-- Three attributes. -/
def finEnv : SortEnv (Fin 2) (Fin 3) :=
  ⟨.insertion, .fin 2, .fin 3, fun i => Nat.toDigits 10 i, fun i => Nat.toDigits 10 i⟩

-- sorting, strings
example : sortPy .insertion [(2 : Fin 5), 4, 0] = .ok [0, 2, 4] := by decide +kernel
example : sortPy .insertion [(2 : Fin 5), 4, 1, 0] = .error .typeError := by decide +kernel
example : conceptText finEnv ⟨{0}, {2, 0}⟩ = .ok "([0], [0, 2])".toList := by decide +kernel
example : conceptText finEnv ⟨{0, 1}, ∅⟩ = .ok "(G, [])".toList := by decide +kernel
example : conceptText finEnv ⟨∅, {0, 1}⟩ = .ok "([], M)".toList := by decide +kernel
example : conceptText finEnv ⟨{0}, {0, 1}⟩ = .error .typeError := by decide +kernel
example : impText .insertion (.fin 5) (fun _ => none) (fun i => Nat.toDigits 10 i) ⟨{2, 0}, {2, 3}⟩ =
    .ok "0, 2 => 3".toList := by decide +kernel
example : impText .insertion (.fin 5) (fun i => some (Nat.toDigits 10 i)) (fun _ => []) ⟨{2, 0}, {4, 3}⟩ =
    .error .typeError := by decide +kernel

-- an object with attributes 0 and 1, but not 2
example : dgBasisSorted finEnv ⟨[0, 1], [0, 1, 2], ⟨some 3, [[true, true, false], [false, false, true]]⟩⟩ simpleClosure []
    (fun _ => true) = .error .typeError := by decide +kernel

-- two kinds of attributes, each object has one of them: no closure with both is computed
example : dgBasisSorted (⟨.insertion, .fin 2, .fin 2, fun _ => [], fun _ => []⟩ : SortEnv (Fin 2) (Fin 2))
    ⟨[0, 1], [0, 1], ⟨some 2, [[true, false], [false, true]]⟩⟩ simpleClosure [] (fun _ => true) = .ok [] := by
  decide +kernel

-- one object without attributes: the pseudo-intent {1} is in no intent
example : dgBasisSorted (⟨.insertion, .fin 2, .fin 2, fun _ => [], fun _ => []⟩ : SortEnv (Fin 2) (Fin 2))
    ⟨[0], [0, 1], ⟨some 2, [[false, false]]⟩⟩ simpleClosure [] (fun _ => true) = .error .typeError := by
  decide +kernel

end

end Ctx
