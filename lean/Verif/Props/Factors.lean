/-
Properties C46-C51: factorisation of contexts.
-/
import Verif.Lemmas.Factors
import Verif.Props.Derived
import Verif.Props.Reduce

set_option linter.unusedSectionVars false

variable {α β : Type} [DecidableEq α] [DecidableEq β]

open Spec

/-- Every run of `algorithm2` on a context with a cross. -/
theorem algorithm2_main {c : Ctx α β} (h : c.WFw) (hx : ∃ g m, c.Inc g m)
    (ordA : Finset (α × β) → Finset β → SetOrder β) (ordO : SetOrder α) (fid : ℚ) :
    ∃ ys r, algorithm2 c ordA ordO fid = some (ys, r) ∧
      ys.length ≤ (crosses c.G c.M c.Inc).card ∧
      (∀ (i : ℕ) y, ys[i]? = some y →
        IsConcept c.G c.M c.Inc y.1.extent y.1.intent ∧
        0 < newCrosses c.G c.M c.Inc ((ys.take i).map rectOf) (rectOf y) ∧
        y.2 = (newCrosses c.G c.M c.Inc ((ys.take i).map rectOf) (rectOf y) : ℚ) /
          (crosses c.G c.M c.Inc).card ∧
        coveredFraction c.G c.M c.Inc ((ys.take i).map rectOf) < fid) ∧
      (ys.map Prod.snd).sum = coveredFraction c.G c.M c.Inc (ys.map rectOf) ∧
      (fid ≤ 1 → r = .ok () ∧ fid ≤ coveredFraction c.G c.M c.Inc (ys.map rectOf)) ∧
      (1 < fid → r = .error .assertionError ∧ coveredFraction c.G c.M c.Inc (ys.map rectOf) = 1) := by
  obtain ⟨g, m, hI⟩ := hx
  have hne : c.objects ≠ [] := List.ne_nil_of_mem hI.mem.1
  obtain ⟨ps, hp, -, hmem⟩ := Ctx.mem_pairs h
  have hU : ps.toFinset = uncovered c.G c.M c.Inc [] := by
    ext ⟨o, a⟩
    rw [List.mem_toFinset, hmem, mem_uncovered]
    simp [InSome]
  have hU' : uncovered c.G c.M c.Inc [] = crosses c.G c.M c.Inc := by
    ext p
    rw [mem_uncovered, mem_crosses]; simp [InSome]
  have hn : (crosses c.G c.M c.Inc).card ≠ 0 := by
    rw [Finset.card_ne_zero]; exact ⟨(g, m), (mem_crosses _).2 hI⟩
  obtain ⟨ys, r, e1, e2, e3, e4, e5, e6⟩ := alg2Loop_ok h hne ordA ordO fid hn
    ((crosses c.G c.M c.Inc).card + 1) [] (by rw [hU']; omega)
  refine ⟨ys, r, ?_, ?_, ?_, ?_, ?_, ?_⟩
  · unfold algorithm2
    rw [hp]
    simp only
    rw [hU]
    conv_lhs => rw [show (uncovered c.G c.M c.Inc []).card = (crosses c.G c.M c.Inc).card by rw [hU']]
    exact e1
  · rwa [hU'] at e2
  · simpa using e3
  · rw [e4]
    have : coveredFraction c.G c.M c.Inc [] = 0 := by
      rw [coveredFraction_eq, hU']; simp
    rw [this]; simp
  · simpa using e5
  · simpa using e6

/-! ### C46 -/

/-- For every context with a cross and every fidelity at most 1, `algorithm2` ends without an exception
and each factor is a formal concept with a cross in it that no earlier factor covers. -/
theorem C46_factors_are_concepts {c : Ctx α β} (h : c.WFw) (hx : ∃ g m, c.Inc g m)
    (ordA : Finset (α × β) → Finset β → SetOrder β) (ordO : SetOrder α) {fid : ℚ} (hfid : fid ≤ 1) :
    ∃ ys, algorithm2 c ordA ordO fid = some (ys, .ok ()) ∧
      ∀ (i : ℕ) y, ys[i]? = some y → IsConcept c.G c.M c.Inc y.1.extent y.1.intent ∧
        ∃ g ∈ y.1.extent, ∃ m ∈ y.1.intent, c.Inc g m ∧
          ∀ (k : ℕ) z, k < i → ys[k]? = some z → ¬ (g ∈ z.1.extent ∧ m ∈ z.1.intent) := by
  obtain ⟨ys, r, e1, -, e3, -, e5, -⟩ := algorithm2_main h hx ordA ordO fid
  obtain ⟨rfl, -⟩ := e5 hfid
  refine ⟨ys, e1, fun i y hy => ?_⟩
  obtain ⟨h1, h2, -⟩ := e3 i y hy
  refine ⟨h1, ?_⟩
  unfold newCrosses at h2
  obtain ⟨⟨g, m⟩, hp⟩ := Finset.card_pos.1 h2
  rw [@Finset.mem_filter, mem_crosses] at hp
  refine ⟨g, hp.2.1, m, hp.2.2.1, hp.1, fun k z hk hz hgm => hp.2.2.2 ?_⟩
  refine ⟨(z.1.extent, z.1.intent), ?_, hgm⟩
  rw [List.mem_map]
  refine ⟨z, ?_, rfl⟩
  rw [List.mem_iff_getElem?]
  exact ⟨k, by rw [List.getElem?_take_of_lt hk, hz]⟩

/-! ### C47 -/

/-- With fidelity 1 the rectangles of the factors cover exactly the incidence relation; there are at most
as many factors as crosses. -/
theorem C47_exact_cover {c : Ctx α β} (h : c.WFw) (hx : ∃ g m, c.Inc g m)
    (ordA : Finset (α × β) → Finset β → SetOrder β) (ordO : SetOrder α) :
    ∃ ys, algorithm2 c ordA ordO 1 = some (ys, .ok ()) ∧
      (∀ g m, c.Inc g m ↔ ∃ y ∈ ys, g ∈ y.1.extent ∧ m ∈ y.1.intent) ∧
      ys.length ≤ (crosses c.G c.M c.Inc).card := by
  obtain ⟨ys, r, e1, e2, e3, -, e5, -⟩ := algorithm2_main h hx ordA ordO 1
  obtain ⟨rfl, hc⟩ := e5 le_rfl
  refine ⟨ys, e1, fun g m => ⟨fun hI => ?_, ?_⟩, e2⟩
  · have hn : (0 : ℚ) < (crosses c.G c.M c.Inc).card := by
      have : 0 < (crosses c.G c.M c.Inc).card := Finset.card_pos.2 ⟨(g, m), (mem_crosses _).2 hI⟩
      exact_mod_cast this
    rw [coveredFraction_eq, le_div_iff₀ hn, one_mul] at hc
    have h0 : (uncovered c.G c.M c.Inc (ys.map rectOf)).card = 0 := by
      have : ((uncovered c.G c.M c.Inc (ys.map rectOf)).card : ℚ) ≤ 0 := by linarith
      exact_mod_cast le_antisymm this (by positivity)
    rw [Finset.card_eq_zero] at h0
    have hnot : (g, m) ∉ uncovered c.G c.M c.Inc (ys.map rectOf) := by rw [h0]; simp
    rw [mem_uncovered, not_and, not_not] at hnot
    obtain ⟨z, hz, h1, h2⟩ := hnot hI
    rw [List.mem_map] at hz
    obtain ⟨y, hy, rfl⟩ := hz
    exact ⟨y, hy, h1, h2⟩
  · rintro ⟨y, hy, hg, hm⟩
    obtain ⟨i, hi⟩ := List.mem_iff_getElem?.1 hy
    exact (((e3 i y hi).1.2 g).1 hg).2 m hm

/-! ### C48 -/

/-- The fraction reported with a factor is the number of crosses it covers first divided by the number of
all crosses; the fractions add up to the covered fraction, which is below the requested fidelity before each
factor and reaches it at the end. Requests above 1 end in the internal assertion after everything is covered. -/
theorem C48_coverage {c : Ctx α β} (h : c.WFw) (hx : ∃ g m, c.Inc g m)
    (ordA : Finset (α × β) → Finset β → SetOrder β) (ordO : SetOrder α) (fid : ℚ) :
    ∃ ys r, algorithm2 c ordA ordO fid = some (ys, r) ∧
      (∀ (i : ℕ) y, ys[i]? = some y →
        y.2 = (newCrosses c.G c.M c.Inc ((ys.take i).map rectOf) (rectOf y) : ℚ) /
          (crosses c.G c.M c.Inc).card ∧
        coveredFraction c.G c.M c.Inc ((ys.take i).map rectOf) < fid) ∧
      (ys.map Prod.snd).sum = coveredFraction c.G c.M c.Inc (ys.map rectOf) ∧
      (fid ≤ 1 → r = .ok () ∧ fid ≤ coveredFraction c.G c.M c.Inc (ys.map rectOf)) ∧
      (1 < fid → r = .error .assertionError ∧ coveredFraction c.G c.M c.Inc (ys.map rectOf) = 1) := by
  obtain ⟨ys, r, e1, -, e3, e4, e5, e6⟩ := algorithm2_main h hx ordA ordO fid
  exact ⟨ys, r, e1, fun i y hy => (e3 i y hy).2.2, e4, e5, e6⟩

/-- Without a cross the first comparison divides by zero. -/
theorem C48_no_cross {c : Ctx α β} (h : c.WFw) (hx : ¬ ∃ g m, c.Inc g m)
    (ordA : Finset (α × β) → Finset β → SetOrder β) (ordO : SetOrder α) (fid : ℚ) :
    algorithm2 c ordA ordO fid = some ([], .error .zeroDivisionError) := by
  obtain ⟨ps, hp, -, hmem⟩ := Ctx.mem_pairs h
  have : ps = [] := by
    rw [List.eq_nil_iff_forall_not_mem]
    rintro ⟨o, a⟩ hoa
    exact hx ⟨o, a, (hmem o a).1 hoa⟩
  unfold algorithm2
  rw [hp, this]
  rfl

/-! ### C49 -/

section factorContexts
variable {γ : Type} [DecidableEq γ]

theorem elInd_ok {d : List γ} (hd : d.Nodup) (x : γ) :
    d <+: (elInd d x).1 ∧ (elInd d x).1.Nodup ∧ (∀ y, y ∈ (elInd d x).1 ↔ y ∈ d ∨ y = x) ∧
      (elInd d x).1[(elInd d x).2]? = some x := by
  unfold elInd
  cases hk : d.idxOf? x with
  | some k =>
    simp only
    rw [List.idxOf?, List.findIdx?_eq_some_iff_getElem] at hk
    obtain ⟨hlt, he, _⟩ := hk
    have hx : d[k] = x := eq_of_beq he
    refine ⟨List.prefix_refl d, hd, fun y => ⟨.inl, ?_⟩, by rw [List.getElem?_eq_getElem hlt, hx]⟩
    rintro (hy | rfl)
    · exact hy
    · rw [← hx]; exact List.getElem_mem hlt
  | none =>
    simp only
    rw [List.idxOf?, List.findIdx?_eq_none_iff] at hk
    have hx : x ∉ d := fun hx => by have := hk x hx; simp at this
    refine ⟨List.prefix_append _ _, ?_, by simp, by simp⟩
    rw [List.nodup_append]
    exact ⟨hd, by simp, by simpa using fun a ha (he : a = x) => hx (he ▸ ha)⟩

theorem indRow_ok {d : List γ} (hd : d.Nodup) (xs : List γ) :
    d <+: (indRow d xs).1 ∧ (indRow d xs).1.Nodup ∧ (∀ y, y ∈ (indRow d xs).1 ↔ y ∈ d ∨ y ∈ xs) ∧
      ∀ k, k ∈ (indRow d xs).2 ↔ ∃ x ∈ xs, (indRow d xs).1[k]? = some x := by
  have gen : ∀ (xs : List γ) (d : List γ) (s : Finset ℕ) (seen : List γ), d.Nodup →
      (∀ k, k ∈ s ↔ ∃ x ∈ seen, d[k]? = some x) → (∀ x ∈ seen, x ∈ d) →
      ∀ r, r = xs.foldl (fun st x => ((elInd st.1 x).1, insert (elInd st.1 x).2 st.2)) (d, s) →
      d <+: r.1 ∧ r.1.Nodup ∧ (∀ y, y ∈ r.1 ↔ y ∈ d ∨ y ∈ xs) ∧
        ∀ k, k ∈ r.2 ↔ ∃ x ∈ seen ++ xs, r.1[k]? = some x := by
    intro xs
    induction xs with
    | nil => rintro d s seen hd hs - r rfl; exact ⟨List.prefix_refl _, hd, by simp, by simpa using hs⟩
    | cons x xs ih =>
      rintro d s seen hd hs hseen r rfl
      obtain ⟨e1, e2, e3, e4⟩ := elInd_ok hd x
      have key : ∀ (y : γ) (k : ℕ), y ∈ d → ((elInd d x).1[k]? = some y ↔ d[k]? = some y) := by
        intro y k hy
        obtain ⟨i, hi⟩ := List.mem_iff_getElem?.1 hy
        have hi' : (elInd d x).1[i]? = some y := by
          obtain ⟨t, ht⟩ := e1
          rw [← ht, List.getElem?_append_left (Ctx.lt_of_getElem? hi), hi]
        constructor
        · intro hk
          rw [nodup_idx e2 hk hi']; exact hi
        · intro hk
          rw [nodup_idx hd hk hi]; exact hi'
      obtain ⟨i1, i2, i3, i4⟩ := ih (elInd d x).1 (insert (elInd d x).2 s) (seen ++ [x]) e2 (by
        intro k
        rw [Finset.mem_insert, hs]
        constructor
        · rintro (rfl | ⟨y, hy, hk⟩)
          · exact ⟨x, by simp, e4⟩
          · exact ⟨y, by simp [hy], (key y k (hseen y hy)).2 hk⟩
        · rintro ⟨y, hy, hk⟩
          rw [List.mem_append, List.mem_singleton] at hy
          rcases hy with hy | rfl
          · exact .inr ⟨y, hy, (key y k (hseen y hy)).1 hk⟩
          · exact .inl (nodup_idx e2 hk e4)) (by
        intro y hy
        rw [List.mem_append, List.mem_singleton] at hy
        rw [e3]
        rcases hy with hy | rfl
        · exact .inl (hseen y hy)
        · exact .inr rfl) _ rfl
      refine ⟨e1.trans i1, i2, fun y => ?_, fun k => ?_⟩
      · rw [List.foldl_cons, i3, e3, List.mem_cons]; tauto
      · rw [List.foldl_cons, i4]; simp
  have := gen xs d ∅ [] hd (by simp) (by simp) (indRow d xs) rfl
  simpa using this

theorem indTable_ok {d : List γ} (hd : d.Nodup) (l : List (List γ)) :
    d <+: (indTable d l).1 ∧ (indTable d l).1.Nodup ∧
      (∀ y, y ∈ (indTable d l).1 ↔ y ∈ d ∨ ∃ xs ∈ l, y ∈ xs) ∧ (indTable d l).2.length = l.length ∧
      ∀ (i : ℕ) xs row, l[i]? = some xs → (indTable d l).2[i]? = some row →
        ∀ (k : ℕ) y, (indTable d l).1[k]? = some y → (k ∈ row ↔ y ∈ xs) := by
  induction l generalizing d with
  | nil => exact ⟨List.prefix_refl _, hd, by simp [indTable], rfl, by simp [indTable]⟩
  | cons xs l ih =>
    obtain ⟨e1, e2, e3, e4⟩ := indRow_ok hd xs
    obtain ⟨i1, i2, i3, i4, i5⟩ := ih e2
    have hdef : indTable d (xs :: l) =
      ((indTable (indRow d xs).1 l).1, (indRow d xs).2 :: (indTable (indRow d xs).1 l).2) := rfl
    rw [hdef]
    refine ⟨e1.trans i1, i2, fun y => ?_, by simp [i4], ?_⟩
    · simp only [i3, e3, List.mem_cons]
      constructor
      · rintro ((h | h) | ⟨ys, h1, h2⟩)
        · exact .inl h
        · exact .inr ⟨xs, .inl rfl, h⟩
        · exact .inr ⟨ys, .inr h1, h2⟩
      · rintro (h | ⟨ys, rfl | h1, h2⟩)
        · exact .inl (.inl h)
        · exact .inl (.inr h2)
        · exact .inr ⟨ys, h1, h2⟩
    · intro i zs row hzs hrow k y hk
      cases i with
      | succ i =>
        simp only [List.getElem?_cons_succ] at hzs hrow
        exact i5 i zs row hzs hrow k y hk
      | zero =>
        simp only [List.getElem?_cons_zero, Option.some.injEq] at hzs hrow
        subst hzs; subst hrow
        rw [e4]
        have key : ∀ z ∈ (indRow d xs).1, ∀ k : ℕ, (indRow d xs).1[k]? = some z ↔
            (indTable (indRow d xs).1 l).1[k]? = some z := by
          intro z hz k
          obtain ⟨i, hi⟩ := List.mem_iff_getElem?.1 hz
          have hi' : (indTable (indRow d xs).1 l).1[i]? = some z := by
            obtain ⟨t, ht⟩ := i1
            rw [← ht, List.getElem?_append_left (Ctx.lt_of_getElem? hi), hi]
          constructor
          · intro hk; rw [nodup_idx e2 hk hi]; exact hi'
          · intro hk; rw [nodup_idx i2 hk hi']; exact hi
        constructor
        · rintro ⟨x, hx, hk'⟩
          have := (key x ((e3 x).2 (.inr hx)) k).1 hk'
          simp only at hk
          rw [hk, Option.some.injEq] at this
          exact this ▸ hx
        · intro hy
          exact ⟨y, hy, (key y ((e3 y).2 (.inr hy)) k).2 hk⟩

theorem map_range_eq {δ ε : Type} {l : List δ} {F : ℕ → ε} {G : δ → ε}
    (h : ∀ (k : ℕ) x, l[k]? = some x → F k = G x) : (List.range l.length).map F = l.map G := by
  apply List.ext_getElem?
  intro k
  rw [List.getElem?_map, List.getElem?_map]
  by_cases hk : k < l.length
  · rw [List.getElem?_range hk, List.getElem?_eq_getElem hk]
    simp only [Option.map_some]
    rw [h k l[k] (List.getElem?_eq_getElem hk)]
  · rw [List.getElem?_eq_none (by simpa using hk), List.getElem?_eq_none (by simpa using hk)]; rfl

end factorContexts

/-- `make_factor_cxts` on a list of factors with at least one object: the two contexts relate each factor to
its extent and intent, and their product has `(g, m)` exactly if some factor has `g` and `m`, whatever the
iteration orders of the sets. -/
theorem C49_factor_contexts {φ : Type} [DecidableEq φ] [PyName α] [PyName β] [PyName φ] (fname : ℕ → φ)
    (hf : Function.Injective fname) (ordO : ℕ → SetOrder α) (ordA : ℕ → SetOrder β)
    (fs : List (Concept α β)) (hne : ∃ x ∈ fs, x.extent ≠ ∅) :
    ∃ l r p, makeFactorCxts fname ordO ordA fs = .ok (l, r) ∧ l.mul r = .ok p ∧ l.WF ∧ r.WF ∧
      (∀ (i : ℕ) x, fs[i]? = some x → (∀ g, l.Inc g (fname i) ↔ g ∈ x.extent) ∧
        ∀ m, r.Inc (fname i) m ↔ m ∈ x.intent) ∧
      (∀ g, g ∈ p.objects ↔ ∃ x ∈ fs, g ∈ x.extent) ∧
      (∀ m, m ∈ p.attributes ↔ ∃ x ∈ fs, m ∈ x.intent) ∧
      ∀ g m, p.Inc g m ↔ ∃ x ∈ fs, g ∈ x.extent ∧ m ∈ x.intent := by
  set names := (List.range fs.length).map fname with hnames
  have hnn : names.Nodup := List.nodup_range.map hf
  obtain ⟨-, o1, o2, o3, o4⟩ := indTable_ok (d := ([] : List α)) (by simp)
    (fs.mapIdx fun i x => (ordO i).enum x.extent)
  obtain ⟨-, a1, a2, a3, a4⟩ := indTable_ok (d := ([] : List β)) (by simp)
    (fs.mapIdx fun i x => (ordA i).enum x.intent)
  set tb := indTable ([] : List α) (fs.mapIdx fun i x => (ordO i).enum x.extent) with htb
  set ta := indTable ([] : List β) (fs.mapIdx fun i x => (ordA i).enum x.intent) with hta
  rw [List.length_mapIdx] at o3 a3
  let relO : α → φ → Bool := fun g f => decide (∃ i : Fin fs.length, fname i = f ∧ g ∈ fs[i].extent)
  let relA : φ → β → Bool := fun f m => decide (∃ i : Fin fs.length, fname i = f ∧ m ∈ fs[i].intent)
  have hrelO : ∀ (i : ℕ) (x : Concept α β) (g : α), fs[i]? = some x → (relO g (fname i) = true ↔ g ∈ x.extent) := by
    intro i x g hi
    obtain ⟨hlt, he⟩ := List.getElem?_eq_some_iff.1 hi
    simp only [relO, decide_eq_true_eq]
    constructor
    · rintro ⟨k, hk, hg⟩
      have := hf hk
      subst this
      have : fs[k] = x := he
      rwa [this] at hg
    · intro hg
      exact ⟨⟨i, hlt⟩, rfl, by rw [← he] at hg; exact hg⟩
  have hrelA : ∀ (i : ℕ) (x : Concept α β) (m : β), fs[i]? = some x → (relA (fname i) m = true ↔ m ∈ x.intent) := by
    intro i x g hi
    obtain ⟨hlt, he⟩ := List.getElem?_eq_some_iff.1 hi
    simp only [relA, decide_eq_true_eq]
    constructor
    · rintro ⟨k, hk, hg⟩
      have := hf hk
      subst this
      have : fs[k] = x := he
      rwa [this] at hg
    · intro hg
      exact ⟨⟨i, hlt⟩, rfl, by rw [← he] at hg; exact hg⟩
  have hidx : ∀ (i : ℕ) {γ : Type} (t : List γ) (y : γ), t.length = fs.length → t[i]? = some y →
      ∃ x, fs[i]? = some x := by
    intro i γ t y ht hy
    have := Ctx.lt_of_getElem? hy
    exact ⟨fs[i], List.getElem?_eq_getElem (by omega)⟩
  have hne' : tb.2 ≠ [] := by
    intro he
    obtain ⟨x, hx, -⟩ := hne
    rw [he, List.length_nil] at o3
    rw [List.length_eq_zero_iff.1 o3.symm] at hx
    simp at hx
  have htO : ((List.range tb.1.length).map fun x => tb.2.map fun row => decide (x ∈ row)) =
      tb.1.map fun g => names.map (relO g) := by
    apply map_range_eq
    intro k g hk
    rw [hnames, List.map_map, ← o3]
    symm
    apply map_range_eq
    intro i row hrow
    obtain ⟨x, hx⟩ := hidx i _ _ o3 hrow
    have := o4 i _ row (by rw [List.getElem?_mapIdx, hx]; rfl) hrow k g hk
    rw [(ordO i).mem, ← hrelO i x g hx] at this
    simp only [Function.comp_apply]
    rw [Bool.eq_iff_iff, decide_eq_true_iff (p := k ∈ row)]; exact this.symm
  have htA : (ta.2.map fun row => (List.range ta.1.length).map fun x => decide (x ∈ row)) =
      names.map fun f => ta.1.map (relA f) := by
    rw [hnames, List.map_map, ← a3]
    symm
    apply map_range_eq
    intro i row hrow
    simp only [Function.comp_apply]
    symm
    apply map_range_eq
    intro k m hk
    obtain ⟨x, hx⟩ := hidx i _ _ a3 hrow
    have := a4 i _ row (by rw [List.getElem?_mapIdx, hx]; rfl) hrow k m hk
    rw [(ordA i).mem, ← hrelA i x m hx] at this
    rw [Bool.eq_iff_iff, decide_eq_true_eq]; exact this
  obtain ⟨l, l1, l2, -, l4⟩ := Ctx.make_rel (objs := tb.1) (atts := names) relO o1 hnn
  obtain ⟨r, r1, r2, -, r4⟩ := Ctx.make_rel (objs := names) (atts := ta.1) relA hnn a1
  have hmemO : ∀ g, g ∈ tb.1 ↔ ∃ x ∈ fs, g ∈ x.extent := by
    intro g
    rw [o2]
    simp only [List.not_mem_nil, false_or, List.mem_mapIdx]
    constructor
    · rintro ⟨xs, ⟨i, hi, rfl⟩, hg⟩
      exact ⟨fs[i], List.getElem_mem hi, by simpa using hg⟩
    · rintro ⟨x, hx, hg⟩
      obtain ⟨i, hi, rfl⟩ := List.getElem_of_mem hx
      exact ⟨_, ⟨i, hi, rfl⟩, by simpa using hg⟩
  have hmemA : ∀ g, g ∈ ta.1 ↔ ∃ x ∈ fs, g ∈ x.intent := by
    intro g
    rw [a2]
    simp only [List.not_mem_nil, false_or, List.mem_mapIdx]
    constructor
    · rintro ⟨xs, ⟨i, hi, rfl⟩, hg⟩
      exact ⟨fs[i], List.getElem_mem hi, by simpa using hg⟩
    · rintro ⟨x, hx, hg⟩
      obtain ⟨i, hi, rfl⟩ := List.getElem_of_mem hx
      exact ⟨_, ⟨i, hi, rfl⟩, by simpa using hg⟩
  have hlO : l.objects ≠ [] := by
    rw [l4.objs]
    obtain ⟨x, hx, hxe⟩ := hne
    obtain ⟨g, hg⟩ := Finset.nonempty_iff_ne_empty.2 hxe
    exact List.ne_nil_of_mem ((hmemO g).2 ⟨x, hx, hg⟩)
  have hlA : l.attributes ≠ [] := by
    rw [l4.atts]
    obtain ⟨x, hx, hxe⟩ := hne
    simp only [hnames, ne_eq, List.map_eq_nil_iff, List.range_eq_nil]
    intro h0
    rw [List.length_eq_zero_iff.1 h0] at hx; simp at hx
  obtain ⟨p, p1, p2, p3, p4, p5⟩ := Ctx.C08_mul_partial l2.toWFw r2.toWFw (by rw [l4.atts, r4.objs]) hlO hlA
  have hname : ∀ (i : ℕ) x, fs[i]? = some x → fname i ∈ names := by
    intro i x hx
    rw [hnames, List.mem_map]
    exact ⟨i, List.mem_range.2 (Ctx.lt_of_getElem? hx), rfl⟩
  have hincO : ∀ (i : ℕ) x, fs[i]? = some x → ∀ g, l.Inc g (fname i) ↔ g ∈ x.extent := by
    intro i x hx g
    rw [l4.inc]
    constructor
    · rintro ⟨-, -, hr⟩; exact (hrelO i x g hx).1 hr
    · intro hg
      exact ⟨(hmemO g).2 ⟨x, List.mem_of_getElem? hx, hg⟩, hname i x hx, (hrelO i x g hx).2 hg⟩
  have hincA : ∀ (i : ℕ) x, fs[i]? = some x → ∀ m, r.Inc (fname i) m ↔ m ∈ x.intent := by
    intro i x hx g
    rw [r4.inc]
    constructor
    · rintro ⟨-, -, hr⟩; exact (hrelA i x g hx).1 hr
    · intro hg
      exact ⟨hname i x hx, (hmemA g).2 ⟨x, List.mem_of_getElem? hx, hg⟩, (hrelA i x g hx).2 hg⟩
  refine ⟨l, r, p, ?_, p1, l2, r2, fun i x hx => ⟨hincO i x hx, hincA i x hx⟩, ?_, ?_, ?_⟩
  · unfold makeFactorCxts
    simp only [← htb, ← hta, ← hnames, if_neg hne', htO, htA, l1, r1, py_ok_bind]
  · intro g; rw [p3, l4.objs]; exact hmemO g
  · intro m; rw [p4, r4.atts]; exact hmemA m
  · intro g m
    rw [p5]
    constructor
    · rintro ⟨f, h1, h2⟩
      have hf' := h1.mem.2
      rw [l4.atts, hnames, List.mem_map] at hf'
      obtain ⟨i, hi, rfl⟩ := hf'
      rw [List.mem_range] at hi
      have hx := List.getElem?_eq_getElem hi
      exact ⟨fs[i], List.getElem_mem hi, (hincO i _ hx g).1 h1, (hincA i _ hx m).1 h2⟩
    · rintro ⟨x, hx, hg, hm⟩
      obtain ⟨i, hi⟩ := List.mem_iff_getElem?.1 hx
      exact ⟨fname i, (hincO i x hi g).2 hg, (hincA i x hi m).2 hm⟩

/-- Together with `algorithm2`: the product of the factor contexts has the relation of the context. -/
theorem C49_rebuild {φ : Type} [DecidableEq φ] [PyName α] [PyName β] [PyName φ] (fname : ℕ → φ)
    (hf : Function.Injective fname) (ordO' : ℕ → SetOrder α) (ordA' : ℕ → SetOrder β)
    {c : Ctx α β} (h : c.WFw) (hx : ∃ g m, c.Inc g m)
    (ordA : Finset (α × β) → Finset β → SetOrder β) (ordO : SetOrder α) :
    ∃ ys l r p, algorithm2 c ordA ordO 1 = some (ys, .ok ()) ∧
      makeFactorCxts fname ordO' ordA' (ys.map Prod.fst) = .ok (l, r) ∧ l.mul r = .ok p ∧
      ∀ g m, p.Inc g m ↔ c.Inc g m := by
  obtain ⟨ys, e1, e2, -⟩ := C47_exact_cover h hx ordA ordO
  obtain ⟨g, m, hI⟩ := hx
  obtain ⟨y, hy, hg, hm⟩ := (e2 g m).1 hI
  obtain ⟨l, r, p, h1, h2, -, -, -, -, -, h3⟩ := C49_factor_contexts fname hf ordO' ordA' (ys.map Prod.fst)
    ⟨y.1, List.mem_map.2 ⟨y, hy, rfl⟩, Finset.ne_empty_of_mem hg⟩
  refine ⟨ys, l, r, p, e1, h1, h2, fun g m => ?_⟩
  rw [h3, e2]
  simp

/-! ### C50 -/

/-- C50 fails: with disjoint object and attribute names, `algorithm2_weighted` on a context with a cross and
any positive fidelity raises AssertionError before the first factor. -/
theorem C50_weighted_violated {ν : Type} [DecidableEq ν] {c : Ctx ν ν} (h : c.WFw) (hx : ∃ g m, c.Inc g m)
    (hdis : ∀ x ∈ c.objects, x ∉ c.attributes)
    (ordA : Finset (ν × ν) → Finset ν → SetOrder ν) (ordO : SetOrder ν) {fid : ℚ} (hfid : 0 < fid) :
    algorithm2Weighted c ordA ordO fid = some ([], .error .assertionError) := by
  obtain ⟨g, m, hI⟩ := hx
  have hne : c.objects ≠ [] := List.ne_nil_of_mem hI.mem.1
  have hna : c.attributes ≠ [] := List.ne_nil_of_mem hI.mem.2
  obtain ⟨ps, hp, -, hmem⟩ := Ctx.mem_pairs h
  have hn : ps.toFinset.card ≠ 0 := by
    rw [Finset.card_ne_zero]; exact ⟨(g, m), by simpa using (hmem g m).2 hI⟩
  unfold algorithm2Weighted
  rw [hp]
  simp only [weightedLoop]
  have hdiv : pyDiv ((ps.toFinset.card : ℤ) - ps.toFinset.card) ps.toFinset.card = .ok 0 := by
    unfold pyDiv
    rw [if_neg (by exact_mod_cast hn)]; simp
  rw [hdiv]
  simp only [if_pos hfid]
  have hin : weightedInner c (ordA ps.toFinset) ordO ps.toFinset (c.attributes.length + 2) ∅ 0 ∅ ∅ 0 =
      some (.ok (∅, ∅, ∅, 0)) := by
    unfold weightedInner
    have hopr : c.oprime ((ordA ps.toFinset ∅).enum ∅) = .ok c.attributes.toFinset := by
      rw [h.enum_oprime _ (by simp)]
      congr 1
      ext a
      rw [h.mem_upF]; simp
    rw [hopr, py_ok_bind]
    rw [mapM_ok (g := fun j => ((0 : ℚ), j))]
    · rw [py_ok_bind]
      cases hm : pyMaxKey (((ordA ps.toFinset ∅).enum (c.attributes.toFinset \ ∅)).map fun j => ((0 : ℚ), j)) with
      | none => rfl
      | some x =>
        have hx := (pyMaxKey_some hm).1
        rw [List.mem_map] at hx
        obtain ⟨j, -, rfl⟩ := hx
        simp
    · intro j hj
      have hj' : j ∈ c.attributes := by
        have := ((ordA ps.toFinset ∅).mem _ _).1 hj
        simpa using this
      unfold oplus
      rw [h.attributeExtent (h.cols hne) hj', py_ok_bind]
      have hempty : c.attributes.toFinset ∩ c.downF {j} = ∅ := by
        rw [Finset.eq_empty_iff_forall_notMem]
        intro x hx
        rw [Finset.mem_inter, h.mem_downF, List.mem_toFinset] at hx
        exact hdis x hx.2.1 hx.1
      simp only [hempty]
      rw [h.enum_oprime ordO (by simp)]
      simp only [py_ok_bind, Finset.empty_product, Finset.empty_inter]
      unfold wScore pyDiv
      rw [if_neg]
      · simp
      · have h1 : c.objects.length ≠ 0 := by simpa using hne
        have h2 : c.attributes.length ≠ 0 := by simpa using hna
        exact mul_ne_zero (by exact_mod_cast h1) (by exact_mod_cast h2)
  rw [hin]
  rfl

/-- What remains of C50: a request of at most 0 is met by no factors at all. Missing: everything else, which
fails. -/
theorem C50_weighted_partial {ν : Type} [DecidableEq ν] {c : Ctx ν ν} (h : c.WFw) (hx : ∃ g m, c.Inc g m)
    (ordA : Finset (ν × ν) → Finset ν → SetOrder ν) (ordO : SetOrder ν) {fid : ℚ} (hfid : fid ≤ 0) :
    algorithm2Weighted c ordA ordO fid = some ([], .ok ()) := by
  obtain ⟨g, m, hI⟩ := hx
  obtain ⟨ps, hp, -, hmem⟩ := Ctx.mem_pairs h
  have hn : ps.toFinset.card ≠ 0 := by
    rw [Finset.card_ne_zero]; exact ⟨(g, m), by simpa using (hmem g m).2 hI⟩
  unfold algorithm2Weighted
  rw [hp]
  simp only [weightedLoop]
  have hdiv : pyDiv ((ps.toFinset.card : ℤ) - ps.toFinset.card) ps.toFinset.card = .ok 0 := by
    unfold pyDiv
    rw [if_neg (by exact_mod_cast hn)]; simp
  rw [hdiv]
  simp only
  rw [if_neg (not_lt.2 hfid)]

/-! ### C51 -/

/-- The inner loop of `algorithm2_w_condition` always ends: by `return`, by a restart with fewer pairs, with a
factor that is a concept meeting the size conditions, or with the 'Algorithm stuck' exception. -/
theorem wInner_ok {c : Ctx α β} (h : c.WFw) (hne : c.objects ≠ []) (p : WParams) (ordA : Finset β → SetOrder β)
    (ordO : SetOrder α) (U : Finset (α × β)) (removed avail : Finset β) (hav : avail ⊆ c.attributes.toFinset)
    (havU : ∀ j ∈ avail, ∃ g, (g, j) ∈ U) (fuel : ℕ) (D : Finset β) (C : Finset α) (V : ℕ) (rem : Finset (α × β))
    (hD : D ⊆ c.attributes.toFinset) (hrem : rem ⊆ U)
    (hg : rem = ∅ ∨ IsConcept c.G c.M c.Inc C D) (hf : (c.attributes.toFinset \ D).card < fuel) :
    wInner c p ordA ordO U removed avail fuel D C V rem = some (.error .genericException) ∨
    wInner c p ordA ordO U removed avail fuel D C V rem = some (.ok .ret) ∨
    (∃ U' removed', wInner c p ordA ordO U removed avail fuel D C V rem = some (.ok (.restart U' removed')) ∧
      U' ⊂ U) ∨
    ∃ C' D' rem', wInner c p ordA ordO U removed avail fuel D C V rem = some (.ok (.factor C' D' rem')) ∧
      IsConcept c.G c.M c.Inc C' D' ∧ p.good C' D' = true ∧ rem' ⊆ U ∧ rem' ≠ ∅ := by
  induction fuel generalizing D C V rem with
  | zero => omega
  | succ fuel ih =>
    unfold wInner
    rcases alg2Best_ok h hne (ordA D) ordO U hav hD with ⟨he, hb⟩ | ⟨j, hj, hb, -⟩
    · rw [hb]; exact .inr (.inl rfl)
    · rw [hb]
      simp only
      have hjA := (Finset.mem_sdiff.1 hj).1
      have hjD := (Finset.mem_sdiff.1 hj).2
      have hB : insert j D ⊆ c.attributes.toFinset := Finset.insert_subset (hav hjA) hD
      by_cases hup : V < (genU c U (insert j D)).card ∨ p.good C D = false
      · rw [if_pos hup, (h.toWF hne).enum_aprime (ordA D) hB]
        simp only
        by_cases hs : ((c.downF (insert j D)).card : ℤ) < p.minSize ∨ avail \ D = ∅
        · rw [if_pos hs]
          refine .inr (.inr (.inl ⟨_, _, rfl, ?_⟩))
          obtain ⟨g, hg⟩ := havU j hjA
          rw [Finset.filter_ssubset]
          exact ⟨(g, j), hg, by simp⟩
        · rw [if_neg hs, h.enum_oprime ordO (c.downF_subset _)]
          simp only
          apply ih
          · exact c.upF_subset _
          · split <;> exact Finset.inter_subset_right
          · exact .inr (isConcept_gen h hB)
          · have hlt : (c.attributes.toFinset \ c.upF (c.downF (insert j D))).card <
                (c.attributes.toFinset \ D).card := by
              apply Finset.card_lt_card
              have hsub : insert j D ⊆ c.upF (c.downF (insert j D)) := h.aclF_ext hB
              rw [Finset.ssubset_iff_of_subset]
              · refine ⟨j, Finset.mem_sdiff.2 ⟨hav hjA, hjD⟩, ?_⟩
                rw [Finset.mem_sdiff, not_and, not_not]
                exact fun _ => hsub (by simp)
              · exact Finset.sdiff_subset_sdiff (subset_refl _) ((Finset.subset_insert _ _).trans hsub)
            omega
      · rw [if_neg hup]
        rw [not_or, Bool.not_eq_false] at hup
        rw [if_pos hup.2]
        by_cases hr : rem.card = 0
        · rw [if_pos hr]; exact .inl rfl
        · rw [if_neg hr]
          have hr' : rem ≠ ∅ := fun h0 => hr (by rw [h0]; rfl)
          exact .inr (.inr (.inr ⟨C, D, rem, rfl, hg.resolve_left hr', hup.2, hrem, hr'⟩))

theorem wLoop_ok {c : Ctx α β} (h : c.WFw) (hne : c.objects ≠ []) (p : WParams)
    (ordA : Finset (α × β) → Finset β → SetOrder β) (ordO : SetOrder α) (n fuel : ℕ) (U : Finset (α × β))
    (removed : Finset β) (hU : ∀ q ∈ U, q.2 ∈ c.attributes.toFinset) (hf : U.card < fuel) :
    ∃ ys r, wLoop c p ordA ordO n fuel U removed = some (ys, r) ∧ (r = .ok () ∨ r = .error .genericException) ∧
      ys.length ≤ U.card ∧
      ∀ y ∈ ys, IsConcept c.G c.M c.Inc y.1.extent y.1.intent ∧ p.good y.1.extent y.1.intent = true := by
  induction fuel generalizing U removed with
  | zero => omega
  | succ fuel ih =>
    unfold wLoop
    by_cases hq : ((n : ℚ) - U.card) / n < p.fidelity
    · rw [if_pos hq]
      have hcard : (c.attributes.toFinset \ ∅).card < c.attributes.length + 2 := by
        have := List.toFinset_card_le c.attributes
        simp only [Finset.sdiff_empty]; omega
      rcases wInner_ok h hne p (ordA U) ordO U removed (U.image Prod.snd \ removed)
        (by
          intro j hj
          obtain ⟨q, hq, rfl⟩ := Finset.mem_image.1 (Finset.mem_sdiff.1 hj).1
          exact hU q hq)
        (by
          intro j hj
          obtain ⟨q, hq, rfl⟩ := Finset.mem_image.1 (Finset.mem_sdiff.1 hj).1
          exact ⟨q.1, hq⟩)
        (c.attributes.length + 2) ∅ c.objects.toFinset 0 ∅ (by simp) (by simp) (.inl rfl) hcard with
        e | e | ⟨U', r', e, hlt⟩ | ⟨C, D, rem, e, hc, hgood, hsub, hr⟩
      · rw [e]; exact ⟨[], _, rfl, .inr rfl, by simp, by simp⟩
      · rw [e]; exact ⟨[], _, rfl, .inl rfl, by simp, by simp⟩
      · rw [e]
        have := Finset.card_lt_card hlt
        obtain ⟨ys, r, h1, h2, h3, h4⟩ := ih U' r' (fun q hq => hU q (hlt.subset hq)) (by omega)
        exact ⟨ys, r, h1, h2, by omega, h4⟩
      · rw [e]
        have hlt : (U \ rem).card < U.card :=
          Finset.card_lt_card (Finset.sdiff_ssubset hsub (Finset.nonempty_iff_ne_empty.2 hr))
        obtain ⟨ys, r, h1, h2, h3, h4⟩ := ih (U \ rem) removed
          (fun q hq => hU q (Finset.sdiff_subset hq)) (by omega)
        simp only [h1]
        refine ⟨_, r, rfl, h2, by simp only [List.length_cons]; omega, ?_⟩
        intro y hy
        rcases List.mem_cons.1 hy with rfl | hy
        · exact ⟨hc, hgood⟩
        · exact h4 y hy
    · rw [if_neg hq]
      exact ⟨[], _, rfl, .inl rfl, by simp, by simp⟩

/-- For all parameters and tie-breaks `algorithm2_w_condition` ends, normally or with its 'Algorithm stuck'
exception, after at most as many factors as crosses; every factor is a formal concept with at least
`min_atts_and_objs` objects and attributes, and at least as many objects as attributes if so requested. -/
theorem C51_conditions {c : Ctx α β} (h : c.WFw) (p : WParams)
    (ordA : Finset (α × β) → Finset β → SetOrder β) (ordO : SetOrder α) :
    ∃ ys r, algorithm2WCondition c p ordA ordO = some (ys, r) ∧ (r = .ok () ∨ r = .error .genericException) ∧
      ys.length ≤ (crosses c.G c.M c.Inc).card ∧
      ∀ y ∈ ys, IsConcept c.G c.M c.Inc y.1.extent y.1.intent ∧
        p.minSize ≤ y.1.extent.card ∧ p.minSize ≤ y.1.intent.card ∧
        (p.objsGeAtts = true → y.1.intent.card ≤ y.1.extent.card) := by
  obtain ⟨ps, hp, -, hmem⟩ := Ctx.mem_pairs h
  unfold algorithm2WCondition
  rw [hp]
  simp only
  have hps : ps.toFinset = crosses c.G c.M c.Inc := by
    ext ⟨o, a⟩
    rw [List.mem_toFinset, hmem, mem_crosses]
  by_cases h0 : ps.toFinset.card = 0
  · rw [if_pos h0]
    exact ⟨[], _, rfl, .inl rfl, by simp, by simp⟩
  · rw [if_neg h0]
    obtain ⟨⟨g, m⟩, hgm⟩ := Finset.card_ne_zero.1 h0
    have hI : c.Inc g m := (hmem g m).1 (by simpa using hgm)
    have hne : c.objects ≠ [] := List.ne_nil_of_mem hI.mem.1
    obtain ⟨ys, r, h1, h2, h3, h4⟩ := wLoop_ok h hne p ordA ordO ps.toFinset.card (ps.toFinset.card + 1)
      ps.toFinset ∅ (by
        rintro ⟨g, m⟩ hq
        rw [List.mem_toFinset] at hq ⊢
        exact ((hmem g m).1 hq).mem.2) (by omega)
    refine ⟨ys, r, h1, h2, by rwa [← hps], fun y hy => ?_⟩
    obtain ⟨hc, hgood⟩ := h4 y hy
    refine ⟨hc, ?_⟩
    unfold WParams.good at hgood
    by_cases hge : p.objsGeAtts = true
    · rw [if_pos hge, Bool.and_eq_true, decide_eq_true_eq, decide_eq_true_eq] at hgood
      exact ⟨by omega, hgood.2, fun _ => hgood.1⟩
    · rw [if_neg hge, Bool.and_eq_true, decide_eq_true_eq, decide_eq_true_eq] at hgood
      exact ⟨hgood.1, hgood.2, fun h => absurd h hge⟩

/-! ### Concrete cases -/

def cxtF : Ctx (Fin 3) (Fin 3) :=
  ⟨[0, 1, 2], [0, 1, 2], ⟨some 3, [[true, true, false], [false, true, true], [false, true, false]]⟩⟩

theorem cxtF_wf : cxtF.WFw := by constructor <;> decide +kernel

theorem cxtF_cross : ∃ g m, cxtF.Inc g m := ⟨0, 0, 0, 0, _, rfl, rfl, rfl, rfl⟩

example : algorithm2 cxtF (fun _ _ => SetOrder.fin 3) (SetOrder.fin 3) 1 =
    some ([(⟨{0, 1, 2}, {1}⟩, 3 / 5), (⟨{0}, {0, 1}⟩, 1 / 5), (⟨{1}, {1, 2}⟩, 1 / 5)], .ok ()) := by
  decide +kernel

example : algorithm2 cxtF (fun _ _ => SetOrder.finRev 3) (SetOrder.fin 3) (7 / 10) =
    some ([(⟨{0, 1, 2}, {1}⟩, 3 / 5), (⟨{1}, {1, 2}⟩, 1 / 5)], .ok ()) := by
  decide +kernel

example : algorithm2 cxtF (fun _ _ => SetOrder.fin 3) (SetOrder.fin 3) 2 =
    some ([(⟨{0, 1, 2}, {1}⟩, 3 / 5), (⟨{0}, {0, 1}⟩, 1 / 5), (⟨{1}, {1, 2}⟩, 1 / 5)],
      .error .assertionError) := by
  decide +kernel

/-- The names `'f{}'.format(i)` are distinct. -/
theorem fname_injective : Function.Injective fun i : ℕ => 'f' :: Nat.toDigits 10 i := by
  intro i j h
  have := congrArg (fun l => Nat.ofDigitChars 10 l 0) (List.cons.inj h).2
  simpa using this

/-- The hypotheses of C46-C49 are met. -/
example : ∃ ys l r p, algorithm2 cxtF (fun _ _ => SetOrder.fin 3) (SetOrder.fin 3) 1 = some (ys, .ok ()) ∧
    makeFactorCxts (fun i => 'f' :: Nat.toDigits 10 i) (fun _ => SetOrder.fin 3) (fun _ => SetOrder.fin 3)
      (ys.map Prod.fst) = .ok (l, r) ∧ l.mul r = .ok p ∧ ∀ g m, p.Inc g m ↔ cxtF.Inc g m :=
  C49_rebuild _ fname_injective _ _ cxtF_wf cxtF_cross _ _

/-- Disjoint names. -/
def cxtW : Ctx (Fin 4) (Fin 4) := ⟨[0, 1], [2, 3], ⟨some 2, [[true, true], [false, true]]⟩⟩

example : algorithm2Weighted cxtW (fun _ _ => SetOrder.fin 4) (SetOrder.fin 4) 1 =
    some ([], .error .assertionError) :=
  C50_weighted_violated (by constructor <;> decide +kernel) ⟨0, 2, 0, 0, _, rfl, rfl, rfl, rfl⟩ (by decide) _ _
    (by norm_num)

example : algorithm2WCondition cxtF ⟨1, true, 1, true⟩ (fun _ _ => SetOrder.fin 3) (SetOrder.fin 3) =
    some ([(⟨{0, 1, 2}, {1}⟩, 3 / 5, 3 / 5)], .ok ()) := by
  decide +kernel

/-! ### C72 -/

/-- C72 fails: `algorithm2_w_condition` with `fidelity` 1 and minimal size 1 ends normally with 4/5 of the
crosses covered, although the concept `({1}, {1, 2})` meets the conditions and has an uncovered cross. -/
theorem C72_condition_fidelity_violated :
    algorithm2WCondition cxtF ⟨1, true, 1, false⟩ (fun _ _ => SetOrder.fin 3) (SetOrder.fin 3) =
      some ([(⟨{0, 1, 2}, {1}⟩, 3 / 5, 3 / 5), (⟨{0}, {0, 1}⟩, 1 / 5, 4 / 5)], .ok ()) ∧
    IsConcept cxtF.G cxtF.M cxtF.Inc {1} {1, 2} ∧ cxtF.Inc 1 2 := by
  refine ⟨by decide +kernel, ?_, 1, 2, _, rfl, rfl, rfl, rfl⟩
  have h := isConcept_gen cxtF_wf (B := {1, 2}) (by decide +kernel)
  rwa [show cxtF.downF {1, 2} = {1} by decide +kernel, show cxtF.upF {1} = {1, 2} by decide +kernel] at h
