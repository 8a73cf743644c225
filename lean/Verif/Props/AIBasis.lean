/-
Property C32: the attribute-incremental computation of the canonical basis.
-/
import Verif.Lemmas.AIBasis
import Verif.Props.DG
import Verif.Props.Covers
import Mathlib.Data.List.Sort

set_option linter.unusedSectionVars false

open Spec

variable {α β : Type} [DecidableEq α] [DecidableEq β]

namespace AI

/-- The extent of one attribute. -/
abbrev exOf (c : Ctx α β) (a : β) : Finset α := c.downF {a}

theorem dn_eq {c : Ctx α β} (h : c.WFw) (s : Finset β) : dn c.G (exOf c) s = c.downF s := by
  ext g
  simp only [mem_dn, exOf, h.mem_downF, List.mem_toFinset, Finset.mem_singleton, forall_eq]
  exact ⟨fun hh => ⟨hh.1, fun a ha => (hh.2 a ha).2⟩, fun hh => ⟨hh.1, fun a ha => ⟨hh.1, hh.2 a ha⟩⟩⟩

theorem clo_eq_attrClosure {c : Ctx α β} (h : c.WFw) : clo c.G (exOf c) c.M = attrClosure c.G c.M c.Inc := by
  funext s
  rw [← h.aclF_eq]
  ext a
  rw [mem_clo, dn_eq h, Ctx.aclF, h.mem_upF, List.mem_toFinset]
  refine and_congr_right fun _ => ?_
  constructor
  · intro hh o ho
    exact (h.mem_downF.1 (hh ho)).2 a (by simp)
  · intro hh o ho
    rw [h.mem_downF]
    refine ⟨(h.mem_downF.1 ho).1, ?_⟩
    intro b hb
    rw [Finset.mem_singleton] at hb
    exact hb ▸ hh o ho

theorem kclosureLoop_eq (s : Finset β) (es : List (Finset β)) : ∀ cl, s ⊆ cl →
    kclosureLoop s es cl = cl.filter fun a => ∀ e ∈ es, s ⊆ e → a ∈ e := by
  induction es with
  | nil => intro cl _; simp [kclosureLoop]
  | cons e rest ih =>
    intro cl hs
    unfold kclosureLoop
    by_cases h1 : s = cl
    · rw [if_pos h1]
      ext a
      rw [Finset.mem_filter]
      refine ⟨fun ha => ⟨ha, fun e _ hse => hse (h1 ▸ ha)⟩, fun ha => ha.1⟩
    · rw [if_neg h1]
      by_cases h2 : s ⊆ e
      · rw [if_pos h2, ih _ (Finset.subset_inter hs h2)]
        ext a
        simp only [Finset.mem_filter, Finset.mem_inter, List.mem_cons, forall_eq_or_imp]
        tauto
      · rw [if_neg h2, ih _ hs]
        ext a
        simp only [Finset.mem_filter, List.mem_cons, forall_eq_or_imp]
        tauto

theorem kclosure_eq {c : Ctx α β} (h : c.WFw) {k : ℕ} {s : Finset β}
    (hs : s ⊆ (c.attributes.take k).toFinset) :
    kclosure c s k = .ok (clo c.G (exOf c) (c.attributes.take k).toFinset s) := by
  have hM : ∀ a ∈ (c.attributes.take k).toFinset, a ∈ c.attributes := fun a ha =>
    List.mem_of_mem_take (List.mem_toFinset.1 ha)
  unfold kclosure
  rw [examples_eq h]
  simp only [bind, Except.bind]
  rw [kclosureLoop_eq _ _ _ hs]
  congr 1
  ext a
  rw [Finset.mem_filter, mem_clo, dn_eq h]
  refine and_congr_right fun ha => ?_
  simp only [List.forall_mem_map]
  have hsub : ∀ o, s ⊆ c.upF {o} ↔ ∀ b ∈ s, c.Inc o b := by
    intro o
    constructor
    · intro hh b hb; exact (h.mem_upF.1 (hh hb)).2 o (by simp)
    · intro hh b hb
      rw [h.mem_upF]
      refine ⟨hM b (hs hb), ?_⟩
      simpa using hh b hb
  have hmem : ∀ o, a ∈ c.upF {o} ↔ c.Inc o a := by
    intro o
    rw [h.mem_upF]
    simp [hM a ha]
  simp only [hsub, hmem]
  constructor
  · intro hh o ho
    rw [h.mem_downF] at ho ⊢
    refine ⟨ho.1, ?_⟩
    simpa using hh o ho.1 ho.2
  · intro hh o ho hb
    exact (h.mem_downF.1 (hh (h.mem_downF.2 ⟨ho, hb⟩))).2 a (by simp)

theorem take_succ_toFinset {l : List β} {i : ℕ} {m : β} (hi : l[i]? = some m) :
    (l.take (i + 1)).toFinset = insert m (l.take i).toFinset := by
  rw [List.take_add_one, hi]
  ext a
  simp

theorem update_ok {c : Ctx α β} (h : c.WFw) (hc : c.nd.cols = some c.attributes.length)
    {sort : List (Pre α β) → List (Pre α β)} {close : Finset β → List (Imp β) → Finset β}
    (hsort : ∀ l, (sort l).Perm l) (hclose : ∀ s L, (L.map Imp.premise).Nodup → IsLeastClosed (specImps L) s (close s L)) {i : ℕ}
    (hi : i < c.attributes.length) {pre : List (Pre α β)} {basis : List (Imp β)}
    (hinv : Inv c.G (exOf c) (c.attributes.take i).toFinset pre basis) :
    ∃ r, updatePreclosed sort close c i pre = .ok r ∧
      Inv c.G (exOf c) (c.attributes.take (i + 1)).toFinset r.1 r.2 ∧
      ((∀ l, (sort l).Pairwise fun p q => ¬ q.set ⊂ p.set) → IO pre basis → IO r.1 r.2) := by
  obtain ⟨m, hm⟩ : ∃ m, c.attributes[i]? = some m := ⟨_, List.getElem?_eq_getElem hi⟩
  have hM' := take_succ_toFinset hm
  have hmM : m ∉ (c.attributes.take i).toFinset := by
    rw [List.mem_toFinset, List.mem_take_iff_getElem]
    rintro ⟨j, hj, hjm⟩
    have := nodup_idx h.anodup hm (List.getElem?_eq_some_iff.2 ⟨by omega, hjm⟩)
    omega
  obtain ⟨st, h1, h2, h3⟩ := loopPre_ok (G := c.G) (ex := exOf c) (M := (c.attributes.take i).toFinset) (m := m)
    (closure := fun s => kclosure c s (i + 1)) (by
      intro s hs
      rw [← hM'] at hs ⊢
      exact kclosure_eq h hs) hmM pre [] {} (LI.nil _ _) (by simp) hinv.ok
  rw [List.nil_append] at h2 h3
  have hnd := loopPre_nd (G := c.G) (ex := exOf c) (M := (c.attributes.take i).toFinset) (m := m)
    (closure := fun s => kclosure c s (i + 1)) (by
      intro s hs
      rw [← hM'] at hs ⊢
      exact kclosure_eq h hs) hmM pre [] {} st (LI.nil _ _) (by simp) hinv.ok
      (by rw [List.nil_append, ← (hinv.perm.map Imp.premise).nodup_iff]; exact hinv.nd) (by simp [prems]) h1
  obtain ⟨h4, h5⟩ := upd_ok hsort hclose hmM hinv h2 hnd
  refine ⟨upd sort close st, ?_, hM' ▸ h4, fun hso hio => h5 hso hio (h3 hio.pw (LO.nil m))⟩
  unfold updatePreclosed
  rw [pyGet_ok hm, h.extentByIndex hc hm]
  simp only [bind, Except.bind]
  rw [h1]
  rfl

theorem basisLoop_ok {c : Ctx α β} (h : c.WFw) (hc : c.nd.cols = some c.attributes.length)
    {sort : List (Pre α β) → List (Pre α β)} {close : Finset β → List (Imp β) → Finset β}
    (hsort : ∀ l, (sort l).Perm l) (hclose : ∀ s L, (L.map Imp.premise).Nodup → IsLeastClosed (specImps L) s (close s L)) (n : ℕ) :
    ∀ (k : ℕ) (pre : List (Pre α β)) (basis : List (Imp β)), k + n = c.attributes.length →
      Inv c.G (exOf c) (c.attributes.take k).toFinset pre basis →
      ∃ pre' basis', basisLoop sort close c (List.range' k n) pre basis = .ok basis' ∧
        Inv c.G (exOf c) c.M pre' basis' ∧
        ((∀ l, (sort l).Pairwise fun p q => ¬ q.set ⊂ p.set) → IO pre basis → IO pre' basis') := by
  induction n with
  | zero =>
    intro k pre basis hk hinv
    refine ⟨pre, basis, rfl, ?_, fun _ hio => hio⟩
    rwa [List.take_of_length_le (by omega)] at hinv
  | succ n ih =>
    intro k pre basis hk hinv
    obtain ⟨r, h1, h2, h3⟩ := update_ok h hc hsort hclose (i := k) (by omega) hinv
    obtain ⟨pre', basis', h4, h5, h6⟩ := ih (k + 1) r.1 r.2 (by omega) h2
    refine ⟨pre', basis', ?_, h5, fun hso hio => h6 hso (h3 hso hio)⟩
    rw [List.range'_succ]
    unfold basisLoop
    rw [h1]
    exact h4

theorem inv_start {c : Ctx α β} :
    Inv c.G (exOf c) (c.attributes.take 0).toFinset [⟨c.objects.toFinset, ∅, none⟩] [] := by
  have hcl : ∀ S, clo c.G (exOf c) (c.attributes.take 0).toFinset S = ∅ := by
    intro S
    have := clo_subset (G := c.G) (ex := exOf c) (c.attributes.take 0).toFinset S
    simpa using this
  refine ⟨?_, ?_, ?_, ?_, by simp⟩
  · intro p hp
    rw [List.mem_singleton] at hp
    subst hp
    exact ⟨by simp, by ext; simp [mem_dn], Or.inl ⟨rfl, hcl _⟩⟩
  · intro S hS
    rw [hcl] at hS
    exact ⟨_, List.mem_singleton.2 rfl, rfl, hS⟩
  · rw [imps_none rfl]
  · intro S hS _
    rw [hcl]
    simpa [eq_comm] using hS

theorem main {c : Ctx α β} (h : c.WFw) (hc : c.nd.cols = some c.attributes.length)
    {sort : List (Pre α β) → List (Pre α β)} {close : Finset β → List (Imp β) → Finset β}
    (hsort : ∀ l, (sort l).Perm l) (hclose : ∀ s L, (L.map Imp.premise).Nodup → IsLeastClosed (specImps L) s (close s L)) :
    ∃ pre basis, computeCanonicalBasis sort close c = .ok basis ∧ Inv c.G (exOf c) c.M pre basis ∧
        ((∀ l, (sort l).Pairwise fun p q => ¬ q.set ⊂ p.set) → IO pre basis) := by
  obtain ⟨pre, basis, h1, h2, h3⟩ := basisLoop_ok h hc hsort hclose c.attributes.length 0 _ _ (by simp)
    (inv_start (c := c))
  refine ⟨pre, basis, ?_, h2, fun hso => h3 hso ⟨by simp, by simp⟩⟩
  unfold computeCanonicalBasis
  rw [List.range_eq_range']
  exact h1

end AI

open AI

/-! ### C32 -/

/-- Whatever permutation the sort of sets produces, the result consists of implications `P → P''` with
`P` not closed, and the sets respecting the result are exactly the closed sets. `close` is any closure
function on implication lists that computes the least closed superset. -/
theorem C32_canonical_sound_complete {c : Ctx α β} (h : c.WFw) (hc : c.nd.cols = some c.attributes.length)
    (sort : List (Pre α β) → List (Pre α β)) (close : Finset β → List (Imp β) → Finset β)
    (hsort : ∀ l, (sort l).Perm l) (hclose : ∀ s L, IsLeastClosed (specImps L) s (close s L)) :
    ∃ basis, computeCanonicalBasis sort close c = .ok basis ∧
      (∀ i ∈ basis, i.premise ⊆ c.M ∧ i.conclusion = attrClosure c.G c.M c.Inc i.premise ∧
        i.conclusion ≠ i.premise) ∧
      (∀ S, S ⊆ c.M → (Closed (specImps basis) S ↔ attrClosure c.G c.M c.Inc S = S)) := by
  obtain ⟨pre, basis, h1, h2, -⟩ := main h hc hsort fun s L _ => hclose s L
  have hcc := clo_eq_attrClosure h
  have hb : ∀ i ∈ basis, i.premise ⊆ c.M ∧ i.conclusion = attrClosure c.G c.M c.Inc i.premise ∧
      i.conclusion ≠ i.premise := by
    intro i hi
    obtain ⟨p, hp, C, hC, rfl⟩ := mem_imps.1 (h2.perm.mem_iff.1 hi)
    obtain ⟨h3, h4⟩ := (h2.ok p hp).concl_eq hC
    exact ⟨(h2.ok p hp).sub, hcc ▸ h3, h4⟩
  refine ⟨basis, h1, hb, ?_⟩
  intro S hS
  rw [closed_specImps]
  constructor
  · intro hS'
    rw [← hcc]
    exact h2.complete S hS hS'
  · intro hS' i hi hpi
    rw [(hb i hi).2.1, ← hS']
    exact h.attrClosure_op.mono _ _ hpi hS

/-- If the sort never puts a set behind a proper superset, the result is the canonical basis: the
premises are exactly the pseudo-intents, each once. What is missing for the full statement is
that `list.sort` on sets has this property; it does not, see `C32_canonical_violated`. -/
theorem C32_canonical_partial {c : Ctx α β} (h : c.WFw) (hc : c.nd.cols = some c.attributes.length)
    (sort : List (Pre α β) → List (Pre α β)) (close : Finset β → List (Imp β) → Finset β)
    (hsort : ∀ l, (sort l).Perm l) (hclose : ∀ s L, IsLeastClosed (specImps L) s (close s L))
    (horder : ∀ l, (sort l).Pairwise fun p q => ¬ q.set ⊂ p.set) :
    ∃ basis, computeCanonicalBasis sort close c = .ok basis ∧
      (∀ i, i ∈ basis ↔ IsPseudo c.M [] (attrClosure c.G c.M c.Inc) i.premise ∧
        i.conclusion = attrClosure c.G c.M c.Inc i.premise) ∧
      (basis.map Imp.premise).Nodup := by
  obtain ⟨pre, basis, h1, h2, h3⟩ := main h hc hsort fun s L _ => hclose s L
  have hio := h3 horder
  have hcc := clo_eq_attrClosure h
  have hb : ∀ i ∈ basis, i.premise ⊆ c.M ∧ i.conclusion = attrClosure c.G c.M c.Inc i.premise ∧
      attrClosure c.G c.M c.Inc i.premise ≠ i.premise := by
    intro i hi
    obtain ⟨p, hp, C, hC, rfl⟩ := mem_imps.1 (h2.perm.mem_iff.1 hi)
    obtain ⟨h3, h4⟩ := (h2.ok p hp).concl_eq hC
    rw [← hcc]
    exact ⟨(h2.ok p hp).sub, h3, h3 ▸ h4⟩
  have hps := pseudo_of_indep hb (by rw [← hcc]; exact h2.complete) hio.indep
  refine ⟨basis, h1, ?_, ?_⟩
  · rintro ⟨P, C⟩
    rw [hps]
    constructor
    · intro hi
      exact ⟨⟨_, hi, rfl⟩, (hb _ hi).2.1⟩
    · rintro ⟨⟨⟨P', C'⟩, hi, h4⟩, h5⟩
      simp only at h4 h5
      subst h4
      have := (hb _ hi).2.1
      simp only at this
      rw [h5, ← this]
      exact hi
  · rw [(h2.perm.map Imp.premise).nodup_iff]
    unfold imps
    rw [List.map_map, List.Nodup, List.pairwise_map]
    refine (hio.pw.filter _).imp ?_
    intro p q hpq he
    exact hpq (show q.set ⊆ p.set from (show p.set = q.set from he).symm.subset)

/-- The default closure function and every context with an object meet the hypotheses. -/
theorem C32_canonical_simple_partial {c : Ctx α β} (h : c.WFw) (hne : c.objects ≠ [])
    (sort : List (Pre α β) → List (Pre α β)) (hsort : ∀ l, (sort l).Perm l)
    (horder : ∀ l, (sort l).Pairwise fun p q => ¬ q.set ⊂ p.set) :
    ∃ basis, computeCanonicalBasis sort simpleClosure c = .ok basis ∧
      (∀ i, i ∈ basis ↔ IsPseudo c.M [] (attrClosure c.G c.M c.Inc) i.premise ∧
        i.conclusion = attrClosure c.G c.M c.Inc i.premise) ∧
      (basis.map Imp.premise).Nodup :=
  C32_canonical_partial h (h.cols hne) sort _ hsort simpleClosure_isLeast horder

/-- Under the order hypothesis the incremental algorithm and the one by Ganter return the same
implications. -/
theorem C32_incremental_eq_dg_partial {c : Ctx α β} (h : c.WFw) (hne : c.objects ≠ [])
    (sort : List (Pre α β) → List (Pre α β)) (hsort : ∀ l, (sort l).Perm l)
    (horder : ∀ l, (sort l).Pairwise fun p q => ¬ q.set ⊂ p.set) (ordA : SetOrder β) (ordO : SetOrder α) :
    ∃ basis res, computeCanonicalBasis sort simpleClosure c = .ok basis ∧
      c.computeDgBasisSimple ordA ordO [] (fun _ => true) = .ok res ∧ basis.Perm res := by
  obtain ⟨basis, h1, h2, h3⟩ := C32_canonical_simple_partial h hne sort hsort horder
  have hstd : Ctx.StdClose [] (simpleClosure (α := β)) := Or.inl rfl
  obtain ⟨res, hres⟩ := Ctx.C24_basis_returns h hne ordA ordO simpleClosure [] hstd (by simp) (fun _ => true)
  obtain ⟨h4, h5⟩ := Ctx.dg_main h hstd (by simp) hres
  refine ⟨basis, res, h1, hres, ?_⟩
  rw [List.perm_ext_iff_of_nodup (List.Nodup.of_map _ h3) (h5.imp ?_)]
  · intro i
    rw [h2, h4]
    rfl
  · rintro x y hxy rfl
    obtain ⟨j, z, _, h6, h7, _⟩ := hxy
    exact h6 h7

/-- On a context whose array is one-dimensional (object-free), with at least one attribute, the
computation raises `IndexError`. -/
theorem C32_objectfree_violated {c : Ctx α β} (hc : c.nd.cols = none) (hne : c.attributes ≠ [])
    (sort : List (Pre α β) → List (Pre α β)) (close : Finset β → List (Imp β) → Finset β) :
    computeCanonicalBasis sort close c = .error .indexError := by
  obtain ⟨a, l, hl⟩ := List.exists_cons_of_ne_nil hne
  have hlen : c.attributes.length = l.length + 1 := by rw [hl]; rfl
  unfold computeCanonicalBasis
  rw [hlen, List.range_succ_eq_map]
  unfold basisLoop updatePreclosed
  rw [pyGet_ok (x := a) (by rw [hl]; rfl)]
  unfold Ctx.extentByIndex Nd.col
  rw [hc]
  rfl

/-! ### Concrete cases and the violation -/

namespace AI

/-- Two objects, five attributes; object 0 has attribute 3, object 1 has 1, 2, 3, 4. -/
def bad : Ctx (Fin 2) (Fin 5) :=
  ⟨[0, 1], [0, 1, 2, 3, 4], ⟨some 5, [[false, false, false, true, false], [false, true, true, true, true]]⟩⟩

/-- A sort that respects inclusion: by the number of elements. -/
def cardSort (l : List (Pre α β)) : List (Pre α β) := l.insertionSort fun p q => p.set.card ≤ q.set.card

theorem cardSort_ok (l : List (Pre α β)) :
    (cardSort l).Perm l ∧ (cardSort l).Pairwise fun p q => ¬ q.set ⊂ p.set := by
  refine ⟨List.perm_insertionSort _ _, ?_⟩
  have : Std.Total fun p q : Pre α β => p.set.card ≤ q.set.card := ⟨fun a b => Nat.le_total _ _⟩
  have : IsTrans (Pre α β) fun p q => p.set.card ≤ q.set.card := ⟨fun a b c => Nat.le_trans⟩
  refine (List.pairwise_insertionSort (fun p q : Pre α β => p.set.card ≤ q.set.card) l).imp ?_
  intro p q hpq hss
  exact absurd (Finset.card_lt_card hss) (by omega)

theorem bad_wf : bad.WFw := ⟨by decide, by decide, by decide, by decide, by decide⟩

end AI

/-- `list.sort` of CPython returns a permutation for every comparison. -/
theorem AI.pySortShort_perm {γ : Type} (lt : γ → γ → Bool) (l : List γ) : (pySortShort lt l).Perm l := by
  have hins : ∀ (rest arr : List γ), (binaryInsert lt arr rest).Perm (arr ++ rest) := by
    intro rest
    induction rest with
    | nil => intro arr; simp [binaryInsert]
    | cons x rest ih =>
      intro arr
      unfold binaryInsert
      refine (ih _).trans ?_
      set k := bisect lt arr x (arr.length + 1) 0 arr.length
      have h1 : (arr.take k ++ x :: arr.drop k).Perm (x :: arr) := by
        refine List.perm_middle.trans ?_
        rw [List.take_append_drop]
      refine (h1.append_right rest).trans ?_
      exact (List.perm_middle (a := x) (l₁ := arr) (l₂ := rest)).symm
  have hrun : ∀ (rel : γ → γ → Bool) (l : List γ) (a : γ), (runFrom rel a l).1 ++ (runFrom rel a l).2 = l := by
    intro rel l
    induction l with
    | nil => intro a; rfl
    | cons b rest ih =>
      intro a
      unfold runFrom
      split
      · simp [ih b]
      · rfl
  match l with
  | [] => exact List.Perm.refl _
  | [a] => exact List.Perm.refl _
  | a :: b :: rest =>
    simp only [pySortShort]
    split
    · refine (hins _ _).trans ?_
      refine ((List.reverse_perm _).append_right _).trans ?_
      rw [List.cons_append, hrun]
    · refine (hins _ _).trans ?_
      rw [List.cons_append, hrun]

/-- With CPython's sort the result is sound and complete (though not minimal, see below). -/
theorem C32_cpython_sound_complete {c : Ctx α β} (h : c.WFw) (hne : c.objects ≠ []) :
    ∃ basis, computeCanonicalBasis (pySortShort Pre.lt) simpleClosure c = .ok basis ∧
      (∀ i ∈ basis, i.premise ⊆ c.M ∧ i.conclusion = attrClosure c.G c.M c.Inc i.premise ∧
        i.conclusion ≠ i.premise) ∧
      (∀ S, S ⊆ c.M → (Closed (specImps basis) S ↔ attrClosure c.G c.M c.Inc S = S)) :=
  C32_canonical_sound_complete h (h.cols hne) _ _ (pySortShort_perm _) simpleClosure_isLeast

/-- The canonical basis is not returned: with `list.sort` of CPython the result for `bad` contains the redundant
implication `{1,2,3} → {1,2,3,4}` whose premise is not a pseudo-intent. -/
theorem C32_canonical_violated :
    ∃ basis, computeCanonicalBasis (pySortShort Pre.lt) simpleClosure bad = .ok basis ∧
      (⟨{1, 2, 3}, {1, 2, 3, 4}⟩ : Imp (Fin 5)) ∈ basis ∧
      ¬ IsPseudo bad.M [] (attrClosure bad.G bad.M bad.Inc) {1, 2, 3} ∧
      Entails (specImps (basis.filter fun i => i ≠ ⟨{1, 2, 3}, {1, 2, 3, 4}⟩)) {1, 2, 3} {1, 2, 3, 4} := by
  refine ⟨[⟨∅, {3}⟩, ⟨{3, 4}, {1, 2, 3, 4}⟩, ⟨{1, 2, 3}, {1, 2, 3, 4}⟩, ⟨{0, 3}, {0, 1, 2, 3, 4}⟩,
    ⟨{1, 3}, {1, 2, 3, 4}⟩, ⟨{2, 3}, {1, 2, 3, 4}⟩], by decide +kernel, by simp, ?_, ?_⟩
  · have hcl : ∀ Q, attrClosure bad.G bad.M bad.Inc Q = bad.aclF Q := fun Q => by rw [bad_wf.aclF_eq]
    have h0 : IsPseudo bad.M [] (attrClosure bad.G bad.M bad.Inc) ∅ := by
      rw [isPseudo_iff]
      refine ⟨⟨by simp, by intro pc hpc; simp at hpc, ?_⟩, ?_⟩
      · intro Q hQ; simp at hQ
      · rw [hcl]; decide +kernel
    have h1 : IsPseudo bad.M [] (attrClosure bad.G bad.M bad.Inc) {1, 3} := by
      rw [isPseudo_iff]
      refine ⟨⟨by decide, by intro pc hpc; simp at hpc, ?_⟩, ?_⟩
      · intro Q hQ hps
        have h2 := (isPseudo_iff.1 hps).2
        by_cases hQ0 : Q = ∅
        · subst hQ0; rw [hcl]; decide +kernel
        · have h3 := (isPseudo_iff.1 hps).1.2.2 ∅ (by
            rw [Finset.ssubset_iff_subset_ne]; exact ⟨by simp, fun e => hQ0 e.symm⟩) h0
          rw [hcl] at h3 h2
          have : Q ∈ ({1, 3} : Finset (Fin 5)).powerset := Finset.mem_powerset.2 hQ.1
          rw [hcl]
          clear hps hQ0
          revert h2 h3 hQ
          revert Q
          decide +kernel
      · rw [hcl]; decide +kernel
    intro hps
    have := (isPseudo_iff.1 hps).1.2.2 _ (by decide) h1
    rw [hcl] at this
    revert this
    decide +kernel
  · intro S hS hP
    rw [closed_specImps] at hS
    exact hS ⟨{1, 3}, {1, 2, 3, 4}⟩ (by decide) (fun x hx => hP (by revert hx; revert x; decide))

/-- The same context with a sort that respects inclusion. -/
example : computeCanonicalBasis cardSort simpleClosure bad = .ok [⟨∅, {3}⟩, ⟨{3, 4}, {1, 2, 3, 4}⟩,
    ⟨{0, 3}, {0, 1, 2, 3, 4}⟩, ⟨{1, 3}, {1, 2, 3, 4}⟩, ⟨{2, 3}, {1, 2, 3, 4}⟩] := by decide +kernel
example : bad.nd.cols = some bad.attributes.length := rfl
example : bad.objects ≠ [] := by decide
example : computeCanonicalBasis (pySortShort Pre.lt) simpleClosure
    (⟨[], [0, 1], ⟨none, []⟩⟩ : Ctx (Fin 1) (Fin 2)) = .error .indexError := by decide +kernel
