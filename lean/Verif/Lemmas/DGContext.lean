import Verif.Model.DGContext
import Verif.Lemmas.Context
import Verif.Lemmas.DGCorrect
import Verif.Lemmas.LinClosure
import Verif.SpecContext
import Verif.SpecLectic

open Spec

namespace Ctx

variable {α β : Type} [DecidableEq α] [DecidableEq β]

/-- Objects of the context, as a set. -/
abbrev G (c : Ctx α β) : Finset α := c.objects.toFinset
/-- Attributes of the context, as a set. -/
abbrev M (c : Ctx α β) : Finset β := c.attributes.toFinset

theorem WFw.mem_aclF {c : Ctx α β} (h : WFw c) {B : Finset β} {m : β} :
    m ∈ c.aclF B ↔ m ∈ c.attributes ∧ ∀ o ∈ c.objects, (∀ a ∈ B, c.Inc o a) → c.Inc o m := by
  unfold aclF
  rw [h.mem_upF]
  simp only [h.mem_downF]
  constructor
  · rintro ⟨h1, h2⟩; exact ⟨h1, fun o ho hB => h2 o ⟨ho, hB⟩⟩
  · rintro ⟨h1, h2⟩; exact ⟨h1, fun o ho => h2 o ho.1 ho.2⟩

theorem WFw.mem_oclF {c : Ctx α β} (h : WFw c) {A : Finset α} {o : α} :
    o ∈ c.oclF A ↔ o ∈ c.objects ∧ ∀ m ∈ c.attributes, (∀ a ∈ A, c.Inc a m) → c.Inc o m := by
  unfold oclF
  rw [h.mem_downF]
  simp only [h.mem_upF]
  constructor
  · rintro ⟨h1, h2⟩; exact ⟨h1, fun o ho hB => h2 o ⟨ho, hB⟩⟩
  · rintro ⟨h1, h2⟩; exact ⟨h1, fun o ho => h2 o ho.1 ho.2⟩

theorem WFw.aclF_eq {c : Ctx α β} (h : WFw c) : c.aclF = attrClosure c.G c.M c.Inc := by
  funext B
  ext m
  rw [h.mem_aclF]
  simp [attrClosure]

theorem WFw.oclF_eq {c : Ctx α β} (h : WFw c) : c.oclF = objClosure c.G c.M c.Inc := by
  funext B
  ext m
  rw [h.mem_oclF]
  simp [objClosure]

theorem WFw.attrClosure_op {c : Ctx α β} (h : WFw c) :
    IsClosureOp c.M (attrClosure c.G c.M c.Inc) := h.aclF_eq ▸ h.aclF_closureOp

/-- An object with any attribute-wise valid context has the right array shape. -/
theorem WFw.cols {c : Ctx α β} (h : WFw c) (hne : c.objects ≠ []) :
    c.nd.cols = some c.attributes.length := by
  apply h.shape
  intro he
  apply hne
  have := h.nrows
  rw [he] at this
  exact List.eq_nil_of_length_eq_zero this.symm

theorem WFw.dgAclose {c : Ctx α β} (h : WFw c) (hc : c.nd.cols = some c.attributes.length)
    (ordA : SetOrder β) (ordO : SetOrder α) {s : Finset β} (hs : s ⊆ c.M) :
    c.dgAclose ordA ordO s = .ok (attrClosure c.G c.M c.Inc s) := by
  unfold Ctx.dgAclose
  rw [h.coAclosureSet hc, ordA.toFinset, ← h.aclF_eq]
  · rfl
  · intro a ha
    exact List.mem_toFinset.1 (hs ((ordA.mem s a).1 ha))

/-- Closure functions the basis algorithm may be called with. -/
structure GoodClose (M : Finset β) (close : Finset β → List (Imp β) → Finset β) : Prop where
  ext : ∀ s L, s ⊆ close s L
  into : ∀ s L, s ⊆ M → (∀ i ∈ L, i.conclusion ⊆ M) → close s L ⊆ M

omit [DecidableEq α] in
theorem goodClose_simple (M : Finset β) : GoodClose M simpleClosure where
  ext s L := (simpleClosure_isLeast s L).1
  into s L := simpleClosure_into s M L

theorem goodClose_lin (M : Finset β) (ord₀ : SetOrder β) (ord : ℕ → SetOrder β) :
    GoodClose M (linClosure ord₀ ord) where
  ext s L := (simpleClosure_isLeast s L).1.trans (linClosure_superset ord₀ ord s L)
  into s L := linClosure_into ord₀ ord s M L

theorem WFw.dgSetup {c : Ctx α β} (h : WFw c) (hc : c.nd.cols = some c.attributes.length)
    (ordA : SetOrder β) (ordO : SetOrder α) {close : Finset β → List (Imp β) → Finset β}
    (hclose : GoodClose c.M close) :
    DGSetup c.attributes (c.dgAclose ordA ordO) (attrClosure c.G c.M c.Inc) close where
  nodup := h.anodup
  ac := fun _ hs => h.dgAclose hc ordA ordO hs
  ext := h.attrClosure_op.ext
  into := h.attrClosure_op.into
  cext := hclose.ext
  cinto := hclose.into

/-- Implications with conclusion among the attributes hold in the context iff every closed
set respects them. -/
theorem holdsIn_iff {c : Ctx α β} (h : WFw c) {P C : Finset β} (hC : C ⊆ c.M) :
    HoldsIn c.G c.Inc P C ↔ C ⊆ attrClosure c.G c.M c.Inc P := by
  rw [← h.aclF_eq]
  constructor
  · intro hh m hm
    rw [h.mem_aclF]
    exact ⟨List.mem_toFinset.1 (hC hm), fun o ho hB => hh o (List.mem_toFinset.2 ho) hB m hm⟩
  · intro hh o ho hB m hm
    exact (h.mem_aclF.1 (hh hm)).2 o (List.mem_toFinset.1 ho) hB

/-- A valid implication is respected by every intersection of intents. -/
theorem closed_attrClosure {c : Ctx α β} (h : WFw c) {L : List (Imp β)}
    (hval : ∀ i ∈ L, HoldsIn c.G c.Inc i.premise i.conclusion)
    (hover : ∀ i ∈ L, i.conclusion ⊆ c.M) (s : Finset β) :
    Closed (specImps L) (attrClosure c.G c.M c.Inc s) := by
  rw [closed_specImps, ← h.aclF_eq]
  intro i hi hp m hm
  rw [h.mem_aclF]
  refine ⟨List.mem_toFinset.1 (hover i hi hm), ?_⟩
  intro o ho hs
  exact hval i hi o (List.mem_toFinset.2 ho) (fun a ha => (h.mem_aclF.1 (hp ha)).2 o ho hs) m hm

theorem closed_of_eq {c : Ctx α β} (h : WFw c) {L : Imps β}
    (hval : ∀ i ∈ L, HoldsIn c.G c.Inc i.1 i.2)
    (hover : ∀ i ∈ L, i.2 ⊆ c.M) {s : Finset β} 
    (heq : attrClosure c.G c.M c.Inc s = s) : Closed L s := by
  intro i hi hp m hm
  rw [← heq, ← h.aclF_eq, h.mem_aclF]
  refine ⟨List.mem_toFinset.1 (hover i hi hm), ?_⟩
  intro o ho hs
  exact hval i hi o (List.mem_toFinset.2 ho) (fun a ha => hs a (hp ha)) m hm


/-! ### Runs that may raise -/

theorem dgLoop_returned {atts : List β} {aclose : Finset β → Py (Finset β)}
    {close : Finset β → List (Imp β) → Finset β} {bg : List (Imp β)} {cond : Finset β → Bool}
    (fuel : ℕ) : ∀ basis a i res,
      dgLoop atts aclose close bg cond fuel basis a i = some (.ok res) →
      ∀ x ∈ res, x ∈ basis ∨ (aclose x.premise = .ok x.conclusion ∧ x.premise ≠ x.conclusion ∧
        cond x.premise = true) := by
  induction fuel with
  | zero => intro basis a i res h; simp [dgLoop] at h
  | succ fuel ih =>
    intro basis a i res h x hx
    rw [dgLoop] at h
    split at h
    · cases hac : aclose a with
      | error e => rw [hac] at h; simp at h
      | ok ac =>
        rw [hac] at h
        have key : ∀ y ∈ (if a ≠ ac ∧ cond a = true then basis ++ [⟨a, ac⟩] else basis : List (Imp β)),
            y ∈ basis ∨ (aclose y.premise = .ok y.conclusion ∧ y.premise ≠ y.conclusion ∧
              cond y.premise = true) := by
          intro y hy
          split at hy
          · rename_i hcond
            rcases List.mem_append.1 hy with hy | hy
            · exact Or.inl hy
            · rw [List.mem_singleton] at hy; subst hy
              exact Or.inr ⟨hac, hcond⟩
          · exact Or.inl hy
        simp only at h
        have fin : ∀ b j, dgLoop atts aclose close bg cond fuel
            (if a ≠ ac ∧ cond a = true then basis ++ [⟨a, ac⟩] else basis) b j = some (.ok res) →
            x ∈ basis ∨ (aclose x.premise = .ok x.conclusion ∧ x.premise ≠ x.conclusion ∧
              cond x.premise = true) := by
          intro b j hl
          rcases ih _ _ _ _ hl x hx with hx | hx
          · exact key x hx
          · exact Or.inr hx
        split at h
        · exact fin _ _ h
        · split at h
          · simp only [Option.some.injEq, Except.ok.injEq] at h
            exact key x (h ▸ hx)
          · exact fin _ _ h
    · simp only [Option.some.injEq, Except.ok.injEq] at h
      exact Or.inl (h ▸ hx)

theorem dgLoop_or_err {atts : List β} {aclose aclose' : Finset β → Py (Finset β)}
    {close : Finset β → List (Imp β) → Finset β} {bg : List (Imp β)} {cond : Finset β → Bool}
    (hac : ∀ s, aclose s = aclose' s ∨ ∃ e, aclose s = .error e)
    (fuel : ℕ) : ∀ basis a i,
      dgLoop atts aclose close bg cond fuel basis a i =
          dgLoop atts aclose' close bg cond fuel basis a i ∨
        ∃ e, dgLoop atts aclose close bg cond fuel basis a i = some (.error e) := by
  induction fuel with
  | zero => intro basis a i; left; rfl
  | succ fuel ih =>
    intro basis a i
    rw [dgLoop, dgLoop]
    split
    · rcases hac a with h | ⟨e, h⟩
      · rw [h]
        cases aclose' a with
        | error e => left; rfl
        | ok ac =>
          simp only
          split
          · exact ih _ _ _
          · split
            · left; rfl
            · exact ih _ _ _
      · right; rw [h]; exact ⟨e, rfl⟩
    · left; rfl

theorem attributeExtent_mem {c : Ctx α β} {a : β} {s : Finset α} (h : c.attributeExtent a = .ok s) :
    a ∈ c.attributes := by
  by_contra hn
  rw [attributeExtent_err hn] at h
  cases h

theorem foldlM_inter_returned {γ δ : Type} [DecidableEq δ] {f : γ → Py (Finset δ)} :
    ∀ (l : List γ) (start r : Finset δ),
      l.foldlM (fun acc x => do let s ← f x; .ok (acc ∩ s)) start = (.ok r : Py (Finset δ)) →
      (∀ x ∈ l, ∃ s, f x = .ok s) ∧ r ⊆ start := by
  intro l
  induction l with
  | nil => intro start r h; simp at h; subst h; simp
  | cons x l ih =>
    intro start r h
    rw [List.foldlM_cons] at h
    cases hx : f x with
    | error e => rw [hx] at h; cases h
    | ok s =>
      rw [hx] at h
      obtain ⟨h1, h2⟩ := ih _ _ h
      refine ⟨?_, h2.trans Finset.inter_subset_left⟩
      intro y hy
      rcases List.mem_cons.1 hy with rfl | hy
      · exact ⟨s, hx⟩
      · exact h1 y hy

/-- Whenever the closure function returns, its argument consists of attributes and the result is
the closure. -/
theorem WFw.coAclosureSet_returned {c : Ctx α β} (h : WFw c) {ord : SetOrder α} {l : List β}
    {t : Finset β} (ht : c.coAclosureSet ord l = .ok t) :
    (∀ a ∈ l, a ∈ c.attributes) ∧ t = c.aclF l.toFinset := by
  unfold Ctx.coAclosureSet at ht
  cases hs : c.coAprime l with
  | error e => rw [hs] at ht; cases ht
  | ok s =>
    have hret := foldlM_inter_returned l _ _ hs
    have hmem : ∀ a ∈ l, a ∈ c.attributes := by
      intro a ha
      obtain ⟨s, hs⟩ := hret.1 a ha
      exact attributeExtent_mem hs
    refine ⟨hmem, ?_⟩
    by_cases hne : c.objects = []
    · rw [hs, py_ok_bind] at ht
      have hse : s = ∅ := by
        have := hret.2
        rw [hne] at this
        simpa using this
      have hen : ord.enum s = [] := by
        rw [List.eq_nil_iff_forall_not_mem]
        intro x hx
        rw [ord.mem, hse] at hx
        simp at hx
      rw [hen] at ht
      simp only [Ctx.coOprime, List.foldlM_nil, py_pure, Except.ok.injEq] at ht
      subst ht
      ext m
      rw [h.mem_aclF, hne]
      simp
    · have := h.coAclosureSet (h.cols hne) ord hmem
      unfold Ctx.coAclosureSet at this
      rw [this] at ht
      cases ht
      rfl

theorem WFw.dgAclose_returned {c : Ctx α β} (h : WFw c) {ordA : SetOrder β} {ordO : SetOrder α}
    {s t : Finset β} (ht : c.dgAclose ordA ordO s = .ok t) :
    s ⊆ c.M ∧ t = attrClosure c.G c.M c.Inc s := by
  obtain ⟨h1, h2⟩ := h.coAclosureSet_returned ht
  rw [ordA.toFinset, h.aclF_eq] at h2
  refine ⟨?_, h2⟩
  intro a ha
  exact List.mem_toFinset.2 (h1 a ((ordA.mem s a).2 ha))

open Classical in
/-- The closure function without the exceptions. -/
noncomputable def totalAclose (c : Ctx α β) (ordA : SetOrder β) (ordO : SetOrder α)
    (s : Finset β) : Py (Finset β) :=
  if s ⊆ c.M then .ok (attrClosure c.G c.M c.Inc s) else c.dgAclose ordA ordO s

theorem WFw.totalSetup {c : Ctx α β} (h : WFw c)
    (ordA : SetOrder β) (ordO : SetOrder α) {close : Finset β → List (Imp β) → Finset β}
    (hclose : GoodClose c.M close) :
    DGSetup c.attributes (c.totalAclose ordA ordO) (attrClosure c.G c.M c.Inc) close where
  nodup := h.anodup
  ac := fun _ hs => by rw [totalAclose, if_pos hs]
  ext := h.attrClosure_op.ext
  into := h.attrClosure_op.into
  cext := hclose.ext
  cinto := hclose.into

theorem WFw.total_cases {c : Ctx α β} (h : WFw c) (ordA : SetOrder β) (ordO : SetOrder α)
    (s : Finset β) : c.dgAclose ordA ordO s = c.totalAclose ordA ordO s ∨
      ∃ e, c.dgAclose ordA ordO s = .error e := by
  cases hs : c.dgAclose ordA ordO s with
  | error e => right; exact ⟨e, rfl⟩
  | ok t =>
    left
    obtain ⟨h1, h2⟩ := h.dgAclose_returned hs
    rw [totalAclose, if_pos h1, h2]

/-- A run on a context either raises or is the run with the exception-free closure. -/
theorem WFw.dgBasis_cases {c : Ctx α β} (h : WFw c) (ordA : SetOrder β) (ordO : SetOrder α)
    (close : Finset β → List (Imp β) → Finset β) (bg : List (Imp β)) (cond : Finset β → Bool) :
    dgBasisFuel c.attributes (c.dgAclose ordA ordO) close bg cond =
        dgBasisFuel c.attributes (c.totalAclose ordA ordO) close bg cond ∨
      ∃ e, dgBasisFuel c.attributes (c.dgAclose ordA ordO) close bg cond = some (.error e) :=
  dgLoop_or_err (h.total_cases ordA ordO) _ _ _ _

/-- If the run on the context returns, so does the exception-free one, with the same result. -/
theorem WFw.dgBasis_returned {c : Ctx α β} (h : WFw c) {ordA : SetOrder β} {ordO : SetOrder α}
    {close : Finset β → List (Imp β) → Finset β} {bg : List (Imp β)} {cond : Finset β → Bool}
    {res : List (Imp β)} (hres : c.dgBasisWith ordA ordO close bg cond = .ok res) :
    dgBasis c.attributes (c.totalAclose ordA ordO) close bg cond = .ok res := by
  unfold dgBasisWith dgBasis at hres
  unfold dgBasis
  rcases h.dgBasis_cases ordA ordO close bg cond with he | ⟨e, he⟩
  · rw [← he]; exact hres
  · rw [he] at hres; cases hres

theorem dgBasisFuel_of_ok {atts : List β} {aclose : Finset β → Py (Finset β)}
    {close : Finset β → List (Imp β) → Finset β} {bg : List (Imp β)} {cond : Finset β → Bool}
    {res : List (Imp β)} (h : dgBasis atts aclose close bg cond = .ok res) :
    dgBasisFuel atts aclose close bg cond = some (.ok res) := by
  unfold dgBasis at h
  cases hf : dgBasisFuel atts aclose close bg cond with
  | none => rw [hf] at h; cases h
  | some r => rw [hf] at h; exact congrArg some h

theorem goodBasis_simple {bg basis : List (Imp β)} (_ : GoodBasis bg basis) (s : Finset β) :
    IsLeastClosed (specImps (basis ++ bg)) s (simpleClosure s (basis ++ bg)) :=
  simpleClosure_isLeast _ _

theorem goodBasis_keys {bg basis : List (Imp β)} (hb : (bg.map Imp.key).Nodup)
    (h : GoodBasis bg basis) : ((basis ++ bg).map Imp.key).Nodup := by
  rw [List.map_append, List.nodup_append]
  refine ⟨h.1, hb, ?_⟩
  intro k hk k' hk' he
  subst he
  obtain ⟨i, hi, rfl⟩ := List.mem_map.1 hk
  obtain ⟨j, hj, hij⟩ := List.mem_map.1 hk'
  exact h.2 i hi j hj hij.symm

theorem goodBasis_lin {bg basis : List (Imp β)} (ord₀ : SetOrder β) (ord : ℕ → SetOrder β)
    (hb : (bg.map Imp.key).Nodup)
    (h : GoodBasis bg basis) (s : Finset β) :
    IsLeastClosed (specImps (basis ++ bg)) s (linClosure ord₀ ord s (basis ++ bg)) :=
  linClosure_isLeast ord₀ ord s _ (goodBasis_keys hb h)

end Ctx
