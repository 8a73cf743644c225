/-
Property C168 for all contexts: also those without objects, or whose table does not fit the names. What returns in one
iteration order returns the same in every other; only the kind of an exception can differ, and only if names of attributes
that do not exist are involved.
-/
import Verif.Props.HashOrder

set_option linter.unusedSectionVars false

variable {α β : Type} [DecidableEq α] [DecidableEq β]

namespace HashOrder

/-! ### Equal results or exceptions in both cases -/

/-- Both return the same value, or both raise. -/
def SameValue {γ : Type} (r r' : Py γ) : Prop := ∀ t, r = .ok t ↔ r' = .ok t

theorem SameValue.raises {γ : Type} {r r' : Py γ} (h : SameValue r r') : (∃ e, r = .error e) ↔ ∃ e, r' = .error e := by
  cases r with
  | ok t =>
    have := (h t).1 rfl
    subst this
    exact Iff.rfl
  | error e =>
    cases r' with
    | ok t => exact absurd ((h t).2 rfl) (by simp)
    | error e' => exact ⟨fun _ => ⟨e', rfl⟩, fun _ => ⟨e, rfl⟩⟩

theorem SameValue.bind {γ δ : Type} {r r' : Py γ} {f f' : γ → Py δ} (h : SameValue r r')
    (hf : ∀ x, SameValue (f x) (f' x)) : SameValue (r >>= f) (r' >>= f') := by
  intro t
  cases hr : r with
  | ok x =>
    rw [(h x).1 hr]
    exact hf x t
  | error e =>
    obtain ⟨e', he'⟩ := h.raises.1 ⟨e, hr⟩
    rw [he']
    constructor <;> intro h <;> cases h

/-- The loop of `oprime` and `aprime`: it returns if all rows (columns) are there, the set of what is in all of them. -/
theorem fold_ok {γ δ : Type} [DecidableEq δ] {g : γ → Py (Finset δ)} {l : List γ} {X t : Finset δ} :
    l.foldlM (fun acc a => do let s ← g a; .ok (acc ∩ s)) X = (.ok t : Py (Finset δ)) ↔
      (∀ a ∈ l, ∃ s, g a = .ok s) ∧ ∀ x, x ∈ t ↔ x ∈ X ∧ ∀ a ∈ l, ∀ s, g a = .ok s → x ∈ s := by
  induction l generalizing X with
  | nil =>
    simp only [List.foldlM_nil, List.not_mem_nil, false_implies, implies_true, true_and, and_true]
    constructor
    · intro h; cases h; exact fun _ => Iff.rfl
    · intro h
      have : X = t := by ext x; exact (h x).symm
      rw [this]; rfl
  | cons a l ih =>
    rw [List.foldlM_cons]
    cases hg : g a with
    | error e =>
      constructor
      · intro h; cases h
      · intro h
        obtain ⟨s, hs⟩ := h.1 a (by simp)
        rw [hg] at hs; cases hs
    | ok s =>
      refine (ih (X := X ∩ s)).trans ?_
      simp only [List.mem_cons, forall_eq_or_imp, hg, Except.ok.injEq, exists_eq', true_and, forall_eq', Finset.mem_inter,
        and_assoc]

theorem fold_same {γ δ : Type} [DecidableEq δ] {g : γ → Py (Finset δ)} {l l' : List γ} (h : SameSet l l') (X : Finset δ) :
    SameValue (l.foldlM (fun acc a => do let s ← g a; .ok (acc ∩ s)) X : Py (Finset δ))
      (l'.foldlM (fun acc a => do let s ← g a; .ok (acc ∩ s)) X) := by
  intro t
  rw [fold_ok, fold_ok]
  simp only [h _]

theorem fold_err {γ δ : Type} [DecidableEq δ] {g : γ → Py (Finset δ)} {l : List γ} {X : Finset δ} {e : PyErr}
    (h : l.foldlM (fun acc a => do let s ← g a; .ok (acc ∩ s)) X = (.error e : Py (Finset δ))) :
    ∃ a ∈ l, g a = .error e := by
  induction l generalizing X with
  | nil => cases h
  | cons a l ih =>
    rw [List.foldlM_cons] at h
    cases hg : g a with
    | error e' =>
      rw [hg] at h
      cases h
      exact ⟨a, by simp, hg⟩
    | ok s =>
      rw [hg] at h
      obtain ⟨b, hb, hb'⟩ := ih h
      exact ⟨b, by simp [hb], hb'⟩

/-- If only one kind of exception is possible the results are equal. -/
theorem SameValue.eq_of_err {γ : Type} {r r' : Py γ} (h : SameValue r r') (e₀ : PyErr) (h1 : ∀ e, r = .error e → e = e₀)
    (h2 : ∀ e, r' = .error e → e = e₀) : r = r' := by
  cases hr : r with
  | ok t => exact ((h t).1 hr).symm
  | error e =>
    obtain ⟨e', he'⟩ := h.raises.1 ⟨e, hr⟩
    rw [he', h1 e hr, h2 e' he']

/-! ### Derivation operators -/

/-- **C168**. For every context, well-formed or not: `oprime`, `aprime`, `oclosure`, `aclosure` of `closure_operators`
return in one order exactly if they do in any other, and then the same. -/
theorem C168_primes_all (c : Ctx α β) {A A' : List α} {B B' : List β} (hA : SameSet A A') (hB : SameSet B B')
    (ordO ordO' : SetOrder α) (ordA ordA' : SetOrder β) :
    SameValue (c.coOprime A) (c.coOprime A') ∧ SameValue (c.coAprime B) (c.coAprime B') ∧
    SameValue (c.coOclosureSet ordA A) (c.coOclosureSet ordA' A') ∧
    SameValue (c.coAclosureSet ordO B) (c.coAclosureSet ordO' B') :=
  ⟨fold_same hA _, fold_same hB _,
    SameValue.bind (fold_same hA _) fun s => fold_same (sameSet_enum ordA ordA' s) _,
    SameValue.bind (fold_same hB _) fun s => fold_same (sameSet_enum ordO ordO' s) _⟩

theorem mapM_pyGet_err {γ : Type} (l : List γ) {is : List ℕ} {e : PyErr} (h : is.mapM (pyGet l) = .error e) :
    e = .indexError := by
  induction is with
  | nil => cases h
  | cons i is ih =>
    rw [List.mapM_cons] at h
    cases hg : pyGet l i with
    | error e' =>
      rw [hg] at h
      cases h
      unfold pyGet at hg
      split at hg
      · cases hg
      · cases hg; rfl
    | ok x =>
      rw [hg] at h
      cases hm : is.mapM (pyGet l) with
      | error e' => rw [hm] at h; cases h; exact ih hm
      | ok xs => rw [hm] at h; cases h

theorem attributeExtent_known {c : Ctx α β} {a : β} (ha : a ∈ c.attributes) {e : PyErr}
    (h : c.attributeExtent a = .error e) : e = .indexError := by
  unfold Ctx.attributeExtent at h
  obtain ⟨j, hj⟩ := lastIdx_mem ha
  rw [hj, py_ok_bind] at h
  unfold Ctx.extentByIndex at h
  cases hc : c.nd.col j with
  | error e' =>
    rw [hc] at h
    cases h
    unfold Nd.col at hc
    split at hc
    · cases hc; rfl
    · split at hc <;> cases hc; rfl
  | ok r =>
    rw [hc, py_ok_bind] at h
    cases hm : (nonzero r).mapM (pyGet c.objects) with
    | error e' => rw [hm] at h; cases h; exact mapM_pyGet_err _ hm
    | ok xs => rw [hm] at h; cases h

theorem objectIntent_known {c : Ctx α β} {o : α} (ho : o ∈ c.objects) {e : PyErr}
    (h : c.objectIntent o = .error e) : e = .indexError := by
  unfold Ctx.objectIntent at h
  obtain ⟨i, hi⟩ := lastIdx_mem ho
  rw [hi, py_ok_bind] at h
  unfold Ctx.intentByIndex at h
  cases hc : c.nd.row i with
  | error e' =>
    rw [hc] at h
    cases h
    unfold Nd.row at hc
    split at hc
    · cases hc; rfl
    · unfold pyGet at hc
      split at hc <;> cases hc; rfl
  | ok r =>
    rw [hc, py_ok_bind] at h
    cases hm : (nonzero r).mapM (pyGet c.attributes) with
    | error e' => rw [hm] at h; cases h; exact mapM_pyGet_err _ hm
    | ok xs => rw [hm] at h; cases h

/-- **C168**. For names of the context the exception is the same too: every context, well-formed or not. -/
theorem C168_primes_known (c : Ctx α β) {B B' : List β} (hB : SameSet B B') (hk : ∀ a ∈ B, a ∈ c.attributes)
    (ordO ordO' : SetOrder α) :
    c.coAprime B = c.coAprime B' ∧ c.coAclosureSet ordO B = c.coAclosureSet ordO' B' := by
  have h1 : c.coAprime B = c.coAprime B' := by
    refine SameValue.eq_of_err (fold_same hB _) .indexError (fun e he => ?_) fun e he => ?_
    · obtain ⟨a, ha, he⟩ := fold_err he
      exact attributeExtent_known (hk a ha) he
    · obtain ⟨a, ha, he⟩ := fold_err he
      exact attributeExtent_known (hk a ((hB a).2 ha)) he
  refine ⟨h1, ?_⟩
  unfold Ctx.coAclosureSet
  rw [h1]
  cases hr : c.coAprime B' with
  | error e => rfl
  | ok s =>
    rw [py_ok_bind, py_ok_bind]
    have hs : ∀ o ∈ s, o ∈ c.objects := fun o ho => by
      have := ((fold_ok.1 hr).2 o).1 ho
      simpa using this.1
    refine SameValue.eq_of_err (fold_same (sameSet_enum ordO ordO' s) _) .indexError (fun e he => ?_) fun e he => ?_
    all_goals
      obtain ⟨o, ho, he⟩ := fold_err he
      exact objectIntent_known (hs o (by simpa using ho)) he

/-! ### Bases -/

theorem dgLoop_sameValue {γ : Type} [DecidableEq γ] (atts : List γ) {f f' : Finset γ → Py (Finset γ)}
    (hf : ∀ s, SameValue (f s) (f' s)) (close : Finset γ → List (Imp γ) → Finset γ) (bg : List (Imp γ))
    (cond : Finset γ → Bool) (fuel : ℕ) (basis : List (Imp γ)) (a : Finset γ) (i : ℕ) (t : List (Imp γ)) :
    dgLoop atts f close bg cond fuel basis a i = some (.ok t) ↔
      dgLoop atts f' close bg cond fuel basis a i = some (.ok t) := by
  induction fuel generalizing basis a i with
  | zero => exact Iff.rfl
  | succ n ih =>
    simp only [dgLoop]
    by_cases hc : a.card < atts.length
    · rw [if_pos hc, if_pos hc]
      cases hr : f a with
      | ok ac =>
        rw [(hf a ac).1 hr]
        dsimp only
        split
        · exact ih _ _ _
        · split
          · exact Iff.rfl
          · exact ih _ _ _
      | error e =>
        obtain ⟨e', he'⟩ := (hf a).raises.1 ⟨e, hr⟩
        rw [he']
        simp
    · rw [if_neg hc, if_neg hc]

theorem dgBasis_sameValue {γ : Type} [DecidableEq γ] (atts : List γ) {f f' : Finset γ → Py (Finset γ)}
    (hf : ∀ s, SameValue (f s) (f' s)) (close : Finset γ → List (Imp γ) → Finset γ) (bg : List (Imp γ))
    (cond : Finset γ → Bool) : SameValue (dgBasis atts f close bg cond) (dgBasis atts f' close bg cond) := by
  intro t
  have h : ∀ o : Option (Py (List (Imp γ))), o.getD (.error .genericException) = .ok t ↔ o = some (.ok t) := by
    intro o; cases o <;> simp
  unfold dgBasis dgBasisFuel
  rw [h, h]
  exact dgLoop_sameValue atts hf close bg cond _ _ _ _ t

theorem dgIterLoop_sameValue {γ : Type} [DecidableEq γ] (atts : List γ) {f f' : Finset γ → Py (Finset γ)}
    (hf : ∀ s, SameValue (f s) (f' s)) (close : Finset γ → List (Imp γ) → Finset γ) (bg : List (Imp γ))
    (cond : Finset γ → Bool) (fuel : ℕ) (basis : List (Imp γ)) (a : Finset γ) (i : ℕ) :
    (dgIterLoop atts f close bg cond fuel basis a i).1 = (dgIterLoop atts f' close bg cond fuel basis a i).1 ∧
    ((dgIterLoop atts f close bg cond fuel basis a i).2 = .done ↔
      (dgIterLoop atts f' close bg cond fuel basis a i).2 = .done) := by
  induction fuel generalizing basis a i with
  | zero => exact ⟨rfl, Iff.rfl⟩
  | succ n ih =>
    simp only [dgIterLoop]
    by_cases hc : a.card < atts.length
    · rw [if_pos hc, if_pos hc]
      cases hr : f a with
      | ok ac =>
        rw [(hf a ac).1 hr]
        dsimp only
        split
        · exact ⟨by dsimp only; rw [(ih _ _ _).1], (ih _ _ _).2⟩
        · split
          · exact ⟨rfl, Iff.rfl⟩
          · exact ⟨by dsimp only; rw [(ih _ _ _).1], (ih _ _ _).2⟩
      | error e =>
        obtain ⟨e', he'⟩ := (hf a).raises.1 ⟨e, hr⟩
        rw [he']
        simp
    · rw [if_neg hc, if_neg hc]
      exact ⟨rfl, Iff.rfl⟩

/-- **C168**. For every context, well-formed or not, all background implications, conditions and closure functions: the
basis computations return in one order exactly if they do in any other, and then the same list; the iterator yields the
same implications, whether or not it raises then. -/
theorem C168_basis_all (c : Ctx α β) (ordA ordA' : SetOrder β) (ordO ordO' : SetOrder α) (ord₀ ord₀' : SetOrder β)
    (ord ord' : ℕ → SetOrder β) (close : Finset β → List (Imp β) → Finset β) (bg : List (Imp β)) (cond : Finset β → Bool) :
    SameValue (c.computeDgBasis ordA ordO ord₀ ord bg cond) (c.computeDgBasis ordA' ordO' ord₀' ord' bg cond) ∧
    SameValue (c.dgBasisWith ordA ordO close bg cond) (c.dgBasisWith ordA' ordO' close bg cond) ∧
    (c.dgBasisIterSimple ordA ordO bg cond).1 = (c.dgBasisIterSimple ordA' ordO' bg cond).1 ∧
    ((c.dgBasisIterSimple ordA ordO bg cond).2 = .done ↔ (c.dgBasisIterSimple ordA' ordO' bg cond).2 = .done) := by
  have hf : ∀ s, SameValue (c.dgAclose ordA ordO s) (c.dgAclose ordA' ordO' s) := fun s =>
    SameValue.bind (fold_same (sameSet_enum ordA ordA' s) _) fun s => fold_same (sameSet_enum ordO ordO' s) _
  refine ⟨?_, dgBasis_sameValue _ hf _ _ _, dgIterLoop_sameValue _ hf _ _ _ _ _ _ _⟩
  unfold Ctx.computeDgBasis
  rw [C168_lin_closure ord₀ ord₀' ord ord']
  exact dgBasis_sameValue _ hf _ _ _

theorem dgNext_over {γ : Type} [DecidableEq γ] {M : Finset γ} {close : Finset γ → List (Imp γ) → Finset γ} {L : List (Imp γ)}
    (hcl : ∀ s ⊆ M, close s L ⊆ M) {atts : List γ} (hat : ∀ x ∈ atts, x ∈ M) :
    ∀ (j : ℕ) {a : Finset γ}, a ⊆ M → (dgNext close atts L j a).1 ⊆ M := by
  intro j
  induction j with
  | zero => intro a ha; exact ha
  | succ j ih =>
    intro a ha
    simp only [dgNext]
    cases hm : atts[j]? with
    | none => exact ha
    | some m =>
      have hmM : m ∈ M := hat m (List.mem_of_getElem? hm)
      dsimp only
      split
      · exact ih ((Finset.erase_subset _ _).trans ha)
      · split
        · exact hcl _ (Finset.insert_subset hmM ha)
        · exact ih ha

/-- The computation of the basis asks only about sets of attributes if the background has only names of attributes. -/
theorem dgLoop_over {γ : Type} [DecidableEq γ] {M : Finset γ} {atts : List γ} (hat : ∀ x ∈ atts, x ∈ M)
    {f f' : Finset γ → Py (Finset γ)} (hf : ∀ s ⊆ M, f s = f' s) (hfM : ∀ s t, f s = .ok t → t ⊆ M)
    {close : Finset γ → List (Imp γ) → Finset γ}
    (hcl : ∀ L : List (Imp γ), (∀ i ∈ L, i.conclusion ⊆ M) → ∀ s ⊆ M, close s L ⊆ M) {bg : List (Imp γ)}
    (hbg : ∀ i ∈ bg, i.conclusion ⊆ M) (cond : Finset γ → Bool) (fuel : ℕ) {basis : List (Imp γ)}
    (hb : ∀ i ∈ basis, i.conclusion ⊆ M) {a : Finset γ} (ha : a ⊆ M) (i : ℕ) :
    dgLoop atts f close bg cond fuel basis a i = dgLoop atts f' close bg cond fuel basis a i ∧
    dgIterLoop atts f close bg cond fuel basis a i = dgIterLoop atts f' close bg cond fuel basis a i := by
  induction fuel generalizing basis a i with
  | zero => exact ⟨rfl, rfl⟩
  | succ n ih =>
    simp only [dgLoop, dgIterLoop]
    rw [hf a ha]
    by_cases hc : a.card < atts.length
    · simp only [if_pos hc]
      cases hr : f' a with
      | error e => exact ⟨rfl, rfl⟩
      | ok ac =>
        have hac : ac ⊆ M := hfM a ac (by rw [hf a ha, hr])
        have hb1 : ∀ i ∈ (if a ≠ ac ∧ cond a = true then basis ++ [⟨a, ac⟩] else basis), i.conclusion ⊆ M := by
          intro i hi
          split at hi
          · rcases List.mem_append.1 hi with hi | hi
            · exact hb i hi
            · simp only [List.mem_singleton] at hi; subst hi; exact hac
          · exact hb i hi
        have hb2 : ∀ i ∈ basis ++ (if a ≠ ac ∧ cond a = true then [⟨a, ac⟩] else []), i.conclusion ⊆ M := by
          intro i hi
          rcases List.mem_append.1 hi with hi | hi
          · exact hb i hi
          · split at hi
            · simp only [List.mem_singleton] at hi; subst hi; exact hac
            · simp at hi
        have happ : ∀ L : List (Imp γ), (∀ i ∈ L, i.conclusion ⊆ M) → ∀ i ∈ L ++ bg, i.conclusion ⊆ M := by
          intro L hL i hi
          rcases List.mem_append.1 hi with hi | hi
          · exact hL i hi
          · exact hbg i hi
        dsimp only
        by_cases h1 : (ac \ a) ∩ (atts.take i).toFinset ≠ ∅
        · simp only [if_pos h1]
          have hs := Finset.sdiff_subset (s := a) (t := (atts.drop i).toFinset) |>.trans ha
          refine ⟨(ih hb1 (dgNext_over (hcl _ (happ _ hb1)) hat i hs) _).1, ?_⟩
          rw [(ih hb2 (dgNext_over (hcl _ (happ _ hb2)) hat i hs) _).2]
        · simp only [if_neg h1]
          by_cases h2 : ac.card = atts.length
          · simp only [if_pos h2, and_self]
          · simp only [if_neg h2]
            refine ⟨(ih hb1 (dgNext_over (hcl _ (happ _ hb1)) hat _ hac) _).1, ?_⟩
            rw [(ih hb2 (dgNext_over (hcl _ (happ _ hb2)) hat _ hac) _).2]
    · simp only [if_neg hc, and_self]

theorem simpleClosure_over {M : Finset β} {L : List (Imp β)} (h : ∀ i ∈ L, i.conclusion ⊆ M) {s : Finset β} (hs : s ⊆ M) :
    simpleClosure s L ⊆ M := by
  refine (simpleClosure_isLeast s L).2.2 M hs ?_
  rw [closed_specImps]
  exact fun i hi _ => h i hi

theorem linClosure_over (ord₀ : SetOrder β) (ord : ℕ → SetOrder β) {M : Finset β} {L : List (Imp β)}
    (h : ∀ i ∈ L, i.conclusion ⊆ M) {s : Finset β} (hs : s ⊆ M) : linClosure ord₀ ord s L ⊆ M := by
  refine (C21_exact ord₀ ord s L).2 ⟨hs, fun i _ j hj _ => h j ?_⟩
  have hj := List.mem_of_getElem? hj
  unfold copies at hj
  exact (List.mem_filter.1 hj).1

/-- **C168**. If the conclusions of the background name only attributes of the context, the exception is the same too:
every context, well-formed or not, and every condition. -/
theorem C168_basis_known (c : Ctx α β) (ordA ordA' : SetOrder β) (ordO ordO' : SetOrder α) (ord₀ ord₀' : SetOrder β)
    (ord ord' : ℕ → SetOrder β) (bg : List (Imp β)) (hbg : ∀ i ∈ bg, ∀ x ∈ i.conclusion, x ∈ c.attributes)
    (cond : Finset β → Bool) :
    c.computeDgBasis ordA ordO ord₀ ord bg cond = c.computeDgBasis ordA' ordO' ord₀' ord' bg cond ∧
    c.computeDgBasisSimple ordA ordO bg cond = c.computeDgBasisSimple ordA' ordO' bg cond ∧
    c.dgBasisIterSimple ordA ordO bg cond = c.dgBasisIterSimple ordA' ordO' bg cond := by
  have hat : ∀ x ∈ c.attributes, x ∈ c.attributes.toFinset := fun x hx => by simpa using hx
  have hbg' : ∀ i ∈ bg, i.conclusion ⊆ c.attributes.toFinset := fun i hi x hx => by simpa using hbg i hi x hx
  have hf : ∀ s ⊆ c.attributes.toFinset, c.dgAclose ordA ordO s = c.dgAclose ordA' ordO' s := by
    intro s hs
    exact (C168_primes_known c (sameSet_enum ordA ordA' s) (fun a ha => by simpa using hs (by simpa using ha)) ordO ordO').2
  have hfM : ∀ s t, c.dgAclose ordA ordO s = .ok t → t ⊆ c.attributes.toFinset := by
    intro s t ht
    unfold Ctx.dgAclose Ctx.coAclosureSet at ht
    cases hr : c.coAprime (ordA.enum s) with
    | error e => rw [hr] at ht; cases ht
    | ok u =>
      rw [hr, py_ok_bind] at ht
      exact fun x hx => (((fold_ok.1 ht).2 x).1 hx).1
  have hl := fun L h s hs => linClosure_over ord₀ ord (M := c.attributes.toFinset) (L := L) h (s := s) hs
  have hs := fun L h s hs => simpleClosure_over (M := c.attributes.toFinset) (L := L) h (s := s) hs
  have h0 : ∀ i ∈ ([] : List (Imp β)), i.conclusion ⊆ c.attributes.toFinset := by simp
  refine ⟨?_, ?_, ?_⟩
  · unfold Ctx.computeDgBasis
    rw [← C168_lin_closure ord₀ ord₀' ord ord']
    unfold Ctx.dgBasisWith dgBasis dgBasisFuel
    rw [(dgLoop_over hat hf hfM hl hbg' cond _ h0 (hl bg hbg' ∅ (by simp)) _).1]
  · unfold Ctx.computeDgBasisSimple Ctx.dgBasisWith dgBasis dgBasisFuel
    rw [(dgLoop_over hat hf hfM hs hbg' cond _ h0 (hs bg hbg' ∅ (by simp)) _).1]
  · unfold Ctx.dgBasisIterSimple dgIter
    rw [(dgLoop_over hat hf hfM hs hbg' cond _ h0 (hs bg hbg' ∅ (by simp)) _).2]

section partialContext
variable [PyName α] [PyName β]

/-- **C168**. `get_attribute_implications` of every partial context, well-formed or not. -/
theorem C168_partial_context_all (p : PCtx α β) (ordA ordA' : SetOrder β) (ordO ordO' : SetOrder α) (L : List (Imp β))
    (cond : Finset β → Bool) : SameValue (p.dgBasis ordA ordO L cond) (p.dgBasis ordA' ordO' L cond) :=
  dgBasis_sameValue _ (fun s => SameValue.bind (fold_same (sameSet_enum ordA ordA' s) _)
    fun s => fold_same (sameSet_enum ordO ordO' s) _) _ _ _

end partialContext

/-! ### Indices -/

theorem mapM_sum_same {γ δ ε : Type} [DecidableEq γ] {g : γ → Py (Finset δ)} (o o' : SetOrder γ) {s : Finset γ} {e₀ : PyErr}
    (h : ∀ x ∈ s, ∀ e, g x = .error e → e = e₀) (f : ℤ → Py ε) :
    ((o.enum s).mapM g >>= fun l => f (l.map fun t => (t.card : ℤ)).sum) =
      ((o'.enum s).mapM g >>= fun l => f (l.map fun t => (t.card : ℤ)).sum) := by
  by_cases hok : ∀ x ∈ s, ∃ t, g x = .ok t
  · let k : γ → Finset δ := fun x => match g x with | .ok t => t | .error _ => ∅
    have hk : ∀ x ∈ s, g x = .ok (k x) := by
      intro x hx
      obtain ⟨t, ht⟩ := hok x hx
      simp only [k, ht]
    rw [mapM_ok (g := k) fun x hx => hk x (by simpa using hx), mapM_ok (g := k) fun x hx => hk x (by simpa using hx),
      py_ok_bind, py_ok_bind]
    have hp : (o.enum s).Perm (o'.enum s) :=
      (List.perm_ext_iff_of_nodup (o.nodup s) (o'.nodup s)).2 fun x => by simp
    rw [((hp.map k).map fun t => (t.card : ℤ)).sum_eq]
  · push Not at hok
    obtain ⟨x, hx, hn⟩ := hok
    have hx0 : g x = .error e₀ := by
      cases hg : g x with
      | ok t => exact absurd hg (hn t)
      | error e => rw [h x hx e hg]
    have he : ∀ q : SetOrder γ, (q.enum s).mapM g = .error e₀ := fun q =>
      mapM_err (fun y hy => by
        cases hg : g y with
        | ok t => exact .inr ⟨t, rfl⟩
        | error e => exact .inl (by rw [h y (by simpa using hy) e hg])) ⟨x, by simpa using hx, hx0⟩
    rw [he o, he o']

/-- **C168**. The separation index for every context, well-formed or not, and all lists of concepts over its names: the same
values or the same exception. -/
theorem C168_separation_all (c : Ctx α β) (ordO ordO' : SetOrder α) (ordA ordA' : SetOrder β) (cs : List (Concept α β))
    (hk : ∀ x ∈ cs, x.extent ⊆ c.objects.toFinset ∧ x.intent ⊆ c.attributes.toFinset) :
    separation c ordO ordA cs = separation c ordO' ordA' cs := by
  have h1 : ∀ x ∈ cs, separationOf c ordO ordA x = separationOf c ordO' ordA' x := by
    intro x hx
    obtain ⟨hO, hA⟩ := hk x hx
    unfold separationOf
    dsimp only
    have ho := fun k : ℤ => mapM_sum_same (g := c.objectIntent) ordO ordO' (s := x.extent) (e₀ := .indexError)
      (fun o ho e he => objectIntent_known (by simpa using hO ho) he)
      (fun n => if ((x.intent.card : ℤ) * x.extent.card) = 0 then .ok 1
        else pyDiv ((x.intent.card : ℤ) * x.extent.card) (k + n - (x.intent.card : ℤ) * x.extent.card))
    have ha := mapM_sum_same (g := c.attributeExtent) ordA ordA' (s := x.intent) (e₀ := .indexError)
      (fun a ha e he => attributeExtent_known (by simpa using hA ha) he)
      (fun k => (ordO'.enum x.extent).mapM c.objectIntent >>= fun l =>
        if ((x.intent.card : ℤ) * x.extent.card) = 0 then .ok 1
        else pyDiv ((x.intent.card : ℤ) * x.extent.card)
          (k + (l.map fun t => (t.card : ℤ)).sum - (x.intent.card : ℤ) * x.extent.card))
    rw [← ha]
    congr 1
    funext l
    exact ho _
  unfold separation
  have h2 : ∀ l : List (Concept α β), (∀ x ∈ l, x ∈ cs) →
      (l.mapM fun x => do let q ← separationOf c ordO ordA x; (.ok (x, q) : Py _)) =
        (l.mapM fun x => do let q ← separationOf c ordO' ordA' x; (.ok (x, q) : Py _)) := by
    intro l
    induction l with
    | nil => intro _; rfl
    | cons x l ih =>
      intro hl
      rw [List.mapM_cons, List.mapM_cons, h1 x (hl x (by simp)), ih fun y hy => hl y (by simp [hy])]
  exact h2 cs fun _ h => h

/-- **C168**. Stability, separation and probability of the concepts of a lattice, also without objects: the same values or
the same exception. -/
theorem C168_indices_all {c : Ctx α β} (h : c.WFw) {L : CLattice α β} (hL : makeLattice c = .ok L)
    (ord ord' : ℕ → SetOrder (Concept α β)) (ordO ordO' : SetOrder α) (ordA ordA' ord₁ ord₁' : SetOrder β) :
    istability ord L.concepts = istability ord' L.concepts ∧ estability ord L.concepts = estability ord' L.concepts ∧
    separation c ordO ordA L.concepts = separation c ordO' ordA' L.concepts ∧
    computeProbability ordA ord₁ L = computeProbability ordA' ord₁' L := by
  obtain ⟨L', e, hctx, -, -, hmem, -⟩ := makeLattice_ok h
  rw [hL] at e
  cases e
  by_cases hne : c.objects ≠ []
  · exact C168_indices h hne hL ord ord' ordO ordO' ordA ordA' ord₁ ord₁'
  · push Not at hne
    have hlen : c.len = 0 := by
      unfold Ctx.len
      rw [h.nrows, hne]; rfl
    refine ⟨?_, ?_, ?_, ?_⟩
    · obtain ⟨L₁, st₁, e1, f1, g1, k1⟩ := C41_istability h ord
      obtain ⟨L₂, st₂, e2, f2, g2, k2⟩ := C41_istability h ord'
      rw [hL] at e1 e2; cases e1; cases e2
      rw [f1, f2]
      have : st₁ = st₂ := by
        funext x
        by_cases hx : x ∈ L.concepts
        · rw [g1 x hx, g2 x hx]
        · rw [k1 x hx, k2 x hx]
      rw [this]
    · obtain ⟨L₁, st₁, e1, f1, g1, k1⟩ := C42_estability h ord
      obtain ⟨L₂, st₂, e2, f2, g2, k2⟩ := C42_estability h ord'
      rw [hL] at e1 e2; cases e1; cases e2
      rw [f1, f2]
      have : st₁ = st₂ := by
        funext x
        by_cases hx : x ∈ L.concepts
        · rw [g1 x hx, g2 x hx]
        · rw [k1 x hx, k2 x hx]
      rw [this]
    · refine C168_separation_all c ordO ordO' ordA ordA' L.concepts fun x hx => ?_
      have hc := (hmem x).1 hx
      exact ⟨fun o ho => ((hc.2 o).1 ho).1, fun a ha => ((hc.1 a).1 ha).1⟩
    · unfold computeProbability
      rw [hctx]
      cases hat : c.attributes with
      | nil =>
        have hint : ∀ x ∈ L.concepts, x.intent = ∅ := by
          intro x hx
          refine Finset.eq_empty_of_forall_notMem fun a ha => ?_
          have := ((((hmem x).1 hx).1 a).1 ha).1
          simp [Ctx.M, hat] at this
        have hen : ∀ o : SetOrder β, o.enum ∅ = [] := fun o => List.eq_nil_iff_forall_not_mem.2 fun x hx => by simp at hx
        rw [List.mapM_nil]
        show Except.ok _ = Except.ok _
        congr 1
        refine List.map_congr_left fun x hx => ?_
        rw [hint x hx]
        simp [intentProb, hen]
      | cons a l =>
        have hz : attrProb c a = .error .zeroDivisionError := by
          unfold attrProb
          rw [hlen]; rfl
        rw [List.mapM_cons, hz]
        rfl

/-! ### Concrete cases -/

/-- Without objects: the same exception in all orders, and a basis that is returned. -/
example (ordA : SetOrder (Fin 3)) (ordO : SetOrder (Fin 3)) :
    (⟨[], [0, 1, 2], ⟨none, []⟩⟩ : Ctx (Fin 3) (Fin 3)).computeDgBasisSimple ordA ordO [⟨∅, {0, 1}⟩] (fun _ => true) =
      .error .indexError ∧
    (⟨[], [0, 1, 2], ⟨none, []⟩⟩ : Ctx (Fin 3) (Fin 3)).computeDgBasisSimple ordA ordO [] (fun _ => true) =
      .ok [⟨∅, {0, 1, 2}⟩] := by
  constructor
  · rw [(C168_basis_known _ ordA (SetOrder.fin 3) ordO (SetOrder.fin 3) (SetOrder.fin 3) (SetOrder.fin 3)
      (fun _ => SetOrder.fin 3) (fun _ => SetOrder.fin 3) _ (by decide) _).2.1]
    decide +kernel
  · rw [(C168_basis_known _ ordA (SetOrder.fin 3) ordO (SetOrder.fin 3) (SetOrder.fin 3) (SetOrder.fin 3)
      (fun _ => SetOrder.fin 3) (fun _ => SetOrder.fin 3) _ (by decide) _).2.1]
    decide +kernel

/-- Without objects the lattice has one concept, and the separation index raises in every order. -/
example (ordO : SetOrder (Fin 3)) (ordA : SetOrder (Fin 3)) :
    separation (⟨[], [0, 1, 2], ⟨none, []⟩⟩ : Ctx (Fin 3) (Fin 3)) ordO ordA [⟨∅, {0, 1, 2}⟩] = .error .indexError := by
  rw [C168_separation_all _ ordO (SetOrder.fin 3) ordA (SetOrder.fin 3) _ (by decide)]
  decide +kernel

end HashOrder
