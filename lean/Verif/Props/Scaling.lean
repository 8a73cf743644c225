/-
Properties of conceptual scaling: C63, C64, C65.
-/
import Verif.Model.Scaling
import Verif.Lemmas.ContextOps
import Verif.Props.Reduce

set_option linter.unusedSectionVars false

open Ctx Spec

theorem foldlM_range_inv {σ : Type} {f : σ → ℕ → Py σ} (P : ℕ → σ → Prop) {n : ℕ} {s₀ s : σ} (h₀ : P 0 s₀)
    (hstep : ∀ k s s', k < n → P k s → f s k = .ok s' → P (k + 1) s')
    (h : (List.range n).foldlM f s₀ = .ok s) : P n s := by
  induction n generalizing s with
  | zero =>
    simp only [List.range_zero, List.foldlM_nil] at h
    cases h
    exact h₀
  | succ n ih =>
    rw [List.range_succ, List.foldlM_append] at h
    obtain ⟨t, h1, h2⟩ := bind_ok h
    simp only [List.foldlM_cons, List.foldlM_nil] at h2
    obtain ⟨u, h3, h4⟩ := bind_ok h2
    cases h4
    exact hstep n t s (by omega) (ih (fun k s s' hk => hstep k s s' (by omega)) h1) h3

theorem foldlM_range_returns {σ : Type} {f : σ → ℕ → Py σ} (P : ℕ → σ → Prop) {n : ℕ} {s₀ : σ} (h₀ : P 0 s₀)
    (hstep : ∀ k s, k < n → P k s → ∃ s', f s k = .ok s' ∧ P (k + 1) s') :
    ∃ s, (List.range n).foldlM f s₀ = .ok s ∧ P n s := by
  induction n with
  | zero => exact ⟨s₀, rfl, h₀⟩
  | succ n ih =>
    obtain ⟨t, h1, h2⟩ := ih fun k s hk => hstep k s (by omega)
    obtain ⟨u, h3, h4⟩ := hstep n t (by omega) h2
    refine ⟨u, ?_, h4⟩
    rw [List.range_succ, List.foldlM_append, h1]
    simp only [py_ok_bind, List.foldlM_cons, List.foldlM_nil, h3]
    rfl

section columns

variable {β ω V : Type} [DecidableEq β] [DecidableEq ω]

/-- One row of the scale: the entries that become true. -/
theorem scaleObj_all {n : ℕ} {get : ℕ → Py V} {holds : V → Py Bool} {cross : Py Bool} {d d' : List Bool}
    (hd : d.length = n) (h : (List.range n).foldlM (scaleObj get holds cross) d = .ok d') :
    d'.length = n ∧ ∀ i < n, (d'[i]? = some true ↔ d[i]? = some true ∨
      ∃ v, get i = .ok v ∧ holds v = .ok true ∧ cross = .ok true) := by
  have := foldlM_range_inv (P := fun k e => e.length = n ∧
      (∀ i < k, (e[i]? = some true ↔ d[i]? = some true ∨
        ∃ v, get i = .ok v ∧ holds v = .ok true ∧ cross = .ok true)) ∧ ∀ i, k ≤ i → e[i]? = d[i]?)
    (s₀ := d) ⟨hd, by simp, by simp⟩ ?_ h
  · exact ⟨this.1, this.2.1⟩
  · rintro k s s' hk ⟨h1, h2, h3⟩ hs
    have hsk : s[k]? = d[k]? := h3 k le_rfl
    have hlt : k < s.length := by omega
    unfold scaleObj at hs
    have key : s'.length = n ∧ (∀ i, i ≠ k → s'[i]? = s[i]?) ∧
        (s'[k]? = some true ↔ d[k]? = some true ∨
        ∃ v, get k = .ok v ∧ holds v = .ok true ∧ cross = .ok true) := by
      split_ifs at hs with hb
      · cases hs
        refine ⟨h1, fun _ _ => rfl, ?_⟩
        have : s[k]? = some true := by
          rw [List.getElem?_eq_getElem hlt]
          rw [List.getD_eq_getElem?_getD, List.getElem?_eq_getElem hlt] at hb
          simpa using hb
        rw [← hsk, this]
        simp
      · have hf : d[k]? = some false := by
          rw [← hsk, List.getElem?_eq_getElem hlt]
          rw [List.getD_eq_getElem?_getD, List.getElem?_eq_getElem hlt] at hb
          simpa using hb
        obtain ⟨v, hv, hs⟩ := bind_ok hs
        obtain ⟨b, hb', hs⟩ := bind_ok hs
        cases b with
        | true =>
          simp only [if_true] at hs
          obtain ⟨x, hx, hs⟩ := bind_ok hs
          cases hs
          refine ⟨by simp [h1], fun i hi => by rw [List.getElem?_set_ne (Ne.symm hi)], ?_⟩
          rw [List.getElem?_set_self hlt, hf]
          constructor
          · intro he
            refine .inr ⟨v, hv, hb', ?_⟩
            rw [hx]; simpa using he
          · rintro (he | ⟨v', -, -, h4⟩)
            · simp at he
            · rw [hx] at h4; cases h4; rfl
        | false =>
          simp only [Bool.false_eq_true, if_false] at hs
          cases hs
          refine ⟨h1, fun _ _ => rfl, ?_⟩
          rw [hsk, hf]
          constructor
          · intro he; simp at he
          · rintro (he | ⟨v', h4, h5, -⟩)
            · simp at he
            · rw [hv] at h4; cases h4; rw [hb'] at h5; cases h5
    refine ⟨key.1, ?_, fun i hi => ?_⟩
    · intro i hi
      rcases Nat.lt_succ_iff_lt_or_eq.1 hi with hi | rfl
      · rw [key.2.1 i (by omega)]; exact h2 i hi
      · exact key.2.2
    · rw [key.2.1 i (by omega)]; exact h3 i (by omega)

/-- Some row of the scale whose condition holds for the value has a cross in the column. -/
def Crossed (holds : ω → V → Py Bool) (scale : Ctx ω β) (v : V) (col : ℕ) : Prop :=
  ∃ (row : ℕ) (w : ω) (r : List Bool), scale.objects[row]? = some w ∧ holds w v = .ok true ∧
    scale.nd.rows[row]? = some r ∧ r[col]? = some true

theorem getItem_true {ω β : Type} [DecidableEq β] [DecidableEq ω] {c : Ctx ω β} {i j : ℕ} :
    c.getItem i j = .ok true ↔ ∃ r, c.nd.rows[i]? = some r ∧ r[j]? = some true := by
  unfold Ctx.getItem Nd.cell
  constructor
  · intro h
    obtain ⟨r, h1, h2⟩ := bind_ok h
    exact ⟨r, pyGet_ok_iff.1 h1, pyGet_ok_iff.1 h2⟩
  · rintro ⟨r, h1, h2⟩
    rw [pyGet_ok h1]
    exact pyGet_ok h2

theorem scaleCol_spec {n : ℕ} {get : ℕ → Py V} {holds : ω → V → Py Bool} {scale : Ctx ω β} {col : ℕ} {d : List Bool}
    (h : scaleCol n get holds scale col = .ok d) :
    d.length = n ∧ ∀ i < n, (d[i]? = some true ↔ ∃ v, get i = .ok v ∧ Crossed holds scale v col) := by
  have := foldlM_range_inv (P := fun k e => e.length = n ∧ ∀ i < n, (e[i]? = some true ↔
      ∃ v, get i = .ok v ∧ ∃ row < k, ∃ w, scale.objects[row]? = some w ∧ holds w v = .ok true ∧
        scale.getItem row col = .ok true)) ?_ ?_ h
  · refine ⟨this.1, fun i hi => ?_⟩
    rw [this.2 i hi]
    constructor
    · rintro ⟨v, hv, row, -, w, h1, h2, h3⟩
      obtain ⟨r, h4, h5⟩ := getItem_true.1 h3
      exact ⟨v, hv, row, w, r, h1, h2, h4, h5⟩
    · rintro ⟨v, hv, row, w, r, h1, h2, h4, h5⟩
      exact ⟨v, hv, row, (List.getElem?_eq_some_iff.1 h1).1, w, h1, h2, getItem_true.2 ⟨r, h4, h5⟩⟩
  · refine ⟨by simp, fun i hi => ?_⟩
    simp [List.getElem?_replicate]
  · rintro k s s' hk ⟨h1, h2⟩ hs
    obtain ⟨w, hw, hs⟩ := bind_ok hs
    obtain ⟨h3, h4⟩ := scaleObj_all h1 hs
    refine ⟨h3, fun i hi => ?_⟩
    rw [h4 i hi, h2 i hi]
    constructor
    · rintro (⟨v, hv, row, hr, w', h5⟩ | ⟨v, hv, h5, h6⟩)
      · exact ⟨v, hv, row, by omega, w', h5⟩
      · exact ⟨v, hv, k, by omega, w, pyGet_ok_iff.1 hw, h5, h6⟩
    · rintro ⟨v, hv, row, hr, w', h5, h6, h7⟩
      rcases Nat.lt_succ_iff_lt_or_eq.1 hr with hr | rfl
      · exact .inl ⟨v, hv, row, hr, w', h5, h6, h7⟩
      · rw [pyGet_ok_iff.1 hw] at h5
        cases h5
        exact .inr ⟨v, hv, h6, h7⟩

/-- Rows of the scale as long as needed and conditions that do not raise. -/
theorem scaleCol_returns {n : ℕ} {get : ℕ → Py V} {holds : ω → V → Py Bool} {scale : Ctx ω β} {col : ℕ}
    (hs : scale.WFw) (hcol : col < scale.attributes.length)
    (hv : ∀ i < n, ∃ v, get i = .ok v ∧ ∀ w ∈ scale.objects, ∃ b, holds w v = .ok b) :
    ∃ d, scaleCol n get holds scale col = .ok d := by
  unfold scaleCol
  have hstep : ∀ (row : ℕ) (s : List Bool), row < scale.objects.length → True → ∃ s', (do
      let w ← pyGet scale.objects row
      (List.range n).foldlM (scaleObj get (holds w) (scale.getItem row col)) s) = (.ok s' : Py (List Bool)) ∧ True := by
    intro row s hrow _
    obtain ⟨d', hd', -⟩ := foldlM_range_returns (σ := List Bool) (P := fun _ _ => True)
      (f := scaleObj get (holds scale.objects[row]) (scale.getItem row col)) (n := n) (s₀ := s) trivial (by
        intro i t hi _
        obtain ⟨v, h1, h2⟩ := hv i hi
        obtain ⟨b, hb⟩ := h2 scale.objects[row] (List.getElem_mem _)
        have hrow' : row < scale.nd.rows.length := by rw [hs.nrows]; exact hrow
        have hcol' : col < scale.nd.rows[row].length := by
          rw [hs.width _ (List.getElem_mem _)]; exact hcol
        have hx : scale.getItem row col = .ok scale.nd.rows[row][col] := by
          unfold Ctx.getItem Nd.cell
          rw [pyGet_ok (List.getElem?_eq_getElem hrow')]
          exact pyGet_ok (List.getElem?_eq_getElem hcol')
        unfold scaleObj
        split_ifs
        · exact ⟨t, rfl, trivial⟩
        · rw [h1]
          simp only [py_ok_bind, hb, hx]
          cases b
          · exact ⟨t, rfl, trivial⟩
          · exact ⟨_, rfl, trivial⟩)
    refine ⟨d', ?_, trivial⟩
    rw [pyGet_ok (List.getElem?_eq_getElem hrow)]
    exact hd'
  obtain ⟨d, hd, -⟩ := foldlM_range_returns (σ := List Bool) (P := fun _ _ => True)
    (n := scale.objects.length) (s₀ := List.replicate n false) trivial hstep
  exact ⟨d, hd⟩

end columns

section scaling

variable {α β ω V : Type} [DecidableEq α] [DecidableEq β] [DecidableEq ω] [PyName α] [PyName β]

/-- The columns of the derived context: (number of the attribute, column of its scale), in order. -/
def derivedCols (atts : List β) (scales : List (Ctx ω β)) : List (ℕ × ℕ) :=
  (List.range atts.length).flatMap fun k =>
    (List.range ((scales[k]?.map fun s => s.attributes.length).getD 0)).map fun col => (k, col)

/-- The name of a derived column. -/
def derivedName (join : β → β → β) (atts : List β) (scales : List (Ctx ω β)) (kc : ℕ × ℕ) : Option β := do
  let m ← atts[kc.1]?
  let s ← scales[kc.1]?
  let a ← s.attributes[kc.2]?
  some (join m a)

/-- What is stored after the columns `L` were added. -/
structure ScaleInv (join : β → β → β) (holds : ω → V → Py Bool) (objs : List α) (atts : List β)
    (rows : List (List V)) (scales : List (Ctx ω β)) (L : List (ℕ × ℕ)) (c : Ctx α β) : Prop where
  objects : c.objects = objs
  nrows : c.nd.rows.length = objs.length
  width : ∀ r ∈ c.nd.rows, r.length = L.length
  natts : c.attributes.length = L.length
  shape : c.nd.rows ≠ [] → c.nd.cols = some L.length
  cell : ∀ (i p : ℕ) (kc : ℕ × ℕ) (r : List Bool), c.nd.rows[i]? = some r → L[p]? = some kc →
    (r[p]? = some true ↔ ∃ (vs : List V) (v : V) (s : Ctx ω β), rows[i]? = some vs ∧ vs[kc.1]? = some v ∧
      scales[kc.1]? = some s ∧ Crossed holds s v kc.2)
  names : (L.map (derivedName join atts scales)).Nodup →
    c.attributes.map some = L.map (derivedName join atts scales)

theorem ScaleInv.step {join : β → β → β} {holds : ω → V → Py Bool} {objs : List α} {atts : List β}
    {rows : List (List V)} {scales : List (Ctx ω β)} {L : List (ℕ × ℕ)} {c c' : Ctx α β} (ho : objs.Nodup)
    (h : ScaleInv join holds objs atts rows scales L c) {k col : ℕ} {scale : Ctx ω β} {m : β}
    (hs : scales[k]? = some scale) (hm : atts[k]? = some m)
    (hc : scaleAttr join objs.length (fun obj => do let r ← pyGet rows obj; pyGet r k) holds scale m c col = .ok c') :
    ScaleInv join holds objs atts rows scales (L ++ [(k, col)]) c' := by
  unfold scaleAttr at hc
  obtain ⟨d, hd, hc⟩ := bind_ok hc
  obtain ⟨a, ha, hc⟩ := bind_ok hc
  obtain ⟨d1, d2⟩ := scaleCol_spec hd
  have hadd : c.addAttribute d (join m a) = (c', none) := by
    rcases he : c.addAttribute d (join m a) with ⟨x, _ | e⟩
    · rw [he] at hc; cases hc; rfl
    · rw [he] at hc; cases hc
  have hadd := reinit_ok hadd
  obtain ⟨t, ht, hofnd⟩ := bind_ok hadd
  have hname : derivedName join atts scales (k, col) = some (join m a) := by
    simp [derivedName, hm, hs, pyGet_ok_iff.1 ha]
  -- the new table
  have htab : t.rows = List.zipWith (fun r b => r ++ [b]) c.nd.rows d ∧
      (t.rows ≠ [] → t.cols = some (L.length + 1)) := by
    unfold Nd.appendCol at ht
    cases hcols : c.nd.cols with
    | none =>
      rw [hcols] at ht
      dsimp only at ht
      have hnil : c.nd.rows = [] := by
        by_contra hne
        have := h.shape hne
        rw [hcols] at this; simp at this
      split_ifs at ht with hd0
      cases ht
      simp [hnil]
    | some n =>
      rw [hcols] at ht
      dsimp only at ht
      split_ifs at ht with hl
      cases ht
      refine ⟨rfl, fun hne => ?_⟩
      have : c.nd.rows ≠ [] := by
        rintro h0
        rw [h0] at hne; simp at hne
      have := h.shape this
      rw [hcols] at this
      cases this; rfl
  have hlen : t.rows.length = objs.length := by
    rw [htab.1, List.length_zipWith, h.nrows, d1, min_self]
  have hget : ∀ (i : ℕ) (r' : List Bool), t.rows[i]? = some r' → ∃ r b, c.nd.rows[i]? = some r ∧ d[i]? = some b ∧
      r' = r ++ [b] := by
    intro i r' hr'
    rw [htab.1, List.getElem?_zipWith] at hr'
    cases hr : c.nd.rows[i]? with
    | none => rw [hr] at hr'; simp at hr'
    | some r =>
      cases hb : d[i]? with
      | none => rw [hr, hb] at hr'; simp at hr'
      | some b => rw [hr, hb] at hr'; exact ⟨r, b, rfl, rfl, by simpa using hr'.symm⟩
  have hw : ∀ r ∈ t.rows, r.length = L.length + 1 := by
    intro r hr
    obtain ⟨i, hi, rfl⟩ := List.getElem_of_mem hr
    obtain ⟨r0, b, h1, h2, h3⟩ := hget i _ (List.getElem?_eq_getElem hi)
    rw [h3, List.length_append, h.width r0 (List.mem_of_getElem? h1)]; rfl
  have hofnd' : c' = ⟨renameAll c.objects, renameAll (c.attributes ++ [join m a]), t⟩ := by
    unfold ofNd at hofnd
    split_ifs at hofnd
    cases hofnd; rfl
  subst hofnd'
  refine ⟨?_, hlen, ?_, ?_, ?_, ?_, ?_⟩
  · show renameAll c.objects = objs
    rw [h.objects, renameAll_nodup ho]
  · intro r hr
    rw [hw r hr]; simp
  · show (renameAll (c.attributes ++ [join m a])).length = _
    rw [renameAll_length]; simp [h.natts]
  · intro hne
    show t.cols = _
    rw [htab.2 hne]; simp
  · intro i p kc r' hr' hp
    obtain ⟨r, b, h1, h2, rfl⟩ := hget i r' hr'
    have hrl : r.length = L.length := h.width r (List.mem_of_getElem? h1)
    have hil : i < objs.length := by rw [← h.nrows]; exact (List.getElem?_eq_some_iff.1 h1).1
    by_cases hpl : p < L.length
    · rw [List.getElem?_append_left hpl] at hp
      rw [List.getElem?_append_left (by omega)]
      exact h.cell i p kc r h1 hp
    · have hpe : p = L.length := by
        have := (List.getElem?_eq_some_iff.1 hp).1
        simp at this; omega
      subst hpe
      rw [List.getElem?_append_right (by omega)] at hp
      simp at hp
      subst hp
      rw [List.getElem?_append_right (by omega)]
      simp only [hrl, Nat.sub_self, List.getElem?_cons_zero]
      rw [← h2, d2 i hil]
      constructor
      · rintro ⟨v, hv, hcr⟩
        obtain ⟨vs, h3, h4⟩ := bind_ok hv
        exact ⟨vs, v, scale, pyGet_ok_iff.1 h3, pyGet_ok_iff.1 h4, hs, hcr⟩
      · rintro ⟨vs, v, s, h3, h4, h5, hcr⟩
        rw [hs] at h5
        cases h5
        refine ⟨v, ?_, hcr⟩
        rw [pyGet_ok h3]
        exact pyGet_ok h4
  · intro hnd
    rw [List.map_append, List.map_singleton] at hnd ⊢
    have h1 := h.names (List.nodup_append.1 hnd).1
    have h2 : (c.attributes ++ [join m a]).map some =
        L.map (derivedName join atts scales) ++ [derivedName join atts scales (k, col)] := by
      rw [List.map_append, h1, List.map_singleton, hname]
    have h3 : (c.attributes ++ [join m a]).Nodup := by
      rw [← h2] at hnd
      exact List.Nodup.of_map _ hnd
    show (renameAll (c.attributes ++ [join m a])).map some = _
    rw [renameAll_nodup h3, h2]

theorem ScaleInv.returns {join : β → β → β} {holds : ω → V → Py Bool} {objs : List α} {atts : List β}
    {rows : List (List V)} {scales : List (Ctx ω β)} {L : List (ℕ × ℕ)} {c : Ctx α β}
    (h : ScaleInv join holds objs atts rows scales L c) {k col : ℕ} {scale : Ctx ω β} {m : β} (hw : scale.WFw)
    (hcol : col < scale.attributes.length)
    (hv : ∀ i < objs.length, ∃ v, (do let r ← pyGet rows i; pyGet r k) = Except.ok v ∧
      ∀ w ∈ scale.objects, ∃ b, holds w v = .ok b) :
    ∃ c', scaleAttr join objs.length (fun obj => do let r ← pyGet rows obj; pyGet r k) holds scale m c col =
      .ok c' := by
  obtain ⟨d, hd⟩ := scaleCol_returns (get := fun obj => do let r ← pyGet rows obj; pyGet r k) hw hcol hv
  obtain ⟨d1, -⟩ := scaleCol_spec hd
  unfold scaleAttr
  rw [hd, pyGet_ok (List.getElem?_eq_getElem hcol)]
  simp only [py_ok_bind]
  have : ∃ t, c.nd.appendCol d = .ok t ∧ t.rows = List.zipWith (fun r b => r ++ [b]) c.nd.rows d := by
    unfold Nd.appendCol
    cases hcols : c.nd.cols with
    | none =>
      have hnil : c.nd.rows = [] := by
        by_contra hne
        have := h.shape hne
        rw [hcols] at this; simp at this
      have hd0 : d = [] := by
        rw [← List.length_eq_zero_iff, d1, ← h.nrows, hnil]; rfl
      exact ⟨⟨some 2, []⟩, by simp [hd0], by simp [hnil]⟩
    | some n =>
      dsimp only
      rw [if_pos (by rw [d1, h.nrows])]
      exact ⟨_, rfl, rfl⟩
  obtain ⟨t, ht, hrows⟩ := this
  have hofnd : ofNd t c.objects (c.attributes ++ [join m scale.attributes[col]]) =
      .ok ⟨renameAll c.objects, renameAll (c.attributes ++ [join m scale.attributes[col]]), t⟩ := by
    unfold ofNd
    rw [if_neg, if_neg]
    · rintro ⟨hne, hl⟩
      apply hl
      rw [hrows]
      cases hr : c.nd.rows with
      | nil => rw [hrows, hr] at hne; simp at hne
      | cons r rs =>
        cases d with
        | nil => rw [hrows, hr] at hne; simp at hne
        | cons b bs =>
          have := h.width r (by rw [hr]; simp)
          simp [this, h.natts]
    · rw [hrows, List.length_zipWith, d1, h.nrows, h.objects]; simp
  unfold Ctx.addAttribute
  simp only [ht, py_ok_bind, hofnd, reinit]
  exact ⟨_, rfl⟩

theorem scaleInv_start (join : β → β → β) (holds : ω → V → Py Bool) {objs : List α} (ho : objs.Nodup) (atts : List β)
    (rows : List (List V)) (scales : List (Ctx ω β)) :
    ∃ c, Ctx.make (objs.map fun _ => []) objs ([] : List β) = .ok c ∧
      ScaleInv join holds objs atts rows scales [] c := by
  refine ⟨_, make_ok (by simp) (by simp), renameAll_nodup ho, by simp, by simp, ?_, ?_, by simp, ?_⟩
  · show (renameAll ([] : List β)).length = _
    rw [renameAll_length]; rfl
  · intro hne
    show (if _ then _ else _) = _
    rw [if_neg hne]; rfl
  · intro _
    show (renameAll ([] : List β)).map some = _
    rw [renameAll_nodup List.nodup_nil]; rfl

/-- The columns of the first `k` attributes. -/
def colsTo (scales : List (Ctx ω β)) (k : ℕ) : List (ℕ × ℕ) :=
  (List.range k).flatMap fun k =>
    (List.range ((scales[k]?.map fun s => s.attributes.length).getD 0)).map fun col => (k, col)

theorem scaleMv_inv {join : β → β → β} {holds : ω → V → Py Bool} {objs : List α} {atts : List β}
    {rows : List (List V)} {scales : List (Ctx ω β)} {c : Ctx α β} (ho : objs.Nodup)
    (h : scaleMv join holds objs atts rows scales = .ok c) :
    ScaleInv join holds objs atts rows scales (derivedCols atts scales) c := by
  obtain ⟨c₀, hc₀, h₀⟩ := scaleInv_start join holds ho atts rows scales
  unfold scaleMv at h
  rw [hc₀, py_ok_bind] at h
  refine foldlM_range_inv (P := fun k c => ScaleInv join holds objs atts rows scales (colsTo scales k) c) h₀ ?_ h
  intro k s s' hk hs hstep
  obtain ⟨scale, hsc, hstep⟩ := bind_ok hstep
  have hsc := pyGet_ok_iff.1 hsc
  have hm : atts[k]? = some atts[k] := List.getElem?_eq_getElem hk
  have := foldlM_range_inv
    (P := fun col c => ScaleInv join holds objs atts rows scales
      (colsTo scales k ++ (List.range col).map fun col => (k, col)) c) (by simpa using hs) ?_ hstep
  · have he : colsTo scales (k + 1) = colsTo scales k ++
        (List.range scale.attributes.length).map fun col => (k, col) := by
      simp [colsTo, List.range_succ, hsc]
    rw [he]; exact this
  · intro col t t' hcol ht htt
    rw [pyGet_ok hm, py_ok_bind] at htt
    have := ht.step ho hsc hm htt
    rw [List.range_succ, List.map_append, List.map_singleton, ← List.append_assoc]
    exact this

/-- Scaling returns if there is a scale for every attribute, the table has the right dimensions and no condition raises. -/
theorem scaleMv_returns {join : β → β → β} {holds : ω → V → Py Bool} {objs : List α} {atts : List β}
    {rows : List (List V)} {scales : List (Ctx ω β)} (ho : objs.Nodup) (hr : objs.length ≤ rows.length)
    (hw : ∀ r ∈ rows, atts.length ≤ r.length) (hn : atts.length ≤ scales.length) (hs : ∀ s ∈ scales, s.WFw)
    (hv : ∀ s ∈ scales, ∀ w ∈ s.objects, ∀ r ∈ rows, ∀ v ∈ r, ∃ b, holds w v = .ok b) :
    ∃ c, scaleMv join holds objs atts rows scales = .ok c := by
  obtain ⟨c₀, hc₀, h₀⟩ := scaleInv_start join holds ho atts rows scales
  unfold scaleMv
  rw [hc₀, py_ok_bind]
  have hstep : ∀ (k : ℕ) (c : Ctx α β), k < atts.length → ScaleInv join holds objs atts rows scales (colsTo scales k) c →
      ∃ c', (do
        let scale ← pyGet scales k
        (List.range scale.attributes.length).foldlM (fun c col => do
          let m ← pyGet atts k
          scaleAttr join objs.length (fun obj => do let r ← pyGet rows obj; pyGet r k) holds scale m c col) c) =
          (.ok c' : Py (Ctx α β)) ∧
        ScaleInv join holds objs atts rows scales (colsTo scales (k + 1)) c' := by
    intro k c hk hc
    have hsc : scales[k]? = some scales[k] := List.getElem?_eq_getElem (by omega)
    have hm : atts[k]? = some atts[k] := List.getElem?_eq_getElem hk
    rw [pyGet_ok hsc, py_ok_bind]
    have hin : ∀ (col : ℕ) (t : Ctx α β), col < scales[k].attributes.length →
        ScaleInv join holds objs atts rows scales
          (colsTo scales k ++ (List.range col).map fun col => (k, col)) t →
        ∃ t', (do
          let m ← pyGet atts k
          scaleAttr join objs.length (fun obj => do let r ← pyGet rows obj; pyGet r k) holds scales[k] m t col) =
            (.ok t' : Py (Ctx α β)) ∧
          ScaleInv join holds objs atts rows scales
            (colsTo scales k ++ (List.range (col + 1)).map fun col => (k, col)) t' := by
      intro col t hcol ht
      rw [pyGet_ok hm, py_ok_bind]
      obtain ⟨t', ht'⟩ := ht.returns (m := atts[k]) (hs _ (List.getElem_mem _)) hcol (k := k) (by
        intro i hi
        have hi' : i < rows.length := by omega
        have hk' : k < rows[i].length := lt_of_lt_of_le hk (hw _ (List.getElem_mem _))
        refine ⟨rows[i][k], ?_, fun w hw' => hv _ (List.getElem_mem _) w hw' _ (List.getElem_mem hi') _
          (List.getElem_mem hk')⟩
        rw [pyGet_ok (List.getElem?_eq_getElem hi')]
        exact pyGet_ok (List.getElem?_eq_getElem hk'))
      refine ⟨t', ht', ?_⟩
      have := ht.step ho hsc hm ht'
      rw [List.range_succ, List.map_append, List.map_singleton, ← List.append_assoc]
      exact this
    obtain ⟨c', h1, h2⟩ := foldlM_range_returns (σ := Ctx α β)
      (P := fun col c => ScaleInv join holds objs atts rows scales
        (colsTo scales k ++ (List.range col).map fun col => (k, col)) c) (s₀ := c) (by simpa using hc) hin
    refine ⟨c', h1, ?_⟩
    have he : colsTo scales (k + 1) = colsTo scales k ++
        (List.range scales[k].attributes.length).map fun col => (k, col) := by
      simp [colsTo, List.range_succ, hsc]
    rw [he]; exact h2
  obtain ⟨c, hc, -⟩ := foldlM_range_returns (σ := Ctx α β)
    (P := fun k c => ScaleInv join holds objs atts rows scales (colsTo scales k) c) h₀ hstep
  exact ⟨c, hc⟩

/-! ### C63 -/

theorem mem_derivedCols {atts : List β} {scales : List (Ctx ω β)} {k col : ℕ} {s : Ctx ω β} (hk : k < atts.length)
    (hs : scales[k]? = some s) (hcol : col < s.attributes.length) : (k, col) ∈ derivedCols atts scales := by
  unfold derivedCols
  simp only [List.mem_flatMap, List.mem_map, List.mem_range, Prod.mk.injEq]
  exact ⟨k, hk, col, by simpa [hs] using hcol, rfl, rfl⟩

/-- The derived context has the objects of the many-valued one, for every attribute the columns of its scale in order, and
a cross exactly where some row of the scale whose condition holds for the value has one. No condition on names. -/
theorem C63_scaling_cells (join : β → β → β) (holds : ω → V → Py Bool) (objs : List α) (atts : List β)
    (rows : List (List V)) (scales : List (Ctx ω β)) (c : Ctx α β) (ho : objs.Nodup)
    (h : scaleMv join holds objs atts rows scales = .ok c) :
    c.objects = objs ∧ c.attributes.length = (derivedCols atts scales).length ∧
      c.nd.rows.length = objs.length ∧ (∀ r ∈ c.nd.rows, r.length = (derivedCols atts scales).length) ∧
      ∀ (i p k col : ℕ), i < objs.length → (derivedCols atts scales)[p]? = some (k, col) →
        (c.getItem i p = .ok true ↔ ∃ vs v s, rows[i]? = some vs ∧ vs[k]? = some v ∧ scales[k]? = some s ∧
          Crossed holds s v col) := by
  have hi := scaleMv_inv ho h
  refine ⟨hi.objects, hi.natts, hi.nrows, hi.width, ?_⟩
  intro i p k col hil hp
  rw [getItem_true]
  have hil' : i < c.nd.rows.length := by rw [hi.nrows]; exact hil
  rw [← hi.cell i p (k, col) _ (List.getElem?_eq_getElem hil') hp]
  constructor
  · rintro ⟨r, h1, h2⟩
    rw [List.getElem?_eq_getElem hil'] at h1
    cases h1; exact h2
  · intro h1
    exact ⟨_, List.getElem?_eq_getElem hil', h1⟩

/-- If the names `m:s` of the derived attributes are pairwise different: the derived context is well-formed, its
attributes are these names, and `g` has `m:s` iff some row of the scale of `m` whose condition holds for the value of
`(g, m)` has a cross at `s`. -/
theorem C63_scaling (join : β → β → β) (holds : ω → V → Py Bool) (objs : List α) (atts : List β)
    (rows : List (List V)) (scales : List (Ctx ω β)) (c : Ctx α β) (ho : objs.Nodup)
    (hn : ((derivedCols atts scales).map (derivedName join atts scales)).Nodup)
    (h : scaleMv join holds objs atts rows scales = .ok c) :
    c.WFw ∧ c.objects = objs ∧ c.attributes.map some = (derivedCols atts scales).map (derivedName join atts scales) ∧
      ∀ (i k col : ℕ) (g : α) (m a : β) (s : Ctx ω β) (vs : List V) (v : V), objs[i]? = some g → atts[k]? = some m →
        scales[k]? = some s → s.attributes[col]? = some a → rows[i]? = some vs → vs[k]? = some v →
        (c.Inc g (join m a) ↔ Crossed holds s v col) := by
  have hi := scaleMv_inv ho h
  have hnames := hi.names hn
  have hw : c.WFw := by
    refine ⟨by rw [hi.objects]; exact ho, ?_, by rw [hi.nrows, hi.objects], ?_, ?_⟩
    · rw [← hnames] at hn
      exact List.Nodup.of_map _ hn
    · intro r hr; rw [hi.width r hr, hi.natts]
    · intro hne; rw [hi.shape hne, hi.natts]
  refine ⟨hw, hi.objects, hnames, ?_⟩
  intro i k col g m a s vs v hg hm hs ha hvs hv
  obtain ⟨p, hp⟩ := List.getElem?_of_mem (mem_derivedCols (List.getElem?_eq_some_iff.1 hm).1 hs
    (List.getElem?_eq_some_iff.1 ha).1)
  have hatt : c.attributes[p]? = some (join m a) := by
    have : (c.attributes.map some)[p]? = some (some (join m a)) := by
      rw [hnames, List.getElem?_map, hp]
      simp [derivedName, hm, hs, ha]
    rw [List.getElem?_map] at this
    simpa using this
  have hgi : c.objects[i]? = some g := by rw [hi.objects]; exact hg
  have hil : i < c.nd.rows.length := by rw [hi.nrows]; exact (List.getElem?_eq_some_iff.1 hg).1
  have hcell := hi.cell i p (k, col) _ (List.getElem?_eq_getElem hil) hp
  constructor
  · rintro ⟨i', j', r, h1, h2, h3, h4⟩
    have e1 : i' = i := (List.getElem?_inj (List.getElem?_eq_some_iff.1 h1).1 hw.onodup).1 (h1.trans hgi.symm)
    have e2 : j' = p := (List.getElem?_inj (List.getElem?_eq_some_iff.1 h2).1 hw.anodup).1 (h2.trans hatt.symm)
    subst e1 e2
    rw [List.getElem?_eq_getElem hil] at h3
    cases h3
    obtain ⟨vs', v', s', k1, k2, k3, k4⟩ := hcell.1 h4
    rw [hvs] at k1; cases k1
    dsimp only at k2 k3
    rw [hv] at k2; cases k2
    rw [hs] at k3; cases k3
    exact k4
  · intro hcr
    exact ⟨i, p, _, hgi, hatt, List.getElem?_eq_getElem hil, hcell.2 ⟨vs, v, s, hvs, hv, hs, hcr⟩⟩

/-- With a scale for every attribute, a table of the right dimensions and conditions that do not raise, a context is
returned. -/
theorem C63_returns (join : β → β → β) (holds : ω → V → Py Bool) (objs : List α) (atts : List β)
    (rows : List (List V)) (scales : List (Ctx ω β)) (ho : objs.Nodup) (hr : objs.length ≤ rows.length)
    (hw : ∀ r ∈ rows, atts.length ≤ r.length) (hn : atts.length ≤ scales.length) (hs : ∀ s ∈ scales, s.WFw)
    (hv : ∀ s ∈ scales, ∀ w ∈ s.objects, ∀ r ∈ rows, ∀ v ∈ r, ∃ b, holds w v = .ok b) :
    ∃ c, scaleMv join holds objs atts rows scales = .ok c :=
  scaleMv_returns ho hr hw hn hs hv

/-- A scale with the conditions `value > 5` and `value == 1`. -/
def scaleWit : Ctx (Fin 2) (List Char) := ⟨[0, 1], ["a".toList, "b".toList], ⟨some 2, [[true, false], [false, true]]⟩⟩

def scaleWitHolds (w : Fin 2) (v : ℕ) : Py Bool := .ok (if w = 0 then decide (5 < v) else decide (v = 1))

example : scaleMv (fun m s => m ++ ':' :: s) scaleWitHolds (["g".toList, "h".toList] : List (List Char))
      ["x".toList, "y".toList] [[7, 1], [1, 3]] [scaleWit, scaleWit] =
    .ok ⟨["g".toList, "h".toList], ["x:a".toList, "x:b".toList, "y:a".toList, "y:b".toList],
      ⟨some 4, [[true, false, false, true], [false, true, false, false]]⟩⟩ := by decide +kernel

example : ((derivedCols ["x".toList, "y".toList] [scaleWit, scaleWit]).map
    (derivedName (fun m s => m ++ ':' :: s) ["x".toList, "y".toList] [scaleWit, scaleWit])).Nodup := by decide +kernel

end scaling

/-- Two pairs with the same joined name: both columns are there, under changed names. -/
example : scaleMv (fun m s => m ++ ':' :: s) scaleWitHolds (["g".toList] : List (List Char))
      ["x".toList, "x:a".toList] [[7, 1]]
      [⟨[0], ["a:b".toList], ⟨some 1, [[true]]⟩⟩, ⟨[1], ["b".toList], ⟨some 1, [[true]]⟩⟩] =
    .ok ⟨["g".toList], ["x:a:b_0".toList, "x:a:b_1".toList], ⟨some 2, [[true, true]]⟩⟩ := by decide +kernel

/-! ### C64 -/

section scales

theorem intRange_length (mn mx : ℤ) : (intRange mn mx).length = (mx + 1 - mn).toNat := by simp [intRange]

theorem intRange_get {mn mx : ℤ} {i : ℕ} {v : ℤ} :
    (intRange mn mx)[i]? = some v ↔ i < (mx + 1 - mn).toNat ∧ v = mn + i := by
  unfold intRange
  rw [List.getElem?_map]
  by_cases hi : i < (mx + 1 - mn).toNat
  · rw [List.getElem?_range hi]
    simp [hi, eq_comm]
  · rw [List.getElem?_eq_none (by simpa using hi)]
    simp [hi]

theorem intRange_nodup (mn mx : ℤ) : (intRange mn mx).Nodup := by
  unfold intRange
  refine List.Nodup.map ?_ List.nodup_range
  intro a b h
  simpa using h

theorem mem_intRange {mn mx v : ℤ} : v ∈ intRange mn mx ↔ mn ≤ v ∧ v ≤ mx := by
  unfold intRange
  simp only [List.mem_map, List.mem_range]
  constructor
  · rintro ⟨i, hi, rfl⟩; omega
  · rintro ⟨h1, h2⟩; exact ⟨(v - mn).toNat, by omega, by omega⟩

variable [PyName ℤ]

/-- The attributes of an ordinal scale. -/
def ordAtts (mn mx : ℤ) (geq : Bool) : List ℤ := if geq then (intRange mn mx).tail else (intRange mn mx).dropLast

theorem ordAtts_length (mn mx : ℤ) (geq : Bool) : (ordAtts mn mx geq).length = (mx + 1 - mn).toNat - 1 := by
  unfold ordAtts
  split <;> simp [intRange_length]

theorem ordAtts_nodup (mn mx : ℤ) (geq : Bool) : (ordAtts mn mx geq).Nodup := by
  unfold ordAtts
  split
  · exact (intRange_nodup mn mx).sublist (List.tail_sublist _)
  · exact (intRange_nodup mn mx).sublist (List.dropLast_sublist _)

theorem ordAtts_get {mn mx : ℤ} {geq : Bool} {j : ℕ} {w : ℤ} :
    (ordAtts mn mx geq)[j]? = some w ↔
      j + 1 < (mx + 1 - mn).toNat ∧ w = mn + j + (if geq then 1 else 0) := by
  unfold ordAtts
  cases geq
  · simp only [Bool.false_eq_true, if_false, add_zero, List.getElem?_dropLast, intRange_length]
    split_ifs with hj
    · rw [intRange_get]
      constructor
      · rintro ⟨h1, h2⟩; exact ⟨by omega, h2⟩
      · rintro ⟨h1, h2⟩; exact ⟨by omega, h2⟩
    · simp only [false_iff, not_and]
      intro h1; omega
  · simp only [if_true, List.getElem?_tail, intRange_get]
    constructor
    · rintro ⟨h1, h2⟩; exact ⟨h1, by rw [h2]; push_cast; ring⟩
    · rintro ⟨h1, h2⟩; exact ⟨h1, by rw [h2]; push_cast; ring⟩

/-- The rows of an ordinal scale. -/
def ordRow (n : ℕ) (geq : Bool) (i : ℕ) : List Bool :=
  if geq then List.replicate i true ++ List.replicate (n - i) false
  else List.replicate i false ++ List.replicate (n - i) true

theorem ordRow_get {n i j : ℕ} {geq : Bool} (hi : i ≤ n) :
    (ordRow n geq i)[j]? = some true ↔ j < n ∧ (if geq then j < i else i ≤ j) := by
  unfold ordRow
  cases geq
  · simp only [Bool.false_eq_true, if_false, List.getElem?_append, List.length_replicate,
      List.getElem?_replicate]
    split_ifs with h1 h2
    · simp; omega
    · simp; omega
    · simp; omega
  · simp only [if_true, List.getElem?_append, List.length_replicate, List.getElem?_replicate]
    split_ifs with h1 h2
    · simp; omega
    · simp; omega
    · simp; omega

theorem ordinalScale_eq (mn mx : ℤ) (geq : Bool) :
    ordinalScale mn mx geq = .ok ⟨intRange mn mx, ordAtts mn mx geq,
      ⟨if intRange mn mx = [] then none else some (ordAtts mn mx geq).length,
        (List.range (intRange mn mx).length).map fun i => ordRow (ordAtts mn mx geq).length geq i⟩⟩ := by
  have hw : ∀ r ∈ (List.range (intRange mn mx).length).map (ordRow (ordAtts mn mx geq).length geq),
      r.length = (ordAtts mn mx geq).length := by
    intro r hr
    obtain ⟨i, hi, rfl⟩ := List.mem_map.1 hr
    have hi := List.mem_range.1 hi
    rw [ordAtts_length]
    rw [intRange_length] at hi
    unfold ordRow
    split <;> simp <;> omega
  have hmake : Ctx.make ((List.range (intRange mn mx).length).map (ordRow (ordAtts mn mx geq).length geq))
      (intRange mn mx) (ordAtts mn mx geq) = .ok ⟨intRange mn mx, ordAtts mn mx geq,
      ⟨if intRange mn mx = [] then none else some (ordAtts mn mx geq).length,
        (List.range (intRange mn mx).length).map fun i => ordRow (ordAtts mn mx geq).length geq i⟩⟩ := by
    rw [make_ok (by simp) hw, renameAll_nodup (intRange_nodup mn mx), renameAll_nodup (ordAtts_nodup mn mx geq)]
    simp
  show (Ctx.make ((List.range (intRange mn mx).length).map (ordRow (ordAtts mn mx geq).length geq))
      (intRange mn mx) (ordAtts mn mx geq) >>= scaleMake) = _
  rw [hmake, py_ok_bind]
  exact ofNd_ok (by simp) hw (intRange_nodup mn mx) (ordAtts_nodup mn mx geq)

/-- OrdinalScale: one object for every integer from `mn` to `mx`, one attribute for all but the last (`<=`) or the first
(`>=`) of them, and crosses as the names say. -/
theorem C64_ordinal (mn mx : ℤ) (geq : Bool) :
    ∃ c, ordinalScale mn mx geq = .ok c ∧ c.WF ∧ (∀ v, v ∈ c.objects ↔ mn ≤ v ∧ v ≤ mx) ∧
      (∀ w, w ∈ c.attributes ↔ if geq then mn < w ∧ w ≤ mx else mn ≤ w ∧ w < mx) ∧
      ∀ v w, c.Inc v w ↔ v ∈ c.objects ∧ w ∈ c.attributes ∧ if geq then w ≤ v else v ≤ w := by
  refine ⟨_, ordinalScale_eq mn mx geq, ?_, fun v => mem_intRange, ?_, ?_⟩
  · refine ⟨⟨intRange_nodup mn mx, ordAtts_nodup mn mx geq, by simp, ?_, ?_⟩, ?_⟩
    · intro r hr
      obtain ⟨i, hi, rfl⟩ := List.mem_map.1 hr
      have hi := List.mem_range.1 hi
      rw [ordAtts_length]
      rw [intRange_length] at hi
      unfold ordRow
      split <;> simp <;> omega
    · intro hne
      have : intRange mn mx ≠ [] := by
        rintro h0
        apply hne
        simp [h0]
      exact if_neg this
    · dsimp only
      split_ifs
      · exact .inl rfl
      · exact .inr rfl
  · intro w
    rw [List.mem_iff_getElem?]
    simp only [ordAtts_get]
    constructor
    · rintro ⟨j, h1, h2⟩
      cases geq <;> simp at h2 ⊢ <;> omega
    · intro h
      cases geq
      · simp at h ⊢; exact ⟨(w - mn).toNat, by omega, by omega⟩
      · simp at h ⊢; exact ⟨(w - mn - 1).toNat, by omega, by omega⟩
  · intro v w
    have hrow : ∀ (i : ℕ) (r : List Bool), ((List.range (intRange mn mx).length).map
        fun i => ordRow (ordAtts mn mx geq).length geq i)[i]? = some r ↔
        i < (mx + 1 - mn).toNat ∧ r = ordRow ((mx + 1 - mn).toNat - 1) geq i := by
      intro i r
      rw [List.getElem?_map, intRange_length, ordAtts_length]
      by_cases hi : i < (mx + 1 - mn).toNat
      · rw [List.getElem?_range hi]; simp [hi, eq_comm]
      · rw [List.getElem?_eq_none (by simpa using hi)]; simp [hi]
    constructor
    · rintro ⟨i, j, r, h1, h2, h3, h4⟩
      have hv := List.mem_of_getElem? h1
      have hw := List.mem_of_getElem? h2
      refine ⟨hv, hw, ?_⟩
      have h1 := intRange_get.1 h1
      have h2 := ordAtts_get.1 h2
      obtain ⟨h3, rfl⟩ := (hrow i r).1 h3
      rw [ordRow_get (by omega)] at h4
      cases geq <;> simp at h2 h4 ⊢ <;> omega
    · rintro ⟨hv, hw, hle⟩
      obtain ⟨i, hi⟩ := List.getElem?_of_mem hv
      obtain ⟨j, hj⟩ := List.getElem?_of_mem hw
      have h1 := intRange_get.1 hi
      have h2 := ordAtts_get.1 hj
      refine ⟨i, j, _, hi, hj, (hrow i _).2 ⟨h1.1, rfl⟩, ?_⟩
      rw [ordRow_get (by omega)]
      cases geq <;> simp at h2 hle ⊢ <;> omega

end scales

section nominal

variable {W : Type} [DecidableEq W] [PyName W]

/-- NominalScale: objects and attributes are the values of the column, crosses are on the diagonal. -/
theorem C64_nominal (ord : SetOrder W) (column : List W) :
    ∃ c, nominalScale ord column = .ok c ∧ c.WF ∧ (∀ v, v ∈ c.objects ↔ v ∈ column) ∧ c.attributes = c.objects ∧
      ∀ v w, c.Inc v w ↔ v ∈ column ∧ v = w := by
  have hnd := ord.nodup column.toFinset
  have hmem : ∀ v, v ∈ ord.enum column.toFinset ↔ v ∈ column := by simp
  generalize hvals : ord.enum column.toFinset = values at hnd hmem
  have hw : ∀ r ∈ (List.range values.length).map fun i => (List.replicate values.length false).set i true,
      r.length = values.length := by
    intro r hr
    obtain ⟨i, -, rfl⟩ := List.mem_map.1 hr
    simp
  have hmk := make_ok (objs := values) (atts := values) (by simp) hw
  rw [renameAll_nodup hnd] at hmk
  have heq : nominalScale ord column = .ok ⟨values, values, ⟨if ((List.range values.length).map fun i =>
      (List.replicate values.length false).set i true) = [] then none else some values.length,
      (List.range values.length).map fun i => (List.replicate values.length false).set i true⟩⟩ := by
    unfold nominalScale
    rw [hvals]
    dsimp only
    rw [hmk, py_ok_bind]
    exact ofNd_ok (by simp) hw hnd hnd
  refine ⟨_, heq, ⟨⟨hnd, hnd, by simp, hw, fun hne => if_neg hne⟩, ?_⟩, hmem, rfl, ?_⟩
  · dsimp only
    split_ifs
    · exact .inl rfl
    · exact .inr rfl
  · intro v w
    have hcell : ∀ (i j : ℕ), i < values.length → (((List.replicate values.length false).set i true)[j]? = some true ↔
        i = j) := by
      intro i j hi
      rw [List.getElem?_set]
      split_ifs with h1 h2
      · simp [h1]
      · simp at h2; omega
      · simp [List.getElem?_replicate, h1]
    constructor
    · rintro ⟨i, j, r, h1, h2, h3, h4⟩
      refine ⟨(hmem v).1 (List.mem_of_getElem? h1), ?_⟩
      have hi := (List.getElem?_eq_some_iff.1 h1).1
      dsimp only at h1 h2 h3
      rw [List.getElem?_map, List.getElem?_range hi] at h3
      cases h3
      have := (hcell i j hi).1 h4
      subst this
      rw [h1] at h2
      exact Option.some.inj h2
    · rintro ⟨hv, rfl⟩
      obtain ⟨i, hi⟩ := List.getElem?_of_mem ((hmem v).2 hv)
      have hil := (List.getElem?_eq_some_iff.1 hi).1
      refine ⟨i, i, _, hi, hi, ?_, (hcell i i hil).2 rfl⟩
      show ((List.range values.length).map _)[i]? = _
      rw [List.getElem?_map, List.getElem?_range hil]
      rfl

end nominal

/-- Scaling an attribute with integer values by an ordinal scale: the object with value `v` has the derived attribute of
`w` iff `v` is in the range of the scale and `v <= w` (`v >= w`). The condition of row `u` is `value == u`. -/
theorem C64_ordinal_applied [PyName ℤ] (mn mx : ℤ) (geq : Bool) (c : Ctx ℤ ℤ) (h : ordinalScale mn mx geq = .ok c)
    (v w : ℤ) (col : ℕ) (hw : c.attributes[col]? = some w) :
    Crossed (fun u v => .ok (decide (v = u))) c v col ↔ (mn ≤ v ∧ v ≤ mx) ∧ if geq then w ≤ v else v ≤ w := by
  obtain ⟨c', h1, h2, h3, h4, h5⟩ := C64_ordinal mn mx geq
  rw [h] at h1
  cases h1
  have hwm := List.mem_of_getElem? hw
  constructor
  · rintro ⟨row, u, r, k1, k2, k3, k4⟩
    have hu : v = u := by simpa using k2
    subst hu
    have := (h5 v w).1 ⟨row, col, r, k1, hw, k3, k4⟩
    exact ⟨(h3 v).1 this.1, this.2.2⟩
  · rintro ⟨k1, k2⟩
    obtain ⟨i, j, r, l1, l2, l3, l4⟩ := (h5 v w).2 ⟨(h3 v).2 k1, hwm, k2⟩
    have hj : j = col :=
      (List.getElem?_inj (List.getElem?_eq_some_iff.1 l2).1 h2.anodup).1 (l2.trans hw.symm)
    subst hj
    exact ⟨i, v, r, l1, by simp, l3, l4⟩

instance : PyName ℤ := ⟨fun x _ => x⟩

example : ordinalScale 2 5 false = .ok ⟨[2, 3, 4, 5], [2, 3, 4], ⟨some 3,
    [[true, true, true], [false, true, true], [false, false, true], [false, false, false]]⟩⟩ := by decide +kernel

example : nominalScale (SetOrder.finRev 4) [1, 3, 1] =
    .ok ⟨[3, 1], [3, 1], ⟨some 2, [[true, false], [false, true]]⟩⟩ := by decide +kernel

/-! ### C65 -/

section mv

variable {α β V : Type} [DecidableEq α] [DecidableEq β] [PyName α] [PyName β]

/-- A many-valued context keeps the truth values. Missing from C65: the values themselves (false, see below). -/
theorem C65_truth_values_partial (truth : V → Bool) (table : List (List V)) (objs : List α) (atts : List β) (c : Ctx α β)
    (h : mvMake truth table objs atts = .ok c) (i j : ℕ) (r : List V) (v : V) (hr : table[i]? = some r)
    (hv : r[j]? = some v) : c.getItem i j = .ok (truth v) := by
  unfold mvMake Ctx.make at h
  split_ifs at h
  obtain ⟨t, ht, h⟩ := bind_ok h
  cases h
  have htr : t.rows = table.map fun r => r.map truth := by
    cases hm : table.map fun r => r.map truth with
    | nil => rw [hm] at ht; cases ht; rfl
    | cons x xs =>
      rw [hm] at ht
      simp only [Nd.ofLists] at ht
      split at ht
      · cases ht; rfl
      · cases ht
  unfold Ctx.getItem Nd.cell
  rw [htr, pyGet_ok (x := r.map truth) (by simp [hr])]
  exact pyGet_ok (by simp [hv])

/-- The value read back (`True == 1` and `False == 0` in Python) is the integer stored exactly if this is 0 or 1. -/
theorem C65_values_violated (table : List (List ℤ)) (objs : List α) (atts : List β) (c : Ctx α β)
    (h : mvMake (fun v : ℤ => decide (v ≠ 0)) table objs atts = .ok c) (i j : ℕ) (r : List ℤ) (v : ℤ)
    (hr : table[i]? = some r) (hv : r[j]? = some v) :
    ∃ b, c.getItem i j = .ok b ∧ ((if b then 1 else 0) = v ↔ v = 0 ∨ v = 1) := by
  refine ⟨_, C65_truth_values_partial _ table objs atts c h i j r v hr hv, ?_⟩
  by_cases h0 : v = 0
  · simp [h0]
  · simp [h0, eq_comm]

example : (mvMake (fun v : ℤ => decide (v ≠ 0)) [[2, 0], [1, 3]] [0, 1] [0, 1] : Py (Ctx (Fin 2) (Fin 2))) =
    .ok ⟨[0, 1], [0, 1], ⟨some 2, [[true, false], [true, true]]⟩⟩ := by decide +kernel

end mv
