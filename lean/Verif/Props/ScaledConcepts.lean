/-
Property C141: the concepts of a scaled context are made of the concepts of the scales.
-/
import Verif.Props.Scaling
import Verif.Props.Lattice
import Verif.Lemmas.Factors
import Mathlib.Algebra.BigOperators.Fin
import Mathlib.Data.Fintype.BigOperators

set_option linter.unusedSectionVars false

open Ctx Spec

section scaled

variable {α β ω V : Type} [DecidableEq α] [DecidableEq β] [DecidableEq ω] [PyName α] [PyName β]

/-- `E` is the extent of a concept of `c`. -/
def IsExt {γ δ : Type} [DecidableEq γ] [DecidableEq δ] (c : Ctx γ δ) (E : Finset γ) : Prop :=
  ∃ B, IsConcept c.G c.M c.Inc E B

/-- Exactly one condition of the scale of an attribute holds for each of its values: the one `σ k v`. -/
def OneRow (holds : ω → V → Py Bool) (rows : List (List V)) (scales : List (Ctx ω β)) (σ : ℕ → V → ω) : Prop :=
  ∀ k s, scales[k]? = some s → ∀ vs ∈ rows, ∀ v, vs[k]? = some v →
    σ k v ∈ s.objects ∧ ∀ w ∈ s.objects, (holds w v = .ok true ↔ w = σ k v)

theorem crossed_inc {holds : ω → V → Py Bool} {s : Ctx ω β} (hs : s.WFw) {v : V} {u : ω}
    (hu : ∀ w ∈ s.objects, (holds w v = .ok true ↔ w = u)) {col : ℕ} {a : β}
    (ha : s.attributes[col]? = some a) : Crossed holds s v col ↔ s.Inc u a := by
  constructor
  · rintro ⟨row, w, r, h1, h2, h3, h4⟩
    obtain rfl := (hu w (List.mem_of_getElem? h1)).1 h2
    exact ⟨row, col, r, h1, ha, h3, h4⟩
  · rintro ⟨i, j, r, h1, h2, h3, h4⟩
    have hj : j = col := (List.getElem?_inj (List.getElem?_eq_some_iff.1 h2).1 hs.anodup).1 (h2.trans ha.symm)
    subst hj
    exact ⟨i, u, r, h1, (hu u (List.mem_of_getElem? h1)).2 rfl, h3, h4⟩

variable {join : β → β → β} {holds : ω → V → Py Bool} {objs : List α} {atts : List β} {rows : List (List V)}
  {scales : List (Ctx ω β)} {c : Ctx α β} {σ : ℕ → V → ω}

theorem mapM_all₂ {γ δ : Type} {f : γ → Py δ} {xs : List γ} {ys : List δ} (h : xs.mapM f = .ok ys) :
    List.Forall₂ (fun x y => f x = .ok y) xs ys := by
  induction xs generalizing ys with
  | nil => cases h; exact .nil
  | cons x xs ih =>
    rw [List.mapM_cons] at h
    obtain ⟨y, hy, h⟩ := bind_ok h
    obtain ⟨zs, hz, h⟩ := bind_ok h
    cases h
    exact .cons hy (ih hz)

/-- The attributes of the scaled context. -/
theorem scaled_att (hn : ((derivedCols atts scales).map (derivedName join atts scales)).Nodup) (ho : objs.Nodup)
    (h : scaleMv join holds objs atts rows scales = .ok c) (b : β) :
    b ∈ c.attributes ↔ ∃ (k : ℕ) (m : β) (s : Ctx ω β) (a : β), atts[k]? = some m ∧ scales[k]? = some s ∧ a ∈ s.attributes ∧ b = join m a := by
  obtain ⟨-, -, h3, -⟩ := C63_scaling join holds objs atts rows scales c ho hn h
  have : b ∈ c.attributes ↔ some b ∈ c.attributes.map some := by simp
  rw [this, h3]
  simp only [List.mem_map]
  constructor
  · rintro ⟨⟨k, col⟩, -, h4⟩
    unfold derivedName at h4
    cases hm : atts[k]? with
    | none => simp [hm] at h4
    | some m =>
      cases hs : scales[k]? with
      | none => simp [hs] at h4
      | some s =>
        cases ha : s.attributes[col]? with
        | none => simp [hs, ha] at h4
        | some a =>
          simp [hm, hs, ha] at h4
          exact ⟨k, m, s, a, hm, hs, List.mem_of_getElem? ha, h4.symm⟩
  · rintro ⟨k, m, s, a, hm, hs, ha, rfl⟩
    obtain ⟨col, hcol⟩ := List.getElem?_of_mem ha
    exact ⟨(k, col), mem_derivedCols (List.getElem?_eq_some_iff.1 hm).1 hs (List.getElem?_eq_some_iff.1 hcol).1,
      by simp [derivedName, hm, hs, hcol]⟩

/-- The extents of the scaled context are the sets of objects that are chosen by taking an extent of every scale: the
objects all of whose values fall into these. For scales with exactly one condition true of each value. -/
theorem C141_extents (ho : objs.Nodup) (hr : objs.length = rows.length) (hw : ∀ r ∈ rows, atts.length ≤ r.length)
    (hl : atts.length ≤ scales.length) (hs : ∀ s ∈ scales, s.WFw)
    (hn : ((derivedCols atts scales).map (derivedName join atts scales)).Nodup)
    (h1 : OneRow holds rows scales σ) (h : scaleMv join holds objs atts rows scales = .ok c) (E : Finset α) :
    IsExt c E ↔ ∃ F : ℕ → Finset ω, (∀ k s, k < atts.length → scales[k]? = some s → IsExt s (F k)) ∧
      ∀ g, g ∈ E ↔ ∃ (i : ℕ) (vs : List V), objs[i]? = some g ∧ rows[i]? = some vs ∧
        ∀ k v, k < atts.length → vs[k]? = some v → σ k v ∈ F k := by
  classical
  obtain ⟨cw, cobj, -, cinc⟩ := C63_scaling join holds objs atts rows scales c ho hn h
  have catt := scaled_att hn ho h
  -- the incidence in terms of the scale
  have inc : ∀ {i k : ℕ} {g : α} {m a : β} {s : Ctx ω β} {vs : List V} {v : V}, objs[i]? = some g →
      atts[k]? = some m → scales[k]? = some s → a ∈ s.attributes → rows[i]? = some vs → vs[k]? = some v →
      (c.Inc g (join m a) ↔ s.Inc (σ k v) a) := by
    intro i k g m a s vs v hg hm hsk ha hvs hv
    obtain ⟨col, hcol⟩ := List.getElem?_of_mem ha
    rw [cinc i k col g m a s vs v hg hm hsk hcol hvs hv]
    exact crossed_inc (hs s (List.mem_of_getElem? hsk)) (h1 k s hsk vs (List.mem_of_getElem? hvs) v hv).2 hcol
  have row : ∀ {g}, g ∈ objs → ∃ (i : ℕ) (vs : List V), objs[i]? = some g ∧ rows[i]? = some vs := by
    intro g hg
    obtain ⟨i, hi⟩ := List.getElem?_of_mem hg
    have hil : i < rows.length := hr ▸ (List.getElem?_eq_some_iff.1 hi).1
    exact ⟨i, rows[i], hi, List.getElem?_eq_getElem hil⟩
  have val : ∀ {vs : List V} {k : ℕ}, vs ∈ rows → k < atts.length → ∃ v, vs[k]? = some v := fun {vs k} hvs hk =>
    ⟨vs[k]'(lt_of_lt_of_le hk (hw vs hvs)), List.getElem?_eq_getElem _⟩
  constructor
  · rintro ⟨B, hB, hE⟩
    refine ⟨fun k => match atts[k]?, scales[k]? with
      | some m, some s => s.downF (s.attributes.toFinset.filter fun a => join m a ∈ B)
      | _, _ => ∅, ?_, ?_⟩
    · intro k s hk hsk
      simp only [List.getElem?_eq_getElem hk, hsk]
      exact ⟨_, isConcept_gen (hs s (List.mem_of_getElem? hsk)) (Finset.filter_subset _ _)⟩
    · intro g
      rw [hE g]
      simp only [List.mem_toFinset, cobj]
      constructor
      · rintro ⟨hg, hgB⟩
        obtain ⟨i, vs, hi, hvs⟩ := row hg
        refine ⟨i, vs, hi, hvs, fun k v hk hv => ?_⟩
        have hsk := List.getElem?_eq_getElem (lt_of_lt_of_le hk hl)
        have hm := List.getElem?_eq_getElem hk
        simp only [hm, hsk]
        rw [(hs _ (List.getElem_mem _)).mem_downF]
        refine ⟨(h1 k _ hsk vs (List.mem_of_getElem? hvs) v hv).1, fun a ha => ?_⟩
        simp only [Finset.mem_filter, List.mem_toFinset] at ha
        exact (inc hi hm hsk ha.1 hvs hv).1 (hgB _ ha.2)
      · rintro ⟨i, vs, hi, hvs, hF⟩
        refine ⟨List.mem_of_getElem? hi, fun b hb => ?_⟩
        obtain ⟨k, m, s, a, hm, hsk, ha, rfl⟩ := (catt b).1 (by simpa using ((hB b).1 hb).1)
        have hk := (List.getElem?_eq_some_iff.1 hm).1
        obtain ⟨v, hv⟩ := val (List.mem_of_getElem? hvs) hk
        have := hF k v hk hv
        simp only [hm, hsk] at this
        rw [(hs s (List.mem_of_getElem? hsk)).mem_downF] at this
        exact (inc hi hm hsk ha hvs hv).2 (this.2 a (by simp [ha, hb]))
  · rintro ⟨F, hF, hE⟩
    refine ⟨c.M.filter fun b => ∀ g ∈ E, c.Inc g b, fun m => by simp, fun g => ?_⟩
    constructor
    · intro hg
      obtain ⟨i, vs, hi, -, -⟩ := (hE g).1 hg
      refine ⟨by simpa [cobj] using List.mem_of_getElem? hi, fun m hm => ?_⟩
      exact (Finset.mem_filter.1 hm).2 g hg
    · rintro ⟨hg, hgB⟩
      obtain ⟨i, vs, hi, hvs⟩ := row (by simpa [cobj] using hg)
      refine (hE g).2 ⟨i, vs, hi, hvs, fun k v hk hv => ?_⟩
      have hsk := List.getElem?_eq_getElem (lt_of_lt_of_le hk hl)
      have hm := List.getElem?_eq_getElem hk
      obtain ⟨B, hB, hA⟩ := hF k _ hk hsk
      rw [hA]
      refine ⟨by simpa using (h1 k _ hsk vs (List.mem_of_getElem? hvs) v hv).1, fun a ha => ?_⟩
      have haa : a ∈ scales[k].attributes := by simpa using ((hB a).1 ha).1
      refine (inc hi hm hsk haa hvs hv).1 (hgB _ ?_)
      refine Finset.mem_filter.2 ⟨by simpa using (catt _).2 ⟨k, _, _, a, hm, hsk, haa, rfl⟩, fun g' hg' => ?_⟩
      obtain ⟨i', vs', hi', hvs', hF'⟩ := (hE g').1 hg'
      obtain ⟨v', hv'⟩ := val (List.mem_of_getElem? hvs') hk
      exact (inc hi' hm hsk haa hvs' hv').2 (((hA _).1 (hF' k v' hk hv')).2 a ha)

/-- The number of concepts of the scaled context is at most the product of the numbers of concepts of the scales. -/
theorem C141_count (ho : objs.Nodup) (hr : objs.length = rows.length) (hw : ∀ r ∈ rows, atts.length ≤ r.length)
    (hl : atts.length = scales.length) (hs : ∀ s ∈ scales, s.WFw)
    (hn : ((derivedCols atts scales).map (derivedName join atts scales)).Nodup)
    (h1 : OneRow holds rows scales σ) (h : scaleMv join holds objs atts rows scales = .ok c) :
    ∃ cs css, norris c = .ok cs ∧ scales.mapM norris = .ok css ∧ cs.length ≤ (css.map List.length).prod := by
  classical
  obtain ⟨cw, -, -, -⟩ := C63_scaling join holds objs atts rows scales c ho hn h
  obtain ⟨cs, hcs, hnd, hmem⟩ := C34_norris cw
  obtain ⟨css, h2, h3⟩ := mapM_ok' (f := norris) (R := fun s cs => cs.Nodup ∧
      ∀ x, x ∈ cs ↔ IsConcept s.G s.M s.Inc x.extent x.intent) (l := scales) (fun s hsm => by
    obtain ⟨cs, a1, a2, a3⟩ := C34_norris (hs s hsm)
    exact ⟨cs, a1, a2, a3⟩)
  refine ⟨cs, css, hcs, h2, ?_⟩
  have hlen : css.length = scales.length := h3.length_eq.symm
  -- the choice of extents for a concept
  have choice : ∀ x : Concept α β, ∃ F : ℕ → Finset ω, x ∈ cs →
      (∀ k s, k < atts.length → scales[k]? = some s → IsExt s (F k)) ∧
      ∀ g, g ∈ x.extent ↔ ∃ (i : ℕ) (vs : List V), objs[i]? = some g ∧ rows[i]? = some vs ∧
        ∀ k v, k < atts.length → vs[k]? = some v → σ k v ∈ F k := by
    intro x
    by_cases hx : x ∈ cs
    · obtain ⟨F, hF⟩ := (C141_extents ho hr hw hl.le hs hn h1 h x.extent).1 ⟨_, (hmem x).1 hx⟩
      exact ⟨F, fun _ => hF⟩
    · exact ⟨fun _ => ∅, fun hx' => absurd hx' hx⟩
  choose F hF using choice
  let T : Fin scales.length → Finset (Finset ω) := fun k =>
    ((css[k.1]'(by rw [hlen]; exact k.2)).map fun x => x.extent).toFinset
  have hcard : (Fintype.piFinset T).card ≤ (css.map List.length).prod := by
    rw [Fintype.card_piFinset]
    have : (css.map List.length).prod = ∏ k : Fin scales.length, (css[k.1]'(by rw [hlen]; exact k.2)).length := by
      rw [← List.prod_ofFn]
      congr 1
      apply List.ext_getElem
      · simp [hlen]
      · intro i h1 h2; simp
    rw [this]
    refine Finset.prod_le_prod' fun k _ => ?_
    exact (List.toFinset_card_le _).trans (by simp)
  refine le_trans ?_ hcard
  rw [← List.toFinset_card_of_nodup hnd]
  refine Finset.card_le_card_of_injOn (fun x (k : Fin scales.length) => F x k.1) ?_ ?_
  · intro x hx
    simp only [Finset.mem_coe, List.mem_toFinset] at hx
    rw [Finset.mem_coe, Fintype.mem_piFinset]
    intro k
    obtain ⟨B, hB⟩ := (hF x hx).1 k.1 scales[k.1] (by omega) (List.getElem?_eq_getElem k.2)
    have := (List.forall₂_iff_get.1 h3).2 k.1 k.2 (by rw [hlen]; exact k.2)
    simp only [T, List.mem_toFinset, List.mem_map]
    exact ⟨⟨F x k.1, B⟩, (this.2 ⟨F x k.1, B⟩).2 hB, rfl⟩
  · intro x hx y hy hxy
    simp only [Finset.mem_coe, List.mem_toFinset] at hx hy
    have he : x.extent = y.extent := by
      ext g
      rw [(hF x hx).2, (hF y hy).2]
      have : ∀ k, k < atts.length → F x k = F y k := fun k hk => congrFun hxy ⟨k, by omega⟩
      constructor
      · rintro ⟨i, vs, a, b, d⟩
        exact ⟨i, vs, a, b, fun k v hk hv => this k hk ▸ d k v hk hv⟩
      · rintro ⟨i, vs, a, b, d⟩
        exact ⟨i, vs, a, b, fun k v hk hv => (this k hk).symm ▸ d k v hk hv⟩
    have hi : x.intent = y.intent := by
      ext m
      rw [((hmem x).1 hx).1, ((hmem y).1 hy).1, he]
    cases x; cases y
    simp_all
end scaled

/-! #### Ordinal scales -/

section ordinal

variable [PyName ℤ]

/-- The extents of an ordinal scale: the values from a threshold in the range on. -/
theorem ext_ordinal {mn mx : ℤ} {geq : Bool} {s : Ctx ℤ ℤ} (hm : mn ≤ mx) (h : ordinalScale mn mx geq = .ok s)
    (F : Finset ℤ) : IsExt s F ↔ ∃ t, mn ≤ t ∧ t ≤ mx ∧
      ∀ v, v ∈ F ↔ (mn ≤ v ∧ v ≤ mx) ∧ if geq then t ≤ v else v ≤ t := by
  classical
  obtain ⟨s', h1, hw, ho, ha, hi⟩ := C64_ordinal mn mx geq
  rw [h] at h1
  cases h1
  simp only [IsExt, IsConcept, List.mem_toFinset]
  constructor
  · rintro ⟨B, hB, hF⟩
    have hBa : ∀ m ∈ B, m ∈ s.attributes := fun m hm => ((hB m).1 hm).1
    cases geq with
    | true =>
      refine ⟨(insert mn B).max' (Finset.insert_nonempty _ _), Finset.le_max' _ _ (Finset.mem_insert_self _ _), ?_, ?_⟩
      · refine Finset.max'_le _ _ _ fun y hy => ?_
        rcases Finset.mem_insert.1 hy with rfl | hy
        · exact hm
        · exact (by simpa using (ha y).1 (hBa y hy) : mn < y ∧ y ≤ mx).2
      · intro v
        rw [hF, ho]
        simp only [if_true, and_congr_right_iff]
        rintro hv
        rw [Finset.max'_le_iff]
        simp only [Finset.mem_insert, forall_eq_or_imp]
        refine ⟨fun h => ⟨hv.1, fun m hmB => ?_⟩, fun h m hmB => (hi v m).2 ⟨(ho v).2 hv, hBa m hmB, ?_⟩⟩
        · simpa using ((hi v m).1 (h m hmB)).2.2
        · simpa using h.2 m hmB
    | false =>
      refine ⟨(insert mx B).min' (Finset.insert_nonempty _ _), ?_, Finset.min'_le _ _ (Finset.mem_insert_self _ _), ?_⟩
      · refine Finset.le_min' _ _ _ fun y hy => ?_
        rcases Finset.mem_insert.1 hy with rfl | hy
        · exact hm
        · exact (by simpa using (ha y).1 (hBa y hy) : mn ≤ y ∧ y < mx).1
      · intro v
        rw [hF, ho]
        simp only [Bool.false_eq_true, if_false, and_congr_right_iff]
        rintro hv
        rw [Finset.le_min'_iff]
        simp only [Finset.mem_insert, forall_eq_or_imp]
        refine ⟨fun h => ⟨hv.2, fun m hmB => ?_⟩, fun h m hmB => (hi v m).2 ⟨(ho v).2 hv, hBa m hmB, ?_⟩⟩
        · simpa using ((hi v m).1 (h m hmB)).2.2
        · simpa using h.2 m hmB
  · rintro ⟨t, ht1, ht2, hF⟩
    have htF : t ∈ F := (hF t).2 ⟨⟨ht1, ht2⟩, by split <;> exact le_refl _⟩
    refine ⟨s.M.filter fun m => if geq then m ≤ t else t ≤ m, fun m => ?_, fun v => ?_⟩
    · simp only [Finset.mem_filter, List.mem_toFinset]
      refine and_congr_right fun hmM => ⟨fun h v hv => (hi v m).2 ?_, fun h => ?_⟩
      · have := (hF v).1 hv
        refine ⟨(ho v).2 this.1, hmM, ?_⟩
        cases geq
        · simp only [Bool.false_eq_true, if_false] at *; omega
        · simp only [if_true] at *; omega
      · simpa using ((hi t m).1 (h t htF)).2.2
    · rw [hF, ho]
      refine and_congr_right fun hv => ⟨fun h m hm => (hi v m).2 ?_, fun h => ?_⟩
      · simp only [Finset.mem_filter, List.mem_toFinset] at hm
        refine ⟨(ho v).2 hv, hm.1, ?_⟩
        cases geq
        · simp only [Bool.false_eq_true, if_false] at *; omega
        · simp only [if_true] at *; omega
      · cases geq with
        | true =>
          simp only [if_true] at *
          by_cases htm : t = mn
          · omega
          · have := ((hi v t).1 (h t (by
              have h1 := ha t
              try simp only [Bool.false_eq_true, if_false, if_true] at h1
              simp only [Finset.mem_filter, List.mem_toFinset, h1, le_refl, and_true]; omega))).2.2
            simpa using this
        | false =>
          simp only [Bool.false_eq_true, if_false] at *
          by_cases htm : t = mx
          · omega
          · have := ((hi v t).1 (h t (by
              have h1 := ha t
              try simp only [Bool.false_eq_true, if_false, if_true] at h1
              simp only [Finset.mem_filter, List.mem_toFinset, h1, le_refl, and_true]; omega))).2.2
            simpa using this

variable {α : Type} [DecidableEq α] [PyName α]

/-- Scaled by ordinal scales, the extents are the sets of the objects whose values reach a threshold (stay below a
threshold) for every attribute, thresholds within the ranges of the scales. -/
theorem C141_ordinal {join : ℤ → ℤ → ℤ} {objs : List α} {atts : List ℤ} {rows : List (List ℤ)}
    {lims : List (ℤ × ℤ × Bool)} {scales : List (Ctx ℤ ℤ)} {c : Ctx α ℤ} (ho : objs.Nodup)
    (hr : objs.length = rows.length) (hw : ∀ r ∈ rows, atts.length ≤ r.length) (hl : atts.length = lims.length)
    (hsc : lims.mapM (fun p => ordinalScale p.1 p.2.1 p.2.2) = .ok scales) (hlim : ∀ p ∈ lims, p.1 ≤ p.2.1)
    (hval : ∀ vs ∈ rows, ∀ (k : ℕ) (p : ℤ × ℤ × Bool) (v : ℤ), lims[k]? = some p → vs[k]? = some v → p.1 ≤ v ∧ v ≤ p.2.1)
    (hn : ((derivedCols atts scales).map (derivedName join atts scales)).Nodup)
    (h : scaleMv join (fun u v => .ok (decide (v = u))) objs atts rows scales = .ok c) (E : Finset α) :
    IsExt c E ↔ ∃ t : ℕ → ℤ, (∀ k p, lims[k]? = some p → p.1 ≤ t k ∧ t k ≤ p.2.1) ∧
      ∀ g, g ∈ E ↔ ∃ (i : ℕ) (vs : List ℤ), objs[i]? = some g ∧ rows[i]? = some vs ∧
        ∀ k p v, lims[k]? = some p → vs[k]? = some v → if p.2.2 then t k ≤ v else v ≤ t k := by
  classical
  have hf := mapM_all₂ hsc
  have hlen : lims.length = scales.length := hf.length_eq
  have hsk : ∀ (k : ℕ) s, scales[k]? = some s → ∃ p : ℤ × ℤ × Bool, lims[k]? = some p ∧ ordinalScale p.1 p.2.1 p.2.2 = .ok s := by
    intro k s hs
    obtain ⟨hk, rfl⟩ := List.getElem?_eq_some_iff.1 hs
    have := (List.forall₂_iff_get.1 hf).2 k (by omega) hk
    exact ⟨_, List.getElem?_eq_getElem (by omega), this⟩
  have hks : ∀ (k : ℕ) p, lims[k]? = some p → ∃ s, scales[k]? = some s ∧ ordinalScale p.1 p.2.1 p.2.2 = .ok s := by
    intro k p hp
    obtain ⟨hk, rfl⟩ := List.getElem?_eq_some_iff.1 hp
    have := (List.forall₂_iff_get.1 hf).2 k hk (by omega)
    exact ⟨_, List.getElem?_eq_getElem (by omega), this⟩
  have hwf : ∀ s ∈ scales, s.WFw := by
    intro s hs
    obtain ⟨k, hk⟩ := List.getElem?_of_mem hs
    obtain ⟨p, -, h2⟩ := hsk k s hk
    obtain ⟨s', h3, h4, -⟩ := C64_ordinal p.1 p.2.1 p.2.2
    rw [h2] at h3; cases h3
    exact h4.toWFw
  have hone : OneRow (fun u v : ℤ => (.ok (decide (v = u)) : Py Bool)) rows scales (fun _ v => v) := by
    intro k s hs vs hvs v hv
    obtain ⟨p, hp, h2⟩ := hsk k s hs
    obtain ⟨s', h3, h4, h5, -⟩ := C64_ordinal p.1 p.2.1 p.2.2
    rw [h2] at h3; cases h3
    exact ⟨(h5 v).2 (hval vs hvs k p v hp hv), fun w _ => by simp [eq_comm]⟩
  rw [C141_extents ho hr hw (by omega) hwf hn hone h]
  constructor
  · rintro ⟨F, hF, hE⟩
    have : ∀ k, ∃ t, ∀ p, lims[k]? = some p → p.1 ≤ t ∧ t ≤ p.2.1 ∧
        ∀ v, v ∈ F k ↔ (p.1 ≤ v ∧ v ≤ p.2.1) ∧ if p.2.2 then t ≤ v else v ≤ t := by
      intro k
      cases hp : lims[k]? with
      | none => exact ⟨0, by simp⟩
      | some p =>
        obtain ⟨s, hs, hos⟩ := hks k p hp
        obtain ⟨t, ht⟩ := (ext_ordinal (hlim p (List.mem_of_getElem? hp)) hos (F k)).1
          (hF k s (by rw [hl]; exact (List.getElem?_eq_some_iff.1 hp).1) hs)
        exact ⟨t, by rintro _ ⟨⟩; exact ht⟩
    choose t ht using this
    refine ⟨t, fun k p hp => ⟨(ht k p hp).1, (ht k p hp).2.1⟩, fun g => ?_⟩
    rw [hE]
    refine exists_congr fun i => exists_congr fun vs => and_congr_right fun _ => and_congr_right fun hvs => ?_
    constructor
    · intro h' k p v hp hv
      exact (((ht k p hp).2.2 v).1 (h' k v (by rw [hl]; exact (List.getElem?_eq_some_iff.1 hp).1) hv)).2
    · intro h' k v hk hv
      have hp := List.getElem?_eq_getElem (hl ▸ hk)
      exact ((ht k _ hp).2.2 v).2 ⟨hval vs (List.mem_of_getElem? hvs) k _ v hp hv, h' k _ v hp hv⟩
  · rintro ⟨t, ht, hE⟩
    refine ⟨fun k => match lims[k]? with
      | none => ∅
      | some p => (Finset.Icc p.1 p.2.1).filter fun v => if p.2.2 then t k ≤ v else v ≤ t k, ?_, fun g => ?_⟩
    · intro k s hk hs
      obtain ⟨p, hp, hos⟩ := hsk k s hs
      rw [ext_ordinal (hlim p (List.mem_of_getElem? hp)) hos]
      exact ⟨t k, (ht k p hp).1, (ht k p hp).2, fun v => by simp [hp]⟩
    · rw [hE]
      refine exists_congr fun i => exists_congr fun vs => and_congr_right fun _ => and_congr_right fun hvs => ?_
      constructor
      · intro h' k v hk hv
        have hp := List.getElem?_eq_getElem (hl ▸ hk)
        simp only [hp, Finset.mem_filter, Finset.mem_Icc]
        exact ⟨hval vs (List.mem_of_getElem? hvs) k _ v hp hv, h' k _ v hp hv⟩
      · intro h' k p v hp hv
        have := h' k v (by rw [hl]; exact (List.getElem?_eq_some_iff.1 hp).1) hv
        simp only [hp, Finset.mem_filter] at this
        exact this.2

end ordinal

/-! #### Nominal scales -/

section nominal

variable {α W : Type} [DecidableEq α] [DecidableEq W] [PyName α] [PyName W]

/-- The non-empty extents of a nominal scale: all values, or one value. -/
theorem ext_nominal {ord : SetOrder W} {column : List W} {s : Ctx W W} (h : nominalScale ord column = .ok s)
    {F : Finset W} (hne : F.Nonempty) :
    IsExt s F ↔ (∀ v, v ∈ F ↔ v ∈ column) ∨ ∃ w ∈ column, F = {w} := by
  classical
  obtain ⟨s', h1, hw, ho, ha, hi⟩ := C64_nominal ord column
  rw [h] at h1
  cases h1
  simp only [IsExt, IsConcept, List.mem_toFinset, ha, ho, hi]
  constructor
  · rintro ⟨B, hB, hF⟩
    rcases B.eq_empty_or_nonempty with rfl | ⟨w, hw⟩
    · left; intro v; simp [hF]
    · right
      refine ⟨w, ((hB w).1 hw).1, ?_⟩
      refine (hne.subset_singleton_iff).1 fun v hv => ?_
      exact Finset.mem_singleton.2 (((hF v).1 hv).2 w hw).2
  · rintro (hF | ⟨w, hw, rfl⟩)
    · refine ⟨column.toFinset.filter fun m => ∀ v ∈ F, v = m, fun m => ?_, fun v => ?_⟩
      · simp only [Finset.mem_filter, List.mem_toFinset, hF]
        exact and_congr_right fun _ => ⟨fun h g hg => ⟨hg, h g hg⟩, fun h g hg => (h g hg).2⟩
      · simp only [Finset.mem_filter, List.mem_toFinset, hF]
        exact ⟨fun hv => ⟨hv, fun m hm => ⟨hv, hm.2 v hv⟩⟩, fun h => h.1⟩
    · refine ⟨{w}, fun m => ?_, fun v => ?_⟩
      · simp only [Finset.mem_singleton, forall_eq]
        exact ⟨by rintro rfl; exact ⟨hw, hw, rfl⟩, fun h => h.2.2.symm⟩
      · simp only [Finset.mem_singleton, forall_eq]
        exact ⟨by rintro rfl; exact ⟨hw, hw, rfl⟩, fun h => h.2.2⟩

/-- Scaled by the nominal scales of its columns, the non-empty extents are the non-empty sets of objects that are
described by prescribing the values of some attributes. -/
theorem C141_nominal {join : W → W → W} {objs : List α} {atts : List W} {rows : List (List W)} {ord : SetOrder W}
    {scales : List (Ctx W W)} {c : Ctx α W} (ho : objs.Nodup) (hr : objs.length = rows.length)
    (hw : ∀ r ∈ rows, r.length = atts.length)
    (hsc : (List.range atts.length).mapM (fun k => nominalScale ord (rows.filterMap fun r => r[k]?)) = .ok scales)
    (hn : ((derivedCols atts scales).map (derivedName join atts scales)).Nodup)
    (h : scaleMv join (fun u v => .ok (decide (v = u))) objs atts rows scales = .ok c) (E : Finset α)
    (hne : E.Nonempty) :
    IsExt c E ↔ ∃ t : ℕ → Option W, ∀ g, g ∈ E ↔ ∃ (i : ℕ) (vs : List W), objs[i]? = some g ∧ rows[i]? = some vs ∧
      ∀ k < atts.length, ∀ w, t k = some w → vs[k]? = some w := by
  classical
  have hf := mapM_all₂ hsc
  have hlen : atts.length = scales.length := by simpa using hf.length_eq
  have hsk : ∀ (k : ℕ) s, scales[k]? = some s → nominalScale ord (rows.filterMap fun r => r[k]?) = .ok s := by
    intro k s hs
    obtain ⟨hk, rfl⟩ := List.getElem?_eq_some_iff.1 hs
    simpa using (List.forall₂_iff_get.1 hf).2 k (by simpa using by omega) hk
  have hwf : ∀ s ∈ scales, s.WFw := by
    intro s hs
    obtain ⟨k, hk⟩ := List.getElem?_of_mem hs
    obtain ⟨s', h3, h4, -⟩ := C64_nominal ord (rows.filterMap fun r => r[k]?)
    rw [hsk k s hk] at h3; cases h3
    exact h4.toWFw
  have hone : OneRow (fun u v : W => (.ok (decide (v = u)) : Py Bool)) rows scales (fun _ v => v) := by
    intro k s hs vs hvs v hv
    obtain ⟨s', h3, h4, h5, -⟩ := C64_nominal ord (rows.filterMap fun r => r[k]?)
    rw [hsk k s hs] at h3; cases h3
    exact ⟨(h5 v).2 (List.mem_filterMap.2 ⟨vs, hvs, hv⟩), fun w _ => by simp [eq_comm]⟩
  have val : ∀ {vs : List W} {k : ℕ}, vs ∈ rows → k < atts.length → ∃ v, vs[k]? = some v := fun {vs k} hvs hk =>
    ⟨vs[k]'(by rw [hw vs hvs]; exact hk), List.getElem?_eq_getElem _⟩
  obtain ⟨g₀, hg₀⟩ := hne
  rw [C141_extents ho hr (fun r hr => (hw r hr).ge) (by omega) hwf hn hone h]
  constructor
  · rintro ⟨F, hF, hE⟩
    obtain ⟨i₀, vs₀, hi₀, hvs₀, h₀⟩ := (hE g₀).1 hg₀
    have : ∀ k, ∃ t : Option W, k < atts.length → (∀ v ∈ rows.filterMap (fun r => r[k]?), v ∈ F k ↔ ∀ w, t = some w → v = w) := by
      intro k
      by_cases hk : k < atts.length
      · obtain ⟨v, hv⟩ := val (List.mem_of_getElem? hvs₀) hk
        have hs := List.getElem?_eq_getElem (hlen ▸ hk)
        rcases (ext_nominal (hsk k _ hs) ⟨v, h₀ k v hk hv⟩).1 (hF k _ hk hs) with h1 | ⟨w, -, h2⟩
        · exact ⟨none, fun _ v hv => by simp [h1 v, hv]⟩
        · exact ⟨some w, fun _ v _ => by simp [h2, eq_comm]⟩
      · exact ⟨none, fun hk' => absurd hk' hk⟩
    choose t ht using this
    refine ⟨t, fun g => ?_⟩
    rw [hE]
    refine exists_congr fun i => exists_congr fun vs => and_congr_right fun _ => and_congr_right fun hvs => ?_
    have hvm := List.mem_of_getElem? hvs
    constructor
    · intro h' k hk w hw'
      obtain ⟨v, hv⟩ := val hvm hk
      rw [hv, (ht k hk v (List.mem_filterMap.2 ⟨vs, hvm, hv⟩)).1 (h' k v hk hv) w hw']
    · intro h' k v hk hv
      refine (ht k hk v (List.mem_filterMap.2 ⟨vs, hvm, hv⟩)).2 fun w hw' => ?_
      have := h' k hk w hw'
      rw [hv] at this
      exact Option.some.inj this
  · rintro ⟨t, hE⟩
    obtain ⟨i₀, vs₀, hi₀, hvs₀, h₀⟩ := (hE g₀).1 hg₀
    have hvm₀ := List.mem_of_getElem? hvs₀
    refine ⟨fun k => match t k with
      | none => (rows.filterMap fun r => r[k]?).toFinset
      | some w => {w}, ?_, fun g => ?_⟩
    · intro k s hk hs
      obtain ⟨v, hv⟩ := val hvm₀ hk
      cases htk : t k with
      | none =>
        simp only [htk]
        exact (ext_nominal (F := (rows.filterMap fun r => r[k]?).toFinset) (hsk k s hs) ⟨v, List.mem_toFinset.2 (List.mem_filterMap.2 ⟨vs₀, hvm₀, hv⟩)⟩).2
          (Or.inl fun v => by simp)
      | some w =>
        simp only [htk]
        exact (ext_nominal (hsk k s hs) ⟨w, by simp⟩).2
          (Or.inr ⟨w, List.mem_filterMap.2 ⟨vs₀, hvm₀, h₀ k hk w htk⟩, rfl⟩)
    · rw [hE]
      refine exists_congr fun i => exists_congr fun vs => and_congr_right fun _ => and_congr_right fun hvs => ?_
      have hvm := List.mem_of_getElem? hvs
      constructor
      · intro h' k v hk hv
        cases htk : t k with
        | none =>
          simp only [htk]
          exact List.mem_toFinset.2 (List.mem_filterMap.2 ⟨vs, hvm, hv⟩)
        | some w =>
          have := h' k hk w htk
          rw [hv] at this
          simp only [htk]
          exact Finset.mem_singleton.2 (Option.some.inj this)
      · intro h' k hk w htk
        obtain ⟨v, hv⟩ := val hvm hk
        have := h' k v hk hv
        simp only [htk] at this
        rw [hv, Finset.mem_singleton.1 this]

end nominal

/-! #### Cases -/

/-- The scales of the case: `>=` on 1..3 and `<=` on 1..2. -/
def sc141a : Ctx ℤ ℤ := ⟨[1, 2, 3], [2, 3], ⟨some 2, [[false, false], [true, false], [true, true]]⟩⟩
def sc141b : Ctx ℤ ℤ := ⟨[1, 2], [1], ⟨some 1, [[true], [false]]⟩⟩

theorem sc141_scales : [((1 : ℤ), (3 : ℤ), true), (1, 2, false)].mapM (fun p => ordinalScale p.1 p.2.1 p.2.2) =
    .ok [sc141a, sc141b] := by decide +kernel

/-- The scaled context of the case. -/
def sc141 : Ctx (Fin 3) ℤ := ⟨[0, 1, 2], [102, 103, 201],
  ⟨some 3, [[true, true, false], [true, false, true], [false, false, true]]⟩⟩

theorem sc141_eq : scaleMv (fun m a => 100 * m + a) (fun u v => .ok (decide (v = u))) ([0, 1, 2] : List (Fin 3)) [1, 2]
    [[3, 2], [2, 1], [1, 1]] [sc141a, sc141b] = .ok sc141 := by decide +kernel

example (E : Finset (Fin 3)) : IsExt sc141 E ↔
    ∃ t : ℕ → ℤ, (∀ k p, [((1 : ℤ), (3 : ℤ), true), (1, 2, false)][k]? = some p → p.1 ≤ t k ∧ t k ≤ p.2.1) ∧
      ∀ g, g ∈ E ↔ ∃ (i : ℕ) (vs : List ℤ), ([0, 1, 2] : List (Fin 3))[i]? = some g ∧
        [[(3 : ℤ), 2], [2, 1], [1, 1]][i]? = some vs ∧
        ∀ k p v, [((1 : ℤ), (3 : ℤ), true), (1, 2, false)][k]? = some p → vs[k]? = some v →
          if p.2.2 then t k ≤ v else v ≤ t k := by
  refine C141_ordinal (α := Fin 3) (join := fun m a => 100 * m + a) (objs := [0, 1, 2]) (atts := [1, 2]) (rows := [[3, 2], [2, 1], [1, 1]])
    (by decide) (by rfl) (by decide) (by rfl) sc141_scales (by decide) ?_ ?_ ?_ E
  rotate_left
  · show ((derivedCols _ [sc141a, sc141b]).map _).Nodup
    decide +kernel
  · exact sc141_eq
  intro vs hvs k p v hp hv
  rcases k with _ | _ | k
  · simp at hp; subst hp
    simp only [List.mem_cons, List.not_mem_nil, or_false] at hvs
    rcases hvs with rfl | rfl | rfl <;> simp at hv <;> subst hv <;> decide
  · simp at hp; subst hp
    simp only [List.mem_cons, List.not_mem_nil, or_false] at hvs
    rcases hvs with rfl | rfl | rfl <;> simp at hv <;> subst hv <;> decide
  · simp at hp

/-- The concepts of the case and of its scales: 6 = 3 · 2. -/
example : (norris sc141).toOption.map List.length = some 6 ∧
    ([sc141a, sc141b].mapM norris).toOption.map (List.map List.length) = some [3, 2] := by decide +kernel

/-- A case for nominal scales. -/
example : ∃ scales c, (List.range 2).mapM (fun k => nominalScale (SetOrder.fin 9)
      ([[0, 2], [1, 2], [1, 3]].filterMap fun r : List (Fin 9) => r[k]?)) = .ok scales ∧
    ((derivedCols [(0 : Fin 9), 5] scales).map (derivedName (fun m a => m + a) [(0 : Fin 9), 5] scales)).Nodup ∧
    scaleMv (fun m a => m + a) (fun u v => .ok (decide (v = u))) ([0, 1, 2] : List (Fin 3)) [0, 5]
      [[0, 2], [1, 2], [1, 3]] scales = .ok c :=
  ⟨[⟨[0, 1], [0, 1], ⟨some 2, [[true, false], [false, true]]⟩⟩, ⟨[2, 3], [2, 3], ⟨some 2, [[true, false], [false, true]]⟩⟩],
    ⟨[0, 1, 2], [0, 1, 7, 8], ⟨some 4, [[true, false, true, false], [false, true, true, false], [false, true, false, true]]⟩⟩,
    by decide +kernel, by decide +kernel, by decide +kernel⟩

/-- That exactly one condition holds is needed: with the conditions `value > 0` and `value > 1`, crossed in different
columns, the object with value 2 gets both crosses although no value of the scale has them, and the set of the
extents of the scale is not enough. -/
example : scaleMv (fun m a => 100 * m + a) (fun u v => .ok (decide (u < v))) ([0, 1] : List (Fin 2)) [1] [[2], [1]]
    [⟨[0, 1], [1, 2], ⟨some 2, [[true, false], [false, true]]⟩⟩] =
    (.ok ⟨[0, 1], [101, 102], ⟨some 2, [[true, true], [true, false]]⟩⟩ : Py (Ctx (Fin 2) ℤ)) := by decide +kernel
