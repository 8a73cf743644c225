/-
Property C114: deleting several attributes at once.
-/
import Verif.Props.Reduce

set_option linter.unusedSectionVars false

open Spec

namespace Ctx

variable {α β : Type} [DecidableEq α] [DecidableEq β]

theorem delAll_length {γ : Type} {l r : List γ} {js : List ℕ} (h : delAll l js = .ok r) :
    r.length + js.length = l.length := by
  induction js generalizing l with
  | nil => cases h; rfl
  | cons j js ih =>
    unfold delAll at h
    split at h
    · rename_i hj
      have := ih h
      rw [List.length_eraseIdx, if_pos hj] at this
      rw [List.length_cons]
      omega
    · cases h

theorem delAll_ok {γ : Type} [DecidableEq γ] {l : List γ} (hn : l.Nodup) {js : List ℕ} (hs : js.Pairwise (· > ·))
    {ns : List γ} (hj : List.Forall₂ (fun j x => l[j]? = some x) js ns) :
    delAll l js = .ok (l.filter (· ∉ ns)) := by
  induction js generalizing l ns with
  | nil => cases hj; simp [delAll]
  | cons j js ih =>
    cases hj with
    | @cons _ x _ ns h1 h2 => ?_
    rw [List.pairwise_cons] at hs
    unfold delAll
    rw [if_pos (lt_of_getElem? h1), eraseIdx_eq_filter hn h1]
    have hl : ∀ k < j, (l.eraseIdx j)[k]? = l[k]? := fun k hk => by rw [List.getElem?_eraseIdx, if_pos hk]
    rw [eraseIdx_eq_filter hn h1] at hl
    rw [ih (hn.filter _) hs.2 (ns := ns) ?_, List.filter_filter]
    · congr 1
      refine List.filter_congr fun y _ => ?_
      rw [← Bool.decide_and]
      simp only [List.mem_cons, not_or, decide_eq_decide]
      exact and_comm
    · clear ih
      have hlt := hs.1
      clear hs h1
      induction h2 with
      | nil => exact .nil
      | @cons k y ks ys e _ ih =>
        exact .cons (by rw [hl k (hlt k (by simp))]; exact e) (ih fun z hz => hlt z (by simp [hz]))

/-- The remaining positions, in order. -/
theorem filter_positions {γ : Type} {l : List γ} {p : γ → Bool} {q : ℕ → Bool}
    (h : ∀ (k : ℕ) x, l[k]? = some x → q k = p x) (d : γ) :
    l.filter p = ((List.range l.length).filter q).map fun k => l.getD k d := by
  have e : l = (List.range l.length).map fun k => l.getD k d := by
    apply List.ext_getElem (by simp)
    intro i h1 h2
    simp [List.getD_eq_getElem?_getD, List.getElem?_eq_getElem h1]
  conv_lhs => rw [e]
  rw [List.filter_map]
  congr 1
  refine List.filter_congr fun k hk => ?_
  rw [List.mem_range] at hk
  rw [h k l[k] (List.getElem?_eq_getElem hk)]
  simp [List.getD_eq_getElem?_getD, List.getElem?_eq_getElem hk]

variable [PyName α] [PyName β]

theorem positions {c : Ctx α β} (hw : c.WFw) {names : List β} (hmem : ∀ a ∈ names, a ∈ c.attributes) :
    names.mapM (lastIdx c.attributes) = .ok (names.map c.attributes.idxOf) ∧
      (∀ j, j ∈ names.map c.attributes.idxOf ↔ ∃ a ∈ names, c.attributes[j]? = some a) ∧
      (names.Nodup → (names.map c.attributes.idxOf).Nodup) := by
  have hi : ∀ a ∈ names, c.attributes[c.attributes.idxOf a]? = some a := fun a ha => by
    rw [List.getElem?_eq_getElem (List.idxOf_lt_length_of_mem (hmem a ha)), List.getElem_idxOf]
  refine ⟨mapM_ok fun a ha => lastIdx_eq hw.anodup (hi a ha), fun j => ?_, fun hn => ?_⟩
  · rw [List.mem_map]
    refine exists_congr fun a => and_congr_right fun ha => ⟨?_, idxOf_of_nodup hw.anodup⟩
    rintro rfl
    exact hi a ha
  · rw [List.nodup_map_iff_inj_on hn]
    intro a ha b hb e
    have := hi a ha
    rw [e, hi b hb] at this
    exact (Option.some.inj this).symm

theorem make_head {r : List Bool} {rs : List (List Bool)} {objs : List α} {atts : List β} {c' : Ctx α β}
    (h : make (r :: rs) objs atts = .ok c') : r.length = atts.length := by
  unfold make at h
  split at h
  · cases h
  split at h
  · cases h
  rename_i h2
  by_contra hl
  exact h2 ⟨by simp, by simpa using hl⟩

/-- C114: different known names are deleted together with their columns, whatever their order in the list; the other
cells stay. -/
theorem C114_delete {c : Ctx α β} {t : Table α β} (h : Stores c t) (hne : t.objs ≠ []) {names : List β}
    (hn : names.Nodup) (hmem : ∀ a ∈ names, a ∈ t.atts) :
    ∃ c', c.deleteAttributes names = (c', none) ∧ Stores c' ⟨t.objs, t.atts.filter (· ∉ names), t.rel⟩ := by
  have hw := h.wf
  obtain ⟨e1, hjs, hjn⟩ := positions hw (names := names) (by rw [h.atts]; exact hmem)
  obtain ⟨js, hj⟩ : ∃ js, js = names.map c.attributes.idxOf := ⟨_, rfl⟩
  rw [← hj] at e1 hjs hjn
  have hrows : c.nd.rows ≠ [] := by
    intro e
    have := hw.nrows
    rw [e, h.objs] at this
    exact hne (List.length_eq_zero_iff.1 this.symm)
  have hchk : c.nd.checkCols js = .ok () := by
    unfold Nd.checkCols
    rw [hw.shape hrows]
    simp only
    rw [if_pos]
    rw [List.all_eq_true]
    intro j hj'
    obtain ⟨a, -, ha⟩ := (hjs j).1 hj'
    exact decide_eq_true (lt_of_getElem? ha)
  have hdel : delAll c.attributes (js.insertionSort (· ≥ ·)) = .ok (c.attributes.filter (· ∉ names)) := by
    have hp : (js.insertionSort (· ≥ ·)).Perm js := List.perm_insertionSort _ _
    have hns : ∀ j ∈ js.insertionSort (· ≥ ·), ∃ a ∈ names, c.attributes[j]? = some a :=
      fun j hj' => (hjs j).1 (hp.mem_iff.1 hj')
    have hF : ∀ l : List ℕ, (∀ j ∈ l, ∃ a ∈ names, c.attributes[j]? = some a) →
        ∃ ns, List.Forall₂ (fun j x => c.attributes[j]? = some x) l ns ∧ ∀ x ∈ ns, x ∈ names := by
      intro l
      induction l with
      | nil => exact fun _ => ⟨[], .nil, by simp⟩
      | cons j l ih =>
        intro hl
        obtain ⟨a, ha, hja⟩ := hl j (by simp)
        obtain ⟨ns, h1, h2⟩ := ih fun k hk => hl k (by simp [hk])
        exact ⟨a :: ns, .cons hja h1, by simpa using ⟨ha, h2⟩⟩
    obtain ⟨ns, h1, h2⟩ := hF _ hns
    have hsort : (js.insertionSort (· ≥ ·)).Pairwise (· > ·) := by
      have hge : (js.insertionSort (· ≥ ·)).Pairwise (· ≥ ·) := List.pairwise_insertionSort (· ≥ ·) js
      have hnd : (js.insertionSort (· ≥ ·)).Nodup := hp.nodup_iff.2 (hjn hn)
      exact (hge.and hnd).imp fun h => lt_of_le_of_ne h.1 (Ne.symm h.2)
    rw [delAll_ok hw.anodup hsort h1]
    congr 1
    refine List.filter_congr fun x _ => ?_
    rw [decide_eq_decide, not_iff_not]
    refine ⟨h2 x, fun hx => ?_⟩
    obtain ⟨j, hj'⟩ := List.mem_iff_getElem?.1 (h.atts ▸ hmem x hx : x ∈ c.attributes)
    have hm : j ∈ js.insertionSort (· ≥ ·) := hp.mem_iff.2 ((hjs j).2 ⟨x, hx, hj'⟩)
    clear hsort hns hp
    generalize js.insertionSort (· ≥ ·) = L at h1 hm
    induction h1 with
    | nil => simp at hm
    | @cons k y l ns e _ ih =>
      rcases List.mem_cons.1 hm with rfl | hm
      · rw [hj'] at e; cases e; simp
      · exact List.mem_cons_of_mem _ (ih (fun z hz => h2 z (by simp [hz])) hm)
  have hq : ∀ (k : ℕ) a, c.attributes[k]? = some a → decide (k ∉ js) = decide (a ∉ names) := by
    intro k a hk
    rw [decide_eq_decide, not_iff_not, hjs]
    refine ⟨?_, fun ha => ⟨a, ha, hk⟩⟩
    rintro ⟨b, hb, hb'⟩
    rw [hk] at hb'
    cases hb'
    exact hb
  obtain ⟨F, hF⟩ : ∃ F, F = (List.range c.attributes.length).filter (· ∉ js) := ⟨_, rfl⟩
  have hFa : ∀ (i : ℕ) a, (c.attributes.filter (· ∉ names))[i]? = some a →
      ∃ k, F[i]? = some k ∧ c.attributes[k]? = some a := by
    intro i a hi
    rw [filter_positions (q := fun k => decide (k ∉ js)) hq a, ← hF, List.getElem?_map] at hi
    cases hk : F[i]? with
    | none => rw [hk] at hi; cases hi
    | some k =>
      refine ⟨k, rfl, ?_⟩
      have hkl : k < c.attributes.length := by
        have := List.mem_of_getElem? hk
        rw [hF, List.mem_filter, List.mem_range] at this
        exact this.1
      rw [hk] at hi
      rw [List.getElem?_eq_getElem hkl]
      simpa [List.getD_eq_getElem?_getD, List.getElem?_eq_getElem hkl] using hi
  have hlenF : F.length = (c.attributes.filter (· ∉ names)).length := by
    cases hA : c.attributes with
    | nil => rw [hF, hA]; rfl
    | cons d _ => rw [← hA, filter_positions (q := fun k => decide (k ∉ js)) hq d, List.length_map, hF]
  obtain ⟨rows, hr⟩ : ∃ rows, rows = c.nd.rows.map fun r =>
      ((List.range r.length).filter (· ∉ js)).map fun k => r.getD k false := ⟨_, rfl⟩
  have hrow : ∀ r ∈ c.nd.rows, (((List.range r.length).filter (· ∉ js)).map fun k => r.getD k false) =
      F.map fun k => r.getD k false := by
    intro r hr'
    rw [hw.width r hr', hF]
  have hl : rows.length = c.objects.length := by rw [hr, List.length_map, hw.nrows]
  have hwd : ∀ r ∈ rows, r.length = (c.attributes.filter (· ∉ names)).length := by
    intro r hr'
    rw [hr] at hr'
    obtain ⟨s, hs, rfl⟩ := List.mem_map.1 hr'
    rw [hrow s hs, List.length_map, hlenF]
  have han : (c.attributes.filter (· ∉ names)).Nodup := hw.anodup.filter _
  refine ⟨mk' c.objects (c.attributes.filter (· ∉ names)) rows, ?_, (wf_mk' hl hwd hw.onodup han).toWFw, h.objs, ?_, ?_⟩
  · unfold deleteAttributes
    rw [e1]
    simp only [py_ok_bind, hchk, hdel, ← hr]
    rw [make_nodup hl hwd hw.onodup han]
    rfl
  · show c.attributes.filter (· ∉ names) = t.atts.filter (· ∉ names)
    rw [h.atts]
  · intro i j o a hi hj'
    obtain ⟨k, hk, hka⟩ := hFa j a hj'
    obtain ⟨r, h1, h2⟩ := h.val i k o a hi hka
    refine ⟨F.map fun k => r.getD k false, ?_, ?_⟩
    · show rows[i]? = _
      rw [hr, List.getElem?_map, h1, Option.map_some, hrow r (List.mem_of_getElem? h1)]
    · rw [List.getElem?_map, hk, Option.map_some, List.getD_eq_getElem?_getD, h2]
      rfl

/-- An unknown name raises KeyError and nothing changes. -/
theorem C114_unknown (c : Ctx α β) {names : List β} (h : ∃ a ∈ names, a ∉ c.attributes) :
    c.deleteAttributes names = (c, some .keyError) := by
  obtain ⟨a, ha, hna⟩ := h
  have : names.mapM (lastIdx c.attributes) = .error .keyError := by
    induction names with
    | nil => simp at ha
    | cons b l ih =>
      rw [List.mapM_cons]
      by_cases hb : b ∈ c.attributes
      · obtain ⟨j, hj⟩ := lastIdx_mem hb
        rw [hj, py_ok_bind, ih (by
          rcases List.mem_cons.1 ha with rfl | ha
          · exact absurd hb hna
          · exact ha)]
        rfl
      · rw [lastIdx_not_mem hb]; rfl
  unfold deleteAttributes
  rw [this]
  rfl

/-- C114 fails for a list that names an attribute twice: its column is deleted once, but as many names are deleted as are
listed, and the call raises. -/
theorem C114_repeated_violated {c : Ctx α β} (hw : c.WFw) (hne : c.objects ≠ []) {names : List β} (hn : ¬ names.Nodup)
    (hmem : ∀ a ∈ names, a ∈ c.attributes) : ∃ e, c.deleteAttributes names = (c, some e) := by
  obtain ⟨e1, hjs, -⟩ := positions hw hmem
  obtain ⟨js, hj⟩ : ∃ js, js = names.map c.attributes.idxOf := ⟨_, rfl⟩
  rw [← hj] at e1 hjs
  have hjd : ¬ js.Nodup := by
    rw [hj]
    exact fun h => hn h.of_map
  cases hd : c.deleteAttributes names with
  | mk c' o =>
    cases o with
    | some e => rw [reinit_err hd]; exact ⟨e, rfl⟩
    | none =>
      exfalso
      have he := reinit_ok hd
      rw [e1, py_ok_bind] at he
      obtain ⟨_, -, he⟩ := bind_ok he
      obtain ⟨atts, h2, he⟩ := bind_ok he
      have hlen := delAll_length h2
      rw [List.length_insertionSort] at hlen
      obtain ⟨r, rs, hr⟩ := List.exists_cons_of_ne_nil (l := c.nd.rows) fun e => hne (by
        have := hw.nrows
        rw [e] at this
        exact List.length_eq_zero_iff.1 this.symm)
      rw [hr, List.map_cons] at he
      have hwr : r.length = c.attributes.length := hw.width r (by rw [hr]; simp)
      have h3 : (((List.range r.length).filter (· ∉ js)).map fun k => r.getD k false).length = atts.length := by
        have := make_head he
        exact this
      rw [List.length_map, hwr] at h3
      have h4 : ((List.range c.attributes.length).filter (· ∉ js)).length +
          ((List.range c.attributes.length).filter (· ∈ js)).length = c.attributes.length := by
        have := List.length_eq_length_filter_add (l := List.range c.attributes.length) (fun k => decide (k ∈ js))
        simp only [List.length_range, ← decide_not] at this
        omega
      have h5 : ((List.range c.attributes.length).filter (· ∈ js)).length < js.length := by
        have hsub : ((List.range c.attributes.length).filter (· ∈ js)).toFinset ⊆ js.toFinset := by
          intro k hk
          rw [List.mem_toFinset, List.mem_filter] at hk
          simpa using hk.2
        have := Finset.card_le_card hsub
        rw [List.toFinset_card_of_nodup (List.nodup_range.filter _)] at this
        have h6 : js.toFinset.card < js.length := by
          refine lt_of_le_of_ne (List.toFinset_card_le js) fun e => hjd ?_
          rw [List.card_toFinset] at e
          exact List.dedup_eq_self.1 ((List.dedup_sublist js).eq_of_length e)
        omega
      omega

/-- Three attributes; two are deleted, whatever their order, and a repeated one raises. -/
example : let c : Ctx (Fin 2) (Fin 3) := ⟨[0, 1], [0, 1, 2], ⟨some 3, [[true, false, true], [false, true, false]]⟩⟩
    c.deleteAttributes [0, 1] = (⟨[0, 1], [2], ⟨some 1, [[true], [false]]⟩⟩, none) ∧
    c.deleteAttributes [2, 0] = (⟨[0, 1], [1], ⟨some 1, [[false], [true]]⟩⟩, none) ∧
    c.deleteAttributes [0, 0] = (c, some .valueError) ∧ c.deleteAttributes [2, 2] = (c, some .indexError) := by
  decide +kernel

end Ctx
