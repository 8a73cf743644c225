/-
Properties C01 - C06: construction, mutation and derivation in contexts (fca/context.py,
fca/algorithms/closure_operators.py:8-35).

Names range over arbitrary types with decidable equality; `PyName` supplies what `str(x) + '_i'` is.
-/
import Verif.Lemmas.DGContext
import Verif.Lemmas.Reduce
import Verif.Lemmas.Rename

set_option linter.unusedSectionVars false

open Spec

namespace Ctx

variable {α β : Type} [DecidableEq α] [DecidableEq β]

/-! ### C01 -/

section
variable [PyName α] [PyName β]

/-- The constructor raises ValueError exactly when the dimensions do not fit. -/
theorem C01_constructor_rejects (table : List (List Bool)) (objs : List α) (atts : List β) :
    (make table objs atts = .error .valueError ↔
      table.length ≠ objs.length ∨ ∃ r ∈ table, r.length ≠ atts.length) ∧
    ∀ e, make table objs atts = .error e → e = .valueError := by
  rcases make_cases table objs atts with ⟨h1, h2, h3⟩ | ⟨h1, h2⟩
  · rw [h3]
    refine ⟨⟨fun h => (nomatch h), ?_⟩, fun e h => (nomatch h)⟩
    rintro (h | ⟨r, hr, h⟩)
    · exact absurd h1 h
    · exact absurd (h2 r hr) h
  · rw [h2]
    exact ⟨⟨fun _ => h1, fun _ => rfl⟩, fun e h => by cases h; rfl⟩

/-- Otherwise it stores the table, the number of rows and the names: a name is kept, or it is the
given name with the documented suffix `_i` (`i` its position), appended one or more times; lists
without duplicates are kept. -/
theorem C01_constructor_stores (table : List (List Bool)) (objs : List α) (atts : List β)
    (h1 : table.length = objs.length) (h2 : ∀ r ∈ table, r.length = atts.length) :
    ∃ c : Ctx α β, make table objs atts = .ok c ∧ c.len = table.length ∧
      (∀ i j : ℕ, ∀ r b, table[i]? = some r → r[j]? = some b → c.getItem i j = .ok b) ∧
      (∀ i j : ℕ, c.getItem i j = .error .indexError ↔ table.length ≤ i ∨ atts.length ≤ j) ∧
      c.objects.length = objs.length ∧ c.attributes.length = atts.length ∧
      (∀ (i : ℕ) (x : α), objs[i]? = some x →
        ∃ n, c.objects[i]? = some ((fun y => PyName.suffix y i)^[n] x)) ∧
      (∀ (j : ℕ) (x : β), atts[j]? = some x →
        ∃ n, c.attributes[j]? = some ((fun y => PyName.suffix y j)^[n] x)) ∧
      (objs.Nodup → c.objects = objs) ∧ (atts.Nodup → c.attributes = atts) := by
  refine ⟨_, make_ok h1 h2, rfl, ?_, ?_, renameAll_length _, renameAll_length _, renameAll_get _,
    renameAll_get _, renameAll_nodup, renameAll_nodup⟩
  · intro i j r b hr hb
    simp only [getItem, Nd.cell, pyGet_ok hr, py_ok_bind, pyGet_ok hb]
  · intro i j
    simp only [getItem, Nd.cell]
    rcases Nat.lt_or_ge i table.length with hi | hi
    · rw [pyGet_ok (List.getElem?_eq_getElem hi), py_ok_bind]
      have hw := h2 _ (List.getElem_mem hi)
      rcases Nat.lt_or_ge j (table[i]).length with hj | hj
      · rw [pyGet_ok (List.getElem?_eq_getElem hj)]
        constructor
        · intro h; cases h
        · omega
      · rw [pyGet_err hj]
        simp; omega
    · rw [pyGet_err hi]; simp [hi]

/-- Contexts built from distinct names are well-formed, and hold the given relation. -/
theorem C01_wf {table : List (List Bool)} {objs : List α} {atts : List β} {c : Ctx α β}
    (ho : objs.Nodup) (ha : atts.Nodup) (hc : make table objs atts = .ok c) :
    c.WF ∧ ∀ (i j : ℕ) o a r b, objs[i]? = some o → atts[j]? = some a → table[i]? = some r →
      r[j]? = some b → (c.Inc o a ↔ b = true) := by
  rcases make_cases table objs atts with ⟨h1, h2, h3⟩ | ⟨h1, h2⟩
  · have h4 := make_nodup h1 h2 ho ha
    rw [h4] at hc
    cases hc
    have hwf := wf_mk' h1 h2 ho ha
    refine ⟨hwf, ?_⟩
    intro i j o a r b hi hj hr hb
    rw [inc_iff hwf.onodup hwf.anodup (i := i) (j := j) hi hj]
    constructor
    · rintro ⟨r', hr', hb'⟩
      change table[i]? = _ at hr'
      rw [hr] at hr'; cases hr'
      rw [hb] at hb'; cases hb'; rfl
    · rintro rfl
      exact ⟨r, hr, hb⟩
  · rw [h2] at hc; cases hc

end

example : (make [[true, false], [false, true]] ["g".toList, "h".toList] ["m".toList, "n".toList]).isOk = true ∧
    make [[true, false], [true]] ["g".toList, "h".toList] ["m".toList, "n".toList] = .error .valueError ∧
    make [[true, false]] ["g".toList, "h".toList] ["m".toList, "n".toList] = .error .valueError := by
  decide +kernel

/-! ### C02 -/

/-- C02 fails for the code as it is: a name that already looks like a suffixed one may be repeated
afterwards (`['a_1', 'a', 'a']` becomes `['a_1', 'a_1', 'a_2']`). -/
theorem C02_distinct_violated :
    ∃ (table : List (List Bool)) (objs atts : List (List Char)) (c : Ctx (List Char) (List Char)),
      make table objs atts = .ok c ∧ ¬ c.attributes.Nodup ∧ ¬ c.objects.Nodup := by
  refine ⟨[[true, true, true], [true, true, true], [true, true, true]],
    ["a_1".toList, "a".toList, "a".toList], ["a_1".toList, "a".toList, "a".toList], ?_⟩
  refine ⟨⟨["a_1".toList, "a_1".toList, "a_2".toList], ["a_1".toList, "a_1".toList, "a_2".toList],
    ⟨some 3, [[true, true, true], [true, true, true], [true, true, true]]⟩⟩, ?_⟩
  decide +kernel

/-- Missing for C02: lists in which a suffixed form of a repeated name is already present.
Otherwise all names are distinct afterwards, exactly the repeated ones get the suffix of their
position, and lists without duplicates are kept. -/
theorem C02_distinct_partial [PyName α] [PyName β] (hα : SuffixInj α) (hβ : SuffixInj β)
    (table : List (List Bool)) (objs : List α) (atts : List β) (c : Ctx α β)
    (ho : NoClash objs) (ha : NoClash atts) (hc : make table objs atts = .ok c) :
    c.objects.Nodup ∧ c.attributes.Nodup ∧
      c.objects = (objs.mapIdx fun i y => if 1 < objs.count y then PyName.suffix y i else y) ∧
      c.attributes = atts.mapIdx fun i y => if 1 < atts.count y then PyName.suffix y i else y := by
  rcases make_cases table objs atts with ⟨_, _, h3⟩ | ⟨_, h2⟩
  · rw [h3] at hc
    cases hc
    exact ⟨renameAll_noClash_nodup hα ho, renameAll_noClash_nodup hβ ha, renameAll_noClash hα ho,
      renameAll_noClash hβ ha⟩
  · rw [h2] at hc; cases hc

/-- Lists that were free of duplicates are kept unchanged. -/
theorem C02_distinct_kept [PyName α] [PyName β]
    (table : List (List Bool)) (objs : List α) (atts : List β) (c : Ctx α β)
    (hc : make table objs atts = .ok c) :
    (objs.Nodup → c.objects = objs) ∧ (atts.Nodup → c.attributes = atts) := by
  rcases make_cases table objs atts with ⟨_, _, h3⟩ | ⟨_, h2⟩
  · rw [h3] at hc
    cases hc
    exact ⟨renameAll_nodup, renameAll_nodup⟩
  · rw [h2] at hc; cases hc

instance [PyName α] (l : List α) : Decidable (NoClash l) := by unfold NoClash; infer_instance

example : SuffixInj (List Char) ∧ NoClash ["a".toList, "b".toList, "a".toList] ∧
    (make [[true, true, false]] ["g".toList] ["a".toList, "b".toList, "a".toList]).isOk = true := by
  refine ⟨suffixInj_chars, ?_, ?_⟩ <;> decide +kernel

/-! ### C03 -/

section
variable [PyName α] [PyName β]

/-- After any sequence of mutators that use fresh names and return, the context stores the table
obtained by the corresponding updates of the abstract table. -/
theorem C03_histories {c : Ctx α β} {t : Table α β} (h : Stores c t) (ops : List (TOp α β))
    (hf : FreshAll t ops) (c' : Ctx α β) (hc : c.execAll ops = (c', none)) :
    let t' := ops.foldl Table.apply t
    c'.WFw ∧ c'.objects = t'.objs ∧ c'.attributes = t'.atts ∧
      c'.nd.rows.length = t'.objs.length ∧ (∀ r ∈ c'.nd.rows, r.length = t'.atts.length) ∧
      ∀ o ∈ t'.objs, ∀ a ∈ t'.atts, c'.getValue o a = .ok (t'.rel o a) := by
  have h' := h.execAll hf hc
  refine ⟨h'.wf, h'.objs, h'.atts, ?_, ?_, fun o ho a ha => h'.getValue ho ha⟩
  · rw [← h'.objs]; exact h'.wf.nrows
  · rw [← h'.atts]; exact h'.wf.width

/-- Every well-formed context stores its own relation, so `C03_histories` starts anywhere. -/
theorem C03_start {c : Ctx α β} (h : c.WFw) :
    ∃ t, Stores c t ∧ t.objs = c.objects ∧ t.atts = c.attributes ∧
      ∀ o a, t.rel o a = true ↔ c.Inc o a := by
  exact ⟨_, h.stores, rfl, rfl, fun o a => h.incB o a⟩

/-- A legal operation succeeds in a context with at least one object. -/
theorem C03_legal_returns {c : Ctx α β} {t : Table α β} (h : Stores c t) (hne : t.objs ≠ [])
    (op : TOp α β) (hl : op.Legal t) : ∃ c', c.exec op = (c', none) := h.returns hne hl

/-- An operation that raises leaves the context as it was. -/
theorem C03_failed_unchanged {c c' : Ctx α β} {op : TOp α β} {e : PyErr}
    (he : c.exec op = (c', some e)) : c' = c := by
  cases op <;> exact reinit_err he

/-- Unknown names and wrong lengths raise. -/
theorem C03_illegal_raises {c : Ctx α β} {t : Table α β} (h : Stores c t) {op : TOp α β}
    (hl : ¬ op.Legal t) : ∃ e, (c.exec op).2 = some e := by
  have hcol := h.wf
  by_contra hc
  push Not at hc
  have hnone : ∃ c', c.exec op = (c', none) := by
    rcases hx : c.exec op with ⟨c', _ | e⟩
    · exact ⟨c', rfl⟩
    · exact absurd (by rw [hx]) (hc e)
  obtain ⟨c', hc'⟩ := hnone
  apply hl
  cases op with
  | addObject row n =>
    obtain ⟨d, h1, h2⟩ := bind_ok (reinit_ok hc')
    obtain ⟨_, h4, _⟩ := ofNd_result h2
    simp only [TOp.Legal]
    rw [← h.atts]
    unfold Nd.stackRow at h1
    by_cases hr : c.nd.rows = []
    · simp only [hr, ne_eq, not_true_eq_false, if_false] at h1
      cases h1
      exact h4 (by simp)
    · simp only [ne_eq, hr, not_false_eq_true, if_true, Nd.appendRow, hcol.shape hr] at h1
      split at h1
      · assumption
      · cases h1
  | addAttribute col n =>
    obtain ⟨d, h1, h2⟩ := bind_ok (reinit_ok hc')
    simp only [TOp.Legal]
    rw [← h.objs, ← hcol.nrows]
    unfold Nd.appendCol at h1
    cases hcc : c.nd.cols with
    | none =>
      rw [hcc] at h1
      have hr : c.nd.rows = [] := by
        by_contra hr; rw [hcol.shape hr] at hcc; cases hcc
      simp only at h1
      split at h1
      · next h3 => simp [h3, hr]
      · cases h1
    | some n =>
      rw [hcc] at h1
      simp only at h1
      split at h1
      · assumption
      · cases h1
  | addObjectWithIntent B n => trivial
  | addAttributeWithExtent A n => trivial
  | setObjectIntent B n =>
    obtain ⟨js, h1, h2⟩ := bind_ok (reinit_ok hc')
    obtain ⟨i, h3, _⟩ := bind_ok h2
    refine ⟨?_, ?_⟩
    · rw [← h.atts]; exact (mapM_lastIdx_inv h1).1
    · rw [← h.objs]; exact List.mem_of_getElem? (lastIdx_ok h3)
  | setAttributeExtent A n =>
    obtain ⟨js, h1, h2⟩ := bind_ok (reinit_ok hc')
    obtain ⟨i, h3, _⟩ := bind_ok h2
    refine ⟨?_, ?_⟩
    · rw [← h.objs]; exact (mapM_lastIdx_inv h1).1
    · rw [← h.atts]; exact List.mem_of_getElem? (lastIdx_ok h3)
  | deleteObject n =>
    obtain ⟨i, h3, _⟩ := bind_ok (reinit_ok hc')
    simp only [TOp.Legal]
    rw [← h.objs]; exact List.mem_of_getElem? (lastIdx_ok h3)
  | deleteAttribute n =>
    obtain ⟨i, h3, _⟩ := bind_ok (reinit_ok hc')
    simp only [TOp.Legal]
    rw [← h.atts]; exact List.mem_of_getElem? (lastIdx_ok h3)
  | renameObject old new =>
    obtain ⟨i, h3, _⟩ := bind_ok (reinit_ok hc')
    simp only [TOp.Legal]
    rw [← h.objs]; exact List.mem_of_getElem? (lastIdx_ok h3)
  | renameAttribute old new =>
    obtain ⟨i, h3, _⟩ := bind_ok (reinit_ok hc')
    simp only [TOp.Legal]
    rw [← h.atts]; exact List.mem_of_getElem? (lastIdx_ok h3)

end

/-- A small context over characters. -/
def cxtS : Ctx (List Char) (List Char) :=
  ⟨["g".toList, "h".toList], ["m".toList, "n".toList], ⟨some 2, [[true, false], [false, true]]⟩⟩

/-- A history with all ten operations on it. -/
def opsS : List (TOp (List Char) (List Char)) :=
  [.addObject [true, true] "k".toList, .addAttribute [true, false, true] "o".toList,
    .addObjectWithIntent {"m".toList, "o".toList} "l".toList,
    .addAttributeWithExtent {"g".toList, "l".toList} "p".toList,
    .setObjectIntent ["n".toList, "p".toList] "g".toList, .setAttributeExtent ["k".toList] "m".toList,
    .deleteObject "h".toList, .deleteAttribute "o".toList, .renameObject "g".toList "gg".toList,
    .renameAttribute "n".toList "nn".toList]

theorem cxtS_wf : cxtS.WFw := by constructor <;> decide +kernel

example : Stores cxtS ⟨cxtS.objects, cxtS.attributes, cxtS.incB⟩ ∧
    FreshAll ⟨cxtS.objects, cxtS.attributes, cxtS.incB⟩ opsS ∧ (cxtS.execAll opsS).2 = none ∧
    (cxtS.execAll opsS).1.objects = ["gg".toList, "k".toList, "l".toList] := by
  refine ⟨cxtS_wf.stores, ?_, ?_, ?_⟩ <;> decide +kernel

example : TOp.Legal ⟨cxtS.objects, cxtS.attributes, cxtS.incB⟩
      (.setObjectIntent ["n".toList] "g".toList : TOp (List Char) (List Char)) ∧
    ¬ TOp.Legal ⟨cxtS.objects, cxtS.attributes, cxtS.incB⟩
      (.deleteObject "z".toList : TOp (List Char) (List Char)) := by
  constructor
  · constructor <;> decide +kernel
  · simp only [TOp.Legal]; decide +kernel

/-! ### C04 -/

theorem mem_pairs {c : Ctx α β} (h : c.WFw) :
    ∃ ps, c.pairs = .ok ps ∧ ps.Nodup ∧ ∀ o a, (o, a) ∈ ps ↔ c.Inc o a := by
  set idx := (List.range c.nd.rows.length).flatMap fun i =>
    (nonzero (c.nd.rows.getD i [])).map fun j => (i, j) with hidx
  have hmem : ∀ i j : ℕ, (i, j) ∈ idx ↔ c.Bit i j := by
    intro i j
    rw [hidx]
    simp only [List.mem_flatMap, List.mem_range, List.mem_map, Prod.mk.injEq, mem_nonzero]
    constructor
    · rintro ⟨i', hi', j', hj', rfl, rfl⟩
      rw [List.getD_eq_getElem?_getD, List.getElem?_eq_getElem hi', Option.getD_some] at hj'
      exact ⟨_, List.getElem?_eq_getElem hi', hj'⟩
    · rintro ⟨r, hr, hb⟩
      refine ⟨i, lt_of_getElem? hr, j, ?_, rfl, rfl⟩
      rw [List.getD_eq_getElem?_getD, hr, Option.getD_some]; exact hb
  have hnd : idx.Nodup := by
    rw [hidx, List.nodup_flatMap]
    refine ⟨fun i _ => (nonzero_nodup _).map fun a b h => (Prod.mk.inj h).2, ?_⟩
    refine List.nodup_range.imp ?_
    intro i i' hne x hx hx'
    simp only [List.mem_map] at hx hx'
    obtain ⟨j, _, rfl⟩ := hx
    obtain ⟨j', _, he⟩ := hx'
    exact hne (Prod.mk.inj he).1.symm
  obtain ⟨ps, hps, hf⟩ := mapM_ok' (l := idx) (f := fun ij => do
      let o ← pyGet c.objects ij.1
      let a ← pyGet c.attributes ij.2
      .ok (o, a)) (R := fun ij p => c.objects[ij.1]? = some p.1 ∧ c.attributes[ij.2]? = some p.2) (by
    rintro ⟨i, j⟩ hij
    obtain ⟨h1, h2⟩ := h.bit_lt ((hmem i j).1 hij)
    refine ⟨(c.objects[i], c.attributes[j]), ?_, List.getElem?_eq_getElem h1, List.getElem?_eq_getElem h2⟩
    simp only [pyGet_ok (List.getElem?_eq_getElem h1), pyGet_ok (List.getElem?_eq_getElem h2), py_ok_bind])
  refine ⟨ps, hps, ?_, ?_⟩
  · rw [List.nodup_iff_injective_getElem]
    intro x y hxy
    have hl := hf.length_eq
    have hx := List.forall₂_iff_get.1 hf
    obtain ⟨hx1, hx2⟩ := hx.2 x (by rw [hl]; exact x.2) x.2
    obtain ⟨hy1, hy2⟩ := hx.2 y (by rw [hl]; exact y.2) y.2
    simp only [List.get_eq_getElem] at hx1 hx2 hy1 hy2 hxy
    rw [hxy] at hx1 hx2
    have e1 := nodup_idx h.onodup hx1 hy1
    have e2 := nodup_idx h.anodup hx2 hy2
    have e3 : idx[(x : ℕ)] = idx[(y : ℕ)] := Prod.ext e1 e2
    exact Fin.ext ((hnd.getElem_inj_iff).1 e3)
  · intro o a
    constructor
    · intro hp
      obtain ⟨⟨i, j⟩, hij, h1, h2⟩ := forall₂_mem_right hf _ hp
      exact (inc_iff h.onodup h.anodup h1 h2).2 ((hmem i j).1 hij)
    · rintro ⟨i, j, r, hi, hj, hr, hb⟩
      obtain ⟨⟨o', a'⟩, hp, h1, h2⟩ := forall₂_mem_left hf (i, j) ((hmem i j).2 ⟨r, hr, hb⟩)
      simp only [hi, Option.some.injEq] at h1
      simp only [hj, Option.some.injEq] at h2
      rw [h1, h2]; exact hp

/-- The pairs are listed row by row: earlier objects first, for one object earlier attributes first. -/
theorem C04_pairs_order {c : Ctx α β} (h : c.WFw) :
    ∃ ps, c.pairs = .ok ps ∧ (∀ o a, (o, a) ∈ ps ↔ c.Inc o a) ∧
      ps.Pairwise fun p q => c.objects.idxOf p.1 < c.objects.idxOf q.1 ∨
        (p.1 = q.1 ∧ c.attributes.idxOf p.2 < c.attributes.idxOf q.2) := by
  obtain ⟨ps, hps, -, hmem⟩ := mem_pairs h
  refine ⟨ps, hps, hmem, ?_⟩
  unfold pairs at hps
  set idx := (List.range c.nd.rows.length).flatMap fun i =>
    (nonzero (c.nd.rows.getD i [])).map fun j => (i, j) with hidx
  have hord : idx.Pairwise fun p q => p.1 < q.1 ∨ (p.1 = q.1 ∧ p.2 < q.2) := by
    rw [hidx, List.pairwise_flatMap]
    refine ⟨fun i _ => ?_, List.pairwise_lt_range.imp ?_⟩
    · rw [List.pairwise_map]
      exact (List.pairwise_lt_range.filter _).imp fun hab => .inr ⟨rfl, hab⟩
    · intro i i' hlt x hx y hy
      simp only [List.mem_map] at hx hy
      obtain ⟨j, _, rfl⟩ := hx
      obtain ⟨j', _, rfl⟩ := hy
      exact .inl hlt
  have hlen : ∀ {l : List (ℕ × ℕ)} {r : List (α × β)}, (l.mapM fun ij => (do
      let o ← pyGet c.objects ij.1
      let a ← pyGet c.attributes ij.2
      .ok (o, a) : Py (α × β))) = .ok r →
      List.Forall₂ (fun ij p => c.objects[ij.1]? = some p.1 ∧ c.attributes[ij.2]? = some p.2) l r := by
    intro l
    induction l with
    | nil => intro r hr; cases hr; exact .nil
    | cons ij l ih =>
      intro r hr
      rw [List.mapM_cons] at hr
      obtain ⟨p, hp, hr⟩ := bind_ok hr
      obtain ⟨r', hr', hr⟩ := bind_ok hr
      cases hr
      obtain ⟨o, ho, hp⟩ := bind_ok hp
      obtain ⟨a, ha, hp⟩ := bind_ok hp
      cases hp
      exact .cons ⟨pyGet_ok_iff.1 ho, pyGet_ok_iff.1 ha⟩ (ih hr')
  have hf := hlen hps
  clear_value idx
  clear hps hmem hlen hidx
  induction hf with
  | nil => exact .nil
  | @cons ij p l r hij hf ih =>
    rw [List.pairwise_cons] at hord ⊢
    refine ⟨fun q hq => ?_, ih hord.2⟩
    obtain ⟨kl, hkl, h1, h2⟩ := forall₂_mem_right hf _ hq
    have e1 := idxOf_of_nodup h.onodup hij.1
    have e2 := idxOf_of_nodup h.anodup hij.2
    have e3 := idxOf_of_nodup h.onodup h1
    have e4 := idxOf_of_nodup h.anodup h2
    rw [e1, e2, e3, e4]
    rcases hord.1 kl hkl with hlt | ⟨he, hlt⟩
    · exact .inl hlt
    · refine .inr ⟨?_, hlt⟩
      have := hij.1
      rw [he, h1] at this
      exact (Option.some.inj this).symm

/-- The views of the relation agree in every context that has an object (or whose array kept its
number of columns), and unknown names raise. -/
theorem C04_views_partial {c : Ctx α β} (h : c.WFw) (hc : c.nd.cols = some c.attributes.length)
    {o : α} {a : β} (ho : o ∈ c.objects) (ha : a ∈ c.attributes) :
    ∃ S T v ps, c.objectIntent o = .ok S ∧ c.attributeExtent a = .ok T ∧ c.getValue o a = .ok v ∧
      c.pairs = .ok ps ∧ ps.Nodup ∧
      (a ∈ S ↔ c.Inc o a) ∧ (o ∈ T ↔ c.Inc o a) ∧ (v = true ↔ c.Inc o a) ∧ ((o, a) ∈ ps ↔ c.Inc o a) ∧
      S ⊆ c.attributes.toFinset ∧ T ⊆ c.objects.toFinset ∧
      ∀ p ∈ ps, p.1 ∈ c.objects ∧ p.2 ∈ c.attributes := by
  obtain ⟨v, hv, hv'⟩ := h.getValue ho ha
  obtain ⟨ps, hps, hnd, hp⟩ := mem_pairs h
  refine ⟨_, _, v, ps, h.objectIntent ho, h.attributeExtent hc ha, hv, hps, hnd, ?_, ?_, hv', hp o a,
    c.upF_subset _, c.downF_subset _, ?_⟩
  · rw [h.mem_upF]; simp [ha]
  · rw [h.mem_downF]; simp [ho]
  · rintro ⟨x, y⟩ hxy
    exact ((hp x y).1 hxy).mem

/-- A context with an object satisfies the hypothesis of `C04_views_partial`. -/
theorem C04_shape {c : Ctx α β} (h : c.WFw) (hne : c.objects ≠ []) :
    c.nd.cols = some c.attributes.length :=
  h.shape fun hr => hne ((rows_nil h).1 hr)

theorem C04_unknown {c : Ctx α β} {o : α} {a : β} :
    (o ∉ c.objects → c.objectIntent o = .error .keyError ∧ c.getValue o a = .error .valueError) ∧
    (a ∉ c.attributes → c.attributeExtent a = .error .keyError ∧
      (o ∈ c.objects → c.getValue o a = .error .valueError)) := by
  refine ⟨fun ho => ⟨objectIntent_err ho, ?_⟩, fun ha => ⟨attributeExtent_err ha, fun ho => ?_⟩⟩
  · simp only [getValue, firstIdx_not_mem ho, py_err_bind]
  · obtain ⟨i, hi⟩ := firstIdx_mem ho
    simp only [getValue, hi, py_ok_bind, firstIdx_not_mem ha, py_err_bind]

/-- C04 fails on contexts without objects: `get_attribute_extent` of a known attribute raises
IndexError. -/
theorem C04_views_violated [PyName α] [PyName β] (a : β) (atts : List β) (hn : (a :: atts).Nodup) :
    ∃ c : Ctx α β, make [] [] (a :: atts) = .ok c ∧ a ∈ c.attributes ∧
      c.attributeExtent a = .error .indexError := by
  refine ⟨_, make_nodup rfl (by simp) List.nodup_nil hn, by simp [mk'], ?_⟩
  exact attributeExtent_none (by simp [mk']) (by simp [mk'])

/-- The rows listed by `examples` / `intents` are the object intents, in object order. -/
theorem C04_examples {c : Ctx α β} (h : c.WFw) :
    ∃ l, c.examples = .ok l ∧
      List.Forall₂ (fun o S => ∀ a, a ∈ S ↔ a ∈ c.attributes ∧ c.Inc o a) c.objects l := by
  refine ⟨_, mapM_range (l := c.objects) (g := fun o => c.upF {o})
    (fun i o ho => h.intentByIndex ho), ?_⟩
  rw [List.forall₂_map_right_iff, List.forall₂_same]
  intro o ho a
  rw [h.mem_upF]; simp

example : cxtS.WFw ∧ cxtS.nd.cols = some cxtS.attributes.length ∧
    "g".toList ∈ cxtS.objects ∧ "m".toList ∈ cxtS.attributes := by
  refine ⟨cxtS_wf, ?_⟩; decide +kernel

/-! ### C05 -/

/-- `oprime` and `aprime` (Context methods) compute the derivations, for every order of the
arguments. -/
theorem C05_primes {c : Ctx α β} (h : c.WF) (A : List α) (B : List β) (hA : ∀ o ∈ A, o ∈ c.objects)
    (hB : ∀ a ∈ B, a ∈ c.attributes) :
    ∃ S T, c.oprime A = .ok S ∧ c.aprime B = .ok T ∧
      (↑S = up c.M c.Inc A.toFinset) ∧ (↑T = down c.G c.Inc B.toFinset) ∧
      (B.toFinset ⊆ S ↔ A.toFinset ⊆ T) := by
  refine ⟨_, _, h.oprime hA, h.aprime hB, ?_, ?_, ?_⟩
  · ext a; simp only [Finset.mem_coe, h.mem_upF, up, Set.mem_ofPred_eq, M, List.mem_toFinset]
  · ext a; simp only [Finset.mem_coe, h.mem_downF, down, Set.mem_ofPred_eq, G, List.mem_toFinset]
  · exact h.galois (fun o ho => by simpa using hA o (by simpa using ho))
      (fun o ho => by simpa using hB o (by simpa using ho))

/-- The functions of closure_operators compute the same sets in contexts with an object. -/
theorem C05_co_primes_partial {c : Ctx α β} (h : c.WFw) (hne : c.objects ≠ []) (A : List α) (B : List β)
    (hA : ∀ o ∈ A, o ∈ c.objects) (hB : ∀ a ∈ B, a ∈ c.attributes) :
    ∃ S T, c.coOprime A = .ok S ∧ c.coAprime B = .ok T ∧
      (↑S = up c.M c.Inc A.toFinset) ∧ (↑T = down c.G c.Inc B.toFinset) ∧
      (B.toFinset ⊆ S ↔ A.toFinset ⊆ T) := by
  refine ⟨_, _, h.coOprime hA, h.coAprime (C04_shape h hne) hB, ?_, ?_, ?_⟩
  · ext a; simp only [Finset.mem_coe, h.mem_upF, up, Set.mem_ofPred_eq, M, List.mem_toFinset]
  · ext a; simp only [Finset.mem_coe, h.mem_downF, down, Set.mem_ofPred_eq, G, List.mem_toFinset]
  · exact h.galois (fun o ho => by simpa using hA o (by simpa using ho))
      (fun o ho => by simpa using hB o (by simpa using ho))

/-- Unknown names raise KeyError. -/
theorem C05_unknown {c : Ctx α β} (h : c.WFw) (A : List α) (B : List β) :
    ((∃ o ∈ A, o ∉ c.objects) → c.oprime A = .error .keyError ∧ c.coOprime A = .error .keyError) ∧
    ((∃ a ∈ B, a ∉ c.attributes) → c.aprime B = .error .keyError ∧
      (c.objects ≠ [] → c.coAprime B = .error .keyError)) := by
  exact ⟨fun hA => ⟨oprime_err hA, h.coOprime_err hA⟩,
    fun hB => ⟨aprime_err hB, fun hne => h.coAprime_err (C04_shape h hne) hB⟩⟩

/-- C05 fails for closure_operators.aprime on contexts without objects: IndexError. -/
theorem C05_co_primes_violated [PyName α] [PyName β] (a : β) (atts : List β) (hn : (a :: atts).Nodup) :
    ∃ c : Ctx α β, make [] [] (a :: atts) = .ok c ∧ c.WF ∧ a ∈ c.attributes ∧
      c.coAprime [a] = .error .indexError := by
  obtain ⟨c, h1, h2, h3⟩ := C04_views_violated (α := α) a atts hn
  refine ⟨c, h1, (C01_wf List.nodup_nil hn h1).1, h2, ?_⟩
  simp only [coAprime, List.foldlM_cons, h3, py_err_bind]

theorem cxtS_wf' : cxtS.WF := ⟨cxtS_wf, Or.inr rfl⟩

example : cxtS.WF ∧ cxtS.objects ≠ [] ∧ (∀ o ∈ ["g".toList], o ∈ cxtS.objects) ∧
    (∀ a ∈ ["n".toList, "m".toList], a ∈ cxtS.attributes) := by
  refine ⟨cxtS_wf', ?_⟩; decide +kernel

/-! ### C06 -/

/-- `aclosure` (Context method) is the closure operator `B ↦ B''` on the attribute set. -/
theorem C06_aclosure {c : Ctx α β} (h : c.WF) :
    ∃ cl : Finset β → Finset β, IsClosureOp c.M cl ∧ cl = attrClosure c.G c.M c.Inc ∧
      ∀ B : List β, (∀ a ∈ B, a ∈ c.attributes) → c.aclosure B = .ok (cl B.toFinset) :=
  ⟨_, h.attrClosure_op, rfl, fun B hB => by rw [h.aclosure hB, ← h.aclF_eq]; rfl⟩

/-- `oclosure` (Context method) is the closure operator `A ↦ A''` on the object set. -/
theorem C06_oclosure {c : Ctx α β} (h : c.WF) :
    ∃ cl : Finset α → Finset α, IsClosureOp c.G cl ∧ cl = objClosure c.G c.M c.Inc ∧
      ∀ A : List α, (∀ o ∈ A, o ∈ c.objects) → c.oclosure A = .ok (cl A.toFinset) :=
  ⟨_, h.oclF_eq ▸ h.oclF_closureOp, rfl, fun A hA => by rw [h.oclosure hA, ← h.oclF_eq]; rfl⟩

/-- The functions of closure_operators give the same elements, sorted and without repetition, for
every iteration order of the intermediate sets, in contexts with an object. -/
theorem C06_agree_partial [LinearOrder α] [LinearOrder β] {c : Ctx α β} (h : c.WF) (hne : c.objects ≠ [])
    (ordA : SetOrder β) (ordO : SetOrder α) (A : List α) (B : List β) (hA : ∀ o ∈ A, o ∈ c.objects)
    (hB : ∀ a ∈ B, a ∈ c.attributes) :
    ∃ S T lS lT, c.aclosure B = .ok S ∧ c.oclosure A = .ok T ∧
      c.coAclosure ordO B = .ok lS ∧ c.coOclosure ordA A = .ok lT ∧
      lS.toFinset = S ∧ lT.toFinset = T ∧ lS.Pairwise (· < ·) ∧ lT.Pairwise (· < ·) := by
  refine ⟨_, _, _, _, h.aclosure hB, h.oclosure hA, ?_, ?_, Finset.sort_toFinset _ (· ≤ ·),
    Finset.sort_toFinset _ (· ≤ ·), Finset.sortedLT_sort _ |>.pairwise, Finset.sortedLT_sort _ |>.pairwise⟩
  · simp only [coAclosure]
    rw [h.coAclosureSet (C04_shape h.toWFw hne) ordO hB]; rfl
  · simp only [coOclosure]
    rw [h.coOclosureSet (C04_shape h.toWFw hne) ordA hA]; rfl

/-- On contexts without objects the two implementations differ: the method returns the set of all
attributes, closure_operators.aclosure raises IndexError. -/
theorem C06_agree_violated [PyName α] [PyName β] (ordO : SetOrder α) (a : β) (atts : List β)
    (hn : (a :: atts).Nodup) :
    ∃ c : Ctx α β, make [] [] (a :: atts) = .ok c ∧ c.WF ∧ c.aclosure [a] = .ok c.M ∧
      c.coAclosureSet ordO [a] = .error .indexError := by
  obtain ⟨c, h1, h2, h3, h4⟩ := C05_co_primes_violated (α := α) a atts hn
  refine ⟨c, h1, h2, ?_, ?_⟩
  · rw [h2.aclosure (by simpa using h3)]
    congr 1
    have ho : c.objects = [] := (C02_distinct_kept _ _ _ _ h1).1 List.nodup_nil
    ext x
    rw [h2.mem_upF]
    simp only [M, List.mem_toFinset]
    refine ⟨fun h => h.1, fun h => ⟨h, ?_⟩⟩
    intro o ho'
    rw [h2.mem_downF, ho] at ho'
    simp at ho'
  · simp only [coAclosureSet, h4, py_err_bind]

example : cxtS.WF ∧ cxtS.objects ≠ [] ∧ cxtS.aclosure ["m".toList] = .ok {"m".toList} ∧
    cxtS.aclosure ["m".toList, "n".toList] = .ok {"m".toList, "n".toList} := by
  refine ⟨cxtS_wf', ?_⟩; decide +kernel

end Ctx
