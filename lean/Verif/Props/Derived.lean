/-
Properties C07 - C18: contexts derived from contexts (fca/context.py:491-801).
-/
import Verif.Props.Context

set_option linter.unusedSectionVars false

open Spec

namespace Ctx

variable {α β γ : Type} [DecidableEq α] [DecidableEq β] [DecidableEq γ]
variable [PyName α] [PyName β] [PyName γ]

/-! ### C07 -/

/-- `transpose` exchanges objects and attributes, the relation and the two derivations. -/
theorem C07_transpose {c : Ctx α β} (h : c.WF) :
    ∃ d, c.transpose = .ok d ∧ d.WF ∧ d.objects = c.attributes ∧ d.attributes = c.objects ∧
      (∀ o ∈ c.objects, ∀ a ∈ c.attributes, d.getValue a o = c.getValue o a) ∧
      (∀ a o, d.Inc a o ↔ c.Inc o a) ∧
      (∀ B, d.oprime B = c.aprime B) ∧ (∀ A, d.aprime A = c.oprime A) := by
  obtain ⟨d, hd, hwf, hst⟩ := h.toWFw.transpose
  obtain ⟨_, h1, h2, h3⟩ := h.toWFw.transpose_inc hd
  refine ⟨d, hd, hwf, h1, h2, ?_, h3, ?_, ?_⟩
  · intro o ho a ha
    rw [hst.getValue ha ho, h.stores.getValue ho ha]
  · intro B
    by_cases hB : ∀ a ∈ B, a ∈ c.attributes
    · rw [h.aprime hB, hwf.oprime (by rw [h1]; exact hB)]
      congr 1; ext o
      rw [hwf.mem_upF, h.mem_downF, h2]; simp only [h3]
    · push Not at hB
      rw [aprime_err hB, oprime_err (by rw [h1]; exact hB)]
  · intro A
    by_cases hA : ∀ a ∈ A, a ∈ c.objects
    · rw [h.oprime hA, hwf.aprime (by rw [h2]; exact hA)]
      congr 1; ext o
      rw [hwf.mem_downF, h.mem_upF, h1]; simp only [h3]
    · push Not at hA
      rw [oprime_err hA, aprime_err (by rw [h2]; exact hA)]

theorem Stores.rows {c : Ctx α β} {t : Table α β} (h : Stores c t) :
    c.nd.rows = t.objs.map fun o => t.atts.map (t.rel o) := by
  rw [h.wf.rows_eq, h.objs]
  refine List.map_congr_left fun o ho => ?_
  rw [h.atts]
  exact List.map_congr_left fun a ha => h.incB ho ha

/-- Transposing twice gives back names and table. -/
theorem C07_involution {c : Ctx α β} (h : c.WFw) :
    ∃ d e, c.transpose = .ok d ∧ d.transpose = .ok e ∧ e.objects = c.objects ∧
      e.attributes = c.attributes ∧ e.nd.rows = c.nd.rows ∧
      ((c.objects = [] → c.nd.cols = none) → e = c) := by
  obtain ⟨d, hd, hwf, hst⟩ := h.transpose
  obtain ⟨e, he, hwf', hst'⟩ := hwf.toWFw.transpose
  have hrows : e.nd.rows = c.nd.rows := by
    rw [hst'.rows, h.rows_eq, hst.atts, hst.objs]
    refine List.map_congr_left fun o ho => List.map_congr_left fun a ha => hst.incB ha ho
  have ho : e.objects = c.objects := hst'.objs.trans hst.atts
  have ha : e.attributes = c.attributes := hst'.atts.trans hst.objs
  refine ⟨d, e, hd, he, ho, ha, hrows, ?_⟩
  intro hnil
  have hcols : e.nd.cols = c.nd.cols := by
    by_cases hr : c.nd.rows = []
    · rw [hnil ((rows_nil h).1 hr)]
      -- the second transposition builds an empty list of rows
      simp only [Ctx.transpose] at he
      obtain ⟨tb, h1, h2⟩ := bind_ok he
      have htb : tb = [] := by
        have hlen : d.attributes.length = 0 := by
          rw [hst.atts]
          exact List.length_eq_zero_iff.2 ((rows_nil h).1 hr)
        rw [hlen] at h1
        cases h1; rfl
      subst htb
      rcases make_cases [] d.attributes d.objects with ⟨_, _, h3⟩ | ⟨_, h3⟩
      · rw [h3] at h2; cases h2; rfl
      · rw [h3] at h2; cases h2
    · rw [h.shape hr, hwf'.shape (by rw [hrows]; exact hr), ha]
  obtain ⟨o1, a1, ⟨c1, r1⟩⟩ := e
  obtain ⟨o2, a2, ⟨c2, r2⟩⟩ := c
  simp only at ho ha hrows hcols
  subst ho ha hrows hcols
  rfl

example : cxtS.WF ∧ (cxtS.objects = [] → cxtS.nd.cols = none) :=
  ⟨cxtS_wf', by decide +kernel⟩

/-! ### C08 -/

/-- `l * r` raises MultiplicationException exactly when the names in the middle differ. -/
theorem C08_mul_rejects (l : Ctx α β) (r : Ctx β γ) :
    l.mul r = .error .multiplicationException ↔ l.attributes ≠ r.objects := by
  unfold mul
  by_cases h : l.attributes = r.objects
  · rw [if_neg (by simpa using h)]
    simp only [h, ne_eq, not_true_eq_false, iff_false]
    split
    · intro hc; cases hc
    · intro hc
      have := (C01_constructor_rejects _ _ _).2 _ hc
      cases this
  · rw [if_pos h]; simp [h]

/-- With at least one object on the left and one middle element, `l * r` is the composition of the
relations. Missing: `l` without objects, where the code raises (`C08_mul_violated`). -/
theorem C08_mul_partial {l : Ctx α β} {r : Ctx β γ} (hl : l.WFw) (hr : r.WFw)
    (hm : l.attributes = r.objects) (hlo : l.objects ≠ []) (hne : l.attributes ≠ []) :
    ∃ p, l.mul r = .ok p ∧ p.WF ∧ p.objects = l.objects ∧ p.attributes = r.attributes ∧
      ∀ g m, p.Inc g m ↔ ∃ f, l.Inc g f ∧ r.Inc f m := by
  obtain ⟨p, h1, h2, _, h4⟩ := make_rel (objs := l.objects) (atts := r.attributes)
    (fun o a => l.attributes.any fun f => l.incB o f && r.incB f a) hl.onodup hr.anodup
  refine ⟨p, ?_, h2, h4.objs, h4.atts, ?_⟩
  · rw [← h1]
    unfold mul
    rw [if_neg (by simpa using hm)]
    simp only [Nd.toMatrix, C04_shape hl hlo, C04_shape hr (hm ▸ hne)]
    rw [if_neg (by rw [hr.nrows, hm]; simp)]
    rw [hr.rows_eq, ← hm, boolMul_eq (hl.rows_eq)]
  · intro g m
    rw [h4.inc]
    simp only [List.any_eq_true, Bool.and_eq_true, hl.incB, hr.incB]
    constructor
    · rintro ⟨_, _, f, _, h⟩; exact ⟨f, h⟩
    · rintro ⟨f, h5, h6⟩
      exact ⟨h5.mem.1, h6.mem.2, f, h5.mem.2, h5, h6⟩

/-- C08 fails when the left context has no objects: numpy reads its table as a `1 x 0` matrix and
raises ValueError. -/
theorem C08_mul_violated {r : Ctx β γ} (hr : r.WFw) (hne : r.objects ≠ []) :
    ∃ l : Ctx α β, make [] [] r.objects = .ok l ∧ l.WFw ∧ l.attributes = r.objects ∧
      l.mul r = .error .valueError := by
  refine ⟨mk' [] r.objects [], make_nodup rfl (by simp) List.nodup_nil hr.onodup,
    (wf_mk' (α := α) (table := []) (objs := []) rfl (by simp) List.nodup_nil hr.onodup).toWFw, rfl, ?_⟩
  simp only [mul, mk', ne_eq, not_true_eq_false, if_false, Nd.toMatrix, if_true, C04_shape hr hne]
  rw [if_pos]
  rw [hr.nrows]
  exact fun h => hne (List.length_eq_zero_iff.1 h.symm)

/-- Without a middle element the product raises ValueError, whatever the left context: the table of a right context
made from lists becomes a `1 x 0` matrix, that of the left one has no columns. (Outside of C08.) -/
theorem C08_mul_no_middle {l : Ctx α β} {r : Ctx β γ} (hl : l.WF) (hm : l.attributes = r.objects)
    (hne : l.attributes = []) (hr : r.nd.cols = none) : l.mul r = .error .valueError := by
  unfold mul
  rw [if_neg (by simpa using hm)]
  have : l.nd.toMatrix.2.1 = 0 := by
    unfold Nd.toMatrix
    rcases hl.shape0 with h | h
    · rw [h]
    · rw [h, hne]; rfl
  simp only
  rw [if_pos]
  rw [this]
  unfold Nd.toMatrix
  rw [hr]
  exact Nat.zero_ne_one

example : let l : Ctx (List Char) (List Char) := ⟨[['g'], ['h']], [], ⟨some 0, [[], []]⟩⟩
    let r : Ctx (List Char) (List Char) := ⟨[], [['x']], ⟨none, []⟩⟩
    l.WF ∧ make [] r.objects r.attributes = .ok r ∧ l.mul r = .error .valueError := by
  refine ⟨⟨by constructor <;> decide +kernel, by decide +kernel⟩, ?_⟩
  decide +kernel

/-- A second context, composable with `cxtS`. -/
def cxtR : Ctx (List Char) (List Char) :=
  ⟨["m".toList, "n".toList], ["x".toList], ⟨some 1, [[true], [false]]⟩⟩

theorem cxtR_wf : cxtR.WFw := by constructor <;> decide +kernel

example : cxtS.WFw ∧ cxtR.WFw ∧ cxtS.attributes = cxtR.objects ∧ cxtS.objects ≠ [] ∧
    cxtS.attributes ≠ [] ∧
    cxtS.mul cxtR = .ok ⟨["g".toList, "h".toList], ["x".toList], ⟨some 1, [[true], [false]]⟩⟩ := by
  refine ⟨cxtS_wf, cxtR_wf, ?_⟩; decide +kernel

/-! ### C10 -/

/-- `clarify_objects`: every row of the original exactly once, labelled by an object having this
row; same attributes, same intents. -/
theorem C10_clarify {c : Ctx α β} (h : c.WFw) :
    ∃ d, c.clarifyObjects = .ok d ∧ d.WF ∧ d.attributes = c.attributes ∧ d.nd.rows.Nodup ∧
      (∀ r, r ∈ d.nd.rows ↔ r ∈ c.nd.rows) ∧ (∀ o ∈ d.objects, o ∈ c.objects) ∧
      (∀ o ∈ d.objects, ∀ a, d.Inc o a ↔ c.Inc o a) ∧
      (∀ o ∈ c.objects, ∃! o', o' ∈ d.objects ∧ ∀ a, c.Inc o' a ↔ c.Inc o a) ∧
      ∀ B, IsIntent d.G d.M d.Inc B ↔ IsIntent c.G c.M c.Inc B := by
  set l := dictOf (c.nd.rows.zip c.objects) with hl
  have hget : ∀ (i : ℕ) r o, (c.nd.rows.zip c.objects)[i]? = some (r, o) ↔
      c.objects[i]? = some o ∧ r = c.attributes.map (c.incB o) := by
    intro i r o
    rw [List.getElem?_zip_eq_some]
    constructor
    · rintro ⟨h1, h2⟩
      refine ⟨h2, ?_⟩
      rw [h.row_name h2] at h1
      exact (Option.some.inj h1).symm
    · rintro ⟨h1, rfl⟩
      exact ⟨h.row_name h1, h1⟩
  have hmem : ∀ p ∈ l, p.2 ∈ c.objects ∧ p.1 = c.attributes.map (c.incB p.2) := by
    rintro ⟨r, o⟩ hp
    obtain ⟨i, hi, _⟩ := (mem_dictOf _ _ _).1 hp
    obtain ⟨h1, h2⟩ := (hget _ _ _).1 hi
    exact ⟨List.mem_of_getElem? h1, h2⟩
  have hrows : l.map Prod.fst = (l.map Prod.snd).map fun o => c.attributes.map (c.incB o) := by
    rw [List.map_map]
    exact List.map_congr_left fun p hp => (hmem p hp).2
  have hkeys : (l.map Prod.fst).Nodup := dictOf_keys_nodup _
  have hlab : (l.map Prod.snd).Nodup := by
    rw [hrows] at hkeys
    exact List.Nodup.of_map _ hkeys
  have hmemr : ∀ r, r ∈ l.map Prod.fst ↔ r ∈ c.nd.rows := by
    intro r
    rw [hl, mem_dictOf_keys, List.map_fst_zip (by rw [h.nrows])]
  obtain ⟨d, h1, h2, h3, h4⟩ := make_rel (objs := l.map Prod.snd) (atts := c.attributes) c.incB hlab h.anodup
  have hd : c.clarifyObjects = .ok d := by rw [← h1, ← hrows]; rfl
  have hobj : ∀ o ∈ d.objects, o ∈ c.objects := by
    intro o ho
    rw [h4.objs] at ho
    obtain ⟨p, hp, rfl⟩ := List.mem_map.1 ho
    exact (hmem p hp).1
  have hinc : ∀ o ∈ d.objects, ∀ a, d.Inc o a ↔ c.Inc o a := by
    intro o ho a
    rw [h4.inc, ← h.incB]
    constructor
    · exact fun h => h.2.2
    · intro h5
      refine ⟨by rw [h4.objs] at ho; exact ho, ((h.incB o a).1 h5).mem.2, h5⟩
  have hlabel : ∀ o ∈ c.objects, ∃ o' ∈ d.objects, ∀ a, c.Inc o' a ↔ c.Inc o a := by
    intro o ho
    obtain ⟨i, hi⟩ := List.mem_iff_getElem?.1 ho
    have h5 := (hmemr _).2 (List.mem_of_getElem? (h.row_name hi))
    obtain ⟨p, hp, hp'⟩ := List.mem_map.1 h5
    refine ⟨p.2, by rw [h4.objs]; exact List.mem_map_of_mem hp, ?_⟩
    rw [(hmem p hp).2, List.map_inj_left] at hp'
    intro a
    by_cases ha : a ∈ c.attributes
    · rw [← h.incB, ← h.incB, hp' a ha]
    · exact ⟨fun hx => absurd hx.mem.2 ha, fun hx => absurd hx.mem.2 ha⟩
  refine ⟨d, hd, h2, h4.atts, by rw [h3, ← hrows]; exact hkeys, fun r => by rw [h3, ← hrows]; exact hmemr r,
    hobj, hinc, ?_, ?_⟩
  · intro o ho
    obtain ⟨o', ho', hx⟩ := hlabel o ho
    refine ⟨o', ⟨ho', hx⟩, ?_⟩
    rintro o'' ⟨ho'', hx'⟩
    rw [h4.objs] at ho' ho''
    have hk := hkeys
    rw [hrows] at hk
    refine (List.inj_on_of_nodup_map hk) ho'' ho' ?_
    refine List.map_congr_left fun a _ => ?_
    rw [Bool.eq_iff_iff, h.incB, h.incB, hx, hx']
  · have hsub : d.G ⊆ c.G := by
      intro o ho
      simp only [G, List.mem_toFinset] at ho ⊢
      exact hobj o ho
    have hM : d.M = c.M := by simp only [M, h4.atts]
    have hcl := (same_closure (I := c.Inc) (M := c.M) hsub (by
      intro g hg m _ hall
      simp only [G, List.mem_toFinset] at hg
      obtain ⟨o', ho', hx⟩ := hlabel g hg
      rw [← hx]
      exact hall o' (by simpa [G] using ho') fun b _ hb => (hx b).2 hb)).2
    intro B
    rw [hcl, hM]
    unfold IsIntent IsConcept
    constructor
    · rintro ⟨A, h5, h6⟩
      have hA : ∀ g ∈ A, g ∈ d.objects := fun g hg => by
        have := ((h6 g).1 hg).1; simpa [G] using this
      refine ⟨A, fun m => ?_, fun g => ?_⟩
      · rw [h5]; exact and_congr_right fun _ => forall₂_congr fun g hg => hinc g (hA g hg) m
      · rw [h6]; exact and_congr_right fun hg => forall₂_congr fun m _ => hinc g (by simpa [G] using hg) m
    · rintro ⟨A, h5, h6⟩
      have hA : ∀ g ∈ A, g ∈ d.objects := fun g hg => by
        have := ((h6 g).1 hg).1; simpa [G] using this
      refine ⟨A, fun m => ?_, fun g => ?_⟩
      · rw [h5]; exact and_congr_right fun _ => forall₂_congr fun g hg => (hinc g (hA g hg) m).symm
      · rw [h6]; exact and_congr_right fun hg => forall₂_congr fun m _ => (hinc g (by simpa [G] using hg) m).symm

/-- A context with repeated and reducible rows. -/
def cxtD : Ctx (List Char) (List Char) :=
  ⟨["g".toList, "h".toList, "i".toList, "j".toList], ["m".toList, "n".toList, "o".toList],
    ⟨some 3, [[true, true, false], [false, true, true], [true, true, false], [false, true, false]]⟩⟩

theorem cxtD_wf : cxtD.WFw := by constructor <;> decide +kernel

example : cxtD.WFw ∧ (cxtD.clarifyObjects.map fun d => d.objects) =
    .ok ["i".toList, "h".toList, "j".toList] := by
  refine ⟨cxtD_wf, ?_⟩; decide +kernel

end Ctx
