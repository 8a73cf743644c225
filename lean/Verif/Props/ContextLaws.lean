/-
C172: laws relating the operations that make contexts from contexts. All of them are equations between results of the
methods of `Context`; they hold for every well-formed context.
-/
import Verif.Props.Reduce

set_option linter.unusedSectionVars false

namespace Ctx

open Spec

variable {α β γ δ : Type} [DecidableEq α] [DecidableEq β] [DecidableEq γ] [DecidableEq δ]
variable [PyName α] [PyName β] [PyName γ] [PyName δ]

/-! ### Normal forms -/

/-- The context the constructor makes from names and a relation. -/
def tab (objs : List α) (atts : List β) (rel : α → β → Bool) : Ctx α β :=
  mk' objs atts (objs.map fun o => atts.map (rel o))

theorem tab_make {objs : List α} {atts : List β} (rel : α → β → Bool) (ho : objs.Nodup) (ha : atts.Nodup) :
    make (objs.map fun o => atts.map (rel o)) objs atts = .ok (tab objs atts rel) :=
  make_nodup (by simp) (by simp) ho ha

theorem tab_wf {objs : List α} {atts : List β} (rel : α → β → Bool) (ho : objs.Nodup) (ha : atts.Nodup) :
    (tab objs atts rel).WF := wf_mk' (by simp) (by simp) ho ha

theorem tab_incB {objs : List α} {atts : List β} (rel : α → β → Bool) (ho : objs.Nodup) (ha : atts.Nodup) {o : α} {a : β}
    (h : o ∈ objs) (h' : a ∈ atts) : (tab objs atts rel).incB o a = rel o a := by
  obtain ⟨d, h1, _, _, h2⟩ := make_rel rel ho ha
  rw [tab_make rel ho ha] at h1
  cases h1
  exact h2.incB h h'

theorem tab_congr {objs : List α} {atts : List β} {rel rel' : α → β → Bool}
    (h : ∀ o ∈ objs, ∀ a ∈ atts, rel o a = rel' o a) : tab objs atts rel = tab objs atts rel' := by
  unfold tab
  rw [List.map_congr_left fun o ho => List.map_congr_left fun a ha => h o ho a ha]

theorem WFw.eq_tab {c : Ctx α β} (h : c.WFw) (h0 : c.objects = [] → c.nd.cols = none) :
    c = tab c.objects c.attributes c.incB := by
  obtain ⟨objs, atts, cols, rows⟩ := c
  have h1 := h.rows_eq
  have h2 := h.shape
  have h3 := h.nrows
  simp only at h0 h1 h2 h3
  unfold tab mk'
  rw [← h1]
  congr 2
  by_cases hr : rows = []
  · rw [if_pos hr]
    refine h0 (List.length_eq_zero_iff.1 ?_)
    rw [← h3, hr, List.length_nil]
  · rw [if_neg hr, h2 hr]

theorem WFw.nf_sub {c : Ctx α β} (h : c.WFw) {A : List β} (hA : ∀ a ∈ A, a ∈ c.attributes) (hn : A.Nodup) :
    c.extractSubcontext A = .ok (tab c.objects A c.incB) := by
  simp only [extractSubcontext, h.extractSubtable hA, py_ok_bind, tab_make _ h.onodup hn]

theorem of_make {t : List (List Bool)} {objs : List α} {atts : List β} {d : Ctx α β} (h : make t objs atts = .ok d) :
    d.nd.rows = [] → d.nd.cols = none := by
  rcases make_cases t objs atts with ⟨_, _, h3⟩ | ⟨_, h3⟩
  · rw [h] at h3; cases h3
    simp only
    intro h4; rw [if_pos h4]
  · rw [h] at h3; cases h3

theorem Stores.eq_tab {d : Ctx α β} {t : Table α β} (h : Stores d t) (h0 : d.nd.rows = [] → d.nd.cols = none) :
    d = tab t.objs t.atts t.rel := by
  have h1 := h.wf.eq_tab (fun ho => h0 ((rows_nil h.wf).2 ho))
  rw [h1, h.objs, h.atts]
  exact tab_congr fun o ho a ha => h.incB ho ha

theorem WFw.nf_filter {c : Ctx α β} (h : c.WFw) {A : List β} {mode : Mode} (hA : ∀ a ∈ A, a ∈ c.attributes)
    (hm : mode ≠ .other) :
    c.extractFiltered A mode = .ok (tab (c.objects.filter (c.keep A mode)) c.attributes c.incB) := by
  obtain ⟨d, h1, _, h3⟩ := h.extractFiltered hA hm
  rw [h1]
  congr 1
  refine h3.eq_tab ?_
  simp only [Ctx.extractFiltered] at h1
  obtain ⟨_, _, h1⟩ := bind_ok h1
  obtain ⟨_, _, h1⟩ := bind_ok h1
  obtain ⟨_, _, h1⟩ := bind_ok h1
  obtain ⟨_, _, h1⟩ := bind_ok h1
  exact of_make h1

theorem WFw.nf_compl {c : Ctx α β} (h : c.WFw) {neg : β → β} (hneg : Function.Injective neg) :
    c.complementary neg = .ok (tab c.objects (c.attributes.map neg)
      fun o b => c.attributes.any fun a => neg a = b && !c.incB o a) := by
  obtain ⟨d, h1, _, _, h3⟩ := h.complementary hneg
  rw [h1]
  congr 1
  refine h3.eq_tab ?_
  simp only [Ctx.complementary] at h1
  obtain ⟨_, _, h1⟩ := bind_ok h1
  exact of_make h1

theorem compl_val {c : Ctx α β} {neg : β → β} (hneg : Function.Injective neg) {o : α} {a : β} (ha : a ∈ c.attributes) :
    (c.attributes.any fun a' => neg a' = neg a && !c.incB o a') = !c.incB o a := by
  rw [Bool.eq_iff_iff, List.any_eq_true]
  constructor
  · rintro ⟨a', _, hb⟩
    simp only [Bool.and_eq_true, decide_eq_true_eq] at hb
    rw [hneg hb.1] at hb
    exact hb.2
  · intro hb; exact ⟨a, ha, by simpa using hb⟩

theorem WFw.nf_transpose {c : Ctx α β} (h : c.WFw) :
    c.transpose = .ok (tab c.attributes c.objects fun a o => c.incB o a) := by
  obtain ⟨d, h1, _, h3⟩ := h.transpose
  rw [h1]
  congr 1
  refine h3.eq_tab ?_
  simp only [Ctx.transpose] at h1
  obtain ⟨_, _, h1⟩ := bind_ok h1
  exact of_make h1

theorem WFw.nf_mul {l : Ctx α β} {r : Ctx β γ} (hl : l.WFw) (hr : r.WFw)
    (hm : l.attributes = r.objects) (hlo : l.objects ≠ []) (hne : l.attributes ≠ []) :
    l.mul r = .ok (tab l.objects r.attributes fun o a => l.attributes.any fun f => l.incB o f && r.incB f a) := by
  rw [← tab_make _ hl.onodup hr.anodup]
  unfold mul
  rw [if_neg (by simpa using hm)]
  simp only [Nd.toMatrix, C04_shape hl hlo, C04_shape hr (hm ▸ hne)]
  rw [if_neg (by rw [hr.nrows, hm]; simp)]
  rw [hr.rows_eq, ← hm, boolMul_eq (hl.rows_eq)]

/-! ### Subcontexts and filters -/

/-- Taking a subcontext twice is taking it once; names dropped by the first step are unknown in the second one; all
attributes together give a copy. -/
theorem C172_subcontexts {c : Ctx α β} (h : c.WFw) {A : List β} (hA : ∀ a ∈ A, a ∈ c.attributes) (hn : A.Nodup)
    (B : List β) :
    ((∀ b ∈ B, b ∈ A) →
      (do let d ← c.extractSubcontext A; d.extractSubcontext B) = c.extractSubcontext B) ∧
    ((∃ b ∈ B, b ∉ A) → (do let d ← c.extractSubcontext A; d.extractSubcontext B) = .error .valueError) ∧
    ((c.objects = [] → c.nd.cols = none) → c.extractSubcontext c.attributes = .ok c) := by
  have hw := tab_wf c.incB h.onodup hn
  refine ⟨fun hB => ?_, fun hB => ?_, fun h0 => ?_⟩
  · rw [h.nf_sub hA hn, py_ok_bind]
    simp only [extractSubcontext, hw.toWFw.extractSubtable (names := B) hB, py_ok_bind,
      h.extractSubtable (names := B) fun b hb => hA b (hB b hb)]
    congr 1
    exact List.map_congr_left fun o ho => List.map_congr_left fun b hb => tab_incB _ h.onodup hn ho (hB b hb)
  · rw [h.nf_sub hA hn, py_ok_bind]
    exact (C16_subcontext hw.toWFw B).1 hB
  · rw [h.nf_sub (fun _ ha => ha) h.anodup, ← h.eq_tab h0]

/-- Filtering leaves the rows of the kept objects alone, so another filter keeps the same ones of them. -/
theorem keep_tab {c : Ctx α β} {A B : List β} {objs : List α} {mode : Mode} (ho : objs.Nodup) (hn : A.Nodup)
    (hB : ∀ b ∈ B, b ∈ A) {o : α} (h : o ∈ objs) : (tab objs A c.incB).keep B mode o = c.keep B mode o := by
  have h1 : ∀ b ∈ B, (tab objs A c.incB).incB o b = c.incB o b := fun b hb => tab_incB _ ho hn h (hB b hb)
  cases mode with
  | and => simp only [keep]; rw [Bool.eq_iff_iff, List.all_eq_true, List.all_eq_true]
           exact forall₂_congr fun b hb => by rw [h1 b hb]
  | or => simp only [keep]; rw [Bool.eq_iff_iff, List.any_eq_true, List.any_eq_true]
          exact exists_congr fun b => and_congr_right fun hb => by rw [h1 b hb]
  | other => rfl

/-- Filtering by some of the attributes of a subcontext and taking the subcontext can be done in either order. -/
theorem C172_filter_subcontext {c : Ctx α β} (h : c.WFw) {A B : List β} (hA : ∀ a ∈ A, a ∈ c.attributes)
    (hn : A.Nodup) (hB : ∀ b ∈ B, b ∈ A) {mode : Mode} (hm : mode ≠ .other) :
    ∃ d, (do let x ← c.extractSubcontext A; x.extractFiltered B mode) = .ok d ∧
      (do let x ← c.extractFiltered B mode; x.extractSubcontext A) = .ok d := by
  have hB' : ∀ b ∈ B, b ∈ c.attributes := fun b hb => hA b (hB b hb)
  have hw := tab_wf c.incB h.onodup hn
  have hf := h.onodup.filter (c.keep B mode)
  have hw' := tab_wf c.incB hf h.anodup
  refine ⟨tab (c.objects.filter (c.keep B mode)) A c.incB, ?_, ?_⟩
  · rw [h.nf_sub hA hn, py_ok_bind, hw.toWFw.nf_filter hB hm]
    have : (tab c.objects A c.incB).objects.filter ((tab c.objects A c.incB).keep B mode) =
        c.objects.filter (c.keep B mode) :=
      List.filter_congr fun o ho => keep_tab h.onodup hn hB ho
    rw [this]
    congr 1
    exact tab_congr fun o ho a ha => tab_incB _ h.onodup hn (List.mem_of_mem_filter ho) ha
  · rw [h.nf_filter hB' hm, py_ok_bind, hw'.toWFw.nf_sub hA hn]
    congr 1
    exact tab_congr fun o ho a ha => tab_incB _ hf h.anodup ho (hA a ha)

theorem WFw.nf_filter₂ {c : Ctx α β} (h : c.WFw) {A B : List β} (hA : ∀ a ∈ A, a ∈ c.attributes)
    (hB : ∀ b ∈ B, b ∈ c.attributes) {m m' : Mode} (hm : m ≠ .other) (hm' : m' ≠ .other) :
    (do let d ← c.extractFiltered A m; d.extractFiltered B m') =
      .ok (tab (c.objects.filter fun o => c.keep B m' o && c.keep A m o) c.attributes c.incB) := by
  have hf := h.onodup.filter (c.keep A m)
  have hw := tab_wf c.incB hf h.anodup
  rw [h.nf_filter hA hm, py_ok_bind, hw.toWFw.nf_filter hB hm']
  have : (tab (c.objects.filter (c.keep A m)) c.attributes c.incB).objects.filter
      ((tab (c.objects.filter (c.keep A m)) c.attributes c.incB).keep B m') =
      (c.objects.filter fun o => c.keep B m' o && c.keep A m o) := by
    rw [← List.filter_filter]
    exact List.filter_congr fun o ho => keep_tab hf h.anodup hB ho
  rw [this]
  congr 1
  refine tab_congr fun o ho a ha => tab_incB _ hf h.anodup ?_ ha
  simp only [List.mem_filter, Bool.and_eq_true] at ho ⊢
  exact ⟨ho.1, ho.2.2⟩

/-- Filters commute and are idempotent; filters for all of `A` and all of `B` are one filter for all of both; a filter for
all of no attributes gives a copy, one for one of no attributes gives no objects. -/
theorem C172_filters {c : Ctx α β} (h : c.WFw) {A B : List β} (hA : ∀ a ∈ A, a ∈ c.attributes)
    (hB : ∀ b ∈ B, b ∈ c.attributes) {m m' : Mode} (hm : m ≠ .other) (hm' : m' ≠ .other) :
    ((do let d ← c.extractFiltered A m; d.extractFiltered B m') =
      do let d ← c.extractFiltered B m'; d.extractFiltered A m) ∧
    ((do let d ← c.extractFiltered A m; d.extractFiltered A m) = c.extractFiltered A m) ∧
    ((do let d ← c.extractFiltered A .and; d.extractFiltered B .and) = c.extractFiltered (A ++ B) .and) ∧
    ((c.objects = [] → c.nd.cols = none) → c.extractFiltered [] .and = .ok c) ∧
    (c.extractFiltered [] .or = .ok ⟨[], c.attributes, ⟨none, []⟩⟩) := by
  refine ⟨?_, ?_, ?_, fun h0 => ?_, ?_⟩
  · rw [h.nf_filter₂ hA hB hm hm', h.nf_filter₂ hB hA hm' hm]
    simp only [Bool.and_comm]
  · rw [h.nf_filter₂ hA hA hm hm, h.nf_filter hA hm]
    simp only [Bool.and_self]
  · rw [h.nf_filter₂ hA hB (by decide) (by decide), h.nf_filter (A := A ++ B) (by
      intro a ha; rcases List.mem_append.1 ha with ha | ha
      · exact hA a ha
      · exact hB a ha) (by decide)]
    congr 3
    funext o
    simp only [keep, List.all_append, Bool.and_comm]
  · rw [h.nf_filter (by simp) (by decide)]
    have : c.objects.filter (c.keep [] .and) = c.objects := List.filter_eq_self.2 (by simp [keep])
    rw [this, ← h.eq_tab h0]
  · rw [h.nf_filter (by simp) (by decide)]
    have : c.objects.filter (c.keep [] .or) = [] := List.filter_eq_nil_iff.2 (by simp [keep])
    rw [this]; rfl

theorem WFw.removeEmpty_eq {c : Ctx α β} (h : c.WFw) :
    c.removeEmptyObjects = c.deleteObjects (c.objects.filter fun o => !(c.attributes.any (c.incB o))) := by
  have hrow : ∀ (i : ℕ) o, c.objects[i]? = some o → (do
      let r ← pyGet c.nd.rows i
      (.ok (!r.any id) : Py Bool)) = .ok (!(c.attributes.any (c.incB o))) := by
    intro i o hi
    simp only [pyGet_ok (h.row_name hi), py_ok_bind, List.any_map]
    rfl
  obtain ⟨q, hq, hq'⟩ := filterPy_range (l := c.objects) (fun i o hi => hrow i o hi)
  have hnames : ((List.range c.objects.length).filter q).mapM (pyGet c.objects) =
      .ok ((c.objects.filter fun o => !(c.attributes.any (c.incB o))).map id) :=
    mapM_range_filter hq' fun i o hi => pyGet_ok hi
  rw [List.map_id] at hnames
  unfold removeEmptyObjects
  rw [hq, py_ok_bind, hnames]

theorem deleteObjects_made {c d : Ctx α β} {names : List α} (hne : names ≠ [])
    (h : c.deleteObjects names = (d, none)) : d.nd.rows = [] → d.nd.cols = none := by
  induction names generalizing c with
  | nil => exact absurd rfl hne
  | cons o os ih =>
    rw [deleteObjects] at h
    split at h
    · rename_i c' hc'
      by_cases hos : os = []
      · subst hos
        rw [deleteObjects] at h
        cases h
        unfold deleteObject reinit at hc'
        split at hc'
        · rename_i x hx
          cases hc'
          obtain ⟨_, _, hx⟩ := bind_ok hx
          obtain ⟨_, _, hx⟩ := bind_ok hx
          exact of_make hx
        · cases hc'
      · exact ih hos h
    · cases h

/-- `remove_empty_objects` leaves what a filter for one of all attributes gives, and doing it again changes nothing. -/
theorem C172_remove_empty {c : Ctx α β} (h : c.WFw) :
    ∃ d e, c.removeEmptyObjects = (d, none) ∧ c.extractFiltered c.attributes .or = .ok e ∧
      d.objects = e.objects ∧ d.attributes = e.attributes ∧ d.nd.rows = e.nd.rows ∧ (c.objects ≠ [] → d = e) ∧
      d.removeEmptyObjects = (d, none) := by
  obtain ⟨d, h1, h2, h3, h4, h5, h6, _⟩ := C17_remove_empty h
  have hobj : d.objects = c.objects.filter (c.keep c.attributes .or) := by
    have hp : ∀ o, c.keep c.attributes .or o = true ↔ ∃ a, c.Inc o a := by
      intro o
      simp only [keep, List.any_eq_true, h.incB]
      exact ⟨fun ⟨a, _, ha⟩ => ⟨a, ha⟩, fun ⟨a, ha⟩ => ⟨a, ha.mem.2, ha⟩⟩
    have hs : d.objects.Sublist (c.objects.filter (c.keep c.attributes .or)) := by
      have := h4.filter (c.keep c.attributes .or)
      rwa [List.filter_eq_self.2 fun o ho => (hp o).2 ((h5 o).1 ho).2] at this
    refine hs.eq_of_length (List.Perm.length_eq ?_)
    rw [List.perm_ext_iff_of_nodup h2.onodup (h.onodup.filter _)]
    intro o
    rw [h5, List.mem_filter, hp]
  have hrows : d.nd.rows = (tab (c.objects.filter (c.keep c.attributes .or)) c.attributes c.incB).nd.rows := by
    rw [h2.rows_eq, hobj, h3]
    refine List.map_congr_left fun o _ => List.map_congr_left fun a _ => ?_
    rw [Bool.eq_iff_iff, h2.incB, h.incB, h6]
  refine ⟨d, _, h1, h.nf_filter (fun _ ha => ha) (by decide), hobj, h3, hrows, fun hne => ?_, ?_⟩
  · have hmade : d.nd.rows = [] → d.nd.cols = none := by
      intro hr
      refine deleteObjects_made (c := c) ?_ (h.removeEmpty_eq ▸ h1) hr
      intro hnil
      have h7 := (rows_nil h2).1 hr
      obtain ⟨o, ho⟩ := List.exists_mem_of_ne_nil _ hne
      have h8 := List.filter_eq_nil_iff.1 hnil o ho
      rw [hobj] at h7
      exact List.filter_eq_nil_iff.1 h7 o ho (by simpa [keep] using h8)
    rw [h2.eq_tab fun ho => hmade ((rows_nil h2).2 ho), hobj, h3]
    refine tab_congr fun o _ a _ => ?_
    rw [Bool.eq_iff_iff, h2.incB, h.incB, h6]
  · rw [h2.removeEmpty_eq]
    have : (d.objects.filter fun o => !(d.attributes.any (d.incB o))) = [] := by
      rw [List.filter_eq_nil_iff]
      intro o ho
      obtain ⟨_, a, ha⟩ := (h5 o).1 ho
      have := (h6 o a).2 ha
      simp only [Bool.not_eq_true', Bool.not_eq_false, List.any_eq_true]
      exact ⟨a, this.mem.2, (h2.incB o a).2 this⟩
    rw [this]; rfl

/-! ### Complements -/

/-- The complement of a subcontext is the subcontext of the complement for the negated names. -/
theorem C172_complement_subcontext {c : Ctx α β} (h : c.WFw) {A : List β} (hA : ∀ a ∈ A, a ∈ c.attributes)
    (hn : A.Nodup) {neg : β → β} (hneg : Function.Injective neg) :
    ∃ d, (do let x ← c.extractSubcontext A; x.complementary neg) = .ok d ∧
      (do let x ← c.complementary neg; x.extractSubcontext (A.map neg)) = .ok d := by
  have hw := tab_wf c.incB h.onodup hn
  have ha := h.anodup.map hneg
  have hw' := tab_wf (fun o b => c.attributes.any fun a => neg a = b && !c.incB o a) h.onodup ha
  have hA' : ∀ a ∈ A.map neg, a ∈ c.attributes.map neg := by
    intro b hb
    obtain ⟨a, ha, rfl⟩ := List.mem_map.1 hb
    exact List.mem_map_of_mem (hA a ha)
  refine ⟨_, by rw [h.nf_sub hA hn, py_ok_bind, hw.toWFw.nf_compl hneg], ?_⟩
  rw [h.nf_compl hneg, py_ok_bind, hw'.toWFw.nf_sub hA' (hn.map hneg)]
  congr 1
  refine tab_congr fun o ho b hb => ?_
  rw [tab_incB _ h.onodup ha ho (hA' b hb)]
  obtain ⟨a, ha', rfl⟩ := List.mem_map.1 hb
  rw [compl_val hneg (hA a ha')]
  have : (tab c.objects A c.incB).attributes = A := rfl
  rw [← tab_incB c.incB h.onodup hn ho ha', ← compl_val hneg (c := tab c.objects A c.incB) (o := o) (a := a) ha']

/-- Every object is either kept by the filter of the context for all (one) of `A` or by the filter of the complement for
one (all) of the negated names, and never by both. -/
theorem C172_filter_complement {c : Ctx α β} (h : c.WFw) {A : List β} (hA : ∀ a ∈ A, a ∈ c.attributes)
    {neg : β → β} (hneg : Function.Injective neg) :
    (∃ d e, c.extractFiltered A .and = .ok d ∧
      (do let x ← c.complementary neg; x.extractFiltered (A.map neg) .or) = .ok e ∧
      (d.objects ++ e.objects).Perm c.objects ∧ d.objects.Disjoint e.objects) ∧
    (∃ d e, c.extractFiltered A .or = .ok d ∧
      (do let x ← c.complementary neg; x.extractFiltered (A.map neg) .and) = .ok e ∧
      (d.objects ++ e.objects).Perm c.objects ∧ d.objects.Disjoint e.objects) := by
  have ha := h.anodup.map hneg
  have hw' := tab_wf (fun o b => c.attributes.any fun a => neg a = b && !c.incB o a) h.onodup ha
  have hA' : ∀ a ∈ A.map neg, a ∈ c.attributes.map neg := by
    intro b hb
    obtain ⟨a, ha, rfl⟩ := List.mem_map.1 hb
    exact List.mem_map_of_mem (hA a ha)
  have hv : ∀ o ∈ c.objects, ∀ a ∈ A, (tab c.objects (c.attributes.map neg)
      fun o b => c.attributes.any fun a => neg a = b && !c.incB o a).incB o (neg a) = !c.incB o a := by
    intro o ho a ha'
    rw [tab_incB _ h.onodup ha ho (List.mem_map_of_mem (hA a ha')), compl_val hneg (hA a ha')]
  have fin : ∀ (p q : α → Bool), (∀ o ∈ c.objects, q o = !p o) →
      (c.objects.filter p ++ c.objects.filter q).Perm c.objects ∧
        (c.objects.filter p).Disjoint (c.objects.filter q) := by
    intro p q hpq
    rw [List.filter_congr hpq]
    refine ⟨List.filter_append_perm p c.objects, ?_⟩
    intro o h1 h2
    have h3 := (List.mem_filter.1 h1).2
    have h4 := (List.mem_filter.1 h2).2
    simp [h3] at h4
  constructor
  · refine ⟨_, _, h.nf_filter hA (by decide), by
      rw [h.nf_compl hneg, py_ok_bind, hw'.toWFw.nf_filter hA' (by decide)], ?_⟩
    refine fin _ _ fun o ho => ?_
    simp only [keep, List.any_map]
    rw [Bool.eq_iff_iff, List.any_eq_true, Bool.not_eq_true', List.all_eq_false]
    exact exists_congr fun a => and_congr_right fun ha' => by
      rw [Function.comp_apply, hv o ho a ha']; simp
  · refine ⟨_, _, h.nf_filter hA (by decide), by
      rw [h.nf_compl hneg, py_ok_bind, hw'.toWFw.nf_filter hA' (by decide)], ?_⟩
    refine fin _ _ fun o ho => ?_
    simp only [keep, List.all_map]
    rw [Bool.eq_iff_iff, List.all_eq_true, Bool.not_eq_true', List.any_eq_false]
    exact forall₂_congr fun a ha' => by
      rw [Function.comp_apply, hv o ho a ha']; simp

/-! ### Clarification -/

/-- The names left when of the elements of `l` with the same value of `f` only the last is kept, at the place of the
first. -/
def labels {κ : Type} [DecidableEq κ] (f : α → κ) (l : List α) : List α :=
  (dictOf (l.map fun o => (f o, o))).map Prod.snd

section labels
variable {κ κ' : Type} [DecidableEq κ] [DecidableEq κ'] {f : α → κ} {g : α → κ'} {l : List α}

theorem labels_pairs (f : α → κ) (l : List α) :
    dictOf (l.map fun o => (f o, o)) = (labels f l).map fun o => (f o, o) := by
  unfold labels
  rw [List.map_map]
  conv_lhs => rw [← List.map_id (dictOf (l.map fun o => (f o, o)))]
  refine List.map_congr_left fun p hp => ?_
  obtain ⟨o, _, rfl⟩ := List.mem_map.1 (dictOf_mem hp)
  rfl

theorem labels_mem {o : α} (h : o ∈ labels f l) : o ∈ l := by
  obtain ⟨p, hp, rfl⟩ := List.mem_map.1 h
  obtain ⟨o, ho, rfl⟩ := List.mem_map.1 (dictOf_mem hp)
  exact ho

theorem labels_keys_nodup (f : α → κ) (l : List α) : ((labels f l).map f).Nodup := by
  have h := dictOf_keys_nodup (l.map fun o => (f o, o))
  rw [labels_pairs, List.map_map] at h
  exact h

theorem labels_nodup (f : α → κ) (l : List α) : (labels f l).Nodup := List.Nodup.of_map _ (labels_keys_nodup f l)

theorem mem_labels_keys {k : κ} : k ∈ (labels f l).map f ↔ k ∈ l.map f := by
  have h := mem_dictOf_keys (l.map fun o => (f o, o)) k
  rw [labels_pairs, List.map_map, List.map_map] at h
  exact h

theorem labels_self (h : (l.map f).Nodup) : labels f l = l := by
  unfold labels
  rw [dictOf_nodup, List.map_map]
  · exact List.map_id l
  · rw [List.map_map]; exact h

theorem labels_append (l : List α) (x : α) :
    labels f (l ++ [x]) =
      if f x ∈ l.map f then (labels f l).map (fun o => if f o = f x then x else o) else labels f l ++ [x] := by
  have h1 : ((labels f l).any fun o => f o = f x) = true ↔ f x ∈ l.map f := by
    rw [← mem_labels_keys, List.any_eq_true, List.mem_map]
    simp
  conv_lhs => unfold labels
  rw [List.map_append, List.map_singleton, dictOf_append, labels_pairs]
  unfold dictSet
  rw [List.any_map]
  by_cases h : f x ∈ l.map f
  · rw [if_pos h, if_pos, List.map_map, List.map_map]
    · refine List.map_congr_left fun o _ => ?_
      simp only [Function.comp_apply]
      split <;> rfl
    · exact h1.2 h
  · rw [if_neg h, if_neg, List.map_append, List.map_map]
    · congr 1
      exact List.map_id _
    · exact fun hx => h (h1.1 hx)

theorem labels_congr (h : ∀ o ∈ l, ∀ o' ∈ l, f o = f o' ↔ g o = g o') : labels f l = labels g l := by
  induction l using List.reverseRecOn with
  | nil => rfl
  | append_singleton l x ih =>
    have ih := ih fun o ho o' ho' => h o (by simp [ho]) o' (by simp [ho'])
    have h1 : f x ∈ l.map f ↔ g x ∈ l.map g := by
      simp only [List.mem_map]
      exact exists_congr fun o => and_congr_right fun ho => h o (by simp [ho]) x (by simp)
    rw [labels_append, labels_append, ih]
    by_cases hx : f x ∈ l.map f
    · rw [if_pos hx, if_pos (h1.1 hx)]
      refine List.map_congr_left fun o ho => ?_
      simp only [h o (by simp [labels_mem ho]) x (by simp)]
    · rw [if_neg hx, if_neg (mt h1.2 hx)]

theorem labels_filter {q : α → Bool} (h : ∀ o ∈ l, ∀ o' ∈ l, f o = f o' → q o = q o') :
    labels f (l.filter q) = (labels f l).filter q := by
  induction l using List.reverseRecOn with
  | nil => rfl
  | append_singleton l x ih =>
    have ih := ih fun o ho o' ho' => h o (by simp [ho]) o' (by simp [ho'])
    have hg : ∀ o ∈ labels f l, q (if f o = f x then x else o) = q o := by
      intro o ho
      split
      · rename_i he; exact (h o (by simp [labels_mem ho]) x (by simp) he).symm
      · rfl
    have hm : (((labels f l).map fun o => if f o = f x then x else o).filter q) =
        ((labels f l).filter q).map fun o => if f o = f x then x else o := by
      rw [List.filter_map]
      congr 1
      exact List.filter_congr fun o ho => hg o ho
    rw [List.filter_append, labels_append]
    by_cases hq : q x = true
    · rw [List.filter_cons_of_pos hq, List.filter_nil, labels_append, ih]
      have h1 : f x ∈ (l.filter q).map f ↔ f x ∈ l.map f := by
        simp only [List.mem_map, List.mem_filter]
        refine exists_congr fun o => ⟨fun hx => ⟨hx.1.1, hx.2⟩, fun hx => ⟨⟨hx.1, ?_⟩, hx.2⟩⟩
        rw [h o (by simp [hx.1]) x (by simp) hx.2, hq]
      by_cases hx : f x ∈ l.map f
      · rw [if_pos hx, if_pos (h1.2 hx), hm]
      · rw [if_neg hx, if_neg (mt h1.1 hx), List.filter_append, List.filter_cons_of_pos hq, List.filter_nil]
    · rw [List.filter_cons_of_neg hq, List.filter_nil, List.append_nil, ih]
      split
      · rw [hm]
        symm
        conv_rhs => rw [← List.map_id ((labels f l).filter q)]
        refine List.map_congr_left fun o ho => ?_
        obtain ⟨ho, hqo⟩ := List.mem_filter.1 ho
        rw [if_neg]
        · rfl
        · intro he
          rw [h o (by simp [labels_mem ho]) x (by simp) he] at hqo
          exact hq hqo
      · rw [List.filter_append, List.filter_cons_of_neg hq, List.filter_nil, List.append_nil]

/-- The values of the labels are the values of all elements, each once, in the order in which they first occur. -/
theorem labels_keys_append (l : List α) (x : α) :
    (labels f (l ++ [x])).map f = if f x ∈ l.map f then (labels f l).map f else (labels f l).map f ++ [f x] := by
  rw [labels_append]
  split
  · rw [List.map_map]
    refine List.map_congr_left fun o _ => ?_
    rw [Function.comp_apply]
    split
    · rename_i h; exact h.symm
    · rfl
  · rw [List.map_append, List.map_singleton]

/-- Grouping by `g` after grouping by the finer `f` gives the same values in the same order. -/
theorem labels_labels_keys (h : ∀ o ∈ l, ∀ o' ∈ l, f o = f o' → g o = g o') :
    (labels g (labels f l)).map g = (labels g l).map g := by
  have key : ∀ (m m' : List α), m.map g = m'.map g → (labels g m).map g = (labels g m').map g := by
    intro m
    induction m using List.reverseRecOn with
    | nil => intro m' hm; rw [List.map_nil] at hm; rw [List.map_eq_nil_iff.1 hm.symm]
    | append_singleton m x ih =>
      intro m' hm
      rcases List.eq_nil_or_concat m' with rfl | ⟨m'', y, rfl⟩
      · simp at hm
      · rw [List.concat_eq_append] at hm ⊢
        rw [List.map_append, List.map_append, List.map_singleton, List.map_singleton] at hm
        obtain ⟨h1, h2⟩ := List.append_inj' hm rfl
        rw [labels_keys_append, labels_keys_append, ih m'' h1, h1, List.singleton_inj.1 h2]
  induction l using List.reverseRecOn with
  | nil => rfl
  | append_singleton l x ih =>
    have ih := ih fun o ho o' ho' => h o (by simp [ho]) o' (by simp [ho'])
    rw [labels_keys_append, labels_append]
    by_cases hx : f x ∈ l.map f
    · rw [if_pos hx]
      obtain ⟨o, ho, hox⟩ := List.mem_map.1 hx
      have hgx : g x ∈ l.map g := by
        rw [← h o (by simp [ho]) x (by simp) hox]
        exact List.mem_map_of_mem ho
      rw [if_pos hgx, ← ih]
      apply key
      rw [List.map_map]
      refine List.map_congr_left fun o ho => ?_
      rw [Function.comp_apply]
      split
      · rename_i he
        exact (h o (by simp [labels_mem ho]) x (by simp) he).symm
      · rfl
    · rw [if_neg hx, labels_keys_append, ih]
      have : g x ∈ (labels f l).map g ↔ g x ∈ l.map g := by
        constructor
        · intro hg
          obtain ⟨o, ho, ho'⟩ := List.mem_map.1 hg
          exact List.mem_map.2 ⟨o, labels_mem ho, ho'⟩
        · intro hg
          obtain ⟨o, ho, ho'⟩ := List.mem_map.1 hg
          have h1 : f o ∈ (labels f l).map f := mem_labels_keys.2 (List.mem_map_of_mem ho)
          obtain ⟨o', ho1, ho2⟩ := List.mem_map.1 h1
          refine List.mem_map.2 ⟨o', ho1, ?_⟩
          rw [h o' (by simp [labels_mem ho1]) o (by simp [ho]) ho2, ho']
      simp only [this]

end labels

theorem WFw.nf_clarify {c : Ctx α β} (h : c.WFw) :
    c.clarifyObjects = .ok (tab (labels (fun o => c.attributes.map (c.incB o)) c.objects) c.attributes c.incB) := by
  have h1 : c.nd.rows.zip c.objects = c.objects.map fun o => (c.attributes.map (c.incB o), o) := by
    rw [h.rows_eq]
    conv_lhs => rw [← List.map_id c.objects, List.map_map]
    rw [List.zip_map']
    rfl
  rw [← tab_make _ (labels_nodup _ _) h.anodup]
  simp only [clarifyObjects]
  rw [h1, labels_pairs, List.map_map, List.map_map]
  congr 1
  exact List.map_id _

theorem map_inj_of {A : List β} {p q : β → Bool} (h : A.map p = A.map q) : ∀ a ∈ A, p a = q a :=
  List.map_inj_left.1 h

/-- Clarifying twice is clarifying once; clarifying commutes with filtering and with taking the complement. -/
theorem C172_clarify {c : Ctx α β} (h : c.WFw) :
    ((do let d ← c.clarifyObjects; d.clarifyObjects) = c.clarifyObjects) ∧
    (∀ A : List β, (∀ a ∈ A, a ∈ c.attributes) → ∀ mode, mode ≠ Mode.other →
      ∃ d, (do let x ← c.clarifyObjects; x.extractFiltered A mode) = .ok d ∧
        (do let x ← c.extractFiltered A mode; x.clarifyObjects) = .ok d) ∧
    ∀ neg : β → β, Function.Injective neg →
      ∃ d, (do let x ← c.clarifyObjects; x.complementary neg) = .ok d ∧
        (do let x ← c.complementary neg; x.clarifyObjects) = .ok d := by
  have hn := labels_nodup (fun o => c.attributes.map (c.incB o)) c.objects
  have hw := tab_wf c.incB hn h.anodup
  have hval : ∀ o ∈ labels (fun o => c.attributes.map (c.incB o)) c.objects, ∀ a ∈ c.attributes,
      (tab (labels (fun o => c.attributes.map (c.incB o)) c.objects) c.attributes c.incB).incB o a = c.incB o a :=
    fun o ho a ha => tab_incB _ hn h.anodup ho ha
  refine ⟨?_, fun A hA mode hm => ?_, fun neg hneg => ?_⟩
  · rw [h.nf_clarify, py_ok_bind, hw.toWFw.nf_clarify]
    have h1 : labels (fun o => (tab (labels (fun o => c.attributes.map (c.incB o)) c.objects) c.attributes
        c.incB).attributes.map ((tab (labels (fun o => c.attributes.map (c.incB o)) c.objects) c.attributes
        c.incB).incB o)) (tab (labels (fun o => c.attributes.map (c.incB o)) c.objects) c.attributes c.incB).objects =
        labels (fun o => c.attributes.map (c.incB o)) c.objects := by
      refine labels_self ?_
      have := labels_keys_nodup (fun o => c.attributes.map (c.incB o)) c.objects
      rw [← List.map_congr_left fun o ho => List.map_congr_left fun a ha => hval o ho a ha] at this
      exact this
    rw [h1]
    congr 1
    exact tab_congr fun o ho a ha => hval o ho a ha
  · have hf := h.onodup.filter (c.keep A mode)
    have hw' := tab_wf c.incB hf h.anodup
    have hval' : ∀ o ∈ c.objects.filter (c.keep A mode), ∀ a ∈ c.attributes,
        (tab (c.objects.filter (c.keep A mode)) c.attributes c.incB).incB o a = c.incB o a :=
      fun o ho a ha => tab_incB _ hf h.anodup ho ha
    refine ⟨tab ((labels (fun o => c.attributes.map (c.incB o)) c.objects).filter (c.keep A mode)) c.attributes c.incB,
      ?_, ?_⟩
    · rw [h.nf_clarify, py_ok_bind, hw.toWFw.nf_filter hA hm]
      have h1 : (tab (labels (fun o => c.attributes.map (c.incB o)) c.objects) c.attributes c.incB).objects.filter
          ((tab (labels (fun o => c.attributes.map (c.incB o)) c.objects) c.attributes c.incB).keep A mode) =
          (labels (fun o => c.attributes.map (c.incB o)) c.objects).filter (c.keep A mode) :=
        List.filter_congr fun o ho => keep_tab hn h.anodup hA ho
      rw [h1]
      congr 1
      exact tab_congr fun o ho a ha => hval o (List.mem_of_mem_filter ho) a ha
    · rw [h.nf_filter hA hm, py_ok_bind, hw'.toWFw.nf_clarify]
      have h1 : labels (fun o => (tab (c.objects.filter (c.keep A mode)) c.attributes c.incB).attributes.map
          ((tab (c.objects.filter (c.keep A mode)) c.attributes c.incB).incB o))
          (tab (c.objects.filter (c.keep A mode)) c.attributes c.incB).objects =
          (labels (fun o => c.attributes.map (c.incB o)) c.objects).filter (c.keep A mode) := by
        rw [← labels_filter]
        · refine labels_congr fun o ho o' ho' => ?_
          have e : ∀ o ∈ c.objects.filter (c.keep A mode),
              (tab (c.objects.filter (c.keep A mode)) c.attributes c.incB).attributes.map
                ((tab (c.objects.filter (c.keep A mode)) c.attributes c.incB).incB o) =
              c.attributes.map (c.incB o) := fun o ho => List.map_congr_left fun a ha => hval' o ho a ha
          rw [e o ho, e o' ho']
        · intro o _ o' _ he
          have he := map_inj_of he
          cases mode with
          | other => exact absurd rfl hm
          | and =>
            simp only [keep]; rw [Bool.eq_iff_iff, List.all_eq_true, List.all_eq_true]
            exact forall₂_congr fun b hb => by rw [he b (hA b hb)]
          | or =>
            simp only [keep]; rw [Bool.eq_iff_iff, List.any_eq_true, List.any_eq_true]
            exact exists_congr fun b => and_congr_right fun hb => by rw [he b (hA b hb)]
      rw [h1]
      congr 1
      refine tab_congr fun o ho a ha => hval' o ?_ a ha
      obtain ⟨h2, h3⟩ := List.mem_filter.1 ho
      exact List.mem_filter.2 ⟨labels_mem h2, h3⟩
  · have ha := h.anodup.map hneg
    have hw' := tab_wf (fun o b => c.attributes.any fun a => neg a = b && !c.incB o a) h.onodup ha
    refine ⟨_, by rw [h.nf_clarify, py_ok_bind, hw.toWFw.nf_compl hneg], ?_⟩
    rw [h.nf_compl hneg, py_ok_bind, hw'.toWFw.nf_clarify]
    have e : ∀ o ∈ c.objects, ∀ a ∈ c.attributes, (tab c.objects (c.attributes.map neg)
        fun o b => c.attributes.any fun a => neg a = b && !c.incB o a).incB o (neg a) = !c.incB o a := by
      intro o ho a ha'
      rw [tab_incB _ h.onodup ha ho (List.mem_map_of_mem ha'), compl_val hneg ha']
    have h1 : labels (fun o => (tab c.objects (c.attributes.map neg)
          fun o b => c.attributes.any fun a => neg a = b && !c.incB o a).attributes.map ((tab c.objects
          (c.attributes.map neg) fun o b => c.attributes.any fun a => neg a = b && !c.incB o a).incB o))
          (tab c.objects (c.attributes.map neg)
            fun o b => c.attributes.any fun a => neg a = b && !c.incB o a).objects =
        labels (fun o => c.attributes.map (c.incB o)) c.objects := by
      refine labels_congr fun o ho o' ho' => ?_
      change (c.attributes.map neg).map _ = (c.attributes.map neg).map _ ↔ _
      rw [List.map_map, List.map_map, List.map_inj_left, List.map_inj_left]
      refine forall₂_congr fun a ha' => ?_
      rw [Function.comp_apply, Function.comp_apply, e o ho a ha', e o' ho' a ha', Bool.not_inj_iff]
    rw [h1]
    congr 1
    refine tab_congr fun o ho b hb => ?_
    obtain ⟨a, ha', rfl⟩ := List.mem_map.1 hb
    rw [e o (labels_mem ho) a ha', ← hval o ho a ha']
    exact (compl_val (c := tab (labels (fun o => c.attributes.map (c.incB o)) c.objects) c.attributes c.incB)
      hneg ha').symm

/-- Clarifying before taking a subcontext and clarifying gives the same rows in the same order. -/
theorem C172_clarify_subcontext {c : Ctx α β} (h : c.WFw) {A : List β} (hA : ∀ a ∈ A, a ∈ c.attributes)
    (hn : A.Nodup) :
    ∃ d e, (do let x ← c.clarifyObjects; let y ← x.extractSubcontext A; y.clarifyObjects) = .ok d ∧
      (do let y ← c.extractSubcontext A; y.clarifyObjects) = .ok e ∧
      d.nd = e.nd ∧ d.attributes = e.attributes ∧ d.objects.length = e.objects.length := by
  have hl := labels_nodup (fun o => c.attributes.map (c.incB o)) c.objects
  have hw := tab_wf c.incB hl h.anodup
  have hs := tab_wf c.incB h.onodup hn
  have hval : ∀ o ∈ labels (fun o => c.attributes.map (c.incB o)) c.objects, ∀ a ∈ A,
      (tab (labels (fun o => c.attributes.map (c.incB o)) c.objects) c.attributes c.incB).incB o a = c.incB o a :=
    fun o ho a ha => tab_incB _ hl h.anodup ho (hA a ha)
  have h1 : (do let x ← c.clarifyObjects; let y ← x.extractSubcontext A; y.clarifyObjects) =
      .ok (tab (labels (fun o => A.map (c.incB o)) (labels (fun o => c.attributes.map (c.incB o)) c.objects)) A c.incB) := by
    rw [h.nf_clarify, py_ok_bind, hw.toWFw.nf_sub hA hn, py_ok_bind]
    have e := tab_congr (atts := A) (objs := labels (fun o => c.attributes.map (c.incB o)) c.objects) hval
    have hs' := tab_wf c.incB hl hn
    change (tab (labels _ c.objects) A (tab (labels _ c.objects) c.attributes c.incB).incB).clarifyObjects = _
    rw [e, hs'.toWFw.nf_clarify]
    have hv : ∀ o ∈ labels (fun o => c.attributes.map (c.incB o)) c.objects, ∀ a ∈ A,
        (tab (labels (fun o => c.attributes.map (c.incB o)) c.objects) A c.incB).incB o a = c.incB o a :=
      fun o ho a ha => tab_incB _ hl hn ho ha
    have h2 : labels (fun o => (tab (labels (fun o => c.attributes.map (c.incB o)) c.objects) A c.incB).attributes.map
        ((tab (labels (fun o => c.attributes.map (c.incB o)) c.objects) A c.incB).incB o))
        (tab (labels (fun o => c.attributes.map (c.incB o)) c.objects) A c.incB).objects =
        labels (fun o => A.map (c.incB o)) (labels (fun o => c.attributes.map (c.incB o)) c.objects) := by
      refine labels_congr fun o ho o' ho' => ?_
      change A.map _ = A.map _ ↔ _
      rw [List.map_congr_left (hv o ho), List.map_congr_left (hv o' ho')]
    rw [h2]
    congr 1
    exact tab_congr fun o ho a ha => hv o (labels_mem ho) a ha
  have h3 : (do let y ← c.extractSubcontext A; y.clarifyObjects) =
      .ok (tab (labels (fun o => A.map (c.incB o)) c.objects) A c.incB) := by
    rw [h.nf_sub hA hn, py_ok_bind, hs.toWFw.nf_clarify]
    have hv : ∀ o ∈ c.objects, ∀ a ∈ A, (tab c.objects A c.incB).incB o a = c.incB o a :=
      fun o ho a ha => tab_incB _ h.onodup hn ho ha
    have h2 : labels (fun o => (tab c.objects A c.incB).attributes.map ((tab c.objects A c.incB).incB o))
        (tab c.objects A c.incB).objects = labels (fun o => A.map (c.incB o)) c.objects := by
      refine labels_congr fun o ho o' ho' => ?_
      change A.map _ = A.map _ ↔ _
      rw [List.map_congr_left (hv o ho), List.map_congr_left (hv o' ho')]
    rw [h2]
    congr 1
    exact tab_congr fun o ho a ha => hv o (labels_mem ho) a ha
  have h4 := labels_labels_keys (l := c.objects) (f := fun o => c.attributes.map (c.incB o))
    (g := fun o => A.map (c.incB o)) fun o _ o' _ he =>
      List.map_congr_left fun a ha => map_inj_of he a (hA a ha)
  refine ⟨_, _, h1, h3, ?_, rfl, ?_⟩
  · unfold tab mk'
    simp only
    rw [h4]
  · have := congrArg List.length h4
    rw [List.length_map, List.length_map] at this
    exact this

/-- The names of the kept objects depend on whether one clarifies before taking the subcontext. -/
theorem C172_clarify_subcontext_violated :
    ∃ (c : Ctx (Fin 3) (Fin 2)) (d e : Ctx (Fin 3) (Fin 2)), c.WF ∧
      (do let x ← c.clarifyObjects; let y ← x.extractSubcontext [0]; y.clarifyObjects) = .ok d ∧
      (do let y ← c.extractSubcontext [0]; y.clarifyObjects) = .ok e ∧ d.objects = [1] ∧ e.objects = [2] := by
  refine ⟨⟨[0, 1, 2], [0, 1], ⟨some 2, [[true, true], [true, false], [true, true]]⟩⟩,
    ⟨[1], [0], ⟨some 1, [[true]]⟩⟩, ⟨[2], [0], ⟨some 1, [[true]]⟩⟩, ⟨by constructor <;> decide +kernel, by decide +kernel⟩,
    ?_, ?_, rfl, rfl⟩ <;> decide +kernel

/-! ### Products -/

/-- The product is associative, its transpose is the product of the transposes in the other order, and taking some of the
attributes of the product is taking them of the right factor. -/
theorem C172_product {l : Ctx α β} {r : Ctx β γ} {s : Ctx γ δ} (hl : l.WFw) (hr : r.WFw) (hs : s.WFw)
    (hlr : l.attributes = r.objects) (hrs : r.attributes = s.objects)
    (h0 : l.objects ≠ []) (h1 : l.attributes ≠ []) (h2 : r.attributes ≠ []) :
    (∃ p, (do let x ← l.mul r; x.mul s) = .ok p ∧ (do let x ← r.mul s; l.mul x) = .ok p) ∧
    (∃ p, (do let x ← l.mul r; x.transpose) = .ok p ∧
      (do let x ← r.transpose; let y ← l.transpose; x.mul y) = .ok p) ∧
    ∀ A : List γ, (∀ a ∈ A, a ∈ r.attributes) → A.Nodup →
      ∃ p, (do let x ← l.mul r; x.extractSubcontext A) = .ok p ∧
        (do let x ← r.extractSubcontext A; l.mul x) = .ok p := by
  have hw := tab_wf (fun o a => l.attributes.any fun f => l.incB o f && r.incB f a) hl.onodup hr.anodup
  have hv : ∀ o ∈ l.objects, ∀ a ∈ r.attributes, (tab l.objects r.attributes
      fun o a => l.attributes.any fun f => l.incB o f && r.incB f a).incB o a =
      l.attributes.any fun f => l.incB o f && r.incB f a := fun o ho a ha => tab_incB _ hl.onodup hr.anodup ho ha
  have hr0 : r.objects ≠ [] := hlr ▸ h1
  refine ⟨?_, ?_, fun A hA hn => ?_⟩
  · have hw' := tab_wf (fun o a => r.attributes.any fun f => r.incB o f && s.incB f a) hr.onodup hs.anodup
    refine ⟨_, by rw [hl.nf_mul hr hlr h0 h1, py_ok_bind, hw.toWFw.nf_mul hs hrs h0 h2], ?_⟩
    rw [hr.nf_mul hs hrs hr0 h2, py_ok_bind, hl.nf_mul hw'.toWFw hlr h0 h1]
    congr 1
    refine tab_congr fun o ho a ha => ?_
    rw [Bool.eq_iff_iff, List.any_eq_true, List.any_eq_true]
    constructor
    · rintro ⟨f, hf, hx⟩
      rw [Bool.and_eq_true, tab_incB _ hr.onodup hs.anodup (hlr ▸ hf) ha, List.any_eq_true] at hx
      obtain ⟨hx, k, hk, hy⟩ := hx
      rw [Bool.and_eq_true] at hy
      refine ⟨k, hk, ?_⟩
      rw [Bool.and_eq_true, hv o ho k hk, List.any_eq_true]
      exact ⟨⟨f, hf, by rw [hx, hy.1]; rfl⟩, hy.2⟩
    · rintro ⟨k, hk, hx⟩
      rw [Bool.and_eq_true, hv o ho k hk, List.any_eq_true] at hx
      obtain ⟨⟨f, hf, hy⟩, hx⟩ := hx
      rw [Bool.and_eq_true] at hy
      refine ⟨f, hf, ?_⟩
      rw [Bool.and_eq_true, tab_incB _ hr.onodup hs.anodup (hlr ▸ hf) ha, List.any_eq_true]
      exact ⟨hy.1, k, hk, by rw [hx, hy.2]; rfl⟩
  · have ht := tab_wf (fun a o => r.incB o a) hr.anodup hr.onodup
    have ht' := tab_wf (fun a o => l.incB o a) hl.anodup hl.onodup
    refine ⟨_, by rw [hl.nf_mul hr hlr h0 h1, py_ok_bind, hw.toWFw.nf_transpose], ?_⟩
    rw [hr.nf_transpose, py_ok_bind, hl.nf_transpose, py_ok_bind, ht.toWFw.nf_mul ht'.toWFw hlr.symm h2 hr0]
    congr 1
    refine tab_congr fun a ha o ho => ?_
    rw [hv o ho a ha]
    change (r.objects.any _) = _
    rw [← hlr, Bool.eq_iff_iff, List.any_eq_true, List.any_eq_true]
    refine exists_congr fun f => and_congr_right fun hf => ?_
    rw [tab_incB _ hr.anodup hl.anodup ha hf, tab_incB _ hl.anodup hl.onodup hf ho, Bool.and_comm]
  · have hw' := tab_wf r.incB hr.onodup hn
    refine ⟨_, by rw [hl.nf_mul hr hlr h0 h1, py_ok_bind, hw.toWFw.nf_sub hA hn], ?_⟩
    rw [hr.nf_sub hA hn, py_ok_bind, hl.nf_mul hw'.toWFw hlr h0 h1]
    congr 1
    refine tab_congr fun o ho a ha => ?_
    rw [hv o ho a (hA a ha), Bool.eq_iff_iff, List.any_eq_true, List.any_eq_true]
    refine exists_congr fun f => and_congr_right fun hf => ?_
    rw [tab_incB _ hr.onodup hn (hlr ▸ hf) ha]

end Ctx

/-! ### A case -/

namespace ContextLawsDemo

open Ctx

/-- Three objects, two of them alike, one of them empty. -/
def c : Ctx (Fin 4) (List Char) :=
  ⟨[0, 1, 2, 3], ["a".toList, "b".toList, "c".toList],
    ⟨some 3, [[true, true, false], [true, false, true], [false, false, false], [true, true, false]]⟩⟩

example : c.WF ∧ Function.Injective (fun s : List Char => "not ".toList ++ s) ∧
    (do let d ← c.extractSubcontext ["c".toList, "a".toList]; d.extractSubcontext ["a".toList]) =
      .ok ⟨[0, 1, 2, 3], ["a".toList], ⟨some 1, [[true], [true], [false], [true]]⟩⟩ ∧
    (do let d ← c.extractFiltered ["a".toList] .and; d.extractFiltered ["b".toList, "c".toList] .or) =
      .ok ⟨[0, 1, 3], c.attributes, ⟨some 3, [[true, true, false], [true, false, true], [true, true, false]]⟩⟩ ∧
    c.clarifyObjects =
      .ok ⟨[3, 1, 2], c.attributes, ⟨some 3, [[true, true, false], [true, false, true], [false, false, false]]⟩⟩ ∧
    c.removeEmptyObjects =
      (⟨[0, 1, 3], c.attributes, ⟨some 3, [[true, true, false], [true, false, true], [true, true, false]]⟩⟩, none) := by
  refine ⟨⟨by constructor <;> decide +kernel, by decide +kernel⟩, fun _ _ h => List.append_cancel_left h, ?_, ?_, ?_, ?_⟩ <;>
    decide +kernel

/-- Factors for the product. -/
def l : Ctx (Fin 2) (Fin 2) := ⟨[0, 1], [1, 0], ⟨some 2, [[true, false], [true, true]]⟩⟩
def r : Ctx (Fin 2) (Fin 3) := ⟨[1, 0], [0, 2], ⟨some 2, [[true, false], [false, true]]⟩⟩
def s : Ctx (Fin 3) (Fin 1) := ⟨[0, 2], [0], ⟨some 1, [[false], [true]]⟩⟩

example : l.WFw ∧ r.WFw ∧ s.WFw ∧ l.attributes = r.objects ∧ r.attributes = s.objects ∧
    l.mul r = .ok ⟨[0, 1], [0, 2], ⟨some 2, [[true, false], [true, true]]⟩⟩ ∧
    (do let x ← l.mul r; x.mul s) = .ok ⟨[0, 1], [0], ⟨some 1, [[false], [true]]⟩⟩ := by
  refine ⟨by constructor <;> decide +kernel, by constructor <;> decide +kernel, by constructor <;> decide +kernel, rfl, rfl,
    ?_, ?_⟩ <;> decide +kernel

end ContextLawsDemo
