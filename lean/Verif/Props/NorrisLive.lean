/-
Property C120: the iterator of concepts while the context is changed.
-/
import Verif.Lemmas.NorrisLive
import Verif.Props.Lattice

set_option linter.unusedSectionVars false

open Spec

namespace Ctx

variable {α β : Type} [DecidableEq α] [DecidableEq β]

/-- The first `k` objects of a context. -/
def firstObjects (c : Ctx α β) (k : ℕ) : Ctx α β := ⟨c.objects.take k, c.attributes, ⟨c.nd.cols, c.nd.rows.take k⟩⟩

theorem WFw.firstObjects {c : Ctx α β} (h : c.WFw) (k : ℕ) : (c.firstObjects k).WFw where
  onodup := h.onodup.sublist (List.take_sublist _ _)
  anodup := h.anodup
  nrows := by simp [Ctx.firstObjects, h.nrows]
  width r hr := h.width r (List.mem_of_mem_take hr)
  shape hne := h.shape (by rintro h0; simp [Ctx.firstObjects, h0] at hne)

theorem firstObjects_inc {c : Ctx α β} (h : c.WFw) {k : ℕ} {o : α} (ho : o ∈ c.objects.take k) (a : β) :
    (c.firstObjects k).Inc o a ↔ c.Inc o a := by
  constructor
  · rintro ⟨i, j, r, h1, h2, h3, h4⟩
    simp only [firstObjects, List.getElem?_take] at h1 h2 h3
    split at h1
    · next hi => rw [if_pos hi] at h3; exact ⟨i, j, r, h1, h2, h3, h4⟩
    · cases h1
  · rintro ⟨i, j, r, h1, h2, h3, h4⟩
    obtain ⟨i', hi'⟩ := List.mem_iff_getElem?.1 ho
    have hi : i < k := by
      rw [List.getElem?_take] at hi'
      split at hi'
      · next hlt => rw [nodup_idx h.onodup h1 hi']; exact hlt
      · cases hi'
    exact ⟨i, j, r, by simpa [firstObjects, List.getElem?_take, hi] using h1, h2,
      by simpa [firstObjects, List.getElem?_take, hi] using h3, h4⟩

theorem firstObjects_concept {c : Ctx α β} (h : c.WFw) (k : ℕ) (A : Finset α) (B : Finset β) :
    IsConcept (c.firstObjects k).G (c.firstObjects k).M (c.firstObjects k).Inc A B ↔
      IsConcept (c.objects.take k).toFinset c.M c.Inc A B := by
  have hI : ∀ g ∈ (c.objects.take k).toFinset, ∀ m, (c.firstObjects k).Inc g m ↔ c.Inc g m := by
    intro g hg m; exact firstObjects_inc h (List.mem_toFinset.1 hg) m
  show (_ ∧ ∀ g, g ∈ A ↔ g ∈ (c.objects.take k).toFinset ∧ _) ↔ (_ ∧ ∀ g, g ∈ A ↔ g ∈ (c.objects.take k).toFinset ∧ _)
  constructor
  · rintro ⟨h1, h2⟩
    refine ⟨fun m => (h1 m).trans (and_congr_right fun _ => ?_), fun g => (h2 g).trans (and_congr_right fun hg => ?_)⟩
    · exact forall₂_congr fun g hg => hI g ((h2 g).1 hg).1 m
    · exact forall₂_congr fun m _ => hI g hg m
  · rintro ⟨h1, h2⟩
    refine ⟨fun m => (h1 m).trans (and_congr_right fun _ => ?_), fun g => (h2 g).trans (and_congr_right fun hg => ?_)⟩
    · exact forall₂_congr fun g hg => (hI g ((h2 g).1 hg).1 m).symm
    · exact forall₂_congr fun m _ => (hI g hg m).symm

theorem examples_firstObjects {c : Ctx α β} {exs : List (Finset β)} (he : c.examples = .ok exs) (k : ℕ) :
    (c.firstObjects k).examples = .ok (exs.take k) := by
  have hl : ∀ (f g : ℕ → Py (Finset β)) (l : List ℕ), (∀ i ∈ l, f i = g i) → l.mapM f = l.mapM g := by
    intro f g l hfg
    induction l with
    | nil => rfl
    | cons x l ih =>
      rw [List.mapM_cons, List.mapM_cons, hfg x (by simp), ih fun i hi => hfg i (by simp [hi])]
  have htk : ∀ (f : ℕ → Py (Finset β)) (l : List ℕ) (ys : List (Finset β)) (n : ℕ), l.mapM f = .ok ys →
      (l.take n).mapM f = .ok (ys.take n) := by
    intro f l
    induction l with
    | nil => intro ys n h; cases h; simp [pure, Except.pure]
    | cons x l ih =>
      intro ys n h
      rw [List.mapM_cons] at h
      obtain ⟨y, h1, h⟩ := bind_ok h
      obtain ⟨zs, h2, h⟩ := bind_ok h
      cases h
      cases n with
      | zero => simp [pure, Except.pure]
      | succ n => simp only [List.take_succ_cons, List.mapM_cons, h1, ih zs n h2]; rfl
  unfold examples at he ⊢
  have hr : List.range (c.firstObjects k).objects.length = (List.range c.objects.length).take k := by
    simp [firstObjects, List.take_range]
  rw [hr, ← htk _ _ _ k he]
  apply hl
  intro i hi
  have hik : i < k := by
    rw [List.take_range, List.mem_range] at hi; omega
  have hg : pyGet (c.nd.rows.take k) i = pyGet c.nd.rows i := by simp [pyGet, hik]
  simp [intentByIndex, firstObjects, Nd.row, hg]

/-- `cxts t` is the context after `t` values and the reaction of the consumer. If the first `k` names of the context in
which the iteration began stay where they are, `k` being the number of rows at the second `next`, the values are exactly
those for the first `k` objects of the context in which the iteration began, whatever happens to the table, to the
attributes and to later objects; but when there are more rows at the second `next` than at the first, the iteration ends
with IndexError after the last value. -/
theorem C120_iterator {cxts : ℕ → Ctx α β} (h : (cxts 0).WFw)
    (hn : ∀ t, 1 ≤ t → (cxts 0).objects.take (cxts 1).len <+: (cxts t).objects) :
    ∃ tr cs, iterNorrisLive cxts =
        (tr, if (cxts 1).len ≤ (cxts 0).objects.length then .ok cs else .error .indexError) ∧
      cs.Nodup ∧ (∀ x, x ∈ cs ↔ IsConcept ((cxts 0).objects.take (cxts 1).len).toFinset (cxts 0).M (cxts 0).Inc
        x.extent x.intent) ∧
      iterNorris ((cxts 0).firstObjects (cxts 1).len) = .ok (tr, cs) ∧
      tr.length = cs.length ∧
      ∀ (n : ℕ) L, tr[n]? = some L → L.map Concept.intent = (cs.map Concept.intent).take (n + 1) := by
  set k := (cxts 1).len with hk
  have hw' := h.firstObjects k
  obtain ⟨exs, he, hlen, -⟩ := norris_rows h
  have he' := examples_firstObjects he k
  have hit : iterNorris ((cxts 0).firstObjects k) = .ok
      ([⟨∅, (cxts 0).M⟩] :: (norrisLoop [] (((cxts 0).objects.zip exs).take k) [⟨∅, (cxts 0).M⟩]).1,
        (norrisLoop [] (((cxts 0).objects.zip exs).take k) [⟨∅, (cxts 0).M⟩]).2) := by
    unfold iterNorris
    have hz : ((cxts 0).objects.zip exs).take k = ((cxts 0).objects.take k).zip (exs.take k) := List.take_zipWith
    rw [he', hz]
    rfl
  obtain ⟨cs, hc1, hc2, hc3⟩ := C34_norris hw'
  obtain ⟨tr, cs', ht1, ht2, ht3, -⟩ := C35_iterator hw'
  have hcs : cs = cs' := by
    unfold norris at hc1; rw [ht1] at hc1; exact (Except.ok.inj hc1).symm
  subst hcs
  have heq := ht1
  rw [hit] at heq
  obtain ⟨htr, hcs⟩ := Prod.mk.inj (Except.ok.inj heq)
  refine ⟨tr, cs, ?_, hc2, fun x => (hc3 x).trans (firstObjects_concept h k _ _), ht1, ht2,
    fun n L hL => (ht3 n L hL).2.1⟩
  set rows := ((cxts 0).objects.zip exs).take k with hrows
  have hrl : rows.length = min k (cxts 0).objects.length := by simp [hrows, hlen]
  have hr : ∀ (j : ℕ) p, ([] ++ rows)[j]? = some p →
      exs[j]? = some p.2 ∧ ∀ t, 1 ≤ t → ((fun t => (cxts t).objects) t)[j]? = some p.1 := by
    intro j p hj
    rw [List.nil_append, hrows, List.getElem?_take] at hj
    split at hj
    · next hjk =>
      rw [List.getElem?_zip_eq_some] at hj
      refine ⟨hj.2, fun t ht => ?_⟩
      obtain ⟨u, hu⟩ := hn t ht
      show (cxts t).objects[j]? = some p.1
      rw [← hu]
      have : ((cxts 0).objects.take k)[j]? = some p.1 := by rw [List.getElem?_take, if_pos hjk]; exact hj.1
      rw [List.getElem?_append_left (lt_of_getElem? this)]
      exact this
    · cases hj
  have hrun := fun tail => norrisLiveLoop_eq tail [] rows hr 1 (le_refl _) [(⟨∅, (cxts 0).M⟩ : Concept α β)]
  simp only [List.length_nil, ← List.range_eq_range'] at hrun
  unfold iterNorrisLive
  rw [he]
  simp only [← hk]
  by_cases hkn : k ≤ (cxts 0).objects.length
  · rw [if_pos hkn]
    have hrange : List.range k = List.range rows.length ++ [] := by rw [hrl, min_eq_left hkn, List.append_nil]
    rw [hrange, show (cxts 0).attributes.toFinset = (cxts 0).M from rfl, hrun]
    simp [norrisLiveLoop, ← htr, ← hcs]
  · rw [if_neg hkn]
    have hrange : List.range k = List.range rows.length ++
        (cxts 0).objects.length :: List.range' ((cxts 0).objects.length + 1) (k - (cxts 0).objects.length - 1) := by
      rw [hrl, min_eq_right (by omega), ← List.range'_succ, List.range_eq_range', List.range_eq_range']
      have := List.range'_append_1 (s := 0) (m := (cxts 0).objects.length) (n := k - (cxts 0).objects.length - 1 + 1)
      rw [Nat.zero_add] at this
      rw [this]
      congr 1; omega
    rw [hrange, show (cxts 0).attributes.toFinset = (cxts 0).M from rfl, hrun,
      norrisLiveLoop_beyond (by rw [List.getElem?_eq_none]; omega) _ _ (norrisLoop_ne_nil _ _ (by simp))]
    simp [← htr]

/-! ### Histories -/

/-- The operation leaves the names of the objects alone. -/
def KeepsObjects : TOp α β → Prop
  | .deleteObject _ | .renameObject _ _ => False
  | _ => True

/-- The operation adds an object. -/
def AddsObject : TOp α β → Bool
  | .addObject _ _ | .addObjectWithIntent _ _ => true
  | _ => false

theorem objs_apply {op : TOp α β} (hk : KeepsObjects op) (t : Table α β) :
    ∃ u, (t.apply op).objs = t.objs ++ u ∧ (u ≠ [] ↔ AddsObject op = true) := by
  cases op with
  | addObject row n => exact ⟨[n], by simp [Table.apply, AddsObject]⟩
  | addObjectWithIntent B n => exact ⟨[n], by simp [Table.apply, AddsObject]⟩
  | deleteObject n => exact hk.elim
  | renameObject old new => exact hk.elim
  | addAttribute => exact ⟨[], by simp [Table.apply, AddsObject]⟩
  | addAttributeWithExtent => exact ⟨[], by simp [Table.apply, AddsObject]⟩
  | setObjectIntent => exact ⟨[], by simp [Table.apply, AddsObject]⟩
  | setAttributeExtent => exact ⟨[], by simp [Table.apply, AddsObject]⟩
  | deleteAttribute => exact ⟨[], by simp [Table.apply, AddsObject]⟩
  | renameAttribute => exact ⟨[], by simp [Table.apply, AddsObject]⟩

theorem objs_foldl (ops : List (TOp α β)) (hk : ∀ op ∈ ops, KeepsObjects op) (t : Table α β) :
    ∃ u, (ops.foldl Table.apply t).objs = t.objs ++ u ∧ (u ≠ [] ↔ ∃ op ∈ ops, AddsObject op = true) := by
  induction ops generalizing t with
  | nil => exact ⟨[], by simp⟩
  | cons op ops ih =>
    obtain ⟨u, h1, h2⟩ := objs_apply (hk op (by simp)) t
    obtain ⟨v, h3, h4⟩ := ih (fun o ho => hk o (by simp [ho])) (t.apply op)
    refine ⟨u ++ v, by simp [h3, h1], ?_⟩
    rw [List.exists_mem_cons_iff, ← h2, ← h4]
    simp only [ne_eq, List.append_eq_nil_iff]
    tauto

variable [PyName α] [PyName β]

/-- After each value the consumer calls mutators that leave the names of the objects alone (`ops t` after the value
number `t + 1`). If the calls after the first value add no object, the values are the concepts of the context in which
the iteration began; if they add one, these values come, too, but IndexError follows. -/
theorem C120_histories {cxts : ℕ → Ctx α β} {ops : ℕ → List (TOp α β)} (h : (cxts 0).WFw)
    (hkeep : ∀ t, ∀ op ∈ ops t, KeepsObjects op)
    (hrun : ∀ t T, Stores (cxts t) T → FreshAll T (ops t) ∧ (cxts t).execAll (ops t) = (cxts (t + 1), none)) :
    ∃ tr cs, iterNorrisLive cxts =
        (tr, if ∃ op ∈ ops 0, AddsObject op = true then .error .indexError else .ok cs) ∧
      iterNorris (cxts 0) = .ok (tr, cs) ∧ cs.Nodup ∧
      ∀ x, x ∈ cs ↔ IsConcept (cxts 0).G (cxts 0).M (cxts 0).Inc x.extent x.intent := by
  have hst : ∀ t, ∃ T, Stores (cxts t) T := by
    intro t
    induction t with
    | zero => exact ⟨_, h.stores⟩
    | succ t ih =>
      obtain ⟨T, hT⟩ := ih
      obtain ⟨h1, h2⟩ := hrun t T hT
      exact ⟨_, hT.execAll h1 h2⟩
  have hstep : ∀ t, ∃ u, (cxts (t + 1)).objects = (cxts t).objects ++ u ∧
      (u ≠ [] ↔ ∃ op ∈ ops t, AddsObject op = true) := by
    intro t
    obtain ⟨T, hT⟩ := hst t
    obtain ⟨h1, h2⟩ := hrun t T hT
    obtain ⟨u, hu, hu'⟩ := objs_foldl (ops t) (hkeep t) T
    exact ⟨u, by rw [(hT.execAll h1 h2).objs, hu, hT.objs], hu'⟩
  have hpre : ∀ t, (cxts 0).objects <+: (cxts t).objects := by
    intro t
    induction t with
    | zero => exact List.prefix_rfl
    | succ t ih =>
      obtain ⟨u, hu, -⟩ := hstep t
      exact ih.trans ⟨u, hu.symm⟩
  obtain ⟨u, hu, hu'⟩ := hstep 0
  have hlen : (cxts 1).len = (cxts 0).objects.length + u.length := by
    obtain ⟨T, hT⟩ := hst 1
    unfold Ctx.len
    rw [hT.wf.nrows, hu, List.length_append]
  have htake : (cxts 0).objects.take (cxts 1).len = (cxts 0).objects := List.take_of_length_le (by omega)
  have hfirst : (cxts 0).firstObjects (cxts 1).len = cxts 0 := by
    unfold firstObjects
    rw [htake, List.take_of_length_le (by rw [h.nrows]; omega)]
  obtain ⟨tr, cs, c1, c2, c3, c4, -⟩ := C120_iterator h (fun t _ => by rw [htake]; exact hpre t)
  rw [hfirst] at c4
  rw [htake] at c3
  refine ⟨tr, cs, ?_, c4, c2, c3⟩
  rw [c1]
  by_cases hx : ∃ op ∈ ops 0, AddsObject op = true
  · have := List.length_pos_of_ne_nil (hu'.2 hx)
    rw [if_pos hx, if_neg (by omega)]
  · have : u = [] := by by_contra h0; exact hx (hu'.1 h0)
    rw [if_neg hx, if_pos (by rw [hlen, this]; simp)]

/-! ### Examples -/

/-- Three objects, each pair of them shares exactly one attribute. -/
def liveTriangle : Ctx (List Char) (List Char) :=
  ⟨["a".toList, "b".toList, "c".toList], ["1".toList, "2".toList, "3".toList],
    ⟨some 3, [[true, true, false], [false, true, true], [true, false, true]]⟩⟩

theorem liveTriangle_wf : liveTriangle.WFw := by constructor <;> decide +kernel

/-- The consumer runs `ops` after the value number `t`, and nothing else. -/
def reactAt (c : Ctx (List Char) (List Char)) (t : ℕ) (ops : List (TOp (List Char) (List Char))) :
    ℕ → Ctx (List Char) (List Char) := fun s => if s < t then c else (c.execAll ops).1

/-- A change of the table, a new attribute and a new object after the second value: the names stay. -/
def liveOps : List (TOp (List Char) (List Char)) :=
  [.setObjectIntent ["3".toList] "b".toList, .addAttributeWithExtent {"b".toList} "4".toList,
    .deleteAttribute "1".toList, .addObjectWithIntent {"2".toList} "d".toList]

/-- The hypotheses of `C120_histories` hold for a consumer that reacts to the second value. -/
example : liveTriangle.WFw ∧ (∀ t, ∀ op ∈ (if t = 1 then liveOps else []), KeepsObjects op) ∧
    (∀ t T, Stores (reactAt liveTriangle 2 liveOps t) T → FreshAll T (if t = 1 then liveOps else []) ∧
      (reactAt liveTriangle 2 liveOps t).execAll (if t = 1 then liveOps else []) =
        (reactAt liveTriangle 2 liveOps (t + 1), none)) ∧
    (iterNorrisLive (reactAt liveTriangle 2 liveOps)).1.length = 8 ∧
    (iterNorris (reactAt liveTriangle 2 liveOps 2)).toOption.map (·.1.length) = some 5 := by
  refine ⟨liveTriangle_wf, ?_, ?_, by decide +kernel, by decide +kernel⟩
  · intro t op hop
    split at hop
    · simp only [liveOps, List.mem_cons, List.not_mem_nil, or_false] at hop
      rcases hop with rfl | rfl | rfl | rfl <;> trivial
    · simp at hop
  · intro t T hT
    rcases lt_trichotomy t 1 with ht | rfl | ht
    · rw [if_neg (by omega)]
      refine ⟨trivial, ?_⟩
      simp only [reactAt, if_pos (show t < 2 by omega), if_pos (show t + 1 < 2 by omega)]; rfl
    · rw [if_pos rfl]
      refine ⟨?_, by decide +kernel⟩
      have ho : T.objs = ["a".toList, "b".toList, "c".toList] := hT.objs.symm
      have ha : T.atts = ["1".toList, "2".toList, "3".toList] := hT.atts.symm
      refine ⟨trivial, ?_, trivial, ?_, trivial⟩
      · simp only [TOp.Fresh, Table.apply, ha]; decide +kernel
      · simp only [TOp.Fresh, Table.apply, ho]; decide +kernel
    · rw [if_neg (by omega)]
      refine ⟨trivial, ?_⟩
      simp only [reactAt, if_neg (show ¬ t < 2 by omega), if_neg (show ¬ t + 1 < 2 by omega)]; rfl

/-- A consumer that adds an object after the first value obtains all concepts of the old context and IndexError. -/
theorem C120_early_violated :
    ∃ tr cs, iterNorris liveTriangle = .ok (tr, cs) ∧
      iterNorrisLive (reactAt liveTriangle 1 [.addObjectWithIntent ∅ "d".toList]) = (tr, .error .indexError) := by
  obtain ⟨tr, cs, h1, -, -, h4, -⟩ := C120_iterator (cxts := reactAt liveTriangle 1 [.addObjectWithIntent ∅ "d".toList])
    liveTriangle_wf (by
      intro t ht
      rw [show reactAt liveTriangle 1 [.addObjectWithIntent ∅ "d".toList] t =
        reactAt liveTriangle 1 [.addObjectWithIntent ∅ "d".toList] 1 by
        simp only [reactAt, if_neg (show ¬ t < 1 by omega), if_neg (show ¬ 1 < 1 by omega)]]
      decide +kernel)
  refine ⟨tr, cs, ?_, ?_⟩
  · rw [← h4]; rfl
  · rw [h1, if_neg (by decide +kernel)]

/-- A consumer that renames an object after the second value: three of the eight concepts are never found. -/
theorem C120_rename_violated :
    ∃ cs, (iterNorrisLive (reactAt liveTriangle 2 [.renameObject "a".toList "x".toList])).2 = .ok cs ∧ cs.length = 5 ∧
      (∀ x ∈ cs, x.intent ≠ {"1".toList} ∧ x.intent ≠ {"2".toList} ∧ x.intent ≠ ∅) ∧
      IsConcept liveTriangle.G liveTriangle.M liveTriangle.Inc {"a".toList, "b".toList} {"2".toList} := by
  refine ⟨_, rfl, by decide +kernel, by decide +kernel, ?_⟩
  have h := C34_norris liveTriangle_wf
  obtain ⟨cs, h1, -, h3⟩ := h
  rw [← h3 ⟨_, _⟩]
  have h4 : ∃ l, norris liveTriangle = .ok l ∧ (⟨{"a".toList, "b".toList}, {"2".toList}⟩ : Concept _ _) ∈ l :=
    ⟨_, rfl, by decide +kernel⟩
  obtain ⟨l, h5, h6⟩ := h4
  rw [h1] at h5
  cases h5
  exact h6

/-- A consumer that deletes an object after the second value: the names read later belong to other rows, and in the end
there are none left. -/
theorem C120_delete_violated :
    (iterNorrisLive (reactAt liveTriangle 2 [.deleteObject "a".toList])).2 = .error .indexError ∧
    (∃ cs, (iterNorrisLive (reactAt liveTriangle 1 [.deleteObject "a".toList])).2 = .ok cs ∧
      ⟨{"b".toList}, {"1".toList, "2".toList}⟩ ∈ cs) ∧
    ¬ liveTriangle.Inc "b".toList "1".toList := by
  refine ⟨by decide +kernel, ⟨_, rfl, by decide +kernel⟩, ?_⟩
  rw [← liveTriangle_wf.incB]; decide +kernel

end Ctx
