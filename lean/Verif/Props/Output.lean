/-
Property C171: what `PartialContext.complete` and `compute_implication_cover` print.
-/
import Verif.Model.Output
import Verif.Props.PartialText
import Verif.Props.CoverExact
import Verif.Props.NorrisLive

set_option linter.unusedSectionVars false

open Spec

variable {α β : Type} [DecidableEq α] [DecidableEq β]

/-! ### complete -/

namespace PCtx

variable [PyName α] [PyName β]

theorem completeOneOut_snd (strO : α → List Char) (ord : SetOrder β) (L : List (Imp β)) (p : PCtx α β) (o : α) :
    (p.completeOneOut strO ord L o).2 = p.completeOne ord L o := by
  unfold completeOneOut completeOne
  cases p.x.objectIntent o with
  | error e => rfl
  | ok xi =>
    cases p.q.objectIntent o with
    | error e => rfl
    | ok qi =>
      dsimp only
      split
      · rfl
      generalize p.x.setObjectIntent (ord.enum (simpleClosure xi L)) o = mx
      obtain ⟨x', _ | e⟩ := mx
      · dsimp only
        generalize p.q.setObjectIntent _ o = mq
        obtain ⟨q', _ | e⟩ := mq <;> rfl
      · rfl

theorem completeLoopOut_snd (strO : α → List Char) (ord : SetOrder β) (L : List (Imp β)) (os : List α) :
    ∀ p : PCtx α β, (p.completeLoopOut strO ord L os).2 = p.completeLoop ord L os := by
  induction os with
  | nil => intro p; rfl
  | cons o os ih =>
    intro p
    unfold completeLoopOut completeLoop
    rw [← completeOneOut_snd strO]
    generalize p.completeOneOut strO ord L o = m
    obtain ⟨out, p', _ | e⟩ := m
    · exact ih p'
    · rfl

open Classical in
/-- The lines about one object: none, if its row is the same before and after. -/
noncomputable def diffLines (strO : α → List Char) (p p' : PCtx α β) (o : α) : List (List Char) :=
  if p.rowText o = p'.rowText o then []
  else ["Object ".toList ++ strO o, p.rowText o, "completed to ".toList, p'.rowText o]

theorem rowText_of {p p' : PCtx α β} (h : p.WF) (h' : p'.WF) (ha : p'.attributes = p.attributes) {o : α}
    (hx : p'.xI o = p.xI o) (hq : p'.qI o = p.qI o) : p'.rowText o = p.rowText o := by
  rw [← h.intentToStr, ← h'.intentToStr]
  show p'.intentToStr (p'.xI o) (p'.qI o) = p.intentToStr (p.xI o) (p.qI o)
  rw [hx, hq]
  unfold intentToStr
  rw [ha]

theorem rowText_ne {p p' : PCtx α β} (h : p.WF) (h' : p'.WF) (ha : p'.attributes = p.attributes) {o : α} :
    p.rowText o = p'.rowText o ↔ p.xI o = p'.xI o ∧ p.qI o = p'.qI o := by
  refine ⟨fun he => ?_, fun he => (rowText_of h h' ha he.1.symm he.2.symm).symm⟩
  have := (rowText_iff h h' ha o).1 he
  have hM : ∀ a, a ∈ p.attributes ↔ a ∈ p.attributes.toFinset := fun a => List.mem_toFinset.symm
  constructor
  · ext a
    by_cases hm : a ∈ p.attributes
    · rw [show a ∈ p.xI o ↔ p.x.Inc o a from mem_up1 h.xw, show a ∈ p'.xI o ↔ p'.x.Inc o a from mem_up1 h'.xw]
      exact (this a hm).1
    · have k1 : a ∉ p.xI o := fun hx => hm (List.mem_toFinset.1 (h.qI_sub o (h.mem_qI.2 (h.le o a (h.mem_xI.1 hx)))))
      have k2 : a ∉ p'.xI o := fun hx => hm (ha ▸ List.mem_toFinset.1 (h'.qI_sub o (h'.mem_qI.2 (h'.le o a (h'.mem_xI.1 hx)))))
      simp [k1, k2]
  · ext a
    by_cases hm : a ∈ p.attributes
    · rw [show a ∈ p.qI o ↔ p.q.Inc o a from mem_up1 h.qw, show a ∈ p'.qI o ↔ p'.q.Inc o a from mem_up1 h'.qw]
      exact (this a hm).2
    · have k1 : a ∉ p.qI o := fun hx => hm (List.mem_toFinset.1 (h.qI_sub o hx))
      have k2 : a ∉ p'.qI o := fun hx => hm (ha ▸ List.mem_toFinset.1 (h'.qI_sub o hx))
      simp [k1, k2]

theorem WF.completeOneOut {p : PCtx α β} (h : p.WF) (strO : α → List Char) (ord : SetOrder β) (L : List (Imp β)) {o : α}
    (ho : o ∈ p.objects) :
    (p.completeOneOut strO ord L o).1 = diffLines strO p (p.completeOne ord L o).1 o := by
  have hx : p.x.objectIntent o = .ok (p.xI o) := h.xw.objectIntent (by rw [h.xo]; exact ho)
  have hq : p.q.objectIntent o = .ok (p.qI o) := h.qw.objectIntent (by rw [h.qo]; exact ho)
  by_cases hc : simpleClosure (p.xI o) L ⊆ p.qI o
  · obtain ⟨p', e, c⟩ := (h.completeOne ord L ho).1 hc
    have hs := completeOneOut_snd strO ord L p o
    rw [e] at hs
    rw [e]
    unfold PCtx.completeOneOut at hs ⊢
    simp only [hx, hq, hc, not_true_eq_false, if_false] at hs ⊢
    generalize p.x.setObjectIntent (ord.enum (simpleClosure (p.xI o) L)) o = mx at hs ⊢
    obtain ⟨x', _ | e'⟩ := mx
    · dsimp only at hs ⊢
      generalize p.q.setObjectIntent _ o = mq at hs ⊢
      obtain ⟨q', _ | e'⟩ := mq
      · dsimp only
        have k1 := c.xI o (by simp)
        have k2 := c.qI o (by simp)
        rw [← k2, ← k1, show p.intentToStr (p'.xI o) (p'.qI o) = p'.rowText o by
          rw [← c.wf.intentToStr]; unfold PCtx.intentToStr; rw [c.atts]; rfl,
          show p.intentToStr (p.xI o) (p.qI o) = p.rowText o from h.intentToStr o]
        unfold diffLines
        by_cases hr : p.rowText o = p'.rowText o
        · rw [if_pos hr, if_neg]
          rintro (k | k)
          · exact k ((rowText_ne h c.wf c.atts).1 hr).1
          · exact k ((rowText_ne h c.wf c.atts).1 hr).2
        · rw [if_neg hr, if_pos]
          by_contra hk
          rw [not_or, not_not, not_not] at hk
          exact hr ((rowText_ne h c.wf c.atts).2 hk)
      · exact absurd (congrArg Prod.snd hs) (by simp)
    · exact absurd (congrArg Prod.snd hs) (by simp)
  · rw [(h.completeOne ord L ho).2 hc]
    unfold PCtx.completeOneOut
    simp only [hx, hq, hc, not_false_eq_true, if_true]
    simp [diffLines]

theorem WF.completeLoopOut {p : PCtx α β} (h : p.WF) (strO : α → List Char) (ord : SetOrder β) (L : List (Imp β))
    (os : List α) (hnd : os.Nodup) (hos : ∀ o ∈ os, o ∈ p.objects) :
    (p.completeLoopOut strO ord L os).1 = os.flatMap (diffLines strO p (p.completeLoop ord L os).1) := by
  induction os generalizing p with
  | nil => rfl
  | cons o os ih =>
    have h1 := h.completeOneOut strO ord L (hos o (by simp))
    have h2 := completeOneOut_snd strO ord L p o
    have hnd' := List.nodup_cons.1 hnd
    by_cases hc : simpleClosure (p.xI o) L ⊆ p.qI o
    · obtain ⟨p₁, e, c⟩ := (h.completeOne ord L (hos o (by simp))).1 hc
      have hos' : ∀ o' ∈ os, o' ∈ p₁.objects := fun o' ho' => by rw [c.objs]; exact hos o' (by simp [ho'])
      have ih := ih c.wf hnd'.2 hos'
      obtain ⟨p', D, hpre, c', -, hend⟩ := c.wf.completeLoop ord L os hnd'.2 hos'
      have hp' : (p₁.completeLoop ord L os).1 = p' := by
        rcases hend with ⟨-, he⟩ | ⟨-, -, -, -, he⟩ <;> rw [he]
      unfold PCtx.completeLoopOut PCtx.completeLoop
      rw [e] at h1 h2 ⊢
      generalize p.completeOneOut strO ord L o = m at h1 h2 ⊢
      obtain ⟨out, m⟩ := m
      dsimp only at h1 h2
      subst h2
      dsimp only
      rw [ih, h1, hp', List.flatMap_cons]
      have hat : p'.attributes = p₁.attributes := c'.atts
      congr 1
      · have : p'.rowText o = p₁.rowText o := rowText_of c.wf c'.wf hat
          (c'.xI' o fun hD => hnd'.1 (hpre.subset hD)) (c'.qI' o fun hD => hnd'.1 (hpre.subset hD))
        unfold diffLines
        rw [this]
      · refine List.flatMap_congr fun o' ho' => ?_
        have hne : o' ∉ [o] := by
          rw [List.mem_singleton]; rintro rfl; exact hnd'.1 ho'
        have : p₁.rowText o' = p.rowText o' := rowText_of h c.wf c.atts (c.xI' o' hne) (c.qI' o' hne)
        unfold diffLines
        rw [this]
    · have e := (h.completeOne ord L (hos o (by simp))).2 hc
      unfold PCtx.completeLoopOut PCtx.completeLoop
      rw [e] at h1 h2 ⊢
      generalize p.completeOneOut strO ord L o = m at h1 h2 ⊢
      obtain ⟨out, m⟩ := m
      dsimp only at h1 h2
      subst h2
      dsimp only
      rw [h1]
      simp [diffLines]

/-- `complete` prints exactly the differences between the rows before and after, in the order of the objects, also if it
raises; apart from printing it is the function of C80. -/
theorem C171_complete {p : PCtx α β} (h : p.WF) (strO : α → List Char) (ord : SetOrder β) (L : List (Imp β)) :
    (p.completeOut strO ord L).2 = p.complete ord L ∧
    (p.completeOut strO ord L).1 = p.objects.flatMap fun o =>
      diffLines strO p (p.complete ord L).1 o :=
  ⟨completeLoopOut_snd strO ord L _ p, h.completeLoopOut strO ord L p.objects (h.xo ▸ h.xw.onodup) fun _ ho => ho⟩

theorem diffLines_nil {strO : α → List Char} {p p' : PCtx α β} (h : p.WF) (h' : p'.WF) (ha : p'.attributes = p.attributes)
    {o : α} : diffLines strO p p' o = [] ↔ p.xI o = p'.xI o ∧ p.qI o = p'.qI o := by
  rw [← rowText_ne h h' ha]
  unfold diffLines
  split
  · next hr => simp [hr]
  · next hr => simp [hr]

theorem WF.complete_facts {p : PCtx α β} (h : p.WF) (ord : SetOrder β) (L : List (Imp β)) :
    (p.complete ord L).1.WF ∧ (p.complete ord L).1.objects = p.objects ∧
      (p.complete ord L).1.attributes = p.attributes := by
  obtain ⟨p', D, -, c, -, hend⟩ := h.completeLoop ord L p.objects (h.xo ▸ h.xw.onodup) fun _ ho => ho
  have : (p.complete ord L).1 = p' := by
    unfold PCtx.complete
    rcases hend with ⟨-, he⟩ | ⟨-, -, -, -, he⟩ <;> rw [he]
  rw [this]
  exact ⟨c.wf, c.objs, c.atts⟩

/-- Nothing is printed exactly if nothing has changed, and after a call that has returned, a second one with the same
implications prints nothing. -/
theorem C171_silent {p : PCtx α β} (h : p.WF) (strO : α → List Char) (ord : SetOrder β) (L : List (Imp β)) :
    ((p.completeOut strO ord L).1 = [] ↔ ∀ o ∈ p.objects, ∀ a,
      ((p.complete ord L).1.x.Inc o a ↔ p.x.Inc o a) ∧ ((p.complete ord L).1.q.Inc o a ↔ p.q.Inc o a)) ∧
    ((p.complete ord L).2 = none → ∀ ord', ((p.complete ord L).1.completeOut strO ord' L).1 = []) := by
  obtain ⟨hw, hob, hat⟩ := h.complete_facts ord L
  constructor
  · rw [(C171_complete h strO ord L).2, List.flatMap_eq_nil_iff]
    refine forall₂_congr fun o _ => ?_
    rw [diffLines_nil h hw hat, Finset.ext_iff, Finset.ext_iff, ← forall_and]
    refine forall_congr' fun a => ?_
    rw [h.mem_xI, hw.mem_xI, h.mem_qI, hw.mem_qI]
    exact and_congr Iff.comm Iff.comm
  · intro hn ord'
    have hadm : ∀ o ∈ p.objects, ∃ T, Admissible (p.xI o) (p.qI o) (specImps L) T := by
      intro o ho
      by_contra hc
      obtain ⟨p', D, he, -⟩ := C80_inconsistent h ord L ho hc
      rw [he] at hn
      cases hn
    obtain ⟨p', he, hw', hob', hat', hall⟩ := C80_complete h ord L hadm
    rw [he]
    dsimp only
    obtain ⟨p'', he', hw'', hob'', hat'', hall'⟩ := C80_complete hw' ord' L fun o ho => by
      rw [hob'] at ho
      obtain ⟨T, hT⟩ := hadm o ho
      exact ⟨T, ((hall o ho).2.2 T).2 hT⟩
    rw [(C171_complete hw' strO ord' L).2, List.flatMap_eq_nil_iff]
    intro o ho
    rw [he', diffLines_nil hw' hw'' hat'']
    have k := hall' o ho
    rw [hob'] at ho
    have k0 := hall o ho
    constructor
    · ext a
      rw [k.1, k0.1]
      exact forall_congr' fun T => imp_congr_left (k0.2.2 T).symm
    · ext a
      rw [k.2.1, k0.2.1]
      exact exists_congr fun T => and_congr_left fun _ => (k0.2.2 T).symm

end PCtx

/-! ### compute_implication_cover -/

namespace Cover

theorem coverLoopOut_snd (ord : ℕ → SetOrder β) (M : Finset β) (es : List (Finset β)) :
    ∀ k B, (coverLoopOut ord M k es B).2 = coverLoop ord M k es B := by
  induction es with
  | nil => intro k B; rfl
  | cons e es ih =>
    intro k B
    unfold coverLoopOut coverLoop
    cases updatedBasis (ord k) e B M with
    | error x => rfl
    | ok b => rw [py_ok_bind]; exact ih (k + 1) b

/-- The two lines printed for the object with the number `i`, with `n` implications after it. -/
def objectLines (i n : ℕ) : List (List Char) :=
  ["object  ".toList ++ natStr i, natStr n ++ " implications".toList]

theorem coverLoopOut_fst (ord : ℕ → SetOrder β) (M : Finset β) (es : List (Finset β)) :
    ∀ k B B', coverLoop ord M k es B = .ok B' → ∃ n : ℕ → ℕ,
      (∀ j < es.length, ∃ Bj, coverLoop ord M k (es.take (j + 1)) B = .ok Bj ∧ Bj.length = n j) ∧
      (coverLoopOut ord M k es B).1 = (List.range es.length).flatMap fun j => objectLines (k + j + 1) (n j) := by
  induction es with
  | nil => intro k B B' _; exact ⟨fun _ => 0, by simp, rfl⟩
  | cons e es ih =>
    intro k B B' h
    unfold coverLoop at h
    obtain ⟨b, hb, h⟩ := Ctx.bind_ok h
    obtain ⟨n, h1, h2⟩ := ih (k + 1) b B' h
    refine ⟨fun j => match j with | 0 => b.length | j + 1 => n j, ?_, ?_⟩
    · rintro (_ | j) hj
      · exact ⟨b, by simp [coverLoop, hb, py_ok_bind], rfl⟩
      · obtain ⟨Bj, e1, e2⟩ := h1 j (by simpa using hj)
        exact ⟨Bj, by rw [List.take_succ_cons, coverLoop, hb, py_ok_bind, e1], e2⟩
    · unfold coverLoopOut
      rw [hb]
      dsimp only
      rw [h2, List.length_cons, List.range_succ_eq_map, List.flatMap_cons, List.flatMap_map]
      simp only [objectLines, List.cons_append, List.nil_append, Nat.add_zero]
      congr 2
      refine List.flatMap_congr fun j _ => ?_
      rw [show k + 1 + j + 1 = k + (j + 1) + 1 by omega]

open Classical in
/-- `compute_implication_cover` prints two lines for every object. The number in the second is that of the implications
in the cover of the objects so far: how many sets of attributes are left-minimal with respect to these objects. -/
theorem C171_cover {c : Ctx α β} (h : c.WFw) (ha : c.attributes ≠ []) (ord : ℕ → SetOrder β) :
    (computeCoverOut c ord).2 = computeCover c ord ∧
    (computeCoverOut c ord).1 = (List.range c.objects.length).flatMap fun j =>
      objectLines (j + 1) (c.M.powerset.filter fun P =>
        LeftMinimal c.M (attrClosure (c.objects.take (j + 1)).toFinset c.M c.Inc) P).card := by
  have hex := examples_eq h
  obtain ⟨B, hB, -⟩ := C167_cover h ha ord
  unfold computeCoverOut
  rw [hex]
  dsimp only
  constructor
  · unfold computeCover
    rw [hex, py_ok_bind, coverLoopOut_snd]
  unfold computeCover at hB
  rw [hex, py_ok_bind] at hB
  obtain ⟨n, h1, h2⟩ := coverLoopOut_fst ord _ _ _ _ _ hB
  rw [h2, List.length_map]
  refine List.flatMap_congr fun j hj => ?_
  have hj' : j < c.objects.length := List.mem_range.1 hj
  rw [Nat.zero_add]
  congr 1
  obtain ⟨Bj, e1, e2⟩ := h1 j (by simpa using hj')
  have hw := h.firstObjects (j + 1)
  obtain ⟨B₁, e3, hn, hm⟩ := C167_cover hw ha ord
  unfold computeCover at e3
  rw [Ctx.examples_firstObjects hex, py_ok_bind] at e3
  have e4 : coverLoop ord c.attributes.toFinset 0 ((c.objects.map fun o => c.upF {o}).take (j + 1))
      [⟨∅, c.attributes.toFinset⟩] = .ok B₁ := e3
  rw [e1] at e4
  cases e4
  have hcl : ∀ S, S ⊆ c.M → attrClosure (c.firstObjects (j + 1)).G (c.firstObjects (j + 1)).M (c.firstObjects (j + 1)).Inc S =
      attrClosure (c.objects.take (j + 1)).toFinset c.M c.Inc S := by
    intro S _
    unfold attrClosure
    ext m
    have hI : ∀ g ∈ (c.objects.take (j + 1)).toFinset, ∀ m, (c.firstObjects (j + 1)).Inc g m ↔ c.Inc g m :=
      fun g hg m => Ctx.firstObjects_inc h (List.mem_toFinset.1 hg) m
    rw [Finset.mem_filter, Finset.mem_filter]
    refine and_congr_right fun _ => forall₂_congr fun g hg => ?_
    rw [hI g hg m]
    exact imp_congr_left (forall₂_congr fun b _ => hI g hg b)
  have hset : (Bj.map Imp.premise).toFinset = c.M.powerset.filter fun P =>
      LeftMinimal c.M (attrClosure (c.objects.take (j + 1)).toFinset c.M c.Inc) P := by
    ext P
    rw [List.mem_toFinset, List.mem_map, Finset.mem_filter, Finset.mem_powerset]
    constructor
    · rintro ⟨b, hb, rfl⟩
      have := ((hm b.premise b.reduced).1 (List.mem_map.2 ⟨b, hb, rfl⟩)).1
      exact ⟨this.1, (leftMinimal_congr hcl this.1).1 this⟩
    · rintro ⟨hP, hl⟩
      obtain ⟨b, hb, he⟩ := List.mem_map.1 ((hm P _).2 ⟨(leftMinimal_congr hcl hP).2 hl, rfl⟩)
      exact ⟨b, hb, (Prod.mk.inj he).1⟩
  have hnp : (Bj.map Imp.premise).Nodup := by
    have hk : Bj.Nodup := List.Nodup.of_map _ hn
    refine hk.map_on fun x hx y hy hxy => ?_
    have kx := ((hm x.premise x.reduced).1 (List.mem_map.2 ⟨x, hx, rfl⟩)).2
    have ky := ((hm y.premise y.reduced).1 (List.mem_map.2 ⟨y, hy, rfl⟩)).2
    exact List.inj_on_of_nodup_map hn hx hy (Prod.ext hxy (kx.trans (by rw [hxy]; exact ky.symm)))
  rw [← hset, List.toFinset_card_of_nodup hnp, List.length_map, e2]

end Cover

/-! ### Concrete cases -/

namespace OutputDemo

/-- Two objects; of the first attribute 0 is known and all is possible, of the second nothing is known and 0, 2 are
possible. -/
def p : PCtx (Fin 2) (Fin 3) :=
  ⟨[0, 1], [0, 1, 2], ⟨[0, 1], [0, 1, 2], ⟨some 3, [[true, false, false], [false, false, false]]⟩⟩,
    ⟨[0, 1], [0, 1, 2], ⟨some 3, [[true, true, true], [true, false, true]]⟩⟩⟩

def str (o : Fin 2) : List Char := natStr (o.val + 1)

theorem p_wf : p.WF := by
  have hx : p.x.WFw := by constructor <;> decide +kernel
  have hq : p.q.WFw := by constructor <;> decide +kernel
  exact ⟨hx, hq, rfl, rfl, rfl, rfl, by simp only [← hx.incB, ← hq.incB]; decide +kernel⟩

/-- With `0 → 1` the first object gets 1, the second loses the question mark at 0. -/
example : (p.completeOut str (.fin 3) [⟨{0}, {1}⟩]).1 =
    ["Object 1".toList, "X??".toList, "completed to ".toList, "XX?".toList,
     "Object 2".toList, "?.?".toList, "completed to ".toList, "..?".toList] := by decide +kernel

/-- The second call is silent. -/
example : ((p.complete (.fin 3) [⟨{0}, {1}⟩]).1.completeOut str (.finRev 3) [⟨{0}, {1}⟩]).1 = [] :=
  (PCtx.C171_silent p_wf str (.fin 3) [⟨{0}, {1}⟩]).2 (by decide +kernel) _

/-- An exception at the second object: only the first is reported. -/
example : (p.completeOut str (.fin 3) [⟨∅, {1}⟩]).1 =
    ["Object 1".toList, "X??".toList, "completed to ".toList, "XX?".toList] ∧
    (p.completeOut str (.fin 3) [⟨∅, {1}⟩]).2.2 = some .valueError := by decide +kernel

/-- Three objects, two attributes. -/
example : (Cover.computeCoverOut (⟨[0, 1, 2], [0, 1], ⟨some 2, [[true, false], [false, false], [false, true]]⟩⟩ :
    Ctx (Fin 3) (Fin 2)) fun _ => .fin 2).1 =
    ["object  1".toList, "1 implications".toList, "object  2".toList, "1 implications".toList,
     "object  3".toList, "0 implications".toList] := by decide +kernel

end OutputDemo
