/-
Properties of `BasicExploration` (fca/algorithms/exploration.py): C55, C56, C74.
-/
import Verif.Lemmas.BasicExploration
import Verif.Props.Reduce

set_option linter.unusedSectionVars false

open Spec

variable {α β : Type} [DecidableEq α] [DecidableEq β] [PyName α] [PyName β]

namespace BExp

open Ctx

/-- States an exploration can be in: started on a context with distinct names, at least one object and one
attribute, and continued by any calls (those that raise included) in which added names are new. -/
def Reachable (E : Env α β) (s : BExp α β) : Prop :=
  ∃ (c : Ctx α β) (s₀ : BExp α β) (ops : List (Op α β)), c.WFw ∧ c.objects ≠ [] ∧ c.attributes ≠ [] ∧
    init E c = .ok s₀ ∧ FreshRun E s₀ ops ∧ s = run E s₀ ops

theorem recompute_ctx {E : Env α β} (t : BExp α β) : (recompute E t).1.ctx = t.ctx := by
  unfold recompute
  split
  · rfl
  · dsimp only
    split <;> rfl

theorem recompute_confObj {E : Env α β} (t : BExp α β) : (recompute E t).1.confObj = t.confObj := by
  unfold recompute
  split
  · rfl
  · dsimp only
    split <;> rfl

theorem entails_of_complete {G : Finset α} {M : Finset β} {I : α → β → Prop} {L : List (Imp β)}
    (h : Complete G M I L) (ho : Over M L) {P C : Finset β} (hP : P ⊆ M) (hC : C ⊆ M) (hh : HoldsIn G I P C) :
    Entails (specImps L) P C := by
  intro S hS hPS m hm
  have h1 : Closed (specImps L) (S ∩ M) := by
    rw [closed_specImps] at hS ⊢
    intro i hi hp
    exact Finset.subset_inter (hS i hi (hp.trans Finset.inter_subset_left)) (ho i hi).2
  have h2 := h (S ∩ M) Finset.inter_subset_right h1
  have h3 : m ∈ attrClosure G M I (S ∩ M) := by
    unfold attrClosure
    rw [@Finset.mem_filter]
    refine ⟨hC hm, fun g hg hgs => hh g hg (fun x hx => hgs x (Finset.mem_inter.2 ⟨hPS hx, hP hx⟩)) m hm⟩
  rw [h2] at h3
  exact (Finset.mem_inter.1 h3).1

theorem Reachable.inv {E : Env α β} (hE : E.Ok) {s : BExp α β} (h : Reachable E s) : Inv s := by
  obtain ⟨c, s₀, ops, h1, h2, h3, h4, h5, rfl⟩ := h
  obtain ⟨s, h6, -, -, -, h7⟩ := init_ok hE h1 h2 h3
  rw [h6] at h4; cases h4
  exact (run_step hE h7 h5).inv

/-! ### witnesses -/

/-- Two objects and two attributes; the second attribute belongs to both objects, the first object has both. -/
def wit : Ctx (Fin 2) (Fin 2) := ⟨[0, 1], [0, 1], ⟨some 2, [[true, true], [false, true]]⟩⟩

def witEnv : Env (Fin 2) (Fin 2) :=
  ⟨AI.pySortShort AI.Pre.lt, AI.pySortShort AI.Pre.lt, SetOrder.fin 2, SetOrder.fin 2⟩

theorem witEnv_ok : witEnv.Ok := ⟨AI.pySortShort_perm _, AI.pySortShort_perm _⟩

theorem wit_wf : wit.WFw := by constructor <;> decide +kernel

deriving instance DecidableEq for Nd, Ctx, BExp

def wit0 : BExp (Fin 2) (Fin 2) := ⟨wit, [⟨∅, {1}⟩], [⟨∅, {0}⟩], [], []⟩

theorem wit0_init : init witEnv wit = .ok wit0 := by decide +kernel

end BExp

open BExp Ctx

/-- Every history from a context with at least one object and one attribute in which added names are new and
`edit_attribute` is not called: all confirmed attribute implications hold for all objects. Missing from C55:
histories with `edit_attribute` and with colliding names (false, see below); explorations of contexts without
objects or attributes. -/
theorem C55_attribute_side_partial {E : Env α β} (hE : E.Ok) {c : Ctx α β} (h : c.WFw) (h1 : c.objects ≠ [])
    (h2 : c.attributes ≠ []) {s₀ : BExp α β} (hi : init E c = .ok s₀) {ops : List (Op α β)}
    (hf : FreshRun E s₀ ops) (hop : ∀ op ∈ ops, ∀ A n, op ≠ .editAttribute A n) :
    ∀ i ∈ (run E s₀ ops).confAttr,
      HoldsIn (run E s₀ ops).ctx.G (run E s₀ ops).ctx.Inc i.premise i.conclusion := by
  obtain ⟨s, h6, -, h8, -, h7⟩ := init_ok hE h h1 h2
  rw [h6] at hi; cases hi
  refine (run_step hE h7 hf).attr ?_ ?_
  · rw [List.all_eq_true]
    intro op hop'
    cases op <;> first | rfl | exact absurd rfl (hop _ hop' _ _)
  · intro i hi'; rw [h8] at hi'; simp at hi'

/-- The same for confirmed object implications and histories without `edit_object`. -/
theorem C55_object_side_partial {E : Env α β} (hE : E.Ok) {c : Ctx α β} (h : c.WFw) (h1 : c.objects ≠ [])
    (h2 : c.attributes ≠ []) {s₀ : BExp α β} (hi : init E c = .ok s₀) {ops : List (Op α β)}
    (hf : FreshRun E s₀ ops) (hop : ∀ op ∈ ops, ∀ B n, op ≠ .editObject B n) :
    ∀ i ∈ (run E s₀ ops).confObj, HoldsIn (run E s₀ ops).ctx.M (fun a o => (run E s₀ ops).ctx.Inc o a)
      i.premise i.conclusion := by
  obtain ⟨s, h6, -, -, h8, h7⟩ := init_ok hE h h1 h2
  rw [h6] at hi; cases hi
  refine (run_step hE h7 hf).obj ?_ ?_
  · rw [List.all_eq_true]
    intro op hop'
    cases op <;> first | rfl | exact absurd rfl (hop _ hop' _ _)
  · intro i hi'; rw [h8] at hi'; simp at hi'

/-- Confirmations on both sides and two edits, of which the second is rejected. -/
example : ∃ s₀, init witEnv wit = .ok s₀ ∧
    FreshRun witEnv s₀ [.confirmAttr 0, .editObject {1} 1, .confirmObj 0, .editObject {0} 0] ∧
    (run witEnv s₀ [.confirmAttr 0, .editObject {1} 1, .confirmObj 0, .editObject {0} 0]).confAttr = [⟨∅, {1}⟩] :=
  ⟨wit0, wit0_init, ⟨trivial, trivial, trivial, trivial, trivial⟩, by decide +kernel⟩

/-- C55 fails: `edit_attribute` consults only the confirmed object implications, `edit_object` only the confirmed
attribute implications. -/
theorem C55_confirmed_stay_valid_violated :
    (∃ s : BExp (Fin 2) (Fin 2), s = run witEnv wit0 [.confirmAttr 0, .editAttribute {0} 1] ∧
      ∃ i ∈ s.confAttr, ¬ HoldsIn s.ctx.G s.ctx.Inc i.premise i.conclusion) ∧
    (∃ s : BExp (Fin 2) (Fin 2), s = run witEnv wit0 [.confirmObj 0, .editObject {1} 0] ∧
      ∃ i ∈ s.confObj, ¬ HoldsIn s.ctx.M (fun a o => s.ctx.Inc o a) i.premise i.conclusion) ∧
    init witEnv wit = .ok wit0 := by
  refine ⟨⟨_, rfl, ⟨∅, {1}⟩, by decide +kernel, ?_⟩, ⟨_, rfl, ⟨∅, {0}⟩, by decide +kernel, ?_⟩, wit0_init⟩
  · have h : (run witEnv wit0 [.confirmAttr 0, .editAttribute {0} 1]).ctx =
        ⟨[0, 1], [0, 1], ⟨some 2, [[true, true], [false, false]]⟩⟩ := by decide +kernel
    rw [h]
    have hw : (⟨[0, 1], [0, 1], ⟨some 2, [[true, true], [false, false]]⟩⟩ : Ctx (Fin 2) (Fin 2)).WFw := by
      constructor <;> decide +kernel
    simp only [HoldsIn, ← hw.incB]
    decide +kernel
  · have h : (run witEnv wit0 [.confirmObj 0, .editObject {1} 0]).ctx =
        ⟨[0, 1], [0, 1], ⟨some 2, [[false, true], [false, true]]⟩⟩ := by decide +kernel
    rw [h]
    have hw : (⟨[0, 1], [0, 1], ⟨some 2, [[false, true], [false, true]]⟩⟩ : Ctx (Fin 2) (Fin 2)).WFw := by
      constructor <;> decide +kernel
    simp only [HoldsIn, ← hw.incB]
    decide +kernel

namespace BExp

/-- Objects `g`, `h` and one attribute `m` of `h`. -/
def witN : Ctx (List Char) (List Char) := ⟨["g".toList, "h".toList], ["m".toList], ⟨some 1, [[false], [true]]⟩⟩

theorem witN_wf : witN.WFw := by constructor <;> decide +kernel

end BExp

/-- C55 also fails when an added object has a name in use: the constructor renames the old object, and a confirmed
object implication that mentions it holds no longer. Whatever the orders left open by Python are. -/
theorem C55_colliding_name_violated {E : Env (List Char) (List Char)} (hE : E.Ok) {s₀ : BExp (List Char) (List Char)}
    (hi : init E witN = .ok s₀) {k : ℕ} (hk : s₀.objImps[k]? = some ⟨∅, {"h".toList}⟩) :
    ∃ i ∈ (run E s₀ [.confirmObj k, .addObject ∅ "h".toList]).confObj,
      ¬ HoldsIn (run E s₀ [.confirmObj k, .addObject ∅ "h".toList]).ctx.M
        (fun a o => (run E s₀ [.confirmObj k, .addObject ∅ "h".toList]).ctx.Inc o a) i.premise i.conclusion := by
  obtain ⟨s, h1, h2, h3, h4, -⟩ := init_ok hE witN_wf (by decide) (by decide)
  rw [h1] at hi; cases hi
  have hc : witN.addObjectWithIntent ∅ "h".toList =
      (⟨["g".toList, "h_1".toList, "h_2".toList], ["m".toList], ⟨some 1, [[false], [true], [false]]⟩⟩, none) := by
    decide +kernel
  have hrun : ∃ t : BExp (List Char) (List Char), run E s₀ [.confirmObj k, .addObject ∅ "h".toList] = (recompute E t).1 ∧
      t.ctx = ⟨["g".toList, "h_1".toList, "h_2".toList], ["m".toList], ⟨some 1, [[false], [true], [false]]⟩⟩ ∧
      t.confObj = [⟨∅, {"h".toList}⟩] := by
    refine ⟨⟨⟨["g".toList, "h_1".toList, "h_2".toList], ["m".toList], ⟨some 1, [[false], [true], [false]]⟩⟩,
      s₀.attrImps, s₀.objImps.eraseIdx k, [], [⟨∅, {"h".toList}⟩]⟩, ?_, rfl, rfl⟩
    simp only [run, List.foldl_cons, List.foldl_nil, BExp.exec, confirmObj, hk, BExp.addObject, h3, check, List.all_nil,
      h2, hc, h4, thenRecompute]
    rfl
  obtain ⟨t, ht, ht1, ht2⟩ := hrun
  rw [ht, recompute_ctx, recompute_confObj, ht1, ht2]
  refine ⟨_, List.mem_singleton.2 rfl, ?_⟩
  intro hh
  have := (hh "m".toList (by decide) (by simp) "h".toList (by simp)).mem.1
  revert this
  decide

example : ∃ s₀, init ⟨AI.pySortShort AI.Pre.lt, AI.pySortShort AI.Pre.lt, SetOrder.any _, SetOrder.any _⟩ witN = .ok s₀ ∧
    s₀.objImps[0]? = some ⟨∅, {"h".toList}⟩ := by
  refine ⟨⟨witN, [], [⟨∅, {"h".toList}⟩], [], []⟩, ?_, rfl⟩
  decide +kernel

/-- `counter_example_for_attr_implication(name, intent, imp_index)` in every state and for every argument: an intent
without the premise, one with premise and conclusion, and one in conflict with a confirmed implication are rejected
with the three different exceptions, and the exploration is as before. -/
theorem C56_attr_rejected {E : Env α β} {s : BExp α β} {k : ℕ} {i : Imp β} (hk : s.attrImps[k]? = some i)
    (n : α) (B : Finset β) :
    (¬ i.premise ⊆ B → s.counterAttr E n B k = (s, some .notCounterExamplePremise)) ∧
    (i.premise ⊆ B → i.conclusion ⊆ B → s.counterAttr E n B k = (s, some .notCounterExampleConclusion)) ∧
    (i.premise ⊆ B → ¬ i.conclusion ⊆ B → (∃ j ∈ s.confAttr, j.premise ⊆ B ∧ ¬ j.conclusion ⊆ B) →
      s.counterAttr E n B k = (s, some .basisConflict)) := by
  have hred : i.premise ⊆ B → (i.reduced ∩ B = i.reduced ↔ i.conclusion ⊆ B) := by
    intro hp
    rw [Finset.inter_eq_left]
    constructor
    · intro h m hm
      by_cases hmp : m ∈ i.premise
      · exact hp hmp
      · exact h (Finset.mem_sdiff.2 ⟨hm, hmp⟩)
    · intro h m hm
      exact h (Finset.mem_sdiff.1 hm).1
  simp only [counterAttr, hk, ne_eq, Finset.inter_eq_left (s := i.premise)]
  refine ⟨fun h => by rw [if_pos h], fun h h' => by rw [if_neg (by simpa using h), if_pos ((hred h).2 h')],
    fun h h' hj => ?_⟩
  rw [if_neg (by simpa using h), if_neg (by rwa [hred h]), if_pos]
  obtain ⟨j, hj, hj1, hj2⟩ := hj
  rw [Bool.not_eq_true', ← Bool.not_eq_true, check_iff]
  exact fun hh => hj2 (hh j hj hj1)

/-- In all other cases, with a new name, the call succeeds, nothing confirmed is lost, the object is in the context
with exactly the known attributes of the intent, and the implication holds no longer. -/
theorem C56_attr_accepted {E : Env α β} (hE : E.Ok) {s : BExp α β} (hr : Reachable E s) {k : ℕ} {i : Imp β}
    (hk : s.attrImps[k]? = some i) {n : α} (hn : n ∉ s.ctx.objects) {B : Finset β} (h1 : i.premise ⊆ B)
    (h2 : ¬ i.conclusion ⊆ B) (h3 : ∀ j ∈ s.confAttr, j.premise ⊆ B → j.conclusion ⊆ B) :
    ∃ s', s.counterAttr E n B k = (s', none) ∧ s'.confAttr = s.confAttr ∧ s'.confObj = s.confObj ∧
      s'.ctx.objects = s.ctx.objects ++ [n] ∧ s'.ctx.attributes = s.ctx.attributes ∧
      (∀ a, s'.ctx.Inc n a ↔ a ∈ s.ctx.attributes ∧ a ∈ B) ∧
      (∀ o a, o ≠ n → (s'.ctx.Inc o a ↔ s.ctx.Inc o a)) ∧
      ¬ HoldsIn s'.ctx.G s'.ctx.Inc i.premise i.conclusion := by
  have h := hr.inv hE
  have hred : ¬ i.reduced ∩ B = i.reduced := by
    rw [Finset.inter_eq_left]
    intro h
    apply h2
    intro m hm
    by_cases hmp : m ∈ i.premise
    · exact h1 hmp
    · exact h (Finset.mem_sdiff.2 ⟨hm, hmp⟩)
  obtain ⟨s', h4, h5, h6, h7, h8, h9, -⟩ := addObj_step hE h hn (check_iff.2 h3)
  refine ⟨s', ?_, h8, h9, h5, h6, ?_, ?_, ?_⟩
  · simp only [counterAttr, hk]
    rw [if_neg (by simpa using h1), if_neg hred, if_neg (by simp [check_iff.2 h3]), h4]
  · intro a; rw [h7]; simp
  · intro o a ho; rw [h7]; simp [ho]
  · intro hh
    have hov := h.aover i (List.mem_of_getElem? hk)
    apply h2
    intro m hm
    have := hh n (by unfold Ctx.G; rw [h5]; simp) (fun x hx => by
      rw [h7]; exact .inl ⟨rfl, List.mem_toFinset.1 (hov.1 hx), h1 hx⟩) m hm
    rw [h7] at this
    rcases this with h | h
    · exact h.2.2
    · exact absurd rfl h.1

/-- With a name in use the objects of that name are renamed; still the call adds a row in which the premise is crossed
and some attribute of the conclusion is not. -/
theorem C56_attr_accepted_any_name {E : Env α β} (hE : E.Ok) {s : BExp α β} (hr : Reachable E s) {k : ℕ} {i : Imp β}
    (hk : s.attrImps[k]? = some i) (n : α) {B : Finset β} (h1 : i.premise ⊆ B)
    (h2 : ¬ i.conclusion ⊆ B) (h3 : ∀ j ∈ s.confAttr, j.premise ⊆ B → j.conclusion ⊆ B) :
    ∃ s' r row, s.counterAttr E n B k = (s', r) ∧ s'.ctx.attributes = s.ctx.attributes ∧
      s'.ctx.nd.rows = s.ctx.nd.rows ++ [row] ∧
      (∀ a ∈ i.premise, ∃ j : ℕ, s'.ctx.attributes[j]? = some a ∧ row[j]? = some true) ∧
      ∃ a ∈ i.conclusion, ∃ j : ℕ, s'.ctx.attributes[j]? = some a ∧ row[j]? = some false := by
  have h := hr.inv hE
  have hred : ¬ i.reduced ∩ B = i.reduced := by
    rw [Finset.inter_eq_left]
    intro h
    apply h2
    intro m hm
    by_cases hmp : m ∈ i.premise
    · exact h1 hmp
    · exact h (Finset.mem_sdiff.2 ⟨hm, hmp⟩)
  have hrec := recompute_ctx (E := E)
  obtain ⟨c', hc'⟩ := addObject_returns h.wf (row := s.ctx.attributes.map fun a => decide (a ∈ B)) (by simp) n
  have hc2 : c'.attributes = s.ctx.attributes ∧
      c'.nd.rows = s.ctx.nd.rows ++ [s.ctx.attributes.map fun a => decide (a ∈ B)] := by
    have hne : s.ctx.nd.rows ≠ [] := by
      intro h0
      apply h.one
      rw [← List.length_eq_zero_iff, ← h.wf.nrows, h0]; rfl
    unfold Ctx.addObject Nd.stackRow Nd.appendRow at hc'
    rw [if_pos hne, h.wf.shape hne] at hc'
    simp only [List.length_map, if_true, py_ok_bind] at hc'
    rw [ofNd_dims (by simp [h.wf.nrows])] at hc'
    · cases hc'
      exact ⟨renameAll_nodup h.wf.anodup, rfl⟩
    · intro r hr
      rcases List.mem_append.1 hr with hr | hr
      · exact h.wf.width r hr
      · simp at hr; rw [hr]; simp
  have hov := h.aover i (List.mem_of_getElem? hk)
  refine ⟨(recompute E { s with ctx := c' }).1, (recompute E { s with ctx := c' }).2, _, ?_,
    by rw [hrec]; exact hc2.1, by rw [hrec]; exact hc2.2, ?_, ?_⟩
  · simp only [counterAttr, hk]
    rw [if_neg (by simpa using h1), if_neg hred, if_neg (by simp [check_iff.2 h3]), addObjectWithIntent, hc']
    rfl
  · intro a ha
    obtain ⟨j, hj⟩ := List.mem_iff_getElem?.1 (List.mem_toFinset.1 (hov.1 ha))
    refine ⟨j, by rw [hrec]; show c'.attributes[j]? = _; rw [hc2.1]; exact hj, ?_⟩
    simp [hj, h1 ha]
  · obtain ⟨a, ha, haB⟩ := Finset.not_subset.1 h2
    obtain ⟨j, hj⟩ := List.mem_iff_getElem?.1 (List.mem_toFinset.1 (hov.2 ha))
    refine ⟨a, ha, j, by rw [hrec]; show c'.attributes[j]? = _; rw [hc2.1]; exact hj, ?_⟩
    simp [hj, haB]

/-- The mirror image for object implications. -/
theorem C56_obj_rejected {E : Env α β} {s : BExp α β} {k : ℕ} {i : Imp α} (hk : s.objImps[k]? = some i)
    (n : β) (A : Finset α) :
    (¬ i.premise ⊆ A → s.counterObj E n A k = (s, some .notCounterExamplePremise)) ∧
    (i.premise ⊆ A → i.conclusion ⊆ A → s.counterObj E n A k = (s, some .notCounterExampleConclusion)) ∧
    (i.premise ⊆ A → ¬ i.conclusion ⊆ A → (∃ j ∈ s.confObj, j.premise ⊆ A ∧ ¬ j.conclusion ⊆ A) →
      s.counterObj E n A k = (s, some .basisConflict)) := by
  have hred : i.premise ⊆ A → (i.reduced ∩ A = i.reduced ↔ i.conclusion ⊆ A) := by
    intro hp
    rw [Finset.inter_eq_left]
    constructor
    · intro h m hm
      by_cases hmp : m ∈ i.premise
      · exact hp hmp
      · exact h (Finset.mem_sdiff.2 ⟨hm, hmp⟩)
    · intro h m hm
      exact h (Finset.mem_sdiff.1 hm).1
  simp only [counterObj, hk, ne_eq, Finset.inter_eq_left (s := i.premise)]
  refine ⟨fun h => by rw [if_pos h], fun h h' => by rw [if_neg (by simpa using h), if_pos ((hred h).2 h')],
    fun h h' hj => ?_⟩
  rw [if_neg (by simpa using h), if_neg (by rwa [hred h]), if_pos]
  obtain ⟨j, hj, hj1, hj2⟩ := hj
  rw [Bool.not_eq_true', ← Bool.not_eq_true, check_iff]
  exact fun hh => hj2 (hh j hj hj1)

theorem C56_obj_accepted {E : Env α β} (hE : E.Ok) {s : BExp α β} (hr : Reachable E s) {k : ℕ} {i : Imp α}
    (hk : s.objImps[k]? = some i) {n : β} (hn : n ∉ s.ctx.attributes) {A : Finset α} (h1 : i.premise ⊆ A)
    (h2 : ¬ i.conclusion ⊆ A) (h3 : ∀ j ∈ s.confObj, j.premise ⊆ A → j.conclusion ⊆ A) :
    ∃ s', s.counterObj E n A k = (s', none) ∧ s'.confAttr = s.confAttr ∧ s'.confObj = s.confObj ∧
      s'.ctx.objects = s.ctx.objects ∧ s'.ctx.attributes = s.ctx.attributes ++ [n] ∧
      (∀ o, s'.ctx.Inc o n ↔ o ∈ s.ctx.objects ∧ o ∈ A) ∧
      (∀ o a, a ≠ n → (s'.ctx.Inc o a ↔ s.ctx.Inc o a)) ∧
      ¬ HoldsIn s'.ctx.M (fun a o => s'.ctx.Inc o a) i.premise i.conclusion := by
  have h := hr.inv hE
  have hred : ¬ i.reduced ∩ A = i.reduced := by
    rw [Finset.inter_eq_left]
    intro h
    apply h2
    intro m hm
    by_cases hmp : m ∈ i.premise
    · exact h1 hmp
    · exact h (Finset.mem_sdiff.2 ⟨hm, hmp⟩)
  obtain ⟨s', h4, h5, h6, h7, h8, h9, -⟩ := addAttr_step hE h hn (check_iff.2 h3)
  refine ⟨s', ?_, h8, h9, h5, h6, ?_, ?_, ?_⟩
  · simp only [counterObj, hk]
    rw [if_neg (by simpa using h1), if_neg hred, if_neg (by simp [check_iff.2 h3]), h4]
  · intro a; rw [h7]; simp
  · intro o a ho; rw [h7]; simp [ho]
  · intro hh
    have hov := h.oover i (List.mem_of_getElem? hk)
    apply h2
    intro m hm
    have := hh n (by unfold Ctx.M; rw [h6]; simp) (fun x hx => by
      show s'.ctx.Inc x n
      rw [h7]; exact .inl ⟨rfl, List.mem_toFinset.1 (hov.1 hx), h1 hx⟩) m hm
    change s'.ctx.Inc m n at this
    rw [h7] at this
    rcases this with h | h
    · exact h.2.2
    · exact absurd rfl h.1

/-- An index that is not in the list of open implications raises IndexError and changes nothing. -/
theorem C56_index {E : Env α β} {s : BExp α β} {k : ℕ} :
    (s.attrImps.length ≤ k → ∀ n B, s.counterAttr E n B k = (s, some .indexError)) ∧
    (s.objImps.length ≤ k → ∀ n A, s.counterObj E n A k = (s, some .indexError)) := by
  constructor
  · intro h n B
    simp only [counterAttr, List.getElem?_eq_none h]
  · intro h n A
    simp only [counterObj, List.getElem?_eq_none h]

example : ∃ i, Reachable witEnv wit0 ∧ wit0.attrImps[0]? = some i ∧ i.premise ⊆ ({0} : Finset (Fin 2)) ∧
    ¬ i.conclusion ⊆ ({0} : Finset (Fin 2)) ∧
    (∀ j ∈ wit0.confAttr, j.premise ⊆ ({0} : Finset (Fin 2)) → j.conclusion ⊆ ({0} : Finset (Fin 2))) :=
  ⟨⟨∅, {1}⟩, ⟨wit, wit0, [], wit_wf, by decide, by decide, wit0_init, trivial, rfl⟩, rfl, by decide, by decide,
    by simp [wit0]⟩

/-- In every reachable state, with any edits, open and confirmed attribute implications together derive every implication
that holds; the open ones hold. So when nothing is open and no confirmed implication was broken by an edit, the
confirmed implications are a complete description. The same on the object side. -/
theorem C74_open_and_confirmed_complete {E : Env α β} (hE : E.Ok) {s : BExp α β} (hr : Reachable E s) :
    (∀ i ∈ s.attrImps, HoldsIn s.ctx.G s.ctx.Inc i.premise i.conclusion) ∧
    (∀ P C, P ⊆ s.ctx.M → C ⊆ s.ctx.M → HoldsIn s.ctx.G s.ctx.Inc P C →
      Entails (specImps (s.attrImps ++ s.confAttr)) P C) ∧
    (∀ i ∈ s.objImps, HoldsIn s.ctx.M (fun a o => s.ctx.Inc o a) i.premise i.conclusion) ∧
    (∀ P C, P ⊆ s.ctx.G → C ⊆ s.ctx.G → HoldsIn s.ctx.M (fun a o => s.ctx.Inc o a) P C →
      Entails (specImps (s.objImps ++ s.confObj)) P C) := by
  have h := hr.inv hE
  exact ⟨h.aval, fun P C hP hC hh => entails_of_complete h.acomp
      (fun i hi => (List.mem_append.1 hi).elim (h.aover i) (h.akover i)) hP hC hh,
    h.oval, fun P C hP hC hh => entails_of_complete h.ocomp
      (fun i hi => (List.mem_append.1 hi).elim (h.oover i) (h.okover i)) hP hC hh⟩

/-- When no attribute implication is open and every confirmed one is valid (C55), an implication between attributes
holds exactly if it follows from the confirmed ones. -/
theorem C74_finished {E : Env α β} (hE : E.Ok) {s : BExp α β} (hr : Reachable E s) (h0 : s.attrImps = [])
    (hv : ∀ i ∈ s.confAttr, HoldsIn s.ctx.G s.ctx.Inc i.premise i.conclusion) {P C : Finset β}
    (hP : P ⊆ s.ctx.M) (hC : C ⊆ s.ctx.M) :
    HoldsIn s.ctx.G s.ctx.Inc P C ↔ Entails (specImps s.confAttr) P C := by
  have h := hr.inv hE
  constructor
  · intro hh
    have := (C74_open_and_confirmed_complete hE hr).2.1 P C hP hC hh
    rwa [h0, List.nil_append] at this
  · intro he
    rw [holdsIn_iff h.wf hC]
    refine he _ (closed_attrClosure h.wf hv (fun i hi => (h.akover i hi).2) P) ?_
    intro m hm
    rw [← h.wf.aclF_eq, h.wf.mem_aclF]
    exact ⟨List.mem_toFinset.1 (hP hm), fun o _ ho => ho m hm⟩

example : Reachable witEnv (run witEnv wit0 [.confirmAttr 0]) ∧ (run witEnv wit0 [.confirmAttr 0]).attrImps = [] :=
  ⟨⟨wit, wit0, [.confirmAttr 0], wit_wf, by decide, by decide, wit0_init, ⟨trivial, trivial⟩, rfl⟩, rfl⟩

/-- Two open implications; the second confirmation keeps the first one. -/
example : ((confirmAttr (confirmAttr (⟨wit, [⟨{0}, {1}⟩, ⟨∅, {1}⟩], [], [], []⟩ : BExp (Fin 2) (Fin 2)) 1).1 0).1.confAttr) =
    [⟨∅, {1}⟩, ⟨{0}, {1}⟩] := by decide +kernel
