/-
Property C176: intents and extents given as frozensets, lists, pairs of sets or iterators (fca/context.py:380-401,
fca/implication.py:84-93, fca/algorithms/exploration.py, fca/algorithms/exploration_/exploration.py,
fca/algorithms/exploration2/exploration.py, fca/algorithms/patterns.py:150-159).
-/
import Verif.Model.IntentArgs
import Verif.Props.HashOrder
import Verif.Props.ExplorationDB
import Verif.Props.Exploration2
import Verif.Props.BasicExploration
import Verif.Props.Patterns

set_option linter.unusedSectionVars false

open Spec

/-! ### rows -/

namespace PyColl

variable {γ : Type} [DecidableEq γ]

/-- The set of names an argument stands for; a pair of sets contains no names. -/
def elems : PyColl γ → Finset γ
  | .set s => s
  | .frozen s => s
  | .list l => l.toFinset
  | .pair _ _ => ∅
  | .iter l => l.toFinset

/-- Not a pair of sets. -/
def NotPair : PyColl γ → Prop
  | .pair _ _ => False
  | _ => True

theorem row_length (as : List γ) (v : PyColl γ) : (row as v).1.length = as.length := by
  induction as generalizing v with
  | nil => rfl
  | cons a as ih => simp [row, ih]

theorem row_stable {as : List γ} {v : PyColl γ} (h : ∀ a, v.mem a = (decide (a ∈ v.elems), v)) :
    row as v = (as.map fun a => decide (a ∈ v.elems), v) := by
  induction as with
  | nil => rfl
  | cons a as ih => simp only [row, h, ih, List.map_cons]

theorem row_set (as : List γ) (s : Finset γ) : row as (.set s) = (as.map fun a => decide (a ∈ s), .set s) :=
  row_stable fun _ => rfl

theorem row_frozen (as : List γ) (s : Finset γ) : row as (.frozen s) = (as.map fun a => decide (a ∈ s), .frozen s) :=
  row_stable fun _ => rfl

theorem row_list (as : List γ) (l : List γ) : row as (.list l) = (as.map fun a => decide (a ∈ l.toFinset), .list l) :=
  row_stable fun a => by simp [mem, elems]

theorem row_pair (as : List γ) (x q : Finset γ) :
    row as (.pair x q) = (as.map fun a => decide (a ∈ (∅ : Finset γ)), .pair x q) :=
  row_stable fun a => by simp [mem, elems]

/-- Reading an iterator until `a` was found. -/
theorem cons_sublist_iff_drop {a : γ} {as l : List γ} : (a :: as).Sublist l ↔ a ∈ l ∧ as.Sublist (l.drop (l.idxOf a + 1)) := by
  induction l with
  | nil => simp
  | cons b l ih =>
    by_cases hb : b = a
    · subst hb
      simp
    · rw [List.idxOf_cons_ne _ hb]
      simp only [Nat.succ_eq_add_one, List.drop_succ_cons, List.mem_cons, Ne.symm hb, false_or]
      rw [← ih]
      constructor
      · intro h
        cases h with
        | cons _ h => exact h
        | cons_cons _ h => exact absurd rfl hb
      · exact fun h => h.cons _

theorem row_iter (as l : List γ) :
    ∃ k ≤ as.length, (row as (.iter l)).1 = List.replicate k true ++ List.replicate (as.length - k) false ∧
      (as.take k).Sublist l ∧ (k < as.length → ¬ (as.take (k + 1)).Sublist l) := by
  induction as generalizing l with
  | nil => exact ⟨0, le_refl _, rfl, by simp, by simp⟩
  | cons a as ih =>
    obtain ⟨k, h1, h2, h3, h4⟩ := ih (l.drop (l.idxOf a + 1))
    by_cases ha : a ∈ l
    · refine ⟨k + 1, by simpa using h1, ?_, ?_, ?_⟩
      · simp only [row, mem, h2, ha, decide_true, List.length_cons, Nat.add_sub_add_right, List.replicate_succ,
          List.cons_append]
      · rw [List.take_succ_cons, cons_sublist_iff_drop]
        exact ⟨ha, h3⟩
      · intro hk
        rw [List.take_succ_cons, cons_sublist_iff_drop]
        exact fun h => h4 (by simpa using hk) h.2
    · refine ⟨0, Nat.zero_le _, ?_, by simp, ?_⟩
      · have hd : l.drop (l.idxOf a + 1) = [] := by
          rw [List.drop_eq_nil_iff, List.idxOf_eq_length ha]
          omega
        have hk : k = 0 := by
          by_contra hk
          rw [hd] at h3
          have := List.sublist_nil.1 h3
          rw [List.take_eq_nil_iff] at this
          rcases this with h | h
          · exact hk h
          · subst h; exact hk (by simpa using h1)
        subst hk
        simp only [row, mem, h2, ha, decide_false, List.length_cons, List.replicate_zero, List.nil_append,
          Nat.sub_zero, List.replicate_succ]
      · intro _
        simpa using ha

/-- Every row is the row of some set. -/
theorem row_some_set {as : List γ} (hn : as.Nodup) {r : List Bool} (hr : r.length = as.length) :
    ∃ B : Finset γ, r = as.map fun a => decide (a ∈ B) := by
  induction as generalizing r with
  | nil => exact ⟨∅, by simpa using hr⟩
  | cons a as ih =>
    cases r with
    | nil => simp at hr
    | cons b r =>
      rw [List.nodup_cons] at hn
      obtain ⟨B, hB⟩ := ih hn.2 (r := r) (by simpa using hr)
      refine ⟨if b then insert a B else B.erase a, ?_⟩
      have hmap : ∀ C : Finset γ, (∀ x ∈ as, x ∈ C ↔ x ∈ B) → (as.map fun x => decide (x ∈ C)) = r := by
        intro C hC
        rw [hB]
        exact List.map_congr_left fun x hx => by simp only [hC x hx]
      have hne : ∀ x ∈ as, x ≠ a := by rintro x hx rfl; exact hn.1 hx
      cases b with
      | false =>
        simp only [Bool.false_eq_true, if_false, List.map_cons, Finset.mem_erase, ne_eq, not_true_eq_false, false_and,
          decide_false, List.cons.injEq, true_and]
        exact (hmap (B.erase a) fun x hx => by simp [hne x hx]).symm.trans (by simp)
      | true =>
        simp only [if_true, List.map_cons, Finset.mem_insert, true_or, decide_true, List.cons.injEq, true_and]
        exact (hmap (insert a B) fun x hx => by simp [hne x hx]).symm.trans (by simp)

end PyColl

open PyColl

section rows
variable {γ : Type} [DecidableEq γ]

/-- The row `[(a in v) for a in names]` and what is left of `v`, for all lists of names. Sets, frozensets and lists give
the membership of the names and stay as they are; a pair of sets contains no name. An iterator over `l` gives `True` for
the longest initial part of the names that is a sublist of `l`, and `False` for all names after it. -/
theorem C176_rows (as : List γ) :
    (∀ s : Finset γ, row as (.set s) = (as.map fun a => decide (a ∈ s), .set s)) ∧
    (∀ s : Finset γ, row as (.frozen s) = (as.map fun a => decide (a ∈ s), .frozen s)) ∧
    (∀ l : List γ, row as (.list l) = (as.map fun a => decide (a ∈ l), .list l)) ∧
    (∀ x q : Finset γ, row as (.pair x q) = (List.replicate as.length false, .pair x q)) ∧
    ∀ l : List γ, ∃ k ≤ as.length,
      (row as (.iter l)).1 = List.replicate k true ++ List.replicate (as.length - k) false ∧
      (as.take k).Sublist l ∧ (k < as.length → ¬ (as.take (k + 1)).Sublist l) := by
  refine ⟨row_set as, row_frozen as, fun l => ?_, fun x q => ?_, fun l => row_iter as l⟩
  · rw [row_list]; simp
  · rw [row_pair]; simp

example : (row [0, 1, 2, 3] (.iter [0, 5, 1, 3])).1 = [true, true, false, false] ∧
    (row [0, 1, 2, 3] (.iter [3, 1, 0])).1 = [true, false, false, false] ∧
    (row [0, 1, 2, 3] (.list [3, 1, 0])).1 = [true, true, false, true] := by decide +kernel

/-- When an iterator gives the right row: exactly if its names that belong to the context are the first ones there, and
come in the order of the context. -/
theorem C176_iterator_right_iff (as l : List γ) :
    (row as (.iter l)).1 = (as.map fun a => decide (a ∈ l)) ↔
      ∃ k, (as.take k).Sublist l ∧ ∀ a ∈ as.drop k, a ∉ l := by
  obtain ⟨k, h1, h2, h3, h4⟩ := row_iter as l
  constructor
  · intro h
    refine ⟨k, h3, ?_⟩
    rw [h2] at h
    have h5 : ((as.map fun a => decide (a ∈ l)).drop k) = List.replicate (as.length - k) false := by
      rw [← h, List.drop_append_of_le_length (by simp), List.drop_eq_nil_of_le (by simp), List.nil_append]
    intro a ha hal
    rw [← List.map_drop] at h5
    have : (true : Bool) ∈ (as.drop k).map fun a => decide (a ∈ l) := List.mem_map.2 ⟨a, ha, by simp [hal]⟩
    rw [h5] at this
    exact absurd (List.eq_of_mem_replicate this) (by simp)
  · rintro ⟨j, h5, h6⟩
    have hmem : ∀ a ∈ as.take k, a ∈ l := fun a ha => h3.subset ha
    have hle : ∀ a ∈ as.drop k, a ∉ l := by
      rcases lt_or_ge k j with hkj | hjk
      · have hk : k < as.length ∨ k = as.length := by omega
        rcases hk with hk | hk
        · exact absurd ((List.take_sublist_take_left (by omega)).trans h5) (h4 hk)
        · subst hk; simp
      · intro a ha
        refine h6 a ?_
        have : k = j + (k - j) := by omega
        rw [this, ← List.drop_drop] at ha
        exact List.mem_of_mem_drop ha
    rw [h2]
    conv_rhs => rw [← List.take_append_drop k as, List.map_append]
    congr 1
    · symm
      rw [List.eq_replicate_iff]
      refine ⟨by simp [h1], ?_⟩
      intro b hb
      obtain ⟨a, ha, rfl⟩ := List.mem_map.1 hb
      simpa using hmem a ha
    · symm
      rw [List.eq_replicate_iff]
      refine ⟨by simp, ?_⟩
      intro b hb
      obtain ⟨a, ha, rfl⟩ := List.mem_map.1 hb
      simpa using hle a ha

example : (∃ k, ([0, 1, 2, 3].take k).Sublist [0, 5, 1] ∧ ∀ a ∈ [0, 1, 2, 3].drop k, a ∉ [0, 5, 1]) ∧
    ¬ ((row [0, 1, 2, 3] (.iter [1, 0])).1 = [0, 1, 2, 3].map fun a => decide (a ∈ [1, 0])) :=
  ⟨⟨2, by decide, by decide⟩, by decide +kernel⟩

end rows

/-! ### the context -/

variable {α β : Type} [DecidableEq α] [DecidableEq β]

namespace IntentArgs

theorem ctx_ext {c d : Ctx α β} (h : c.WFw) (hd : d.WFw) (hne : c.objects ≠ []) (ho : c.objects = d.objects)
    (ha : c.attributes = d.attributes) (hi : ∀ o a, c.Inc o a ↔ d.Inc o a) : c = d := by
  have hr : c.nd.rows = d.nd.rows := by
    rw [h.rows_eq, hd.rows_eq, ho, ha]
    refine List.map_congr_left fun o _ => List.map_congr_left fun a _ => ?_
    rw [Bool.eq_iff_iff, h.incB, hd.incB, hi]
  have hc : c.nd.cols = d.nd.cols := by
    rw [h.cols hne, hd.cols (by rw [← ho]; exact hne), ha]
  rcases c with ⟨o, a, ⟨cs, r⟩⟩
  rcases d with ⟨o', a', ⟨cs', r'⟩⟩
  simp only at ho ha hr hc
  subst ho ha hr hc
  rfl

variable [PyName α] [PyName β]

theorem addObject_some_set {c : Ctx α β} (h : c.attributes.Nodup) (v : PyColl β) :
    ∃ B : Finset β, ∀ n, c.addObjectWithIntentColl v n = c.addObjectWithIntent B n := by
  obtain ⟨B, hB⟩ := row_some_set h (row_length c.attributes v)
  exact ⟨B, fun n => by unfold Ctx.addObjectWithIntentColl Ctx.addObjectWithIntent; rw [hB]⟩

theorem addAttribute_some_set {c : Ctx α β} (h : c.objects.Nodup) (v : PyColl α) :
    ∃ A : Finset α, ∀ n, c.addAttributeWithExtentColl v n = c.addAttributeWithExtent A n := by
  obtain ⟨A, hA⟩ := row_some_set h (row_length c.objects v)
  exact ⟨A, fun n => by unfold Ctx.addAttributeWithExtentColl Ctx.addAttributeWithExtent; rw [hA]⟩

theorem setObject_elems (ord : SetOrder β) (c : Ctx α β) {v : PyColl β} (hv : v.NotPair) (n : α) :
    c.setObjectIntentColl ord v n = c.setObjectIntent (ord.enum v.elems) n := by
  unfold Ctx.setObjectIntentColl
  cases v with
  | set s => rfl
  | frozen s => rfl
  | list l => exact HashOrder.setObjectIntent_same c (fun x => by simp [elems]) n
  | pair x q => exact hv.elim
  | iter l => exact HashOrder.setObjectIntent_same c (fun x => by simp [elems]) n

theorem setAttribute_elems (ord : SetOrder α) (c : Ctx α β) {v : PyColl α} (hv : v.NotPair) (n : β) :
    c.setAttributeExtentColl ord v n = c.setAttributeExtent (ord.enum v.elems) n := by
  unfold Ctx.setAttributeExtentColl
  cases v with
  | set s => rfl
  | frozen s => rfl
  | list l => exact (HashOrder.C168_mutators c).2 (fun x => by simp [elems]) n
  | pair x q => exact hv.elim
  | iter l => exact (HashOrder.C168_mutators c).2 (fun x => by simp [elems]) n

theorem not_notPair {γ : Type} {v : PyColl γ} (h : ¬ v.NotPair) : ∃ x q, v = .pair x q := by
  cases v with
  | pair x q => exact ⟨x, q, rfl⟩
  | _ => exact absurd trivial h

end IntentArgs

open IntentArgs

section context
variable [PyName α] [PyName β]

/-- The four methods of `Context`, for all contexts and arguments. Adding with a frozenset or a list does what adding with
the set of its elements does, a pair of sets adds an empty row or column. Setting a row or column accepts frozensets,
lists and iterators like the set of their elements (whatever the iteration orders are), and with a pair of sets raises
TypeError and changes nothing. -/
theorem C176_context (ordA : SetOrder β) (ordO : SetOrder α) (c : Ctx α β) (n : α) (m : β) :
    (∀ B, c.addObjectWithIntentColl (.set B) n = c.addObjectWithIntent B n ∧
      c.addObjectWithIntentColl (.frozen B) n = c.addObjectWithIntent B n) ∧
    (∀ l, c.addObjectWithIntentColl (.list l) n = c.addObjectWithIntent l.toFinset n) ∧
    (∀ x q, c.addObjectWithIntentColl (.pair x q) n = c.addObjectWithIntent ∅ n) ∧
    (∀ A, c.addAttributeWithExtentColl (.set A) m = c.addAttributeWithExtent A m ∧
      c.addAttributeWithExtentColl (.frozen A) m = c.addAttributeWithExtent A m) ∧
    (∀ l, c.addAttributeWithExtentColl (.list l) m = c.addAttributeWithExtent l.toFinset m) ∧
    (∀ x q, c.addAttributeWithExtentColl (.pair x q) m = c.addAttributeWithExtent ∅ m) ∧
    (∀ v : PyColl β, v.NotPair → c.setObjectIntentColl ordA v n = c.setObjectIntent (ordA.enum v.elems) n) ∧
    (∀ v : PyColl α, v.NotPair → c.setAttributeExtentColl ordO v m = c.setAttributeExtent (ordO.enum v.elems) m) ∧
    (∀ x q, c.setObjectIntentColl ordA (.pair x q) n = (c, some .typeError)) ∧
    ∀ x q, c.setAttributeExtentColl ordO (.pair x q) m = (c, some .typeError) := by
  unfold Ctx.addObjectWithIntentColl Ctx.addAttributeWithExtentColl
  simp only [row_set, row_frozen, row_list, row_pair]
  exact ⟨fun _ => ⟨rfl, rfl⟩, fun _ => rfl, fun _ _ => rfl, fun _ => ⟨rfl, rfl⟩, fun _ => rfl, fun _ _ => rfl,
    fun v hv => setObject_elems ordA c hv n, fun v hv => setAttribute_elems ordO c hv m, fun _ _ => rfl,
    fun _ _ => rfl⟩

/-- The same iterator is read completely by `set_object_intent` and not by `add_object_with_intent`. -/
theorem C176_iterator_add_violated :
    E2.wit.addObjectWithIntentColl (.iter [1, 0]) 2 ≠ E2.wit.addObjectWithIntent {0, 1} 2 ∧
    E2.wit.addObjectWithIntentColl (.iter [1]) 2 = E2.wit.addObjectWithIntent ∅ 2 ∧
    E2.wit.addObjectWithIntentColl (.iter [0, 1]) 2 = E2.wit.addObjectWithIntent {0, 1} 2 ∧
    E2.wit.setObjectIntentColl (.fin 2) (.iter [1]) 0 = E2.wit.setObjectIntent [1] 0 := by decide +kernel

end context

/-! ### ExplorationDB -/

namespace EDB

open Ctx

variable [PyName α] [PyName β]

theorem respectsAll_set (B : Finset β) (L : List (Imp β)) :
    respectsAll (.set B) L = .ok (L.all fun i => i.isRespected B) := by
  induction L with
  | nil => rfl
  | cons i L ih =>
    simp only [respectsAll, Imp.isRespectedColl, List.all_cons]
    cases i.isRespected B <;> simp [ih]

theorem respectsAll_other {v : PyColl β} (hv : v.NotPair) (hs : ∀ B, v ≠ .set B) {L : List (Imp β)} (hL : L ≠ []) :
    ∃ e, respectsAll v L = .error e ∧ (e = .typeError ∨ e = .indexError) := by
  cases L with
  | nil => exact absurd rfl hL
  | cons i L =>
    cases v with
    | set B => exact absurd rfl (hs B)
    | frozen B => exact ⟨_, rfl, .inl rfl⟩
    | list l =>
      by_cases h : l.length < 2
      · exact ⟨.indexError, by simp [respectsAll, Imp.isRespectedColl, h], .inr rfl⟩
      · exact ⟨.typeError, by simp [respectsAll, Imp.isRespectedColl, h], .inl rfl⟩
    | pair x q => exact hv.elim
    | iter l => exact ⟨_, rfl, .inl rfl⟩

theorem addExampleColl_set (E : Env α β) (s : EDB α β) (n : α) (B : Finset β) :
    s.addExampleColl E n (.set B) = s.addExample E n B := by
  unfold addExampleColl addExample checkIntent
  rw [respectsAll_set]
  congr 1
  cases s.bg.all fun i => i.isRespected B
  · rfl
  · simp only [Bool.not_true, Bool.false_eq_true, if_false]
    unfold addObjectWithIntentColl
    rw [row_set]
    rfl

/-- What a call stands for: the same method with the same names and some set. -/
inductive Plays : OpC α β → Op α β → Prop where
  | plain (op : Op α β) : Plays (.plain op) op
  | addExample (n : α) (v : PyColl β) (B : Finset β) : Plays (.addExample n v) (.addExample n B)
  | editExample (n o : α) (v : PyColl β) (B : Finset β) : Plays (.editExample n o v) (.editExample n o B)
  | addAttribute (n : β) (v : PyColl α) (A : Finset α) : Plays (.addAttribute n v) (.addAttribute n A)
  | editAttribute (n o : β) (v : PyColl α) (A : Finset α) : Plays (.editAttribute n o v) (.editAttribute n o A)

/-- The call is not `add_example` with a pair of sets. -/
def OpC.NoPair : OpC α β → Prop
  | .addExample _ v => v.NotPair
  | _ => True

/-- The calls considered, as for sets (`Op.Ok`). -/
def OpC.Ok (s : EDB α β) : OpC α β → Prop
  | .plain op => op.Ok s
  | .editExample n o _ => n = o ∨ n ∉ s.ctx.objects
  | .editAttribute n o _ => n = o ∨ n ∉ s.ctx.attributes
  | _ => True

/-- Every call of the history is considered and is not `add_example` with a pair of sets. -/
def OkRunC (E : Env α β) : EDB α β → List (OpC α β) → Prop
  | _, [] => True
  | s, op :: ops => op.Ok s ∧ op.NoPair ∧ OkRunC E (s.execC E op).1 ops

theorem Plays.ok {s : EDB α β} {op : OpC α β} {op' : Op α β} (h : Plays op op') (ho : op.Ok s) : op'.Ok s := by
  cases h <;> exact ho

theorem setObjectIntent_own {c : Ctx α β} (h : c.WFw) (hne : c.objects ≠ []) {o : α} (ho : o ∈ c.objects) {l : List β}
    (hl : l.toFinset = c.upF {o}) : c.setObjectIntent l o = (c, none) := by
  have hla : ∀ a ∈ l, a ∈ c.attributes ∧ c.Inc o a := by
    intro a ha
    have : a ∈ c.upF {o} := by rw [← hl]; simpa using ha
    rw [h.mem_upF] at this
    simpa using this
  obtain ⟨c', hc'⟩ := h.stores.returns (op := .setObjectIntent l o) hne ⟨fun a ha => (hla a ha).1, ho⟩
  have hc'' : c.setObjectIntent l o = (c', none) := hc'
  rw [hc'']
  obtain ⟨h1, h2, h3, h4⟩ := BExp.set_object_ctx h hc''
  rw [ctx_ext h1 h (by rw [h2]; exact hne) h2 h3 ?_]
  intro x a
  rw [h4]
  by_cases hx : x = o
  · subst hx
    simp only [true_and, ne_eq, not_true_eq_false, false_and, or_false]
    constructor
    · exact fun hh => (hla a hh.2.2).2
    · intro hi
      refine ⟨ho, hi.mem.2, ?_⟩
      have : a ∈ c.upF {x} := by rw [h.mem_upF]; simpa using ⟨hi.mem.2, hi⟩
      rw [← hl] at this
      simpa using this
  · simp [hx]

/-- Each call with a collection, except `add_example` with a pair of sets: it does what the same call with some set does,
or it raises and changes nothing. -/
theorem execC_sim {E : Env α β} {s : EDB α β} (h : s.ctx.WFw) (hne : s.ctx.objects ≠ []) (op : OpC α β)
    (hp : op.NoPair) :
    (∃ op', Plays op op' ∧ s.execC E op = s.exec E op') ∨ ∃ e, s.execC E op = (s, some e) := by
  cases op with
  | plain op => exact .inl ⟨op, .plain op, rfl⟩
  | addExample n v =>
    by_cases hs : ∃ B, v = .set B
    · obtain ⟨B, rfl⟩ := hs
      exact .inl ⟨_, .addExample n _ B, addExampleColl_set E s n B⟩
    · by_cases hbg : s.bg = []
      · obtain ⟨B, hB⟩ := addObject_some_set h.anodup v
        refine .inl ⟨_, .addExample n v B, ?_⟩
        show s.addExampleColl E n v = s.addExample E n B
        unfold addExampleColl addExample checkIntent
        rw [hbg, hB]
        rfl
      · obtain ⟨e, he, -⟩ := respectsAll_other hp (fun B hB => hs ⟨B, hB⟩) hbg
        refine .inr ⟨e, ?_⟩
        show s.addExampleColl E n v = _
        unfold addExampleColl
        rw [he]
        rfl
  | addAttribute n v =>
    obtain ⟨A, hA⟩ := addAttribute_some_set h.onodup v
    refine .inl ⟨_, .addAttribute n v A, ?_⟩
    show s.addAttributeColl E n v = s.addAttribute E n A
    unfold addAttributeColl addAttribute
    rw [hA]
  | editAttribute n o v =>
    have hmap : s.ctx.objects.mapM s.ctx.objectIntent = .ok (s.ctx.objects.map fun o => s.ctx.upF {o}) :=
      mapM_ok fun x hx => h.objectIntent hx
    by_cases hv : (v.row s.ctx.objects).2.NotPair
    · refine .inl ⟨_, .editAttribute n o v (v.row s.ctx.objects).2.elems, ?_⟩
      show s.editAttributeColl E n o v = s.editAttribute E n o _
      unfold editAttributeColl editAttribute
      rw [setAttribute_elems _ _ hv]
      rfl
    · obtain ⟨x, q, hx⟩ := not_notPair hv
      show _ ∨ ∃ e, s.editAttributeColl E n o v = (s, some e)
      unfold editAttributeColl
      rw [hmap, hx]
      dsimp only
      split_ifs
      · exact .inr ⟨_, rfl⟩
      · exact .inr ⟨_, rfl⟩
      · exact .inr ⟨.typeError, rfl⟩
  | editExample n o v =>
    show _ ∨ ∃ e, s.editExampleColl E n o v = (s, some e)
    by_cases ho : o ∈ s.ctx.objects
    · by_cases hv : v.NotPair
      · by_cases hbg : s.bg = []
        · refine .inl ⟨_, .editExample n o v v.elems, ?_⟩
          show s.editExampleColl E n o v = s.editExample E n o v.elems
          unfold editExampleColl editExample checkIntent
          rw [h.objectIntent ho, hbg, setObject_elems _ _ hv]
          dsimp only [respectsAll, List.all_nil, Bool.not_true]
          congr 1
          by_cases he : v.elems = s.ctx.upF {o}
          · have hset : s.setCtx (s.ctx.setObjectIntent (E.ordI.enum v.elems) o) = (s, none) := by
              rw [setObjectIntent_own h hne ho (by rw [← he]; ext x; simp)]
              rfl
            rw [hset]
            simp only [he, ne_eq, not_true_eq_false, if_false, ite_self]
          · have hne' : v.ne (s.ctx.upF {o}) = true := by
              cases v with
              | set t => exact decide_eq_true he
              | frozen t => exact decide_eq_true he
              | _ => rfl
            rw [if_pos hne', if_pos he]
            rfl
        · by_cases hf : v.ne (s.ctx.upF {o}) = true
          · by_cases hs : ∃ B, v = .set B
            · obtain ⟨B, rfl⟩ := hs
              refine .inl ⟨_, .editExample n o _ B, ?_⟩
              show s.editExampleColl E n o _ = s.editExample E n o B
              unfold editExampleColl editExample checkIntent
              rw [h.objectIntent ho, respectsAll_set, setObject_elems _ _ (v := .set B) trivial]
              dsimp only
              rw [if_pos hf, if_pos (of_decide_eq_true hf)]
              cases s.bg.all fun i => i.isRespected B <;> rfl
            · obtain ⟨e, he, -⟩ := respectsAll_other hv (fun B hB => hs ⟨B, hB⟩) hbg
              refine .inr ⟨e, ?_⟩
              unfold editExampleColl
              rw [h.objectIntent ho, he]
              dsimp only
              rw [if_pos hf]
              rfl
          · refine .inl ⟨_, .editExample n o v v.elems, ?_⟩
            show s.editExampleColl E n o v = s.editExample E n o v.elems
            have he : v.elems = s.ctx.upF {o} := by
              cases v with
              | set t => simpa [PyColl.ne, elems] using hf
              | frozen t => simpa [PyColl.ne, elems] using hf
              | _ => exact absurd rfl hf
            unfold editExampleColl editExample
            rw [h.objectIntent ho]
            dsimp only
            rw [if_neg hf, if_neg (not_not.2 he)]
      · obtain ⟨x, q, rfl⟩ := not_notPair hv
        refine .inr ?_
        unfold editExampleColl
        rw [h.objectIntent ho]
        dsimp only
        rw [if_pos (show (PyColl.pair x q).ne (s.ctx.upF {o}) = true from rfl)]
        cases respectsAll (PyColl.pair x q) s.bg with
        | error e => exact ⟨e, rfl⟩
        | ok b => cases b <;> exact ⟨_, rfl⟩
    · refine .inr ⟨.keyError, ?_⟩
      unfold editExampleColl
      rw [objectIntent_err ho]
      rfl

theorem runC_sim {E : Env α β} {ops : List (OpC α β)} {s : EDB α β} (h : Inv E s) (hf : OkRunC E s ops) :
    ∃ ops', ops'.length ≤ ops.length ∧ OkRun E s ops' ∧ runC E s ops = run E s ops' := by
  induction ops generalizing s with
  | nil => exact ⟨[], le_refl _, trivial, rfl⟩
  | cons op ops ih =>
    obtain ⟨h1, h2, h3⟩ := hf
    rcases execC_sim (E := E) h.wf h.one op h2 with ⟨op', h4, h5⟩ | ⟨e, h5⟩
    · have hok := h4.ok h1
      have hI := (exec_step h hok).inv
      rw [h5] at h3
      obtain ⟨ops', h6, h7, h8⟩ := ih hI h3
      refine ⟨op' :: ops', by simpa using h6, ⟨hok, h7⟩, ?_⟩
      show runC E (s.execC E op).1 ops = run E (s.exec E op').1 ops'
      rw [h5]
      exact h8
    · rw [h5] at h3
      obtain ⟨ops', h6, h7, h8⟩ := ih h h3
      refine ⟨ops', Nat.le_succ_of_le h6, h7, ?_⟩
      show runC E (s.execC E op).1 ops = _
      rw [h5]
      exact h8

end EDB

open EDB in
/-- Databases over a `Context`: every history of calls with sets, frozensets, lists, iterators, and pairs of sets in the
calls other than `add_example`, leads to a state that a history of calls with sets only leads to, which is not longer;
so what holds after histories with sets holds here. -/
theorem C176_database_histories [PyName α] [PyName β] {E : EDB.Env α β} {c : Ctx α β} (h : c.WFw) (hne : c.objects ≠ [])
    {bg : List (Imp β)} (ho : ∀ i ∈ bg, i.premise ⊆ c.M ∧ i.conclusion ⊆ c.M)
    (hv : ∀ i ∈ bg, HoldsIn c.G c.Inc i.premise i.conclusion) {s₀ : EDB α β} (hi : init E c bg = .ok s₀)
    {ops : List (OpC α β)} (hf : OkRunC E s₀ ops) :
    ∃ ops' : List (Op α β), ops'.length ≤ ops.length ∧ OkRun E s₀ ops' ∧ runC E s₀ ops = run E s₀ ops' := by
  obtain ⟨s, h1, -, -, h4⟩ := init_ok (E := E) h hne ho hv
  rw [h1] at hi; cases hi
  exact runC_sim h4 hf

open EDB in
/-- In particular every background implication holds for every object (compare C57); for `add_example` with a pair of
sets this fails, see below. -/
theorem C176_database_background [PyName α] [PyName β] {E : EDB.Env α β} {c : Ctx α β} (h : c.WFw)
    (hne : c.objects ≠ []) {bg : List (Imp β)} (ho : ∀ i ∈ bg, i.premise ⊆ c.M ∧ i.conclusion ⊆ c.M)
    (hv : ∀ i ∈ bg, HoldsIn c.G c.Inc i.premise i.conclusion) {s₀ : EDB α β} (hi : init E c bg = .ok s₀)
    {ops : List (OpC α β)} (hf : OkRunC E s₀ ops) (s : EDB α β) (hs : s = runC E s₀ ops) :
    ∀ i ∈ s.bg, HoldsIn s.ctx.G s.ctx.Inc i.premise i.conclusion := by
  obtain ⟨ops', -, h1, h2⟩ := C176_database_histories h hne ho hv hi hf
  rw [hs, h2]
  exact fun i hi' => (C57_background_valid_partial h hne ho hv hi h1 i hi').1

open EDB in
example : OkRunC witEnv wit0 [.addExample 1 (.list [1]), .editExample 1 1 (.iter [1, 0]), .plain (.confirm ⟨∅, {0, 1}⟩),
      .editAttribute 0 0 (.pair {0} {1}), .editExample 0 0 (.frozen {0, 1})] ∧
    (runC witEnv wit0 [.addExample 1 (.list [1]), .editExample 1 1 (.iter [1, 0])]).ctx.nd.rows =
      [[true, true], [true, true]] :=
  ⟨⟨trivial, trivial, .inl rfl, trivial, by show _ ∈ _; decide +kernel, trivial, .inl rfl, trivial, .inl rfl, trivial,
    trivial⟩, by decide +kernel⟩

open EDB in
/-- What `add_example` and `reject_implication` do with something that is neither a `set` nor a pair of sets, for all
states: as soon as there is background knowledge, `add_example` raises TypeError, or IndexError for a list with fewer than
two names, although the intent may respect all implications. Without background knowledge a frozenset or a list is
accepted like the set of its elements. `reject_implication` raises TypeError or IndexError in any case. -/
theorem C176_database_kinds [PyName α] [PyName β] (E : EDB.Env α β) (s : EDB α β) (n : α) :
    (s.bg ≠ [] → (∀ B, s.addExampleColl E n (.frozen B) = (s, some .typeError)) ∧
      (∀ l, s.addExampleColl E n (.iter l) = (s, some .typeError)) ∧
      ∀ l, s.addExampleColl E n (.list l) = (s, some (if l.length < 2 then .indexError else .typeError))) ∧
    (s.bg = [] → (∀ B, s.addExampleColl E n (.frozen B) = s.addExample E n B) ∧
      ∀ l, s.addExampleColl E n (.list l) = s.addExample E n l.toFinset) ∧
    (∀ B, s.addExampleColl E n (.set B) = s.addExample E n B) ∧
    ∀ (imp : Imp β) (exs : List (α × PyColl β)),
      (∀ B, s.rejectWithColl E imp ((n, .frozen B) :: exs) = (s, some .typeError)) ∧
      (∀ l, s.rejectWithColl E imp ((n, .iter l) :: exs) = (s, some .typeError)) ∧
      ∀ l, s.rejectWithColl E imp ((n, .list l) :: exs) = (s, some (if l.length < 2 then .indexError else .typeError)) := by
  refine ⟨fun hbg => ?_, fun hbg => ?_, fun B => addExampleColl_set E s n B, fun imp exs => ⟨fun _ => rfl, fun _ => rfl,
    fun _ => rfl⟩⟩
  · unfold addExampleColl
    cases hb : s.bg with
    | nil => exact absurd hb hbg
    | cons i L => exact ⟨fun _ => rfl, fun _ => rfl, fun _ => rfl⟩
  · unfold addExampleColl addExample checkIntent Ctx.addObjectWithIntentColl
    simp only [hbg, row_frozen, row_list]
    exact ⟨fun _ => rfl, fun _ => rfl⟩

open EDB in
example : (wit0.confirm witEnv ⟨∅, {1}⟩).1.bg ≠ [] ∧ wit0.bg = [] ∧
    ((wit0.confirm witEnv ⟨∅, {1}⟩).1.addExampleColl witEnv 1 (.list [1])).2 = some .indexError := by decide +kernel

open EDB in
/-- A pair of sets is checked as a partial example and stored as an empty row, for all states: if `x` and `q` respect
the background knowledge in the sense of `PartialContext` and the name is new, the object is added without attributes.
If some implication of the background knowledge has an empty premise and a conclusion with an attribute of the context,
the new object violates it. -/
theorem C176_pair_violates [PyName α] [PyName β] {E : EDB.Env α β} {s : EDB α β} (h : s.ctx.WFw) (hne : s.ctx.objects ≠ [])
    {n : α} (hn : n ∉ s.ctx.objects) {x q : Finset β} (hr : ∀ i ∈ s.bg, i.isRespectedPartial (x, q) = true)
    (t : EDB α β) (ht : t = (s.addExampleColl E n (.pair x q)).1) :
    t.bg = s.bg ∧ t.ctx.objects = s.ctx.objects ++ [n] ∧ t.ctx.attributes = s.ctx.attributes ∧ (∀ a, ¬ t.ctx.Inc n a) ∧
    ∀ i ∈ s.bg, i.premise = ∅ → i.conclusion ≠ ∅ → ¬ HoldsIn t.ctx.G t.ctx.Inc i.premise i.conclusion := by
  have hra : respectsAll (.pair x q) s.bg = .ok true := by
    have : ∀ L : List (Imp β), (∀ i ∈ L, i.isRespectedPartial (x, q) = true) → respectsAll (.pair x q) L = .ok true := by
      intro L
      induction L with
      | nil => intro _; rfl
      | cons i L ih =>
        intro hL
        simp only [respectsAll, Imp.isRespectedColl, hL i (by simp)]
        exact ih fun j hj => hL j (by simp [hj])
    exact this _ hr
  obtain ⟨c', h1, h2, h3, h4, h5⟩ := BExp.add_object_ctx h hne hn (∅ : Finset β)
  have hrow : s.ctx.addObjectWithIntentColl (.pair x q) n = (c', none) := by
    rw [← h1]
    unfold Ctx.addObjectWithIntentColl Ctx.addObjectWithIntent
    rw [row_pair]
  have ht' : t = (EDB.modifier E ({ s with ctx := c' }, none)).1 := by
    rw [ht]
    unfold addExampleColl
    rw [hra]
    dsimp only
    rw [if_neg hn, hrow]
    rfl
  have hctx : t.ctx = c' ∧ t.bg = s.bg := by
    rw [ht']
    unfold EDB.modifier
    split <;> rename_i hh
    · simp at hh
    · obtain ⟨rfl⟩ := Prod.mk.inj hh
      split <;> exact ⟨rfl, rfl⟩
  have hemp : ∀ a, ¬ t.ctx.Inc n a := by
    intro a
    rw [hctx.1, h5]
    simp
  refine ⟨hctx.2, by rw [hctx.1, h3], by rw [hctx.1, h4], hemp, ?_⟩
  intro i hi hp hc hv
  obtain ⟨m, hm⟩ := Finset.nonempty_iff_ne_empty.2 hc
  have hnG : n ∈ t.ctx.G := by
    unfold Ctx.G
    rw [hctx.1, h3]
    simp
  exact hemp m (hv n hnG (by rw [hp]; simp) m hm)

/-- C57 with pairs of sets: a database with the background implication `∅ → {0}` accepts a pair of sets, both with
the attribute 0, and afterwards has an object that violates the implication. -/
theorem C176_pair_background_violated :
    ∃ (c : Ctx (Fin 3) (Fin 2)) (s : EDB (Fin 3) (Fin 2)), c.WFw ∧ EDB.init E2.witEnv c [⟨∅, {0}⟩] = .ok s ∧
      (∀ i ∈ s.bg, HoldsIn s.ctx.G s.ctx.Inc i.premise i.conclusion) ∧
      (s.addExampleColl E2.witEnv 2 (.pair {0} {0, 1})).2 = none ∧
      ∃ i ∈ (s.addExampleColl E2.witEnv 2 (.pair {0} {0, 1})).1.bg,
        ¬ HoldsIn (s.addExampleColl E2.witEnv 2 (.pair {0} {0, 1})).1.ctx.G
          (s.addExampleColl E2.witEnv 2 (.pair {0} {0, 1})).1.ctx.Inc i.premise i.conclusion := by
  refine ⟨E2.wit, ⟨E2.wit, [⟨∅, {0}⟩], [⟨{0}, {0, 1}⟩]⟩, E2.wit_wf, by decide +kernel, ?_, by decide +kernel, ⟨∅, {0}⟩, ?_, ?_⟩
  · simp only [HoldsIn, ← E2.wit_wf.incB]; decide +kernel
  · decide +kernel
  · refine (C176_pair_violates (s := ⟨E2.wit, [⟨∅, {0}⟩], [⟨{0}, {0, 1}⟩]⟩) E2.wit_wf (by decide) (by decide)
      (by decide +kernel) _ rfl).2.2.2.2 _ (by simp) rfl (by simp)

/-! ### exploration2 -/

namespace E2

variable [PyName α] [PyName β]

/-- What a call stands for: the same method with the same arguments and some set. -/
inductive Plays : OpC α β → Op α β → Prop where
  | plain (op : Op α β) : Plays (.plain op) op
  | reject (k : ℕ) (i : Imp β) (o : α) (v : PyColl β) (B : Finset β) : Plays (.reject k i o v) (.reject k i o B)
  | addObject (o : α) (v : PyColl β) (B : Finset β) : Plays (.addObject o v) (.addObject o B)

/-- The call is not one with a pair of sets. -/
def OpC.NoPair : OpC α β → Prop
  | .plain _ => True
  | .reject _ _ _ v => v.NotPair
  | .addObject _ v => v.NotPair

/-- The calls considered, as for sets (`Op.Ok`). -/
def OpC.Ok (E : EDB.Env α β) (s : E2 α β) : OpC α β → Prop
  | .plain op => op.Ok E s
  | .reject _ _ o _ => o ∉ s.ctx.objects
  | .addObject o _ => o ∉ s.ctx.objects

/-- Every call of the history is considered and has no pair of sets. -/
def OkRunC (E : EDB.Env α β) : E2 α β → List (OpC α β) → Prop
  | _, [] => True
  | s, op :: ops => op.Ok E s ∧ op.NoPair ∧ OkRunC E (s.execC op).1 ops

theorem Plays.ok {E : EDB.Env α β} {s : E2 α β} {op : OpC α β} {op' : Op α β} (h : Plays op op') (ho : op.Ok E s) :
    op'.Ok E s := by
  cases h <;> exact ho

theorem addObjectColl_set (s : E2 α β) (o : α) (B : Finset β) : s.addObjectColl o (.set B) = s.addObject o B := by
  unfold addObjectColl addObject
  cases s.sessions.getLast? with
  | none => rfl
  | some bg =>
    dsimp only
    rw [EDB.respectsAll_set]
    unfold Ctx.addObjectWithIntentColl
    rw [row_set]
    cases bg.all fun i => i.isRespected B <;> rfl

theorem execC_sim {s : E2 α β} (h : s.ctx.WFw) (op : OpC α β) (hp : op.NoPair) :
    (∃ op', Plays op op' ∧ s.execC op = s.exec op') ∨ ∃ e, s.execC op = (s, some e) := by
  cases op with
  | plain op => exact .inl ⟨op, .plain op, rfl⟩
  | addObject o v =>
    by_cases hs : ∃ B, v = .set B
    · obtain ⟨B, rfl⟩ := hs
      exact .inl ⟨_, .addObject o _ B, addObjectColl_set s o B⟩
    · show _ ∨ ∃ e, s.addObjectColl o v = (s, some e)
      cases hl : s.sessions.getLast? with
      | none =>
        refine .inr ⟨.attributeError, ?_⟩
        unfold addObjectColl
        rw [hl]
      | some bg =>
        by_cases hbg : bg = []
        · obtain ⟨B, hB⟩ := addObject_some_set h.anodup v
          refine .inl ⟨_, .addObject o v B, ?_⟩
          show s.addObjectColl o v = s.addObject o B
          unfold addObjectColl addObject
          rw [hl, hbg, hB]
          rfl
        · obtain ⟨e, he, -⟩ := EDB.respectsAll_other hp (fun B hB => hs ⟨B, hB⟩) hbg
          refine .inr ⟨e, ?_⟩
          unfold addObjectColl
          rw [hl]
          dsimp only
          rw [he]
  | reject k i o v =>
    by_cases hs : ∃ B, v = .set B
    · obtain ⟨B, rfl⟩ := hs
      refine .inl ⟨_, .reject k i o _ B, ?_⟩
      show s.rejectColl k i o (.set B) = s.reject k i o B
      unfold rejectColl reject
      rw [addObjectColl_set]
      cases s.sessions[k]? with
      | none => rfl
      | some bg =>
        dsimp only [Imp.isRespectedColl]
        cases i.isRespected B <;> rfl
    · refine .inr ?_
      show ∃ e, s.rejectColl k i o v = (s, some e)
      unfold rejectColl
      cases s.sessions[k]? with
      | none => exact ⟨_, rfl⟩
      | some bg =>
        cases v with
        | set B => exact absurd ⟨B, rfl⟩ hs
        | pair x q => exact hp.elim
        | frozen B => exact ⟨_, rfl⟩
        | list l => exact ⟨_, rfl⟩
        | iter l => exact ⟨_, rfl⟩

theorem runC_sim {E : EDB.Env α β} {ops : List (OpC α β)} {s : E2 α β} (h : Inv s) (hf : OkRunC E s ops) :
    ∃ ops', ops'.length ≤ ops.length ∧ OkRun E s ops' ∧ runC s ops = run s ops' := by
  induction ops generalizing s with
  | nil => exact ⟨[], le_refl _, trivial, rfl⟩
  | cons op ops ih =>
    obtain ⟨h1, h2, h3⟩ := hf
    rcases execC_sim h.wf op h2 with ⟨op', h4, h5⟩ | ⟨e, h5⟩
    · have hok := h4.ok h1
      have hI := exec_inv h hok
      rw [h5] at h3
      obtain ⟨ops', h6, h7, h8⟩ := ih hI h3
      refine ⟨op' :: ops', by simpa using h6, ⟨hok, h7⟩, ?_⟩
      show runC (s.execC op).1 ops = run (s.exec op').1 ops'
      rw [h5]
      exact h8
    · rw [h5] at h3
      obtain ⟨ops', h6, h7, h8⟩ := ih h h3
      refine ⟨ops', Nat.le_succ_of_le h6, h7, ?_⟩
      show runC (s.execC op).1 ops = _
      rw [h5]
      exact h8

end E2

/-- exploration2: every history with sets, frozensets, lists and iterators leads to a state that a history with sets
only leads to. -/
theorem C176_session_histories [PyName α] [PyName β] {E : EDB.Env α β} {c : Ctx α β} (h : c.WFw) (hne : c.objects ≠ [])
    {ops : List (E2.OpC α β)} (hf : E2.OkRunC E ⟨c, []⟩ ops) :
    ∃ ops' : List (E2.Op α β), ops'.length ≤ ops.length ∧ E2.OkRun E ⟨c, []⟩ ops' ∧
      E2.runC ⟨c, []⟩ ops = E2.run ⟨c, []⟩ ops' :=
  E2.runC_sim (E2.start_inv h hne) hf

/-- In particular the implications accepted in the session created last hold for every object (compare C60); for
pairs of sets this fails, see below. -/
theorem C176_session_accepted [PyName α] [PyName β] {E : EDB.Env α β} {c : Ctx α β} (h : c.WFw)
    (hne : c.objects ≠ []) {ops : List (E2.OpC α β)} (hf : E2.OkRunC E ⟨c, []⟩ ops) (s : E2 α β)
    (hs : s = E2.runC ⟨c, []⟩ ops) {k : ℕ} (hk : k + 1 = s.sessions.length) {bg : List (Imp β)}
    (hbg : s.sessions[k]? = some bg) : ∀ i ∈ bg, HoldsIn s.ctx.G s.ctx.Inc i.premise i.conclusion := by
  obtain ⟨ops', -, h1, h2⟩ := C176_session_histories h hne hf
  rw [h2] at hs
  exact fun i hi => (C60_last_session_partial h hne h1 s hs hk hbg i hi).1

example : E2.OkRunC E2.witEnv ⟨E2.wit, []⟩ [.plain .create, .addObject 1 (.list [1]),
      .plain (.accept 0 ⟨∅, {1}⟩), .addObject 2 (.frozen {0, 1}), .reject 0 ⟨∅, {0}⟩ 2 (.set {1})] ∧
    (E2.runC (⟨E2.wit, []⟩ : E2 (Fin 3) (Fin 2)) [.plain .create, .addObject 1 (.list [1]),
      .plain (.accept 0 ⟨∅, {1}⟩), .addObject 2 (.frozen {0, 1}), .reject 0 ⟨∅, {0}⟩ 2 (.set {1})]).ctx.nd.rows =
      [[true, true], [false, true], [false, true]] := by
  refine ⟨⟨trivial, trivial, by show _ ∉ _; decide +kernel, trivial, ⟨[⟨∅, {1}⟩], by decide +kernel, by simp⟩, trivial,
    by show _ ∉ _; decide +kernel, trivial, by show _ ∉ _; decide +kernel, trivial, trivial⟩, by decide +kernel⟩

/-- C60 with pairs of sets: a "counterexample" given as a pair of sets is accepted and stored as an empty row. It
violates an accepted implication, and satisfies the implication it is to refute. -/
theorem C176_pair_session_violated :
    ∃ s t : E2 (Fin 3) (Fin 2), s = E2.runC ⟨E2.wit, []⟩ [.plain .create, .plain (.accept 0 ⟨∅, {0}⟩)] ∧
      (s.rejectColl 0 ⟨{0}, {1}⟩ 2 (.pair {0} {0})) = (t, none) ∧ s.sessions = t.sessions ∧ s.sessions = [[⟨∅, {0}⟩]] ∧
      HoldsIn s.ctx.G s.ctx.Inc ∅ {0} ∧ ¬ HoldsIn t.ctx.G t.ctx.Inc ∅ {0} ∧
      HoldsIn t.ctx.G t.ctx.Inc {0} {1} := by
  have hw : (⟨[0, 2], [0, 1], ⟨some 2, [[true, true], [false, false]]⟩⟩ : Ctx (Fin 3) (Fin 2)).WFw := by
    constructor <;> decide +kernel
  refine ⟨⟨E2.wit, [[⟨∅, {0}⟩]]⟩, ⟨⟨[0, 2], [0, 1], ⟨some 2, [[true, true], [false, false]]⟩⟩, [[⟨∅, {0}⟩]]⟩, rfl, ?_, rfl,
    rfl, ?_, ?_, ?_⟩
  · have h1 : E2.wit.addObjectWithIntentColl (.pair {0} {0}) 2 =
        (⟨[0, 2], [0, 1], ⟨some 2, [[true, true], [false, false]]⟩⟩, none) := by decide +kernel
    have h2 : respectsAll (.pair {0} {0}) [(⟨∅, {0}⟩ : Imp (Fin 2))] = .ok true := by decide +kernel
    have h3 : Imp.isRespectedColl (⟨{0}, {1}⟩ : Imp (Fin 2)) (.pair {0} {0}) = .ok false := by decide +kernel
    simp only [E2.rejectColl, E2.addObjectColl, List.getElem?_cons_zero, List.getLast?_singleton, h1, h2, h3]
  · simp only [HoldsIn, ← E2.wit_wf.incB]; decide +kernel
  · simp only [HoldsIn, ← hw.incB]; decide +kernel
  · simp only [HoldsIn, ← hw.incB]; decide +kernel

/-! ### BasicExploration -/

namespace BExp

variable [PyName α] [PyName β]

theorem checkColl_set {γ : Type} [DecidableEq γ] {v : PyColl γ} {B : Finset γ} (hv : v = .set B ∨ v = .frozen B)
    (K : List (Imp γ)) : checkColl v K = .ok (check K B) := by
  have hi : ∀ s, v.inter s = .ok (s ∩ B) := by rcases hv with rfl | rfl <;> exact fun _ => rfl
  induction K with
  | nil => rfl
  | cons i K ih =>
    unfold checkColl
    rw [hi, py_ok_bind, hi, py_ok_bind, ih]
    unfold check
    rw [List.all_cons]
    by_cases h1 : i.premise ∩ B ≠ i.premise
    · simp [h1]
    · by_cases h2 : i.reduced ∩ B = i.reduced
      · simp [h1, h2]
      · simp [h1, h2]

theorem checkColl_other {γ : Type} [DecidableEq γ] {v : PyColl γ} (hv : ∀ B, v ≠ .set B ∧ v ≠ .frozen B)
    {K : List (Imp γ)} (hK : K ≠ []) : checkColl v K = .error .typeError := by
  cases K with
  | nil => exact absurd rfl hK
  | cons i K =>
    cases v with
    | set B => exact absurd rfl (hv B).1
    | frozen B => exact absurd rfl (hv B).2
    | _ => rfl

/-- What a call stands for: the same method with the same arguments and some set. -/
inductive Plays : OpC α β → Op α β → Prop where
  | plain (op : Op α β) : Plays (.plain op) op
  | counterAttr (n : α) (v : PyColl β) (i : ℕ) (B : Finset β) : Plays (.counterAttr n v i) (.counterAttr n B i)
  | counterObj (n : β) (v : PyColl α) (i : ℕ) (A : Finset α) : Plays (.counterObj n v i) (.counterObj n A i)
  | addObject (v : PyColl β) (n : α) (B : Finset β) : Plays (.addObject v n) (.addObject B n)
  | addAttribute (v : PyColl α) (n : β) (A : Finset α) : Plays (.addAttribute v n) (.addAttribute A n)
  | editObject (v : PyColl β) (n : α) (B : Finset β) : Plays (.editObject v n) (.editObject B n)
  | editAttribute (v : PyColl α) (n : β) (A : Finset α) : Plays (.editAttribute v n) (.editAttribute A n)

/-- Names used for additions are new. -/
def OpC.Fresh (c : Ctx α β) : OpC α β → Prop
  | .plain op => op.Fresh c
  | .counterAttr n _ _ | .addObject _ n => n ∉ c.objects
  | .counterObj n _ _ | .addAttribute _ n => n ∉ c.attributes
  | _ => True

/-- Every call of the history uses new names for additions. -/
def FreshRunC (E : Env α β) : BExp α β → List (OpC α β) → Prop
  | _, [] => True
  | s, op :: ops => op.Fresh s.ctx ∧ FreshRunC E (s.execC E op).1 ops

theorem Plays.fresh {c : Ctx α β} {op : OpC α β} {op' : Op α β} (h : Plays op op') (ho : op.Fresh c) : op'.Fresh c := by
  cases h <;> exact ho

theorem checked_set {γ : Type} [DecidableEq γ] {E : Env α β} {s : BExp α β} {v : PyColl γ} {B : Finset γ}
    (hv : v = .set B ∨ v = .frozen B) (K : List (Imp γ)) (m : Ctx.Mut α β) :
    checked E s v K m = if !(check K B) then (s, some .basisConflict) else thenRecompute E s m := by
  unfold checked
  rw [checkColl_set hv]
  cases check K B <;> rfl

theorem kinds {γ : Type} (v : PyColl γ) :
    (∃ B, v = .set B ∨ v = .frozen B) ∨ ∀ B, v ≠ .set B ∧ v ≠ .frozen B := by
  cases v with
  | set B => exact .inl ⟨B, .inl rfl⟩
  | frozen B => exact .inl ⟨B, .inr rfl⟩
  | _ => exact .inr fun B => ⟨by simp, by simp⟩

theorem addObjectWithIntent_set {c : Ctx α β} {v : PyColl β} {B : Finset β} (hv : v = .set B ∨ v = .frozen B) (n : α) :
    c.addObjectWithIntentColl v n = c.addObjectWithIntent B n := by
  unfold Ctx.addObjectWithIntentColl
  rcases hv with rfl | rfl
  · rw [row_set]; rfl
  · rw [row_frozen]; rfl

theorem addAttributeWithExtent_set {c : Ctx α β} {v : PyColl α} {A : Finset α} (hv : v = .set A ∨ v = .frozen A) (n : β) :
    c.addAttributeWithExtentColl v n = c.addAttributeWithExtent A n := by
  unfold Ctx.addAttributeWithExtentColl
  rcases hv with rfl | rfl
  · rw [row_set]; rfl
  · rw [row_frozen]; rfl

theorem addObjectColl_set {E : Env α β} {s : BExp α β} {v : PyColl β} {B : Finset β} (hv : v = .set B ∨ v = .frozen B)
    (n : α) : s.addObjectColl E v n = s.addObject E B n := by
  unfold addObjectColl addObject
  rw [checked_set hv, addObjectWithIntent_set hv]

theorem addAttributeColl_set {E : Env α β} {s : BExp α β} {v : PyColl α} {A : Finset α} (hv : v = .set A ∨ v = .frozen A)
    (n : β) : s.addAttributeColl E v n = s.addAttribute E A n := by
  unfold addAttributeColl addAttribute
  rw [checked_set hv, addAttributeWithExtent_set hv]

theorem counterColl_set {γ : Type} [DecidableEq γ] {s : BExp α β} {L : List (Imp γ)} {v : PyColl γ} {B : Finset γ}
    (hv : v = .set B ∨ v = .frozen B) (i : ℕ) (rest : BExp α β × Option PyErr) :
    counterColl s L v i rest = match L[i]? with
      | none => (s, some .indexError)
      | some imp =>
        if imp.premise ∩ B ≠ imp.premise then (s, some .notCounterExamplePremise)
        else if imp.reduced ∩ B = imp.reduced then (s, some .notCounterExampleConclusion)
        else rest := by
  have hi : ∀ s, v.inter s = .ok (s ∩ B) := by rcases hv with rfl | rfl <;> exact fun _ => rfl
  unfold counterColl
  cases L[i]? with
  | none => rfl
  | some imp =>
    dsimp only
    rw [hi, hi]

theorem counterColl_other {γ : Type} [DecidableEq γ] {s : BExp α β} {L : List (Imp γ)} {v : PyColl γ}
    (hv : ∀ B, v ≠ .set B ∧ v ≠ .frozen B) (i : ℕ) (rest : BExp α β × Option PyErr) :
    counterColl s L v i rest = (s, some (if i < L.length then .typeError else .indexError)) := by
  unfold counterColl
  by_cases hi : i < L.length
  · rw [List.getElem?_eq_getElem hi, if_pos hi]
    cases v with
    | set B => exact absurd rfl (hv B).1
    | frozen B => exact absurd rfl (hv B).2
    | _ => rfl
  · rw [List.getElem?_eq_none (by omega), if_neg hi]

theorem checked_other {γ : Type} [DecidableEq γ] {E : Env α β} {s : BExp α β} {v : PyColl γ}
    (hv : ∀ B, v ≠ .set B ∧ v ≠ .frozen B) {K : List (Imp γ)} (hK : K ≠ []) (m : Ctx.Mut α β) :
    checked E s v K m = (s, some .typeError) := by
  unfold checked
  rw [checkColl_other hv hK]

theorem execC_sim {E : Env α β} {s : BExp α β} (h : s.ctx.WFw) (op : OpC α β) :
    (∃ op', Plays op op' ∧ s.execC E op = s.exec E op') ∨ ∃ e, s.execC E op = (s, some e) := by
  cases op with
  | plain op => exact .inl ⟨op, .plain op, rfl⟩
  | counterAttr n v i =>
    rcases kinds v with ⟨B, hv⟩ | hv
    · refine .inl ⟨_, .counterAttr n v i B, ?_⟩
      show s.counterAttrColl E n v i = s.counterAttr E n B i
      unfold counterAttrColl counterAttr
      rw [counterColl_set hv, addObjectColl_set hv]
      rfl
    · exact .inr ⟨_, counterColl_other hv i _⟩
  | counterObj n v i =>
    rcases kinds v with ⟨B, hv⟩ | hv
    · refine .inl ⟨_, .counterObj n v i B, ?_⟩
      show s.counterObjColl E n v i = s.counterObj E n B i
      unfold counterObjColl counterObj
      rw [counterColl_set hv, addAttributeColl_set hv]
      rfl
    · exact .inr ⟨_, counterColl_other hv i _⟩
  | addObject v n =>
    rcases kinds v with ⟨B, hv⟩ | hv
    · exact .inl ⟨_, .addObject v n B, addObjectColl_set hv n⟩
    · by_cases hK : s.confAttr = []
      · obtain ⟨B, hB⟩ := addObject_some_set h.anodup v
        refine .inl ⟨_, .addObject v n B, ?_⟩
        show s.addObjectColl E v n = s.addObject E B n
        unfold addObjectColl addObject checked
        rw [hB, hK]
        rfl
      · exact .inr ⟨_, checked_other hv hK _⟩
  | addAttribute v n =>
    rcases kinds v with ⟨B, hv⟩ | hv
    · exact .inl ⟨_, .addAttribute v n B, addAttributeColl_set hv n⟩
    · by_cases hK : s.confObj = []
      · obtain ⟨B, hB⟩ := addAttribute_some_set h.onodup v
        refine .inl ⟨_, .addAttribute v n B, ?_⟩
        show s.addAttributeColl E v n = s.addAttribute E B n
        unfold addAttributeColl addAttribute checked
        rw [hB, hK]
        rfl
      · exact .inr ⟨_, checked_other hv hK _⟩
  | editObject v n =>
    rcases kinds v with ⟨B, hv⟩ | hv
    · refine .inl ⟨_, .editObject v n B, ?_⟩
      show s.editObjectColl E v n = s.editObject E B n
      unfold editObjectColl editObject
      rw [checked_set hv]
      rcases hv with rfl | rfl <;> rfl
    · by_cases hK : s.confAttr = []
      · by_cases hp : v.NotPair
        · refine .inl ⟨_, .editObject v n v.elems, ?_⟩
          show s.editObjectColl E v n = s.editObject E v.elems n
          unfold editObjectColl editObject checked
          rw [setObject_elems _ _ hp, hK]
          rfl
        · obtain ⟨x, q, rfl⟩ := not_notPair hp
          refine .inr ⟨.typeError, ?_⟩
          show s.editObjectColl E _ n = _
          unfold editObjectColl checked
          rw [hK]
          rfl
      · exact .inr ⟨_, checked_other hv hK _⟩
  | editAttribute v n =>
    rcases kinds v with ⟨B, hv⟩ | hv
    · refine .inl ⟨_, .editAttribute v n B, ?_⟩
      show s.editAttributeColl E v n = s.editAttribute E B n
      unfold editAttributeColl editAttribute
      rw [checked_set hv]
      rcases hv with rfl | rfl <;> rfl
    · by_cases hK : s.confObj = []
      · by_cases hp : v.NotPair
        · refine .inl ⟨_, .editAttribute v n v.elems, ?_⟩
          show s.editAttributeColl E v n = s.editAttribute E v.elems n
          unfold editAttributeColl editAttribute checked
          rw [setAttribute_elems _ _ hp, hK]
          rfl
        · obtain ⟨x, q, rfl⟩ := not_notPair hp
          refine .inr ⟨.typeError, ?_⟩
          show s.editAttributeColl E _ n = _
          unfold editAttributeColl checked
          rw [hK]
          rfl
      · exact .inr ⟨_, checked_other hv hK _⟩

theorem runC_sim {E : Env α β} (hE : E.Ok) {ops : List (OpC α β)} {s : BExp α β} (h : Inv s) (hf : FreshRunC E s ops) :
    ∃ ops', ops'.length ≤ ops.length ∧ FreshRun E s ops' ∧ runC E s ops = run E s ops' ∧
      ∀ op' ∈ ops', ∃ op ∈ ops, Plays op op' := by
  induction ops generalizing s with
  | nil => exact ⟨[], le_refl _, trivial, rfl, by simp⟩
  | cons op ops ih =>
    obtain ⟨h1, h3⟩ := hf
    rcases execC_sim (E := E) h.wf op with ⟨op', h4, h5⟩ | ⟨e, h5⟩
    · have hok := h4.fresh h1
      have hI := (exec_step hE h hok).inv
      rw [h5] at h3
      obtain ⟨ops', h6, h7, h8, h9⟩ := ih hI h3
      refine ⟨op' :: ops', by simpa using h6, ⟨hok, h7⟩, ?_, ?_⟩
      · show runC E (s.execC E op).1 ops = run E (s.exec E op').1 ops'
        rw [h5]
        exact h8
      · intro x hx
        rcases List.mem_cons.1 hx with rfl | hx
        · exact ⟨op, by simp, h4⟩
        · obtain ⟨y, hy, hp⟩ := h9 x hx
          exact ⟨y, by simp [hy], hp⟩
    · rw [h5] at h3
      obtain ⟨ops', h6, h7, h8, h9⟩ := ih h h3
      refine ⟨ops', Nat.le_succ_of_le h6, h7, ?_, fun x hx => ?_⟩
      · show runC E (s.execC E op).1 ops = _
        rw [h5]
        exact h8
      · obtain ⟨y, hy, hp⟩ := h9 x hx
        exact ⟨y, by simp [hy], hp⟩

end BExp

section basic
variable [PyName α] [PyName β]

open BExp in
/-- `BasicExploration`: every history with arguments of any of the kinds leads to a state that a history of calls with
sets only leads to, each of which is a call of the given history with some set in place of the argument. So pairs of
sets do no harm here. -/
theorem C176_basic_histories {E : BExp.Env α β} (hE : E.Ok) {c : Ctx α β} (h : c.WFw) (h1 : c.objects ≠ [])
    (h2 : c.attributes ≠ []) {s₀ : BExp α β} (hi : init E c = .ok s₀) {ops : List (BExp.OpC α β)}
    (hf : FreshRunC E s₀ ops) :
    ∃ ops' : List (BExp.Op α β), ops'.length ≤ ops.length ∧ FreshRun E s₀ ops' ∧ runC E s₀ ops = run E s₀ ops' ∧
      ∀ op' ∈ ops', ∃ op ∈ ops, Plays op op' := by
  obtain ⟨s, h6, -, -, -, h7⟩ := init_ok hE h h1 h2
  rw [h6] at hi; cases hi
  exact runC_sim hE h7 hf

open BExp in
/-- In particular C55: the confirmed attribute implications hold for all objects unless `edit_attribute` is called, the
confirmed object implications for all attributes unless `edit_object` is called. -/
theorem C176_basic_confirmed {E : BExp.Env α β} (hE : E.Ok) {c : Ctx α β} (h : c.WFw) (h1 : c.objects ≠ [])
    (h2 : c.attributes ≠ []) {s₀ : BExp α β} (hi : init E c = .ok s₀) {ops : List (BExp.OpC α β)}
    (hf : FreshRunC E s₀ ops) (s : BExp α β) (hs : s = runC E s₀ ops) :
    ((∀ op ∈ ops, ∀ v A n, op ≠ .editAttribute v n ∧ op ≠ .plain (.editAttribute A n)) →
      ∀ i ∈ s.confAttr, HoldsIn s.ctx.G s.ctx.Inc i.premise i.conclusion) ∧
    ((∀ op ∈ ops, ∀ v B n, op ≠ .editObject v n ∧ op ≠ .plain (.editObject B n)) →
      ∀ i ∈ s.confObj, HoldsIn s.ctx.M (fun a o => s.ctx.Inc o a) i.premise i.conclusion) := by
  obtain ⟨ops', -, h3, h4, h5⟩ := C176_basic_histories hE h h1 h2 hi hf
  rw [hs, h4]
  constructor
  · intro hop
    refine C55_attribute_side_partial hE h h1 h2 hi h3 ?_
    rintro _ hop' A n rfl
    obtain ⟨op, hm, hp⟩ := h5 _ hop'
    cases hp with
    | plain => exact (hop _ hm (.set ∅) A n).2 rfl
    | editAttribute v => exact (hop _ hm v A n).1 rfl
  · intro hop
    refine C55_object_side_partial hE h h1 h2 hi h3 ?_
    rintro _ hop' A n rfl
    obtain ⟨op, hm, hp⟩ := h5 _ hop'
    cases hp with
    | plain => exact (hop _ hm (.set ∅) A n).2 rfl
    | editObject v => exact (hop _ hm v A n).1 rfl

open BExp in
example : FreshRunC witEnv wit0 [.editObject (.iter [1]) 1, .plain (.confirmAttr 0), .editObject (.list [0]) 1,
      .editObject (.frozen {1}) 1] ∧
    (runC witEnv wit0 [.editObject (.iter [1]) 1, .plain (.confirmAttr 0), .editObject (.list [0]) 1]).confAttr =
      [⟨∅, {1}⟩] := ⟨⟨trivial, trivial, trivial, trivial, trivial⟩, by decide +kernel⟩

open BExp in
/-- What the methods of `BasicExploration` do with lists, pairs of sets and iterators, for all states: counterexamples
raise TypeError (IndexError if there is no such implication), and the other methods raise TypeError as soon as there is a
confirmed implication on the respective side. -/
theorem C176_basic_kinds (E : BExp.Env α β) (s : BExp α β) :
    (∀ v : PyColl β, (∀ B, v ≠ .set B ∧ v ≠ .frozen B) →
      (∀ n i, s.counterAttrColl E n v i = (s, some (if i < s.attrImps.length then .typeError else .indexError))) ∧
      (s.confAttr ≠ [] → ∀ n, s.addObjectColl E v n = (s, some .typeError) ∧
        s.editObjectColl E v n = (s, some .typeError))) ∧
    (∀ v : PyColl α, (∀ A, v ≠ .set A ∧ v ≠ .frozen A) →
      (∀ n i, s.counterObjColl E n v i = (s, some (if i < s.objImps.length then .typeError else .indexError))) ∧
      (s.confObj ≠ [] → ∀ n, s.addAttributeColl E v n = (s, some .typeError) ∧
        s.editAttributeColl E v n = (s, some .typeError))) ∧
    (∀ B n, s.addObjectColl E (.frozen B) n = s.addObject E B n) ∧
    (∀ A n, s.addAttributeColl E (.frozen A) n = s.addAttribute E A n) :=
  ⟨fun _ hv => ⟨fun _ i => counterColl_other hv i _, fun hK _ => ⟨checked_other hv hK _, checked_other hv hK _⟩⟩,
    fun _ hv => ⟨fun _ i => counterColl_other hv i _, fun hK _ => ⟨checked_other hv hK _, checked_other hv hK _⟩⟩,
    fun _ n => addObjectColl_set (.inr rfl) n, fun _ n => addAttributeColl_set (.inr rfl) n⟩

open BExp in
example : (wit0.confirmAttr 0).1.confAttr ≠ [] ∧ 0 < wit0.attrImps.length ∧
    ((wit0.confirmAttr 0).1.editObjectColl witEnv (.list [1]) 1).2 = some .typeError := by decide +kernel

/-! ### patterns -/

/-- The methods of the pattern exploration, for all states: frozensets and lists act like the set of their elements, also
in the test of the pattern; a pair of sets raises TypeError if there is a pattern and is an empty intent otherwise. -/
theorem C176_patterns (s : PExp α β) (n : α) (p : Option (List β)) :
    (∀ B, s.addNegativeColl n (.set B) p = s.addNegative n B p ∧ s.addNegativeColl n (.frozen B) p = s.addNegative n B p) ∧
    (∀ l, s.addNegativeColl n (.list l) p = s.addNegative n l.toFinset p) ∧
    (∀ B, s.addPositiveColl n (.set B) = s.addPositive n B ∧ s.addPositiveColl n (.frozen B) = s.addPositive n B) ∧
    (∀ l, s.addPositiveColl n (.list l) = s.addPositive n l.toFinset) ∧
    (∀ x q, s.addPositiveColl n (.pair x q) = s.addPositive n ∅) ∧
    ∀ x q, s.addNegativeColl n (.pair x q) p =
      if p.isSome then (s, some .typeError) else s.addNegative n ∅ none := by
  unfold PExp.addNegativeColl PExp.addNegative PExp.addPositiveColl PExp.addPositive Ctx.addObjectWithIntentColl
  simp only [row_set, row_frozen, row_list, row_pair]
  cases p with
  | none => exact ⟨fun _ => ⟨rfl, rfl⟩, fun _ => rfl, fun _ => ⟨rfl, rfl⟩, fun _ => rfl, fun _ _ => rfl, fun _ _ => rfl⟩
  | some p =>
    simp only [toSet, row_set, row_frozen, row_list]
    exact ⟨fun _ => ⟨rfl, rfl⟩, fun _ => rfl, fun _ => ⟨rfl, rfl⟩, fun _ => rfl, fun _ _ => rfl, fun _ _ => rfl⟩

/-- `add_negative_example` with a pattern and an iterator, for all states with at least one negative example: the test of
the pattern reads the iterator to its end, so that an example with all attributes of the pattern is stored without any
attribute, and does not have the pattern. An iterator without some attribute of the pattern raises NotNegativeExample. -/
theorem C176_pattern_iterator {s : PExp α β} (h : s.neg.WFw) (hne : s.neg.objects ≠ []) {n : α} (hn : n ∉ s.neg.objects)
    (l p : List β) :
    (¬ p ⊆ l → s.addNegativeColl n (.iter l) (some p) = (s, some .notNegativeExample)) ∧
    (p ⊆ l → ∃ t, s.addNegativeColl n (.iter l) (some p) = (t, none) ∧ t.pos = s.pos ∧ t.confirmed = s.confirmed ∧
      t.neg.objects = s.neg.objects ++ [n] ∧ t.neg.objectIntent n = .ok ∅ ∧
      (p ≠ [] → ¬ p.toFinset ⊆ (∅ : Finset β))) := by
  have hsub : p.toFinset \ l.toFinset = ∅ ↔ p ⊆ l := by
    rw [Finset.sdiff_eq_empty_iff_subset]
    exact ⟨fun hh a ha => by simpa using hh (by simpa using ha), fun hh a ha => by simpa using hh (by simpa using ha)⟩
  unfold PExp.addNegativeColl
  simp only [toSet]
  constructor
  · intro hp
    rw [if_pos (fun he => hp (hsub.1 he))]
  · intro hp
    rw [if_neg (not_not.2 (hsub.2 hp))]
    obtain ⟨c', h1, h2, h3, h4, h5⟩ := BExp.add_object_ctx h hne hn (∅ : Finset β)
    have hrow : s.neg.addObjectWithIntentColl (.iter []) n = (c', none) := by
      rw [← h1]
      unfold Ctx.addObjectWithIntentColl Ctx.addObjectWithIntent
      have : ∀ as : List β, row as (.iter []) = (as.map fun a => decide (a ∈ (∅ : Finset β)), .iter []) :=
        fun as => row_stable fun a => by simp [PyColl.mem, elems]
      rw [this]
    refine ⟨{ s with neg := c' }, by simp only [hrow], rfl, rfl, h3, ?_, ?_⟩
    · show c'.objectIntent n = .ok ∅
      rw [h2.objectIntent (by rw [h3]; simp)]
      congr 1
      ext a
      rw [h2.mem_upF]
      simp only [Finset.mem_singleton, forall_eq, Finset.notMem_empty, iff_false, not_and]
      intro _
      rw [h5]
      simp
    · intro hp0 hs
      rw [Finset.subset_empty, List.toFinset_eq_empty_iff] at hs
      exact hp0 hs

example : E2.wit.WFw ∧ E2.wit.objects ≠ [] ∧ (2 : Fin 3) ∉ E2.wit.objects ∧ ([1] : List (Fin 2)) ⊆ [0, 1] :=
  ⟨E2.wit_wf, by decide, by decide, by decide⟩

end basic

/-! ### edit_attribute of the database -/

theorem PyColl.row_iter_rest {γ : Type} [DecidableEq γ] {as l : List γ} (h : ¬ as.Sublist l) :
    (row as (.iter l)).2 = .iter [] := by
  have hnil : ∀ as : List γ, (row as (.iter [])).2 = .iter [] := by
    intro as
    rw [row_stable (v := .iter []) fun a => by simp [PyColl.mem, elems]]
  induction as generalizing l with
  | nil => simp at h
  | cons a as ih =>
    show (row as (.iter (l.drop (l.idxOf a + 1)))).2 = .iter []
    by_cases ha : a ∈ l
    · exact ih fun hs => h (cons_sublist_iff_drop.2 ⟨ha, hs⟩)
    · rw [show l.drop (l.idxOf a + 1) = [] from List.drop_eq_nil_iff.2 (by rw [List.idxOf_eq_length ha]; omega)]
      exact hnil as

/-- `edit_attribute` with an iterator, for all states: unless the iterator yields all objects of the context in their
order, the loop over the objects reads it to its end, and the attribute is edited as if the extent were empty. -/
theorem C176_edit_attribute_iterator [PyName α] [PyName β] (E : EDB.Env α β) (s : EDB α β) (n o : β) {l : List α}
    (hl : ¬ s.ctx.objects.Sublist l) :
    s.editAttributeColl E n o (.iter l) = s.editAttribute E n o ∅ := by
  unfold EDB.editAttributeColl EDB.editAttribute
  rw [row_iter_rest hl, setAttribute_elems _ _ (v := .iter []) trivial]
  rfl

example : ¬ EDB.wit0.ctx.objects.Sublist [1] ∧
    (EDB.wit0.editAttributeColl EDB.witEnv 1 1 (.iter [1])).1.ctx.nd.rows = [[true, false], [false, false]] ∧
    (EDB.wit0.editAttributeColl EDB.witEnv 1 1 (.list [1])).1.ctx.nd.rows = [[true, false], [false, true]] := by
  decide +kernel

/-- `reject_implication` of the attribute exploration, for all states and examples: with sets it is what `EDB.rejectWith`
says. The first example as a pair of sets is tested as a partial example, and the examples are added one after another if
it refutes the implication in this sense. -/
theorem C176_reject [PyName α] [PyName β] (E : EDB.Env α β) (s : EDB α β) (imp : Imp β) :
    (∀ exs : List (α × Finset β), s.rejectWithColl E imp (exs.map fun e => (e.1, .set e.2)) = s.rejectWith E imp exs) ∧
    ∀ (n : α) (x q : Finset β) (exs : List (α × PyColl β)),
      (imp.isRespectedPartial (x, q) = true →
        s.rejectWithColl E imp ((n, .pair x q) :: exs) = (s, some .notCounterexample)) ∧
      (imp.isRespectedPartial (x, q) = false →
        s.rejectWithColl E imp [(n, .pair x q)] = s.addExampleColl E n (.pair x q)) := by
  constructor
  · intro exs
    have hf : ∀ (l : List (α × Finset β)) (r : EDB α β × Option PyErr),
        (l.map fun e => (e.1, PyColl.set e.2)).foldl (fun r e => EDB.andThen r fun s => s.addExampleColl E e.1 e.2) r =
        l.foldl (fun r e => EDB.andThen r fun s => s.addExample E e.1 e.2) r := by
      intro l
      induction l with
      | nil => exact fun _ => rfl
      | cons e l ih =>
        intro r
        simp only [List.map_cons, List.foldl_cons, EDB.addExampleColl_set]
        exact ih _
    cases exs with
    | nil => rfl
    | cons e exs =>
      have h := hf (e :: exs) (s, none)
      rw [List.map_cons] at h
      unfold EDB.rejectWithColl EDB.rejectWith
      rw [List.map_cons, h]
      dsimp only [Imp.isRespectedColl]
      cases imp.isRespected e.2 <;> rfl
  · intro n x q exs
    unfold EDB.rejectWithColl
    dsimp only [Imp.isRespectedColl]
    exact ⟨fun h => by rw [h], fun h => by rw [h]; rfl⟩

example : (⟨{0}, {1}⟩ : Imp (Fin 2)).isRespectedPartial ({0}, {0}) = false ∧
    (⟨{0}, {1}⟩ : Imp (Fin 2)).isRespectedPartial ({0}, {1}) = true := by decide +kernel
