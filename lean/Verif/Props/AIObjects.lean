/-
Property C148: the attribute-incremental algorithm with its shared and changed sets computes what the model with values
computes.
-/
import Verif.Model.AIObjects
import Verif.Props.AIBasis
import Mathlib.Data.List.Nodup

set_option linter.unusedSectionVars false

variable {α β : Type} [DecidableEq α] [DecidableEq β]

open Spec

namespace AIObj

/-! ### Reading -/

/-- The value of an element at present. -/
def Elem.read (H : Heap β) (p : Elem α) : AI.Pre α β := ⟨p.ext, H.mem p.set, p.imp.map fun i => H.mem i.concl⟩

/-- The values of the local lists. -/
def St.read (H : Heap β) (st : St α) : AI.St α β :=
  ⟨st.oldStable.map (Impl.read H), st.newStable.map (Impl.read H), st.minMod.map (Impl.read H),
    st.nonMin.map (Elem.read H), st.modExtra.map (Elem.read H), st.newPre.map (Elem.read H)⟩

/-- The set objects an element holds. -/
def Elem.addrs (p : Elem α) : List ℕ :=
  match p.imp with
  | none => [p.set]
  | some i => [p.set, i.concl]

/-- The set objects an implication holds. -/
def Impl.addrs (i : Impl) : List ℕ := [i.prem, i.concl]

/-- "assuming that premise and implication.premise are the same object" (fca/algorithms/aibasis.py:39). -/
def Elem.Good (p : Elem α) : Prop := ∀ i, p.imp = some i → i.prem = p.set

/-- All elements. -/
def St.elems (st : St α) : List (Elem α) := st.newPre ++ st.nonMin ++ st.modExtra

structure Inv (lo : ℕ) (todo : List (Elem α)) (H : Heap β) (st : St α) : Prop where
  good : ∀ p ∈ todo ++ st.elems, p.Good
  nodup : ((todo ++ st.elems).flatMap Elem.addrs).Nodup
  bound : ∀ a ∈ (todo ++ st.elems).flatMap Elem.addrs, a < H.next
  low : ∀ a ∈ (todo ++ st.elems).flatMap Elem.addrs, lo ≤ a
  impls : (st.oldStable ++ st.newStable ++ st.minMod).Perm (st.newPre.filterMap Elem.imp)
  nonMin : ∀ p ∈ st.nonMin, p.imp ≠ none
  extra : ∀ p ∈ st.modExtra, p.imp = none

/-- What a step may change: the sets of `A` and new ones. -/
structure Frame (A : List ℕ) (H H' : Heap β) : Prop where
  next : H.next ≤ H'.next
  same : ∀ a, a ∉ A → a < H.next → H'.mem a = H.mem a

theorem Frame.refl (A : List ℕ) (H : Heap β) : Frame A H H := ⟨le_refl _, fun _ _ _ => rfl⟩

theorem Frame.trans {A : List ℕ} {H H' H'' : Heap β} (h : Frame A H H') (h' : Frame A H' H'') : Frame A H H'' :=
  ⟨h.next.trans h'.next, fun a ha hn => by rw [h'.same a ha (lt_of_lt_of_le hn h.next), h.same a ha hn]⟩

theorem Frame.alloc (A : List ℕ) (H : Heap β) (s : Finset β) : Frame A H (H.alloc s).2 :=
  ⟨Nat.le_succ _, fun _ _ hn => Function.update_of_ne (Nat.ne_of_lt hn) _ _⟩

theorem Frame.write {A : List ℕ} (H : Heap β) {a : ℕ} (s : Finset β) (ha : a ∈ A ∨ H.next ≤ a) : Frame A H (H.write a s) :=
  ⟨le_refl _, fun b hb hn => Function.update_of_ne (by
    rintro rfl
    rcases ha with ha | ha
    · exact hb ha
    · omega) _ _⟩

theorem Frame.mono {A B : List ℕ} {H H' : Heap β} (h : Frame A H H') (hAB : ∀ a ∈ A, a ∈ B) : Frame B H H' :=
  ⟨h.next, fun a ha hn => h.same a (fun h' => ha (hAB a h')) hn⟩

theorem Elem.read_congr {H H' : Heap β} {p : Elem α} (h : ∀ a ∈ p.addrs, H'.mem a = H.mem a) :
    p.read H' = p.read H := by
  unfold Elem.read
  unfold Elem.addrs at h
  obtain ⟨e, s, i⟩ := p
  cases i with
  | none => simp only [Option.map_none] at h ⊢; rw [h s (by simp)]
  | some i => simp only [Option.map_some] at h ⊢; rw [h s (by simp), h i.concl (by simp)]

theorem Impl.read_congr {H H' : Heap β} {i : Impl} (h : ∀ a ∈ i.addrs, H'.mem a = H.mem a) :
    i.read H' = i.read H := by
  unfold Impl.read
  rw [h i.prem (by simp [Impl.addrs]), h i.concl (by simp [Impl.addrs])]

theorem Frame.elems {A : List ℕ} {H H' : Heap β} (h : Frame A H H') {l : List (Elem α)}
    (hd : ∀ a ∈ l.flatMap Elem.addrs, a ∉ A ∧ a < H.next) : l.map (Elem.read H') = l.map (Elem.read H) := by
  refine List.map_congr_left fun p hp => Elem.read_congr fun a ha => ?_
  obtain ⟨h1, h2⟩ := hd a (List.mem_flatMap.2 ⟨p, hp, ha⟩)
  exact h.same a h1 h2

theorem Frame.impls {A : List ℕ} {H H' : Heap β} (h : Frame A H H') {l : List Impl}
    (hd : ∀ a ∈ l.flatMap Impl.addrs, a ∉ A ∧ a < H.next) : l.map (Impl.read H') = l.map (Impl.read H) := by
  refine List.map_congr_left fun p hp => Impl.read_congr fun a ha => ?_
  obtain ⟨h1, h2⟩ := hd a (List.mem_flatMap.2 ⟨p, hp, ha⟩)
  exact h.same a h1 h2

theorem Good.impl_addrs {p : Elem α} (h : p.Good) {i : Impl} (hi : p.imp = some i) : i.addrs = p.addrs := by
  unfold Impl.addrs Elem.addrs
  rw [hi, h i hi]

theorem filterMap_addrs {l : List (Elem α)} (hg : ∀ p ∈ l, p.Good) :
    ((l.filterMap Elem.imp).flatMap Impl.addrs).Sublist (l.flatMap Elem.addrs) := by
  induction l with
  | nil => simp
  | cons p l ih =>
    have := ih fun q hq => hg q (List.mem_cons_of_mem _ hq)
    rw [List.flatMap_cons]
    cases hi : p.imp with
    | none =>
      rw [List.filterMap_cons_none hi]
      exact this.trans (List.sublist_append_right _ _)
    | some i =>
      rw [List.filterMap_cons_some hi, List.flatMap_cons, Good.impl_addrs (hg p List.mem_cons_self) hi]
      exact List.Sublist.append_left this _

/-- After a step the values of all elements and implications not touched are as before. -/
theorem Inv.read_eq {p : Elem α} {todo : List (Elem α)} {H H' : Heap β} {st : St α} (h : Inv lo (p :: todo) H st)
    (hf : Frame p.addrs H H') : todo.map (Elem.read H') = todo.map (Elem.read H) ∧ st.read H' = st.read H := by
  have hnd := h.nodup
  rw [List.cons_append, List.flatMap_cons, List.nodup_append] at hnd
  have hd : ∀ a ∈ (todo ++ st.elems).flatMap Elem.addrs, a ∉ p.addrs ∧ a < H.next := by
    intro a ha
    refine ⟨fun hp => hnd.2.2 a hp a ha rfl, h.bound a ?_⟩
    rw [List.cons_append, List.flatMap_cons]
    exact List.mem_append_right _ ha
  have hsub : ∀ {l : List (Elem α)}, (∀ q ∈ l, q ∈ todo ++ st.elems) → l.map (Elem.read H') = l.map (Elem.read H) := by
    intro l hl
    refine hf.elems fun a ha => hd a ?_
    obtain ⟨q, hq, haq⟩ := List.mem_flatMap.1 ha
    exact List.mem_flatMap.2 ⟨q, hl q hq, haq⟩
  have hsubI : ∀ {l : List Impl}, (∀ i ∈ l, i ∈ st.oldStable ++ st.newStable ++ st.minMod) →
      l.map (Impl.read H') = l.map (Impl.read H) := by
    intro l hl
    refine hf.impls fun a ha => hd a ?_
    obtain ⟨i, hi, hai⟩ := List.mem_flatMap.1 ha
    have := (h.impls.mem_iff).1 (hl i hi)
    obtain ⟨q, hq, hqi⟩ := List.mem_filterMap.1 this
    have hq' : q ∈ todo ++ st.elems := by simp [St.elems, hq]
    refine List.mem_flatMap.2 ⟨q, hq', ?_⟩
    rw [← Good.impl_addrs (h.good q (by rw [List.cons_append]; exact List.mem_cons_of_mem _ hq')) hqi]
    exact hai
  refine ⟨hsub fun q hq => List.mem_append_left _ hq, ?_⟩
  unfold St.read
  rw [hsubI (l := st.oldStable) (by intro i hi; simp [hi]), hsubI (l := st.newStable) (by intro i hi; simp [hi]),
    hsubI (l := st.minMod) (by intro i hi; simp [hi]), hsub (l := st.nonMin) (by intro q hq; simp [St.elems, hq]),
    hsub (l := st.modExtra) (by intro q hq; simp [St.elems, hq]), hsub (l := st.newPre) (by intro q hq; simp [St.elems, hq])]

/-! ### The loop over `preclosed` -/

theorem Inv.next_step {p : Elem α} {todo new : List (Elem α)} {H H' : Heap β} {st st' : St α} (h : Inv lo (p :: todo) H st)
    (hf : H.next ≤ H'.next) (hperm : (todo ++ st'.elems).Perm ((p :: todo ++ st.elems) ++ new))
    (hg : ∀ q ∈ new, q.Good) (hn : (new.flatMap Elem.addrs).Nodup)
    (hb : ∀ a ∈ new.flatMap Elem.addrs, H.next ≤ a ∧ a < H'.next)
    (hi : (st'.oldStable ++ st'.newStable ++ st'.minMod).Perm (st'.newPre.filterMap Elem.imp))
    (hnm : ∀ p ∈ st'.nonMin, p.imp ≠ none) (he : ∀ p ∈ st'.modExtra, p.imp = none) : Inv lo todo H' st' := by
  refine ⟨fun q hq => ?_, ?_, fun a ha => ?_, fun a ha => ?_, hi, hnm, he⟩
  · rcases List.mem_append.1 (hperm.mem_iff.1 hq) with hq | hq
    · exact h.good q hq
    · exact hg q hq
  · rw [(hperm.flatMap_right Elem.addrs).nodup_iff, List.flatMap_append, List.nodup_append]
    refine ⟨h.nodup, hn, fun a ha b hb' => ?_⟩
    have h1 := h.bound a ha
    have h2 := (hb b hb').1
    omega
  · have := (hperm.flatMap_right Elem.addrs).mem_iff.1 ha
    rw [List.flatMap_append] at this
    rcases List.mem_append.1 this with h1 | h1
    · exact lt_of_lt_of_le (h.bound a h1) hf
    · exact (hb a h1).2
  · have := (hperm.flatMap_right Elem.addrs).mem_iff.1 ha
    rw [List.flatMap_append] at this
    rcases List.mem_append.1 this with h1 | h1
    · exact h.low a h1
    · have h0 : p.set ∈ (p :: todo ++ st.elems).flatMap Elem.addrs := by
        rw [List.cons_append, List.flatMap_cons]
        refine List.mem_append_left _ ?_
        unfold Elem.addrs
        cases p.imp <;> simp
      have h2 := h.low _ h0
      have h3 := h.bound _ h0
      have h4 := (hb a h1).1
      omega

theorem perm_tac {γ : Type} {l l' : List γ} (h : ∀ [DecidableEq γ] (x : γ), l.count x = l'.count x) : l.Perm l' := by
  classical
  exact List.perm_iff_count.2 fun x => h x

theorem Inv.p_lt {p : Elem α} {todo : List (Elem α)} {H : Heap β} {st : St α} (h : Inv lo (p :: todo) H st) :
    ∀ a ∈ p.addrs, a < H.next := fun a ha => h.bound a (by
      rw [List.cons_append, List.flatMap_cons]; exact List.mem_append_left _ ha)

theorem Elem.set_mem (p : Elem α) : p.set ∈ p.addrs := by
  unfold Elem.addrs
  cases p.imp <;> simp

theorem read_append {H : Heap β} {st : St α} :
    (∀ p, ({ st with newPre := st.newPre ++ [p] } : St α).read H =
      { st.read H with newPre := (st.read H).newPre ++ [p.read H] }) := by
  intro p
  simp [St.read]

theorem minMod_any {H H' : Heap β} {st : St α} {p : Elem α} (hs : st.read H' = st.read H) {X : Finset β}
    (hp : H'.mem p.set = X) :
    (st.minMod.any fun j => decide (H'.mem j.prem ⊆ H'.mem p.set)) =
      ((st.read H).minMod.any fun i => decide (i.premise ⊆ X)) := by
  rw [← hs, hp]
  simp only [St.read, List.any_map]
  rfl

theorem modifiedImplication_spec (m : β) {p : Elem α} {todo : List (Elem α)} {H : Heap β} {st : St α} {i : Impl}
    (hpi : p.imp = some i) (h : Inv lo (p :: todo) H st) :
    ∃ H' st', modifiedImplication m p i H st = (H', st') ∧
      st'.read H' = AI.modifiedImplication m (p.read H) (st.read H) ∧ Inv lo todo H' st' ∧ Frame p.addrs H H' := by
  have hgood : i.prem = p.set := h.good p (by simp) i hpi
  have hci : i.concl ∈ p.addrs := by unfold Elem.addrs; rw [hpi]; simp
  have hne : p.set ≠ i.concl := by
    have := h.nodup
    rw [List.cons_append, List.flatMap_cons, List.nodup_append] at this
    have h1 := this.1
    unfold Elem.addrs at h1
    rw [hpi] at h1
    simpa using h1
  set H1 := H.write i.concl (insert m (H.mem i.concl)) with hH1
  have f1 : Frame p.addrs H H1 := Frame.write H _ (.inl hci)
  have hm1 : H1.mem p.set = H.mem p.set := Function.update_of_ne hne _ _
  have hc1 : H1.mem i.concl = insert m (H.mem i.concl) := Function.update_self ..
  have hany := minMod_any (p := p) (h.read_eq f1).2 hm1
  have hread : (p.read H).concl = some (H.mem i.concl) := by unfold Elem.read; rw [hpi]; rfl
  unfold modifiedImplication AI.modifiedImplication
  simp only [← hH1]
  rw [hread]
  simp only [Option.getD_some]
  by_cases ha : ((st.read H).minMod.any fun i => decide (i.premise ⊆ H.mem p.set)) = true
  · have hb := ha
    rw [← hany] at hb
    rw [if_pos hb, if_pos (by exact ha)]
    set H2 := H1.write p.set (insert m (H1.mem p.set)) with hH2
    have f2 : Frame p.addrs H H2 := f1.trans (Frame.write H1 _ (.inl p.set_mem))
    have hs := (h.read_eq f2).2
    refine ⟨H2, _, rfl, ?_, ?_, f2⟩
    · have hp2 : p.read H2 = ⟨p.ext, insert m (H.mem p.set), some (insert m (H.mem i.concl))⟩ := by
        unfold Elem.read
        rw [hpi]
        simp only [Option.map_some]
        rw [show H2.mem p.set = insert m (H.mem p.set) by rw [hH2, ← hm1]; exact Function.update_self ..,
          show H2.mem i.concl = insert m (H.mem i.concl) by
            rw [← hc1]; exact Function.update_of_ne (Ne.symm hne) _ _]
      rw [← hs]
      simp only [St.read, List.map_append, List.map_cons, List.map_nil, hp2]
      rfl
    · refine h.next_step (new := []) f2.next ?_ (by simp) (by simp) (by simp) h.impls ?_ h.extra
      · refine perm_tac fun x => ?_
        simp only [St.elems, List.count_append, List.count_cons, List.count_nil]
        omega
      · intro q hq
        rcases List.mem_append.1 hq with hq | hq
        · exact h.nonMin q hq
        · rw [List.mem_singleton.1 hq, hpi]; simp
  · have hb := ha
    rw [← hany] at hb
    rw [if_neg hb, if_neg (by exact ha)]
    have hs := (h.read_eq f1).2
    refine ⟨H1, _, rfl, ?_, ?_, f1⟩
    · have hp2 : p.read H1 = ⟨p.ext, H.mem p.set, some (insert m (H.mem i.concl))⟩ := by
        unfold Elem.read
        rw [hpi]
        simp only [Option.map_some]
        rw [hm1, hc1]
      have hi2 : i.read H1 = ⟨H.mem p.set, insert m (H.mem i.concl)⟩ := by
        unfold Impl.read
        rw [hgood, hm1, hc1]
      rw [← hs]
      simp only [St.read, List.map_append, List.map_cons, List.map_nil, hp2, hi2]
      rfl
    · refine h.next_step (new := []) f1.next ?_ (by simp) (by simp) (by simp) ?_ h.nonMin h.extra
      · refine perm_tac fun x => ?_
        simp only [St.elems, List.count_append, List.count_cons, List.count_nil]
        omega
      · rw [List.filterMap_append, List.filterMap_cons_some hpi, List.filterMap_nil, ← List.append_assoc]
        exact h.impls.append_right _

theorem modifiedConcept_spec (m : β) {p : Elem α} {todo : List (Elem α)} {H : Heap β} {st : St α}
    (hpi : p.imp = none) (h : Inv lo (p :: todo) H st) :
    ∃ H' st', modifiedConcept m p H st = (H', st') ∧
      st'.read H' = AI.modifiedConcept m (p.read H) (st.read H) ∧ Inv lo todo H' st' ∧ Frame p.addrs H H' := by
  have hany := minMod_any (st := st) (p := p) (H := H) (H' := H) rfl rfl
  have hlt := h.p_lt p.set p.set_mem
  unfold modifiedConcept AI.modifiedConcept
  by_cases ha : ((st.read H).minMod.any fun i => decide (i.premise ⊆ H.mem p.set)) = true
  · have hb := ha
    rw [← hany] at hb
    rw [if_pos hb, if_pos (by exact ha)]
    dsimp only
    set H2 := H.write p.set (insert m (H.mem p.set)) with hH2
    have f2 : Frame p.addrs H H2 := Frame.write H _ (.inl p.set_mem)
    have hs := (h.read_eq f2).2
    refine ⟨H2, _, rfl, ?_, ?_, f2⟩
    · have hp2 : p.read H2 = ⟨p.ext, insert m (H.mem p.set), none⟩ := by
        unfold Elem.read
        rw [hpi]
        simp only [Option.map_none]
        rw [show H2.mem p.set = insert m (H.mem p.set) from Function.update_self ..]
      rw [← hs]
      simp only [St.read, List.map_append, List.map_cons, List.map_nil, hp2]
      rfl
    · refine h.next_step (new := []) f2.next ?_ (by simp) (by simp) (by simp) h.impls h.nonMin ?_
      · refine perm_tac fun x => ?_
        simp only [St.elems, List.count_append, List.count_cons, List.count_nil]
        omega
      · intro q hq
        rcases List.mem_append.1 hq with hq | hq
        · exact h.extra q hq
        · rw [List.mem_singleton.1 hq, hpi]
  · have hb := ha
    rw [← hany] at hb
    rw [if_neg hb, if_neg (by exact ha)]
    set H1 := (H.alloc (H.mem p.set)).2 with hH1
    have e1 : (H.alloc (H.mem p.set)) = (H.next, H1) := rfl
    simp only [e1]
    set H2 := (H1.alloc (H1.mem p.set)).2 with hH2
    have e2 : (H1.alloc (H1.mem p.set)) = (H.next + 1, H2) := rfl
    simp only [e2]
    set H3 := H2.write (H.next + 1) (insert m (H2.mem (H.next + 1))) with hH3
    set H4 := H3.write p.set (insert m (H3.mem p.set)) with hH4
    have hval : ∀ a, H4.mem a = if a = p.set then insert m (H.mem p.set) else
        if a = H.next + 1 then insert m (H.mem p.set) else if a = H.next then H.mem p.set else H.mem a := by
      intro a
      have n1 : p.set ≠ H.next := by omega
      have n2 : p.set ≠ H.next + 1 := by omega
      simp [hH4, hH3, hH2, hH1, Heap.write, Heap.alloc, Function.update_apply, n1, n2]
    have hnext : H4.next = H.next + 2 := rfl
    have f4 : Frame p.addrs H H4 := ⟨by omega, fun a ha hn => by
      rw [hval, if_neg (show a ≠ p.set from fun e => ha (e ▸ p.set_mem)), if_neg (by omega), if_neg (by omega)]⟩
    have hs := (h.read_eq f4).2
    have v1 : H4.mem p.set = insert m (H.mem p.set) := by rw [hval, if_pos rfl]
    have v2 : H4.mem H.next = H.mem p.set := by
      rw [hval, if_neg (by omega), if_neg (by omega), if_pos rfl]
    have v3 : H4.mem (H.next + 1) = insert m (H.mem p.set) := by rw [hval, if_neg (by omega), if_pos rfl]
    refine ⟨H4, _, rfl, ?_, ?_, f4⟩
    · have hp2 : p.read H4 = ⟨p.ext, insert m (H.mem p.set), none⟩ := by
        unfold Elem.read
        rw [hpi]
        simp only [Option.map_none, v1]
      rw [← hs]
      simp only [St.read, List.map_append, List.map_cons, List.map_nil, hp2]
      simp only [Elem.read, Impl.read, Option.map_some, v2, v3]
    · refine h.next_step (new := [⟨p.ext, H.next, some ⟨H.next, H.next + 1⟩⟩]) f4.next ?_ ?_ ?_ ?_ ?_ h.nonMin ?_
      · refine perm_tac fun x => ?_
        simp only [St.elems, List.count_append, List.count_cons, List.count_nil]
        omega
      · intro q hq i hi
        rw [List.mem_singleton.1 hq] at hi ⊢
        cases hi
        rfl
      · simp [Elem.addrs]
      · intro a ha
        simp only [Elem.addrs, List.flatMap_cons, List.flatMap_nil, List.append_nil, List.mem_cons, List.not_mem_nil,
          or_false] at ha
        omega
      · rw [List.filterMap_append, show List.filterMap Elem.imp
          [(⟨p.ext, H.next, some ⟨H.next, H.next + 1⟩⟩ : Elem α)] = [⟨H.next, H.next + 1⟩] from rfl, ← List.append_assoc]
        exact h.impls.append_right _
      · intro q hq
        rcases List.mem_append.1 hq with hq | hq
        · exact h.extra q hq
        · rw [List.mem_singleton.1 hq, hpi]

theorem stableConcept_spec (closure : Finset β → Py (Finset β)) (m : β) (extent : Finset α) {p : Elem α}
    {todo : List (Elem α)} {H : Heap β} {st : St α} (hpi : p.imp = none) (h : Inv lo (p :: todo) H st) :
    (∀ e, AI.stableConcept closure m extent (p.read H)
        (({ st with newPre := st.newPre ++ [p] } : St α).read H) = .error e →
      stableConcept closure m extent p H { st with newPre := st.newPre ++ [p] } = .error e) ∧
    ∀ v, AI.stableConcept closure m extent (p.read H)
        (({ st with newPre := st.newPre ++ [p] } : St α).read H) = .ok v →
      ∃ H' st', stableConcept closure m extent p H { st with newPre := st.newPre ++ [p] } = .ok (H', st') ∧
        st'.read H' = v ∧ Inv lo todo H' st' ∧ Frame p.addrs H H' := by
  have hlt := h.p_lt p.set p.set_mem
  set st1 : St α := { st with newPre := st.newPre ++ [p] } with hst1
  have hread1 : ∀ {H' : Heap β}, Frame [] H H' → st1.read H' = st1.read H := by
    intro H' hf
    have hf' : Frame p.addrs H H' := hf.mono (by simp)
    have hp : p.read H' = p.read H := Elem.read_congr fun a ha => hf.same a (by simp) (h.p_lt a ha)
    rw [hst1, read_append, read_append, (h.read_eq hf').2, hp]
  have himp1 : (st1.oldStable ++ st1.newStable ++ st1.minMod).Perm (st1.newPre.filterMap Elem.imp) := by
    simp only [hst1, List.filterMap_append, List.filterMap_cons_none hpi, List.filterMap_nil, List.append_nil]
    exact h.impls
  have inv1 : ∀ {H' : Heap β}, H.next ≤ H'.next → Inv lo todo H' st1 := by
    intro H' hn
    refine h.next_step (new := []) hn ?_ (by simp) (by simp) (by simp) himp1 h.nonMin h.extra
    refine perm_tac fun x => ?_
    simp only [hst1, St.elems, List.count_append, List.count_cons, List.count_nil]
    omega
  unfold stableConcept AI.stableConcept
  dsimp only
  set H1 := (H.alloc (H.mem p.set)).2 with hH1
  have e1 : (H.alloc (H.mem p.set)).1 = H.next := rfl
  rw [e1]
  set H2 := H1.write H.next (insert m (H1.mem H.next)) with hH2
  have v2 : ∀ a, H2.mem a = if a = H.next then insert m (H.mem p.set) else H.mem a := by
    intro a
    simp [hH2, hH1, Heap.write, Heap.alloc, Function.update_apply]
  have vn : H2.mem H.next = insert m (H.mem p.set) := by rw [v2, if_pos rfl]
  have n2 : H2.next = H.next + 1 := rfl
  have f2 : Frame [] H H2 := ⟨by omega, fun a _ hn => by rw [v2, if_neg (by omega)]⟩
  have hset : (p.read H).set = H.mem p.set := rfl
  rw [hset]
  have hall : (st1.newStable.all fun i => (i.read H2).isRespected (H2.mem H.next)) =
      ((st1.read H).newStable.all fun i => i.isRespected (insert m (H.mem p.set))) := by
    rw [← hread1 f2, vn]
    simp only [St.read, List.all_map]
    rfl
  by_cases ha : ((st1.read H).newStable.all fun i => i.isRespected (insert m (H.mem p.set))) = true
  · have hb := ha
    rw [← hall] at hb
    rw [if_pos hb, if_pos ha, vn]
    cases hcl : closure (insert m (H.mem p.set)) with
    | error e =>
      refine ⟨fun e' he => ?_, fun v hv => ?_⟩
      · simp only [bind, Except.bind] at he ⊢
        cases he
        rfl
      · simp only [bind, Except.bind] at hv
        cases hv
    | ok cl =>
      simp only [bind, Except.bind]
      by_cases hc : cl = insert m (H.mem p.set)
      · simp only [if_pos hc]
        refine ⟨fun e' he => (by cases he), fun v hv => ⟨H2, _, rfl, ?_, ?_, f2.mono (by simp)⟩⟩
        · cases hv
          rw [read_append, hread1 f2]
          simp only [Elem.read, Option.map_none, vn]
        · refine h.next_step (new := [⟨p.ext ∩ extent, H.next, none⟩]) f2.next ?_ ?_ ?_ ?_ ?_ h.nonMin h.extra
          · refine perm_tac fun x => ?_
            simp only [hst1, St.elems, List.count_append, List.count_cons, List.count_nil]
            omega
          · intro q hq i hi
            rw [List.mem_singleton.1 hq] at hi
            cases hi
          · simp [Elem.addrs]
          · intro a ha
            simp only [Elem.addrs, List.flatMap_cons, List.flatMap_nil, List.append_nil, List.mem_cons, List.not_mem_nil,
              or_false] at ha
            omega
          · rw [List.filterMap_append, show List.filterMap Elem.imp
              [(⟨p.ext ∩ extent, H.next, none⟩ : Elem α)] = [] from rfl, List.append_nil]
            exact himp1
      · simp only [if_neg hc]
        set H3 := (H2.alloc (insert m (H.mem p.set))).2 with hH3
        have e3 : (H2.alloc (insert m (H.mem p.set))).1 = H.next + 1 := rfl
        rw [e3]
        set H4 := (H3.alloc cl).2 with hH4
        have e4 : (H3.alloc cl).1 = H.next + 2 := rfl
        rw [e4]
        have v4 : ∀ a, H4.mem a = if a = H.next + 2 then cl else if a = H.next + 1 then insert m (H.mem p.set) else
            H2.mem a := by
          intro a
          simp only [hH4, hH3, Heap.alloc, Function.update_apply, n2]
        have n4 : H4.next = H.next + 3 := rfl
        have f4 : Frame [] H H4 := ⟨by omega, fun a h0 hn => by
          rw [v4, if_neg (by omega), if_neg (by omega), f2.same a h0 hn]⟩
        refine ⟨fun e' he => (by cases he), fun v hv => ⟨H4, _, rfl, ?_, ?_, f4.mono (by simp)⟩⟩
        · cases hv
          have w1 : H4.mem (H.next + 1) = insert m (H.mem p.set) := by rw [v4, if_neg (by omega), if_pos rfl]
          have w2 : H4.mem (H.next + 2) = cl := by rw [v4, if_pos rfl]
          rw [← hread1 f4]
          simp only [St.read, List.map_append, List.map_cons, List.map_nil]
          simp only [Elem.read, Impl.read, Option.map_some, w1, w2]
        · refine h.next_step (new := [⟨p.ext ∩ extent, H.next + 1, some ⟨H.next + 1, H.next + 2⟩⟩]) f4.next ?_ ?_ ?_ ?_ ?_
            h.nonMin h.extra
          · refine perm_tac fun x => ?_
            simp only [hst1, St.elems, List.count_append, List.count_cons, List.count_nil]
            omega
          · intro q hq i hi
            rw [List.mem_singleton.1 hq] at hi ⊢
            cases hi
            rfl
          · simp [Elem.addrs]
          · intro a ha
            simp only [Elem.addrs, List.flatMap_cons, List.flatMap_nil, List.append_nil, List.mem_cons, List.not_mem_nil,
              or_false] at ha
            omega
          · rw [List.filterMap_append, show List.filterMap Elem.imp
              [(⟨p.ext ∩ extent, H.next + 1, some ⟨H.next + 1, H.next + 2⟩⟩ : Elem α)] =
                [⟨H.next + 1, H.next + 2⟩] from rfl]
            refine List.Perm.trans ?_ (himp1.append_right _)
            refine perm_tac fun x => ?_
            simp only [List.count_append]
            omega
  · have hb := ha
    rw [← hall] at hb
    rw [if_neg hb, if_neg ha]
    refine ⟨fun e' he => (by cases he), fun v hv => ⟨H2, st1, rfl, ?_, inv1 f2.next, f2.mono (by simp)⟩⟩
    cases hv
    exact hread1 f2

theorem stepPre_spec (closure : Finset β → Py (Finset β)) (m : β) (extent : Finset α) {p : Elem α}
    {todo : List (Elem α)} {H : Heap β} {st : St α} (h : Inv lo (p :: todo) H st) :
    (∀ e, AI.stepPre closure m extent (p.read H) (st.read H) = .error e →
      stepPre closure m extent p H st = .error e) ∧
    ∀ v, AI.stepPre closure m extent (p.read H) (st.read H) = .ok v →
      ∃ H' st', stepPre closure m extent p H st = .ok (H', st') ∧
        st'.read H' = v ∧ Inv lo todo H' st' ∧ Frame p.addrs H H' := by
  unfold stepPre AI.stepPre
  have hext : (p.read H).ext = p.ext := rfl
  rw [hext]
  by_cases hx : p.ext ⊆ extent
  · rw [if_pos hx, if_pos hx]
    cases hpi : p.imp with
    | none =>
      have hc : (p.read H).isConcept = true := by unfold Elem.read AI.Pre.isConcept; rw [hpi]; rfl
      rw [if_pos hc]
      obtain ⟨H', st', r1, r2, r3, r4⟩ := modifiedConcept_spec m hpi h
      dsimp only
      rw [r1]
      refine ⟨fun e he => (by cases he), fun v hv => ⟨H', st', rfl, ?_, r3, r4⟩⟩
      cases hv
      exact r2
    | some i =>
      have hc : ¬ (p.read H).isConcept = true := by unfold Elem.read AI.Pre.isConcept; rw [hpi]; simp
      rw [if_neg hc]
      obtain ⟨H', st', r1, r2, r3, r4⟩ := modifiedImplication_spec m hpi h
      dsimp only
      rw [r1]
      refine ⟨fun e he => (by cases he), fun v hv => ⟨H', st', rfl, ?_, r3, r4⟩⟩
      cases hv
      exact r2
  · rw [if_neg hx, if_neg hx]
    dsimp only
    rw [← read_append (st := st) p]
    cases hpi : p.imp with
    | none =>
      have hc : (p.read H).isConcept = true := by unfold Elem.read AI.Pre.isConcept; rw [hpi]; rfl
      rw [if_pos hc]
      exact stableConcept_spec closure m extent hpi h
    | some i =>
      have hc : ¬ (p.read H).isConcept = true := by unfold Elem.read AI.Pre.isConcept; rw [hpi]; simp
      rw [if_neg hc]
      refine ⟨fun e he => (by cases he), fun v hv => ⟨H, _, rfl, ?_, ?_, Frame.refl _ _⟩⟩
      · cases hv
        have hi : (p.read H).imp = i.read H := by
          unfold Elem.read AI.Pre.imp Impl.read
          rw [hpi, h.good p (by simp) i hpi]
          rfl
        simp only [St.read, List.map_append, List.map_cons, List.map_nil, hi]
      · refine h.next_step (new := []) (le_refl _) ?_ (by simp) (by simp) (by simp) ?_ h.nonMin h.extra
        · refine perm_tac fun x => ?_
          simp only [St.elems, List.count_append, List.count_cons, List.count_nil]
          omega
        · rw [List.filterMap_append, List.filterMap_cons_some hpi, List.filterMap_nil]
          refine List.Perm.trans ?_ (h.impls.append_right _)
          refine perm_tac fun x => ?_
          simp only [List.count_append]
          omega

theorem loopPre_spec (closure : Finset β → Py (Finset β)) (m : β) (extent : Finset α) (todo : List (Elem α)) :
    ∀ {H : Heap β} {st : St α}, Inv lo todo H st →
    (∀ e, AI.loopPre closure m extent (todo.map (Elem.read H)) (st.read H) = .error e →
      loopPre closure m extent todo H st = .error e) ∧
    ∀ v, AI.loopPre closure m extent (todo.map (Elem.read H)) (st.read H) = .ok v →
      ∃ H' st', loopPre closure m extent todo H st = .ok (H', st') ∧
        st'.read H' = v ∧ Inv lo [] H' st' ∧ Frame (todo.flatMap Elem.addrs) H H' := by
  induction todo with
  | nil =>
    intro H st h
    refine ⟨fun e he => (by cases he), fun v hv => ⟨H, st, rfl, ?_, h, Frame.refl _ _⟩⟩
    cases hv
    rfl
  | cons p rest ih =>
    intro H st h
    obtain ⟨s1, s2⟩ := stepPre_spec closure m extent h
    rw [List.map_cons]
    unfold loopPre AI.loopPre
    simp only [bind, Except.bind]
    cases hs : AI.stepPre closure m extent (p.read H) (st.read H) with
    | error e =>
      rw [s1 e hs]
      refine ⟨fun e' he => ?_, fun v hv => (by cases hv)⟩
      cases he
      rfl
    | ok v =>
      obtain ⟨H1, st1, r1, r2, r3, r4⟩ := s2 v hs
      rw [r1]
      dsimp only
      obtain ⟨t1, t2⟩ := ih r3
      rw [(h.read_eq r4).1, r2] at t1 t2
      refine ⟨t1, fun w hw => ?_⟩
      obtain ⟨H2, st2, q1, q2, q3, q4⟩ := t2 w hw
      refine ⟨H2, st2, q1, q2, q3, (r4.mono ?_).trans (q4.mono ?_)⟩ <;>
      · intro a ha
        rw [List.flatMap_cons]
        simp [ha]

/-! ### The loop over `non_min_mod` -/

/-- The elements have sets of their own. -/
structure Own (lo : ℕ) (H : Heap β) (l : List (Elem α)) : Prop where
  good : ∀ p ∈ l, p.Good
  nodup : (l.flatMap Elem.addrs).Nodup
  bound : ∀ a ∈ l.flatMap Elem.addrs, a < H.next
  low : ∀ a ∈ l.flatMap Elem.addrs, lo ≤ a

theorem Own.perm {H H' : Heap β} {l l' : List (Elem α)} (h : Own lo H l) (hp : l'.Perm l) (hn : H.next ≤ H'.next) :
    Own lo H' l' := by
  refine ⟨fun p hq => h.good p (hp.mem_iff.1 hq), ?_, fun a ha => ?_, fun a ha => ?_⟩
  · rw [(hp.flatMap_right Elem.addrs).nodup_iff]
    exact h.nodup
  · exact lt_of_lt_of_le (h.bound a ((hp.flatMap_right Elem.addrs).mem_iff.1 ha)) hn
  · exact h.low a ((hp.flatMap_right Elem.addrs).mem_iff.1 ha)

theorem Own.sub {H : Heap β} {l l' : List (Elem α)} (h : Own lo H l) (hp : l'.Sublist l) : Own lo H l' := by
  have hs : (l'.flatMap Elem.addrs).Sublist (l.flatMap Elem.addrs) := by
    simp only [List.flatMap]
    exact (hp.map _).flatten
  exact ⟨fun p hq => h.good p (hp.subset hq), hs.nodup h.nodup, fun a ha => h.bound a (hs.subset ha),
    fun a ha => h.low a (hs.subset ha)⟩

theorem imp_read {H : Heap β} {p : Elem α} {i : Impl} (hg : p.Good) (hi : p.imp = some i) :
    (p.read H).imp = i.read H := by
  unfold Elem.read AI.Pre.imp Impl.read
  rw [hi, hg i hi]
  rfl

theorem filterMap_imp_read {H : Heap β} {l : List (Elem α)} (hg : ∀ p ∈ l, p.Good) (hs : ∀ p ∈ l, p.imp ≠ none) :
    (l.filterMap Elem.imp).map (Impl.read H) = (l.map (Elem.read H)).map AI.Pre.imp ∧
      (l.filterMap Elem.imp).length = l.length := by
  induction l with
  | nil => simp
  | cons p l ih =>
    obtain ⟨i1, i2⟩ := ih (fun q hq => hg q (List.mem_cons_of_mem _ hq)) (fun q hq => hs q (List.mem_cons_of_mem _ hq))
    obtain ⟨i, hi⟩ := Option.ne_none_iff_exists'.1 (hs p List.mem_cons_self)
    rw [List.filterMap_cons_some hi, List.map_cons, List.map_cons, List.map_cons, i1,
      imp_read (hg p List.mem_cons_self) hi, List.length_cons, List.length_cons, i2]
    exact ⟨rfl, rfl⟩

theorem loopNonMin_spec (close : Finset β → List (Imp β) → Finset β) (newPre : List (Elem α)) (base : List Impl)
    (hbase : base.Perm (newPre.filterMap Elem.imp)) (todo : List (Elem α)) :
    ∀ {H : Heap β} {kept : List Impl} {extra : List (Elem α)}, Own lo H (todo ++ (newPre ++ extra)) →
      (∀ p ∈ todo, p.imp ≠ none) → kept = extra.filterMap Elem.imp →
      ∃ H' basis' extra', loopNonMin close base.length todo H (base ++ (todo.reverse.filterMap Elem.imp ++ kept)) extra =
          .ok (H', basis', extra') ∧
        (basis'.map (Impl.read H'), extra'.map (Elem.read H')) =
          AI.loopNonMin close (base.map (Impl.read H)) (todo.map (Elem.read H)) (kept.map (Impl.read H))
            (extra.map (Elem.read H)) ∧
        newPre.map (Elem.read H') = newPre.map (Elem.read H) ∧
        Own lo H' (newPre ++ extra') ∧ basis'.Perm ((newPre ++ extra').filterMap Elem.imp) ∧
        Frame (todo.flatMap Elem.addrs) H H' := by
  induction todo with
  | nil =>
    intro H kept extra ho _ hk
    refine ⟨H, base ++ kept, extra, rfl, ?_, rfl, ho, ?_, Frame.refl _ _⟩
    · simp [AI.loopNonMin]
    · rw [List.filterMap_append, hk]
      exact hbase.append_right _
  | cons p rest ih =>
    intro H kept extra ho hs hk
    obtain ⟨i, hi⟩ := Option.ne_none_iff_exists'.1 (hs p List.mem_cons_self)
    have hgp := ho.good p (by simp)
    have hprem := hgp i hi
    have hrs : ∀ q ∈ rest.reverse, q.imp ≠ none := fun q hq => hs q (List.mem_cons_of_mem _ (List.mem_reverse.1 hq))
    have hrg : ∀ q ∈ rest.reverse, q.Good := fun q hq => ho.good q (by simp [List.mem_reverse.1 hq])
    obtain ⟨fr1, fr2⟩ := filterMap_imp_read (H := H) hrg hrs
    have herase : (base ++ ((p :: rest).reverse.filterMap Elem.imp ++ kept)).eraseIdx (base.length + rest.length) =
        base ++ (rest.reverse.filterMap Elem.imp ++ kept) := by
      rw [List.eraseIdx_append_of_length_le (by omega), Nat.add_sub_cancel_left, List.reverse_cons,
        List.filterMap_append, List.filterMap_cons_some hi, List.filterMap_nil, List.append_assoc,
        List.eraseIdx_append_of_length_le (by rw [fr2, List.length_reverse]), fr2, List.length_reverse, Nat.sub_self]
      rfl
    have hnd := ho.nodup
    rw [List.cons_append, List.flatMap_cons, List.nodup_append] at hnd
    have hne : p.set ≠ i.concl := by
      have h1 := hnd.1
      unfold Elem.addrs at h1
      rw [hi] at h1
      simpa using h1
    unfold loopNonMin AI.loopNonMin
    rw [hi]
    dsimp only
    rw [herase, hprem]
    set basis := base ++ (rest.reverse.filterMap Elem.imp ++ kept) with hbs
    set X := H.mem p.set ∪ close (H.mem p.set) (basis.map (Impl.read H)) with hX
    set H1 := H.write p.set X with hH1
    have f1 : Frame p.addrs H H1 := Frame.write H _ (.inl p.set_mem)
    have hm1 : H1.mem p.set = X := Function.update_self ..
    have hc1 : H1.mem i.concl = H.mem i.concl := Function.update_of_ne (Ne.symm hne) _ _
    have hd : ∀ a ∈ (rest ++ (newPre ++ extra)).flatMap Elem.addrs, a ∉ p.addrs ∧ a < H.next := by
      intro a ha
      refine ⟨fun hp => hnd.2.2 a hp a ha rfl, ho.bound a ?_⟩
      rw [List.cons_append, List.flatMap_cons]
      exact List.mem_append_right _ ha
    have hsub : ∀ {l : List (Elem α)}, (∀ q ∈ l, q ∈ rest ++ (newPre ++ extra)) →
        l.map (Elem.read H1) = l.map (Elem.read H) := by
      intro l hl
      refine f1.elems fun a ha => hd a ?_
      obtain ⟨q, hq, haq⟩ := List.mem_flatMap.1 ha
      exact List.mem_flatMap.2 ⟨q, hl q hq, haq⟩
    have hsubI : ∀ {l : List Impl}, (∀ j ∈ l, j ∈ (newPre ++ extra).filterMap Elem.imp) →
        l.map (Impl.read H1) = l.map (Impl.read H) := by
      intro l hl
      refine f1.impls fun a ha => hd a ?_
      obtain ⟨j, hj, haj⟩ := List.mem_flatMap.1 ha
      obtain ⟨q, hq, hqj⟩ := List.mem_filterMap.1 (hl j hj)
      refine List.mem_flatMap.2 ⟨q, List.mem_append_right _ hq, ?_⟩
      rw [← Good.impl_addrs (ho.good q (by
        rw [List.cons_append]; exact List.mem_cons_of_mem _ (List.mem_append_right _ hq))) hqj]
      exact haj
    have rb : base.map (Impl.read H1) = base.map (Impl.read H) := hsubI fun j hj => by
      rw [List.filterMap_append]
      exact List.mem_append_left _ (hbase.mem_iff.1 hj)
    have rk : kept.map (Impl.read H1) = kept.map (Impl.read H) := hsubI fun j hj => by
      rw [List.filterMap_append]
      exact List.mem_append_right _ (hk ▸ hj)
    have rr : rest.map (Elem.read H1) = rest.map (Elem.read H) := hsub fun q hq => by simp [hq]
    have rn : newPre.map (Elem.read H1) = newPre.map (Elem.read H) := hsub fun q hq => by simp [hq]
    have re : extra.map (Elem.read H1) = extra.map (Elem.read H) := hsub fun q hq => by simp [hq]
    have hset : (p.read H).set = H.mem p.set := rfl
    have hext : (p.read H).ext = p.ext := rfl
    have hcon : (p.read H).concl = some (H.mem i.concl) := by unfold Elem.read; rw [hi]; rfl
    have hbv : base.map (Impl.read H) ++ (((rest.map (Elem.read H)).reverse.map AI.Pre.imp) ++ kept.map (Impl.read H)) =
        basis.map (Impl.read H) := by
      rw [hbs, List.map_append, List.map_append, fr1, ← List.map_reverse (f := Elem.read H)]
    rw [List.map_cons]
    dsimp only
    rw [hset, hext, hcon, hbv, ← hX, hm1, hc1]
    simp only [Option.getD_some]
    by_cases hx : X = H.mem i.concl
    · rw [if_pos hx, if_pos hx]
      obtain ⟨H', b', e', q1, q2, q3, q4, q5, q6⟩ := ih (H := H1) (kept := kept) (extra := extra)
        ((ho.sub (by rw [List.cons_append]; exact List.sublist_cons_self _ _)).perm (List.Perm.refl _) f1.next)
        (fun q hq => hs q (List.mem_cons_of_mem _ hq)) hk
      rw [rb, rr, rk, re] at q2
      refine ⟨H', b', e', q1, q2, q3.trans rn, q4, q5, (f1.mono ?_).trans (q6.mono ?_)⟩ <;>
      · intro a ha
        rw [List.flatMap_cons]
        simp [ha]
    · rw [if_neg hx, if_neg hx]
      have hp1 : p.read H1 = ⟨p.ext, X, some (H.mem i.concl)⟩ := by
        unfold Elem.read
        rw [hi, hm1, Option.map_some, hc1]
      have hi1 : i.read H1 = ⟨X, H.mem i.concl⟩ := by
        unfold Impl.read
        rw [hprem, hm1, hc1]
      obtain ⟨H', b', e', q1, q2, q3, q4, q5, q6⟩ := ih (H := H1) (kept := kept ++ [i]) (extra := extra ++ [p])
        (ho.perm (perm_tac fun x => by
          simp only [List.count_append, List.count_cons, List.count_nil]
          omega) f1.next)
        (fun q hq => hs q (List.mem_cons_of_mem _ hq)) (by
          rw [List.filterMap_append, List.filterMap_cons_some hi, hk]; rfl)
      rw [rb, rr, List.map_append, List.map_append, rk, re] at q2
      simp only [List.map_cons, List.map_nil, hp1, hi1] at q2
      refine ⟨H', b', e', ?_, q2, q3.trans rn, q4, q5, (f1.mono ?_).trans (q6.mono ?_)⟩
      · rw [← q1, hbs]
        simp only [List.append_assoc]
      all_goals
        intro a ha
        rw [List.flatMap_cons]
        simp [ha]

/-! ### The main loop -/

theorem updatePreclosed_spec (S : KeySort β) (close : Finset β → List (Imp β) → Finset β) (c : Ctx α β) (i : ℕ)
    {H : Heap β} {pre : List (Elem α)} (ho : Own lo H pre) :
    (∀ e, AI.updatePreclosed (S.sort _ AI.Pre.set) close c i (pre.map (Elem.read H)) = .error e →
      updatePreclosed S close c i H pre = .error e) ∧
    ∀ v, AI.updatePreclosed (S.sort _ AI.Pre.set) close c i (pre.map (Elem.read H)) = .ok v →
      ∃ H' pre' basis, updatePreclosed S close c i H pre = .ok (H', pre', basis) ∧
        (pre'.map (Elem.read H'), basis.map (Impl.read H')) = v ∧ Own lo H' pre' ∧
        basis.Perm (pre'.filterMap Elem.imp) ∧ H.next ≤ H'.next ∧
        ∀ a, a < lo → a < H.next → H'.mem a = H.mem a := by
  unfold updatePreclosed AI.updatePreclosed
  simp only [bind, Except.bind]
  cases pyGet c.attributes i with
  | error e =>
    refine ⟨fun e' he => ?_, fun v hv => (by cases hv)⟩
    cases he
    rfl
  | ok m =>
    dsimp only
    cases c.extentByIndex i with
    | error e =>
      refine ⟨fun e' he => ?_, fun v hv => (by cases hv)⟩
      cases he
      rfl
    | ok extent =>
      dsimp only
      have hI : Inv lo pre H ({} : St α) := ⟨by simpa [St.elems] using ho.good, by simpa [St.elems] using ho.nodup,
        by simpa [St.elems] using ho.bound, by simpa [St.elems] using ho.low, by simp, by simp, by simp⟩
      obtain ⟨l1, l2⟩ := loopPre_spec (fun s => AI.kclosure c s (i + 1)) m extent pre hI
      have h0 : St.read H ({} : St α) = {} := rfl
      rw [h0] at l1 l2
      cases hl : AI.loopPre (fun s => AI.kclosure c s (i + 1)) m extent (pre.map (Elem.read H)) {} with
      | error e =>
        rw [l1 e hl]
        refine ⟨fun e' he => ?_, fun v hv => (by cases hv)⟩
        cases he
        rfl
      | ok v =>
        obtain ⟨H1, st1, r1, r2, r3, r4⟩ := l2 v hl
        rw [r1]
        dsimp only
        refine ⟨fun e he => (by cases he), fun w hw => ?_⟩
        have ho1 : Own lo H1 (st1.nonMin.reverse ++ (st1.newPre ++ st1.modExtra)) := by
          refine (Own.perm (H := H1) (l := [] ++ st1.elems) ⟨r3.good, r3.nodup, r3.bound, r3.low⟩
            (perm_tac fun x => ?_) (le_refl _))
          simp only [St.elems, List.count_append, List.count_reverse, List.count_nil]
          omega
        have hk : ([] : List Impl) = st1.modExtra.filterMap Elem.imp := by
          symm
          rw [List.filterMap_eq_nil_iff]
          exact r3.extra
        obtain ⟨H2, b2, e2, q1, q2, q3, q4, q5, q6⟩ := loopNonMin_spec close st1.newPre
          (st1.oldStable ++ st1.newStable ++ st1.minMod) r3.impls st1.nonMin.reverse ho1
          (fun p hp => r3.nonMin p (List.mem_reverse.1 hp)) hk
        rw [List.reverse_reverse, List.append_nil] at q1
        rw [q1]
        have hread : (st1.oldStable ++ st1.newStable ++ st1.minMod).map (Impl.read H1) =
            v.oldStable ++ v.newStable ++ v.minMod ∧ st1.nonMin.reverse.map (Elem.read H1) = v.nonMin.reverse ∧
            st1.modExtra.map (Elem.read H1) = v.modExtra ∧ st1.newPre.map (Elem.read H1) = v.newPre := by
          rw [← r2]
          simp [St.read]
        rw [hread.1, hread.2.1, hread.2.2.1, List.map_nil] at q2
        rw [← q2] at hw
        refine ⟨H2, _, b2, rfl, ?_, ?_, ?_, r4.next.trans q6.next, fun a ha hn => ?_⟩
        · cases hw
          rw [List.map_append, q3, hread.2.2.2, S.nat]
          rfl
        · exact q4.perm (List.Perm.append_left _ (S.perm _ _ _)) (le_refl _)
        · refine q5.trans ?_
          rw [List.filterMap_append, List.filterMap_append]
          exact List.Perm.append_left _ ((S.perm _ _ _).symm.filterMap _)
        · rw [q6.same a ?_ (lt_of_lt_of_le hn r4.next), r4.same a ?_ hn]
          · intro h'
            have := ho.low a h'
            omega
          · intro h'
            have := ho1.low a (by rw [List.flatMap_append]; exact List.mem_append_left _ h')
            omega

theorem basisLoop_spec (S : KeySort β) (close : Finset β → List (Imp β) → Finset β) (c : Ctx α β) (is : List ℕ) :
    ∀ {H : Heap β} {pre : List (Elem α)} {basis : List Impl}, lo ≤ H.next → Own lo H pre →
      basis.Perm (pre.filterMap Elem.imp) →
    (∀ e, AI.basisLoop (S.sort _ AI.Pre.set) close c is (pre.map (Elem.read H)) (basis.map (Impl.read H)) = .error e →
      basisLoop S close c is H pre basis = .error e) ∧
    ∀ v, AI.basisLoop (S.sort _ AI.Pre.set) close c is (pre.map (Elem.read H)) (basis.map (Impl.read H)) = .ok v →
      ∃ H' basis', basisLoop S close c is H pre basis = .ok (H', basis') ∧ basis'.map (Impl.read H') = v ∧
        (basis'.flatMap Impl.addrs).Nodup ∧ (∀ a ∈ basis'.flatMap Impl.addrs, lo ≤ a ∧ a < H'.next) ∧
        lo ≤ H'.next ∧ ∀ a, a < lo → H'.mem a = H.mem a := by
  induction is with
  | nil =>
    intro H pre basis hlo ho hb
    refine ⟨fun e he => (by cases he), fun v hv => ⟨H, basis, rfl, ?_, ?_, fun a ha => ?_, hlo, fun a ha => rfl⟩⟩
    · cases hv
      rfl
    · rw [(hb.flatMap_right Impl.addrs).nodup_iff]
      exact (filterMap_addrs ho.good).nodup ho.nodup
    · have := (filterMap_addrs ho.good).subset ((hb.flatMap_right Impl.addrs).mem_iff.1 ha)
      exact ⟨ho.low a this, ho.bound a this⟩
  | cons i is ih =>
    intro H pre basis hlo ho hb
    obtain ⟨u1, u2⟩ := updatePreclosed_spec S close c i ho
    unfold basisLoop AI.basisLoop
    simp only [bind, Except.bind]
    cases hu : AI.updatePreclosed (S.sort _ AI.Pre.set) close c i (pre.map (Elem.read H)) with
    | error e =>
      rw [u1 e hu]
      refine ⟨fun e' he => ?_, fun v hv => (by cases hv)⟩
      cases he
      rfl
    | ok v =>
      obtain ⟨H1, pre1, b1, r1, r2, r3, r4, r5, r6⟩ := u2 v hu
      rw [r1]
      dsimp only
      obtain ⟨t1, t2⟩ := ih (hlo.trans r5) r3 r4
      rw [← r2]
      refine ⟨t1, fun w hw => ?_⟩
      obtain ⟨H2, b2, q1, q2, q3, q4, q5, q6⟩ := t2 w hw
      exact ⟨H2, b2, q1, q2, q3, q4, q5, fun a ha => (q6 a ha).trans (r6 a ha (lt_of_lt_of_le ha hlo))⟩

/-- **C148.** The algorithm that changes its sets in place returns the implications that the model with values returns,
or raises the same exception. -/
theorem C148_values (S : KeySort β) (close : Finset β → List (Imp β) → Finset β) (c : Ctx α β) (H : Heap β) :
    (computeCanonicalBasis S close c H).map (fun r => r.2.map (Impl.read r.1)) =
      AI.computeCanonicalBasis (S.sort _ AI.Pre.set) close c := by
  unfold computeCanonicalBasis AI.computeCanonicalBasis
  dsimp only
  set H1 := (H.alloc ∅).2 with hH1
  have hown : Own H.next H1 [(⟨c.objects.toFinset, H.next, none⟩ : Elem α)] := by
    refine ⟨?_, ?_, ?_, ?_⟩ <;> simp [Elem.addrs, Elem.Good, hH1, Heap.alloc]
  obtain ⟨s1, s2⟩ := basisLoop_spec (lo := H.next) S close c (List.range c.attributes.length) (H := H1) (basis := [])
    (Nat.le_succ _) hown (by simp)
  have hr : [(⟨c.objects.toFinset, H.next, none⟩ : Elem α)].map (Elem.read H1) = [⟨c.objects.toFinset, ∅, none⟩] := by
    simp [Elem.read, hH1, Heap.alloc]
  rw [hr, List.map_nil] at s1 s2
  have e1 : (H.alloc (∅ : Finset β)).1 = H.next := rfl
  rw [e1]
  cases hv : AI.basisLoop (S.sort _ AI.Pre.set) close c (List.range c.attributes.length)
      [⟨c.objects.toFinset, ∅, none⟩] [] with
  | error e => rw [s1 e hv]; rfl
  | ok v =>
    obtain ⟨H2, b, q1, q2, -⟩ := s2 v hv
    rw [q1]
    exact congrArg _ q2

/-- **C148.** The implications returned hold sets of their own: no set object belongs to two of them, none is premise and
conclusion at once, and none existed before the call; and the call changes no set that existed before. -/
theorem C148_fresh (S : KeySort β) (close : Finset β → List (Imp β) → Finset β) (c : Ctx α β) {H H' : Heap β}
    {basis : List Impl} (hr : computeCanonicalBasis S close c H = .ok (H', basis)) :
    (basis.flatMap Impl.addrs).Nodup ∧ (∀ i ∈ basis, H.next ≤ i.prem ∧ H.next ≤ i.concl ∧ i.prem < H'.next ∧
      i.concl < H'.next) ∧ ∀ a, a < H.next → H'.mem a = H.mem a := by
  unfold computeCanonicalBasis at hr
  dsimp only at hr
  set H1 := (H.alloc ∅).2 with hH1
  have hown : Own H.next H1 [(⟨c.objects.toFinset, H.next, none⟩ : Elem α)] := by
    refine ⟨?_, ?_, ?_, ?_⟩ <;> simp [Elem.addrs, Elem.Good, hH1, Heap.alloc]
  obtain ⟨s1, s2⟩ := basisLoop_spec (lo := H.next) S close c (List.range c.attributes.length) (H := H1) (basis := [])
    (Nat.le_succ _) hown (by simp)
  have e1 : (H.alloc (∅ : Finset β)).1 = H.next := rfl
  rw [e1] at hr
  cases hv : AI.basisLoop (S.sort _ AI.Pre.set) close c (List.range c.attributes.length)
      ([(⟨c.objects.toFinset, H.next, none⟩ : Elem α)].map (Elem.read H1)) (([] : List Impl).map (Impl.read H1)) with
  | error e => rw [s1 e hv] at hr; cases hr
  | ok v =>
    obtain ⟨H2, b, q1, q2, q3, q4, q5, q6⟩ := s2 v hv
    rw [q1] at hr
    cases hr
    refine ⟨q3, fun i hi => ?_, fun a ha => ?_⟩
    · have h1 := q4 i.prem (List.mem_flatMap.2 ⟨i, hi, by simp [Impl.addrs]⟩)
      have h2 := q4 i.concl (List.mem_flatMap.2 ⟨i, hi, by simp [Impl.addrs]⟩)
      exact ⟨h1.1, h2.1, h1.2, h2.2⟩
    · rw [q6 a ha]
      exact Function.update_of_ne (Nat.ne_of_lt ha) _ _

/-! ### The sort of CPython sees the keys only -/

theorem bisect_map {γ δ : Type} (f : γ → δ) (lt : δ → δ → Bool) (arr : List γ) (x : γ) :
    ∀ fuel l r, AI.bisect lt (arr.map f) (f x) fuel l r = AI.bisect (fun a b => lt (f a) (f b)) arr x fuel l r := by
  intro fuel
  induction fuel with
  | zero => intro l r; rfl
  | succ n ih =>
    intro l r
    unfold AI.bisect
    dsimp only
    rw [List.getElem?_map]
    cases arr[l + (r - l) / 2]? with
    | none => rfl
    | some y => simp only [Option.map_some, ih]

theorem binaryInsert_map {γ δ : Type} (f : γ → δ) (lt : δ → δ → Bool) (l : List γ) :
    ∀ arr, AI.binaryInsert lt (arr.map f) (l.map f) = (AI.binaryInsert (fun a b => lt (f a) (f b)) arr l).map f := by
  induction l with
  | nil => intro arr; rfl
  | cons x l ih =>
    intro arr
    rw [List.map_cons]
    unfold AI.binaryInsert
    dsimp only
    rw [bisect_map, List.length_map, ← ih]
    simp only [List.map_append, List.map_take, List.map_cons, List.map_drop]

theorem runFrom_map {γ δ : Type} (f : γ → δ) (rel : δ → δ → Bool) (l : List γ) :
    ∀ a, AI.runFrom rel (f a) (l.map f) = ((AI.runFrom (fun a b => rel (f a) (f b)) a l).1.map f,
      (AI.runFrom (fun a b => rel (f a) (f b)) a l).2.map f) := by
  induction l with
  | nil => intro a; rfl
  | cons b l ih =>
    intro a
    rw [List.map_cons]
    unfold AI.runFrom
    rw [ih]
    by_cases h : rel (f a) (f b) = true
    · rw [if_pos h, if_pos h]; rfl
    · rw [if_neg h, if_neg h]; rfl

theorem pySortShort_map {γ δ : Type} (f : γ → δ) (lt : δ → δ → Bool) (l : List γ) :
    AI.pySortShort lt (l.map f) = (AI.pySortShort (fun a b => lt (f a) (f b)) l).map f := by
  match l with
  | [] => rfl
  | [a] => rfl
  | a :: b :: rest =>
    rw [List.map_cons, List.map_cons]
    simp only [AI.pySortShort]
    by_cases h : lt (f b) (f a) = true
    · rw [if_pos h, if_pos h, ← List.map_cons, runFrom_map f (fun x y => lt y x), ← binaryInsert_map]
      simp only [List.map_reverse, List.map_cons]
    · rw [if_neg h, if_neg h, ← List.map_cons, runFrom_map f (fun x y => !(lt y x)), ← binaryInsert_map]
      simp only [List.map_cons]

/-- `list.sort(key=…)` of CPython for short lists and keys that are sets. -/
def pyKeySort (β : Type) [DecidableEq β] : KeySort β where
  sort := fun _ key l => AI.pySortShort (fun a b => decide (key a ⊂ key b)) l
  perm := fun _ _ l => AI.pySortShort_perm _ l
  nat := fun _ _ f _ l => pySortShort_map f _ l

theorem pyKeySort_pre : (pyKeySort β).sort (AI.Pre α β) AI.Pre.set = AI.pySortShort AI.Pre.lt := rfl

/-- **C148.** With the sort of CPython for short lists and the default closure function: the objects returned hold a sound
and complete set of implications, whatever sets existed before the call. -/
theorem C148_sound_complete {c : Ctx α β} (h : c.WFw) (hne : c.objects ≠ []) (H : Heap β) :
    ∃ H' basis, computeCanonicalBasis (pyKeySort β) simpleClosure c H = .ok (H', basis) ∧
      (∀ i ∈ basis, H'.mem i.prem ⊆ c.M ∧ H'.mem i.concl = attrClosure c.G c.M c.Inc (H'.mem i.prem) ∧
        H'.mem i.concl ≠ H'.mem i.prem) ∧
      (∀ S, S ⊆ c.M → (Closed (specImps (basis.map (Impl.read H'))) S ↔ attrClosure c.G c.M c.Inc S = S)) := by
  obtain ⟨res, h1, h2, h3⟩ := C32_cpython_sound_complete h hne
  have hv := C148_values (pyKeySort β) simpleClosure c H
  rw [pyKeySort_pre, h1] at hv
  cases hc : computeCanonicalBasis (pyKeySort β) simpleClosure c H with
  | error e => rw [hc] at hv; cases hv
  | ok r =>
    obtain ⟨H', basis⟩ := r
    rw [hc] at hv
    have hr : basis.map (Impl.read H') = res := by
      simpa only [Except.map, Except.ok.injEq] using hv
    refine ⟨H', basis, rfl, fun i hi => ?_, by rw [hr]; exact h3⟩
    exact h2 (i.read H') (hr ▸ List.mem_map_of_mem hi)

/-- A heap with two sets in use. -/
def wit148H : Heap (Fin 5) := ⟨fun a => if a = 0 then {1, 2} else if a = 1 then {4} else ∅, 2⟩

/-- The case of `AI.bad`: six implications with twelve set objects; the sets 0 and 1 are as before. -/
example : AI.bad.WFw ∧ AI.bad.objects ≠ [] ∧
    (computeCanonicalBasis (pyKeySort (Fin 5)) simpleClosure AI.bad wit148H).map (fun r =>
      (r.2.map (Impl.read r.1), r.1.mem 0, r.1.mem 1, (r.2.flatMap Impl.addrs).length)) =
    .ok ([⟨∅, {3}⟩, ⟨{3, 4}, {1, 2, 3, 4}⟩, ⟨{1, 2, 3}, {1, 2, 3, 4}⟩, ⟨{0, 3}, {0, 1, 2, 3, 4}⟩,
      ⟨{1, 3}, {1, 2, 3, 4}⟩, ⟨{2, 3}, {1, 2, 3, 4}⟩], {1, 2}, {4}, 12) := by
  refine ⟨AI.bad_wf, by decide, ?_⟩
  decide +kernel

/-- An object-free context: the same exception in both models. -/
example : computeCanonicalBasis (pyKeySort (Fin 2)) simpleClosure (⟨[], [0, 1], ⟨none, []⟩⟩ : Ctx (Fin 1) (Fin 2))
    ⟨fun _ => ∅, 0⟩ = .error .indexError := by
  have := C148_values (pyKeySort (Fin 2)) simpleClosure (⟨[], [0, 1], ⟨none, []⟩⟩ : Ctx (Fin 1) (Fin 2)) ⟨fun _ => ∅, 0⟩
  rw [C32_objectfree_violated rfl (by decide)] at this
  cases hc : computeCanonicalBasis (pyKeySort (Fin 2)) simpleClosure (⟨[], [0, 1], ⟨none, []⟩⟩ : Ctx (Fin 1) (Fin 2))
      ⟨fun _ => ∅, 0⟩ with
  | error e => rw [hc] at this; cases this; rfl
  | ok r => rw [hc] at this; cases this

end AIObj
