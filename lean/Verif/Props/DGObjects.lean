/-
Property C158: the computation of the Duquenne-Guigues basis with its sets changed in place computes what the model with
values computes, and what it returns shares no set with anything else.
-/
import Verif.Model.DGObjects
import Verif.Props.AIObjects
import Mathlib.Data.Fintype.Powerset

set_option linter.unusedSectionVars false

variable {β : Type} [DecidableEq β]

open Spec AIObj

namespace DGObj

/-- A closure function on objects that computes `f`: it changes no set that exists, and the set it returns is a new one or
the one it got. -/
def Works (close : CloseFn β) (f : Finset β → List (Imp β) → Finset β) : Prop :=
  ∀ (H : Heap β) (s : ℕ) (L : List Impl), s < H.next → (∀ x ∈ L.flatMap Impl.addrs, x < H.next) →
    Frame [] H (close H s L).2 ∧ (close H s L).1 < (close H s L).2.next ∧
    ((close H s L).1 = s ∨ H.next ≤ (close H s L).1) ∧
    (close H s L).2.mem (close H s L).1 = f (H.mem s) (L.map (Impl.read H))

theorem alloc_mem (H : Heap β) (s : Finset β) : (H.alloc s).2.mem (H.alloc s).1 = s := Function.update_self _ _ _

theorem alloc_old (H : Heap β) (s : Finset β) {x : ℕ} (h : x < H.next) : (H.alloc s).2.mem x = H.mem x :=
  Function.update_of_ne (Nat.ne_of_lt h) _ _

theorem simplePassO_spec (n : ℕ) : ∀ (unused : List Impl) (H : Heap β) (st : Bool × List Impl),
    (∀ x ∈ (unused ++ st.2).flatMap Impl.addrs, x ≠ n ∧ x < H.next) →
    let r := unused.foldl (fun st i =>
      if st.1.mem i.prem ⊆ st.1.mem n then (st.1.write n (st.1.mem n ∪ st.1.mem i.concl), true, i :: st.2.2) else st)
      (H, st.1, st.2)
    Frame [n] H r.1 ∧ r.1.next = H.next ∧ (∀ x ∈ r.2.2, x ∈ unused ++ st.2) ∧
    (r.1.mem n, r.2.1, r.2.2.map (Impl.read r.1)) =
      (unused.map (Impl.read H)).foldl (fun st imp =>
        if imp.premise ⊆ st.1 then (st.1 ∪ imp.conclusion, true, imp :: st.2.2) else st)
        (H.mem n, st.1, st.2.map (Impl.read H)) := by
  intro unused
  induction unused with
  | nil => intro H st _; exact ⟨Frame.refl _ _, rfl, fun x hx => hx, rfl⟩
  | cons i l ih =>
    intro H st hb
    have hi : ∀ x ∈ i.addrs, x ≠ n ∧ x < H.next := fun x hx => hb x (by simp [hx])
    simp only [List.foldl_cons, List.map_cons]
    by_cases h : H.mem i.prem ⊆ H.mem n
    · have h' : (i.read H).premise ⊆ H.mem n := h
      have hf : Frame [n] H (H.write n (H.mem n ∪ H.mem i.concl)) := Frame.write _ _ (.inl List.mem_cons_self)
      have hrd : ∀ (m : List Impl), (∀ x ∈ m.flatMap Impl.addrs, x ≠ n ∧ x < H.next) →
          m.map (Impl.read (H.write n (H.mem n ∪ H.mem i.concl))) = m.map (Impl.read H) := fun m hm =>
        hf.impls fun x hx => ⟨by simpa using (hm x hx).1, (hm x hx).2⟩
      have hb' : ∀ x ∈ (l ++ i :: st.2).flatMap Impl.addrs, x ≠ n ∧ x < H.next := by
        intro x hx
        refine hb x ?_
        simp only [List.flatMap_append, List.flatMap_cons, List.mem_append, List.cons_append] at hx ⊢
        tauto
      obtain ⟨h1, h2, h3, h4⟩ := ih (H.write n (H.mem n ∪ H.mem i.concl)) (true, i :: st.2) hb'
      simp only [if_pos h, if_pos h']
      refine ⟨hf.trans h1, h2, fun x hx => ?_, ?_⟩
      · have := h3 x hx
        simp only [List.mem_append, List.mem_cons, List.cons_append] at this ⊢
        tauto
      · rw [h4, hrd l fun x hx => hb' x (by rw [List.flatMap_append]; exact List.mem_append_left _ hx),
          hrd (i :: st.2) fun x hx => hb' x (by rw [List.flatMap_append]; exact List.mem_append_right _ hx)]
        have : (H.write n (H.mem n ∪ H.mem i.concl)).mem n = H.mem n ∪ (i.read H).conclusion := Function.update_self _ _ _
        rw [this]
        rfl
    · have h' : ¬ (i.read H).premise ⊆ H.mem n := h
      obtain ⟨h1, h2, h3, h4⟩ := ih H st fun x hx => hb x (by
        simp only [List.flatMap_append, List.flatMap_cons, List.mem_append, List.cons_append] at hx ⊢
        tauto)
      simp only [if_neg h, if_neg h']
      refine ⟨h1, h2, fun x hx => ?_, h4⟩
      have := h3 x hx
      simp only [List.mem_append, List.mem_cons, List.cons_append] at this ⊢
      tauto

theorem simpleLoopO_spec (n : ℕ) : ∀ (fuel : ℕ) (unused : List Impl) (H : Heap β),
    (∀ x ∈ unused.flatMap Impl.addrs, x ≠ n ∧ x < H.next) →
    (simpleLoopO n fuel unused H).map (fun H' => H'.mem n) = simpleLoop fuel (unused.map (Impl.read H)) (H.mem n) ∧
    ∀ H', simpleLoopO n fuel unused H = some H' → Frame [n] H H' ∧ H'.next = H.next := by
  intro fuel
  induction fuel with
  | zero => intro unused H _; exact ⟨rfl, fun H' h => by simp [simpleLoopO] at h⟩
  | succ fuel ih =>
    intro unused H hb
    obtain ⟨h1, h2, h3, h4⟩ := simplePassO_spec n unused H (false, []) (by simpa using hb)
    have hr : simplePassO n unused H = unused.foldl (fun st i =>
      if st.1.mem i.prem ⊆ st.1.mem n then (st.1.write n (st.1.mem n ∪ st.1.mem i.concl), true, i :: st.2.2) else st)
      (H, false, []) := rfl
    dsimp only at h1 h2 h3 h4
    rw [← hr] at h1 h2 h3 h4
    have hv : simplePass (unused.map (Impl.read H)) (H.mem n) = ((simplePassO n unused H).1.mem n,
        (simplePassO n unused H).2.1, (simplePassO n unused H).2.2.map (Impl.read (simplePassO n unused H).1)) := h4.symm
    simp only [simpleLoopO, simpleLoop, hv]
    set r := simplePassO n unused H with hrr
    by_cases hch : r.2.1 = true
    · simp only [if_pos hch]
      have hb' : ∀ x ∈ (unused.filter fun i => !(r.2.2.any fun x => (x.read r.1).pyEq (i.read r.1))).flatMap Impl.addrs,
          x ≠ n ∧ x < r.1.next := by
        intro x hx
        rw [h2]
        obtain ⟨i, hi, hx⟩ := List.mem_flatMap.1 hx
        exact hb x (List.mem_flatMap.2 ⟨i, List.mem_of_mem_filter hi, hx⟩)
      obtain ⟨i1, i2⟩ := ih _ r.1 hb'
      refine ⟨?_, fun H' hH' => ?_⟩
      · rw [i1]
        congr 1
        have : unused.map (Impl.read H) = unused.map (Impl.read r.1) :=
          (h1.impls fun x hx => ⟨by simpa using (hb x hx).1, (hb x hx).2⟩).symm
        rw [this, List.filter_map]
        congr 1
        refine List.filter_congr fun i _ => ?_
        simp only [Function.comp_apply, List.any_map]
        rfl
      · obtain ⟨j1, j2⟩ := i2 H' hH'
        exact ⟨h1.trans j1, j2.trans h2⟩
    · simp only [if_neg hch]
      refine ⟨rfl, fun H' hH' => ?_⟩
      cases hH'
      exact ⟨h1, h2⟩

theorem simpleO_works : Works (β := β) simpleO simpleClosure := by
  intro H s L hs hL
  have hf : Frame [] H (H.alloc (H.mem s)).2 := Frame.alloc _ _ _
  obtain ⟨h1, h2⟩ := simpleLoopO_spec (H.alloc (H.mem s)).1 (L.length + 1) L (H.alloc (H.mem s)).2 fun x hx =>
    ⟨Nat.ne_of_lt (hL x hx), Nat.lt_succ_of_lt (hL x hx)⟩
  rw [alloc_mem, hf.impls fun x hx => ⟨by simp, hL x hx⟩] at h1
  have hsome := simpleLoop_isSome (H.mem s) (L.map (Impl.read H))
  rw [List.length_map, ← h1] at hsome
  cases hr : simpleLoopO (H.alloc (H.mem s)).1 (L.length + 1) L (H.alloc (H.mem s)).2 with
  | none => rw [hr] at hsome; simp at hsome
  | some H' =>
    obtain ⟨j1, j2⟩ := h2 H' hr
    have e : simpleO H s L = ((H.alloc (H.mem s)).1, H') := by simp only [simpleO, hr, Option.getD_some]
    rw [e]
    have hnext : (H.alloc (H.mem s)).2.next = H.next + 1 := rfl
    have hfst : (H.alloc (H.mem s)).1 = H.next := rfl
    refine ⟨⟨by dsimp only; omega, fun x _ hx => ?_⟩, by dsimp only; omega, .inr (le_refl _), ?_⟩
    · rw [j1.same x (by simp; omega) (by omega), alloc_old _ _ hx]
    · rw [hr] at h1
      simp only [simpleClosure, List.length_map, ← h1]
      rfl

theorem linO_works (ord₀ : SetOrder β) (ord : ℕ → SetOrder β) : Works (linO ord₀ ord) (linClosure ord₀ ord) := by
  intro H s L hs _
  unfold linO
  by_cases hL : L = []
  · subst hL
    simp only [if_true]
    exact ⟨Frame.refl _ _, hs, .inl trivial, by simp [linClosure]⟩
  · simp only [if_neg hL]
    exact ⟨Frame.alloc _ _ _, Nat.lt_succ_self _, .inr (le_refl _), alloc_mem _ _⟩

theorem nextO_spec {close : CloseFn β} {f : Finset β → List (Imp β) → Finset β} (hc : Works close f) (atts : List β)
    (L : List Impl) : ∀ (j a : ℕ) (H : Heap β), a < H.next → (∀ x ∈ L.flatMap Impl.addrs, x ≠ a ∧ x < H.next) →
    Frame [a] H (nextO close atts L j a H).1.2 ∧
    (nextO close atts L j a H).1.1 < (nextO close atts L j a H).1.2.next ∧
    ((nextO close atts L j a H).1.1 = a ∨ H.next ≤ (nextO close atts L j a H).1.1) ∧
    ((nextO close atts L j a H).1.2.mem (nextO close atts L j a H).1.1, (nextO close atts L j a H).2) =
      dgNext f atts (L.map (Impl.read H)) j (H.mem a) := by
  intro j
  induction j with
  | zero => intro a H ha _; exact ⟨Frame.refl _ _, ha, .inl rfl, rfl⟩
  | succ j ih =>
    intro a H ha hL
    cases hm : atts[j]? with
    | none =>
      have e : nextO close atts L (j + 1) a H = ((a, H), none) := by simp only [nextO, hm]
      rw [e]
      refine ⟨Frame.refl _ _, ha, .inl rfl, ?_⟩
      simp only [dgNext, hm]
    | some m =>
      by_cases hma : m ∈ H.mem a
      · have e : nextO close atts L (j + 1) a H = nextO close atts L j a (H.write a ((H.mem a).erase m)) := by
          simp only [nextO, hm, if_pos hma]
        rw [e]
        have hf : Frame [a] H (H.write a ((H.mem a).erase m)) := Frame.write H _ (.inl List.mem_cons_self)
        obtain ⟨h1, h2, h3, h4⟩ := ih a (H.write a ((H.mem a).erase m)) ha hL
        refine ⟨hf.trans h1, h2, h3, ?_⟩
        rw [h4, hf.impls fun x hx => ⟨by simpa using (hL x hx).1, (hL x hx).2⟩]
        have : (H.write a ((H.mem a).erase m)).mem a = (H.mem a).erase m := Function.update_self _ _ _
        rw [this]
        simp only [dgNext, hm, if_pos hma]
      · have ht : (H.alloc (insert m (H.mem a))).1 = H.next := rfl
        have htn : (H.alloc (insert m (H.mem a))).2.next = H.next + 1 := rfl
        have hft : Frame [] H (H.alloc (insert m (H.mem a))).2 := Frame.alloc _ _ _
        obtain ⟨r1, r2, r3, r4⟩ := hc (H.alloc (insert m (H.mem a))).2 (H.alloc (insert m (H.mem a))).1 L
          (by omega) fun x hx => by have := (hL x hx).2; omega
        rw [alloc_mem, hft.impls fun x hx => ⟨by simp, (hL x hx).2⟩] at r4
        have hf := hft.trans r1
        have hra := hf.same a (by simp) ha
        have hfa : Frame [a] H (close (H.alloc (insert m (H.mem a))).2 (H.alloc (insert m (H.mem a))).1 L).2 :=
          hf.mono (by simp)
        by_cases hb : (f (insert m (H.mem a)) (L.map (Impl.read H)) \ H.mem a) ∩ (atts.take j).toFinset = ∅
        · have e : nextO close atts L (j + 1) a H =
              (close (H.alloc (insert m (H.mem a))).2 (H.alloc (insert m (H.mem a))).1 L, some j) := by
            simp only [nextO, hm, if_neg hma, r4, hra, if_pos hb]
          rw [e]
          refine ⟨hfa, r2, .inr ?_, ?_⟩
          · dsimp only
            rcases r3 with r3 | r3
            · rw [r3, ht]
            · omega
          · dsimp only
            rw [r4]
            simp only [dgNext, hm, if_neg hma, if_pos hb]
        · have e : nextO close atts L (j + 1) a H =
              nextO close atts L j a (close (H.alloc (insert m (H.mem a))).2 (H.alloc (insert m (H.mem a))).1 L).2 := by
            simp only [nextO, hm, if_neg hma, r4, hra, if_neg hb]
          rw [e]
          have hn := hf.next
          obtain ⟨h1, h2, h3, h4⟩ := ih a (close (H.alloc (insert m (H.mem a))).2 (H.alloc (insert m (H.mem a))).1 L).2
            (by omega) fun x hx => ⟨(hL x hx).1, by have := (hL x hx).2; omega⟩
          refine ⟨hfa.trans h1, h2, h3.imp id fun h => by omega, ?_⟩
          rw [h4, hf.impls fun x hx => ⟨by simp, (hL x hx).2⟩, hra]
          simp only [dgNext, hm, if_neg hma, if_neg hb]

/-- The implications hold sets of their own: different objects, none of them older than `lo`. -/
structure Sep (lo : ℕ) (H : Heap β) (rel : List Impl) : Prop where
  nodup : (rel.flatMap Impl.addrs).Nodup
  low : ∀ x ∈ rel.flatMap Impl.addrs, lo ≤ x
  bound : ∀ x ∈ rel.flatMap Impl.addrs, x < H.next

theorem Sep.frame {lo : ℕ} {H H' : Heap β} {A : List ℕ} {rel : List Impl} (h : Sep lo H rel) (hf : Frame A H H') :
    Sep lo H' rel := ⟨h.nodup, h.low, fun x hx => (h.bound x hx).trans_le hf.next⟩

theorem appendO_spec (cond : Finset β → Bool) {lo : ℕ} {rel : List Impl} {a c : ℕ} {H : Heap β} (hs : Sep lo H rel)
    (hlo : lo ≤ H.next) (hcn : c < H.next) :
    Frame [] H (appendO cond rel a c H).2 ∧ Sep lo (appendO cond rel a c H).2 (appendO cond rel a c H).1 ∧
    (∀ x ∈ (appendO cond rel a c H).1.flatMap Impl.addrs, x ∈ rel.flatMap Impl.addrs ∨ H.next ≤ x) ∧
    (appendO cond rel a c H).1.map (Impl.read (appendO cond rel a c H).2) =
      (if H.mem a ≠ H.mem c ∧ cond (H.mem a) = true then rel.map (Impl.read H) ++ [⟨H.mem a, H.mem c⟩]
        else rel.map (Impl.read H)) := by
  unfold appendO
  by_cases h : H.mem a ≠ H.mem c ∧ cond (H.mem a) = true
  · simp only [if_pos h]
    have hp : (H.alloc (H.mem a)).2.mem c = H.mem c := alloc_old _ _ hcn
    rw [hp]
    set H1 := (H.alloc (H.mem a)).2 with hH1
    have n1 : H1.next = H.next + 1 := rfl
    have a1 : (H.alloc (H.mem a)).1 = H.next := rfl
    rw [a1]
    have m1 : H1.mem H.next = H.mem a := alloc_mem _ _
    set H2 := (H1.alloc (H.mem c)).2 with hH2
    have n2 : H2.next = H.next + 2 := rfl
    have a2 : (H1.alloc (H.mem c)).1 = H.next + 1 := rfl
    have m2 : H2.mem (H.next + 1) = H.mem c := alloc_mem _ _
    have m2' : H2.mem H.next = H.mem a := (alloc_old _ _ (by omega)).trans m1
    rw [a2, m2']
    set H3 := (H2.alloc (H.mem a)).2 with hH3
    have n3 : H3.next = H.next + 3 := rfl
    have a3 : (H2.alloc (H.mem a)).1 = H.next + 2 := rfl
    have m3 : H3.mem (H.next + 2) = H.mem a := alloc_mem _ _
    have m3' : H3.mem (H.next + 1) = H.mem c := (alloc_old _ _ (by omega)).trans m2
    rw [a3, m3']
    set H4 := (H3.alloc (H.mem c)).2 with hH4
    have n4 : H4.next = H.next + 4 := rfl
    have a4 : (H3.alloc (H.mem c)).1 = H.next + 3 := rfl
    have m4 : H4.mem (H.next + 3) = H.mem c := alloc_mem _ _
    have m4' : H4.mem (H.next + 2) = H.mem a := (alloc_old _ _ (by omega)).trans m3
    rw [a4]
    have hf : Frame [] H H4 :=
      (((Frame.alloc [] H _).trans (Frame.alloc [] H1 _)).trans (Frame.alloc [] H2 _)).trans (Frame.alloc [] H3 _)
    refine ⟨hf, ⟨?_, ?_, ?_⟩, ?_, ?_⟩
    · rw [List.flatMap_append, List.nodup_append]
      refine ⟨hs.nodup, by simp [Impl.addrs], ?_⟩
      intro x hx y hy
      have := hs.bound x hx
      simp [Impl.addrs] at hy
      omega
    · intro x hx
      rw [List.flatMap_append, List.mem_append] at hx
      rcases hx with hx | hx
      · exact hs.low x hx
      · simp [Impl.addrs] at hx
        omega
    · intro x hx
      rw [List.flatMap_append, List.mem_append] at hx
      rcases hx with hx | hx
      · have := hs.bound x hx
        omega
      · simp [Impl.addrs] at hx
        omega
    · intro x hx
      rw [List.flatMap_append, List.mem_append] at hx
      rcases hx with hx | hx
      · exact .inl hx
      · simp [Impl.addrs] at hx
        right
        omega
    · rw [List.map_append, hf.impls fun x hx => ⟨by simp, hs.bound x hx⟩]
      simp only [List.map_cons, List.map_nil, Impl.read, m4, m4']
  · simp only [if_neg h]
    exact ⟨Frame.refl _ _, hs, fun x hx => .inl hx, trivial⟩

theorem loopO_spec (atts : List β) (aclose : Finset β → Py (Finset β)) {close : CloseFn β}
    {f : Finset β → List (Imp β) → Finset β} (hc : Works close f) (bg : List Impl) (cond : Finset β → Bool) (lo : ℕ)
    (hbg : ∀ x ∈ bg.flatMap Impl.addrs, x < lo) :
    ∀ (fuel : ℕ) (rel : List Impl) (a i : ℕ) (H : Heap β), Sep lo H rel → lo ≤ a → a < H.next →
      a ∉ rel.flatMap Impl.addrs →
      (loopO atts aclose close bg cond fuel rel a i H).map (fun r => r.1.map (List.map (Impl.read r.2))) =
        dgLoop atts aclose f (bg.map (Impl.read H)) cond fuel (rel.map (Impl.read H)) (H.mem a) i ∧
      ∀ r, loopO atts aclose close bg cond fuel rel a i H = some r →
        H.next ≤ r.2.next ∧ (∀ x, x < lo → r.2.mem x = H.mem x) ∧ ∀ l, r.1 = .ok l → Sep lo r.2 l := by
  intro fuel
  induction fuel with
  | zero => intro rel a i H _ _ _ _; exact ⟨rfl, fun r hr => by simp [loopO] at hr⟩
  | succ fuel ih =>
    intro rel a i H hs hla han harel
    by_cases hcard : (H.mem a).card < atts.length
    swap
    · have e : loopO atts aclose close bg cond (fuel + 1) rel a i H = some (.ok rel, H) := by
        simp only [loopO, if_neg hcard]
      rw [e]
      refine ⟨?_, ?_⟩
      · simp only [dgLoop, if_neg hcard]; rfl
      · rintro r hr
        cases hr
        exact ⟨le_refl _, fun _ _ => rfl, fun l hl => by cases hl; exact hs⟩
    cases hac : aclose (H.mem a) with
    | error e =>
      have e' : loopO atts aclose close bg cond (fuel + 1) rel a i H = some (.error e, H) := by
        simp only [loopO, if_pos hcard, hac]
      rw [e']
      refine ⟨?_, ?_⟩
      · simp only [dgLoop, if_pos hcard, hac]; rfl
      · rintro r hr
        cases hr
        exact ⟨le_refl _, fun _ _ => rfl, fun l hl => by cases hl⟩
    | ok v =>
      -- a_closed
      have hfc : Frame [] H (H.alloc v).2 := Frame.alloc _ _ _
      have hc1 : (H.alloc v).1 = H.next := rfl
      have hcn : (H.alloc v).2.next = H.next + 1 := rfl
      have hcm : (H.alloc v).2.mem (H.alloc v).1 = v := alloc_mem _ _
      have hca : (H.alloc v).2.mem a = H.mem a := alloc_old _ _ han
      have hrel : rel.map (Impl.read (H.alloc v).2) = rel.map (Impl.read H) :=
        hfc.impls fun x hx => ⟨by simp, hs.bound x hx⟩
      obtain ⟨p1, p2, p3, p4⟩ := appendO_spec cond (a := a) (c := (H.alloc v).1) (hs.frame hfc) (by omega) (by omega)
      rw [hcm, hca, hrel] at p4
      set r := appendO cond rel a (H.alloc v).1 (H.alloc v).2 with hr
      have hfr := hfc.trans p1
      have hn := p1.next
      have hrc : r.2.mem (H.alloc v).1 = v := (p1.same _ (by simp) (by omega)).trans hcm
      have hra : r.2.mem a = H.mem a := (p1.same _ (by simp) (by omega)).trans hca
      have hbgr : bg.map (Impl.read r.2) = bg.map (Impl.read H) :=
        hfr.impls fun x hx => ⟨by simp, by have := hbg x hx; omega⟩
      have hane : a ∉ r.1.flatMap Impl.addrs := fun hx => by
        rcases p3 a hx with h | h
        · exact harel h
        · omega
      have hcne : (H.alloc v).1 ∉ r.1.flatMap Impl.addrs := fun hx => by
        rcases p3 _ hx with h | h
        · have := hs.bound _ h
          omega
        · omega
      -- one round of `for j`
      have hstep : ∀ (k a' : ℕ) (H' : Heap β), Frame [a'] r.2 H' → a' ∉ r.1.flatMap Impl.addrs → lo ≤ a' → a' < H'.next →
          (loopO atts aclose close bg cond fuel r.1 (nextO close atts (r.1 ++ bg) k a' H').1.1
              ((nextO close atts (r.1 ++ bg) k a' H').2.getD k) (nextO close atts (r.1 ++ bg) k a' H').1.2).map
              (fun r => r.1.map (List.map (Impl.read r.2))) =
            dgLoop atts aclose f (bg.map (Impl.read H)) cond fuel (r.1.map (Impl.read r.2))
              (dgNext f atts (r.1.map (Impl.read r.2) ++ bg.map (Impl.read H)) k (H'.mem a')).1
              ((dgNext f atts (r.1.map (Impl.read r.2) ++ bg.map (Impl.read H)) k (H'.mem a')).2.getD k) ∧
          ∀ q, loopO atts aclose close bg cond fuel r.1 (nextO close atts (r.1 ++ bg) k a' H').1.1
              ((nextO close atts (r.1 ++ bg) k a' H').2.getD k) (nextO close atts (r.1 ++ bg) k a' H').1.2 = some q →
            H.next ≤ q.2.next ∧ (∀ x, x < lo → q.2.mem x = H.mem x) ∧ ∀ l, q.1 = .ok l → Sep lo q.2 l := by
        intro k a' H' hf' ha' hla' han'
        have hn' := hf'.next
        have hrelb : r.1.map (Impl.read H') = r.1.map (Impl.read r.2) :=
          hf'.impls fun x hx => ⟨by simpa using fun (h : x = a') => ha' (h ▸ hx), p2.bound x hx⟩
        have hbgb : bg.map (Impl.read H') = bg.map (Impl.read H) := by
          rw [← hbgr]
          exact hf'.impls fun x hx => ⟨by have := hbg x hx; simp; omega, by have := hbg x hx; omega⟩
        obtain ⟨n1, n2, n3, n4⟩ := nextO_spec hc atts (r.1 ++ bg) k a' H' han' (by
          intro x hx
          rw [List.flatMap_append, List.mem_append] at hx
          rcases hx with hx | hx
          · exact ⟨fun h => ha' (h ▸ hx), (p2.bound x hx).trans_le hn'⟩
          · have := hbg x hx
            exact ⟨by omega, by omega⟩)
        rw [List.map_append, hrelb, hbgb] at n4
        rw [← n4]
        set q := nextO close atts (r.1 ++ bg) k a' H' with hq
        have hnn := n1.next
        have hrelq : r.1.map (Impl.read q.1.2) = r.1.map (Impl.read r.2) := by
          rw [← hrelb]
          exact n1.impls fun x hx => ⟨by simpa using fun (h : x = a') => ha' (h ▸ hx), (p2.bound x hx).trans_le hn'⟩
        have hbgq : bg.map (Impl.read q.1.2) = bg.map (Impl.read H) := by
          rw [← hbgb]
          exact n1.impls fun x hx => ⟨by have := hbg x hx; simp; omega, by have := hbg x hx; omega⟩
        obtain ⟨i1, i2⟩ := ih r.1 q.1.1 (q.2.getD k) q.1.2 ((p2.frame hf').frame n1)
          (by rcases n3 with h | h <;> omega) n2 (fun hx => by
            rcases n3 with h | h
            · exact ha' (h ▸ hx)
            · have := p2.bound _ hx
              omega)
        rw [hrelq, hbgq] at i1
        refine ⟨i1, fun q' hq' => ?_⟩
        obtain ⟨j1, j2, j3⟩ := i2 q' hq'
        refine ⟨by omega, fun x hx => ?_, j3⟩
        rw [j2 x hx, n1.same x (by simp; omega) (by omega), hf'.same x (by simp; omega) (by omega),
          hfr.same x (by simp) (by omega)]
      by_cases hb : (v \ H.mem a) ∩ (atts.take i).toFinset ≠ ∅
      · have hfw : Frame [a] r.2 (r.2.write a (H.mem a \ (atts.drop i).toFinset)) :=
          Frame.write _ _ (.inl List.mem_cons_self)
        have hwm : (r.2.write a (H.mem a \ (atts.drop i).toFinset)).mem a = H.mem a \ (atts.drop i).toFinset :=
          Function.update_self _ _ _
        have := hstep i a (r.2.write a (H.mem a \ (atts.drop i).toFinset)) hfw hane hla (by
          have := hfw.next
          omega)
        rw [hwm] at this
        simp only [loopO, dgLoop, if_pos hcard, hac, ← hr, hrc, hra, if_pos hb]
        rw [← p4]
        exact this
      · by_cases hfull : v.card = atts.length
        · simp only [loopO, dgLoop, if_pos hcard, hac, ← hr, hrc, hra, if_neg hb, if_pos hfull]
          rw [← p4]
          refine ⟨rfl, ?_⟩
          rintro q hq
          cases hq
          exact ⟨hfr.next, fun x hx => hfr.same x (by simp) (by omega), fun l hl => by cases hl; exact p2⟩
        · have := hstep atts.length (H.alloc v).1 r.2 (Frame.refl _ _) hcne (by omega) (by omega)
          rw [hrc] at this
          simp only [loopO, dgLoop, if_pos hcard, hac, ← hr, hrc, hra, if_neg hb, if_neg hfull]
          rw [← p4]
          exact this

/-- **C158**: read at the end, the implications computed on set objects are those the model with values computes, for every
number of rounds; errors and endless runs agree too. -/
theorem C158_values (atts : List β) (aclose : Finset β → Py (Finset β)) {close : CloseFn β}
    {f : Finset β → List (Imp β) → Finset β} (hc : Works close f) (bg : List Impl) (cond : Finset β → Bool) (fuel : ℕ)
    (H : Heap β) (hbg : ∀ x ∈ bg.flatMap Impl.addrs, x < H.next) :
    (basisO atts aclose close bg cond fuel H).map (fun r => r.1.map (List.map (Impl.read r.2))) =
      dgLoop atts aclose f (bg.map (Impl.read H)) cond fuel [] (f ∅ (bg.map (Impl.read H))) atts.length ∧
    ∀ r, basisO atts aclose close bg cond fuel H = some r →
      (∀ x, x < H.next → r.2.mem x = H.mem x) ∧ ∀ l, r.1 = .ok l → Sep H.next r.2 l := by
  have hf : Frame [] H (H.alloc ∅).2 := Frame.alloc _ _ _
  have h1 : (H.alloc ∅).1 = H.next := rfl
  have hn : (H.alloc ∅).2.next = H.next + 1 := rfl
  obtain ⟨r1, r2, r3, r4⟩ := hc (H.alloc ∅).2 (H.alloc ∅).1 bg (by omega) fun x hx => by have := hbg x hx; omega
  rw [alloc_mem, hf.impls fun x hx => ⟨by simp, hbg x hx⟩] at r4
  have hf' := hf.trans r1
  obtain ⟨l1, l2⟩ := loopO_spec atts aclose hc bg cond H.next hbg fuel [] (close (H.alloc ∅).2 (H.alloc ∅).1 bg).1
    atts.length (close (H.alloc ∅).2 (H.alloc ∅).1 bg).2 ⟨by simp, by simp, by simp⟩
    (by rcases r3 with h | h <;> omega) r2 (by simp)
  rw [hf'.impls fun x hx => ⟨by simp, hbg x hx⟩, r4] at l1
  refine ⟨l1, fun r hr => ?_⟩
  obtain ⟨_, j2, j3⟩ := l2 r hr
  exact ⟨fun x hx => by rw [j2 x hx, hf'.same x (by simp) hx], j3⟩

/-- **C158**: for a context and a closure function that works on objects as `f` does on values: when `compute_dg_basis` with
`f` returns `res`, the run on objects returns implications of these values; all their sets are different objects and
none of them existed before the call; no set that existed before the call has changed. -/
theorem C158_context {α : Type} [DecidableEq α] (c : Ctx α β) (ordA : SetOrder β) (ordO : SetOrder α) {close : CloseFn β}
    {f : Finset β → List (Imp β) → Finset β} (hc : Works close f) (bg : List Impl) (cond : Finset β → Bool) (H : Heap β)
    (hbg : ∀ x ∈ bg.flatMap Impl.addrs, x < H.next) {res : List (Imp β)}
    (hres : c.dgBasisWith ordA ordO f (bg.map (Impl.read H)) cond = .ok res) :
    ∃ l H', basisO c.attributes (c.dgAclose ordA ordO) close bg cond (2 ^ c.attributes.length + 1) H = some (.ok l, H') ∧
      l.map (Impl.read H') = res ∧ (l.flatMap Impl.addrs).Nodup ∧ (∀ x ∈ l.flatMap Impl.addrs, H.next ≤ x) ∧
      ∀ x, x < H.next → H'.mem x = H.mem x := by
  obtain ⟨h1, h2⟩ := C158_values c.attributes (c.dgAclose ordA ordO) hc bg cond (2 ^ c.attributes.length + 1) H hbg
  unfold Ctx.dgBasisWith dgBasis dgBasisFuel at hres
  rw [← h1] at hres
  cases hb : basisO c.attributes (c.dgAclose ordA ordO) close bg cond (2 ^ c.attributes.length + 1) H with
  | none => rw [hb] at hres; simp at hres
  | some r =>
    obtain ⟨v, H'⟩ := r
    obtain ⟨h3, h4⟩ := h2 _ hb
    rw [hb] at hres
    cases v with
    | error e => simp [Except.map] at hres
    | ok l =>
      have : l.map (Impl.read H') = res := by simpa [Except.map] using hres
      exact ⟨l, H', rfl, this, (h4 l rfl).nodup, (h4 l rfl).low, h3⟩

/-- Three attributes, a background implication `{} → {0}` whose two set objects are 0 and 1. -/
def objCtx : Ctx (Fin 3) (Fin 3) := ⟨[0, 1, 2], [0, 1, 2], ⟨some 3, [[true, true, true], [true, true, false], [true, false, false]]⟩⟩

/-- The sets of the background implication. -/
def objHeap : Heap (Fin 3) := ⟨fun k => if k = 0 then ∅ else {0}, 2⟩

/-- The hypotheses of `C158_context` can be met, with `lin_closure`, a background implication and a result that is not empty. -/
example : (∀ x ∈ ([⟨0, 1⟩] : List Impl).flatMap Impl.addrs, x < objHeap.next) ∧
    objCtx.dgBasisWith (SetOrder.fin 3) (SetOrder.fin 3) (linClosure (SetOrder.fin 3) fun _ => SetOrder.fin 3)
      ([(⟨0, 1⟩ : Impl)].map (Impl.read objHeap)) (fun _ => true) = .ok [⟨{0, 2}, {0, 1, 2}⟩] := by
  decide +kernel

/-! ### A closure function that hands out sets it keeps -/

/-- A client's closure function that keeps the answers for the empty list of implications in a table of set objects. -/
def tableO : CloseFn (Fin 2) := fun H s L =>
  if L = [] then
    (if H.mem s = ∅ then 0 else if H.mem s = {0} then 1 else if H.mem s = {1} then 2 else 3, H)
  else simpleO H s L

/-- The table: the four sets of attributes. -/
def tableHeap : Heap (Fin 2) :=
  ⟨fun k => if k = 0 then ∅ else if k = 1 then {0} else if k = 2 then {1} else {0, 1}, 4⟩

/-- The table is intact. -/
def Intact (H : Heap (Fin 2)) : Prop := 4 ≤ H.next ∧ ∀ k < 4, H.mem k = tableHeap.mem k

/-- As long as its table is intact the function answers what `simple_closure` answers, and changes no set. -/
theorem tableO_answers (H : Heap (Fin 2)) (hH : Intact H) (s : ℕ) (L : List Impl) (hs : s < H.next)
    (hL : ∀ x ∈ L.flatMap Impl.addrs, x < H.next) :
    (tableO H s L).2.mem (tableO H s L).1 = simpleClosure (H.mem s) (L.map (Impl.read H)) ∧ Frame [] H (tableO H s L).2 := by
  by_cases h : L = []
  · subst h
    have hb : ∀ S : Finset (Fin 2), tableHeap.mem
        (if S = ∅ then 0 else if S = {0} then 1 else if S = {1} then 2 else 3) = simpleClosure S [] := by decide +kernel
    have hlt : ∀ S : Finset (Fin 2), (if S = ∅ then 0 else if S = {0} then 1 else if S = {1} then 2 else 3) < 4 := by
      decide +kernel
    simp only [tableO, if_true, List.map_nil]
    exact ⟨(hH.2 _ (hlt _)).trans (hb _), Frame.refl _ _⟩
  · simp only [tableO, if_neg h]
    exact ⟨(simpleO_works H s L hs hL).2.2.2, (simpleO_works H s L hs hL).1⟩

/-- Two attributes; whoever has the second one has the first one. -/
def tableCtx : Ctx (Fin 3) (Fin 2) := ⟨[0, 1, 2], [0, 1], ⟨some 2, [[true, true], [true, false], [false, false]]⟩⟩

/-- **C158**: it does not suffice that `close` computes the right sets. With a function that hands out sets it keeps, the
first computation returns the basis but leaves the function with a changed table, and the second one does not come to an
end. -/
theorem C158_shared_violated : Intact tableHeap ∧
    ∃ l H', basisO tableCtx.attributes (tableCtx.dgAclose (SetOrder.fin 2) (SetOrder.fin 3)) tableO [] (fun _ => true) 5
        tableHeap = some (.ok l, H') ∧ l.map (Impl.read H') = [⟨{1}, {0, 1}⟩] ∧ ¬ Intact H' ∧
      ∀ fuel, basisO tableCtx.attributes (tableCtx.dgAclose (SetOrder.fin 2) (SetOrder.fin 3)) tableO [] (fun _ => true) fuel
        H' = none := by
  have hcl : tableCtx.dgAclose (SetOrder.fin 2) (SetOrder.fin 3) ∅ = .ok ∅ := by decide +kernel
  have hloop : ∀ (fuel a i : ℕ) (H : Heap (Fin 2)), 4 ≤ H.next → a < H.next → H.mem a = ∅ → H.mem 2 = ∅ →
      loopO tableCtx.attributes (tableCtx.dgAclose (SetOrder.fin 2) (SetOrder.fin 3)) tableO [] (fun _ => true) fuel [] a i H
        = none := by
    intro fuel
    induction fuel with
    | zero => intros; rfl
    | succ fuel ih =>
      intro a i H hn ha h0 h2
      have hca : (H.alloc ∅).2.mem a = ∅ := (alloc_old _ _ ha).trans h0
      have hcm : (H.alloc (∅ : Finset (Fin 2))).2.mem (H.alloc (∅ : Finset (Fin 2))).1 = ∅ := alloc_mem _ _
      have hap : appendO (fun _ => true) [] a (H.alloc ∅).1 (H.alloc ∅).2 = ([], (H.alloc ∅).2) := by
        unfold appendO
        rw [hca, hcm]
        simp
      have hc2 : (H.alloc ∅).2.mem 2 = ∅ := (alloc_old _ _ (by omega)).trans h2
      have hnx : (H.alloc (∅ : Finset (Fin 2))).2.next = H.next + 1 := rfl
      have hnext : nextO tableO tableCtx.attributes [] 2 (H.alloc ∅).1 (H.alloc ∅).2 =
          ((2, ((H.alloc ∅).2.alloc {1}).2), some 1) := by
        have hat : tableCtx.attributes[1]? = some 1 := rfl
        have ht : (((H.alloc ∅).2.alloc {(1 : Fin 2)}).2.mem ((H.alloc ∅).2.alloc {(1 : Fin 2)}).1) = {1} := alloc_mem _ _
        have htb : tableO ((H.alloc ∅).2.alloc {1}).2 ((H.alloc ∅).2.alloc {1}).1 [] = (2, ((H.alloc ∅).2.alloc {1}).2) := by
          simp only [tableO, if_true, ht]
          rfl
        have ht2 : ((H.alloc ∅).2.alloc {1}).2.mem 2 = ∅ := (alloc_old _ _ (by omega)).trans hc2
        simp only [nextO, hat, hcm, Finset.notMem_empty, if_false, insert_empty_eq, htb, ht2, Finset.empty_sdiff,
          Finset.empty_inter, if_true]
      have hlen : tableCtx.attributes.length = 2 := rfl
      simp only [loopO, h0, Finset.card_empty, hlen, hcl, hap, hcm, hca, Finset.empty_sdiff, Finset.empty_inter, ne_eq,
        not_true, if_false, List.append_nil, hnext]
      exact ih 2 _ _ (by show 4 ≤ H.next + 1 + 1; omega) (by show 2 < H.next + 1 + 1; omega)
        ((alloc_old _ _ (by omega)).trans hc2) ((alloc_old _ _ (by omega)).trans hc2)
  refine ⟨⟨le_refl _, fun _ _ => rfl⟩, ?_⟩
  have key : ∀ o : Option (Py (List Impl) × Heap (Fin 2)),
      (∃ l H', o = some (.ok l, H') ∧ l.map (Impl.read H') = [⟨{1}, {0, 1}⟩] ∧ H'.mem 0 = ∅ ∧ H'.mem 2 = ∅ ∧ 4 ≤ H'.next) ↔
      (match o with
        | some (.ok l, H') => decide (l.map (Impl.read H') = [⟨{1}, {0, 1}⟩] ∧ H'.mem 0 = ∅ ∧ H'.mem 2 = ∅ ∧ 4 ≤ H'.next)
        | _ => false) = true := by
    intro o
    rcases o with _ | ⟨_ | l, H'⟩
    · simp
    · simp
    · simp
  obtain ⟨l, H', h1, h2, h3, h4, h5⟩ := (key (basisO tableCtx.attributes
    (tableCtx.dgAclose (SetOrder.fin 2) (SetOrder.fin 3)) tableO [] (fun _ => true) 5 tableHeap)).2 (by decide +kernel)
  refine ⟨l, H', h1, h2, fun h => ?_, fun fuel => ?_⟩
  · have := h.2 2 (by omega)
    rw [h4] at this
    exact absurd this (by decide +kernel)
  · have ht : tableO (H'.alloc ∅).2 (H'.alloc ∅).1 [] = (0, (H'.alloc ∅).2) := by
      simp only [tableO, if_true, alloc_mem]
    unfold basisO
    simp only [ht]
    exact hloop fuel 0 _ _ (by show 4 ≤ H'.next + 1; omega) (by show 0 < H'.next + 1; omega)
      ((alloc_old _ _ (by omega)).trans h3) ((alloc_old _ _ (by omega)).trans h4)

end DGObj
