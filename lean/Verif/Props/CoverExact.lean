/-
Property C167: which implications `compute_implication_cover` returns (fca/algorithms/implication_covers.py).
-/
import Verif.Props.CoverCanonical

set_option linter.unusedSectionVars false

variable {α β : Type} [DecidableEq α] [DecidableEq β]

namespace Cover
open Spec

/-! ### No trivial implications are added -/

theorem remove_sublist {i : Imp β} {l l' : List (Imp β)} (h : remove i l = .ok l') : l'.Sublist l := by
  unfold remove at h
  split at h
  · cases h; exact List.eraseP_sublist
  · cases h

theorem removeSubsumedSimply_go {imp : Imp β} (rest : List (Imp β)) :
    ∀ (can : Bool) (l : List (Imp β)) (r : Bool × List (Imp β)),
      removeSubsumedSimply.go imp can rest l = .ok r → r.2.Sublist l := by
  induction rest with
  | nil => intro can l r h; cases h; exact List.Sublist.refl _
  | cons i rest ih =>
    intro can l r h
    unfold removeSubsumedSimply.go at h
    split_ifs at h with h1 h2
    · cases h; exact List.Sublist.refl _
    · cases hr : remove i l with
      | error e => rw [hr] at h; cases h
      | ok l' =>
        rw [hr] at h
        exact (ih _ _ _ h).trans (remove_sublist hr)
    · exact ih _ _ _ h

theorem removeSubsumed_go {imp : Imp β} (rest : List (Imp β)) :
    ∀ (can : Bool) (l : List (Imp β)) (r : Bool × List (Imp β)),
      removeSubsumed.go imp can rest l = .ok r → r.2.Sublist l := by
  induction rest with
  | nil => intro can l r h; cases h; exact List.Sublist.refl _
  | cons i rest ih =>
    intro can l r h
    unfold removeSubsumed.go at h
    split_ifs at h with h1 h2 h3
    · cases h; exact List.Sublist.refl _
    · exact ih _ _ _ h
    · cases hr : remove i l with
      | error e => rw [hr] at h; cases h
      | ok l' =>
        rw [hr] at h
        exact (ih _ _ _ h).trans (remove_sublist hr)
    · exact ih _ _ _ h

theorem removeSubsumedPlus_go {imp : Imp β} (rest : List (Imp β)) :
    ∀ (l : List (Imp β)) (r : Bool × List (Imp β)),
      removeSubsumedPlus.go imp rest l = .ok r → r.2.Sublist l := by
  induction rest with
  | nil => intro l r h; cases h; exact List.Sublist.refl _
  | cons i rest ih =>
    intro l r h
    unfold removeSubsumedPlus.go at h
    split_ifs at h with h1 h2 h3 h4 h5
    · cases h; exact List.Sublist.refl _
    · cases h; exact List.Sublist.refl _
    · exact ih _ _ h
    · cases hr : remove i l with
      | error e => rw [hr] at h; cases h
      | ok l' =>
        rw [hr] at h
        exact (ih _ _ h).trans (remove_sublist hr)
    · exact ih _ _ h
    · exact ih _ _ h

/-- Every element of the second list is one of the first or not trivial. -/
def Adds (l l' : List (Imp β)) : Prop := ∀ x ∈ l', x ∈ l ∨ x.reduced ≠ ∅

theorem Adds.trans {l l' l'' : List (Imp β)} (h : Adds l l') (h' : Adds l' l'') : Adds l l'' := fun x hx =>
  (h' x hx).elim (h x) .inr

theorem adds_of_sublist {l l' : List (Imp β)} (h : l'.Sublist l) : Adds l l' := fun _ hx => .inl (h.subset hx)

theorem addSmartly_adds {imp : Imp β} {nv valid nv' : List (Imp β)} (h : addSmartly imp nv valid = .ok nv') :
    Adds nv nv' := by
  unfold addSmartly at h
  cases hn : isNew imp valid with
  | error e => rw [hn] at h; cases h
  | ok b =>
    rw [hn, py_ok_bind] at h
    cases b with
    | false => cases h; exact adds_of_sublist (List.Sublist.refl _)
    | true =>
      have hne : imp.reduced ≠ ∅ := by
        intro h0
        unfold isNew at hn
        rw [if_pos ((trivial_iff imp).2 h0)] at hn
        cases hn
      simp only [if_true] at h
      unfold removeSubsumedSimply at h
      rw [if_neg (fun hc => hne ((trivial_iff imp).1 hc))] at h
      cases hr : removeSubsumedSimply.go imp true nv nv with
      | error e => rw [hr] at h; cases h
      | ok r =>
        rw [hr, py_ok_bind] at h
        have hs := removeSubsumedSimply_go _ _ _ _ hr
        split_ifs at h with h1
        · cases h
          intro x hx
          rcases List.mem_append.1 hx with hx | hx
          · exact .inl (hs.subset hx)
          · rw [List.mem_singleton.1 hx]; exact .inr hne
        · cases h; exact adds_of_sublist hs

theorem loop1_adds {I : Finset β} {valid : List (Imp β)} (inv : List (Imp β)) :
    ∀ nv nv', loop1 I valid inv nv = .ok nv' → Adds nv nv' := by
  induction inv with
  | nil => intro nv nv' h; cases h; exact adds_of_sublist (List.Sublist.refl _)
  | cons i inv ih =>
    intro nv nv' h
    unfold loop1 at h
    cases hr : addSmartly ⟨i.premise, i.reduced ∩ I⟩ nv valid with
    | error e => rw [hr] at h; cases h
    | ok r =>
      rw [hr] at h
      exact (addSmartly_adds hr).trans (ih _ _ h)

theorem step2_adds {j : Imp β} {a : β} {st st' : List (Imp β) × List (Imp β)} (h : step2 j a st = .ok st') :
    Adds (st.1 ++ st.2) (st'.1 ++ st'.2) := by
  obtain ⟨v, nv⟩ := st
  rw [step2_def] at h
  by_cases h0 : (grown j a).reduced = ∅
  · unfold removeSubsumed at h
    rw [if_pos ((trivial_iff _).2 h0)] at h
    cases h
    exact adds_of_sublist (List.Sublist.refl _)
  · cases hr : removeSubsumed (grown j a) v with
    | error e => rw [hr] at h; cases h
    | ok r =>
      rw [hr, py_ok_bind] at h
      unfold removeSubsumed at hr
      rw [if_neg (fun hc => h0 ((trivial_iff _).1 hc))] at hr
      have hs := removeSubsumed_go _ _ _ _ hr
      split_ifs at h with h1
      · cases hq : removeSubsumedPlus (grown j a) nv with
        | error e => rw [hq] at h; cases h
        | ok q =>
          rw [hq, py_ok_bind] at h
          unfold removeSubsumedPlus at hq
          rw [if_neg (fun hc => h0 ((trivial_iff _).1 hc))] at hq
          have hs' := removeSubsumedPlus_go _ _ _ hq
          split_ifs at h with h2
          · cases h
            intro x hx
            simp only [List.mem_append, List.mem_singleton] at hx ⊢
            rcases hx with hx | hx | hx
            · exact .inl (.inl (hs.subset hx))
            · exact .inl (.inr (hs'.subset hx))
            · rw [hx]; exact .inr h0
          · cases h; exact adds_of_sublist (hs.append hs')
      · cases h; exact adds_of_sublist (hs.append (List.Sublist.refl _))

theorem loopP_adds (ps : List (Imp β × β)) :
    ∀ st st', loopP ps st = .ok st' → Adds (st.1 ++ st.2) (st'.1 ++ st'.2) := by
  induction ps with
  | nil => intro st st' h; cases h; exact adds_of_sublist (List.Sublist.refl _)
  | cons p ps ih =>
    intro st st' h
    unfold loopP at h
    cases hr : step2 p.1 p.2 st with
    | error e => rw [hr] at h; cases h
    | ok r =>
      rw [hr] at h
      exact (step2_adds hr).trans (ih _ _ h)

theorem updatedBasis_adds {ord : SetOrder β} {I M : Finset β} {B B' : List (Imp β)}
    (h : updatedBasis ord I B M = .ok B') : Adds B B' := by
  unfold updatedBasis at h
  simp only [loop2_eq] at h
  cases h1 : loop1 I (B.filter fun i => isValid I i) (B.filter fun i => !(isValid I i)) [] with
  | error e => rw [h1] at h; cases h
  | ok nv =>
    rw [h1, py_ok_bind] at h
    cases h2 : loopP ((B.filter fun i => !(isValid I i)).flatMap fun j => (ord.enum (M \ I)).map fun a => (j, a))
        ((B.filter fun i => isValid I i) ++ nv, []) with
    | error e => rw [h2] at h; cases h
    | ok st =>
      rw [h2] at h
      cases h
      refine Adds.trans ?_ (loopP_adds _ _ _ h2)
      intro x hx
      simp only [List.append_nil, List.mem_append, List.mem_filter] at hx
      rcases hx with hx | hx
      · exact .inl hx.1
      · exact ((loop1_adds _ _ _ h1) x hx).elim (fun h => by simp at h) .inr

theorem coverLoop_adds {ord : ℕ → SetOrder β} {M : Finset β} (rest : List (Finset β)) :
    ∀ k B B', coverLoop ord M k rest B = .ok B' → Adds B B' := by
  induction rest with
  | nil => intro k B B' h; cases h; exact adds_of_sublist (List.Sublist.refl _)
  | cons I rest ih =>
    intro k B B' h
    unfold coverLoop at h
    cases hr : updatedBasis (ord k) I B M with
    | error e => rw [hr] at h; cases h
    | ok r =>
      rw [hr] at h
      exact (updatedBasis_adds hr).trans (ih _ _ _ h)

/-! ### The cover -/

/-- `P` is not closed, and what follows from `P` without being in it follows from no proper subset of `P` in the same
way: it is not contained in what follows from the subset without being in the subset. -/
def _root_.Spec.LeftMinimal (M : Finset β) (cl : Finset β → Finset β) (P : Finset β) : Prop :=
  P ⊆ M ∧ cl P ≠ P ∧ ∀ Q, Q ⊂ P → ¬ cl P \ P ⊆ cl Q \ Q

theorem computeCover_nontrivial {c : Ctx α β} (h : c.WFw) (ha : c.attributes ≠ []) (ord : ℕ → SetOrder β) {B : List (Imp β)}
    (hB : computeCover c ord = .ok B) : ∀ b ∈ B, b.reduced ≠ ∅ := by
  unfold computeCover at hB
  rw [examples_eq h, py_ok_bind] at hB
  intro b hb
  rcases coverLoop_adds _ _ _ _ hB b hb with h1 | h1
  · obtain rfl := List.mem_singleton.1 h1
    obtain ⟨a, l, hal⟩ := List.exists_cons_of_ne_nil ha
    intro h0
    have : a ∈ (∅ : Finset β) := h0 ▸ (by simp [Imp.reduced, hal])
    simp at this
  · exact h1

section inv
variable {M : Finset β} {es : List (Finset β)} {B : List (Imp β)}

theorem Inv.reduced_eq (h : Inv M es B) {b : Imp β} (hb : b ∈ B) (hne : b.reduced ≠ ∅) :
    b.reduced = clE M es b.premise \ b.premise := by
  have hsub := h.reduced_cl hb (subset_refl b.premise)
  refine Finset.Subset.antisymm (fun x hx => Finset.mem_sdiff.2 ⟨hsub hx, reduced_disj b hx⟩) ?_
  have hcl : clE M es b.premise ≠ b.premise := by
    intro he
    obtain ⟨x, hx⟩ := Finset.nonempty_iff_ne_empty.2 hne
    exact reduced_disj b hx (he ▸ hsub hx)
  obtain ⟨y, hy, hyp, hyc⟩ := h.star _ (h.prem b hb) hcl
  have hs : Sub b y := ⟨hyp, fun x hx => by
    rcases Finset.mem_union.1 (hyc (hsub hx)) with h1 | h1
    · exact absurd h1 (reduced_disj b hx)
    · exact h1⟩
  have := h.ac.2 b hb y hy hs
  subst this
  intro x hx
  rw [Finset.mem_sdiff] at hx
  exact (Finset.mem_union.1 (hyc hx.1)).resolve_left hx.2

theorem Inv.exact (h : Inv M es B) (hne : ∀ b ∈ B, b.reduced ≠ ∅) (P R : Finset β) :
    (P, R) ∈ B.map Imp.key ↔ LeftMinimal M (clE M es) P ∧ R = clE M es P \ P := by
  constructor
  · intro hm
    obtain ⟨b, hb, hk⟩ := List.mem_map.1 hm
    obtain ⟨rfl, rfl⟩ := Prod.mk.inj hk
    have hr := h.reduced_eq hb (hne b hb)
    refine ⟨⟨h.prem b hb, fun he => hne b hb ?_, fun Q hQ hsub => ?_⟩, hr⟩
    · rw [hr, he, Finset.sdiff_self]
    · rw [← hr] at hsub
      have hQc : clE M es Q ≠ Q := by
        intro he
        rw [he, Finset.sdiff_self, Finset.subset_empty] at hsub
        exact hne b hb hsub
      obtain ⟨y, hy, hyp, hyc⟩ := h.star Q (hQ.1.trans (h.prem b hb)) hQc
      have hs : Sub b y := ⟨hyp.trans hQ.1, fun x hx => by
        have := Finset.mem_sdiff.1 (hsub hx)
        exact (Finset.mem_union.1 (hyc this.1)).resolve_left this.2⟩
      have := h.ac.2 b hb y hy hs
      subst this
      exact hQ.2 hyp
  · rintro ⟨⟨hP, hcl, hmin⟩, rfl⟩
    obtain ⟨y, hy, hyp, hyc⟩ := h.star P hP hcl
    have hyP : y.premise = P := by
      by_contra hn
      refine hmin y.premise (Finset.ssubset_iff_subset_ne.2 ⟨hyp, hn⟩) fun x hx => ?_
      rw [← h.reduced_eq hy (hne y hy)]
      rw [Finset.mem_sdiff] at hx
      exact (Finset.mem_union.1 (hyc hx.1)).resolve_left hx.2
    exact List.mem_map.2 ⟨y, hy, by rw [Imp.key, h.reduced_eq hy (hne y hy), hyP]⟩

end inv

theorem leftMinimal_congr {M : Finset β} {f g : Finset β → Finset β} (h : ∀ S, S ⊆ M → f S = g S) {P : Finset β}
    (hP : P ⊆ M) : LeftMinimal M f P ↔ LeftMinimal M g P := by
  unfold LeftMinimal
  rw [h P hP]
  refine and_congr_right fun _ => and_congr_right fun _ => forall_congr' fun Q => imp_congr_right fun hQ => ?_
  rw [h Q (hQ.1.trans hP)]

/-- The implications returned by `compute_implication_cover`, as compared by `==`: one for every left-minimal set of
attributes, with everything that follows from it as conclusion. -/
theorem C167_cover {c : Ctx α β} (h : c.WFw) (ha : c.attributes ≠ []) (ord : ℕ → SetOrder β) :
    ∃ B, computeCover c ord = .ok B ∧ (B.map Imp.key).Nodup ∧
      ∀ P R, (P, R) ∈ B.map Imp.key ↔
        LeftMinimal c.M (attrClosure c.G c.M c.Inc) P ∧ R = attrClosure c.G c.M c.Inc P \ P := by
  obtain ⟨B, h1, h2⟩ := computeCover_main h ord
  refine ⟨B, h1, ?_, fun P R => ?_⟩
  · exact h2.ac.1.map_on fun x hx y hy hxy => h2.premise_inj hx hy (Prod.mk.inj hxy).1
  · rw [h2.exact (computeCover_nontrivial h ha ord h1)]
    constructor
    · rintro ⟨hl, hr⟩
      exact ⟨(leftMinimal_congr (fun S hS => clE_eq h hS) hl.1).1 hl, by rw [hr, clE_eq h hl.1]⟩
    · rintro ⟨hl, hr⟩
      exact ⟨(leftMinimal_congr (fun S hS => clE_eq h hS) hl.1).2 hl, by rw [hr, clE_eq h hl.1]⟩

/-- Without attributes: the one trivial implication the loop starts with. -/
theorem C167_no_attributes {c : Ctx α β} (h : c.WFw) (ha : c.attributes = []) (ord : ℕ → SetOrder β) :
    computeCover c ord = .ok [⟨∅, ∅⟩] := by
  have hu : ∀ k I, updatedBasis (ord k) I [(⟨∅, ∅⟩ : Imp β)] ∅ = .ok [⟨∅, ∅⟩] := by
    intro k I
    have : isValid I (⟨∅, ∅⟩ : Imp β) = true := by simp [isValid, Imp.reduced]
    simp [updatedBasis, this, loop1, loop2]
  have hl : ∀ rest k, coverLoop ord ∅ k rest [(⟨∅, ∅⟩ : Imp β)] = .ok [⟨∅, ∅⟩] := by
    intro rest
    induction rest with
    | nil => intro k; rfl
    | cons I rest ih => intro k; unfold coverLoop; rw [hu, py_ok_bind, ih]
  unfold computeCover
  rw [examples_eq h, py_ok_bind, ha]
  exact hl _ 0

/-- The order in which sets are iterated over changes only the order of the implications. -/
theorem C167_order {c : Ctx α β} (h : c.WFw) (ord ord' : ℕ → SetOrder β) {B B' : List (Imp β)}
    (hB : computeCover c ord = .ok B) (hB' : computeCover c ord' = .ok B') :
    (B.map Imp.key).Perm (B'.map Imp.key) := by
  by_cases ha : c.attributes = []
  · rw [C167_no_attributes h ha] at hB hB'
    cases hB; cases hB'; exact List.Perm.refl _
  · obtain ⟨B₁, e1, n1, m1⟩ := C167_cover h ha ord
    obtain ⟨B₂, e2, n2, m2⟩ := C167_cover h ha ord'
    rw [hB] at e1; rw [hB'] at e2
    cases e1; cases e2
    exact (List.perm_ext_iff_of_nodup n1 n2).2 fun ⟨P, R⟩ => by rw [m1, m2]

/-- No list of valid implications that gives the closure of every set by a single implication is shorter. -/
theorem C167_minimum {c : Ctx α β} (h : c.WFw) (ha : c.attributes ≠ []) (ord : ℕ → SetOrder β) {B : List (Imp β)}
    (hB : computeCover c ord = .ok B) (L : Imps β)
    (hv : ∀ i ∈ L, HoldsIn c.G c.Inc i.1 i.2)
    (hd : ∀ S, S ⊆ c.M → attrClosure c.G c.M c.Inc S = S ∨
      ∃ i ∈ L, i.1 ⊆ S ∧ attrClosure c.G c.M c.Inc S = S ∪ i.2) : B.length ≤ L.length := by
  obtain ⟨B', e1, n1, m1⟩ := C167_cover h ha ord
  rw [hB] at e1; cases e1
  have key : ∀ b ∈ B, b.premise ∈ (L.map Prod.fst) := by
    intro b hb
    obtain ⟨⟨hP, hcl, hmin⟩, hR⟩ := (m1 b.premise b.reduced).1 (List.mem_map.2 ⟨b, hb, rfl⟩)
    obtain ⟨i, hi, hip, hic⟩ := (hd _ hP).resolve_left hcl
    have hpe : i.1 = b.premise := by
      by_contra hn
      refine hmin i.1 (Finset.ssubset_iff_subset_ne.2 ⟨hip, hn⟩) fun x hx => ?_
      have hxP := Finset.mem_sdiff.1 hx
      refine Finset.mem_sdiff.2 ⟨?_, fun hxi => hxP.2 (hip hxi)⟩
      have hx2 : x ∈ i.2 := by
        have := hxP.1
        rw [hic] at this
        exact (Finset.mem_union.1 this).resolve_left hxP.2
      have hx3 : i.2 ⊆ c.M := by
        have : attrClosure c.G c.M c.Inc b.premise ⊆ c.M := h.attrClosure_op.into _ hP
        rw [hic] at this
        exact Finset.union_subset_right this
      exact ((Ctx.holdsIn_iff h hx3).1 (hv i hi)) hx2
    exact List.mem_map.2 ⟨i, hi, hpe⟩
  have hn : (B.map Imp.premise).Nodup := by
    refine (List.Nodup.of_map _ n1).map_on fun x hx y hy hxy => ?_
    have hx' := ((m1 x.premise x.reduced).1 (List.mem_map.2 ⟨x, hx, rfl⟩)).2
    have hy' := ((m1 y.premise y.reduced).1 (List.mem_map.2 ⟨y, hy, rfl⟩)).2
    exact List.inj_on_of_nodup_map n1 hx hy (by simp only [Imp.key]; rw [hx', hy', hxy])
  have hsub : (B.map Imp.premise).Subperm (L.map Prod.fst) := by
    refine hn.subperm fun P hP => ?_
    obtain ⟨b, hb, rfl⟩ := List.mem_map.1 hP
    exact key b hb
  simpa using hsub.length_le

/-! ### Concrete cases -/

/-- The premises of the cover of `cxtCov`. -/
example : LeftMinimal cxtCov.M (attrClosure cxtCov.G cxtCov.M cxtCov.Inc) {0, 2} :=
  (((C167_cover cxtCov_wf (by decide) (fun _ => SetOrder.fin 4)).choose_spec.2.2 {0, 2} {1, 3}).1 (by
    have h := (C167_cover cxtCov_wf (by decide) (fun _ => SetOrder.fin 4)).choose_spec.1
    have h' : computeCover cxtCov (fun _ => SetOrder.fin 4) =
      .ok [⟨{3}, {0, 1, 2, 3}⟩, ⟨∅, {1}⟩, ⟨{0, 2}, {0, 1, 3}⟩] := by decide +kernel
    rw [← Except.ok.inj (h'.symm.trans h)]
    decide +kernel)).1

/-- An empty table with three attributes: another order of iteration gives another list. -/
def cxtOrder : Ctx (Fin 1) (Fin 3) := ⟨[0], [0, 1, 2], ⟨some 3, [[false, false, false]]⟩⟩

theorem cxtOrder_wf : cxtOrder.WFw := by constructor <;> decide +kernel

/-- The list itself is not determined by the context. -/
theorem C167_order_violated :
    ∃ (c : Ctx (Fin 1) (Fin 3)) (ord ord' : ℕ → SetOrder (Fin 3)) (B B' : List (Imp (Fin 3))), c.WFw ∧
      computeCover c ord = .ok B ∧ computeCover c ord' = .ok B' ∧ B.map Imp.key ≠ B'.map Imp.key :=
  ⟨cxtOrder, fun _ => SetOrder.fin 3, fun _ => SetOrder.finRev 3,
    [⟨{0}, {0, 1, 2}⟩, ⟨{1}, {0, 1, 2}⟩, ⟨{2}, {0, 1, 2}⟩], [⟨{2}, {0, 1, 2}⟩, ⟨{1}, {0, 1, 2}⟩, ⟨{0}, {0, 1, 2}⟩],
    cxtOrder_wf, by decide +kernel, by decide +kernel, by decide +kernel⟩

end Cover
