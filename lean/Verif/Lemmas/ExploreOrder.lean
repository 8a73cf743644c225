/-
Attribute exploration that always asks for the first open implication: the accepted implications are the
canonical basis of the domain, in lectic order. Here for closure operators; the explorations of the library are
instances.
-/
import Verif.Lemmas.Lectic
import Verif.Props.DG

set_option linter.unusedSectionVars false

open Spec

namespace Explore

variable {β : Type} [DecidableEq β]

/-- `y` may be asked after `x`: its premise is lectically greater, or the premise is the same and the conclusion has
become smaller. -/
def AskBefore (atts : List β) (x y : Imp β) : Prop :=
  LecticLt atts x.premise y.premise ∨ (x.premise = y.premise ∧ y.conclusion ⊂ x.conclusion)

/-- State of an exploration of the domain with closure `clD`: the background `L₀` in the beginning, the implications
`acc` accepted and `asked` so far, the closure `clK` of the examples. -/
structure Prog (atts : List β) (L₀ acc asked : List (Imp β)) (clD clK : Finset β → Finset β) : Prop where
  opD : IsClosureOp atts.toFinset clD
  opK : IsClosureOp atts.toFinset clK
  le : ∀ S, S ⊆ atts.toFinset → clD S ⊆ clK S
  bg : ∀ i ∈ L₀, ∀ S, S ⊆ atts.toFinset → clD S = S → i.premise ⊆ S → i.conclusion ⊆ S
  pseudo : ∀ i ∈ acc, IsPseudo atts.toFinset (specImps L₀) clD i.premise ∧ i.conclusion = clD i.premise
  sub : acc.Sublist asked
  order : asked.Pairwise (AskBefore atts)
  askM : ∀ i ∈ asked, i.premise ⊆ atts.toFinset
  below : ∀ i ∈ asked, ∀ S, S ⊆ atts.toFinset → Closed (specImps (L₀ ++ acc)) S →
    lexVal atts S < lexVal atts i.premise → clK S = S
  out : ∀ i ∈ asked, i ∈ acc ∨ clK i.premise ⊂ i.conclusion

/-- The list of open implications. -/
def Cand (atts : List β) (bg : List (Imp β)) (clK : Finset β → Finset β) (L : List (Imp β)) : Prop :=
  (∀ x, x ∈ L ↔ IsPseudo atts.toFinset (specImps bg) clK x.premise ∧ x.conclusion = clK x.premise) ∧
  (L.map Imp.premise).Pairwise (LecticLt atts)

variable {atts : List β} {L₀ acc asked L : List (Imp β)} {clD clK clK' : Finset β → Finset β} {x : Imp β}

theorem Cand.head_le {bg : List (Imp β)} (h : Cand atts bg clK (x :: L)) {Q : Finset β}
    (hQ : IsPseudo atts.toFinset (specImps bg) clK Q) : lexVal atts x.premise ≤ lexVal atts Q := by
  have hm := (h.1 ⟨Q, clK Q⟩).2 ⟨hQ, rfl⟩
  rcases List.mem_cons.1 hm with he | hm
  · rw [← he]
  · have := h.2
    rw [List.map_cons, List.pairwise_cons] at this
    exact ((lecticLt_iff _ _ _).1 (this.1 Q (List.mem_map.2 ⟨_, hm, rfl⟩))).le

/-- Sets that respect the background and lie below the first open implication are closed. -/
theorem Cand.below {bg : List (Imp β)} (h : Cand atts bg clK (x :: L)) {S : Finset β} (hS : S ⊆ atts.toFinset)
    (hc : Closed (specImps bg) S) (hlt : lexVal atts S < lexVal atts x.premise) : clK S = S := by
  by_contra hne
  by_cases hq : ∀ Q, Q ⊂ S → IsPseudo atts.toFinset (specImps bg) clK Q → clK Q ⊆ S
  · have : IsPseudo atts.toFinset (specImps bg) clK S := by rw [IsPseudo]; exact ⟨hS, hc, hne, hq⟩
    have := h.head_le this
    omega
  · push_neg at hq
    obtain ⟨Q, hQS, hQ, -⟩ := hq
    have h1 := h.head_le hQ
    have h2 := lexVal_lt_of_ssubset hS hQS
    omega

theorem Prog.ask (h : Prog atts L₀ acc asked clD clK) (hL : Cand atts (L₀ ++ acc) clK (x :: L)) :
    ∀ i ∈ asked, AskBefore atts i x := by
  intro i hi
  obtain ⟨hp, hcx⟩ := (hL.1 x).1 (by simp)
  rw [IsPseudo] at hp
  rcases lt_trichotomy (lexVal atts i.premise) (lexVal atts x.premise) with hlt | heq | hgt
  · exact .inl ((lecticLt_iff _ _ _).2 hlt)
  · have he := lexVal_inj (h.askM i hi) hp.1 heq
    refine .inr ⟨he, ?_⟩
    rcases h.out i hi with ha | ho
    · exfalso
      have h1 := (closed_specImps _ _).1 hp.2.1 i (List.mem_append_right _ ha) he.le
      obtain ⟨h2, h3⟩ := h.pseudo i ha
      rw [IsPseudo] at h2
      rw [h3, he] at h1
      apply h2.2.2.1
      rw [he]
      exact Finset.Subset.antisymm h1 (h.opD.ext _ hp.1)
    · rw [hcx, ← he]; exact ho
  · exact absurd (h.below i hi x.premise hp.1 hp.2.1 hgt) hp.2.2.1

theorem Prog.accept (h : Prog atts L₀ acc asked clD clK) (hL : Cand atts (L₀ ++ acc) clK (x :: L))
    (ht : clK x.premise = clD x.premise) : Prog atts L₀ (acc ++ [x]) (asked ++ [x]) clD clK := by
  obtain ⟨hp, hcx⟩ := (hL.1 x).1 (by simp)
  have hp' := hp
  rw [IsPseudo] at hp
  have hclosed : ∀ S, Closed (specImps (L₀ ++ (acc ++ [x]))) S → Closed (specImps (L₀ ++ acc)) S := by
    intro S hS
    rw [closed_specImps] at hS ⊢
    exact fun i hi => hS i (by rw [← List.append_assoc]; exact List.mem_append_left _ hi)
  refine ⟨h.opD, h.opK, h.le, h.bg, ?_, h.sub.append (List.Sublist.refl _), ?_, ?_, ?_, ?_⟩
  · intro i hi
    rcases List.mem_append.1 hi with hi | hi
    · exact h.pseudo i hi
    · rw [List.mem_singleton.1 hi]
      refine ⟨?_, hcx.trans ht⟩
      rw [IsPseudo]
      refine ⟨hp.1, ?_, by rw [← ht]; exact hp.2.2.1, ?_⟩
      · have := hp.2.1
        rw [closed_specImps] at this ⊢
        exact fun i hi => this i (List.mem_append_left _ hi)
      · intro Q hQ hQp
        by_cases ha : ∃ i ∈ acc, i.premise = Q
        · obtain ⟨i, hi, rfl⟩ := ha
          rw [← (h.pseudo i hi).2]
          exact (closed_specImps _ _).1 hp.2.1 i (List.mem_append_right _ hi) hQ.1
        · exfalso
          rw [IsPseudo] at hQp
          have hQc : Closed (specImps (L₀ ++ acc)) Q := by
            rw [closed_specImps]
            intro i hi hiQ
            rcases List.mem_append.1 hi with hi | hi
            · exact (closed_specImps _ _).1 hQp.2.1 i hi hiQ
            · obtain ⟨h1, h2⟩ := h.pseudo i hi
              rw [h2]
              refine hQp.2.2.2 i.premise (Finset.ssubset_iff_subset_ne.2 ⟨hiQ, ?_⟩) h1
              exact fun he => ha ⟨i, hi, he⟩
          have hK := hL.below hQp.1 hQc (lexVal_lt_of_ssubset hp.1 hQ)
          apply hQp.2.2.1
          refine Finset.Subset.antisymm ?_ (h.opD.ext _ hQp.1)
          exact (h.le Q hQp.1).trans hK.le
  · rw [List.pairwise_append]
    refine ⟨h.order, List.pairwise_singleton _ _, fun i hi j hj => ?_⟩
    rw [List.mem_singleton.1 hj]
    exact h.ask hL i hi
  · intro i hi
    rcases List.mem_append.1 hi with hi | hi
    · exact h.askM i hi
    · rw [List.mem_singleton.1 hi]; exact hp.1
  · intro i hi S hS hc hlt
    rcases List.mem_append.1 hi with hi | hi
    · exact h.below i hi S hS (hclosed S hc) hlt
    · rw [List.mem_singleton.1 hi] at hlt
      exact hL.below hS (hclosed S hc) hlt
  · intro i hi
    rcases List.mem_append.1 hi with hi | hi
    · exact (h.out i hi).imp (fun ha => List.mem_append_left _ ha) id
    · exact .inl (List.mem_append_right _ hi)

theorem Prog.reject (h : Prog atts L₀ acc asked clD clK) (hL : Cand atts (L₀ ++ acc) clK (x :: L))
    (hop : IsClosureOp atts.toFinset clK') (hle : ∀ S, S ⊆ atts.toFinset → clD S ⊆ clK' S)
    (hfix : ∀ S, S ⊆ atts.toFinset → clK S = S → clK' S = S) (hx : ¬ x.conclusion ⊆ clK' x.premise) :
    Prog atts L₀ acc (asked ++ [x]) clD clK' := by
  obtain ⟨hp, hcx⟩ := (hL.1 x).1 (by simp)
  rw [IsPseudo] at hp
  have hKK : ∀ S, S ⊆ atts.toFinset → clK' S ⊆ clK S := by
    intro S hS
    have h1 := hop.mono S (clK S) (h.opK.ext S hS) (h.opK.into S hS)
    rwa [hfix _ (h.opK.into S hS) (h.opK.idem S hS)] at h1
  refine ⟨h.opD, hop, hle, h.bg, h.pseudo, h.sub.trans (List.sublist_append_left _ _), ?_, ?_, ?_, ?_⟩
  · rw [List.pairwise_append]
    refine ⟨h.order, List.pairwise_singleton _ _, fun i hi j hj => ?_⟩
    rw [List.mem_singleton.1 hj]
    exact h.ask hL i hi
  · intro i hi
    rcases List.mem_append.1 hi with hi | hi
    · exact h.askM i hi
    · rw [List.mem_singleton.1 hi]; exact hp.1
  · intro i hi S hS hc hlt
    rcases List.mem_append.1 hi with hi | hi
    · exact hfix S hS (h.below i hi S hS hc hlt)
    · rw [List.mem_singleton.1 hi] at hlt
      exact hfix S hS (hL.below hS hc hlt)
  · intro i hi
    rcases List.mem_append.1 hi with hi | hi
    · exact (h.out i hi).imp id fun ho => Finset.ssubset_of_subset_of_ssubset (hKK _ (h.askM i hi)) ho
    · rw [List.mem_singleton.1 hi]
      right
      rw [hcx] at hx ⊢
      exact ⟨hKK _ hp.1, hx⟩

/-- Accepted implications hold in the domain. -/
theorem Prog.closed_bg (h : Prog atts L₀ acc asked clD clK) {S : Finset β} (hS : S ⊆ atts.toFinset) (hc : clD S = S) :
    Closed (specImps (L₀ ++ acc)) S := by
  rw [closed_specImps]
  intro i hi hp
  rcases List.mem_append.1 hi with hi | hi
  · exact h.bg i hi S hS hc hp
  · rw [(h.pseudo i hi).2, ← hc]
    exact h.opD.mono _ _ hp hS

/-- At the end the examples have the closure of the domain, and the accepted implications are those of the
pseudo-intents of the domain. -/
theorem Prog.done (h : Prog atts L₀ acc asked clD clK) (hL : Cand atts (L₀ ++ acc) clK []) :
    (∀ S, S ⊆ atts.toFinset → clK S = clD S) ∧
    (∀ i, i ∈ acc ↔ IsPseudo atts.toFinset (specImps L₀) clD i.premise ∧ i.conclusion = clD i.premise) ∧
    (acc.map Imp.premise).Pairwise (LecticLt atts) := by
  have hno : ∀ P, ¬ IsPseudo atts.toFinset (specImps (L₀ ++ acc)) clK P := fun P hP => by
    have := (hL.1 ⟨P, clK P⟩).2 ⟨hP, rfl⟩
    simp at this
  have hfix : ∀ S, S ⊆ atts.toFinset → Closed (specImps (L₀ ++ acc)) S → clK S = S := by
    intro S hS hc
    by_contra hne
    exact hno S (by rw [IsPseudo]; exact ⟨hS, hc, hne, fun Q _ hQ => absurd hQ (hno Q)⟩)
  refine ⟨fun S hS => ?_, fun i => ⟨h.pseudo i, ?_⟩, ?_⟩
  · refine Finset.Subset.antisymm ?_ (h.le S hS)
    have h1 := h.opK.mono S (clD S) (h.opD.ext S hS) (h.opD.into S hS)
    rwa [hfix _ (h.opD.into S hS) (h.closed_bg (h.opD.into S hS) (h.opD.idem S hS))] at h1
  · rintro ⟨hi, hic⟩
    by_cases ha : ∃ j ∈ acc, j.premise = i.premise
    · obtain ⟨j, hj, he⟩ := ha
      have : j = i := by
        have := (h.pseudo j hj).2
        rw [he, ← hic] at this
        cases i; cases j
        simp only at he this
        rw [he, this]
      rwa [← this]
    · exfalso
      rw [IsPseudo] at hi
      have hc : Closed (specImps (L₀ ++ acc)) i.premise := by
        rw [closed_specImps]
        intro j hj hjp
        rcases List.mem_append.1 hj with hj | hj
        · exact (closed_specImps _ _).1 hi.2.1 j hj hjp
        · obtain ⟨h1, h2⟩ := h.pseudo j hj
          rw [h2]
          exact hi.2.2.2 _ (Finset.ssubset_iff_subset_ne.2 ⟨hjp, fun he => ha ⟨j, hj, he⟩⟩) h1
      apply hi.2.2.1
      refine Finset.Subset.antisymm ?_ (h.opD.ext _ hi.1)
      exact (h.le _ hi.1).trans (hfix _ hi.1 hc).le
  · rw [List.pairwise_map]
    have hs := h.order.sublist h.sub
    refine hs.imp_of_mem ?_
    intro a b ha hb hab
    rcases hab with hab | ⟨he, hss⟩
    · exact hab
    · exfalso
      rw [(h.pseudo a ha).2, (h.pseudo b hb).2, he] at hss
      exact hss.2 (Finset.Subset.refl _)

theorem AskBefore.ne {x y : Imp β} (h : AskBefore atts x y) : x ≠ y := by
  rintro rfl
  rcases h with h | h
  · rw [lecticLt_iff] at h; omega
  · exact h.2.2 (Finset.Subset.refl _)

theorem Prog.init (hD : IsClosureOp atts.toFinset clD) (hK : IsClosureOp atts.toFinset clK)
    (hle : ∀ S, S ⊆ atts.toFinset → clD S ⊆ clK S)
    (hbg : ∀ i ∈ L₀, ∀ S, S ⊆ atts.toFinset → clD S = S → i.premise ⊆ S → i.conclusion ⊆ S) :
    Prog atts L₀ [] [] clD clK :=
  ⟨hD, hK, hle, hbg, by simp, by simp, List.Pairwise.nil, by simp, by simp, by simp⟩

end Explore
