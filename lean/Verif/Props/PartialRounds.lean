/-
Property C153: what repeating the basis computation on a partial context gives.
-/
import Verif.Props.PartialContext
import Verif.Lemmas.DGCond

set_option linter.unusedSectionVars false

open Spec Ctx

variable {α β : Type} [DecidableEq α] [DecidableEq β]

/-- A client calls `get_attribute_implications(confirmed=conf)` (fca/partial_context.py:85-89) `n` times, each time adding
what is returned to `conf`, which is `bg` at the beginning. -/
def PCtx.rounds (p : PCtx α β) (ordA : SetOrder β) (ordO : SetOrder α) (bg : List (Imp β)) : ℕ → Py (List (Imp β))
  | 0 => .ok bg
  | n + 1 => do
    let conf ← p.rounds ordA ordO bg n
    let new ← p.dgBasis ordA ordO conf (fun _ => true)
    .ok (conf ++ new)

/-- One round: what is added respects the attributes, has the closure as conclusion, and the least number of elements of
a set that respects the list and is not closed grows. -/
theorem partial_round {p : PCtx α β} (h : p.WF) (hne : p.objects ≠ []) (ordA : SetOrder β) (ordO : SetOrder α)
    {conf : List (Imp β)} (hc : ∀ i ∈ conf, i.conclusion ⊆ p.attributes.toFinset) {n : ℕ}
    (hn : ∀ Z, Z ⊆ p.attributes.toFinset → Closed (specImps conf) Z → Z.card < n → p.xqF Z = Z) :
    ∃ new, p.dgBasis ordA ordO conf (fun _ => true) = .ok new ∧
      (∀ i ∈ new, i.premise ⊆ p.attributes.toFinset ∧ i.conclusion = p.xqF i.premise) ∧
      (new = [] ↔ ∀ Z, Z ⊆ p.attributes.toFinset → Closed (specImps conf) Z → p.xqF Z = Z) ∧
      ∀ Z, Z ⊆ p.attributes.toFinset → Closed (specImps (conf ++ new)) Z → Z.card < n + 1 → p.xqF Z = Z := by
  have S := h.setup hne ordA ordO
  have hcl : ∀ basis, GoodBasis conf basis → ∀ s, s ⊆ p.attributes.toFinset →
      IsLeastClosed (specImps (basis ++ conf)) s (simpleClosure s (basis ++ conf)) :=
    fun basis _ s _ => simpleClosure_isLeast s (basis ++ conf)
  obtain ⟨new, -, e1, e2, -⟩ := dgBasis_generic S hc (fun _ => true)
  refine ⟨new, e1, fun i hi => ⟨(e2 i hi).1, (e2 i hi).2.1⟩, ⟨?_, ?_⟩, ?_⟩
  · rintro rfl
    exact dgBasis_empty_cond S hc hcl e1 fun Z h1 h2 h3 => ⟨Z, h1, h2, h3, le_rfl, rfl⟩
  · intro hZ
    by_contra hnew
    obtain ⟨i, l, rfl⟩ := List.exists_cons_of_ne_nil hnew
    have hi := dgBasis_premises S hc (fun s L => (simpleClosure_isLeast s L).2.1) _ e1 i (by simp)
    exact (e2 i (by simp)).2.2.1 (by rw [(e2 i (by simp)).2.1, hZ _ (e2 i (by simp)).1 hi])
  · intro Z hZM hZc hZn
    rw [closed_specImps] at hZc
    have hZc' : Closed (specImps conf) Z := (closed_specImps _ _).2 fun i hi => hZc i (List.mem_append_left _ hi)
    by_contra hcon
    have hmem := dgBasis_cond S hc hcl e1 hZM hZc' hcon rfl (by
      intro T hT hTc
      have := Finset.card_lt_card hT
      rw [hn T (hT.1.trans hZM) hTc (by omega)]
      exact hT)
    have := hZc _ (List.mem_append_right _ hmem) (Finset.Subset.refl Z)
    exact hcon (Finset.Subset.antisymm this (S.ext Z hZM))

/-- C153: in every partial context with an object, for every background over the attributes, calls that add what they get
to the confirmed implications get something new in at most as many calls as there are attributes. Then every implication
that no object refutes follows from the list, and nothing in the list beyond the background is refuted. -/
theorem C153_rounds {p : PCtx α β} (h : p.WF) (hne : p.objects ≠ []) (ordA : SetOrder β) (ordO : SetOrder α)
    {bg : List (Imp β)} (hbg : ∀ i ∈ bg, i.premise ⊆ p.attributes.toFinset ∧ i.conclusion ⊆ p.attributes.toFinset) :
    ∃ conf, p.rounds ordA ordO bg p.attributes.length = .ok (bg ++ conf) ∧
      p.dgBasis ordA ordO (bg ++ conf) (fun _ => true) = .ok [] ∧
      (∀ i ∈ conf, i.premise ⊆ p.attributes.toFinset ∧ i.conclusion ⊆ p.attributes.toFinset ∧
        ∀ o ∈ p.objects, ¬ Refutes (p.xI o) (p.qI o) i.premise i.conclusion) ∧
      ∀ P C : Finset β, P ⊆ p.attributes.toFinset → C ⊆ p.attributes.toFinset →
        (∀ o ∈ p.objects, ¬ Refutes (p.xI o) (p.qI o) P C) → Entails (specImps (bg ++ conf)) P C := by
  have S := h.setup hne ordA ordO
  have key : ∀ n, ∃ conf, p.rounds ordA ordO bg n = .ok (bg ++ conf) ∧
      (∀ i ∈ conf, i.premise ⊆ p.attributes.toFinset ∧ i.conclusion = p.xqF i.premise) ∧
      ∀ Z, Z ⊆ p.attributes.toFinset → Closed (specImps (bg ++ conf)) Z → Z.card < n → p.xqF Z = Z := by
    intro n
    induction n with
    | zero => exact ⟨[], by simp [PCtx.rounds], by simp, fun _ _ _ h0 => absurd h0 (by omega)⟩
    | succ n ih =>
      obtain ⟨conf, e1, e2, e3⟩ := ih
      have hc : ∀ i ∈ bg ++ conf, i.conclusion ⊆ p.attributes.toFinset := by
        intro i hi
        rcases List.mem_append.1 hi with hi | hi
        · exact (hbg i hi).2
        · rw [(e2 i hi).2]; exact S.into _ (e2 i hi).1
      obtain ⟨new, f1, f2, -, f3⟩ := partial_round h hne ordA ordO hc e3
      refine ⟨conf ++ new, ?_, ?_, ?_⟩
      · unfold PCtx.rounds
        rw [e1, py_ok_bind, f1, py_ok_bind, List.append_assoc]
      · intro i hi
        rcases List.mem_append.1 hi with hi | hi
        · exact e2 i hi
        · exact f2 i hi
      · rw [← List.append_assoc]; exact f3
  obtain ⟨conf, e1, e2, e3⟩ := key p.attributes.length
  have hc : ∀ i ∈ bg ++ conf, i.conclusion ⊆ p.attributes.toFinset := by
    intro i hi
    rcases List.mem_append.1 hi with hi | hi
    · exact (hbg i hi).2
    · rw [(e2 i hi).2]; exact S.into _ (e2 i hi).1
  have hall : ∀ Z, Z ⊆ p.attributes.toFinset → Closed (specImps (bg ++ conf)) Z → p.xqF Z = Z := by
    intro Z hZ hZc
    by_cases hlt : Z.card < p.attributes.length
    · exact e3 Z hZ hZc hlt
    · have hZM : Z = p.attributes.toFinset := Finset.eq_of_subset_of_card_le hZ
        ((List.toFinset_card_le _).trans (by omega))
      exact Finset.Subset.antisymm (by rw [hZM]; exact S.into _ (Finset.Subset.refl _)) (S.ext Z hZ)
  obtain ⟨new, f1, -, f2, -⟩ := partial_round h hne ordA ordO hc e3
  refine ⟨conf, e1, by rw [f1, f2.2 hall], fun i hi => ⟨(e2 i hi).1, hc i (List.mem_append_right _ hi), ?_⟩, ?_⟩
  · rintro o ho ⟨r1, r2⟩
    refine r2 fun a ha => ?_
    rw [(e2 i hi).2, h.mem_xqF] at ha
    exact ha.2 o ho r1
  · intro P C hP hC hr T hT hPT a ha
    have hT' := (closed_specImps _ T).1 hT
    have hI : Closed (specImps (bg ++ conf)) (T ∩ p.attributes.toFinset) := by
      rw [closed_specImps]
      intro x hx hxp
      exact Finset.subset_inter (hT' x hx (hxp.trans Finset.inter_subset_left)) (hc x hx)
    have hcl := hall _ Finset.inter_subset_right hI
    have hCP : C ⊆ p.xqF P := by
      intro m hm
      rw [h.mem_xqF]
      refine ⟨List.mem_toFinset.1 (hC hm), fun o ho hs => ?_⟩
      by_contra hq
      exact hr o ho ⟨hs, fun hh => hq (hh hm)⟩
    have := h.mono (Finset.subset_inter hPT hP) (hCP ha)
    rw [hcl] at this
    exact Finset.inter_subset_left this

/-- A second call adds something in the context of C82, a third one does not. -/
example : pcInc.dgBasis (SetOrder.fin 3) (SetOrder.fin 4) [] (fun _ => true) = .ok [⟨{0}, {0, 1}⟩] ∧
    pcInc.rounds (SetOrder.fin 3) (SetOrder.fin 4) [] 2 = .ok [⟨{0}, {0, 1}⟩, ⟨{0, 1}, {0, 1, 2}⟩] ∧
    pcInc.rounds (SetOrder.fin 3) (SetOrder.fin 4) [] 3 = .ok [⟨{0}, {0, 1}⟩, ⟨{0, 1}, {0, 1, 2}⟩] := by
  decide +kernel

/-- The list is not consistent with the context as a whole: together the implications, none of which is refuted, entail one
that an object refutes. -/
theorem C153_together_violated : ∃ L : List (Imp (Fin 3)), pcInc.WF ∧
    pcInc.rounds (SetOrder.fin 3) (SetOrder.fin 4) [] 3 = .ok L ∧ Entails (specImps L) {0} {2} ∧
    ∃ o ∈ pcInc.objects, Refutes (pcInc.xI o) (pcInc.qI o) {0} {2} := by
  refine ⟨[⟨{0}, {0, 1}⟩, ⟨{0, 1}, {0, 1, 2}⟩], pcInc_wf, by decide +kernel, ?_, ?_⟩
  · intro S hS h0
    rw [closed_specImps] at hS
    have h1 := hS ⟨{0}, {0, 1}⟩ (by simp) h0
    have h2 := hS ⟨{0, 1}, {0, 1, 2}⟩ (by simp) h1
    exact (by decide : ({2} : Finset (Fin 3)) ⊆ {0, 1, 2}).trans h2
  · unfold Refutes
    decide +kernel
