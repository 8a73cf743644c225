/-
Property C130: `minimize` after `compute_implication_cover` gives the Duquenne-Guigues basis
(fca/algorithms/implication_covers.py, fca/algorithms/dg_basis.py).
-/
import Verif.Props.Covers
import Verif.Props.DG

set_option linter.unusedSectionVars false

variable {α β : Type} [DecidableEq α] [DecidableEq β]

namespace Cover
open Spec

/-- The loop of `minimize`: every premise left is closed under the other implications, none is trivial, and it is the
premise of an implication of the cover together with attributes that follow from it. -/
theorem minimizeLoop_left (todo done : List (Imp β))
    (hn : ∀ l1 d l2, done = l1 ++ d :: l2 →
      Closed (specImps (todo ++ (l1 ++ l2))) d.premise ∧ ¬ d.conclusion ⊆ d.premise) :
    ∃ res, minimizeLoop todo (todo ++ done) = .ok res ∧
      (∀ S, Closed (specImps res) S ↔ Closed (specImps (todo ++ done)) S) ∧
      (∀ l1 d l2, res = l1 ++ d :: l2 → Closed (specImps (l1 ++ l2)) d.premise ∧ ¬ d.conclusion ⊆ d.premise) ∧
      ∀ d ∈ res, ∃ i ∈ todo ++ done, i.premise ⊆ d.premise ∧ d.conclusion = i.conclusion ∧
        Entails (specImps (todo ++ done)) i.premise d.premise := by
  induction todo generalizing done with
  | nil =>
    exact ⟨done, rfl, fun S => Iff.rfl, by simpa using hn, fun d hd => ⟨d, by simpa using hd, subset_rfl, rfl,
      fun S _ hp => hp⟩⟩
  | cons imp todo ih =>
    have hrem : remove imp (imp :: todo ++ done) = .ok (todo ++ done) := by
      have hself : imp.pyEq imp = true := by simp [Imp.pyEq]
      unfold remove
      rw [if_pos (by simp [hself])]
      simp [hself]
    obtain ⟨c1, c2, c3⟩ := simpleClosure_isLeast imp.premise (todo ++ done)
    set P := simpleClosure imp.premise (todo ++ done) with hP
    unfold minimizeLoop
    rw [hrem]
    simp only [bind, Except.bind, ← hP]
    have hsub : ∀ S, Closed (specImps (imp :: todo ++ done)) S → Closed (specImps (todo ++ done)) S := by
      intro S hS
      rw [closed_specImps] at hS ⊢
      exact fun i hi => hS i (List.mem_cons_of_mem _ hi)
    by_cases ht : (⟨P, imp.conclusion⟩ : Imp β).reduced ⊆ P
    · rw [if_pos ht]
      have hCP : imp.conclusion ⊆ P := by
        rw [trivial_iff ⟨P, imp.conclusion⟩] at ht
        exact Finset.sdiff_eq_empty_iff_subset.1 ht
      obtain ⟨res, r1, r2, r3, r4⟩ := ih done (by
        intro l1 d l2 he
        obtain ⟨h1, h2⟩ := hn l1 d l2 he
        refine ⟨?_, h2⟩
        rw [closed_specImps] at h1 ⊢
        exact fun i hi => h1 i (List.mem_cons_of_mem _ hi))
      have hiff : ∀ S, Closed (specImps (todo ++ done)) S ↔ Closed (specImps (imp :: todo ++ done)) S := by
        refine fun S => ⟨fun hS => ?_, hsub S⟩
        have hS' := hS
        rw [closed_specImps] at hS ⊢
        intro i hi
        rw [List.cons_append, List.mem_cons] at hi
        rcases hi with rfl | hi
        · exact fun hp => hCP.trans (c3 S hp hS')
        · exact hS i hi
      refine ⟨res, r1, fun S => (r2 S).trans (hiff S), r3, fun d hd => ?_⟩
      obtain ⟨i, hi, k1, k2, k3⟩ := r4 d hd
      exact ⟨i, List.mem_cons_of_mem _ hi, k1, k2, fun S hS => k3 S (hsub S hS)⟩
    · rw [if_neg ht]
      have hCP : ¬ imp.conclusion ⊆ P := fun hc => ht (Finset.sdiff_subset.trans hc)
      have hiff : ∀ S, Closed (specImps (todo ++ (done ++ [⟨P, imp.conclusion⟩]))) S ↔
          Closed (specImps (imp :: todo ++ done)) S := by
        intro S
        constructor
        · intro hS
          have h0 : Closed (specImps (todo ++ done)) S := by
            rw [closed_specImps] at hS ⊢
            intro i hi
            exact hS i (by simp only [List.mem_append] at hi ⊢; tauto)
          rw [closed_specImps] at hS ⊢
          intro i hi
          rw [List.cons_append, List.mem_cons] at hi
          rcases hi with rfl | hi
          · exact fun hp => hS ⟨P, i.conclusion⟩ (by simp) (c3 S hp h0)
          · exact hS i (by simp only [List.mem_append] at hi ⊢; tauto)
        · intro hS
          rw [closed_specImps] at hS ⊢
          intro i hi
          simp only [List.mem_append, List.mem_singleton] at hi
          rcases hi with hi | hi | rfl
          · exact hS i (by simp [hi])
          · exact hS i (by simp [hi])
          · exact fun hp => hS imp (by simp) (c1.trans hp)
      obtain ⟨res, r1, r2, r3, r4⟩ := ih (done ++ [⟨P, imp.conclusion⟩]) (by
        intro l1 d l2 he
        rcases List.append_eq_append_iff.1 he with ⟨l3, h1, h2⟩ | ⟨l3, h1, h2⟩
        · -- `d` is the last one
          cases l3 with
          | nil =>
            simp only [List.nil_append, List.cons.injEq, List.append_nil] at h1 h2
            subst h1
            obtain ⟨rfl, rfl⟩ := h2
            exact ⟨by simpa using c2, hCP⟩
          | cons x l3 =>
            simp only [List.cons_append, List.cons.injEq] at h2
            have := congrArg List.length h2.2
            simp at this
        · cases l3 with
          | nil =>
            simp only [List.append_nil, List.nil_append, List.cons.injEq] at h1 h2
            subst h1
            obtain ⟨rfl, rfl⟩ := h2
            exact ⟨by simpa using c2, hCP⟩
          | cons x l3 =>
            simp only [List.cons_append, List.cons.injEq] at h2
            obtain ⟨rfl, rfl⟩ := h2
            obtain ⟨k1, k2⟩ := hn _ _ _ h1
            refine ⟨?_, k2⟩
            rw [closed_specImps] at k1 ⊢
            intro i hi
            simp only [List.mem_append, List.mem_singleton] at hi
            rcases hi with hi | hi | hi | rfl
            · exact k1 i (by simp [hi])
            · exact k1 i (by simp [hi])
            · exact k1 i (by simp [hi])
            · exact fun hp => k1 imp (by simp) (c1.trans hp))
      rw [← List.append_assoc] at r1
      refine ⟨res, r1, fun S => (r2 S).trans (hiff S), r3, fun d hd => ?_⟩
      obtain ⟨i, hi, k1, k2, k3⟩ := r4 d hd
      have k3' : Entails (specImps (imp :: todo ++ done)) i.premise d.premise := fun S hS => k3 S ((hiff S).2 hS)
      simp only [List.mem_append, List.mem_singleton] at hi
      rcases hi with hi | hi | rfl
      · exact ⟨i, by simp [hi], k1, k2, k3'⟩
      · exact ⟨i, by simp [hi], k1, k2, k3'⟩
      · refine ⟨imp, by simp, c1.trans k1, k2, fun S hS hp => k3' S hS (c3 S hp (hsub S hS))⟩

/-- Implications with full conclusions whose premises are closed under the others are those of the pseudo-intents. -/
theorem pseudo_iff_of_left {M : Finset β} {cl : Finset β → Finset β} {L : List (Imp β)}
    (hM : ∀ d ∈ L, d.premise ⊆ M) (hcl : ∀ S, S ⊆ M → (Closed (specImps L) S ↔ cl S = S))
    (hfull : ∀ d ∈ L, cl d.premise = d.premise ∪ d.conclusion)
    (hleft : ∀ l1 d l2, L = l1 ++ d :: l2 → Closed (specImps (l1 ++ l2)) d.premise ∧ ¬ d.conclusion ⊆ d.premise) :
    ∀ (n : ℕ) (P : Finset β), P.card = n → (IsPseudo M [] cl P ↔ P ∈ L.map Imp.premise) := by
  -- a premise respects every implication with another premise
  have hresp : ∀ d ∈ L, ∀ e ∈ L, e.premise ≠ d.premise → e.premise ⊆ d.premise → cl e.premise ⊆ d.premise := by
    intro d hd e he hne hp
    obtain ⟨l1, l2, rfl⟩ := List.append_of_mem hd
    have := (closed_specImps _ _).1 (hleft l1 d l2 rfl).1
    rw [hfull e he]
    refine Finset.union_subset hp (this e ?_ hp)
    rw [List.mem_append, List.mem_cons] at he
    rw [List.mem_append]
    rcases he with he | rfl | he
    · exact Or.inl he
    · exact absurd rfl hne
    · exact Or.inr he
  have hnot : ∀ d ∈ L, cl d.premise ≠ d.premise := by
    intro d hd he
    obtain ⟨l1, l2, rfl⟩ := List.append_of_mem hd
    rw [hfull d hd] at he
    exact (hleft l1 d l2 rfl).2 (Finset.union_eq_left.1 he)
  intro n
  induction n using Nat.strong_induction_on with
  | _ n ih =>
    intro P hn
    constructor
    · intro hP
      obtain ⟨⟨hPM, -, hpre⟩, hne⟩ := isPseudo_iff.1 hP
      have : ¬ Closed (specImps L) P := fun h => hne ((hcl P hPM).1 h)
      rw [closed_specImps] at this
      push Not at this
      obtain ⟨e, he, hr⟩ := this
      obtain ⟨hep, hec⟩ := hr
      by_cases heq : e.premise = P
      · exact heq ▸ List.mem_map_of_mem he
      · have hss : e.premise ⊂ P := Finset.ssubset_iff_subset_ne.2 ⟨hep, heq⟩
        have := hpre _ hss ((ih _ (hn ▸ Finset.card_lt_card hss) _ rfl).2 (List.mem_map_of_mem he))
        rw [hfull e he] at this
        exact absurd (Finset.union_subset_iff.1 this).2 hec
    · intro hP
      obtain ⟨d, hd, rfl⟩ := List.mem_map.1 hP
      refine isPseudo_iff.2 ⟨⟨hM d hd, by simp [Closed], fun Q hQ hps => ?_⟩, hnot d hd⟩
      obtain ⟨e, he, rfl⟩ := List.mem_map.1 ((ih _ (hn ▸ Finset.card_lt_card hQ) Q rfl).1 hps)
      exact hresp d hd e he (Finset.ssubset_iff_subset_ne.1 hQ).2 hQ.1

/-- `minimize` of a cover whose implications have all that follows as conclusion: the premises are exactly the
pseudo-intents of its closure operator, each once. -/
theorem C130_minimize_full {M : Finset β} {cl : Finset β → Finset β} (hop : IsClosureOp M cl) (cover : List (Imp β))
    (hM : ∀ i ∈ cover, i.premise ⊆ M)
    (hcl : ∀ S, S ⊆ M → (Closed (specImps cover) S ↔ cl S = S))
    (hfull : ∀ i ∈ cover, cl i.premise = i.premise ∪ i.conclusion) :
    ∃ res, minimize cover = .ok res ∧ (∀ P, P ∈ res.map Imp.premise ↔ IsPseudo M [] cl P) ∧
      (res.map Imp.premise).Nodup ∧ ∀ d ∈ res, d.premise ∪ d.conclusion = cl d.premise := by
  obtain ⟨res, h1, h2, h3, h4⟩ := minimizeLoop_left cover [] (by simp)
  simp only [List.append_nil] at h1 h2 h4
  have key : ∀ d ∈ res, d.premise ⊆ M ∧ cl d.premise = d.premise ∪ d.conclusion := by
    intro d hd
    obtain ⟨i, hi, k1, k2, k3⟩ := h4 d hd
    have hiM := hM i hi
    have hcM := hop.into _ hiM
    have hdc : d.premise ⊆ cl i.premise := k3 _ ((hcl _ hcM).2 (hop.idem _ hiM)) (hop.ext _ hiM)
    have hdM := hdc.trans hcM
    have e : cl d.premise = cl i.premise := by
      apply Finset.Subset.antisymm
      · have := hop.mono _ _ hdc hcM
        rwa [hop.idem _ hiM] at this
      · exact hop.mono _ _ k1 hdM
    refine ⟨hdM, Finset.Subset.antisymm ?_ ?_⟩
    · rw [e, hfull i hi, k2]
      exact Finset.union_subset_union k1 subset_rfl
    · rw [k2]
      refine Finset.union_subset (hop.ext _ hdM) ?_
      rw [e, hfull i hi]
      exact Finset.subset_union_right
  refine ⟨res, h1, fun P => ?_, ?_, fun d hd => (key d hd).2.symm⟩
  · exact (pseudo_iff_of_left (fun d hd => (key d hd).1) (fun S hS => (h2 S).trans (hcl S hS))
      (fun d hd => (key d hd).2) h3 _ P rfl).symm
  · unfold List.Nodup
    rw [List.pairwise_map, List.pairwise_iff_getElem]
    intro i j hi hj hij he
    have hsplit : res = res.take i ++ res[i] :: res.drop (i + 1) := by simp
    obtain ⟨k1, k2⟩ := h3 _ _ _ hsplit
    have hmem : res[j] ∈ res.take i ++ res.drop (i + 1) := by
      rw [List.mem_append]
      right
      rw [List.mem_iff_getElem]
      exact ⟨j - (i + 1), by simp; omega, by simp; congr 1; omega⟩
    have hc := (closed_specImps _ _).1 k1 _ hmem (by rw [he])
    obtain ⟨l1, k3⟩ : ∃ l1, res = l1 ++ res[j] :: res.drop (j + 1) := ⟨res.take j, by simp⟩
    exact (h3 _ _ _ k3).2 (by rwa [he] at hc)

/-- The implications of the cover have all that follows as conclusion. -/
theorem cover_full {c : Ctx α β} (h : c.WFw) {B : List (Imp β)} (hB : Inv c.M (c.objects.map fun o => c.upF {o}) B) :
    ∀ i ∈ B, attrClosure c.G c.M c.Inc i.premise = i.premise ∪ i.conclusion := by
  intro i hi
  have hp := hB.prem i hi
  rw [← clE_eq h hp]
  have hup : i.premise ∪ i.conclusion ⊆ clE c.M (c.objects.map fun o => c.upF {o}) i.premise := by
    refine Finset.union_subset (subset_clE hp) fun m hm => ?_
    by_cases hmp : m ∈ i.premise
    · exact subset_clE hp hmp
    · exact hB.reduced_cl hi subset_rfl (Finset.mem_sdiff.2 ⟨hm, hmp⟩)
  refine Finset.Subset.antisymm ?_ hup
  by_cases hcl : clE c.M (c.objects.map fun o => c.upF {o}) i.premise = i.premise
  · rw [hcl]; exact Finset.subset_union_left
  · obtain ⟨b, hb, hbp, hbc⟩ := hB.star _ hp hcl
    intro m hm
    rcases Finset.mem_union.1 (hbc hm) with h1 | h1
    · exact Finset.mem_union_left _ h1
    · by_cases hmp : m ∈ i.premise
      · exact Finset.mem_union_left _ hmp
      · have := hB.same hi hb hbp (Finset.mem_sdiff.2 ⟨h1, hmp⟩)
        exact Finset.mem_union_right _ (Finset.mem_sdiff.1 this).1

/-- No list of implications with the same closed sets is shorter. -/
theorem C130_minimum {M : Finset β} {cl : Finset β → Finset β} (hop : IsClosureOp M cl) (cover : List (Imp β))
    (hM : ∀ i ∈ cover, i.premise ⊆ M)
    (hcl : ∀ S, S ⊆ M → (Closed (specImps cover) S ↔ cl S = S))
    (hfull : ∀ i ∈ cover, cl i.premise = i.premise ∪ i.conclusion) {res : List (Imp β)} (hres : minimize cover = .ok res)
    (L : Imps β) (hL : ∀ S, S ⊆ M → (Closed L S ↔ cl S = S)) : res.length ≤ L.length := by
  obtain ⟨res', h1, h2, h3, -⟩ := C130_minimize_full hop cover hM hcl hfull
  rw [hres] at h1
  obtain rfl : res = res' := by injection h1
  have := pseudo_length_le (L₀ := []) hop (res.map Imp.premise) h3 (fun P hP => (h2 P).1 hP) L
    (fun s hs he => (hL s hs).2 he) (fun s hs hc => (hL s hs).1 (by simpa [specImps] using hc))
  simpa using this

/-- `minimize` after `compute_implication_cover`: the premises are exactly the pseudo-intents of the context, each once,
and the conclusions complete them to their closures. -/
theorem C130_premises {c : Ctx α β} (h : c.WFw) (ord : ℕ → SetOrder β) :
    ∃ B res, computeCover c ord = .ok B ∧ minimize B = .ok res ∧
      (∀ P, P ∈ res.map Imp.premise ↔ IsPseudo c.M [] (attrClosure c.G c.M c.Inc) P) ∧ (res.map Imp.premise).Nodup ∧
      ∀ d ∈ res, d.premise ∪ d.conclusion = attrClosure c.G c.M c.Inc d.premise := by
  obtain ⟨B, h1, h2⟩ := computeCover_main h ord
  obtain ⟨res, h3, h4⟩ := C130_minimize_full h.attrClosure_op B h2.prem (fun S hS => by
    constructor
    · intro hc
      by_contra hne
      rw [← clE_eq h hS] at hne
      obtain ⟨b, hb, hbp, hbc⟩ := h2.star S hS hne
      refine hne (Finset.Subset.antisymm ?_ (subset_clE hS))
      exact hbc.trans (Finset.union_subset subset_rfl
        (Finset.sdiff_subset.trans ((closed_specImps _ _).1 hc b hb hbp)))
    · intro he
      have := Ctx.closed_attrClosure h (fun i hi => inv_holds h h2 hi) h2.conc S
      rwa [he] at this) (cover_full h h2)
  exact ⟨B, res, h1, h3, h4⟩

/-- `minimize` after `compute_implication_cover`: exactly the implications returned by `compute_dg_basis`, up to the order
and to `==`. -/
theorem C130_canonical {c : Ctx α β} (h : c.WFw) (ord : ℕ → SetOrder β) (ordA : SetOrder β) (ordO : SetOrder α)
    (close : Finset β → List (Imp β) → Finset β) (hclose : Ctx.StdClose [] close) {D : List (Imp β)}
    (hD : c.dgBasisWith ordA ordO close [] (fun _ => true) = .ok D) :
    ∃ B res, computeCover c ord = .ok B ∧ minimize B = .ok res ∧ (res.map Imp.key).Perm (D.map Imp.key) := by
  obtain ⟨B, res, h1, h3, h4, h5, h6⟩ := C130_premises h ord
  obtain ⟨d1, d2, d3, -⟩ := Ctx.C26_basis_pseudo_intents h ordA ordO close [] hclose (fun i hi => by simp at hi) D hD
  refine ⟨B, res, h1, h3, ?_⟩
  set f : Finset β → Finset β × Finset β := fun P => (P, attrClosure c.G c.M c.Inc P \ P) with hf
  have e1 : res.map Imp.key = (res.map Imp.premise).map f := by
    rw [List.map_map]
    refine List.map_congr_left fun d hd => ?_
    simp only [Imp.key, Imp.reduced, Function.comp, hf, ← h6 d hd, Finset.union_sdiff_left]
  have e2 : D.map Imp.key = (D.map Imp.premise).map f := by
    rw [List.map_map]
    refine List.map_congr_left fun d hd => ?_
    simp only [Imp.key, Imp.reduced, Function.comp, hf, d2 d hd]
  rw [e1, e2]
  refine List.Perm.map f ((List.perm_ext_iff_of_nodup h5 d3).2 fun P => ?_)
  rw [h4, d1]
  rfl

/-- For other covers the result of `minimize` may be longer than necessary: `a → b`, `ab → c` is left as it is, though
`a → bc` has the same closed sets. -/
theorem C130_minimum_violated :
    ∃ (cover : List (Imp (Fin 3))) (res : List (Imp (Fin 3))) (L : Imps (Fin 3)), minimize cover = .ok res ∧
      (∀ S, Closed L S ↔ Closed (specImps cover) S) ∧ L.length < res.length := by
  refine ⟨[⟨{0}, {1}⟩, ⟨{0, 1}, {2}⟩], [⟨{0}, {1}⟩, ⟨{0, 1}, {2}⟩], [({0}, {1, 2})], by decide +kernel, ?_, by decide⟩
  intro S
  simp only [Closed, specImps, List.map, Imp.toSpec, List.mem_cons, List.not_mem_nil, or_false, forall_eq, forall_eq_or_imp]
  unfold Respects
  simp only [Finset.subset_iff, Finset.mem_insert, Finset.mem_singleton, forall_eq, forall_eq_or_imp]
  tauto

/-! ### Concrete cases -/

/-- The cover of `cxtCov` (see `Covers`) minimized, and the basis. -/
example : minimize [(⟨{3}, {0, 1, 2, 3}⟩ : Imp (Fin 4)), ⟨∅, {1}⟩, ⟨{0, 2}, {0, 1, 3}⟩] =
    .ok [⟨{1, 3}, {0, 1, 2, 3}⟩, ⟨∅, {1}⟩, ⟨{0, 1, 2}, {0, 1, 3}⟩] := by decide +kernel

example : cxtCov.dgBasisWith (SetOrder.fin 4) (SetOrder.fin 2) simpleClosure [] (fun _ => true) =
    .ok [⟨∅, {1}⟩, ⟨{1, 3}, {0, 1, 2, 3}⟩, ⟨{0, 1, 2}, {0, 1, 2, 3}⟩] := by decide +kernel

end Cover
