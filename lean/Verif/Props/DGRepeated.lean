/-
C154: the value of `compute_dg_basis` (default `lin_closure`) for every background, implications that occur more
than once included.
-/
import Verif.Props.DG
import Verif.Props.LinExact

set_option linter.unusedSectionVars false

open Spec

/-! ### Specification -/

section spec
variable {α : Type} [DecidableEq α]

/-- The implications a list stands for when `lin_closure` counts equal ones together: if one with `n` attributes in the
premise `A` occurs `m` times, every subset of `A` with at least `n / m` attributes already implies the conclusion of the
copy with number `(n - 1) % m`. -/
noncomputable def earlyImps (L : List (Imp α)) : List (Imp α) :=
  L.flatMap fun i => (copies L i)[(i.premise.card - 1) % (copies L i).length]?.toList.flatMap fun j =>
    (i.premise.powerset.filter fun A => i.premise.card ≤ (copies L i).length * A.card).toList.map fun A => ⟨A, j.conclusion⟩

theorem mem_earlyImps {L : List (Imp α)} {x : Imp α} : x ∈ earlyImps L ↔
    ∃ i ∈ L, ∃ j, (copies L i)[(i.premise.card - 1) % (copies L i).length]? = some j ∧ x.premise ⊆ i.premise ∧
      i.premise.card ≤ (copies L i).length * x.premise.card ∧ x.conclusion = j.conclusion := by
  unfold earlyImps
  simp only [List.mem_flatMap, List.mem_map, Finset.mem_toList, Finset.mem_filter, Finset.mem_powerset,
    Option.mem_toList]
  constructor
  · rintro ⟨i, hi, j, hj, A, ⟨h1, h2⟩, rfl⟩
    exact ⟨i, hi, j, hj, h1, h2, rfl⟩
  · rintro ⟨i, hi, j, hj, h1, h2, h3⟩
    exact ⟨i, hi, j, hj, x.premise, ⟨h1, h2⟩, by rw [← h3]⟩

/-- Closed under the expanded list = closed in the sense of `lin_closure`. -/
theorem closed_earlyImps (L : List (Imp α)) (d : Finset α) : Closed (specImps (earlyImps L)) d ↔ EarlyClosed L d := by
  rw [closed_specImps]
  constructor
  · intro h i hi j hj hc
    exact h ⟨i.premise ∩ d, j.conclusion⟩ (mem_earlyImps.2 ⟨i, hi, j, hj, Finset.inter_subset_left, hc, rfl⟩)
      Finset.inter_subset_right
  · intro h x hx hxd
    obtain ⟨i, hi, j, hj, h1, h2, h3⟩ := mem_earlyImps.1 hx
    rw [h3]
    exact h i hi j hj (h2.trans (Nat.mul_le_mul_left _ (Finset.card_le_card (Finset.subset_inter h1 hxd))))

theorem copies_pos {L : List (Imp α)} {i : Imp α} (hi : i ∈ L) : 0 < (copies L i).length := by
  rw [copies_eq]
  exact List.length_pos_of_mem (a := i) (by simp [keyed, hi])

/-- Every implication of the list has an equal one in the expansion. -/
theorem key_earlyImps {L : List (Imp α)} {i : Imp α} (hi : i ∈ L) : ∃ x ∈ earlyImps L, x.key = i.key := by
  have hp := copies_pos hi
  have hlt := Nat.mod_lt (i.premise.card - 1) hp
  obtain ⟨j, hj⟩ : ∃ j, (copies L i)[(i.premise.card - 1) % (copies L i).length]? = some j :=
    ⟨_, List.getElem?_eq_getElem hlt⟩
  have hjm := List.mem_of_getElem? hj
  rw [copies_eq] at hjm
  have hk : j.key = i.key := by
    have := (List.mem_filter.1 hjm).2
    simpa using this
  refine ⟨⟨i.premise, j.conclusion⟩, mem_earlyImps.2 ⟨i, hi, j, hj, Finset.Subset.refl _, ?_, rfl⟩, ?_⟩
  · exact Nat.le_mul_of_pos_left _ hp
  · rw [← hk]
    have hpr : j.premise = i.premise := congrArg Prod.fst hk
    simp only [Imp.key, Imp.reduced, hpr]

theorem earlyClosed_closed {L : List (Imp α)} {d : Finset α} (h : EarlyClosed L d) : Closed (specImps L) d := by
  rw [closed_specImps]
  intro i hi hd
  obtain ⟨x, hx, hk⟩ := key_earlyImps hi
  have hp : x.premise = i.premise := congrArg Prod.fst hk
  exact Imp.conclusion_subset_of_key hk (hp ▸ hd)
    ((closed_specImps _ _).1 ((closed_earlyImps L d).2 h) x hx (hp ▸ hd))

theorem copies_append_left {basis bg : List (Imp α)} (h : GoodBasis (earlyImps bg) basis) {i : Imp α} (hi : i ∈ basis) :
    copies (basis ++ bg) i = [i] := by
  have hne : ∀ b ∈ bg, i.key ≠ b.key := by
    intro b hb he
    obtain ⟨x, hx, hk⟩ := key_earlyImps hb
    exact h.2 i hi x hx (by rw [hk, he])
  rw [copies_eq]
  unfold keyed
  rw [List.filter_append]
  have h2 : bg.filter (fun j => decide (j.key = i.key)) = [] := by
    rw [List.filter_eq_nil_iff]
    intro b hb
    simpa using fun he => hne b hb he.symm
  rw [h2, List.append_nil]
  have hn := h.1
  clear h h2 hne
  induction basis with
  | nil => simp at hi
  | cons b l ih =>
    rw [List.map_cons, List.nodup_cons] at hn
    rcases List.mem_cons.1 hi with rfl | hi'
    · rw [List.filter_cons_of_pos (by simp), List.filter_eq_nil_iff.2]
      intro x hx hk
      exact hn.1 (List.mem_map.2 ⟨x, hx, by simpa using hk⟩)
    · rw [List.filter_cons_of_neg, ih hi' hn.2]
      intro hk
      exact hn.1 (List.mem_map.2 ⟨i, hi', by simpa using (of_decide_eq_true hk).symm⟩)

theorem copies_append_right {basis bg : List (Imp α)} (h : GoodBasis (earlyImps bg) basis) {i : Imp α} (hi : i ∈ bg) :
    copies (basis ++ bg) i = copies bg i := by
  rw [copies_eq, copies_eq]
  unfold keyed
  rw [List.filter_append, List.filter_eq_nil_iff.2, List.nil_append]
  intro b hb hk
  obtain ⟨x, hx, hxk⟩ := key_earlyImps hi
  exact h.2 b hb x hx (by rw [hxk]; exact of_decide_eq_true hk)

theorem earlyClosed_append {basis bg : List (Imp α)} (h : GoodBasis (earlyImps bg) basis) (d : Finset α) :
    EarlyClosed (basis ++ bg) d ↔ Closed (specImps (basis ++ earlyImps bg)) d := by
  have hsplit : Closed (specImps (basis ++ earlyImps bg)) d ↔ Closed (specImps basis) d ∧ EarlyClosed bg d := by
    rw [← closed_earlyImps, closed_specImps, closed_specImps, closed_specImps]
    simp only [List.mem_append, or_imp, forall_and]
  rw [hsplit, closed_specImps]
  constructor
  · intro hc
    refine ⟨fun i hi hsub => ?_, fun i hi j hj hle => ?_⟩
    · have he := copies_append_left h hi
      refine hc i (List.mem_append_left _ hi) i ?_ ?_
      · rw [he]; simp [Nat.mod_one]
      · rw [he, Finset.inter_eq_left.2 hsub]; simp
    · have he := copies_append_right h hi
      exact hc i (List.mem_append_right _ hi) j (by rw [he]; exact hj) (by rw [he]; exact hle)
  · rintro ⟨h1, h2⟩ i hi j hj hle
    rcases List.mem_append.1 hi with hi | hi
    · rw [copies_append_left h hi] at hj hle
      simp only [List.length_singleton, Nat.mod_one, List.getElem?_cons_zero, Option.some.injEq, one_mul] at hj hle
      subst hj
      refine h1 i hi ?_
      have := Finset.eq_of_subset_of_card_le (Finset.inter_subset_left (s₁ := i.premise) (s₂ := d)) hle
      exact Finset.inter_eq_left.1 this
    · rw [copies_append_right h hi] at hj hle
      exact h2 i hi j hj hle

end spec

/-! ### Proof -/

section run
variable {α : Type} [DecidableEq α]

/-- `close` on a list that ends with `ex`, with `bg` in the place of `ex`. -/
def swapClose (close : Finset α → List (Imp α) → Finset α) (bg ex : List (Imp α)) (s : Finset α) (L : List (Imp α)) :
    Finset α := close s (L.take (L.length - ex.length) ++ bg)

theorem swapClose_append (close : Finset α → List (Imp α) → Finset α) (bg ex basis : List (Imp α)) (s : Finset α) :
    swapClose close bg ex s (basis ++ ex) = close s (basis ++ bg) := by
  unfold swapClose
  rw [List.length_append, Nat.add_sub_cancel, List.take_left']
  rfl

theorem dgNext_swap {close close' : Finset α → List (Imp α) → Finset α} {L L' : List (Imp α)} (atts : List α)
    (h : ∀ s, close' s L' = close s L) (j : ℕ) (a : Finset α) : dgNext close' atts L' j a = dgNext close atts L j a := by
  induction j generalizing a with
  | zero => rfl
  | succ j ih => simp only [dgNext, h, ih]

theorem dgLoop_swap (atts : List α) (aclose : Finset α → Py (Finset α)) (close : Finset α → List (Imp α) → Finset α)
    (bg ex : List (Imp α)) (cond : Finset α → Bool) (fuel : ℕ) (basis : List (Imp α)) (a : Finset α) (i : ℕ) :
    dgLoop atts aclose (swapClose close bg ex) ex cond fuel basis a i = dgLoop atts aclose close bg cond fuel basis a i := by
  induction fuel generalizing basis a i with
  | zero => rfl
  | succ fuel ih =>
    unfold dgLoop
    simp only [ih, dgNext_swap (L := _ ++ bg) (L' := _ ++ ex) atts (fun s => swapClose_append close bg ex _ s)]

theorem dgBasis_swap (atts : List α) (aclose : Finset α → Py (Finset α)) (close : Finset α → List (Imp α) → Finset α)
    (bg ex : List (Imp α)) (cond : Finset α → Bool) :
    dgBasis atts aclose (swapClose close bg ex) ex cond = dgBasis atts aclose close bg cond := by
  unfold dgBasis dgBasisFuel
  rw [dgLoop_swap]
  have := swapClose_append close bg ex [] ∅
  simp only [List.nil_append] at this
  rw [this]

end run

namespace Ctx

variable {α β : Type} [DecidableEq α] [DecidableEq β]

theorem earlyImps_conclusion {M : Finset β} {bg : List (Imp β)} (hbg : ∀ i ∈ bg, i.conclusion ⊆ M) :
    ∀ i ∈ earlyImps bg, i.conclusion ⊆ M := by
  intro x hx
  obtain ⟨i, hi, j, hj, _, _, h3⟩ := mem_earlyImps.1 hx
  rw [h3]
  exact hbg j (List.mem_filter.1 (List.mem_of_getElem? hj)).1

theorem dg_repeated {c : Ctx α β} (h : c.WFw) {ordA : SetOrder β} {ordO : SetOrder α} {ord₀ : SetOrder β}
    {ord : ℕ → SetOrder β} {bg : List (Imp β)} (hbg : ∀ i ∈ bg, i.conclusion ⊆ c.M) {res : List (Imp β)}
    (hres : c.computeDgBasis ordA ordO ord₀ ord bg (fun _ => true) = .ok res) :
    (∀ x, x ∈ res ↔ IsPseudo c.M (specImps (earlyImps bg)) (attrClosure c.G c.M c.Inc) x.premise ∧
      x.conclusion = attrClosure c.G c.M c.Inc x.premise) ∧
    res.Pairwise fun x y => LecticLt c.attributes x.premise y.premise := by
  have hr := h.dgBasis_returned hres
  rw [← dgBasis_swap _ _ _ bg (earlyImps bg)] at hr
  have hex := earlyImps_conclusion hbg
  have hlin := goodClose_lin c.M ord₀ ord
  have hgood : GoodClose c.M (swapClose (linClosure ord₀ ord) bg (earlyImps bg)) :=
    ⟨fun s L => hlin.ext s _, fun s L hs hL => hlin.into s _ hs fun i hi => by
      rcases List.mem_append.1 hi with hi | hi
      · exact hL i (List.mem_of_mem_take hi)
      · exact hbg i hi⟩
  obtain ⟨res', h1, h2, h3⟩ := dgBasis_correct (h.totalSetup ordA ordO hgood) h.attrClosure_op hex
    (fun basis hb s _ => by
      rw [swapClose_append]
      have := C21_exact ord₀ ord s (basis ++ bg)
      exact ⟨this.1.1, (earlyClosed_append hb _).1 this.1.2,
        fun d hd hc => this.2 ⟨hd, (earlyClosed_append hb d).2 hc⟩⟩)
  rw [h1] at hr
  cases hr
  refine ⟨h2, h3.imp ?_⟩
  intro x y hxy
  exact (lecticLt_iff _ _ _).2 hxy

/-- C154: whatever the background, the default call returns exactly the pseudo-intents relative to the expanded background,
each once and in lectic order, with their closures as conclusions. -/
theorem C154_exact {c : Ctx α β} (h : c.WFw) (ordA : SetOrder β) (ordO : SetOrder α) (ord₀ : SetOrder β)
    (ord : ℕ → SetOrder β) (bg : List (Imp β)) (hbg : ∀ i ∈ bg, i.conclusion ⊆ c.M) (res : List (Imp β))
    (hres : c.computeDgBasis ordA ordO ord₀ ord bg (fun _ => true) = .ok res) :
    (∀ P, P ∈ res.map Imp.premise ↔
      IsPseudo c.M (specImps (earlyImps bg)) (attrClosure c.G c.M c.Inc) P) ∧
    (∀ x ∈ res, x.conclusion = attrClosure c.G c.M c.Inc x.premise) ∧
    (res.map Imp.premise).Pairwise (LecticLt c.attributes) := by
  obtain ⟨h1, h2⟩ := dg_repeated h hbg hres
  refine ⟨fun P => ?_, fun x hx => ((h1 x).1 hx).2, by rwa [List.pairwise_map]⟩
  rw [List.mem_map]
  constructor
  · rintro ⟨x, hx, rfl⟩; exact ((h1 x).1 hx).1
  · intro hP; exact ⟨⟨P, attrClosure c.G c.M c.Inc P⟩, (h1 _).2 ⟨hP, rfl⟩, rfl⟩

/-- C154: the default call returns what `compute_dg_basis_simple` returns for the expanded background. -/
theorem C154_simple {c : Ctx α β} (h : c.WFw) (ordA : SetOrder β) (ordO : SetOrder α) (ord₀ : SetOrder β)
    (ord : ℕ → SetOrder β) (bg : List (Imp β)) (hbg : ∀ i ∈ bg, i.conclusion ⊆ c.M) (res : List (Imp β))
    (hres : c.computeDgBasis ordA ordO ord₀ ord bg (fun _ => true) = .ok res) (ordA' : SetOrder β) (ordO' : SetOrder α)
    (res' : List (Imp β))
    (hres' : c.computeDgBasisSimple ordA' ordO' (earlyImps bg) (fun _ => true) = .ok res') : res = res' := by
  obtain ⟨h1, h2⟩ := dg_repeated h hbg hres
  obtain ⟨h1', h2'⟩ := dg_main h (Or.inl rfl) (earlyImps_conclusion hbg) hres'
  have nd : ∀ {l : List (Imp β)}, (l.Pairwise fun x y => LecticLt c.attributes x.premise y.premise) → l.Nodup := by
    intro l hl
    refine hl.imp ?_
    rintro x y hxy rfl
    rw [lecticLt_iff] at hxy
    exact lt_irrefl _ hxy
  refine List.Perm.eq_of_pairwise (fun x y _ _ k1 k2 => ?_) h2 h2'
    ((List.perm_ext_iff_of_nodup (nd h2) (nd h2')).2 fun x => by rw [h1, h1'])
  rw [lecticLt_iff] at k1 k2
  omega

/-- C154: whatever the background, the implications of the context follow from the result together with the expanded
background. -/
theorem C154_complete {c : Ctx α β} (h : c.WFw) (ordA : SetOrder β) (ordO : SetOrder α) (ord₀ : SetOrder β)
    (ord : ℕ → SetOrder β) (bg : List (Imp β)) (hbg : ∀ i ∈ bg, i.conclusion ⊆ c.M) (res : List (Imp β))
    (hres : c.computeDgBasis ordA ordO ord₀ ord bg (fun _ => true) = .ok res) (P C : Finset β) (hP : P ⊆ c.M)
    (hC : C ⊆ c.M) (hh : HoldsIn c.G c.Inc P C) : Entails (specImps (res ++ earlyImps bg)) P C := by
  obtain ⟨h1, -⟩ := dg_repeated h hbg hres
  intro S hS hPS
  have hI : Closed (specImps (res ++ earlyImps bg)) (S ∩ c.M) := by
    rw [closed_specImps] at hS ⊢
    intro x hx hxp
    refine Finset.subset_inter (hS x hx (hxp.trans Finset.inter_subset_left)) ?_
    rcases List.mem_append.1 hx with hx | hx
    · obtain ⟨h3, h4⟩ := (h1 x).1 hx
      rw [h4]
      exact h.attrClosure_op.into _ (isPseudo_iff.1 h3).1.1
    · exact earlyImps_conclusion hbg x hx
  have hcI := closed_of_basis h1 h.attrClosure_op Finset.inter_subset_right hI
  have hm := h.attrClosure_op.mono P (S ∩ c.M) (Finset.subset_inter hPS hP) Finset.inter_subset_right
  rw [hcI] at hm
  exact (((holdsIn_iff h hC).1 hh).trans hm).trans Finset.inter_subset_left

/-! ### When the default call is complete -/

/-- The context whose objects are the sets of a list, each having its elements. -/
def famCtx (atts : List β) (F : List (Finset β)) : Ctx (Finset β) β :=
  ⟨F, atts, ⟨some atts.length, F.map fun T => atts.map fun a => decide (a ∈ T)⟩⟩

theorem famCtx_wf {atts : List β} {F : List (Finset β)} (ha : atts.Nodup) (hF : F.Nodup) : (famCtx atts F).WFw where
  onodup := hF
  anodup := ha
  nrows := by simp [famCtx]
  width := by
    intro r hr
    obtain ⟨T, -, rfl⟩ := List.mem_map.1 hr
    simp [famCtx]
  shape := fun _ => rfl

theorem famCtx_inc {atts : List β} {F : List (Finset β)} (ha : atts.Nodup) (hF : F.Nodup) {T : Finset β} {a : β}
    (hT : T ∈ F) (hat : a ∈ atts) : (famCtx atts F).Inc T a ↔ a ∈ T := by
  obtain ⟨i, hi⟩ := List.mem_iff_getElem?.1 hT
  obtain ⟨j, hj⟩ := List.mem_iff_getElem?.1 hat
  rw [inc_iff (c := famCtx atts F) hF ha hi hj]
  simp [Bit, famCtx, hi, hj]

/-- C154: for a given background the default call is complete on every context over the attributes in which the
background is valid, if and only if closure under the background is closure in the sense of `lin_closure`. -/
theorem C154_iff (atts : List β) (ha : atts.Nodup) (ord₀ : SetOrder β) (ord : ℕ → SetOrder β) (bg : List (Imp β))
    (hbg : ∀ i ∈ bg, i.conclusion ⊆ atts.toFinset) :
    (∀ (α : Type) [DecidableEq α] (c : Ctx α β), c.WFw → c.attributes = atts → c.ValidBg bg → ∀ ordA ordO res,
      c.computeDgBasis ordA ordO ord₀ ord bg (fun _ => true) = .ok res → ∀ P C, P ⊆ c.M → C ⊆ c.M →
      (HoldsIn c.G c.Inc P C ↔ Entails (specImps (res ++ bg)) P C)) ↔
    ∀ S, S ⊆ atts.toFinset → Closed (specImps bg) S → EarlyClosed bg S := by
  constructor
  · intro H S hSM hS
    by_contra hne
    classical
    let F : Finset (Finset β) := insert atts.toFinset (S.powerset.filter fun T => T ≠ S ∧ Closed (specImps bg) T)
    let c : Ctx (Finset β) β := famCtx atts F.toList
    have hw : c.WFw := famCtx_wf ha F.nodup_toList
    have hmemF : ∀ T, T ∈ F ↔ T = atts.toFinset ∨ T ⊆ S ∧ T ≠ S ∧ Closed (specImps bg) T := by
      intro T; simp [F]
    have hTM : ∀ T ∈ F, T ⊆ atts.toFinset := by
      intro T hT
      rcases (hmemF T).1 hT with rfl | ⟨h1, _⟩
      · exact Finset.Subset.refl _
      · exact h1.trans hSM
    have hinc : ∀ T ∈ F, ∀ a ∈ atts, c.Inc T a ↔ a ∈ T := fun T hT a hat =>
      famCtx_inc ha F.nodup_toList (Finset.mem_toList.2 hT) hat
    have hsub : ∀ T ∈ F, ∀ X, (∀ a ∈ X, c.Inc T a) ↔ X ⊆ T := by
      intro T hT X
      constructor
      · intro hX a haX
        exact (hinc T hT a (hX a haX).mem.2).1 (hX a haX)
      · intro hX a haX
        exact (hinc T hT a (List.mem_toFinset.1 (hTM T hT (hX haX)))).2 (hX haX)
    have hholds : ∀ P C, HoldsIn c.G c.Inc P C ↔ ∀ T ∈ F, P ⊆ T → C ⊆ T := by
      intro P C
      have hG : ∀ T, T ∈ c.G ↔ T ∈ F := by intro T; simp [G, c, famCtx]
      simp only [HoldsIn]
      refine ⟨fun hh T hT hPT => ?_, fun hh T hT hPT => ?_⟩
      · exact (hsub T hT C).1 (hh T ((hG T).2 hT) ((hsub T hT P).2 hPT))
      · have hT' := (hG T).1 hT
        exact (hsub T hT' C).2 (hh T hT' ((hsub T hT' P).1 hPT))
    have hv : c.ValidBg bg := by
      intro i hi
      refine ⟨hbg i hi, (hholds _ _).2 fun T hT hPT => ?_⟩
      rcases (hmemF T).1 hT with rfl | ⟨_, _, h3⟩
      · exact hbg i hi
      · exact (closed_specImps _ _).1 h3 i hi hPT
    have hne0 : c.objects ≠ [] := by
      intro he
      have : atts.toFinset ∈ c.objects := Finset.mem_toList.2 ((hmemF _).2 (Or.inl rfl))
      rw [he] at this
      simp at this
    obtain ⟨res, hres⟩ := C24_basis_returns hw hne0 (SetOrder.any β) (SetOrder.any (Finset β)) (linClosure ord₀ ord) bg
      (Or.inr ⟨ord₀, ord, rfl, List.Pairwise.nil⟩) hbg (fun _ => true)
    have hall := H _ c hw rfl hv _ _ res hres S atts.toFinset hSM (Finset.Subset.refl _)
    have h1 : HoldsIn c.G c.Inc S atts.toFinset := by
      refine (hholds _ _).2 fun T hT hST => ?_
      rcases (hmemF T).1 hT with rfl | ⟨h1, h2, _⟩
      · exact Finset.Subset.refl _
      · exact absurd (Finset.Subset.antisymm h1 hST) h2
    have hSne : S ≠ atts.toFinset := by
      rintro rfl
      exact hne fun i hi j hj _ => hbg j (List.mem_filter.1 (List.mem_of_getElem? hj)).1
    have hcl : Closed (specImps (res ++ bg)) S := by
      rw [closed_specImps]
      intro x hx hxS
      rcases List.mem_append.1 hx with hx | hx
      · obtain ⟨hps, -⟩ := ((dg_repeated hw hbg hres).1 x).1 hx
        exfalso
        have hpse := isPseudo_iff.1 hps
        have hec : EarlyClosed bg x.premise := (closed_earlyImps _ _).1 hpse.1.2.1
        have hxF : x.premise ∈ F := (hmemF _).2 (Or.inr ⟨hxS, by rintro he; exact hne (he ▸ hec), earlyClosed_closed hec⟩)
        apply hpse.2
        refine Finset.Subset.antisymm ?_ (hw.attrClosure_op.ext _ hpse.1.1)
        exact (hholds _ _).1 ((holdsIn_iff hw (hw.attrClosure_op.into _ hpse.1.1)).2 (Finset.Subset.refl _)) _ hxF
          (Finset.Subset.refl _)
      · exact (closed_specImps _ _).1 hS x hx hxS
    exact hSne (Finset.Subset.antisymm hSM (hall.1 h1 S hcl (Finset.Subset.refl _)))
  · intro H α _ c h hat hv ordA ordO res hres P C hP hC
    subst hat
    have hs := C24_basis_sound h ordA ordO _ bg _ res hres
    have hover : ∀ x ∈ res ++ bg, x.conclusion ⊆ c.M := by
      intro x hx
      rcases List.mem_append.1 hx with hx | hx
      · obtain ⟨h3, h4⟩ := ((dg_repeated h hbg hres).1 x).1 hx
        rw [h4]
        exact h.attrClosure_op.into _ (isPseudo_iff.1 h3).1.1
      · exact hbg x hx
    constructor
    · intro hh S hS hPS
      have hI : Closed (specImps (res ++ bg)) (S ∩ c.M) := by
        rw [closed_specImps] at hS ⊢
        intro x hx hxp
        exact Finset.subset_inter (hS x hx (hxp.trans Finset.inter_subset_left)) (hover x hx)
      rw [closed_specImps] at hI
      have hE : EarlyClosed bg (S ∩ c.M) :=
        H _ Finset.inter_subset_right ((closed_specImps _ _).2 fun i hi => hI i (List.mem_append_right _ hi))
      refine (C154_complete h ordA ordO ord₀ ord bg hbg res hres P C hP hC hh (S ∩ c.M) ?_
        (Finset.subset_inter hPS hP)).trans Finset.inter_subset_left
      rw [closed_specImps]
      intro x hx
      rcases List.mem_append.1 hx with hx | hx
      · exact hI x (List.mem_append_left _ hx)
      · exact (closed_specImps _ _).1 ((closed_earlyImps _ _).2 hE) x hx
    · intro hent
      rw [holdsIn_iff h hC]
      refine hent _ ?_ (h.attrClosure_op.ext _ hP)
      refine closed_attrClosure h (fun i hi => ?_) hover P
      rcases List.mem_append.1 hi with hi | hi
      · exact (hs i hi).1
      · exact (hv i hi).2

/-- C154: repetitions of implications with at most one attribute in the premise do no harm. -/
theorem C154_small {c : Ctx α β} (h : c.WFw) (ordA : SetOrder β) (ordO : SetOrder α) (ord₀ : SetOrder β)
    (ord : ℕ → SetOrder β) (bg : List (Imp β)) (hv : c.ValidBg bg)
    (hsm : ∀ i ∈ bg, (copies bg i).length = 1 ∨ i.premise.card ≤ 1) (res : List (Imp β))
    (hres : c.computeDgBasis ordA ordO ord₀ ord bg (fun _ => true) = .ok res) (P C : Finset β) (hP : P ⊆ c.M)
    (hC : C ⊆ c.M) : HoldsIn c.G c.Inc P C ↔ Entails (specImps (res ++ bg)) P C := by
  refine (C154_iff c.attributes h.anodup ord₀ ord bg fun i hi => (hv i hi).1).2 ?_ α c h rfl hv ordA ordO res hres
    P C hP hC
  intro S _ hS i hi j hj hle
  have hjm := List.mem_filter.1 (List.mem_of_getElem? hj)
  have hk := (Imp.pyEq_iff _ _).1 hjm.2
  have hp : j.premise = i.premise := congrArg Prod.fst hk
  refine (closed_specImps _ _).1 hS j hjm.1 ?_
  rw [hp]
  have hcard : i.premise.card ≤ (i.premise ∩ S).card := by
    rcases hsm i hi with h1 | h1
    · rw [h1, one_mul] at hle
      exact hle
    · rcases Nat.eq_zero_or_pos (i.premise ∩ S).card with h0 | h0
      · rw [h0, Nat.mul_zero] at hle
        omega
      · omega
  exact Finset.inter_eq_left.1 (Finset.eq_of_subset_of_card_le Finset.inter_subset_left hcard)

/-- Non-vacuity: one object without attributes and the background `0, 1 → 2` given twice. `lin_closure` takes it for
`0 → 2` and `1 → 2`, so the default call returns the one pseudo-intent `{2}`. -/
example : ∃ (c : Ctx (Fin 1) (Fin 3)) (bg res : List (Imp (Fin 3))), c.WFw ∧ (∀ i ∈ bg, i.conclusion ⊆ c.M) ∧
    c.computeDgBasis (SetOrder.fin 3) (SetOrder.fin 1) (SetOrder.fin 3) (fun _ => SetOrder.fin 3) bg (fun _ => true)
      = .ok res ∧ res = [⟨{2}, {0, 1, 2}⟩] ∧ ¬ EarlyClosed bg {0} ∧ Closed (specImps bg) {0} := by
  refine ⟨⟨[0], [0, 1, 2], ⟨some 3, [[false, false, false]]⟩⟩, [⟨{0, 1}, {2}⟩, ⟨{0, 1}, {2}⟩], _,
    by constructor <;> decide +kernel, by decide +kernel, by decide +kernel, rfl, ?_, ?_⟩
  · intro h
    have := h ⟨{0, 1}, {2}⟩ (by simp) ⟨{0, 1}, {2}⟩ (by decide +kernel) (by decide +kernel)
    revert this
    decide +kernel
  · rw [closed_specImps]; decide +kernel

/-- Non-vacuity of the corollary: `0 → 1` given twice. -/
example : ∃ (c : Ctx (Fin 2) (Fin 3)) (bg res : List (Imp (Fin 3))), c.WFw ∧ c.ValidBg bg ∧
    (∀ i ∈ bg, (copies bg i).length = 1 ∨ i.premise.card ≤ 1) ∧
    c.computeDgBasis (SetOrder.fin 3) (SetOrder.fin 2) (SetOrder.fin 3) (fun _ => SetOrder.fin 3) bg (fun _ => true)
      = .ok res ∧ res = [⟨∅, {1}⟩] := by
  have hw : (⟨[0, 1], [0, 1, 2], ⟨some 3, [[true, true, false], [false, true, true]]⟩⟩ : Ctx (Fin 2) (Fin 3)).WFw := by
    constructor <;> decide +kernel
  refine ⟨_, [⟨{0}, {1}⟩, ⟨{0}, {1}⟩], _, hw, ?_, by decide +kernel, by decide +kernel, rfl⟩
  intro i hi
  simp only [List.mem_cons, List.not_mem_nil, or_false, or_self] at hi
  subst hi
  refine ⟨by decide, ?_⟩
  simp only [HoldsIn, ← hw.incB]
  decide

end Ctx
