/-
Property C110: the generator of implications while the context is changed.
-/
import Verif.Lemmas.DGLive
import Verif.Lemmas.BasicExploration
import Verif.Props.DG
import Verif.Props.Reduce

set_option linter.unusedSectionVars false

open Spec

namespace Ctx

variable {α β : Type} [DecidableEq α] [DecidableEq β]

/-- The contexts between the values: well-formed, with objects, always the same attributes. -/
structure LiveOk (cxts : List (Imp β) → Ctx α β) : Prop where
  wf : ∀ L, (cxts L).WFw
  nonempty : ∀ L, (cxts L).objects ≠ []
  atts : ∀ L, (cxts L).attributes = (cxts []).attributes

/-- Objects are only added (or changed in a way that keeps every intent of an object as intent of some object). -/
def LiveGrows (cxts : List (Imp β) → Ctx α β) : Prop :=
  ∀ L y, ∀ g ∈ (cxts L).G, ∃ g' ∈ (cxts (L ++ [y])).G, ∀ m ∈ (cxts []).M, (cxts L).Inc g m ↔ (cxts (L ++ [y])).Inc g' m

theorem LiveOk.M {cxts : List (Imp β) → Ctx α β} (h : LiveOk cxts) (L : List (Imp β)) : (cxts L).M = (cxts []).M := by
  unfold Ctx.M; rw [h.atts L]

theorem LiveOk.setup {cxts : List (Imp β) → Ctx α β} (h : LiveOk cxts) (ordA : List (Imp β) → SetOrder β)
    (ordO : List (Imp β) → SetOrder α) {bg : List (Imp β)} (hbg : ∀ i ∈ bg, i.conclusion ⊆ (cxts []).M) :
    LiveSetup (cxts []).attributes (fun L => (cxts L).dgAclose (ordA L) (ordO L))
      (fun L => attrClosure (cxts L).G (cxts []).M (cxts L).Inc) bg where
  nodup := (h.wf []).anodup
  ac L s hs := by
    rw [(h.wf L).dgAclose ((h.wf L).cols (h.nonempty L)) _ _ (by rw [h.M L]; exact hs), h.M L]
  op L := by have := (h.wf L).attrClosure_op; rwa [h.M L] at this
  bg := hbg

theorem LiveGrows.closed {cxts : List (Imp β) → Ctx α β} (h : LiveOk cxts) (hg : LiveGrows cxts) (L : List (Imp β))
    (y : Imp β) {X : Finset β} (hX : X ⊆ (cxts []).M)
    (hc : attrClosure (cxts L).G (cxts []).M (cxts L).Inc X = X) :
    attrClosure (cxts (L ++ [y])).G (cxts []).M (cxts (L ++ [y])).Inc X = X := by
  have mem : ∀ L m, m ∈ attrClosure (cxts L).G (cxts []).M (cxts L).Inc X ↔
      m ∈ (cxts []).M ∧ ∀ o ∈ (cxts L).objects, (∀ a ∈ X, (cxts L).Inc o a) → (cxts L).Inc o m := by
    intro L m
    rw [← h.M L, ← (h.wf L).aclF_eq, (h.wf L).mem_aclF]
    unfold Ctx.M
    rw [List.mem_toFinset]
  apply Finset.Subset.antisymm
  · intro m hm
    rw [← hc, mem]
    obtain ⟨h1, h2⟩ := (mem _ _).1 hm
    refine ⟨h1, fun o ho hoX => ?_⟩
    obtain ⟨o', ho', hrow⟩ := hg L y o (List.mem_toFinset.2 ho)
    exact (hrow m h1).2 (h2 o' (List.mem_toFinset.1 ho') fun a ha => (hrow a (hX ha)).1 (hoX a ha))
  · intro m hm
    exact (mem _ _).2 ⟨hX hm, fun o _ hoX => hoX m hm⟩

/-- The run of the generator, in terms of the loop. -/
theorem dgLive_run {cxts : List (Imp β) → Ctx α β} (h : LiveOk cxts) (ordA : List (Imp β) → SetOrder β)
    (ordO : List (Imp β) → SetOrder α) (bg : List (Imp β)) (hbg : ∀ i ∈ bg, i.conclusion ⊆ (cxts []).M)
    (cond : Finset β → Bool) :
    ∃ ys, dgLive cxts ordA ordO bg cond = (ys, .done) ∧
      (∀ (k : ℕ) y, ys[k]? = some y → LiveYield (cxts []).attributes
        (fun L => attrClosure (cxts L).G (cxts []).M (cxts L).Inc) bg cond (ys.take k) y) ∧
      ((∀ s, cond s = true) → LiveGrows cxts → ∀ X, X ⊆ (cxts []).M → Closed (specImps bg) X → QuasiClosed ys X →
        attrClosure (cxts ys).G (cxts []).M (cxts ys).Inc X = X ∨ ∃ x ∈ ys, x.premise = X) := by
  have S := h.setup ordA ordO hbg
  have hlen : (simpleClosure ∅ bg) ⊆ (cxts []).attributes.toFinset := simpleClosure_into ∅ _ _ (by simp) hbg
  have hleast : ∀ X, Closed (specImps bg) X → simpleClosure ∅ bg ⊆ X := fun X hX =>
    (simpleClosure_isLeast ∅ bg).2.2 X (by simp) hX
  obtain ⟨ys, h1, h2, h3⟩ := dgLive_loop S cond (2 ^ (cxts []).attributes.length + 1) [] (simpleClosure ∅ bg)
    (cxts []).attributes.length hlen le_rfl (by intro i hi; simp at hi)
    (by simpa using (simpleClosure_isLeast ∅ bg).2.1) (by simp) ((Nat.sub_le _ _).trans (Nat.le_succ _))
    (fun _ X _ hX _ _ _ => hleast X hX)
  refine ⟨ys, h1, by simpa using h2, ?_⟩
  intro hc hg X hX hXb hXq
  have := h3 hc (fun L y X hX hX' => hg.closed h L y hX hX') (by
    intro Y _ hYb _ hlt
    exact absurd (lexVal_mono (l := (cxts []).attributes) (hleast Y hYb)) (by omega)) X hX hXb (by simpa using hXq)
  simpa using this

/-- Whatever the consumer does with the objects between two values (as long as there are objects), the generator ends,
and each value was right when it was yielded: it holds in the context of that moment, its conclusion is the closure of
its premise there, and its premise respects the background and all values before it. The premises come in lectic
order, so that no premise comes twice and there are at most `2 ^ |M|` values. -/
theorem C110_sound {cxts : List (Imp β) → Ctx α β} (h : LiveOk cxts) (ordA : List (Imp β) → SetOrder β)
    (ordO : List (Imp β) → SetOrder α) (bg : List (Imp β)) (hbg : ∀ i ∈ bg, i.conclusion ⊆ (cxts []).M)
    (cond : Finset β → Bool) :
    ∃ ys, dgLive cxts ordA ordO bg cond = (ys, .done) ∧
      (∀ (k : ℕ) y, ys[k]? = some y →
        HoldsIn (cxts (ys.take k)).G (cxts (ys.take k)).Inc y.premise y.conclusion ∧
        y.conclusion = attrClosure (cxts (ys.take k)).G (cxts []).M (cxts (ys.take k)).Inc y.premise ∧
        y.premise ⊂ y.conclusion ∧ cond y.premise = true ∧
        Closed (specImps (ys.take k ++ bg)) y.premise) ∧
      (ys.map Imp.premise).Pairwise (LecticLt (cxts []).attributes) ∧
      ys.length ≤ 2 ^ (cxts []).attributes.length := by
  obtain ⟨ys, h1, h2, -⟩ := dgLive_run h ordA ordO bg hbg cond
  have hpw : ys.Pairwise fun x y => lexVal (cxts []).attributes x.premise < lexVal (cxts []).attributes y.premise := by
    rw [List.pairwise_iff_getElem]
    intro i j hi hj hij
    refine (h2 j ys[j] (List.getElem?_eq_getElem hj)).2.2.2.2.2 _ ?_
    exact List.mem_take_iff_getElem.2 ⟨i, by omega, rfl⟩
  refine ⟨ys, h1, ?_, ?_, ?_⟩
  · intro k y hy
    obtain ⟨a1, a2, a3, a4, a5, -⟩ := h2 k y hy
    have hw := h.wf (ys.take k)
    have hM := h.M (ys.take k)
    have hop := hw.attrClosure_op
    rw [hM] at hop
    refine ⟨?_, a2, Finset.ssubset_iff_subset_ne.2 ⟨?_, a3⟩, a4, a5⟩
    · rw [holdsIn_iff hw (by rw [hM, a2]; exact hop.into _ a1), hM]
      exact a2.subset
    · rw [a2]; exact hop.ext _ a1
  · rw [List.pairwise_map]
    exact hpw.imp fun hxy => (lecticLt_iff _ _ _).2 hxy
  · have hnd : (ys.map fun x => lexVal (cxts []).attributes x.premise).Nodup := by
      unfold List.Nodup
      rw [List.pairwise_map]
      exact hpw.imp fun hxy => by omega
    have := (List.subperm_of_subset hnd (l₂ := List.range (2 ^ (cxts []).attributes.length)) (by
      intro n hn
      obtain ⟨x, -, rfl⟩ := List.mem_map.1 hn
      exact List.mem_range.2 (lexVal_lt _ _))).length_le
    simpa using this

/-- If the consumer only adds objects, background and values together entail every implication that holds in the context
at the end. -/
theorem C110_complete {cxts : List (Imp β) → Ctx α β} (h : LiveOk cxts) (hg : LiveGrows cxts)
    (ordA : List (Imp β) → SetOrder β) (ordO : List (Imp β) → SetOrder α) (bg : List (Imp β))
    (hbg : ∀ i ∈ bg, i.conclusion ⊆ (cxts []).M) (ys : List (Imp β))
    (hys : dgLive cxts ordA ordO bg (fun _ => true) = (ys, .done)) (P C : Finset β) (hP : P ⊆ (cxts []).M)
    (hC : C ⊆ (cxts []).M) (hh : HoldsIn (cxts ys).G (cxts ys).Inc P C) : Entails (specImps (ys ++ bg)) P C := by
  obtain ⟨ys', h1, h2, h3⟩ := dgLive_run h ordA ordO bg hbg (fun _ => true)
  rw [hys] at h1
  obtain rfl : ys = ys' := (Prod.mk.inj h1).1
  have hcon : ∀ x ∈ ys ++ bg, x.conclusion ⊆ (cxts []).M := by
    intro x hx
    rcases List.mem_append.1 hx with hx | hx
    · obtain ⟨k, hk, rfl⟩ := List.getElem_of_mem hx
      obtain ⟨a1, a2, -⟩ := h2 k _ (List.getElem?_eq_getElem hk)
      have hop := (h.wf (ys.take k)).attrClosure_op
      rw [h.M] at hop
      rw [a2]; exact hop.into _ a1
    · exact hbg x hx
  intro X hX hPX
  -- the part of `X` inside the attributes is closed
  have hX' := (closed_specImps _ _).1 hX
  have hY : ∀ x ∈ ys ++ bg, x.premise ⊆ X ∩ (cxts []).M → x.conclusion ⊆ X ∩ (cxts []).M := fun x hx hp =>
    Finset.subset_inter (hX' x hx (hp.trans Finset.inter_subset_left)) (hcon x hx)
  have hcl : attrClosure (cxts ys).G (cxts []).M (cxts ys).Inc (X ∩ (cxts []).M) = X ∩ (cxts []).M := by
    rcases h3 (fun _ => rfl) hg (X ∩ (cxts []).M) Finset.inter_subset_right
      ((closed_specImps _ _).2 fun x hx => hY x (List.mem_append_right _ hx))
      (fun x hx hp => hY x (List.mem_append_left _ hx) hp.1) with hc | ⟨x, hx, hxp⟩
    · exact hc
    · exfalso
      have hsub := hY x (List.mem_append_left _ hx) hxp.subset
      obtain ⟨k, hk, rfl⟩ := List.getElem_of_mem hx
      obtain ⟨a1, a2, a3, -⟩ := h2 k _ (List.getElem?_eq_getElem hk)
      have hop := (h.wf (ys.take k)).attrClosure_op
      rw [h.M] at hop
      apply a3
      apply Finset.Subset.antisymm
      · conv_rhs => rw [a2]
        exact hop.ext _ a1
      · rw [hxp]; exact hsub
  have hw := h.wf ys
  have := (holdsIn_iff hw (by rw [h.M]; exact hC)).1 hh
  rw [h.M] at this
  have hop := hw.attrClosure_op
  rw [h.M] at hop
  refine this.trans ((hop.mono P (X ∩ (cxts []).M) (Finset.subset_inter hPX hP) Finset.inter_subset_right).trans ?_)
  rw [hcl]
  exact Finset.inter_subset_left

/-- If the consumer only adds objects and no value was refuted, the values are exactly the basis that
`compute_dg_basis_simple` returns for the context at the end. -/
theorem C110_unrefuted {cxts : List (Imp β) → Ctx α β} (h : LiveOk cxts) (hg : LiveGrows cxts)
    (ordA : List (Imp β) → SetOrder β) (ordO : List (Imp β) → SetOrder α) (bg : List (Imp β))
    (hbg : ∀ i ∈ bg, i.conclusion ⊆ (cxts []).M) (ys : List (Imp β))
    (hys : dgLive cxts ordA ordO bg (fun _ => true) = (ys, .done))
    (hval : ∀ y ∈ ys, HoldsIn (cxts ys).G (cxts ys).Inc y.premise y.conclusion)
    (ordA' : SetOrder β) (ordO' : SetOrder α) :
    (cxts ys).computeDgBasisSimple ordA' ordO' bg (fun _ => true) = .ok ys := by
  obtain ⟨ys', h1, h2, h3⟩ := dgLive_run h ordA ordO bg hbg (fun _ => true)
  rw [hys] at h1
  obtain rfl : ys = ys' := (Prod.mk.inj h1).1
  have hw := h.wf ys
  have hM := h.M ys
  obtain ⟨res, hres⟩ := C24_basis_returns hw (h.nonempty ys) ordA' ordO' simpleClosure bg (Or.inl rfl)
    (by rw [hM]; exact hbg) (fun _ => true)
  obtain ⟨hmem, hpw⟩ := dg_main hw (Or.inl rfl) (by rw [hM]; exact hbg) hres
  rw [hM] at hmem
  rw [h.atts ys] at hpw
  set cl := attrClosure (cxts ys).G (cxts []).M (cxts ys).Inc with hcl
  have hop : IsClosureOp (cxts []).M cl := by have := hw.attrClosure_op; rwa [hM] at this
  have hypw : ys.Pairwise fun x y => lexVal (cxts []).attributes x.premise < lexVal (cxts []).attributes y.premise := by
    rw [List.pairwise_iff_getElem]
    intro i j hi hj hij
    refine (h2 j ys[j] (List.getElem?_eq_getElem hj)).2.2.2.2.2 _ ?_
    exact List.mem_take_iff_getElem.2 ⟨i, by omega, rfl⟩
  -- closed sets of earlier contexts are closed at the end
  have hlater : ∀ n, n ≤ ys.length → ∀ k, k ≤ n → ∀ X, X ⊆ (cxts []).M →
      attrClosure (cxts (ys.take k)).G (cxts []).M (cxts (ys.take k)).Inc X = X →
      attrClosure (cxts (ys.take n)).G (cxts []).M (cxts (ys.take n)).Inc X = X := by
    intro n
    induction n with
    | zero => intro _ k hk X _ hX; rw [Nat.le_zero.1 hk] at hX; exact hX
    | succ n ih =>
      intro hn k hk X hXM hX
      rcases Nat.lt_or_eq_of_le hk with hk | rfl
      · have := ih (by omega) k (by omega) X hXM hX
        rw [List.take_succ_eq_append_getElem (by omega)]
        exact hg.closed h _ _ hXM this
      · exact hX
  -- conclusions are closures at the end
  have hconc : ∀ y ∈ ys, y.premise ⊆ (cxts []).M ∧ y.conclusion = cl y.premise ∧ y.premise ≠ y.conclusion := by
    intro y hy
    obtain ⟨k, hk, rfl⟩ := List.getElem_of_mem hy
    obtain ⟨a1, a2, a3, -⟩ := h2 k _ (List.getElem?_eq_getElem hk)
    have hopk := (h.wf (ys.take k)).attrClosure_op
    rw [h.M] at hopk
    refine ⟨a1, Finset.Subset.antisymm ?_ ?_, a3⟩
    · have := hval _ hy
      rw [holdsIn_iff hw (by rw [hM, a2]; exact hopk.into _ a1), hM] at this
      exact this
    · have hc := hlater ys.length le_rfl k hk.le _ (hopk.into _ a1) (hopk.idem _ a1)
      rw [List.take_length] at hc
      rw [a2]
      calc cl ys[k].premise ⊆ cl (attrClosure (cxts (ys.take k)).G (cxts []).M (cxts (ys.take k)).Inc ys[k].premise) :=
            hop.mono _ _ (hopk.ext _ a1) (hopk.into _ a1)
        _ = _ := hc
  -- premises are quasi-closed
  have hquasi : ∀ y ∈ ys, Closed (specImps bg) y.premise ∧ QuasiClosed ys y.premise := by
    intro y hy
    obtain ⟨k, hk, rfl⟩ := List.getElem_of_mem hy
    obtain ⟨a1, -, -, -, a5, -⟩ := h2 k _ (List.getElem?_eq_getElem hk)
    have a5' := (closed_specImps _ _).1 a5
    refine ⟨(closed_specImps _ _).2 fun x hx => a5' x (List.mem_append_right _ hx), ?_⟩
    intro x hx hss
    obtain ⟨l, hl, rfl⟩ := List.getElem_of_mem hx
    have hlt := lexVal_lt_of_ssubset (l := (cxts []).attributes) a1 hss
    have hlk : l < k := by
      by_contra hcon
      rcases Nat.lt_or_eq_of_le (Nat.le_of_not_lt hcon) with hkl | rfl
      · have := (List.pairwise_iff_getElem.1 hypw) k l hk hl hkl
        omega
      · omega
    exact a5' _ (List.mem_append_left _ (List.mem_take_iff_getElem.2 ⟨l, by omega, rfl⟩)) hss.1
  have hpseudo : ∀ n P, P.card = n → (IsPseudo (cxts []).M (specImps bg) cl P ↔ ∃ y ∈ ys, y.premise = P) := by
    intro n
    induction n using Nat.strong_induction_on with
    | _ n ih =>
      intro P hPn
      rw [isPseudo_iff]
      constructor
      · rintro ⟨⟨b1, b2, b3⟩, b4⟩
        rcases h3 (fun _ => rfl) hg P b1 b2 (by
          intro x hx hss
          rw [(hconc x hx).2.1]
          exact b3 _ hss ((ih _ (hPn ▸ Finset.card_lt_card hss) _ rfl).2 ⟨x, hx, rfl⟩)) with hc | hc
        · exact absurd hc b4
        · exact hc
      · rintro ⟨y, hy, rfl⟩
        obtain ⟨b1, b2, b3⟩ := hconc y hy
        obtain ⟨c1, c2⟩ := hquasi y hy
        refine ⟨⟨b1, c1, ?_⟩, fun he => b3 (b2.trans he).symm⟩
        intro Q hQ hps
        obtain ⟨x, hx, rfl⟩ := (ih _ (hPn ▸ Finset.card_lt_card hQ) _ rfl).1 hps
        rw [← (hconc x hx).2.1]
        exact c2 x hx hQ
  have hsame : ∀ x, x ∈ res ↔ x ∈ ys := by
    intro x
    rw [hmem]
    constructor
    · rintro ⟨hp, hc⟩
      obtain ⟨y, hy, hyp⟩ := (hpseudo _ _ rfl).1 hp
      have : x = y := by
        have := (hconc y hy).2.1
        rw [hyp, ← hc] at this
        cases x; cases y
        simp only at hyp this
        rw [hyp, this]
      rw [this]; exact hy
    · intro hx
      exact ⟨(hpseudo _ _ rfl).2 ⟨x, hx, rfl⟩, (hconc x hx).2.1⟩
  have hrpw : res.Pairwise fun x y => lexVal (cxts []).attributes x.premise < lexVal (cxts []).attributes y.premise :=
    hpw.imp fun hxy => (lecticLt_iff _ _ _).1 hxy
  have hnd : ∀ l : List (Imp β), (l.Pairwise fun x y =>
      lexVal (cxts []).attributes x.premise < lexVal (cxts []).attributes y.premise) → l.Nodup := by
    intro l hl
    refine hl.imp ?_
    rintro x y hxy rfl
    omega
  have hperm : res.Perm ys := (List.perm_ext_iff_of_nodup (hnd _ hrpw) (hnd _ hypw)).2 hsame
  have : res = ys := hperm.eq_of_pairwise (fun x y _ _ h h' => by omega) hrpw hypw
  rw [this] at hres
  exact hres

/-! ### A consumer that adds objects -/

variable [PyName α] [PyName β]

/-- A consumer that, after each value, adds the objects `react` chooses from the values so far
(`add_object_with_intent`). -/
def liveAdd (c : Ctx α β) (react : List (Imp β) → List (α × Finset β)) (L : List (Imp β)) : Ctx α β :=
  (L.inits.tail.flatMap react).foldl (fun c x => (c.addObjectWithIntent x.2 x.1).1) c

theorem inits_concat {γ : Type} (L : List γ) (y : γ) : (L ++ [y]).inits.tail = L.inits.tail ++ [L ++ [y]] := by
  have h1 : (L ++ [y]).inits = L.inits ++ [L ++ [y]] := by simp [List.inits_append]
  rw [h1]
  cases h : L.inits with
  | nil => exact absurd h (by cases L <;> simp)
  | cons x l => rfl

theorem foldl_add {c : Ctx α β} (h : c.WFw) (hne : c.objects ≠ []) : ∀ xs : List (α × Finset β),
    (c.objects ++ xs.map Prod.fst).Nodup →
    (xs.foldl (fun c x => (c.addObjectWithIntent x.2 x.1).1) c).WFw ∧
    (xs.foldl (fun c x => (c.addObjectWithIntent x.2 x.1).1) c).objects = c.objects ++ xs.map Prod.fst ∧
    (xs.foldl (fun c x => (c.addObjectWithIntent x.2 x.1).1) c).attributes = c.attributes ∧
    ∀ o ∈ c.objects, ∀ a, (xs.foldl (fun c x => (c.addObjectWithIntent x.2 x.1).1) c).Inc o a ↔ c.Inc o a := by
  intro xs
  induction xs generalizing c with
  | nil => intro _; simp [h]
  | cons x xs ih =>
    intro hnd
    have hx : x.1 ∉ c.objects := by
      intro hx
      rw [List.map_cons, List.nodup_append] at hnd
      exact hnd.2.2 _ hx _ (by simp) rfl
    obtain ⟨c', h1, h2, h3, h4, h5⟩ := BExp.add_object_ctx h hne hx x.2
    obtain ⟨i1, i2, i3, i4⟩ := ih h2 (by rw [h3]; simp) (by
      rw [h3, List.append_assoc]; exact hnd)
    rw [List.foldl_cons, h1]
    refine ⟨i1, by rw [i2, h3]; simp, by rw [i3, h4], ?_⟩
    intro o ho a
    rw [i4 o (by rw [h3]; exact List.mem_append_left _ ho) a, h5]
    constructor
    · rintro (⟨rfl, -⟩ | ⟨-, hh⟩)
      · exact absurd ho hx
      · exact hh
    · intro hh
      exact Or.inr ⟨fun he => hx (he ▸ ho), hh⟩

/-- Such a consumer, with new names, meets the conditions of the theorems above. -/
theorem liveAdd_ok {c : Ctx α β} (h : c.WFw) (hne : c.objects ≠ []) (react : List (Imp β) → List (α × Finset β))
    (hfresh : ∀ L : List (Imp β), (c.objects ++ (L.inits.tail.flatMap react).map Prod.fst).Nodup) :
    LiveOk (liveAdd c react) ∧ LiveGrows (liveAdd c react) ∧ liveAdd c react [] = c := by
  have hF := fun L => foldl_add h hne (L.inits.tail.flatMap react) (hfresh L)
  have h0 : liveAdd c react [] = c := by simp [liveAdd]
  have hok : LiveOk (liveAdd c react) := by
    refine ⟨fun L => (hF L).1, fun L => ?_, fun L => ?_⟩
    · unfold liveAdd
      rw [(hF L).2.1]
      simp [hne]
    · rw [h0]; exact (hF L).2.2.1
  refine ⟨hok, ?_, h0⟩
  intro L y g hg
  have hstep : liveAdd c react (L ++ [y]) =
      (react (L ++ [y])).foldl (fun c x => (c.addObjectWithIntent x.2 x.1).1) (liveAdd c react L) := by
    unfold liveAdd
    rw [inits_concat, List.flatMap_append, List.foldl_append]
    simp
  have hfr := hfresh (L ++ [y])
  rw [inits_concat, List.flatMap_append, List.map_append, ← List.append_assoc] at hfr
  have := foldl_add (hok.wf L) (hok.nonempty L) (react (L ++ [y])) (by
    unfold liveAdd
    rw [(hF L).2.1]
    simpa using hfr)
  rw [hstep]
  have hg' := List.mem_toFinset.1 hg
  exact ⟨g, List.mem_toFinset.2 (by rw [this.2.1]; exact List.mem_append_left _ hg'), fun m _ =>
    (this.2.2.2 g hg' m).symm⟩

/-- A consumer that reacts to the values by adding objects: in the end background and values entail everything that holds;
if no value was refuted, they are the basis of the context at the end. -/
theorem C110_adding {c : Ctx α β} (h : c.WFw) (hne : c.objects ≠ []) (react : List (Imp β) → List (α × Finset β))
    (hfresh : ∀ L : List (Imp β), (c.objects ++ (L.inits.tail.flatMap react).map Prod.fst).Nodup)
    (ordA : List (Imp β) → SetOrder β) (ordO : List (Imp β) → SetOrder α) (bg : List (Imp β))
    (hbg : ∀ i ∈ bg, i.conclusion ⊆ c.M) :
    ∃ ys, dgLive (liveAdd c react) ordA ordO bg (fun _ => true) = (ys, .done) ∧
      (∀ P C, P ⊆ c.M → C ⊆ c.M → HoldsIn (liveAdd c react ys).G (liveAdd c react ys).Inc P C →
        Entails (specImps (ys ++ bg)) P C) ∧
      ((∀ y ∈ ys, HoldsIn (liveAdd c react ys).G (liveAdd c react ys).Inc y.premise y.conclusion) →
        ∀ ordA' ordO', (liveAdd c react ys).computeDgBasisSimple ordA' ordO' bg (fun _ => true) = .ok ys) := by
  obtain ⟨h1, h2, h3⟩ := liveAdd_ok h hne react hfresh
  have hbg' : ∀ i ∈ bg, i.conclusion ⊆ (liveAdd c react []).M := by rw [h3]; exact hbg
  obtain ⟨ys, hys, -⟩ := C110_sound h1 ordA ordO bg hbg' (fun _ => true)
  refine ⟨ys, hys, fun P C hP hC hh => ?_, fun hval ordA' ordO' => ?_⟩
  · exact C110_complete h1 h2 ordA ordO bg hbg' ys hys P C (by rw [h3]; exact hP) (by rw [h3]; exact hC) hh
  · exact C110_unrefuted h1 h2 ordA ordO bg hbg' ys hys hval ordA' ordO'

/-! ### Keeping the values that were not refuted is not enough -/

/-- One object with both attributes. -/
def liveDemo : Ctx (Fin 2) (Fin 2) := ⟨[0], [0, 1], ⟨some 2, [[true, true]]⟩⟩

/-- The consumer refutes the first value by an object without attributes. -/
def liveRefute (L : List (Imp (Fin 2))) : List (Fin 2 × Finset (Fin 2)) := if L.length = 1 then [(1, ∅)] else []

theorem liveDemo_run : dgLive (liveAdd liveDemo liveRefute) (fun _ => SetOrder.fin 2) (fun _ => SetOrder.fin 2) []
    (fun _ => true) = ([⟨∅, {0, 1}⟩], .done) := by decide +kernel

theorem liveDemo_end : liveAdd liveDemo liveRefute [⟨∅, {0, 1}⟩] =
    ⟨[0, 1], [0, 1], ⟨some 2, [[true, true], [false, false]]⟩⟩ := by decide +kernel

/-- The values that hold at the end need not entail what holds at the end, not even with their conclusions replaced by
the closures at the end: a refuted value is not asked again with a smaller conclusion, and the sets it skipped are not
visited. -/
theorem C110_accepted_violated :
    ∃ (c : Ctx (Fin 2) (Fin 2)) (react : List (Imp (Fin 2)) → List (Fin 2 × Finset (Fin 2))) (ys : List (Imp (Fin 2))),
      c.WFw ∧ c.objects ≠ [] ∧
      dgLive (liveAdd c react) (fun _ => SetOrder.fin 2) (fun _ => SetOrder.fin 2) [] (fun _ => true) = (ys, .done) ∧
      HoldsIn (liveAdd c react ys).G (liveAdd c react ys).Inc {0} {1} ∧
      ∀ kept : List (Imp (Fin 2)), (∀ x ∈ kept, x.premise ∈ ys.map Imp.premise ∧ x.conclusion ⊆ c.M ∧
          HoldsIn (liveAdd c react ys).G (liveAdd c react ys).Inc x.premise x.conclusion) →
        ¬ Entails (specImps kept) {0} {1} := by
  have hw : (⟨[0, 1], [0, 1], ⟨some 2, [[true, true], [false, false]]⟩⟩ : Ctx (Fin 2) (Fin 2)).WFw := by
    constructor <;> decide +kernel
  refine ⟨liveDemo, liveRefute, _, by constructor <;> decide +kernel, by decide, liveDemo_run, ?_, ?_⟩
  · rw [liveDemo_end]
    simp only [HoldsIn, ← hw.incB]
    decide
  · rw [liveDemo_end]
    intro kept hk he
    have := he {0} ?_ (by simp)
    · exact absurd this (by decide)
    · rw [closed_specImps]
      intro x hx _
      obtain ⟨h1, -, h2⟩ := hk x hx
      have hp : x.premise = ∅ := by simpa using h1
      intro m hm
      have := h2 1 (by decide) (by rw [hp]; simp) m hm
      rw [← hw.incB] at this
      clear hm
      revert this
      revert m
      decide

/-! ### Concrete cases -/

/-- The consumer of the demo meets the conditions. -/
example : LiveOk (liveAdd liveDemo fun L => if L.length = 1 then [(1, {1})] else []) ∧
    LiveGrows (liveAdd liveDemo fun L => if L.length = 1 then [(1, {1})] else []) := by
  have h := liveAdd_ok (c := liveDemo) (by constructor <;> decide +kernel) (by decide)
    (fun L => if L.length = 1 then [(1, {1})] else []) (by
      intro L
      have : ∀ L : List (Imp (Fin 2)), L = [] ∨ ∃ y L', L = y :: L' := by intro L; cases L <;> simp
      rcases this L with rfl | ⟨y, L', rfl⟩
      · decide
      · have hz : ∀ (l : List (List (Imp (Fin 2)))), (∀ x ∈ l, x ≠ []) →
            (l.map (y :: ·)).flatMap (fun L => if L.length = 1 then [((1 : Fin 2), ({1} : Finset (Fin 2)))] else []) = [] := by
          intro l hl
          rw [List.flatMap_eq_nil_iff]
          intro x hx
          obtain ⟨z, hz, rfl⟩ := List.mem_map.1 hx
          rw [if_neg]
          have := hl z hz
          simpa using this
        have hi : L'.inits = [] :: L'.inits.tail := by cases L' <;> simp
        have ht : ∀ x ∈ L'.inits.tail, x ≠ [] := by
          cases L' with
          | nil => simp
          | cons a l => simp
        rw [List.inits_cons, List.tail_cons, hi, List.map_cons, List.flatMap_cons, hz _ ht, List.length_singleton]
        decide)
  exact ⟨h.1, h.2.1⟩

/-- A value that is refuted at once, and the run after it. -/
example : dgLive (liveAdd liveDemo fun L => if L.length = 1 then [(1, {1})] else []) (fun _ => SetOrder.fin 2)
    (fun _ => SetOrder.fin 2) [] (fun _ => true) = ([⟨∅, {0, 1}⟩], .done) := by decide +kernel

end Ctx
