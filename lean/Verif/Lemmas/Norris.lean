/-
Correctness of Norris' algorithm.
-/
import Verif.Model.Lattice
import Verif.Lemmas.DGContext

set_option linter.unusedSectionVars false

variable {α β : Type} [DecidableEq α] [DecidableEq β]

/-- Closure in the context made of the rows `P`. -/
def ncl (M : Finset β) (P : List (α × Finset β)) (B : Finset β) : Finset β :=
  M.filter fun m => ∀ p ∈ P, B ⊆ p.2 → m ∈ p.2

/-- Objects among the rows `P` that have `B`. -/
def nex (P : List (α × Finset β)) (B : Finset β) : Finset α :=
  ((P.filter fun p => decide (B ⊆ p.2)).map Prod.fst).toFinset

theorem mem_ncl {M : Finset β} {P : List (α × Finset β)} {B : Finset β} {m : β} :
    m ∈ ncl M P B ↔ m ∈ M ∧ ∀ p ∈ P, B ⊆ p.2 → m ∈ p.2 := by
  simp [ncl]

theorem mem_nex {P : List (α × Finset β)} {B : Finset β} {o : α} :
    o ∈ nex P B ↔ ∃ p ∈ P, B ⊆ p.2 ∧ p.1 = o := by
  simp only [nex, List.mem_toFinset, List.mem_map, List.mem_filter, decide_eq_true_eq]
  constructor
  · rintro ⟨p, ⟨h1, h2⟩, h3⟩; exact ⟨p, h1, h2, h3⟩
  · rintro ⟨p, h1, h2, h3⟩; exact ⟨p, ⟨h1, h2⟩, h3⟩

theorem nex_append (P Q : List (α × Finset β)) (B : Finset β) :
    nex (P ++ Q) B = nex P B ∪ nex Q B := by
  ext o; simp only [mem_nex, Finset.mem_union, List.mem_append]
  constructor
  · rintro ⟨p, h | h, h2⟩
    · exact .inl ⟨p, h, h2⟩
    · exact .inr ⟨p, h, h2⟩
  · rintro (⟨p, h, h2⟩ | ⟨p, h, h2⟩)
    · exact ⟨p, .inl h, h2⟩
    · exact ⟨p, .inr h, h2⟩

theorem nex_single (p : α × Finset β) (B : Finset β) :
    nex [p] B = if B ⊆ p.2 then {p.1} else ∅ := by
  ext o; rw [mem_nex]; split
  · next h => simp [h, eq_comm]
  · next h => simp [h]

theorem nex_snoc (P : List (α × Finset β)) (p : α × Finset β) (B : Finset β) :
    nex (P ++ [p]) B = if B ⊆ p.2 then insert p.1 (nex P B) else nex P B := by
  rw [nex_append, nex_single]; split
  · ext o; simp
  · simp

theorem ncl_snoc {M : Finset β} (P : List (α × Finset β)) (p : α × Finset β) (B : Finset β) :
    ncl M (P ++ [p]) B = if B ⊆ p.2 then ncl M P B ∩ p.2 else ncl M P B := by
  ext m; split
  · next h =>
    simp only [mem_ncl, List.mem_append, List.mem_singleton, Finset.mem_inter]
    constructor
    · rintro ⟨h1, h2⟩; exact ⟨⟨h1, fun q hq => h2 q (.inl hq)⟩, h2 p (.inr rfl) h⟩
    · rintro ⟨⟨h1, h2⟩, h3⟩
      refine ⟨h1, fun q hq hb => ?_⟩
      rcases hq with hq | rfl
      · exact h2 q hq hb
      · exact h3
  · next h =>
    simp only [mem_ncl, List.mem_append, List.mem_singleton]
    constructor
    · rintro ⟨h1, h2⟩; exact ⟨h1, fun q hq => h2 q (.inl hq)⟩
    · rintro ⟨h1, h2⟩
      refine ⟨h1, fun q hq hb => ?_⟩
      rcases hq with hq | rfl
      · exact h2 q hq hb
      · exact absurd hb h

theorem ncl_ext {M : Finset β} {P : List (α × Finset β)} {B : Finset β} (h : B ⊆ M) : B ⊆ ncl M P B :=
  fun _ hm => mem_ncl.2 ⟨h hm, fun _ _ hb => hb hm⟩

theorem ncl_mono {M : Finset β} {P : List (α × Finset β)} {B C : Finset β} (h : B ⊆ C) :
    ncl M P B ⊆ ncl M P C :=
  fun _ hm => mem_ncl.2 ⟨(mem_ncl.1 hm).1, fun p hp hc => (mem_ncl.1 hm).2 p hp (h.trans hc)⟩

theorem ncl_idem {M : Finset β} {P : List (α × Finset β)} {B : Finset β} (h : B ⊆ M) :
    ncl M P (ncl M P B) = ncl M P B := by
  apply Finset.Subset.antisymm
  · intro m hm
    refine mem_ncl.2 ⟨(mem_ncl.1 hm).1, fun p hp hb => (mem_ncl.1 hm).2 p hp ?_⟩
    intro x hx; exact (mem_ncl.1 hx).2 p hp hb
  · exact ncl_ext fun m hm => (mem_ncl.1 hm).1

theorem ncl_fixed_snoc {M : Finset β} {P : List (α × Finset β)} {B : Finset β} (h : B ⊆ M)
    (hf : ncl M P B = B) (Q : List (α × Finset β)) : ncl M (P ++ Q) B = B := by
  apply Finset.Subset.antisymm _ (ncl_ext h)
  intro m hm
  rw [← hf]
  exact mem_ncl.2 ⟨(mem_ncl.1 hm).1, fun p hp => (mem_ncl.1 hm).2 p (by simp [hp])⟩

/-! ### One round -/

/-- An old concept after the round for `p`. -/
def nupd (p : α × Finset β) (c : Concept α β) : Concept α β :=
  if c.intent ⊆ p.2 then ⟨insert p.1 c.extent, c.intent⟩ else c

/-- The concept created from `c` in the round for `p`. -/
def nnew (seen : List (α × Finset β)) (p : α × Finset β) (c : Concept α β) : Option (Concept α β) :=
  if c.intent ⊆ p.2 then none
  else if norrisNew seen c (c.intent ∩ p.2) then some ⟨insert p.1 c.extent, c.intent ∩ p.2⟩ else none

theorem norrisInner_snd (seen : List (α × Finset β)) (p : α × Finset β) (dn todo news : List (Concept α β)) :
    (norrisInner seen p dn todo news).2 =
      dn ++ todo.map (nupd p) ++ (news ++ todo.filterMap (nnew seen p)) := by
  induction todo generalizing dn news with
  | nil => simp [norrisInner]
  | cons c todo ih =>
    simp only [norrisInner, List.map_cons, List.filterMap_cons]
    by_cases h : c.intent ⊆ p.2
    · simp only [if_pos h, ih, nupd, nnew]
      simp
    · simp only [if_neg h, nupd, nnew]
      by_cases h2 : norrisNew seen c (c.intent ∩ p.2) = true
      · simp only [if_pos h2, ih]; simp [nupd, nnew]
      · simp only [if_neg h2, ih]; simp [nupd, nnew]

/-- The concepts are exactly the concepts of the rows read so far, each once. -/
structure NInv (M : Finset β) (P : List (α × Finset β)) (cs : List (Concept α β)) : Prop where
  nodup : (cs.map Concept.intent).Nodup
  mem : ∀ B, (∃ c ∈ cs, c.intent = B) ↔ B ⊆ M ∧ ncl M P B = B
  ext : ∀ c ∈ cs, c.extent = nex P c.intent

theorem NInv.init (M : Finset β) : NInv (α := α) M [] [⟨∅, M⟩] where
  nodup := by simp
  mem B := by
    have : ncl M ([] : List (α × Finset β)) B = M := by ext m; simp [mem_ncl]
    rw [this]
    simp only [List.mem_singleton, exists_eq_left]
    constructor
    · rintro rfl; exact ⟨Finset.Subset.refl _, rfl⟩
    · rintro ⟨_, h⟩; exact h
  ext := by simp [nex]

theorem nnew_iff {M : Finset β} {P : List (α × Finset β)} {cs : List (Concept α β)} (h : NInv M P cs)
    (hn : (P.map Prod.fst).Nodup) {c : Concept α β} (hc : c ∈ cs) (p : α × Finset β) :
    norrisNew P c (c.intent ∩ p.2) = true ↔ ncl M P (c.intent ∩ p.2) = c.intent := by
  obtain ⟨hcM, hcf⟩ := (h.mem c.intent).1 ⟨c, hc, rfl⟩
  have hin : ∀ q ∈ P, q.1 ∈ c.extent ↔ c.intent ⊆ q.2 := by
    intro q hq
    rw [h.ext c hc, mem_nex]
    constructor
    · rintro ⟨q', hq', h1, h2⟩
      have : q' = q := List.inj_on_of_nodup_map hn hq' hq h2
      exact this ▸ h1
    · intro h1; exact ⟨q, hq, h1, rfl⟩
  have h1 : norrisNew P c (c.intent ∩ p.2) = true ↔ ∀ q ∈ P, c.intent ∩ p.2 ⊆ q.2 → c.intent ⊆ q.2 := by
    unfold norrisNew
    rw [Bool.not_eq_true', Bool.eq_false_iff, ne_eq, List.any_eq_true]
    push Not
    constructor
    · intro h q hq hD
      by_contra hne
      exact h q hq (by simp [hD, (hin q hq).not.2 hne])
    · intro h q hq
      simp only [ne_eq, Bool.and_eq_true, decide_eq_true_eq, not_and, not_not]
      intro hD; exact (hin q hq).2 (h q hq hD)
  rw [h1]
  constructor
  · intro hall
    apply Finset.Subset.antisymm
    · calc ncl M P (c.intent ∩ p.2) ⊆ ncl M P c.intent := ncl_mono Finset.inter_subset_left
        _ = c.intent := hcf
    · intro m hm
      exact mem_ncl.2 ⟨hcM hm, fun q hq hD => hall q hq hD hm⟩
  · intro he q hq hD m hm
    rw [← he] at hm
    exact (mem_ncl.1 hm).2 q hq hD

theorem nupd_intent (p : α × Finset β) (c : Concept α β) : (nupd p c).intent = c.intent := by
  unfold nupd; split <;> rfl

theorem nnew_some {P : List (α × Finset β)} {p : α × Finset β} {c d : Concept α β}
    (h : nnew P p c = some d) : ¬ c.intent ⊆ p.2 ∧ norrisNew P c (c.intent ∩ p.2) = true ∧
      d = ⟨insert p.1 c.extent, c.intent ∩ p.2⟩ := by
  unfold nnew at h
  split at h
  · cases h
  · next h1 =>
    split at h
    · next h2 => exact ⟨h1, h2, (Option.some.inj h).symm⟩
    · cases h

theorem filterMap_nodup_of_inj {γ δ : Type} {f : γ → Option δ} {l : List γ} (hl : l.Nodup)
    (hi : ∀ x ∈ l, ∀ y ∈ l, ∀ z, f x = some z → f y = some z → x = y) : (l.filterMap f).Nodup := by
  induction l with
  | nil => simp
  | cons x l ih =>
    have ih := ih (List.nodup_cons.1 hl).2 fun a ha b hb => hi a (by simp [ha]) b (by simp [hb])
    rw [List.filterMap_cons]
    split
    · exact ih
    · next z hz =>
      rw [List.nodup_cons]
      refine ⟨fun hm => ?_, ih⟩
      obtain ⟨y, hy, hyz⟩ := List.mem_filterMap.1 hm
      have := hi x (by simp) y (by simp [hy]) z hz hyz
      exact (List.nodup_cons.1 hl).1 (this ▸ hy)

theorem NInv.step {M : Finset β} {P : List (α × Finset β)} {cs : List (Concept α β)} (h : NInv M P cs)
    (hn : (P.map Prod.fst).Nodup) (p : α × Finset β) :
    NInv M (P ++ [p]) (cs.map (nupd p) ++ cs.filterMap (nnew P p)) where
  nodup := by
    rw [List.map_append, List.map_map, List.map_filterMap]
    have e1 : (Concept.intent ∘ nupd p : Concept α β → Finset β) = Concept.intent :=
      funext fun c => nupd_intent p c
    rw [e1, List.nodup_append]
    refine ⟨h.nodup, ?_, ?_⟩
    · apply filterMap_nodup_of_inj h.nodup.of_map
      intro c hc d hd z h1 h2
      simp only [Option.map_eq_some_iff] at h1 h2
      obtain ⟨c', hc', rfl⟩ := h1
      obtain ⟨d', hd', he⟩ := h2
      obtain ⟨-, hc2, rfl⟩ := nnew_some hc'
      obtain ⟨-, hd2, rfl⟩ := nnew_some hd'
      simp only at he
      rw [nnew_iff h hn hc] at hc2
      rw [nnew_iff h hn hd, he, hc2] at hd2
      exact List.inj_on_of_nodup_map h.nodup hc hd hd2
    · intro B hB B' hB'
      rintro rfl
      simp only [List.mem_filterMap, Option.map_eq_some_iff] at hB'
      obtain ⟨c, hc, c', hc', rfl⟩ := hB'
      obtain ⟨hc1, hc2, rfl⟩ := nnew_some hc'
      rw [nnew_iff h hn hc] at hc2
      simp only [List.mem_map] at hB
      have := ((h.mem _).1 hB).2
      rw [hc2] at this
      exact hc1 (Finset.inter_eq_left.1 this.symm)
  mem B := by
    constructor
    · rintro ⟨c', hc', rfl⟩
      rw [List.mem_append, List.mem_map, List.mem_filterMap] at hc'
      rcases hc' with ⟨c, hc, rfl⟩ | ⟨c, hc, hc'⟩
      · rw [nupd_intent]
        obtain ⟨h1, h2⟩ := (h.mem c.intent).1 ⟨c, hc, rfl⟩
        exact ⟨h1, ncl_fixed_snoc h1 h2 [p]⟩
      · obtain ⟨hc1, hc2, rfl⟩ := nnew_some hc'
        rw [nnew_iff h hn hc] at hc2
        obtain ⟨h1, -⟩ := (h.mem c.intent).1 ⟨c, hc, rfl⟩
        refine ⟨Finset.inter_subset_left.trans h1, ?_⟩
        rw [ncl_snoc, if_pos Finset.inter_subset_right, hc2]
    · rintro ⟨hBM, hB⟩
      have old : ncl M P B = B →
          ∃ c ∈ cs.map (nupd p) ++ cs.filterMap (nnew P p), c.intent = B := by
        intro hf
        obtain ⟨c, hc, rfl⟩ := (h.mem B).2 ⟨hBM, hf⟩
        exact ⟨nupd p c, by simp only [List.mem_append, List.mem_map]; exact .inl ⟨c, hc, rfl⟩,
          nupd_intent p c⟩
      rw [ncl_snoc] at hB
      by_cases hp : B ⊆ p.2
      · rw [if_pos hp] at hB
        by_cases hE : ncl M P B ⊆ p.2
        · exact old (by rw [Finset.inter_eq_left.2 hE] at hB; exact hB)
        · obtain ⟨c, hc, hcE⟩ := (h.mem (ncl M P B)).2 ⟨fun m hm => (mem_ncl.1 hm).1, ncl_idem hBM⟩
          have hcp : c.intent ∩ p.2 = B := by rw [hcE, hB]
          have hnew : norrisNew P c (c.intent ∩ p.2) = true := by
            rw [nnew_iff h hn hc, hcp, hcE]
          refine ⟨⟨insert p.1 c.extent, c.intent ∩ p.2⟩, ?_, hcp⟩
          rw [List.mem_append, List.mem_filterMap]
          refine .inr ⟨c, hc, ?_⟩
          unfold nnew
          rw [if_neg (hcE ▸ hE), if_pos hnew]
      · rw [if_neg hp] at hB
        exact old hB
  ext c' hc' := by
    rw [List.mem_append, List.mem_map, List.mem_filterMap] at hc'
    rcases hc' with ⟨c, hc, rfl⟩ | ⟨c, hc, hc'⟩
    · rw [nupd_intent, nex_snoc, ← h.ext c hc]
      unfold nupd; split <;> rfl
    · obtain ⟨hc1, hc2, rfl⟩ := nnew_some hc'
      simp only
      rw [nex_snoc, if_pos Finset.inter_subset_right]
      congr 1
      rw [nnew_iff h hn hc] at hc2
      rw [h.ext c hc]
      ext o
      simp only [mem_nex]
      constructor
      · rintro ⟨q, hq, h1, h2⟩; exact ⟨q, hq, Finset.inter_subset_left.trans h1, h2⟩
      · rintro ⟨q, hq, h1, h2⟩
        refine ⟨q, hq, ?_, h2⟩
        intro m hm
        rw [← hc2] at hm
        exact (mem_ncl.1 hm).2 q hq h1

theorem norrisLoop_inv {M : Finset β} (seen rest : List (α × Finset β)) (cs : List (Concept α β))
    (h : NInv M seen cs) (hn : ((seen ++ rest).map Prod.fst).Nodup) :
    NInv M (seen ++ rest) (norrisLoop seen rest cs).2 := by
  induction rest generalizing seen cs with
  | nil => simpa [norrisLoop] using h
  | cons p rest ih =>
    have hs : (seen.map Prod.fst).Nodup := by
      rw [List.map_append] at hn; exact (List.nodup_append.1 hn).1
    have e : seen ++ p :: rest = (seen ++ [p]) ++ rest := by simp
    simp only [norrisLoop]
    rw [e]
    apply ih
    · rw [norrisInner_snd]; simpa using h.step hs p
    · rw [← e]; exact hn

/-! ### What the consumer holds -/

/-- What a consumer holds while the object after `P` is being read: the extents are those in
`P` or in `P` and the current object `p`. -/
def Held (P : List (α × Finset β)) (p : α × Finset β) (L : List (Concept α β)) : Prop :=
  ∀ c ∈ L, c.extent = nex P c.intent ∨ c.extent = nex (P ++ [p]) c.intent

/-- The yields of one round. -/
theorem norrisInner_trace {M : Finset β} {P : List (α × Finset β)} {cs : List (Concept α β)}
    (h : NInv M P cs) (hn : (P.map Prod.fst).Nodup) (p : α × Finset β) (dn todo news : List (Concept α β))
    (hdn : ∃ pre, cs = pre ++ todo ∧ dn = pre.map (nupd p) ∧ news = pre.filterMap (nnew P p)) :
    (norrisInner P p dn todo news).1.length = (todo.filterMap (nnew P p)).length ∧
    ∀ n (L : List (Concept α β)), (norrisInner P p dn todo news).1[n]? = some L →
      L.length = cs.length + news.length + n + 1 ∧
      L.map Concept.intent <+: (cs.map (nupd p) ++ cs.filterMap (nnew P p)).map Concept.intent ∧
      Held P p L ∧ ∃ pre x, L = pre ++ [x] ∧ x.extent = nex (P ++ [p]) x.intent := by
  induction todo generalizing dn news with
  | nil => simp [norrisInner]
  | cons c todo ih =>
    obtain ⟨pre, hcs, hdn, hnews⟩ := hdn
    have hcs' : cs = (pre ++ [c]) ++ todo := by rw [hcs]; simp
    have hc : c ∈ cs := by rw [hcs]; simp
    have hstep := h.step hn p
    simp only [norrisInner, List.filterMap_cons]
    by_cases hsub : c.intent ⊆ p.2
    · have e1 : nnew P p c = none := by simp [nnew, hsub]
      have e2 : nupd p c = ⟨insert p.1 c.extent, c.intent⟩ := by simp [nupd, hsub]
      rw [if_pos hsub, e1]
      exact ih _ _ ⟨pre ++ [c], hcs', by rw [hdn, List.map_append, List.map_singleton, e2],
        by rw [hnews, List.filterMap_append]; simp [e1]⟩
    · have e2 : nupd p c = c := by simp [nupd, hsub]
      rw [if_neg hsub]
      by_cases hnew : norrisNew P c (c.intent ∩ p.2) = true
      · have e1 : nnew P p c = some ⟨insert p.1 c.extent, c.intent ∩ p.2⟩ := by simp [nnew, hsub, hnew]
        simp only [if_pos hnew, e1, List.length_cons]
        have hpre : ∃ pre', cs = pre' ++ todo ∧ dn ++ [c] = pre'.map (nupd p) ∧
            news ++ [⟨insert p.1 c.extent, c.intent ∩ p.2⟩] = pre'.filterMap (nnew P p) :=
          ⟨pre ++ [c], hcs', by rw [hdn, List.map_append, List.map_singleton, e2],
            by rw [hnews, List.filterMap_append]; simp [e1]⟩
        obtain ⟨ih1, ih2⟩ := ih _ _ hpre
        refine ⟨by rw [ih1], ?_⟩
        intro n L hL
        cases n with
        | zero =>
          simp only [List.getElem?_cons_zero, Option.some.injEq] at hL
          subst hL
          refine ⟨?_, ?_, ?_, ?_⟩
          · rw [hcs, hdn]; simp; omega
          · refine ⟨(todo.filterMap (nnew P p)).map Concept.intent, ?_⟩
            rw [hcs, hdn, hnews]
            have e3 : (Concept.intent ∘ nupd p : Concept α β → Finset β) = Concept.intent :=
              funext fun c => nupd_intent p c
            simp [e1, e2, e3]
          · intro d hd
            have hmem : d ∈ cs ∨ d ∈ cs.map (nupd p) ++ cs.filterMap (nnew P p) := by
              rw [hcs]
              simp only [hdn, hnews, List.mem_append, List.mem_cons, List.mem_singleton, List.not_mem_nil,
                or_false, List.map_append, List.filterMap_append, List.map_cons, List.filterMap_cons, e1] at hd ⊢
              tauto
            rcases hmem with hmem | hmem
            · exact .inl (h.ext d hmem)
            · exact .inr (hstep.ext d hmem)
          · refine ⟨dn ++ c :: todo ++ news, _, rfl, ?_⟩
            have : (⟨insert p.1 c.extent, c.intent ∩ p.2⟩ : Concept α β) ∈
                cs.map (nupd p) ++ cs.filterMap (nnew P p) := by
              rw [List.mem_append, List.mem_filterMap]; exact .inr ⟨c, hc, e1⟩
            exact hstep.ext _ this
        | succ n =>
          simp only [List.getElem?_cons_succ] at hL
          obtain ⟨h1, h2⟩ := ih2 n L hL
          exact ⟨by rw [h1]; simp; omega, h2⟩
      · have e1 : nnew P p c = none := by simp [nnew, hsub, hnew]
        simp only [if_neg hnew, e1]
        exact ih _ _ ⟨pre ++ [c], hcs', by rw [hdn, List.map_append, List.map_singleton, e2],
          by rw [hnews, List.filterMap_append]; simp [e1]⟩

/-- Intents are never changed and never removed. -/
theorem norrisLoop_prefix (seen rest : List (α × Finset β)) (cs : List (Concept α β)) :
    cs.map Concept.intent <+: (norrisLoop seen rest cs).2.map Concept.intent := by
  induction rest generalizing seen cs with
  | nil => simp [norrisLoop]
  | cons p rest ih =>
    simp only [norrisLoop]
    refine List.IsPrefix.trans ?_ (ih _ _)
    rw [norrisInner_snd]
    have e3 : (Concept.intent ∘ nupd p : Concept α β → Finset β) = Concept.intent :=
      funext fun c => nupd_intent p c
    simp [e3]

/-- All yields of the loop over the objects. -/
theorem norrisLoop_trace {M : Finset β} (seen rest : List (α × Finset β)) (cs : List (Concept α β))
    (h : NInv M seen cs) (hn : ((seen ++ rest).map Prod.fst).Nodup) :
    (norrisLoop seen rest cs).2.length = cs.length + (norrisLoop seen rest cs).1.length ∧
    ∀ n (L : List (Concept α β)), (norrisLoop seen rest cs).1[n]? = some L →
      L.length = cs.length + n + 1 ∧
      L.map Concept.intent <+: (norrisLoop seen rest cs).2.map Concept.intent ∧
      ∃ P p Q, seen ++ rest = P ++ p :: Q ∧ Held P p L ∧
        ∃ pre x, L = pre ++ [x] ∧ x.extent = nex (P ++ [p]) x.intent := by
  induction rest generalizing seen cs with
  | nil => simp [norrisLoop]
  | cons p rest ih =>
    have hs : (seen.map Prod.fst).Nodup := by
      rw [List.map_append] at hn; exact (List.nodup_append.1 hn).1
    have e : seen ++ p :: rest = (seen ++ [p]) ++ rest := by simp
    have hsnd := norrisInner_snd seen p [] cs []
    simp only [List.nil_append] at hsnd
    have hinv : NInv M (seen ++ [p]) (norrisInner seen p [] cs []).2 := by
      rw [hsnd]; exact h.step hs p
    obtain ⟨t1, t2⟩ := norrisInner_trace h hs p [] cs [] ⟨[], by simp, by simp, by simp⟩
    obtain ⟨i1, i2⟩ := ih (seen ++ [p]) _ hinv (by rw [← e]; exact hn)
    have hlen : (norrisInner seen p [] cs []).2.length = cs.length + (norrisInner seen p [] cs []).1.length := by
      rw [hsnd, t1]; simp
    simp only [norrisLoop]
    refine ⟨by rw [i1, hlen, List.length_append]; omega, ?_⟩
    intro n L hL
    by_cases hlt : n < (norrisInner seen p [] cs []).1.length
    · rw [List.getElem?_append_left hlt] at hL
      obtain ⟨h1, h2, h3, h4⟩ := t2 n L hL
      refine ⟨by simpa using h1, ?_, seen, p, rest, rfl, h3, h4⟩
      rw [← hsnd] at h2
      exact h2.trans (norrisLoop_prefix _ _ _)
    · rw [List.getElem?_append_right (by omega)] at hL
      obtain ⟨h1, h2, h3⟩ := i2 _ L hL
      refine ⟨by rw [h1, hlen]; omega, h2, ?_⟩
      rw [e]; exact h3
