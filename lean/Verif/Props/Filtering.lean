/-
Property C149: the table of index functions, on lattices and on what filtering returns.
-/
import Verif.Model.Filtering
import Verif.Props.Stability
import Verif.Props.StabilitySum
import Verif.Props.Probability

set_option linter.unusedSectionVars false

variable {α β : Type} [DecidableEq α] [DecidableEq β]

open Spec

/-! ### Dicts -/

theorem itemsDict_mem {γ δ : Type} [DecidableEq γ] {items : List (γ × δ)} {x : γ} (hx : x ∈ items.map Prod.fst) :
    ∃ q, itemsDict items x = some q ∧ (x, q) ∈ items := by
  obtain ⟨⟨y, q⟩, h1, h2⟩ := List.mem_map.1 hx
  have h2 : y = x := h2
  subst h2
  cases hf : items.reverse.find? fun it => decide (it.1 = y) with
  | none =>
    rw [List.find?_eq_none] at hf
    exact absurd (by simp) (hf (y, q) (List.mem_reverse.2 h1))
  | some p =>
    have h3 := List.find?_some hf
    have h4 := List.mem_of_find?_eq_some hf
    obtain ⟨z, r⟩ := p
    have : z = y := by simpa using h3
    subst this
    exact ⟨r, by unfold itemsDict; rw [hf]; rfl, List.mem_reverse.1 h4⟩

theorem itemsDict_notMem {γ δ : Type} [DecidableEq γ] {items : List (γ × δ)} {x : γ} (hx : x ∉ items.map Prod.fst) :
    itemsDict items x = none := by
  unfold itemsDict
  rw [List.find?_eq_none.2, Option.map_none]
  intro p hp hd
  refine hx (List.mem_map.2 ⟨p, List.mem_reverse.1 hp, by simpa using hd⟩)

/-- A dict on exactly the concepts `cs`, with values in [0, 1]. -/
def IsIndex (cs : List (Concept α β)) (d : Concept α β → Option ℝ) : Prop :=
  (∀ x ∈ cs, ∃ q, d x = some q ∧ 0 ≤ q ∧ q ≤ 1) ∧ ∀ x, x ∉ cs → d x = none

theorem isIndex_real {cs : List (Concept α β)} {items : List (Concept α β × ℝ)} (hk : items.map Prod.fst = cs)
    (hb : ∀ x q, (x, q) ∈ items → 0 ≤ q ∧ q ≤ 1) : IsIndex cs (itemsDict items) := by
  subst hk
  refine ⟨fun x hx => ?_, fun x hx => itemsDict_notMem hx⟩
  obtain ⟨q, h1, h2⟩ := itemsDict_mem hx
  exact ⟨q, h1, hb x q h2⟩

theorem isIndex_rat {cs : List (Concept α β)} {items : List (Concept α β × ℚ)} (hk : items.map Prod.fst = cs)
    (hb : ∀ x q, (x, q) ∈ items → 0 ≤ q ∧ q ≤ 1) : IsIndex cs (castDict (itemsDict items)) := by
  subst hk
  refine ⟨fun x hx => ?_, fun x hx => by unfold castDict; rw [itemsDict_notMem hx]; rfl⟩
  obtain ⟨q, h1, h2⟩ := itemsDict_mem hx
  obtain ⟨h3, h4⟩ := hb x q h2
  exact ⟨q, by unfold castDict; rw [h1]; rfl, by exact_mod_cast h3, by exact_mod_cast h4⟩

theorem isIndex_fun {cs : List (Concept α β)} {st : Concept α β → Option ℚ} {v : Concept α β → ℚ}
    (h1 : ∀ x ∈ cs, st x = some (v x)) (h2 : ∀ x, x ∉ cs → st x = none) (hb : ∀ x ∈ cs, 0 ≤ v x ∧ v x ≤ 1) :
    IsIndex cs (castDict st) := by
  refine ⟨fun x hx => ⟨v x, by unfold castDict; rw [h1 x hx]; rfl, ?_, ?_⟩, fun x hx => by
    unfold castDict; rw [h2 x hx]; rfl⟩
  · exact_mod_cast (hb x hx).1
  · exact_mod_cast (hb x hx).2

/-! ### On lattices -/

/-- Every function of the table gives every concept of a lattice, and nothing else, a number in [0, 1]; the six names are
different and every function is there once. -/
theorem C149_indices {c : Ctx α β} (h : c.WFw) (ho : c.objects ≠ []) (ha : c.attributes ≠ []) (E : IndexEnv α β) :
    (computeFunctions.map Prod.fst).Nodup ∧ (computeFunctions.map Prod.snd).Nodup ∧
    (∀ f : IndexFn, ∃ name, (name, f) ∈ computeFunctions) ∧
    ∃ L, makeLattice c = .ok L ∧ ∀ f : IndexFn, ∃ d, f.run E (.lattice L) = some (.ok d) ∧ IsIndex L.concepts d := by
  refine ⟨by decide, by decide, fun f => ?_, ?_⟩
  · cases f
    · exact ⟨_, List.mem_cons_self⟩
    · exact ⟨_, by unfold computeFunctions; exact .tail _ (.head _)⟩
    · exact ⟨_, by unfold computeFunctions; exact .tail _ (.tail _ (.head _))⟩
    · exact ⟨_, by unfold computeFunctions; exact .tail _ (.tail _ (.tail _ (.head _)))⟩
    · exact ⟨_, by unfold computeFunctions; exact .tail _ (.tail _ (.tail _ (.tail _ (.head _))))⟩
    · exact ⟨_, by unfold computeFunctions; exact .tail _ (.tail _ (.tail _ (.tail _ (.tail _ (.head _)))))⟩
  obtain ⟨L, h1, hL, -, -, h3, -⟩ := makeLattice_ok h
  refine ⟨L, h1, fun f => ?_⟩
  cases f with
  | probability =>
    obtain ⟨L', k1, k2⟩ := C90_probability h ho E.ordP E.ordN
    rw [h1] at k1; cases k1
    refine ⟨_, by unfold IndexFn.run; dsimp only; rw [k2]; rfl, isIndex_real ?_ ?_⟩
    · rw [List.map_map]; simp [Function.comp_def]
    · intro x q hq
      obtain ⟨y, -, hy⟩ := List.mem_map.1 hq
      obtain ⟨rfl, rfl⟩ := Prod.mk.inj hy
      exact probClosed_bounds (freq_bounds ho) c.M c.objects.length y.intent
  | separation =>
    obtain ⟨L', items, k1, k2, k3, k4⟩ := C43_separation_partial h (.inl ho) E.ordO E.ordA
    rw [h1] at k1; cases k1
    refine ⟨_, by unfold IndexFn.run LatArg.context LatArg.concepts; dsimp only; rw [hL, py_ok_bind, k2]; rfl,
      isIndex_rat k3 fun x q hq => ?_⟩
    obtain ⟨-, k5, k6⟩ := k4 x q hq
    exact ⟨k5.le, k6⟩
  | istability =>
    obtain ⟨L', st, k1, k2, k3, k4⟩ := C41_istability h E.ordC
    rw [h1] at k1; cases k1
    refine ⟨_, by unfold IndexFn.run LatArg.concepts; dsimp only; rw [k2]; rfl, isIndex_fun k3 k4 fun x hx => ?_⟩
    have := rat_bounds (generatingSubsets_pos ((h3 x).1 hx)) generatingSubsets_le
    exact ⟨this.1.le, this.2.1⟩
  | estability =>
    obtain ⟨L', st, k1, k2, k3, k4⟩ := C42_estability h E.ordC
    rw [h1] at k1; cases k1
    refine ⟨_, by unfold IndexFn.run LatArg.concepts; dsimp only; rw [k2]; rfl, isIndex_fun k3 k4 fun x hx => ?_⟩
    have := rat_bounds (generatingSubsets_pos (isConcept_swap.1 ((h3 x).1 hx))) generatingSubsets_le
    exact ⟨this.1.le, this.2.1⟩
  | extentSize =>
    obtain ⟨L', k1, -, -, k2, -⟩ := C44_sizes h
    rw [h1] at k1; cases k1
    obtain ⟨items, k3, k4, k5, -⟩ := k2 ho
    exact ⟨_, by unfold IndexFn.run LatArg.context LatArg.concepts; dsimp only; rw [hL, py_ok_bind, k3]; rfl,
      isIndex_rat k4 fun x q hq => (k5 x q hq).2⟩
  | intentSize =>
    obtain ⟨L', k1, -, -, -, k2⟩ := C44_sizes h
    rw [h1] at k1; cases k1
    obtain ⟨items, k3, k4, k5, -⟩ := k2 ha
    exact ⟨_, by unfold IndexFn.run LatArg.context LatArg.concepts; dsimp only; rw [hL, py_ok_bind, k3]; rfl,
      isIndex_rat k4 fun x q hq => (k5 x q hq).2⟩

/-- What the names promise. -/
noncomputable def indexValue (c : Ctx α β) (x : Concept α β) : String → Option ℝ
  | "Probability index" => some (probClosed c.freq c.M c.objects.length x.intent)
  | "Separation index" => some ((if x.extent = ∅ ∨ x.intent = ∅ then 1 else
      ((x.extent.card * x.intent.card : ℕ) : ℚ) / crossesTouching c.G c.M c.Inc x.extent x.intent : ℚ) : ℝ)
  | "Intensional stability" => some ((intensionalStability c.M c.Inc x.extent x.intent : ℚ) : ℝ)
  | "Extensional stability" => some ((extensionalStability c.G c.Inc x.extent x.intent : ℚ) : ℝ)
  | "Extent size" => some (((x.extent.card : ℚ) / c.G.card : ℚ) : ℝ)
  | "Intent size" => some (((x.intent.card : ℚ) / c.M.card : ℚ) : ℝ)
  | _ => none

/-- The function under each name computes what the name says. -/
theorem C149_values {c : Ctx α β} (h : c.WFw) (ho : c.objects ≠ []) (ha : c.attributes ≠ []) (E : IndexEnv α β) :
    ∃ L, makeLattice c = .ok L ∧ ∀ name f, (name, f) ∈ computeFunctions → ∃ d, f.run E (.lattice L) = some (.ok d) ∧
      ∀ x ∈ L.concepts, (d x).isSome ∧ d x = indexValue c x name := by
  obtain ⟨L, h1, hL, -, -, h3, -⟩ := makeLattice_ok h
  refine ⟨L, h1, fun name f hf => ?_⟩
  unfold computeFunctions at hf
  simp only [List.mem_cons, Prod.mk.injEq, List.not_mem_nil, or_false] at hf
  rcases hf with ⟨rfl, rfl⟩ | ⟨rfl, rfl⟩ | ⟨rfl, rfl⟩ | ⟨rfl, rfl⟩ | ⟨rfl, rfl⟩ | ⟨rfl, rfl⟩
  · obtain ⟨L', k1, k2⟩ := C90_probability h ho E.ordP E.ordN
    rw [h1] at k1; cases k1
    refine ⟨_, by unfold IndexFn.run; dsimp only; rw [k2]; rfl, fun x hx => ?_⟩
    obtain ⟨q, e1, e2⟩ := itemsDict_mem (items := L.concepts.map fun x => (x, probClosed c.freq c.M c.objects.length x.intent))
      (x := x) (by rw [List.map_map]; simpa [Function.comp_def] using hx)
    obtain ⟨y, -, hy⟩ := List.mem_map.1 e2
    obtain ⟨rfl, rfl⟩ := Prod.mk.inj hy
    rw [e1]
    exact ⟨rfl, rfl⟩
  · obtain ⟨L', items, k1, k2, k3, k4⟩ := C43_separation_partial h (.inl ho) E.ordO E.ordA
    rw [h1] at k1; cases k1
    refine ⟨_, by unfold IndexFn.run LatArg.context LatArg.concepts; dsimp only; rw [hL, py_ok_bind, k2]; rfl,
      fun x hx => ?_⟩
    obtain ⟨q, e1, e2⟩ := itemsDict_mem (x := x) (by rw [k3]; exact hx)
    unfold castDict
    rw [e1, (k4 x q e2).1]
    exact ⟨rfl, rfl⟩
  · obtain ⟨L', st, k1, k2, k3, k4⟩ := C41_istability h E.ordC
    rw [h1] at k1; cases k1
    refine ⟨_, by unfold IndexFn.run LatArg.concepts; dsimp only; rw [k2]; rfl, fun x hx => ?_⟩
    unfold castDict
    rw [k3 x hx]
    exact ⟨rfl, rfl⟩
  · obtain ⟨L', st, k1, k2, k3, k4⟩ := C42_estability h E.ordC
    rw [h1] at k1; cases k1
    refine ⟨_, by unfold IndexFn.run LatArg.concepts; dsimp only; rw [k2]; rfl, fun x hx => ?_⟩
    unfold castDict
    rw [k3 x hx]
    exact ⟨rfl, rfl⟩
  · obtain ⟨L', k1, -, -, k2, -⟩ := C44_sizes h
    rw [h1] at k1; cases k1
    obtain ⟨items, k3, k4, k5, -⟩ := k2 ho
    refine ⟨_, by unfold IndexFn.run LatArg.context LatArg.concepts; dsimp only; rw [hL, py_ok_bind, k3]; rfl,
      fun x hx => ?_⟩
    obtain ⟨q, e1, e2⟩ := itemsDict_mem (x := x) (by rw [k4]; exact hx)
    unfold castDict
    rw [e1, (k5 x q e2).1]
    exact ⟨rfl, rfl⟩
  · obtain ⟨L', k1, -, -, -, k2⟩ := C44_sizes h
    rw [h1] at k1; cases k1
    obtain ⟨items, k3, k4, k5, -⟩ := k2 ha
    refine ⟨_, by unfold IndexFn.run LatArg.context LatArg.concepts; dsimp only; rw [hL, py_ok_bind, k3]; rfl,
      fun x hx => ?_⟩
    obtain ⟨q, e1, e2⟩ := itemsDict_mem (x := x) (by rw [k4]; exact hx)
    unfold castDict
    rw [e1, (k5 x q e2).1]
    exact ⟨rfl, rfl⟩

/-- Filtering by value: a threshold of at most 0 keeps all concepts, one above 1 keeps none, and a larger threshold keeps
fewer. `items` are the items of the dict in any order. -/
theorem C149_threshold {cs : List (Concept α β)} {d : Concept α β → Option ℝ} (hd : IsIndex cs d)
    {items : List (Concept α β × ℝ)} (hi : ∀ x q, (x, q) ∈ items ↔ d x = some q) (v : ℝ) :
    (∀ x, x ∈ filterValue items v ↔ x ∈ cs ∧ ∃ q, d x = some q ∧ v ≤ q) ∧
    (v ≤ 0 → ∀ x, x ∈ filterValue items v ↔ x ∈ cs) ∧ (1 < v → filterValue items v = []) ∧
    ∀ w, v ≤ w → (filterValue items w).Sublist (filterValue items v) := by
  have hmem : ∀ x, x ∈ filterValue items v ↔ x ∈ cs ∧ ∃ q, d x = some q ∧ v ≤ q := by
    intro x
    unfold filterValue
    simp only [List.mem_map, List.mem_filter, decide_eq_true_eq]
    constructor
    · rintro ⟨⟨y, q⟩, ⟨h1, h2⟩, rfl⟩
      have h3 := (hi y q).1 h1
      refine ⟨?_, q, h3, h2⟩
      by_contra hy
      rw [hd.2 y hy] at h3
      cases h3
    · rintro ⟨-, q, h1, h2⟩
      exact ⟨(x, q), ⟨(hi x q).2 h1, h2⟩, rfl⟩
  refine ⟨hmem, fun hv x => ?_, fun hv => ?_, fun w hvw => ?_⟩
  · rw [hmem]
    refine ⟨fun h => h.1, fun h => ⟨h, ?_⟩⟩
    obtain ⟨q, h1, h2, -⟩ := hd.1 x h
    exact ⟨q, h1, hv.trans h2⟩
  · refine List.eq_nil_iff_forall_not_mem.2 fun x hx => ?_
    obtain ⟨h1, q, h2, h3⟩ := (hmem x).1 hx
    obtain ⟨q', h4, -, h5⟩ := hd.1 x h1
    rw [h2] at h4
    cases h4
    linarith
  · refine List.Sublist.map _ ?_
    refine List.monotone_filter_right _ fun it h => ?_
    simp only [decide_eq_true_eq] at h ⊢
    exact hvw.trans h

/-! ### On systems: the loop of stability.py -/

/-- The numbers that the loop computes, by recursion from below. -/
def subsetsRec (cs : List (Concept α β)) (below : Concept α β → Concept α β → Bool) (size : Concept α β → ℕ) :
    ℕ → Concept α β → ℤ
  | 0, _ => 0
  | k + 1, c => 2 ^ size c - ∑ d ∈ cs.toFinset.filter (fun d => below d c = true), subsetsRec cs below size k d

theorem subsetsRec_stable {cs : List (Concept α β)} {below : Concept α β → Concept α β → Bool} {size : Concept α β → ℕ}
    (hirr : ∀ c ∈ cs, below c c = false)
    (htr : ∀ a ∈ cs, ∀ b ∈ cs, ∀ c ∈ cs, below a b = true → below b c = true → below a c = true) :
    ∀ (n : ℕ) (c : Concept α β), c ∈ cs → (cs.toFinset.filter fun d => below d c = true).card ≤ n →
      ∀ k k', n < k → n < k' → subsetsRec cs below size k c = subsetsRec cs below size k' c := by
  intro n
  induction n using Nat.strong_induction_on with
  | _ n ih =>
    intro c hc hn k k' hk hk'
    obtain ⟨k, rfl⟩ := Nat.exists_eq_succ_of_ne_zero (show k ≠ 0 by omega)
    obtain ⟨k', rfl⟩ := Nat.exists_eq_succ_of_ne_zero (show k' ≠ 0 by omega)
    unfold subsetsRec
    congr 1
    refine Finset.sum_congr rfl fun d hd => ?_
    rw [Finset.mem_filter, List.mem_toFinset] at hd
    have hlt : (cs.toFinset.filter fun e => below e d = true).card <
        (cs.toFinset.filter fun e => below e c = true).card := by
      refine Finset.card_lt_card ?_
      rw [Finset.ssubset_iff_of_subset]
      · refine ⟨d, by simp [hd.1, hd.2], ?_⟩
        simp [hirr d hd.1]
      · intro x hx
        rw [Finset.mem_filter, List.mem_toFinset] at hx ⊢
        exact ⟨hx.1, htr x hx.1 d hd.1 c hc hx.2 hd.2⟩
    exact ih _ (by omega) d hd.1 (le_refl _) k k' (by omega) (by omega)

/-- What the loop computes for a set of concepts with an order. -/
def subsetsOf (cs : List (Concept α β)) (below : Concept α β → Concept α β → Bool) (size : Concept α β → ℕ)
    (c : Concept α β) : ℤ := subsetsRec cs below size (cs.length + 1) c

theorem subsetsOf_sum {cs : List (Concept α β)} {below : Concept α β → Concept α β → Bool} {size : Concept α β → ℕ}
    (hirr : ∀ c ∈ cs, below c c = false)
    (htr : ∀ a ∈ cs, ∀ b ∈ cs, ∀ c ∈ cs, below a b = true → below b c = true → below a c = true) (c : Concept α β) :
    (2 : ℤ) ^ size c = subsetsOf cs below size c +
      ∑ d ∈ cs.toFinset.filter (fun d => below d c = true), subsetsOf cs below size d := by
  have : ∑ d ∈ cs.toFinset.filter (fun d => below d c = true), subsetsOf cs below size d =
      ∑ d ∈ cs.toFinset.filter (fun d => below d c = true), subsetsRec cs below size cs.length d := by
    refine Finset.sum_congr rfl fun d hd => ?_
    rw [Finset.mem_filter, List.mem_toFinset] at hd
    have hlt : (cs.toFinset.filter fun e => below e d = true).card < cs.length := by
      refine lt_of_lt_of_le (Finset.card_lt_card ?_) (List.toFinset_card_le cs)
      rw [Finset.ssubset_iff_of_subset (Finset.filter_subset _ _)]
      exact ⟨d, by simp [hd.1], by simp [hirr d hd.1]⟩
    exact subsetsRec_stable hirr htr _ d hd.1 (le_refl _) _ _ (by omega) (by omega)
  have e : subsetsOf cs below size c = 2 ^ size c -
      ∑ d ∈ cs.toFinset.filter (fun d => below d c = true), subsetsRec cs below size cs.length d := rfl
  rw [this, e]
  ring

/-- With a second minimal element the loop ends with KeyError. -/
theorem stabLoop_keyError {below : Concept α β → Concept α β → Bool} {size : Concept α β → ℕ}
    (ord : ℕ → SetOrder (Concept α β)) (m : Concept α β) (fuel : ℕ) :
    ∀ {rem : List (Concept α β)} {cnt sub : Concept α β → ℤ} {work : Finset (Concept α β)}
      {stab : Concept α β → Option ℚ}, rem.Nodup → m ∈ rem → (∀ d ∈ rem, below d m = false) → m ∉ work →
      (∀ x ∈ work, x ∈ rem) → rem.length < fuel →
      stabLoop below size ord fuel rem cnt sub work stab = some (.error .keyError) := by
  induction fuel with
  | zero => intros; omega
  | succ fuel ih =>
    intro rem cnt sub work stab hn hm hmin hmw hw hf
    unfold stabLoop
    rw [if_neg (List.ne_nil_of_mem hm)]
    cases hen : (ord fuel).enum work with
    | nil => rfl
    | cons b bs =>
      have hb : b ∈ work := by rw [← (ord fuel).mem, hen]; simp
      have hbr := hw b hb
      have hne : m ≠ b := fun e => hmw (e ▸ hb)
      have hbe : b ∉ rem.erase b := hn.not_mem_erase
      obtain ⟨-, -, r3⟩ := stabRelax_eq below b (rem.erase b) (hn.erase b) hbe cnt sub (work.erase b)
      simp only [if_pos hbr]
      refine ih (hn.erase b) (hn.mem_erase_iff.2 ⟨hne, hm⟩) (fun d hd => hmin d (List.mem_of_mem_erase hd)) ?_ ?_ ?_
      · rw [r3]
        rintro (h1 | ⟨-, h1, -⟩)
        · exact hmw (Finset.mem_of_mem_erase h1)
        · rw [hmin b hbr] at h1
          cases h1
      · intro x hx
        rw [r3] at hx
        rcases hx with h1 | ⟨h1, -⟩
        · rw [Finset.mem_erase] at h1
          exact hn.mem_erase_iff.2 ⟨h1.1, hw x h1.2⟩
        · exact h1
      · rw [List.length_erase_of_mem hbr]
        have := List.length_pos_of_mem hbr
        omega

theorem pyGet_zero {γ : Type} {l : List γ} {x : γ} (h : pyGet l 0 = .ok x) : x ∈ l := by
  cases l with
  | nil => cases h
  | cons a l => cases h; exact List.mem_cons_self

/-- The first minimal element of a list. -/
theorem first_minimal {cs : List (Concept α β)} {lt : Concept α β → Concept α β → Bool} (hne : cs ≠ [])
    (hirr : ∀ c ∈ cs, lt c c = false)
    (htr : ∀ a ∈ cs, ∀ b ∈ cs, ∀ c ∈ cs, lt a b = true → lt b c = true → lt a c = true) :
    ∃ b ∈ cs, ∀ d ∈ cs, lt d b = false := by
  have hP : ∀ n, ∀ c ∈ cs, (cs.toFinset.filter fun d => lt d c = true).card ≤ n →
      ∃ b ∈ cs, ∀ d ∈ cs, lt d b = false := by
    intro n
    induction n with
    | zero =>
      intro c hc hl
      refine ⟨c, hc, fun d hd => ?_⟩
      have hz := Finset.card_eq_zero.1 (Nat.le_zero.1 hl)
      by_contra hcd
      have : d ∈ cs.toFinset.filter fun d => lt d c = true := by simp [hd, Bool.eq_true_of_not_eq_false hcd]
      rw [hz] at this
      simp at this
    | succ n ihn =>
      intro c hc hl
      by_cases hall : ∀ d ∈ cs, lt d c = false
      · exact ⟨c, hc, hall⟩
      · push Not at hall
        obtain ⟨d, hd, hdc⟩ := hall
        have hdc : lt d c = true := by simpa using hdc
        refine ihn d hd ?_
        have : (cs.toFinset.filter fun e => lt e d = true).card < (cs.toFinset.filter fun e => lt e c = true).card := by
          refine Finset.card_lt_card ?_
          rw [Finset.ssubset_iff_of_subset]
          · exact ⟨d, by simp [hd, hdc], by simp [hirr d hd]⟩
          · intro x hx
            rw [Finset.mem_filter, List.mem_toFinset] at hx ⊢
            exact ⟨hx.1, htr x hx.1 d hd c hc hx.2 hdc⟩
        omega
  obtain ⟨c, hc⟩ := List.exists_mem_of_ne_nil cs hne
  exact hP _ c hc (le_refl _)

/-- The loop started as in stability.py, on a list of different elements with a strict order: values if there is a least
element, KeyError if not. -/
theorem stab_general {cs : List (Concept α β)} {below : Concept α β → Concept α β → Bool} {size : Concept α β → ℕ}
    (hn : cs.Nodup) (hirr : ∀ c ∈ cs, below c c = false)
    (htr : ∀ a ∈ cs, ∀ b ∈ cs, ∀ c ∈ cs, below a b = true → below b c = true → below a c = true)
    (ord : ℕ → SetOrder (Concept α β)) (cnt : Concept α β → ℤ)
    (hcnt : ∀ c ∈ cs, cnt c = ((cs.filter fun d => below d c).length : ℤ)) {b : Concept α β} (hb : b ∈ cs)
    (hbm : ∀ d ∈ cs, below d b = false) :
    ((∀ c ∈ cs, c ≠ b → below b c = true) → ∀ N : Concept α β → ℤ,
      (∀ c ∈ cs, (2 : ℤ) ^ size c = N c + ∑ d ∈ cs.toFinset.filter (fun d => below d c = true), N d) →
      ∃ st, stabLoop below size ord (cs.length + 1) cs cnt (fun c => ((2 ^ size c : ℕ) : ℤ)) {b} (fun _ => none) =
        some (.ok st) ∧ ∀ c, st c = if c ∈ cs then some ((N c : ℚ) / 2 ^ size c) else none) ∧
    (¬ (∀ c ∈ cs, c ≠ b → below b c = true) →
      stabLoop below size ord (cs.length + 1) cs cnt (fun c => ((2 ^ size c : ℕ) : ℤ)) {b} (fun _ => none) =
        some (.error .keyError)) := by
  constructor
  · intro hbu N hN
    have I := stabInv_init (size := size) (N := N) cnt hcnt b hb hbm hbu
    obtain ⟨st, e1, e2⟩ := stabLoop_ok ⟨hn, hirr, htr, hN⟩ ord (cs.length + 1) I (by omega)
    exact ⟨st, by simpa using e1, e2⟩
  · intro hbu
    push Not at hbu
    obtain ⟨c, hc, hcb, hbc⟩ := hbu
    -- a minimal element among those below or equal to `c`
    have hsub : ∀ x, x ∈ cs.filter (fun x => decide (x = c) || below x c) → x ∈ cs := fun x hx => (List.mem_filter.1 hx).1
    obtain ⟨m, hm, hmm⟩ := first_minimal (cs := cs.filter fun x => decide (x = c) || below x c) (lt := below)
      (List.ne_nil_of_mem (List.mem_filter.2 ⟨hc, by simp⟩)) (fun x hx => hirr x (hsub x hx))
      (fun x hx y hy z hz => htr x (hsub x hx) y (hsub y hy) z (hsub z hz))
    obtain ⟨hmc, hmle⟩ := List.mem_filter.1 hm
    have hmle : m = c ∨ below m c = true := by simpa using hmle
    have hmin : ∀ d ∈ cs, below d m = false := by
      intro d hd
      by_contra hdm
      have hdm : below d m = true := by simpa using hdm
      have hdc : below d c = true := by
        rcases hmle with rfl | h
        · exact hdm
        · exact htr d hd m hmc c hc hdm h
      have := hmm d (List.mem_filter.2 ⟨hd, by simp [hdc]⟩)
      rw [hdm] at this
      cases this
    have hmb : m ≠ b := by
      rintro rfl
      rcases hmle with h | h
      · exact hcb h.symm
      · exact hbc h
    refine stabLoop_keyError ord m (cs.length + 1) hn hmc hmin ?_ ?_ (by omega)
    · simpa using hmb
    · intro x hx
      rw [Finset.mem_singleton.1 hx]
      exact hb

/-! ### On systems: the two stabilities -/

/-- The loop for the intensional stability on concepts of one context. -/
theorem istability_general {c : Ctx α β} (h : c.WFw) {cs : List (Concept α β)} (hn : cs.Nodup) (hne : cs ≠ [])
    (hc : ∀ x ∈ cs, IsConcept c.G c.M c.Inc x.extent x.intent) (ord : ℕ → SetOrder (Concept α β)) :
    ((∃ b ∈ cs, ∀ x ∈ cs, b.extent ⊆ x.extent) → ∀ N : Concept α β → ℤ,
      (∀ x ∈ cs, (2 : ℤ) ^ x.extent.card = N x + ∑ d ∈ cs.toFinset.filter (fun d => d.extent ⊂ x.extent), N d) →
      ∃ st, istability ord cs = some (.ok st) ∧
        ∀ x, st x = if x ∈ cs then some ((N x : ℚ) / 2 ^ x.extent.card) else none) ∧
    ((¬ ∃ b ∈ cs, ∀ x ∈ cs, b.extent ⊆ x.extent) → istability ord cs = some (.error .keyError)) := by
  obtain ⟨L, -, -, -, -, h3, -⟩ := makeLattice_ok h
  have hm : ∀ x ∈ cs, x ∈ L.concepts := fun x hx => (h3 x).2 (hc x hx)
  have hss : ∀ x ∈ cs, ∀ y ∈ cs, x.extent ⊂ y.extent ↔ y.intent ⊂ x.intent := fun x hx y hy =>
    lat_anti_ss h3 x (hm x hx) y (hm y hy)
  have hirr : ∀ x ∈ cs, (fun b c : Concept α β => decide (c.intent ⊂ b.intent)) x x = false := fun x _ => by simp
  have htr : ∀ x ∈ cs, ∀ y ∈ cs, ∀ z ∈ cs, (fun b c : Concept α β => decide (c.intent ⊂ b.intent)) x y = true →
      (fun b c : Concept α β => decide (c.intent ⊂ b.intent)) y z = true →
      (fun b c : Concept α β => decide (c.intent ⊂ b.intent)) x z = true := by
    intro x _ y _ z _ hxy hyz
    simp only [decide_eq_true_eq] at *
    exact hyz.trans hxy
  obtain ⟨b₀, hb0, hb0m⟩ := first_minimal hne hirr htr
  have hbot : ∃ b, csBottom cs = .ok b := by
    unfold csBottom
    have : b₀ ∈ cs.filter fun c => (csIdeal cs c).isEmpty := by
      rw [List.mem_filter]
      refine ⟨hb0, ?_⟩
      rw [List.isEmpty_iff]
      unfold csIdeal
      rw [List.filter_eq_nil_iff]
      intro d hd hs
      have := hb0m d hd
      rw [hs] at this
      cases this
    obtain ⟨a, l, hal⟩ := List.exists_cons_of_ne_nil (List.ne_nil_of_mem this)
    rw [hal]
    exact ⟨a, rfl⟩
  obtain ⟨b, hb⟩ := hbot
  have hbm := pyGet_zero hb
  rw [List.mem_filter, List.isEmpty_iff] at hbm
  obtain ⟨hbcs, hbid⟩ := hbm
  unfold csIdeal at hbid
  rw [List.filter_eq_nil_iff] at hbid
  have hbmin : ∀ d ∈ cs, decide (b.intent ⊂ d.intent) = false := fun d hd => Bool.eq_false_iff.2 (hbid d hd)
  obtain ⟨g1, g2⟩ := stab_general (size := fun x => x.extent.card) hn hirr htr ord
    (fun x => ((cs.filter fun d => decide (d.extent ⊂ x.extent)).length : ℤ)) (by
      intro x hx
      congr 2
      apply List.filter_congr
      intro d hd
      exact decide_eq_decide.2 (hss d hd x hx)) hbcs hbmin
  have hleast : (∀ x ∈ cs, x ≠ b → decide (x.intent ⊂ b.intent) = true) ↔ ∃ b ∈ cs, ∀ x ∈ cs, b.extent ⊆ x.extent := by
    constructor
    · intro hall
      refine ⟨b, hbcs, fun x hx => ?_⟩
      by_cases hxb : x = b
      · rw [hxb]
      · exact ((hss b hbcs x hx).2 (by simpa using hall x hx hxb)).subset
    · rintro ⟨b', hb', hl⟩ x hx hxb
      have hbb : b' = b := by
        by_contra hbb
        have hs : b'.extent ⊂ b.extent := Finset.ssubset_iff_subset_ne.2 ⟨hl b hbcs, fun e =>
          hbb (lat_eq_ext h3 b' (hm b' hb') b (hm b hbcs) e)⟩
        have := hbmin b' hb'
        simp only [decide_eq_false_iff_not] at this
        exact this ((hss b' hb' b hbcs).1 hs)
      subst hbb
      rw [decide_eq_true_eq, ← hss b' hbcs x hx]
      exact Finset.ssubset_iff_subset_ne.2 ⟨hl x hx, fun e => hxb (lat_eq_ext h3 b' (hm b' hb') x (hm x hx) e).symm⟩
  have hun : istability ord cs = stabLoop (fun b c => decide (c.intent ⊂ b.intent)) (fun c => c.extent.card) ord
      (cs.length + 1) cs (fun x => ((cs.filter fun d => decide (d.extent ⊂ x.extent)).length : ℤ))
      (fun c => ((2 ^ c.extent.card : ℕ) : ℤ)) {b} (fun _ => none) := by
    unfold istability
    rw [hb]
  rw [hun]
  refine ⟨fun hl N hN => g1 (hleast.2 hl) N fun x hx => ?_, fun hl => g2 fun hh => hl (hleast.1 hh)⟩
  rw [hN x hx]
  congr 1
  refine Finset.sum_congr (Finset.filter_congr fun d hd => ?_) fun _ _ => rfl
  rw [decide_eq_true_eq]
  exact hss d (List.mem_toFinset.1 hd) x hx

/-- The loop for the extensional stability on concepts of one context. -/
theorem estability_general {c : Ctx α β} (h : c.WFw) {cs : List (Concept α β)} (hn : cs.Nodup) (hne : cs ≠ [])
    (hc : ∀ x ∈ cs, IsConcept c.G c.M c.Inc x.extent x.intent) (ord : ℕ → SetOrder (Concept α β)) :
    ((∃ t ∈ cs, ∀ x ∈ cs, t.intent ⊆ x.intent) → ∀ N : Concept α β → ℤ,
      (∀ x ∈ cs, (2 : ℤ) ^ x.intent.card = N x + ∑ d ∈ cs.toFinset.filter (fun d => d.intent ⊂ x.intent), N d) →
      ∃ st, estability ord cs = some (.ok st) ∧
        ∀ x, st x = if x ∈ cs then some ((N x : ℚ) / 2 ^ x.intent.card) else none) ∧
    ((¬ ∃ t ∈ cs, ∀ x ∈ cs, t.intent ⊆ x.intent) → estability ord cs = some (.error .keyError)) := by
  obtain ⟨L, -, -, -, -, h3, -⟩ := makeLattice_ok h
  have hm : ∀ x ∈ cs, x ∈ L.concepts := fun x hx => (h3 x).2 (hc x hx)
  have hirr : ∀ x ∈ cs, (fun b c : Concept α β => decide (b.intent ⊂ c.intent)) x x = false := fun x _ => by simp
  have htr : ∀ x ∈ cs, ∀ y ∈ cs, ∀ z ∈ cs, (fun b c : Concept α β => decide (b.intent ⊂ c.intent)) x y = true →
      (fun b c : Concept α β => decide (b.intent ⊂ c.intent)) y z = true →
      (fun b c : Concept α β => decide (b.intent ⊂ c.intent)) x z = true := by
    intro x _ y _ z _ hxy hyz
    simp only [decide_eq_true_eq] at *
    exact hxy.trans hyz
  obtain ⟨b₀, hb0, hb0m⟩ := first_minimal hne hirr htr
  have hbot : ∃ b, csTop cs = .ok b := by
    unfold csTop
    have : b₀ ∈ cs.filter fun c => (csFilter cs c).isEmpty := by
      rw [List.mem_filter]
      refine ⟨hb0, ?_⟩
      rw [List.isEmpty_iff]
      unfold csFilter
      rw [List.filter_eq_nil_iff]
      intro d hd hs
      have := hb0m d hd
      rw [hs] at this
      cases this
    obtain ⟨a, l, hal⟩ := List.exists_cons_of_ne_nil (List.ne_nil_of_mem this)
    rw [hal]
    exact ⟨a, rfl⟩
  obtain ⟨b, hb⟩ := hbot
  have hbm := pyGet_zero hb
  rw [List.mem_filter, List.isEmpty_iff] at hbm
  obtain ⟨hbcs, hbid⟩ := hbm
  unfold csFilter at hbid
  rw [List.filter_eq_nil_iff] at hbid
  have hbmin : ∀ d ∈ cs, decide (d.intent ⊂ b.intent) = false := fun d hd => Bool.eq_false_iff.2 (hbid d hd)
  obtain ⟨g1, g2⟩ := stab_general (size := fun x => x.intent.card) hn hirr htr ord
    (fun x => ((cs.filter fun d => decide (d.intent ⊂ x.intent)).length : ℤ)) (fun x _ => rfl) hbcs hbmin
  have hleast : (∀ x ∈ cs, x ≠ b → decide (b.intent ⊂ x.intent) = true) ↔ ∃ b ∈ cs, ∀ x ∈ cs, b.intent ⊆ x.intent := by
    constructor
    · intro hall
      refine ⟨b, hbcs, fun x hx => ?_⟩
      by_cases hxb : x = b
      · rw [hxb]
      · exact Finset.ssubset_iff_subset_ne.1 (by simpa using hall x hx hxb) |>.1
    · rintro ⟨b', hb', hl⟩ x hx hxb
      have hbb : b' = b := by
        by_contra hbb
        have hs : b'.intent ⊂ b.intent := Finset.ssubset_iff_subset_ne.2 ⟨hl b hbcs, fun e =>
          hbb (lat_eq_int h3 b' (hm b' hb') b (hm b hbcs) e)⟩
        have := hbmin b' hb'
        simp only [decide_eq_false_iff_not] at this
        exact this hs
      subst hbb
      rw [decide_eq_true_eq]
      exact Finset.ssubset_iff_subset_ne.2 ⟨hl x hx, fun e => hxb (lat_eq_int h3 b' (hm b' hb') x (hm x hx) e).symm⟩
  have hun : estability ord cs = stabLoop (fun b c => decide (b.intent ⊂ c.intent)) (fun c => c.intent.card) ord
      (cs.length + 1) cs (fun x => ((cs.filter fun d => decide (d.intent ⊂ x.intent)).length : ℤ))
      (fun c => ((2 ^ c.intent.card : ℕ) : ℤ)) {b} (fun _ => none) := by
    unfold estability
    rw [hb]
  rw [hun]
  refine ⟨fun hl N hN => g1 (hleast.2 hl) N fun x hx => ?_, fun hl => g2 fun hh => hl (hleast.1 hh)⟩
  rw [hN x hx]
  simp only [decide_eq_true_eq]

/-- When the stabilities of a concept system are computed: exactly if it has a least (for the intensional one) or a greatest
(for the extensional one) concept. Otherwise KeyError is raised, and IndexError for a system without concepts. -/
theorem C149_again {c : Ctx α β} (h : c.WFw) {cs : List (Concept α β)} (hn : cs.Nodup)
    (hc : ∀ x ∈ cs, IsConcept c.G c.M c.Inc x.extent x.intent) (E : IndexEnv α β) :
    ((∃ b ∈ cs, ∀ x ∈ cs, b.extent ⊆ x.extent) → ∃ d, IndexFn.istability.run E (.system cs) = some (.ok d) ∧
      ∀ x, (d x).isSome ↔ x ∈ cs) ∧
    ((∃ t ∈ cs, ∀ x ∈ cs, t.intent ⊆ x.intent) → ∃ d, IndexFn.estability.run E (.system cs) = some (.ok d) ∧
      ∀ x, (d x).isSome ↔ x ∈ cs) ∧
    (cs ≠ [] → (¬ ∃ b ∈ cs, ∀ x ∈ cs, b.extent ⊆ x.extent) →
      IndexFn.istability.run E (.system cs) = some (.error .keyError)) ∧
    (cs ≠ [] → (¬ ∃ t ∈ cs, ∀ x ∈ cs, t.intent ⊆ x.intent) →
      IndexFn.estability.run E (.system cs) = some (.error .keyError)) ∧
    (cs = [] → IndexFn.istability.run E (.system cs) = some (.error .indexError) ∧
      IndexFn.estability.run E (.system cs) = some (.error .indexError)) := by
  refine ⟨fun hl => ?_, fun hl => ?_, fun hne hl => ?_, fun hne hl => ?_, fun he => ?_⟩
  · obtain ⟨b, hb, -⟩ := id hl
    obtain ⟨st, e1, e2⟩ := (istability_general h hn (List.ne_nil_of_mem hb) hc E.ordC).1 hl
      (subsetsOf cs (fun d x => decide (d.extent ⊂ x.extent)) fun x => x.extent.card) (fun x _ => by
        have := subsetsOf_sum (cs := cs) (below := fun d x => decide (d.extent ⊂ x.extent))
          (size := fun x => x.extent.card) (fun x _ => by simp) (fun x _ y _ z _ hxy hyz => by
            simp only [decide_eq_true_eq] at *
            exact hxy.trans hyz) x
        simpa only [decide_eq_true_eq] using this)
    refine ⟨castDict st, by unfold IndexFn.run LatArg.concepts; dsimp only; rw [e1]; rfl, fun x => ?_⟩
    unfold castDict
    rw [e2 x]
    split <;> simp_all
  · obtain ⟨b, hb, -⟩ := id hl
    obtain ⟨st, e1, e2⟩ := (estability_general h hn (List.ne_nil_of_mem hb) hc E.ordC).1 hl
      (subsetsOf cs (fun d x => decide (d.intent ⊂ x.intent)) fun x => x.intent.card) (fun x _ => by
        have := subsetsOf_sum (cs := cs) (below := fun d x => decide (d.intent ⊂ x.intent))
          (size := fun x => x.intent.card) (fun x _ => by simp) (fun x _ y _ z _ hxy hyz => by
            simp only [decide_eq_true_eq] at *
            exact hxy.trans hyz) x
        simpa only [decide_eq_true_eq] using this)
    refine ⟨castDict st, by unfold IndexFn.run LatArg.concepts; dsimp only; rw [e1]; rfl, fun x => ?_⟩
    unfold castDict
    rw [e2 x]
    split <;> simp_all
  · unfold IndexFn.run LatArg.concepts
    dsimp only
    rw [(istability_general h hn hne hc E.ordC).2 hl]
    rfl
  · unfold IndexFn.run LatArg.concepts
    dsimp only
    rw [(estability_general h hn hne hc E.ordC).2 hl]
    rfl
  · subst he
    exact ⟨rfl, rfl⟩

/-- The other four indices cannot be computed for what filtering returns. -/
theorem C149_context_violated (E : IndexEnv α β) (cs : List (Concept α β)) :
    IndexFn.probability.run E (.system cs) = some (.error .attributeError) ∧
    IndexFn.separation.run E (.system cs) = some (.error .attributeError) ∧
    IndexFn.extentSize.run E (.system cs) = some (.error .attributeError) ∧
    IndexFn.intentSize.run E (.system cs) = some (.error .attributeError) := ⟨rfl, rfl, rfl, rfl⟩

/-! ### On systems closed downwards or upwards -/

section local_sum
variable {G : Finset α} {M : Finset β} {I : α → β → Prop}

/-- Every subset of an extent is counted for exactly one concept below. -/
theorem generatingSubsets_sum_below {A : Finset α} {B : Finset β} (h : IsConcept G M I A B)
    (C : Finset (Finset α × Finset β)) (hC : ∀ p, p ∈ C ↔ IsConcept G M I p.1 p.2 ∧ p.1 ⊆ A) :
    ∑ p ∈ C, generatingSubsets M I p.1 p.2 = 2 ^ A.card := by
  refine generatingSubsets_sum (G := A) C fun p => ?_
  rw [hC]
  constructor
  · rintro ⟨⟨k1, k2⟩, k3⟩
    refine ⟨k1, fun g => ⟨fun hg => ⟨k3 hg, ((k2 g).1 hg).2⟩, fun hg => (k2 g).2 ⟨?_, hg.2⟩⟩⟩
    exact concept_extent_subset h hg.1
  · rintro ⟨k1, k2⟩
    have hA : p.1 ⊆ A := fun g hg => ((k2 g).1 hg).1
    refine ⟨⟨k1, fun g => ⟨fun hg => ⟨concept_extent_subset h (hA hg), ((k2 g).1 hg).2⟩, fun hg => (k2 g).2 ⟨?_, hg.2⟩⟩⟩, hA⟩
    refine (h.2 g).2 ⟨hg.1, fun m hm => hg.2 m ((k1 m).2 ?_)⟩
    exact ⟨((h.1 m).1 hm).1, fun g' hg' => ((h.1 m).1 hm).2 g' (hA hg')⟩

end local_sum

/-- On a non-empty system that contains with a concept all smaller ones, the intensional stability is the true one. -/
theorem C149_istability_down {c : Ctx α β} (h : c.WFw) {cs : List (Concept α β)} (hn : cs.Nodup) (hne : cs ≠ [])
    (hc : ∀ x ∈ cs, IsConcept c.G c.M c.Inc x.extent x.intent)
    (hd : ∀ x ∈ cs, ∀ y : Concept α β, IsConcept c.G c.M c.Inc y.extent y.intent → y.extent ⊆ x.extent → y ∈ cs)
    (ord : ℕ → SetOrder (Concept α β)) :
    ∃ st, istability ord cs = some (.ok st) ∧
      ∀ x, st x = if x ∈ cs then some (intensionalStability c.M c.Inc x.extent x.intent) else none := by
  obtain ⟨L, -, -, -, -, h3, -⟩ := makeLattice_ok h
  obtain ⟨x₀, hx0⟩ := List.exists_mem_of_ne_nil _ hne
  obtain ⟨A, B, hAB, -, hB⟩ := exists_concept (M := c.M) (I := c.Inc) (∅ : Finset α) (Finset.empty_subset c.G)
  have hBM : B = c.M := by
    ext m
    rw [hB]
    simp
  have hleast : ∀ x ∈ cs, A ⊆ x.extent := fun x hx g hg => by
    refine ((hc x hx).2 g).2 ⟨concept_extent_subset hAB hg, fun m hm => ?_⟩
    refine ((hAB.2 g).1 hg).2 m ?_
    rw [hBM]
    exact (((hc x hx).1 m).1 hm).1
  obtain ⟨st, e1, e2⟩ := (istability_general h hn hne hc ord).1
    ⟨⟨A, B⟩, hd x₀ hx0 ⟨A, B⟩ hAB (hleast x₀ hx0), fun x hx => hleast x hx⟩
    (fun x => (generatingSubsets c.M c.Inc x.extent x.intent : ℤ)) (fun x hx => by
      have hinj : ∀ y ∈ insert x (cs.toFinset.filter fun d => d.extent ⊂ x.extent),
          ∀ z ∈ insert x (cs.toFinset.filter fun d => d.extent ⊂ x.extent),
          (y.extent, y.intent) = (z.extent, z.intent) → y = z := by
        intro y _ z _ hyz
        cases y; cases z; simpa using hyz
      have key := generatingSubsets_sum_below (hc x hx)
        ((insert x (cs.toFinset.filter fun d => d.extent ⊂ x.extent)).image fun y => (y.extent, y.intent)) (by
          intro p
          simp only [Finset.mem_image, Finset.mem_insert, Finset.mem_filter, List.mem_toFinset]
          constructor
          · rintro ⟨y, hy | ⟨hy, hyx⟩, rfl⟩
            · subst hy
              exact ⟨hc y hx, subset_rfl⟩
            · exact ⟨hc y hy, hyx.subset⟩
          · rintro ⟨k1, k2⟩
            refine ⟨⟨p.1, p.2⟩, ?_, rfl⟩
            by_cases hpx : p.1 = x.extent
            · left
              exact lat_eq_ext h3 ⟨p.1, p.2⟩ ((h3 _).2 k1) x ((h3 _).2 (hc x hx)) hpx
            · right
              exact ⟨hd x hx ⟨p.1, p.2⟩ k1 k2, Finset.ssubset_iff_subset_ne.2 ⟨k2, hpx⟩⟩)
      rw [Finset.sum_image hinj, Finset.sum_insert (by simp)] at key
      exact_mod_cast key.symm)
  refine ⟨st, e1, fun x => ?_⟩
  rw [e2 x]
  unfold intensionalStability
  push_cast
  rfl

/-- On a non-empty system that contains with a concept all larger ones, the extensional stability is the true one. -/
theorem C149_estability_up {c : Ctx α β} (h : c.WFw) {cs : List (Concept α β)} (hn : cs.Nodup) (hne : cs ≠ [])
    (hc : ∀ x ∈ cs, IsConcept c.G c.M c.Inc x.extent x.intent)
    (hd : ∀ x ∈ cs, ∀ y : Concept α β, IsConcept c.G c.M c.Inc y.extent y.intent → x.extent ⊆ y.extent → y ∈ cs)
    (ord : ℕ → SetOrder (Concept α β)) :
    ∃ st, estability ord cs = some (.ok st) ∧
      ∀ x, st x = if x ∈ cs then some (extensionalStability c.G c.Inc x.extent x.intent) else none := by
  obtain ⟨L, -, -, -, -, h3, -⟩ := makeLattice_ok h
  obtain ⟨x₀, hx0⟩ := List.exists_mem_of_ne_nil _ hne
  have hanti : ∀ x ∈ cs, ∀ y : Concept α β, IsConcept c.G c.M c.Inc y.extent y.intent → y.intent ⊆ x.intent →
      x.extent ⊆ y.extent := fun x hx y hy hyx g hg =>
    (hy.2 g).2 ⟨concept_extent_subset (hc x hx) hg, fun m hm => (((hc x hx).2 g).1 hg).2 m (hyx hm)⟩
  obtain ⟨B, A, hAB, -, hA⟩ := exists_concept (M := c.G) (I := fun m g => c.Inc g m) (∅ : Finset β) (Finset.empty_subset c.M)
  have hAG : A = c.G := by
    ext m
    rw [hA]
    simp
  have hAB' : IsConcept c.G c.M c.Inc A B := isConcept_swap.2 hAB
  have hleast : ∀ x ∈ cs, B ⊆ x.intent := fun x hx m hm => by
    refine ((hc x hx).1 m).2 ⟨concept_extent_subset hAB hm, fun g hg => ?_⟩
    refine ((hAB'.1 m).1 hm).2 g ?_
    rw [hAG]
    exact concept_extent_subset (hc x hx) hg
  obtain ⟨st, e1, e2⟩ := (estability_general h hn hne hc ord).1
    ⟨⟨A, B⟩, hd x₀ hx0 ⟨A, B⟩ hAB' (hanti x₀ hx0 ⟨A, B⟩ hAB' (hleast x₀ hx0)), fun x hx => hleast x hx⟩
    (fun x => (generatingSubsets c.G (fun m g => c.Inc g m) x.intent x.extent : ℤ)) (fun x hx => by
      have hinj : ∀ y ∈ insert x (cs.toFinset.filter fun d => d.intent ⊂ x.intent),
          ∀ z ∈ insert x (cs.toFinset.filter fun d => d.intent ⊂ x.intent),
          (y.intent, y.extent) = (z.intent, z.extent) → y = z := by
        intro y _ z _ hyz
        cases y; cases z; simpa [and_comm] using hyz
      have key := generatingSubsets_sum_below (isConcept_swap.1 (hc x hx))
        ((insert x (cs.toFinset.filter fun d => d.intent ⊂ x.intent)).image fun y => (y.intent, y.extent)) (by
          intro p
          simp only [Finset.mem_image, Finset.mem_insert, Finset.mem_filter, List.mem_toFinset]
          constructor
          · rintro ⟨y, hy | ⟨hy, hyx⟩, rfl⟩
            · subst hy
              exact ⟨isConcept_swap.1 (hc y hx), subset_rfl⟩
            · exact ⟨isConcept_swap.1 (hc y hy), hyx.subset⟩
          · rintro ⟨k1, k2⟩
            have k1 : IsConcept c.G c.M c.Inc p.2 p.1 := isConcept_swap.2 k1
            refine ⟨⟨p.2, p.1⟩, ?_, rfl⟩
            by_cases hpx : p.1 = x.intent
            · left
              exact lat_eq_int h3 ⟨p.2, p.1⟩ ((h3 _).2 k1) x ((h3 _).2 (hc x hx)) hpx
            · right
              exact ⟨hd x hx ⟨p.2, p.1⟩ k1 (hanti x hx ⟨p.2, p.1⟩ k1 k2), Finset.ssubset_iff_subset_ne.2 ⟨k2, hpx⟩⟩)
      rw [Finset.sum_image hinj, Finset.sum_insert (by simp)] at key
      exact_mod_cast key.symm)
  refine ⟨st, e1, fun x => ?_⟩
  rw [e2 x]
  unfold extensionalStability
  push_cast
  rfl

/-- The iceberg: `filter_concepts(lattice, compute_extent_size, 'value', v)` with v ≤ 1 returns the concepts with large
extents, and `compute_estability` gives them the values that they have in the lattice. -/
theorem C149_iceberg {c : Ctx α β} (h : c.WFw) (ho : c.objects ≠ []) {v : ℚ} (hv : v ≤ 1)
    (ord : ℕ → SetOrder (Concept α β)) :
    ∃ L items cs st st', makeLattice c = .ok L ∧ extentSize c L.concepts = .ok items ∧
      filterConcepts items .value v = .ok cs ∧
      (∀ x, x ∈ cs ↔ x ∈ L.concepts ∧ v * c.objects.length ≤ x.extent.card) ∧
      estability ord cs = some (.ok st) ∧ estability ord L.concepts = some (.ok st') ∧ ∀ x ∈ cs, st x = st' x := by
  obtain ⟨L, h1, -, h2, -, h3, -, -, -, hLne⟩ := makeLattice_ok h
  obtain ⟨L', k1, -, -, k2, -⟩ := C44_sizes h
  rw [h1] at k1; cases k1
  obtain ⟨items, k3, k4, k5, -⟩ := k2 ho
  have hine : items ≠ [] := by
    rintro rfl
    exact hLne k4.symm
  obtain ⟨cs, e1, -, e3, e4⟩ := C45_filter_partial items hine v
  have hG : (0 : ℚ) < c.objects.length := by
    have := List.length_pos_iff.2 ho
    exact_mod_cast this
  have hcard : (c.G.card : ℚ) = c.objects.length := by
    rw [Ctx.G, List.toFinset_card_of_nodup h.onodup]
  have hmem : ∀ x, x ∈ cs ↔ x ∈ L.concepts ∧ v * c.objects.length ≤ x.extent.card := by
    intro x
    rw [e3]
    constructor
    · rintro ⟨q, hq, hvq⟩
      refine ⟨by rw [← k4]; exact List.mem_map.2 ⟨_, hq, rfl⟩, ?_⟩
      rw [(k5 x q hq).1, hcard, le_div_iff₀ hG] at hvq
      exact hvq
    · rintro ⟨hx, hvx⟩
      rw [← k4] at hx
      obtain ⟨⟨y, q⟩, hq, rfl⟩ := List.mem_map.1 hx
      refine ⟨q, hq, ?_⟩
      rw [(k5 y q hq).1, hcard, le_div_iff₀ hG]
      exact hvx
  have hc : ∀ x ∈ cs, IsConcept c.G c.M c.Inc x.extent x.intent := fun x hx => (h3 x).1 ((hmem x).1 hx).1
  have hd : ∀ x ∈ cs, ∀ y : Concept α β, IsConcept c.G c.M c.Inc y.extent y.intent → x.extent ⊆ y.extent → y ∈ cs := by
    intro x hx y hy hxy
    rw [hmem] at hx ⊢
    refine ⟨(h3 y).2 hy, hx.2.trans ?_⟩
    exact_mod_cast Finset.card_le_card hxy
  have hne : cs ≠ [] := by
    obtain ⟨B, A, hAB, -, hA⟩ := exists_concept (M := c.G) (I := fun m g => c.Inc g m) (∅ : Finset β)
      (Finset.empty_subset c.M)
    have hAG : A = c.G := by
      ext m
      rw [hA]
      simp
    refine List.ne_nil_of_mem ((hmem ⟨A, B⟩).2 ⟨(h3 _).2 (isConcept_swap.2 hAB), ?_⟩)
    dsimp only
    rw [hAG, hcard]
    exact mul_le_of_le_one_left hG.le hv
  obtain ⟨st, f1, f2⟩ := C149_estability_up h (e4 (by rw [k4]; exact h2)) hne hc hd ord
  obtain ⟨L', st', g1, g2, g3, -⟩ := C42_estability h ord
  rw [h1] at g1; cases g1
  refine ⟨L, items, cs, st, st', h1, k3, e1, hmem, f1, g2, fun x hx => ?_⟩
  rw [f2 x, if_pos hx, g3 x ((hmem x).1 hx).1]

/-- The same for `compute_intent_size` and `compute_istability`. -/
theorem C149_iceberg_dual {c : Ctx α β} (h : c.WFw) (ha : c.attributes ≠ []) {v : ℚ} (hv : v ≤ 1)
    (ord : ℕ → SetOrder (Concept α β)) :
    ∃ L items cs st st', makeLattice c = .ok L ∧ intentSize c L.concepts = .ok items ∧
      filterConcepts items .value v = .ok cs ∧
      (∀ x, x ∈ cs ↔ x ∈ L.concepts ∧ v * c.attributes.length ≤ x.intent.card) ∧
      istability ord cs = some (.ok st) ∧ istability ord L.concepts = some (.ok st') ∧ ∀ x ∈ cs, st x = st' x := by
  obtain ⟨L, h1, -, h2, -, h3, -, -, -, hLne⟩ := makeLattice_ok h
  obtain ⟨L', k1, -, -, -, k2⟩ := C44_sizes h
  rw [h1] at k1; cases k1
  obtain ⟨items, k3, k4, k5, -⟩ := k2 ha
  have hine : items ≠ [] := by
    rintro rfl
    exact hLne k4.symm
  obtain ⟨cs, e1, -, e3, e4⟩ := C45_filter_partial items hine v
  have hG : (0 : ℚ) < c.attributes.length := by
    have := List.length_pos_iff.2 ha
    exact_mod_cast this
  have hcard : (c.M.card : ℚ) = c.attributes.length := by
    rw [Ctx.M, List.toFinset_card_of_nodup h.anodup]
  have hmem : ∀ x, x ∈ cs ↔ x ∈ L.concepts ∧ v * c.attributes.length ≤ x.intent.card := by
    intro x
    rw [e3]
    constructor
    · rintro ⟨q, hq, hvq⟩
      refine ⟨by rw [← k4]; exact List.mem_map.2 ⟨_, hq, rfl⟩, ?_⟩
      rw [(k5 x q hq).1, hcard, le_div_iff₀ hG] at hvq
      exact hvq
    · rintro ⟨hx, hvx⟩
      rw [← k4] at hx
      obtain ⟨⟨y, q⟩, hq, rfl⟩ := List.mem_map.1 hx
      refine ⟨q, hq, ?_⟩
      rw [(k5 y q hq).1, hcard, le_div_iff₀ hG]
      exact hvx
  have hc : ∀ x ∈ cs, IsConcept c.G c.M c.Inc x.extent x.intent := fun x hx => (h3 x).1 ((hmem x).1 hx).1
  have hd : ∀ x ∈ cs, ∀ y : Concept α β, IsConcept c.G c.M c.Inc y.extent y.intent → y.extent ⊆ x.extent → y ∈ cs := by
    intro x hx y hy hxy
    have hyx : x.intent ⊆ y.intent := fun m hm =>
      (hy.1 m).2 ⟨(((hc x hx).1 m).1 hm).1, fun g hg => (((hc x hx).1 m).1 hm).2 g (hxy hg)⟩
    rw [hmem] at hx ⊢
    refine ⟨(h3 y).2 hy, hx.2.trans ?_⟩
    exact_mod_cast Finset.card_le_card hyx
  have hne : cs ≠ [] := by
    obtain ⟨A, B, hAB, -, hB⟩ := exists_concept (M := c.M) (I := c.Inc) (∅ : Finset α) (Finset.empty_subset c.G)
    have hBM : B = c.M := by
      ext m
      rw [hB]
      simp
    refine List.ne_nil_of_mem ((hmem ⟨A, B⟩).2 ⟨(h3 _).2 hAB, ?_⟩)
    dsimp only
    rw [hBM, hcard]
    exact mul_le_of_le_one_left hG.le hv
  obtain ⟨st, f1, f2⟩ := C149_istability_down h (e4 (by rw [k4]; exact h2)) hne hc hd ord
  obtain ⟨L', st', g1, g2, g3, -⟩ := C41_istability h ord
  rw [h1] at g1; cases g1
  refine ⟨L, items, cs, st, st', h1, k3, e1, hmem, f1, g2, fun x hx => ?_⟩
  rw [f2 x, if_pos hx, g3 x ((hmem x).1 hx).1]

/-! ### Concrete cases -/

/-- Four objects; object i lacks attribute i. Every set of objects is an extent. -/
def cxtIce : Ctx (Fin 4) (Fin 4) := ⟨[0, 1, 2, 3], [0, 1, 2, 3],
  ⟨some 4, [[false, true, true, true], [true, false, true, true], [true, true, false, true], [true, true, true, false]]⟩⟩

theorem cxtIce_wf : cxtIce.WFw := by constructor <;> decide +kernel

/-- The concepts with no objects, three of those with three objects, and all objects. -/
def csIce : List (Concept (Fin 4) (Fin 4)) :=
  [⟨∅, {0, 1, 2, 3}⟩, ⟨{0, 1, 2}, {3}⟩, ⟨{0, 1, 3}, {2}⟩, ⟨{0, 2, 3}, {1}⟩, ⟨{0, 1, 2, 3}, ∅⟩]

theorem csIce_concepts : ∀ x ∈ csIce, IsConcept cxtIce.G cxtIce.M cxtIce.Inc x.extent x.intent := by
  unfold IsConcept
  simp only [← cxtIce_wf.incB]
  decide +kernel

/-- A concept system whose intensional stabilities are computed, but not between 0 and 1. -/
theorem C149_negative_violated (ord : ℕ → SetOrder (Concept (Fin 4) (Fin 4))) :
    ∃ st, istability ord csIce = some (.ok st) ∧ st ⟨{0, 1, 2, 3}, ∅⟩ = some (-3 / 8) := by
  obtain ⟨st, e1, e2⟩ := (istability_general cxtIce_wf (by decide +kernel) (by decide) csIce_concepts ord).1
    (by decide +kernel) (fun x => if x.extent.card = 0 then 1 else if x.extent.card = 3 then 7 else -6)
    (by decide +kernel)
  refine ⟨st, e1, ?_⟩
  rw [e2, if_pos (by decide +kernel)]
  decide +kernel

/-- The hypotheses of the last parts of `C149_again` are met: two incomparable concepts. -/
example (E : IndexEnv (Fin 4) (Fin 4)) :
    IndexFn.istability.run E (.system [⟨{0, 1, 2}, {3}⟩, ⟨{0, 1, 3}, {2}⟩]) = some (.error .keyError) :=
  (C149_again cxtIce_wf (by decide +kernel) (fun x hx => csIce_concepts x (by revert hx x; decide +kernel)) E).2.2.1 (by simp)
    (by decide +kernel)

/-- The iceberg of the concepts with at least three objects. -/
example : ((do
    let L ← makeLattice cxtIce
    let it ← extentSize cxtIce L.concepts
    filterConcepts it .value (3 / 4) : Py _)).map List.toFinset =
    .ok {⟨{0, 1, 2, 3}, ∅⟩, ⟨{1, 2, 3}, {0}⟩, ⟨{0, 2, 3}, {1}⟩, ⟨{0, 1, 3}, {2}⟩, ⟨{0, 1, 2}, {3}⟩} := by decide +kernel
