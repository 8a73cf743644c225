/-
Properties C106, C107: concept systems and lattices as containers; sets of concepts.
-/
import Verif.Model.Containers
import Verif.Props.Lattice
import Verif.Props.ReadWrite

set_option linter.unusedSectionVars false

variable {α β : Type} [DecidableEq α] [DecidableEq β]

open Spec

/-! ### C106 -/

theorem pyIdx_nonneg {γ : Type} (l : List γ) (i : ℕ) :
    pyIdx l (i : ℤ) = match l[i]? with | some x => .ok x | none => .error .indexError := by
  unfold pyIdx pyGet
  rw [if_pos (by omega), Int.toNat_natCast]
  rfl

theorem seqIter_from {γ : Type} (l : List γ) (fuel i : ℕ) (hi : i ≤ l.length) (hf : l.length - i < fuel) :
    seqIter (pyIdx l) fuel i = some (.ok (l.drop i)) := by
  induction fuel generalizing i with
  | zero => omega
  | succ fuel ih =>
    unfold seqIter
    rw [pyIdx_nonneg]
    rcases Nat.lt_or_ge i l.length with hlt | hge
    · rw [List.getElem?_eq_getElem hlt]
      simp only
      rw [ih (i + 1) hlt (by omega), List.drop_eq_getElem_cons hlt]
    · rw [List.getElem?_eq_none hge]
      simp only
      rw [List.drop_eq_nil_of_le hge]

namespace CSys

/-- The list of concepts after a call, as for a plain list of concepts. -/
def listCall (l : List (Concept α β)) : Call α β → List (Concept α β)
  | .append (some c) => l ++ [c]
  | .remove (some c) => l.erase c
  | _ => l

theorem call_good (s : CSys α β) (h : s.Good) (op : Call α β) :
    (s.call op).Good ∧ (s.call op).concepts = listCall s.concepts op := by
  cases op with
  | append c =>
    cases c with
    | some c => exact step_good s h (.append c)
    | none => exact ⟨h, rfl⟩
  | remove c =>
    cases c with
    | some c => exact step_good s h (.remove c)
    | none => exact ⟨fun Q hQ => by simp [call, removeArg] at hQ, rfl⟩
  | parents c => exact step_good s h (.parents c)
  | children c => exact step_good s h (.children c)

theorem calls_good (ops : List (Call α β)) (s : CSys α β) (h : s.Good) :
    (ops.foldl call s).Good ∧ (ops.foldl call s).concepts = ops.foldl listCall s.concepts := by
  induction ops generalizing s with
  | nil => exact ⟨h, rfl⟩
  | cons op ops ih =>
    obtain ⟨h1, h2⟩ := call_good s h op
    simp only [List.foldl_cons]
    rw [← h2]
    exact ih _ h1

end CSys

/-- Positions of a list, from both ends. -/
theorem csGetItem_cases (cs : List (Concept α β)) (i : ℤ) :
    (∀ n : ℕ, i = n → (h : n < cs.length) → csGetItem cs i = .ok cs[n]) ∧
    (∀ n : ℕ, i = -(n + 1 : ℕ) → (h : n < cs.length) → csGetItem cs i = .ok (cs[cs.length - 1 - n]'(by omega))) ∧
    (i < -cs.length ∨ (cs.length : ℤ) ≤ i → csGetItem cs i = .error .indexError) := by
  unfold csGetItem
  refine ⟨?_, ?_, ?_⟩
  · rintro n rfl h
    rw [pyIdx_nonneg, List.getElem?_eq_getElem h]
  · rintro n rfl h
    unfold pyIdx pyGet
    rw [if_neg (by omega), if_pos (by omega)]
    have : (-((n + 1 : ℕ) : ℤ) + cs.length).toNat = cs.length - 1 - n := by omega
    rw [this, List.getElem?_eq_getElem (by omega)]
  · rintro (h | h)
    · unfold pyIdx
      rw [if_neg (by omega), if_neg (by omega)]
    · obtain ⟨n, rfl⟩ := Int.eq_ofNat_of_zero_le (show 0 ≤ i by omega)
      rw [pyIdx_nonneg, List.getElem?_eq_none (by omega)]

/-- Lookups in a list of concepts agree with each other. -/
theorem C106_lookup (cs : List (Concept α β)) :
    seqIter (csGetItem cs) (csLen cs + 1) 0 = some (.ok cs) ∧
    (∀ x, csContains cs x = true ↔ ∃ i : ℤ, csGetItem cs i = .ok x) ∧
    (∀ x (n : ℕ), csIndex cs x = .ok n ↔ csGetItem cs n = .ok x ∧ ∀ k : ℕ, k < n → csGetItem cs k ≠ .ok x) ∧
    ∀ x, csContains cs x = false → csIndex cs x = .error .valueError := by
  have hget : ∀ (n : ℕ) x, csGetItem cs n = .ok x ↔ cs[n]? = some x := by
    intro n x
    unfold csGetItem
    rw [pyIdx_nonneg]
    cases cs[n]? <;> simp
  refine ⟨?_, fun x => ?_, fun x n => ?_, fun x hx => ?_⟩
  · have := seqIter_from cs (cs.length + 1) 0 (Nat.zero_le _) (by omega)
    rw [List.drop_zero] at this
    exact this
  · rw [csContains, List.any_eq_true]
    constructor
    · rintro ⟨y, hy, he⟩
      have : y = x := by simpa using he
      subst this
      obtain ⟨n, hn, hn'⟩ := List.getElem_of_mem hy
      exact ⟨n, (hget n y).2 (by rw [List.getElem?_eq_getElem hn, hn'])⟩
    · rintro ⟨i, hi⟩
      refine ⟨x, ?_, by simp⟩
      unfold csGetItem pyIdx pyGet at hi
      split at hi
      · cases hc : cs[i.toNat]? with
        | none => rw [hc] at hi; cases hi
        | some y => rw [hc] at hi; cases hi; exact List.mem_of_getElem? hc
      · split at hi
        · cases hc : cs[(i + cs.length).toNat]? with
          | none => rw [hc] at hi; cases hi
          | some y => rw [hc] at hi; cases hi; exact List.mem_of_getElem? hc
        · cases hi
  · unfold csIndex firstIdx
    simp only [hget]
    cases hk : cs.idxOf? x with
    | none =>
      simp only [reduceCtorEq, false_iff, not_and]
      intro h1
      rw [List.idxOf?, List.findIdx?_eq_none_iff] at hk
      exact absurd (hk x (List.mem_of_getElem? h1)) (by simp)
    | some k =>
      rw [List.idxOf?, List.findIdx?_eq_some_iff_getElem] at hk
      obtain ⟨hlt, he, hmin⟩ := hk
      have he' : cs[k] = x := eq_of_beq he
      have hmin' : ∀ j : ℕ, j < k → cs[j]? ≠ some x := by
        intro j hj hjx
        have h1 : j < cs.length := by omega
        rw [List.getElem?_eq_getElem h1, Option.some.injEq] at hjx
        have := hmin j hj
        rw [hjx] at this; simp at this
      have hk' : cs[k]? = some x := by rw [List.getElem?_eq_getElem hlt, he']
      constructor
      · intro h1
        cases h1
        exact ⟨hk', fun j hj h => hmin' j hj ((hget j x).1 h)⟩
      · rintro ⟨h1, h2⟩
        rcases Nat.lt_trichotomy n k with h | h | h
        · exact absurd h1 (hmin' n h)
        · rw [h]
        · exact absurd ((hget k x).2 hk') (h2 k h)
  · unfold csIndex
    apply firstIdx_not_mem
    intro hm
    have : csContains cs x = true := by
      rw [csContains, List.any_eq_true]; exact ⟨x, hm, by simp⟩
    rw [hx] at this; cases this

/-- After any history of calls a concept system is the expected list of concepts; arguments that are no concepts leave
the list as it is. Iteration, positions from both ends, membership and `index` are those of the list, and `parents`
follows it. -/
theorem C106_histories (cs : List (Concept α β)) (ops : List (CSys.Call α β)) (s : CSys α β)
    (hs : s = ops.foldl CSys.call (CSys.make cs)) :
    s.concepts = ops.foldl CSys.listCall cs ∧
    seqIter (csGetItem s.concepts) (csLen s.concepts + 1) 0 = some (.ok (ops.foldl CSys.listCall cs)) ∧
    (∀ c ∈ s.concepts, ∃ S, (s.parents c).2 = .ok S ∧ ∀ p, p ∈ S ↔ Covers Concept.intent s.concepts p c) ∧
    ∀ c, c ∉ s.concepts → (s.parents c).2 = .error .keyError := by
  have hg0 : (CSys.make cs).Good := fun P hP => by simp [CSys.make] at hP
  obtain ⟨hg, hl⟩ := CSys.calls_good ops _ hg0
  rw [← hs] at hg hl
  obtain ⟨P, hP, hf⟩ := CSys.fill_ok s hg
  obtain ⟨Q, hQ, hQ1, hQ2⟩ := coveringRelation_ok s.concepts
  rw [hP] at hQ; cases hQ
  refine ⟨hl, ?_, fun c hc => ?_, fun c hc => ?_⟩
  · rw [(C106_lookup s.concepts).1, hl]; rfl
  · obtain ⟨S, hS, hS'⟩ := hQ2 c hc
    exact ⟨S, by simp only [CSys.parents, hf, dictGet, hS], hS'⟩
  · simp only [CSys.parents, hf, dictGet, hQ1 c hc]

/-- Calls with arguments that are no concepts: `append` raises TypeError, `remove` does nothing. -/
theorem C106_other_arguments (s : CSys α β) :
    (s.appendArg none).2 = some .typeError ∧ (s.appendArg none).1.concepts = s.concepts ∧
    (s.removeArg none).2 = none ∧ (s.removeArg none).1.concepts = s.concepts := ⟨rfl, rfl, rfl, rfl⟩

/-- What the calls with concepts raise: `append` nothing; `remove` nothing if an equal concept is there, of
which the first is taken out; otherwise ValueError, and the object is left as it was. -/
theorem C106_outcomes (s : CSys α β) (c : Concept α β) :
    s.appendArg (some c) = (⟨s.concepts ++ [c], none⟩, none) ∧
    (c ∈ s.concepts → s.removeArg (some c) = (⟨s.concepts.erase c, none⟩, none)) ∧
    (c ∉ s.concepts → s.removeArg (some c) = (s, some .valueError)) := by
  refine ⟨rfl, fun h => ?_, fun h => ?_⟩
  · show s.remove c = _
    unfold CSys.remove; rw [if_pos h]
  · show s.remove c = _
    unfold CSys.remove; rw [if_neg h]

theorem csStr_eq (str : Concept α β → List Char) (cs : List (Concept α β)) :
    csStr str cs = (cs.flatMap fun c => str c ++ ['\n']).dropLast := by
  unfold csStr
  congr 1
  have : ∀ (l : List (Concept α β)) (s : List Char),
      l.foldl (fun s c => s ++ (str c ++ ['\n'])) s = s ++ l.flatMap fun c => str c ++ ['\n'] := by
    intro l
    induction l with
    | nil => intro s; simp
    | cons c l ih => intro s; simp only [List.foldl_cons, ih, List.flatMap_cons, List.append_assoc]
  rw [this, List.nil_append]

/-- The text of a non-empty system has one line per concept, in order (the text of a concept contains no line breaks,
since names are printed with `repr`). -/
theorem C106_str (str : Concept α β → List Char) (hs : ∀ c, '\n' ∉ str c) (cs : List (Concept α β)) (hne : cs ≠ []) :
    splitOn1 '\n' (csStr str cs) = cs.map str := by
  rw [csStr_eq]
  induction cs with
  | nil => exact absurd rfl hne
  | cons c cs ih =>
    cases cs with
    | nil =>
      simp only [List.flatMap_cons, List.flatMap_nil, List.append_nil, List.map_cons, List.map_nil, List.dropLast_concat]
      exact splitOn1_single (hs c)
    | cons d cs =>
      have ih := ih (by simp)
      rw [List.flatMap_cons, List.dropLast_append_of_ne_nil (by simp), List.append_assoc, List.singleton_append,
        splitOn1_append (hs c), ih]
      rfl

/-! ### C107 -/

section sets
variable {H : Type} [DecidableEq H] (hash : Option (Finset α) × Option (Finset β) → H)

/-- If the members have pairwise different values at every insertion, all of them are inserted with their hash at that
time. -/
theorem collectLive_eq (s : List (H × ℕ)) (n : ℕ) (tr : List (List (Concept α β)))
    (hs : ∀ e ∈ s, e.2 < n)
    (hlen : ∀ (k : ℕ) L, tr[k]? = some L → L.length = n + k + 1)
    (hdiff : ∀ (k : ℕ) L, tr[k]? = some L → ∀ j : ℕ, j < n + k → L[j]? ≠ L[n + k]?) :
    collectLive hash s n tr = s ++ tr.zipIdx.filterMap fun p =>
      p.1.getLast?.map fun x => (hash (conceptKey x), n + p.2) := by
  induction tr generalizing s n with
  | nil => simp [collectLive]
  | cons L tr ih =>
    have hL := hlen 0 L rfl
    have hd := hdiff 0 L rfl
    simp only [Nat.add_zero] at hL hd
    have hn : n < L.length := by omega
    have hget : L[n]? = some L[n] := List.getElem?_eq_getElem hn
    have hlast : L.getLast? = some L[n] := by
      rw [List.getLast?_eq_getElem?, hL]; exact hget
    have hadd : pySetAdd hash s L n = s ++ [(hash (conceptKey L[n]), n)] := by
      unfold pySetAdd
      rw [hget]
      simp only
      rw [if_neg]
      rw [Bool.not_eq_true, pySetMem, List.any_eq_false]
      intro e he
      rw [Bool.and_eq_true, decide_eq_true_eq, decide_eq_true_eq]
      rintro ⟨-, h2⟩
      exact hd e.2 (hs e he) (by rw [h2, hget])
    unfold collectLive
    rw [hadd, ih]
    · rw [List.zipIdx_cons, List.filterMap_cons]
      simp only [hlast, Option.map_some, Nat.add_zero, List.append_assoc, List.singleton_append]
      rw [show (0 : ℕ) + 1 = 1 from rfl, List.zipIdx_succ, List.filterMap_map]
      congr 2
      apply List.filterMap_congr
      rintro ⟨L', k⟩ -
      simp only [Function.comp_apply]
      congr 2
      funext x
      rw [show n + 1 + k = n + (k + 1) by omega]
    · intro e he
      rcases List.mem_append.1 he with he | he
      · have := hs e he; omega
      · rw [List.mem_singleton.1 he]; exact Nat.lt_succ_self n
    · intro k L' hk
      have := hlen (k + 1) L' hk
      omega
    · intro k L' hk j hj
      have := hdiff (k + 1) L' hk j (by omega)
      rwa [show n + (k + 1) = n + 1 + k by omega] at this

/-- What the set holds when the iteration is over. -/
theorem collectLive_mem {c : Ctx α β} (h : c.WFw) :
    ∃ tr cs, iterNorris c = .ok (tr, cs) ∧ norris c = .ok cs ∧ cs.Nodup ∧
      (collectLive hash [] 0 tr).length = cs.length ∧
      ∀ (n : ℕ) L x y, tr[n]? = some L → L.getLast? = some x → cs[n]? = some y →
        x.intent = y.intent ∧ x.extent ⊆ y.extent ∧ (hash (conceptKey x), n) ∈ collectLive hash [] 0 tr ∧
        (pySetMem hash (collectLive hash [] 0 tr) cs y = true ↔ hash (conceptKey x) = hash (conceptKey y)) := by
  obtain ⟨tr, cs, h1, hlen, h2, h3⟩ := C35_iterator h
  obtain ⟨cs', h4, hnd, hmem⟩ := C34_norris h
  have hcs : norris c = .ok cs := by unfold norris; rw [h1]; rfl
  rw [hcs] at h4
  obtain rfl := Except.ok.inj h4
  have hint : ∀ (n : ℕ) L, tr[n]? = some L → ∀ (j : ℕ) x y, L[j]? = some x → cs[j]? = some y → x.intent = y.intent := by
    intro n L hL j x y hx hy
    obtain ⟨l1, l2, -⟩ := h2 n L hL
    have hj : j < n + 1 := by
      rw [← l1]; exact (List.getElem?_eq_some_iff.1 hx).1
    have e1 : (L.map Concept.intent)[j]? = some x.intent := by rw [List.getElem?_map, hx]; rfl
    rw [l2, List.getElem?_take_of_lt hj, List.getElem?_map, hy] at e1
    exact (Option.some.inj e1).symm
  have hinj : ∀ (i j : ℕ) x y, cs[i]? = some x → cs[j]? = some y → x.intent = y.intent → i = j := by
    intro i j x y hi hj hxy
    have hx := (hmem x).1 (List.mem_of_getElem? hi)
    have hy := (hmem y).1 (List.mem_of_getElem? hj)
    have : x = y := by
      have hE : x.extent = y.extent := by ext g; rw [hx.2 g, hy.2 g, hxy]
      cases x; cases y; simp_all
    subst this
    obtain ⟨ha1, ha2⟩ := List.getElem?_eq_some_iff.1 hi
    obtain ⟨hb1, hb2⟩ := List.getElem?_eq_some_iff.1 hj
    exact (List.Nodup.getElem_inj_iff hnd).1 (ha2.trans hb2.symm)
  have hcol := collectLive_eq hash [] 0 tr (by simp)
    (by intro k L hk; have := (h2 k L hk).1; omega)
    (by
      intro k L hk j hj he
      rw [Nat.zero_add] at hj he
      have hl := (h2 k L hk).1
      have hk' : k < cs.length := by rw [← hlen]; exact (List.getElem?_eq_some_iff.1 hk).1
      have e1 := hint k L hk j L[j] cs[j] (List.getElem?_eq_getElem (by omega)) (List.getElem?_eq_getElem (by omega))
      have e2 := hint k L hk k L[k] cs[k] (List.getElem?_eq_getElem (by omega)) (List.getElem?_eq_getElem (by omega))
      rw [List.getElem?_eq_getElem (by omega), List.getElem?_eq_getElem (by omega), Option.some.injEq] at he
      have := hinj j k cs[j] cs[k] (List.getElem?_eq_getElem (by omega)) (List.getElem?_eq_getElem (by omega))
        (by rw [← e1, ← e2, he])
      omega)
  rw [List.nil_append] at hcol
  have hlast : ∀ (n : ℕ) L, tr[n]? = some L → ∃ x, L.getLast? = some x ∧ L[n]? = some x := by
    intro n L hL
    have hl := (h2 n L hL).1
    have hn : L[n]? = some (L[n]'(by omega)) := List.getElem?_eq_getElem (by omega)
    refine ⟨_, ?_, hn⟩
    rw [List.getLast?_eq_getElem?, show L.length - 1 = n by omega]
    exact hn
  refine ⟨tr, cs, h1, hcs, hnd, ?_, ?_⟩
  · rw [hcol, ← hlen, ← List.length_zipIdx (l := tr) (i := 0), List.length_filterMap_eq_countP, List.countP_eq_length]
    rintro ⟨L, k⟩ hp
    obtain ⟨x, hx, -⟩ := hlast k L (List.mem_zipIdx_iff_getElem?.1 hp)
    simp [hx]
  · intro n L x y hL hx hy
    obtain ⟨x', hx', hxn⟩ := hlast n L hL
    rw [hx] at hx'
    obtain rfl := Option.some.inj hx'
    have hxy := hint n L hL n x y hxn hy
    refine ⟨hxy, ?_, ?_, ?_⟩
    · intro g hg
      obtain ⟨-, -, -, k, -, h5, -⟩ := h2 n L hL
      have := (h5 x hx g).1 hg
      rw [h3 y (List.mem_of_getElem? hy) g]
      exact ⟨List.mem_of_mem_take this.1, fun m hm => this.2 m (hxy ▸ hm)⟩
    · rw [hcol]
      exact List.mem_filterMap.2 ⟨(L, n), List.mem_zipIdx_iff_getElem?.2 hL, by simp [hx]⟩
    · rw [hcol, pySetMem, List.any_eq_true]
      constructor
      · rintro ⟨e, he, hc⟩
        rw [Bool.and_eq_true, decide_eq_true_eq, decide_eq_true_eq] at hc
        obtain ⟨⟨L', k⟩, hp, he⟩ := List.mem_filterMap.1 he
        have hL' := List.mem_zipIdx_iff_getElem?.1 hp
        obtain ⟨z, hz, hzk⟩ := hlast k L' hL'
        simp only [hz, Option.map_some, Option.some.injEq, Nat.zero_add] at he
        subst he
        obtain rfl := hinj k n y y hc.2 hy rfl
        rw [hL] at hL'
        obtain rfl := Option.some.inj hL'
        rw [hx] at hz
        obtain rfl := Option.some.inj hz
        exact hc.1
      · intro he
        refine ⟨(hash (conceptKey x), n), List.mem_filterMap.2 ⟨(L, n), List.mem_zipIdx_iff_getElem?.2 hL, ?_⟩, ?_⟩
        · simp [hx]
        · simp [he, hy]

/-- When the text of a concept changes although its intent does not. -/
theorem conceptKey_eq {x y : Concept α β} (hi : x.intent = y.intent) :
    conceptKey x = conceptKey y ↔ x.extent = y.extent ∨ (y.intent = ∅ ∧ (x.extent = ∅ ↔ y.extent = ∅)) := by
  unfold conceptKey
  rw [hi, Prod.mk.injEq]
  rcases Finset.eq_empty_or_nonempty y.intent with h0 | h0
  · rw [h0]
    simp only [Finset.card_empty, gt_iff_lt, lt_self_iff_false, if_false, true_and, Finset.card_pos]
    rcases Finset.eq_empty_or_nonempty x.extent with hx | hx <;>
      rcases Finset.eq_empty_or_nonempty y.extent with hy | hy
    · simp [hx, hy]
    · simp [hx, hy, hy.ne_empty, hy.ne_empty.symm]
    · simp [hx, hy, hx.ne_empty]
    · simp [hx, hy, hx.ne_empty, hy.ne_empty]
  · rw [if_pos (Finset.card_pos.2 h0), if_pos (Finset.card_pos.2 h0), Option.some.injEq]
    constructor
    · exact fun h => .inl h.1
    · rintro (h | ⟨h, -⟩)
      · exact ⟨h, by rw [h]⟩
      · exact absurd h h0.ne_empty

/-- Which concepts of `set(cxt.iterate_concepts())` are found in the set afterwards, if different texts have different
hashes: those with the final extent when they were yielded, and among those with empty intent the ones whose extent did
not change from empty to non-empty. The set has as many members as there are concepts. -/
theorem C107_live_exact (hinj : Function.Injective hash) {c : Ctx α β} (h : c.WFw) :
    ∃ tr cs, iterNorris c = .ok (tr, cs) ∧ (collectLive hash [] 0 tr).length = cs.length ∧
      ∀ (n : ℕ) L x y, tr[n]? = some L → L.getLast? = some x → cs[n]? = some y →
        (pySetMem hash (collectLive hash [] 0 tr) cs y = true ↔
          x.extent = y.extent ∨ (y.intent = ∅ ∧ (x.extent = ∅ ↔ y.extent = ∅))) := by
  obtain ⟨tr, cs, h1, -, -, h3, h4⟩ := collectLive_mem hash h
  refine ⟨tr, cs, h1, h3, fun n L x y hL hx hy => ?_⟩
  obtain ⟨h5, -, -, h6⟩ := h4 n L x y hL hx hy
  rw [h6, hinj.eq_iff, conceptKey_eq h5]

/-- C107 fails for every context with an object that has all attributes: the concept yielded first, to which the object
was added later, is a member of `set(cxt.iterate_concepts())` but is not found in it, if different texts have different
hashes. -/
theorem C107_live_violated (hinj : Function.Injective hash) {c : Ctx α β} (h : c.WFw) {g : α} (hg : g ∈ c.objects)
    (hall : ∀ m ∈ c.attributes, c.Inc g m) :
    ∃ tr cs y, iterNorris c = .ok (tr, cs) ∧ cs[0]? = some y ∧
      (∃ e ∈ collectLive hash [] 0 tr, cs[e.2]? = some y) ∧
      pySetMem hash (collectLive hash [] 0 tr) cs y = false := by
  obtain ⟨tr, cs, h1, h2, hnd, h3, h4⟩ := collectLive_mem hash h
  have htr : tr[0]? = some [⟨∅, c.attributes.toFinset⟩] := by
    unfold iterNorris at h1
    cases he : c.examples with
    | error e => rw [he] at h1; cases h1
    | ok exs =>
      rw [he, py_ok_bind] at h1
      simp only [Except.ok.injEq, Prod.mk.injEq] at h1
      rw [← h1.1]; rfl
  obtain ⟨tr', cs', h1', hlen, -, h5⟩ := C35_iterator h
  rw [h1] at h1'
  obtain ⟨rfl, rfl⟩ := Prod.mk.injEq .. ▸ Except.ok.inj h1'
  have h0 : 0 < cs.length := by
    rw [← hlen]; exact (List.getElem?_eq_some_iff.1 htr).1
  have hy : cs[0]? = some cs[0] := List.getElem?_eq_getElem h0
  obtain ⟨e1, -, e2, e3⟩ := h4 0 _ ⟨∅, c.attributes.toFinset⟩ cs[0] htr rfl hy
  have hgy : g ∈ cs[0].extent := by
    rw [h5 _ (List.getElem_mem h0) g]
    refine ⟨hg, fun m hm => hall m ?_⟩
    rw [← e1] at hm
    exact List.mem_toFinset.1 hm
  refine ⟨tr, cs, cs[0], h1, hy, ?_, ?_⟩
  · exact ⟨_, e2, hy⟩
  · rw [← Bool.not_eq_true, e3, hinj.eq_iff, conceptKey_eq e1]
    rintro (he | ⟨-, he⟩)
    · rw [← he] at hgy; simp at hgy
    · rw [he.1 rfl] at hgy; simp at hgy

/-- The members of a set filled after the iteration has ended. -/
theorem collectDone_members (cs : List (Concept α β)) :
    ∃ v : List (Concept α β), v.Nodup ∧ (∀ x, x ∈ v ↔ x ∈ cs) ∧
      List.Forall₂ (fun e x => e.1 = hash (conceptKey x) ∧ cs[e.2]? = some x) (collectDone hash cs) v := by
  have key : ∀ n ≤ cs.length, ∃ v : List (Concept α β), v.Nodup ∧ (∀ x, x ∈ v ↔ x ∈ cs.take n) ∧
      List.Forall₂ (fun e x => e.1 = hash (conceptKey x) ∧ cs[e.2]? = some x)
        ((List.range n).foldl (fun s n => pySetAdd hash s cs n) []) v := by
    intro n
    induction n with
    | zero => intro _; exact ⟨[], List.nodup_nil, by simp, by simp⟩
    | succ n ih =>
      intro hn
      obtain ⟨v, v1, v2, v3⟩ := ih (by omega)
      have hget : cs[n]? = some cs[n] := List.getElem?_eq_getElem (by omega)
      rw [List.range_succ, List.foldl_append]
      simp only [List.foldl_cons, List.foldl_nil]
      generalize (List.range n).foldl (fun s n => pySetAdd hash s cs n) [] = s at v3
      have hm : pySetMem hash s cs cs[n] = true ↔ cs[n] ∈ v := by
        rw [pySetMem, List.any_eq_true]
        constructor
        · rintro ⟨e, he, hc⟩
          rw [Bool.and_eq_true, decide_eq_true_eq, decide_eq_true_eq] at hc
          obtain ⟨i, hi, rfl⟩ := List.getElem_of_mem he
          have hi' : i < v.length := by rw [← v3.length_eq]; exact hi
          have := (v3.get hi hi').2
          simp only [List.get_eq_getElem] at this
          rw [hc.2, Option.some.injEq] at this
          rw [this]; exact List.getElem_mem hi'
        · intro hv
          obtain ⟨i, hi', hiv⟩ := List.getElem_of_mem hv
          have hi : i < s.length := by rw [v3.length_eq]; exact hi'
          refine ⟨s[i], List.getElem_mem hi, ?_⟩
          have := v3.get hi hi'
          simp only [List.get_eq_getElem, hiv] at this
          simp [this.1, this.2]
      unfold pySetAdd
      rw [hget]
      simp only
      by_cases hv : cs[n] ∈ v
      · rw [if_pos (hm.2 hv)]
        refine ⟨v, v1, fun x => ?_, v3⟩
        rw [List.take_add_one, hget, v2]
        simp only [Option.toList_some, List.mem_append, List.mem_singleton]
        exact ⟨.inl, fun h => h.elim id fun h => h ▸ (v2 _).1 hv⟩
      · rw [if_neg (fun h => hv (hm.1 h))]
        refine ⟨v ++ [cs[n]], ?_, fun x => ?_, ?_⟩
        · rw [List.nodup_append]
          exact ⟨v1, List.nodup_singleton _, fun a ha b hb h => hv (List.mem_singleton.1 hb ▸ h ▸ ha)⟩
        · rw [List.take_add_one, hget, List.mem_append, v2, List.mem_append]
          simp
        · exact List.rel_append v3 (.cons ⟨rfl, hget⟩ .nil)
  obtain ⟨v, v1, v2, v3⟩ := key cs.length le_rfl
  exact ⟨v, v1, by simpa using v2, v3⟩

/-- Concepts collected after the iteration has ended, `set(cxt.concepts)`: exactly the concepts of the context are
found, and the set has as many members as there are concepts. -/
theorem C107_done_partial {c : Ctx α β} (h : c.WFw) :
    ∃ cs, norris c = .ok cs ∧ (collectDone hash cs).length = cs.length ∧
      ∀ x, pySetMem hash (collectDone hash cs) cs x = true ↔ IsConcept c.G c.M c.Inc x.extent x.intent := by
  obtain ⟨cs, h1, hnd, hmem⟩ := C34_norris h
  obtain ⟨v, v1, v2, v3⟩ := collectDone_members hash cs
  refine ⟨cs, h1, ?_, fun x => ?_⟩
  · rw [v3.length_eq]
    exact ((List.perm_ext_iff_of_nodup v1 hnd).2 v2).length_eq
  · rw [← hmem, ← v2, pySetMem, List.any_eq_true]
    constructor
    · rintro ⟨e, he, hc⟩
      rw [Bool.and_eq_true, decide_eq_true_eq, decide_eq_true_eq] at hc
      rw [v2]
      exact List.mem_of_getElem? hc.2
    · intro hv
      obtain ⟨i, hi', hiv⟩ := List.getElem_of_mem hv
      have hi : i < (collectDone hash cs).length := by rw [v3.length_eq]; exact hi'
      refine ⟨_, List.getElem_mem hi, ?_⟩
      have := v3.get hi hi'
      simp only [List.get_eq_getElem, hiv] at this
      simp [this.1, this.2]

end sets

/-! ### Concrete cases -/

namespace ContainersEx

def cs : List (Concept (Fin 3) (Fin 2)) := [⟨∅, {0, 1}⟩, ⟨{0}, {0}⟩, ⟨{0, 1, 2}, ∅⟩]

example : csGetItem cs (-1) = .ok ⟨{0, 1, 2}, ∅⟩ ∧ csGetItem cs (-4) = .error .indexError ∧
    csIndex cs ⟨{0}, {0}⟩ = .ok 1 ∧ csContains cs ⟨{1}, {0}⟩ = false := by decide +kernel

example : ([.append none, .append (some ⟨{1}, {1}⟩), .remove (some ⟨{0}, {0}⟩), .remove none,
    .remove (some ⟨{0}, {1}⟩)].foldl CSys.call (CSys.make cs)).concepts =
    [⟨∅, {0, 1}⟩, ⟨{0, 1, 2}, ∅⟩, ⟨{1}, {1}⟩] := by decide +kernel

/-- Object 2 has both attributes. -/
def cxt : Ctx (Fin 3) (Fin 2) :=
  ⟨[0, 1, 2], [0, 1], ⟨some 2, [[true, false], [false, true], [true, true]]⟩⟩

theorem cxt_wf : cxt.WFw := by constructor <;> decide +kernel

/-- Three of the four concepts are not found in `set(cxt.iterate_concepts())`, all are found in `set(cxt.concepts)`. -/
example : (iterNorris cxt).map (fun r => r.2.map fun y => pySetMem id (collectLive id [] 0 r.1) r.2 y) =
      .ok [false, false, false, true] ∧
    (norris cxt).map (fun cs => cs.map fun y => pySetMem id (collectDone id cs) cs y) = .ok [true, true, true, true] := by
  decide +kernel

example : ∃ tr cs y, iterNorris cxt = .ok (tr, cs) ∧ cs[0]? = some y ∧
    (∃ e ∈ collectLive id [] 0 tr, cs[e.2]? = some y) ∧ pySetMem id (collectLive id [] 0 tr) cs y = false :=
  C107_live_violated id Function.injective_id cxt_wf (g := 2) (by decide) (by
    intro m hm
    rcases List.mem_cons.1 hm with rfl | hm
    · exact ⟨2, 0, _, rfl, rfl, rfl, rfl⟩
    · rw [List.mem_singleton.1 hm]; exact ⟨2, 1, _, rfl, rfl, rfl, rfl⟩)

end ContainersEx
