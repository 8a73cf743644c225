/-
C11 for machine integers: up to 63 attributes the machine computes the model of C11; from 65 on an intent is lost.
-/
import Verif.Model.ReduceMachine
import Verif.Props.Reduce

set_option linter.unusedSectionVars false

open Spec

/-- A dictionary with other keys. -/
theorem dictOf_mapKeys {κ κ' ν : Type} [DecidableEq κ] [DecidableEq κ'] (f : κ → κ') (hf : Function.Injective f)
    (items : List (κ × ν)) :
    dictOf (items.map fun p => (f p.1, p.2)) = (dictOf items).map fun p => (f p.1, p.2) := by
  have hset : ∀ (d : List (κ × ν)) k v,
      dictSet (d.map fun p => (f p.1, p.2)) (f k) v = (dictSet d k v).map fun p => (f p.1, p.2) := by
    intro d k v
    unfold dictSet
    have e : ((d.map fun p => (f p.1, p.2)).any fun p => decide (p.1 = f k)) = d.any fun p => decide (p.1 = k) := by
      rw [List.any_map]
      congr 1
      funext p
      simp [hf.eq_iff]
    rw [e]
    split
    · rw [List.map_map, List.map_map]
      apply List.map_congr_left
      intro p _
      simp only [Function.comp, hf.eq_iff]
      split <;> rfl
    · rw [List.map_append]; rfl
  have key : ∀ (items d : List (κ × ν)),
      (items.map fun p => (f p.1, p.2)).foldl (fun d p => dictSet d p.1 p.2) (d.map fun p => (f p.1, p.2)) =
        (items.foldl (fun d p => dictSet d p.1 p.2) d).map fun p => (f p.1, p.2) := by
    intro items
    induction items with
    | nil => intro d; rfl
    | cons p items ih =>
      intro d
      rw [List.map_cons, List.foldl_cons, List.foldl_cons, hset, ih]
  exact key items []

namespace Ctx

variable {α β : Type} [DecidableEq α] [DecidableEq β] [PyName α] [PyName β]

/-- `&` on non-negative integers below `2^63` is exact. -/
def BandExact (band : ℤ → ℤ → Py ℤ) : Prop :=
  ∀ a b : ℕ, a < 2 ^ 63 → b < 2 ^ 63 → band a b = .ok ((a &&& b : ℕ) : ℤ)

/-- The same set of codes as integers. -/
def redZ (s : Finset ℕ) : Finset ℤ := s.map ⟨Int.ofNat, fun _ _ h => Int.ofNat.inj h⟩

theorem mem_redZ {s : Finset ℕ} {k : ℕ} : (k : ℤ) ∈ redZ s ↔ k ∈ s := by
  unfold redZ
  rw [Finset.mem_map]
  constructor
  · rintro ⟨a, ha, h⟩
    have : a = k := Int.ofNat.inj h
    rwa [← this]
  · intro h; exact ⟨k, h, rfl⟩

theorem redZ_insert {s : Finset ℕ} {k : ℕ} : insert (k : ℤ) (redZ s) = redZ (insert k s) := by
  unfold redZ
  rw [Finset.map_insert]; rfl

theorem reduceInnerZ_eq {band : ℤ → ℤ → Py ℤ} (hb : BandExact band) {k : ℕ} (hk : k < 2 ^ 63) {rest : List ℕ}
    (hr : ∀ j ∈ rest, j < 2 ^ 63) (cur : ℕ) (hc : cur < 2 ^ 63) (red : Finset ℕ) :
    reduceInnerZ band k (rest.map Int.ofNat) (cur, redZ red) =
      .ok (((reduceInner k rest (cur, red)).1 : ℕ), redZ (reduceInner k rest (cur, red)).2) := by
  induction rest generalizing cur red with
  | nil => rfl
  | cons j rest ih =>
    have hj := hr j (by simp)
    have ih := ih fun j hj => hr j (List.mem_cons_of_mem _ hj)
    unfold reduceInnerZ reduceInner at ih ⊢
    rw [List.map_cons, List.foldlM_cons, List.foldl_cons]
    have hjr : (Int.ofNat j ∈ (((cur : ℤ), redZ red) : ℤ × Finset ℤ).2) ↔ j ∈ ((cur, red) : ℕ × Finset ℕ).2 := mem_redZ
    have hlt : cur &&& j < 2 ^ 63 := lt_of_le_of_lt Nat.and_le_left hc
    by_cases h1 : j ∈ ((cur, red) : ℕ × Finset ℕ).2
    · rw [if_pos (hjr.2 h1), if_pos h1, py_ok_bind]
      exact ih cur hc red
    · rw [if_neg (fun h => h1 (hjr.1 h)), if_neg h1]
      have e1 : band ((cur : ℤ), redZ red).1 (Int.ofNat j) = .ok ((cur &&& j : ℕ) : ℤ) := hb cur j hc hj
      have e2 : band ((cur &&& j : ℕ) : ℤ) k = .ok ((cur &&& j &&& k : ℕ) : ℤ) := hb _ k hlt hk
      rw [e1, py_ok_bind, e2, py_ok_bind]
      simp only
      by_cases h2 : cur &&& j &&& k < k
      · rw [if_pos (by exact_mod_cast h2), if_pos h2, py_ok_bind]
        exact ih cur hc red
      · rw [if_neg (by exact_mod_cast h2), if_neg h2]
        by_cases h3 : cur &&& j = k
        · rw [if_pos (by exact_mod_cast h3), if_pos h3, py_ok_bind, redZ_insert]
          exact ih cur hc _
        · rw [if_neg (by exact_mod_cast h3), if_neg h3]
          by_cases h4 : cur &&& j > k
          · rw [if_pos (by exact_mod_cast h4), if_pos h4, py_ok_bind]
            exact ih _ hlt red
          · rw [if_neg (by exact_mod_cast h4), if_neg h4, py_ok_bind]
            exact ih cur hc red

theorem reduceOuterZ_eq {band : ℤ → ℤ → Py ℤ} (hb : BandExact band) {M : ℕ} (hM : M < 2 ^ 63) {keys : List ℕ}
    (hk : ∀ k ∈ keys, k < 2 ^ 63) :
    reduceOuterZ band M (keys.map Int.ofNat) = .ok (redZ (reduceOuter M keys)) := by
  unfold reduceOuterZ reduceOuter
  rw [List.length_map]
  have key : ∀ (is : List ℕ) (red : Finset ℕ),
      is.foldlM (fun (red : Finset ℤ) (i : ℕ) =>
        if (i : ℤ) ∈ red then (.ok red : Py (Finset ℤ))
        else do
          let st ← reduceInnerZ band ((keys.map Int.ofNat).getD i 0)
            ((keys.map Int.ofNat).take i ++ (keys.map Int.ofNat).drop (i + 1)) (M, red)
          .ok st.2) (redZ red) =
      .ok (redZ (is.foldl (fun red i =>
        if i ∈ red then red
        else (reduceInner (keys.getD i 0) (keys.take i ++ keys.drop (i + 1)) (M, red)).2) red)) := by
    intro is
    induction is with
    | nil => intro red; rfl
    | cons i is ih =>
      intro red
      rw [List.foldlM_cons, List.foldl_cons]
      by_cases h1 : i ∈ red
      · rw [if_pos (mem_redZ.2 h1), if_pos h1, py_ok_bind]
        exact ih red
      · rw [if_neg (fun h => h1 (mem_redZ.1 h)), if_neg h1]
        have e1 : (keys.map Int.ofNat).getD i 0 = ((keys.getD i 0 : ℕ) : ℤ) := by
          rw [List.getD_eq_getElem?_getD, List.getD_eq_getElem?_getD, List.getElem?_map]
          cases keys[i]? <;> rfl
        have e2 : (keys.map Int.ofNat).take i ++ (keys.map Int.ofNat).drop (i + 1) =
            (keys.take i ++ keys.drop (i + 1)).map Int.ofNat := by
          rw [List.map_append, List.map_take, List.map_drop]
        have h3 : keys.getD i 0 < 2 ^ 63 := by
          rw [List.getD_eq_getElem?_getD]
          cases hi : keys[i]? with
          | none => norm_num
          | some k => exact hk k (List.mem_of_getElem? hi)
        rw [e1, e2, reduceInnerZ_eq hb h3 (fun j hj => hk j (by
          rcases List.mem_append.1 hj with h | h
          · exact List.mem_of_mem_take h
          · exact List.mem_of_mem_drop h)) M hM red, py_ok_bind, py_ok_bind]
        exact ih _
  exact key _ ∅

/-- Up to 63 attributes `reduce_objects` on machine integers is `reduce_objects` on unbounded ones, for which C11 and
C12 are stated. -/
theorem C11_machine {band : ℤ → ℤ → Py ℤ} (hb : BandExact band) {c : Ctx α β} (h : c.WFw)
    (h63 : c.attributes.length ≤ 63) : c.reduceObjectsZ band = c.reduceObjects := by
  have hcode : (c.nd.rows.map fun r => (list2int64 r).toInt) = (c.nd.rows.map list2int).map Int.ofNat := by
    rw [List.map_map]
    apply List.map_congr_left
    intro r hr
    exact C13_code_exact r (by rw [h.width r hr]; exact h63)
  have hd : dictOf ((c.nd.rows.map fun r => (list2int64 r).toInt).zip (List.range c.nd.rows.length)) =
      (dictOf ((c.nd.rows.map list2int).zip (List.range c.nd.rows.length))).map fun p => (Int.ofNat p.1, p.2) := by
    rw [hcode, ← dictOf_mapKeys Int.ofNat fun _ _ h => Int.ofNat.inj h]
    congr 1
    rw [List.zip_map_left]
    rfl
  unfold reduceObjectsZ reduceObjects
  simp only [hd]
  obtain ⟨d, hdd⟩ : ∃ d, d = dictOf ((c.nd.rows.map list2int).zip (List.range c.nd.rows.length)) := ⟨_, rfl⟩
  rw [← hdd]
  have hkeys : ∀ k ∈ d.map Prod.fst, k < 2 ^ 63 := by
    intro k hk
    obtain ⟨⟨k, i⟩, hp, rfl⟩ := List.mem_map.1 hk
    rw [hdd] at hp
    obtain ⟨n, hn, -⟩ := (mem_dictOf _ _ _).1 hp
    have := List.mem_of_getElem? hn
    obtain ⟨r, hr, he⟩ := List.mem_map.1 (List.of_mem_zip this).1
    rw [← he]
    refine lt_of_lt_of_le (list2int_lt r) ?_
    rw [h.width r hr]
    exact Nat.pow_le_pow_right (by norm_num) h63
  have hM : 2 ^ c.attributes.length - 1 < 2 ^ 63 := by
    have : 2 ^ c.attributes.length ≤ 2 ^ 63 := Nat.pow_le_pow_right (by norm_num) h63
    have : 0 < 2 ^ c.attributes.length := Nat.two_pow_pos _
    omega
  have hMZ : (2 : ℤ) ^ c.attributes.length - 1 = ((2 ^ c.attributes.length - 1 : ℕ) : ℤ) := by
    have : 1 ≤ 2 ^ c.attributes.length := Nat.two_pow_pos _
    push_cast [Nat.cast_sub this]
    rfl
  have e : (d.map fun p => (Int.ofNat p.1, p.2)).map Prod.fst = (d.map Prod.fst).map Int.ofNat := by
    rw [List.map_map, List.map_map]; rfl
  rw [e, hMZ, reduceOuterZ_eq hb hM hkeys, py_ok_bind]
  have ef : (((d.map fun p => (Int.ofNat p.1, p.2)).filter fun p =>
      p.1 ∉ redZ (reduceOuter (2 ^ c.attributes.length - 1) (d.map Prod.fst))).map Prod.snd) =
      (d.filter fun p => p.1 ∉ reduceOuter (2 ^ c.attributes.length - 1) (d.map Prod.fst)).map Prod.snd := by
    rw [List.filter_map, List.map_map]
    congr 1
    apply List.filter_congr
    intro p _
    simp only [Function.comp]
    have := mem_redZ (s := reduceOuter (2 ^ c.attributes.length - 1) (d.map Prod.fst)) (k := p.1)
    exact decide_eq_decide.2 (not_congr this)
  rw [ef]

/-- `reduce_attributes`, up to 63 objects. -/
theorem C11_machine_attributes {band : ℤ → ℤ → Py ℤ} (hb : BandExact band) {c : Ctx α β} (h : c.WFw)
    (h63 : c.objects.length ≤ 63) : c.reduceAttributesZ band = c.reduceAttributes := by
  obtain ⟨t, ht, _⟩ := h.transpose
  obtain ⟨htw, -, hta, -⟩ := h.transpose_inc ht
  unfold reduceAttributesZ reduceAttributes
  rw [ht, py_ok_bind, py_ok_bind, C11_machine hb htw.toWFw (by rw [hta]; exact h63)]

/-- From 65 attributes on C11 fails on machine integers: of two rows that differ in the last cell only one is kept, and
the empty intent is lost. -/
theorem C11_wide_violated (band : ℤ → ℤ → Py ℤ) {o₁ o₂ : α} (ho : o₁ ≠ o₂) {atts : List β} (ha : atts.Nodup)
    (h65 : 65 ≤ atts.length) :
    ∃ c d : Ctx α β, c.WF ∧ c.objects = [o₁, o₂] ∧ c.attributes = atts ∧ c.reduceObjectsZ band = .ok d ∧
      ∃ B, IsIntent c.G c.M c.Inc B ∧ ¬ IsIntent d.G d.M d.Inc B := by
  obtain ⟨n, hn⟩ : ∃ n, atts.length = n + 1 := ⟨atts.length - 1, by omega⟩
  obtain ⟨r₁, hr₁⟩ : ∃ r₁, r₁ = List.replicate n false ++ [false] := ⟨_, rfl⟩
  obtain ⟨r₂, hr₂⟩ : ∃ r₂, r₂ = List.replicate n false ++ [true] := ⟨_, rfl⟩
  have hl₁ : r₁.length = atts.length := by rw [hr₁, hn]; simp
  have hl₂ : r₂.length = atts.length := by rw [hr₂, hn]; simp
  have hcode : list2int64 r₁ = list2int64 r₂ := by
    have key : ∀ (k : ℕ) (m : List Bool), list2int (List.replicate k false ++ m) = 2 ^ k * list2int m := by
      intro k m
      induction k with
      | zero => simp
      | succ k ih =>
        rw [List.replicate_succ, List.cons_append, list2int_cons, ih, pow_succ]
        simp; ring
    rw [hr₁, hr₂, list2int64_eq, list2int64_eq, key, key]
    apply BitVec.eq_of_toNat_eq
    simp only [BitVec.toNat_ofNat, list2int, List.foldr]
    obtain ⟨k, hk⟩ : ∃ k, n = 64 + k := ⟨n - 64, by omega⟩
    rw [hk, pow_add]
    simp
  have hw : ∀ r ∈ [r₁, r₂], r.length = atts.length := by simp [hl₁, hl₂]
  have hwf := wf_mk' (objs := [o₁, o₂]) (table := [r₁, r₂]) (atts := atts) rfl hw (by simpa using ho) ha
  have hwf₂ := wf_mk' (objs := [o₂]) (table := [r₂]) (atts := atts) rfl (by simp [hl₂]) (by simp) ha
  refine ⟨mk' [o₁, o₂] atts [r₁, r₂], mk' [o₂] atts [r₂], hwf, rfl, rfl, ?_, ∅, ?_, ?_⟩
  · unfold reduceObjectsZ
    have hd : dictOf (((mk' [o₁, o₂] atts [r₁, r₂]).nd.rows.map fun r => (list2int64 r).toInt).zip
        (List.range (mk' [o₁, o₂] atts [r₁, r₂]).nd.rows.length)) = [((list2int64 r₂).toInt, 1)] := by
      show dictOf [((list2int64 r₁).toInt, 0), ((list2int64 r₂).toInt, 1)] = _
      rw [hcode]
      simp [dictOf, dictSet]
    simp only [hd]
    have hred : ∀ M k, reduceOuterZ band M [k] = .ok ∅ := fun M k => rfl
    have ho' : ([((list2int64 r₂).toInt, 1)] : List (ℤ × ℕ)).map Prod.fst = [(list2int64 r₂).toInt] := rfl
    rw [ho', hred, py_ok_bind]
    have hord : (([((list2int64 r₂).toInt, 1)] : List (ℤ × ℕ)).filter fun p => p.1 ∉ (∅ : Finset ℤ)).map Prod.snd = [1] := by
      simp
    rw [hord]
    show make [r₂] [o₂] atts = _
    exact make_nodup rfl (by simp [hl₂]) (by simp) ha
  · have hno : ∀ m, ¬ (mk' [o₁, o₂] atts [r₁, r₂]).Inc o₁ m := by
      rintro m ⟨i, j, r, hi, -, hr, hj⟩
      have hi0 : i = 0 := nodup_idx hwf.onodup hi (show [o₁, o₂][0]? = some o₁ from rfl)
      rw [hi0] at hr
      cases (hr : some r₁ = some r)
      rw [hr₁, ← List.replicate_succ'] at hj
      rw [List.getElem?_replicate] at hj
      split at hj <;> simp at hj
    refine ⟨{o₁, o₂}, fun m => ?_, fun g => ?_⟩
    · simp only [Finset.notMem_empty, false_iff, not_and]
      exact fun _ h => hno m (h o₁ (by simp))
    · simp [G, mk']
  · rintro ⟨A, h1, h2⟩
    obtain ⟨m, hm⟩ : ∃ m, atts[n]? = some m := ⟨atts[n]'(by omega), List.getElem?_eq_getElem _⟩
    refine absurd ((h1 m).2 ⟨List.mem_toFinset.2 (List.mem_of_getElem? hm), fun g hg => ?_⟩) (Finset.notMem_empty m)
    have hg' := ((h2 g).1 hg).1
    have : g = o₂ := by simpa [G, mk'] using hg'
    rw [this]
    refine ⟨0, n, r₂, rfl, hm, rfl, ?_⟩
    rw [hr₂]
    simp

/-- 65 attributes are there to be had. -/
example : ∃ atts : List (Fin 65), atts.Nodup ∧ 65 ≤ atts.length := ⟨List.finRange 65, List.nodup_finRange _, by simp⟩

/-- Exact `&`. -/
example : BandExact fun a b => .ok ((a.toNat &&& b.toNat : ℕ) : ℤ) := fun _ _ _ _ => rfl

/-- The witness of C11 and the machine. -/
example : let c : Ctx (Fin 3) (Fin 2) := ⟨[0, 1, 2], [0, 1], ⟨some 2, [[true, false], [false, false], [false, true]]⟩⟩
    c.reduceObjectsZ (fun a b => .ok ((a.toNat &&& b.toNat : ℕ) : ℤ)) =
      .ok ⟨[0, 2], [0, 1], ⟨some 2, [[true, false], [false, true]]⟩⟩ := by
  decide +kernel

end Ctx
