/-
Property C163: concept objects that change while they are in concept systems and lattices.
-/
import Verif.Model.ConceptObjects
import Verif.Props.Lattice

set_option linter.unusedSectionVars false

variable {α β : Type} [DecidableEq α] [DecidableEq β]

open Spec

namespace KO

variable {K : Type} [DecidableEq K] (hash : KObj α β → K)

/-! ### Specification -/

/-- What hash and `==` see of an object. -/
def kap (h : Heap α β) (n : ℕ) : K × Concept α β := (hash (h n), (h n).c)

/-- The set `S` has exactly the upper neighbours of `n` among the objects `cs`, by their present intents, each once. -/
structure IsParents (h : Heap α β) (cs : List ℕ) (n : ℕ) (S : PSet K) : Prop where
  sound : ∀ e ∈ S, Covers (fun m => (h m).c.intent) cs e.2 n
  mem_iff : ∀ p, mem hash h S p = true ↔ ∃ q, Covers (fun m => (h m).c.intent) cs q n ∧ kap hash h q = kap hash h p
  once : S.Pairwise fun e f => kap hash h e.2 ≠ kap hash h f.2

/-- The set `T` has exactly the objects of `cs` that have `n` as upper neighbour, each once. -/
structure IsChildren (h : Heap α β) (cs : List ℕ) (n : ℕ) (T : PSet K) : Prop where
  sound : ∀ e ∈ T, e.2 ∈ cs ∧ ∃ q, Covers (fun m => (h m).c.intent) cs q e.2 ∧ kap hash h q = kap hash h n
  mem_iff : ∀ d, mem hash h T d = true ↔
    ∃ m ∈ cs, kap hash h m = kap hash h d ∧ ∃ q, Covers (fun m => (h m).c.intent) cs q m ∧ kap hash h q = kap hash h n
  once : T.Pairwise fun e f => kap hash h e.2 ≠ kap hash h f.2

/-! ### Sets and dicts while nothing changes -/

/-- The entry made for an object now. -/
def ent (h : Heap α β) (n : ℕ) : K × ℕ := (hash (h n), n)

theorem hit_ent (h : Heap α β) (m n : ℕ) : hit hash h (ent hash h m) n = decide (kap hash h m = kap hash h n) := by
  unfold hit
  rw [Bool.eq_iff_iff, Bool.and_eq_true, decide_eq_true_iff, decide_eq_true_iff, decide_eq_true_iff, kap, kap, Prod.mk.injEq]
  rfl

/-- The first objects of each kind. -/
def keysOf (h : Heap α β) (l : List ℕ) : List ℕ :=
  l.foldl (fun ks n => if ks.any fun m => decide (kap hash h m = kap hash h n) then ks else ks ++ [n]) []

theorem keysOf_nil (h : Heap α β) : keysOf hash h [] = [] := rfl

theorem keysOf_concat (h : Heap α β) (l : List ℕ) (n : ℕ) : keysOf hash h (l ++ [n]) =
    if (keysOf hash h l).any (fun m => decide (kap hash h m = kap hash h n)) then keysOf hash h l
    else keysOf hash h l ++ [n] := by
  unfold keysOf
  rw [List.foldl_append]
  rfl

theorem keysOf_spec (h : Heap α β) (l : List ℕ) :
    (∀ m ∈ keysOf hash h l, m ∈ l) ∧ (∀ n ∈ l, ∃ m ∈ keysOf hash h l, kap hash h m = kap hash h n) ∧
    (keysOf hash h l).Pairwise fun a b => kap hash h a ≠ kap hash h b := by
  induction l using List.reverseRecOn with
  | nil => simp [keysOf]
  | append_singleton l n ih =>
    obtain ⟨h1, h2, h3⟩ := ih
    rw [keysOf_concat]
    split
    · rename_i hc
      simp only [List.any_eq_true, decide_eq_true_eq] at hc
      refine ⟨fun m hm => by simp [h1 m hm], fun m hm => ?_, h3⟩
      rw [List.mem_append, List.mem_singleton] at hm
      rcases hm with hm | rfl
      · exact h2 m hm
      · exact hc
    · rename_i hc
      simp only [List.any_eq_true, decide_eq_true_eq, not_exists, not_and] at hc
      refine ⟨fun m hm => ?_, fun m hm => ?_, ?_⟩
      · rw [List.mem_append, List.mem_singleton] at hm ⊢
        exact hm.imp (h1 m) id
      · rw [List.mem_append, List.mem_singleton] at hm
        rcases hm with hm | rfl
        · obtain ⟨x, hx, he⟩ := h2 m hm
          exact ⟨x, by simp [hx], he⟩
        · exact ⟨m, by simp, rfl⟩
      · rw [List.pairwise_append]
        refine ⟨h3, by simp, fun a ha b hb => ?_⟩
        rw [List.mem_singleton] at hb
        subst hb
        exact hc a ha

theorem mem_map_ent (h : Heap α β) (ks : List ℕ) (n : ℕ) :
    mem hash h (ks.map (ent hash h)) n = ks.any fun m => decide (kap hash h m = kap hash h n) := by
  simp only [mem, List.any_map]
  congr 1
  funext m
  exact hit_ent hash h m n

theorem add_keysOf (h : Heap α β) (l : List ℕ) (n : ℕ) :
    add hash h ((keysOf hash h l).map (ent hash h)) n = (keysOf hash h (l ++ [n])).map (ent hash h) := by
  rw [keysOf_concat, add, mem_map_ent]
  split
  · rfl
  · simp [ent]

theorem remove_add (h : Heap α β) (l : List ℕ) (n : ℕ)
    (hn : ∀ m ∈ l, kap hash h m ≠ kap hash h n) :
    remove hash h (add hash h ((keysOf hash h l).map (ent hash h)) n) n =
      .ok ((keysOf hash h l).map (ent hash h)) := by
  have hno : ∀ m ∈ keysOf hash h l, kap hash h m ≠ kap hash h n := fun m hm => hn m ((keysOf_spec hash h l).1 m hm)
  have h1 : mem hash h ((keysOf hash h l).map (ent hash h)) n = false := by
    rw [mem_map_ent, List.any_eq_false]
    intro m hm
    simp [hno m hm]
  have h2 : add hash h ((keysOf hash h l).map (ent hash h)) n =
      (keysOf hash h l).map (ent hash h) ++ [ent hash h n] := by
    rw [add, h1]; simp [ent]
  rw [h2, remove, if_pos]
  · rw [List.eraseP_append_right _ (fun e he => ?_)]
    · simp [hit_ent]
    · obtain ⟨m, hm, rfl⟩ := List.mem_map.1 he
      rw [hit_ent]
      simp [hno m hm]
  · simp [mem, hit_ent]

theorem dict_init (h : Heap α β) (l : List ℕ) :
    l.foldl (insertEmpty hash h) [] = (keysOf hash h l).map fun m => (ent hash h m, []) := by
  induction l using List.reverseRecOn with
  | nil => simp [keysOf]
  | append_singleton l n ih =>
    rw [List.foldl_append, List.foldl_cons, List.foldl_nil, ih, keysOf_concat, insertEmpty, List.any_map]
    have : ((fun e : (K × ℕ) × PSet K => hit hash h e.1 n) ∘ fun m => (ent hash h m, [])) =
        fun m => decide (kap hash h m = kap hash h n) := by
      funext m; exact hit_ent hash h m n
    rw [this]
    split
    · rfl
    · simp [ent]

theorem modify_map (h : Heap α β) (j : ℕ) (F g : ℕ → PSet K) (f : PSet K → Py (PSet K)) (ks : List ℕ)
    (hd : ks.Pairwise fun a b => kap hash h a ≠ kap hash h b)
    (hj : ∃ m ∈ ks, kap hash h m = kap hash h j)
    (hf : ∀ m ∈ ks, kap hash h m = kap hash h j → f (F m) = .ok (g m)) :
    modify hash h j f (ks.map fun m => (ent hash h m, F m)) =
      .ok (ks.map fun m => (ent hash h m, if kap hash h m = kap hash h j then g m else F m)) := by
  induction ks with
  | nil => simp at hj
  | cons a ks ih =>
    rw [List.pairwise_cons] at hd
    rw [List.map_cons, modify, hit_ent]
    by_cases ha : kap hash h a = kap hash h j
    · rw [if_pos (by simpa using ha), hf a (by simp) ha, py_ok_bind, List.map_cons, if_pos ha]
      congr 2
      refine List.map_congr_left fun m hm => ?_
      rw [if_neg (fun hc => hd.1 m hm (ha.trans hc.symm))]
    · have hj' : ∃ m ∈ ks, kap hash h m = kap hash h j := by
        obtain ⟨m, hm, he⟩ := hj
        rcases List.mem_cons.1 hm with rfl | hm
        · exact absurd he ha
        · exact ⟨m, hm, he⟩
      rw [if_neg (by simpa using ha), ih hd.2 hj' fun m hm => hf m (by simp [hm]), py_ok_bind, List.map_cons, if_neg ha]

/-- Nothing lies between the two intents. -/
def cov (h : Heap α β) (cs : List ℕ) (ij : ℕ × ℕ) : Bool :=
  decide ((h ij.1).c.intent ⊂ (h ij.2).c.intent) &&
    !(cs.any fun k => decide ((h ij.1).c.intent ⊂ (h k).c.intent) && decide ((h k).c.intent ⊂ (h ij.2).c.intent))

theorem cov_congr (h : Heap α β) (cs : List ℕ) {i j i' j' : ℕ} (hi : kap hash h i = kap hash h i')
    (hj : kap hash h j = kap hash h j') : cov h cs (i, j) = cov h cs (i', j') := by
  have e1 : (h i).c = (h i').c := congrArg Prod.snd hi
  have e2 : (h j).c = (h j').c := congrArg Prod.snd hj
  simp only [cov, e1, e2]

theorem cov_iff (h : Heap α β) (cs : List ℕ) (i j : ℕ) (hi : i ∈ cs) :
    cov h cs (i, j) = true ↔ Covers (fun m => (h m).c.intent) cs i j := by
  simp only [cov, Covers, Bool.and_eq_true, decide_eq_true_eq, Bool.not_eq_true', List.any_eq_false, hi, true_and,
    not_exists, not_and]

/-- The objects to be found in the set of `m` after the pairs `done`. -/
def upper (h : Heap α β) (cs : List ℕ) (done : List (ℕ × ℕ)) (m : ℕ) : List ℕ :=
  (done.filter fun ij => decide (kap hash h ij.2 = kap hash h m) && cov h cs ij).map Prod.fst

/-- The dict after the pairs `done`. -/
def stateOf (h : Heap α β) (cs : List ℕ) (done : List (ℕ × ℕ)) : Dict K :=
  (keysOf hash h cs).map fun m => (ent hash h m, (keysOf hash h (upper hash h cs done m)).map (ent hash h))

theorem upper_concat_neg (h : Heap α β) (cs : List ℕ) (done : List (ℕ × ℕ)) (ij : ℕ × ℕ) (m : ℕ)
    (hn : ¬ (kap hash h ij.2 = kap hash h m ∧ cov h cs ij = true)) :
    upper hash h cs (done ++ [ij]) m = upper hash h cs done m := by
  have : (decide (kap hash h ij.2 = kap hash h m) && cov h cs ij) = false := by
    rw [Bool.eq_false_iff]
    intro hc
    simp only [Bool.and_eq_true, decide_eq_true_eq] at hc
    exact hn hc
  simp [upper, List.filter_append, this]

theorem upper_concat_pos (h : Heap α β) (cs : List ℕ) (done : List (ℕ × ℕ)) (ij : ℕ × ℕ) (m : ℕ)
    (h1 : kap hash h ij.2 = kap hash h m) (h2 : cov h cs ij = true) :
    upper hash h cs (done ++ [ij]) m = upper hash h cs done m ++ [ij.1] := by
  simp [upper, List.filter_append, h1, h2]

theorem coverStep_stateOf (h : Heap α β) (cs : List ℕ) (done : List (ℕ × ℕ)) (ij : ℕ × ℕ) (hj : ij.2 ∈ cs) :
    coverStep hash h cs (stateOf hash h cs done) ij = .ok (stateOf hash h cs (done ++ [ij])) := by
  obtain ⟨k1, k2, k3⟩ := keysOf_spec hash h cs
  unfold coverStep
  by_cases hlt : (h ij.1).c.intent ⊂ (h ij.2).c.intent
  · rw [if_pos hlt]
    have hstep : modify hash h ij.2 (fun S => .ok (add hash h S ij.1)) (stateOf hash h cs done) =
        .ok ((keysOf hash h cs).map fun m => (ent hash h m, if kap hash h m = kap hash h ij.2 then
          add hash h ((keysOf hash h (upper hash h cs done m)).map (ent hash h)) ij.1 else
          (keysOf hash h (upper hash h cs done m)).map (ent hash h))) :=
      modify_map hash h ij.2 _ (fun m => add hash h ((keysOf hash h (upper hash h cs done m)).map (ent hash h)) ij.1)
        _ _ k3 (k2 _ hj) fun m _ _ => rfl
    rw [hstep, py_ok_bind]
    by_cases hb : (cs.any fun k => decide ((h ij.1).c.intent ⊂ (h k).c.intent) &&
        decide ((h k).c.intent ⊂ (h ij.2).c.intent)) = true
    · have hnc : cov h cs ij = false := by simp only [cov, hb, Bool.not_true, Bool.and_false]
      rw [if_pos hb]
      rw [modify_map hash h ij.2 _ (fun m => (keysOf hash h (upper hash h cs done m)).map (ent hash h)) _ _ k3 (k2 _ hj)]
      · unfold stateOf
        congr 1
        refine List.map_congr_left fun m _ => ?_
        rw [upper_concat_neg hash h cs done ij m (by simp [hnc])]
        split <;> rfl
      · intro m _ he
        rw [if_pos he]
        refine remove_add hash h _ _ fun p hp hc => ?_
        obtain ⟨⟨a, b⟩, hm, rfl⟩ := List.mem_map.1 hp
        rw [List.mem_filter] at hm
        simp only [Bool.and_eq_true, decide_eq_true_eq] at hm
        have := cov_congr hash h cs hc (hm.2.1.trans he)
        rw [hm.2.2] at this
        have h3 : cov h cs (ij.1, ij.2) = false := hnc
        rw [h3] at this
        exact absurd this (by simp)
    · have hc : cov h cs ij = true := by
        simp only [cov, hlt, decide_true, Bool.true_and, Bool.not_eq_true']
        exact Bool.not_eq_true _ ▸ hb
      rw [if_neg hb]
      unfold stateOf
      congr 1
      refine List.map_congr_left fun m _ => ?_
      by_cases he : kap hash h m = kap hash h ij.2
      · rw [if_pos he, upper_concat_pos hash h cs done ij m he.symm hc, add_keysOf]
      · rw [if_neg he, upper_concat_neg hash h cs done ij m (fun hh => he hh.1.symm)]
  · rw [if_neg hlt]
    have hnc : cov h cs ij = false := by simp [cov, hlt]
    unfold stateOf
    congr 1
    refine List.map_congr_left fun m _ => ?_
    rw [upper_concat_neg hash h cs done ij m (by simp [hnc])]

theorem coverFold_stateOf (h : Heap α β) (cs : List ℕ) (ps done : List (ℕ × ℕ)) (hp : ∀ ij ∈ ps, ij.2 ∈ cs) :
    ps.foldlM (coverStep hash h cs) (stateOf hash h cs done) = .ok (stateOf hash h cs (done ++ ps)) := by
  induction ps generalizing done with
  | nil => simp
  | cons ij ps ih =>
    rw [List.foldlM_cons, coverStep_stateOf hash h cs done ij (hp ij (by simp)), py_ok_bind,
      ih _ fun x hx => hp x (by simp [hx])]
    simp

/-- The dict is the covering relation of the objects `cs` with their values in `h`. -/
structure Good (h : Heap α β) (cs : List ℕ) (D : Dict K) : Prop where
  keys : ∀ e ∈ D, e.1.1 = hash (h e.1.2) ∧ e.1.2 ∈ cs
  all : ∀ m ∈ cs, ∃ e ∈ D, kap hash h e.1.2 = kap hash h m
  stored : ∀ e ∈ D, ∀ x ∈ e.2, x.1 = hash (h x.2)
  sound : ∀ e ∈ D, ∀ x ∈ e.2, Covers (fun m => (h m).c.intent) cs x.2 e.1.2
  complete : ∀ e ∈ D, ∀ q, Covers (fun m => (h m).c.intent) cs q e.1.2 → ∃ x ∈ e.2, kap hash h x.2 = kap hash h q
  once : ∀ e ∈ D, e.2.Pairwise fun x y => kap hash h x.2 ≠ kap hash h y.2

theorem covers_good (h : Heap α β) (cs : List ℕ) : ∃ D, covers hash h cs = .ok D ∧ Good hash h cs D := by
  obtain ⟨k1, k2, k3⟩ := keysOf_spec hash h cs
  refine ⟨stateOf hash h cs (cs.flatMap fun i => cs.map fun j => (i, j)), ?_, ?_⟩
  · have h0 : cs.foldl (insertEmpty hash h) [] = stateOf hash h cs [] := by
      rw [dict_init]; rfl
    rw [covers, h0, coverFold_stateOf, List.nil_append]
    intro ij hij
    obtain ⟨i, -, hm⟩ := List.mem_flatMap.1 hij
    obtain ⟨j, hj, rfl⟩ := List.mem_map.1 hm
    exact hj
  · have hup : ∀ m p, p ∈ upper hash h cs (cs.flatMap fun i => cs.map fun j => (i, j)) m →
        Covers (fun m => (h m).c.intent) cs p m := by
      intro m p hp
      obtain ⟨⟨a, b⟩, hm, rfl⟩ := List.mem_map.1 hp
      rw [List.mem_filter] at hm
      simp only [Bool.and_eq_true, decide_eq_true_eq] at hm
      obtain ⟨i, hi, hm2⟩ := List.mem_flatMap.1 hm.1
      obtain ⟨j, hj, hab⟩ := List.mem_map.1 hm2
      cases hab
      rw [← cov_iff h cs _ _ hi, ← cov_congr hash h cs rfl hm.2.1]
      exact hm.2.2
    constructor
    · intro e he
      obtain ⟨m, hm, rfl⟩ := List.mem_map.1 he
      exact ⟨rfl, k1 m hm⟩
    · intro m hm
      obtain ⟨x, hx, hxe⟩ := k2 m hm
      exact ⟨_, List.mem_map.2 ⟨x, hx, rfl⟩, hxe⟩
    · intro e he x hx
      obtain ⟨m, hm, rfl⟩ := List.mem_map.1 he
      obtain ⟨p, hp, rfl⟩ := List.mem_map.1 hx
      rfl
    · intro e he x hx
      obtain ⟨m, hm, rfl⟩ := List.mem_map.1 he
      obtain ⟨p, hp, rfl⟩ := List.mem_map.1 hx
      exact hup m p ((keysOf_spec hash h _).1 p hp)
    · intro e he q hq
      obtain ⟨m, hm, rfl⟩ := List.mem_map.1 he
      have : q ∈ upper hash h cs (cs.flatMap fun i => cs.map fun j => (i, j)) m := by
        refine List.mem_map.2 ⟨(q, m), ?_, rfl⟩
        rw [List.mem_filter]
        refine ⟨List.mem_flatMap.2 ⟨q, hq.1, List.mem_map.2 ⟨m, k1 m hm, rfl⟩⟩, ?_⟩
        simp only [decide_true, Bool.true_and]
        exact (cov_iff h cs q m hq.1).2 hq
      obtain ⟨x, hx, hxe⟩ := (keysOf_spec hash h _).2.1 q this
      exact ⟨_, List.mem_map.2 ⟨x, hx, rfl⟩, hxe⟩
    · intro e he
      obtain ⟨m, hm, rfl⟩ := List.mem_map.1 he
      rw [List.pairwise_map]
      exact (keysOf_spec hash h _).2.2

theorem covers_congr {h h' : Heap α β} {cs : List ℕ} (ha : ∀ m ∈ cs, h m = h' m) {p n n' : ℕ}
    (hn : (h n).c = (h' n').c) (hc : Covers (fun m => (h m).c.intent) cs p n) :
    Covers (fun m => (h' m).c.intent) cs p n' := by
  obtain ⟨h1, h2, h3⟩ := hc
  simp only at h2 h3
  refine ⟨h1, ?_, ?_⟩
  · simp only
    rw [← ha p h1, ← hn]; exact h2
  · rintro ⟨k, hk, h4, h5⟩
    simp only at h4 h5
    rw [← ha p h1, ← ha k hk] at h4
    rw [← ha k hk, ← hn] at h5
    exact h3 ⟨k, hk, h4, h5⟩

/-- Only the values of the members matter. -/
theorem Good.congr {h h' : Heap α β} {cs : List ℕ} {D : Dict K} (hg : Good hash h cs D)
    (ha : ∀ m ∈ cs, h m = h' m) : Good hash h' cs D := by
  have hk : ∀ m ∈ cs, kap hash h' m = kap hash h m := fun m hm => by simp only [kap, ha m hm]
  have ha' : ∀ m ∈ cs, h' m = h m := fun m hm => (ha m hm).symm
  constructor
  · intro e he
    have := hg.keys e he
    exact ⟨by rw [← ha _ this.2]; exact this.1, this.2⟩
  · intro m hm
    obtain ⟨e, he, hke⟩ := hg.all m hm
    exact ⟨e, he, by rw [hk m hm, hk _ (hg.keys e he).2]; exact hke⟩
  · intro e he x hx
    rw [← ha _ (hg.sound e he x hx).1]
    exact hg.stored e he x hx
  · intro e he x hx
    exact covers_congr ha (by rw [ha _ (hg.keys e he).2]) (hg.sound e he x hx)
  · intro e he q hq
    obtain ⟨x, hx, hxe⟩ := hg.complete e he q (covers_congr ha' (by rw [ha _ (hg.keys e he).2]) hq)
    exact ⟨x, hx, by rw [hk _ (hg.sound e he x hx).1, hk _ hq.1]; exact hxe⟩
  · intro e he
    refine (hg.once e he).imp_of_mem fun {x y} hx hy hxy => ?_
    rw [hk _ (hg.sound e he x hx).1, hk _ (hg.sound e he y hy).1]
    exact hxy

theorem hit_iff_kap {h : Heap α β} {e : K × ℕ} (he : e.1 = hash (h e.2)) (n : ℕ) :
    hit hash h e n = true ↔ kap hash h e.2 = kap hash h n := by
  unfold hit
  rw [Bool.and_eq_true, decide_eq_true_iff, decide_eq_true_iff, kap, kap, Prod.mk.injEq, he]

theorem get_good {h : Heap α β} {cs : List ℕ} {D : Dict K} (hg : Good hash h cs D) (n : ℕ) :
    ((∃ m ∈ cs, kap hash h m = kap hash h n) → ∃ S, get hash h D n = .ok S ∧ IsParents hash h cs n S) ∧
    ((¬ ∃ m ∈ cs, kap hash h m = kap hash h n) → get hash h D n = .error .keyError) := by
  have hfind : ∀ e ∈ D, hit hash h e.1 n = true ↔ kap hash h e.1.2 = kap hash h n :=
    fun e he => hit_iff_kap hash (hg.keys e he).1 n
  constructor
  · rintro ⟨m, hm, hmn⟩
    obtain ⟨e0, he0, hk0⟩ := hg.all m hm
    cases hf : D.find? fun e => hit hash h e.1 n with
    | none =>
      have := List.find?_eq_none.1 hf e0 he0
      exact absurd ((hfind e0 he0).2 (hk0.trans hmn)) (by simpa using this)
    | some e =>
      have he : e ∈ D := List.mem_of_find?_eq_some hf
      have hke : kap hash h e.1.2 = kap hash h n := (hfind e he).1 (List.find?_some (p := fun e : (K × ℕ) × PSet K => hit hash h e.1 n) hf)
      have hc : (h e.1.2).c = (h n).c := congrArg Prod.snd hke
      refine ⟨e.2, by simp only [get, hf], ?_, ?_, hg.once e he⟩
      · intro x hx
        exact covers_congr (fun _ _ => rfl) hc (hg.sound e he x hx)
      · intro p
        unfold mem
        rw [List.any_eq_true]
        constructor
        · rintro ⟨x, hx, hh⟩
          exact ⟨x.2, covers_congr (fun _ _ => rfl) hc (hg.sound e he x hx),
            (hit_iff_kap hash (hg.stored e he x hx) p).1 hh⟩
        · rintro ⟨q, hq, hqp⟩
          obtain ⟨x, hx, hxq⟩ := hg.complete e he q (covers_congr (fun _ _ => rfl) hc.symm hq)
          exact ⟨x, hx, (hit_iff_kap hash (hg.stored e he x hx) p).2 (hxq.trans hqp)⟩
  · intro hno
    have : D.find? (fun e => hit hash h e.1 n) = none := by
      rw [List.find?_eq_none]
      intro e he hh
      exact hno ⟨e.1.2, (hg.keys e he).2, (hfind e he).1 hh⟩
    simp only [get, this]

/-- The system has these concepts, and its dict, if there is one, is their covering relation at present. -/
structure Fits (h : Heap α β) (cs : List ℕ) (s : Sys K) : Prop where
  concepts : s.concepts = cs
  cache : ∀ D, s.cache = some D → Good hash h cs D

theorem fill_fits {h : Heap α β} {cs : List ℕ} {s : Sys K} (hf : Fits hash h cs s) :
    ∃ D, fill hash h s = .ok ({ s with cache := some D }, D) ∧ Good hash h cs D := by
  obtain ⟨conc, cache, ends⟩ := s
  obtain ⟨h1, h2⟩ := hf
  simp only at h1 h2
  subst h1
  obtain ⟨D', hD', hg'⟩ := covers_good hash h conc
  cases cache with
  | none => exact ⟨D', by simp only [fill, hD', py_ok_bind], hg'⟩
  | some D =>
    by_cases hc : ends.isNone ∧ D.isEmpty
    · exact ⟨D', by simp only [fill, if_pos hc, hD', py_ok_bind], hg'⟩
    · exact ⟨D, by simp only [fill, if_neg hc], h2 D rfl⟩

theorem parents_fits {h : Heap α β} {cs : List ℕ} {s : Sys K} (hf : Fits hash h cs s) (n : ℕ) :
    Fits hash h cs (parents hash h s n).1 ∧ (parents hash h s n).1.ends = s.ends ∧
    ((∃ m ∈ cs, kap hash h m = kap hash h n) →
      ∃ S, (parents hash h s n).2 = .ok S ∧ IsParents hash h cs n S) ∧
    ((¬ ∃ m ∈ cs, kap hash h m = kap hash h n) → (parents hash h s n).2 = .error .keyError) := by
  obtain ⟨D, hD, hg⟩ := fill_fits hash hf
  have : parents hash h s n = ({ s with cache := some D }, get hash h D n) := by simp only [parents, hD]
  rw [this]
  refine ⟨⟨hf.concepts, ?_⟩, rfl, get_good hash hg n⟩
  intro D' hD'
  simp only [Option.some.injEq] at hD'
  exact hD' ▸ hg

/-- `n` is an upper neighbour of `m`. -/
def under (h : Heap α β) (cs : List ℕ) (n m : ℕ) : Bool :=
  cs.any fun q => cov h cs (q, m) && decide (kap hash h q = kap hash h n)

theorem under_iff (h : Heap α β) (cs : List ℕ) (n m : ℕ) :
    under hash h cs n m = true ↔ ∃ q, Covers (fun m => (h m).c.intent) cs q m ∧ kap hash h q = kap hash h n := by
  unfold under
  rw [List.any_eq_true]
  constructor
  · rintro ⟨q, hq, hh⟩
    rw [Bool.and_eq_true, decide_eq_true_iff, cov_iff h cs q m hq] at hh
    exact ⟨q, hh⟩
  · rintro ⟨q, hq, hk⟩
    refine ⟨q, hq.1, ?_⟩
    rw [Bool.and_eq_true, decide_eq_true_iff, cov_iff h cs q m hq.1]
    exact ⟨hq, hk⟩

theorem childrenLoop_fits {h : Heap α β} {cs : List ℕ} (n : ℕ) (ms : List ℕ) (hms : ∀ m ∈ ms, m ∈ cs) (s : Sys K)
    (hf : Fits hash h cs s) (l : List ℕ) :
    ∃ s', childrenLoop hash h n ms s ((keysOf hash h l).map (ent hash h)) =
        (s', .ok ((keysOf hash h (l ++ ms.filter (under hash h cs n))).map (ent hash h))) ∧
      Fits hash h cs s' ∧ s'.ends = s.ends := by
  induction ms generalizing s l with
  | nil => exact ⟨s, by simp [childrenLoop], hf, rfl⟩
  | cons m ms ih =>
    obtain ⟨f1, f2, f3, -⟩ := parents_fits hash hf m
    obtain ⟨S, hS, hP⟩ := f3 ⟨m, hms m (by simp), rfl⟩
    have hpair : parents hash h s m = ((parents hash h s m).1, .ok S) := Prod.ext rfl hS
    have hmem : mem hash h S n = under hash h cs n m := by
      rw [Bool.eq_iff_iff, hP.mem_iff, under_iff]
    rw [childrenLoop, hpair]
    simp only
    rw [hmem]
    by_cases hu : under hash h cs n m = true
    · rw [if_pos hu, add_keysOf]
      obtain ⟨s', h1, h2, h3⟩ := ih (fun x hx => hms x (by simp [hx])) _ f1 (l ++ [m])
      refine ⟨s', ?_, h2, h3.trans f2⟩
      rw [h1, List.filter_cons_of_pos hu]
      simp
    · rw [if_neg hu]
      obtain ⟨s', h1, h2, h3⟩ := ih (fun x hx => hms x (by simp [hx])) _ f1 l
      refine ⟨s', ?_, h2, h3.trans f2⟩
      rw [h1, List.filter_cons_of_neg hu]

theorem children_fits {h : Heap α β} {cs : List ℕ} {s : Sys K} (hf : Fits hash h cs s) (n : ℕ) :
    Fits hash h cs (children hash h s n).1 ∧ (children hash h s n).1.ends = s.ends ∧
    ∃ T, (children hash h s n).2 = .ok T ∧ IsChildren hash h cs n T := by
  obtain ⟨s', h1, h2, h3⟩ := childrenLoop_fits hash n cs (fun _ hm => hm) s hf []
  have hc : children hash h s n = (s', .ok ((keysOf hash h (cs.filter (under hash h cs n))).map (ent hash h))) := by
    rw [children, hf.concepts]
    simpa [keysOf] using h1
  rw [hc]
  refine ⟨h2, h3, _, rfl, ?_, ?_, ?_⟩
  · intro e he
    obtain ⟨m, hm, rfl⟩ := List.mem_map.1 he
    have := (keysOf_spec hash h _).1 m hm
    rw [List.mem_filter, under_iff] at this
    exact this
  · intro d
    rw [mem_map_ent, List.any_eq_true]
    constructor
    · rintro ⟨m, hm, he⟩
      have := (keysOf_spec hash h _).1 m hm
      rw [List.mem_filter, under_iff] at this
      exact ⟨m, this.1, of_decide_eq_true he, this.2⟩
    · rintro ⟨m, hm, hk, hq⟩
      obtain ⟨x, hx, hxe⟩ := (keysOf_spec hash h (cs.filter (under hash h cs n))).2.1 m
        (List.mem_filter.2 ⟨hm, (under_iff hash h cs n m).2 hq⟩)
      exact ⟨x, hx, decide_eq_true (hxe.trans hk)⟩
  · rw [List.pairwise_map]
    exact (keysOf_spec hash h _).2.2

/-! ### Programs -/

/-- The step does not change the concepts `cs`, nor system `k` by `append`, `remove` or through the set returned by
`parents`. -/
def Quiet (k : ℕ) (cs : List ℕ) : Op α β K → Prop
  | .change n _ => n ∉ cs
  | .append j _ => j ≠ k
  | .remove j _ => j ≠ k
  | .edit j _ _ => j ≠ k
  | .extend j _ => j ≠ k
  | _ => True

/-- The step does not change the containers the lattice `k` hands out: its list of concepts, its sets of parents. -/
def HandsOff (k : ℕ) : Op α β K → Prop
  | .edit j _ _ => j ≠ k
  | .extend j _ => j ≠ k
  | _ => True

theorem onSys_other {w : World α β K} {j k : ℕ} (f : Sys K → Sys K × Option PyErr) (hjk : j ≠ k) :
    (onSys w j f).1.systems[k]? = w.systems[k]? ∧ (onSys w j f).1.heap = w.heap := by
  unfold onSys
  split
  · exact ⟨rfl, rfl⟩
  · refine ⟨?_, rfl⟩
    simp only
    rw [List.getElem?_set_ne hjk]

theorem onSys_self {w : World α β K} {k : ℕ} {s : Sys K} (f : Sys K → Sys K × Option PyErr) (hs : w.systems[k]? = some s) :
    (onSys w k f).1.systems[k]? = some (f s).1 ∧ (onSys w k f).1.heap = w.heap ∧ (onSys w k f).2 = (f s).2 := by
  unfold onSys
  rw [hs]
  refine ⟨?_, rfl, rfl⟩
  simp only
  rw [List.getElem?_set_self]
  exact (List.getElem?_eq_some_iff.1 hs).1

theorem onSys_heap {w : World α β K} {k : ℕ} (f : Sys K → Sys K × Option PyErr) : (onSys w k f).1.heap = w.heap := by
  unfold onSys
  split <;> rfl

theorem append_getElem? {γ : Type} {l : List γ} {k : ℕ} {s x : γ} (hs : l[k]? = some s) : (l ++ [x])[k]? = some s := by
  rw [List.getElem?_append_left (List.getElem?_eq_some_iff.1 hs).1, hs]

theorem exec_fits {w : World α β K} {k : ℕ} {cs : List ℕ} {s : Sys K} (hs : w.systems[k]? = some s)
    (hf : Fits hash w.heap cs s) (op : Op α β K) (hq : Quiet k cs op) :
    (∀ m ∈ cs, (exec hash w op).1.heap m = w.heap m) ∧
    ∃ s', (exec hash w op).1.systems[k]? = some s' ∧ Fits hash (exec hash w op).1.heap cs s' ∧ s'.ends = s.ends := by
  cases op with
  | change n v =>
    have ha : ∀ m ∈ cs, w.heap m = Function.update w.heap n v m := by
      intro m hm
      rw [Function.update_of_ne]
      rintro rfl
      exact hq hm
    exact ⟨fun m hm => (ha m hm).symm, s, hs, ⟨hf.concepts, fun D hD => (hf.cache D hD).congr hash ha⟩, rfl⟩
  | system l => exact ⟨fun _ _ => rfl, s, append_getElem? hs, hf, rfl⟩
  | lattice l =>
    simp only [exec]
    split
    · exact ⟨fun _ _ => rfl, s, append_getElem? hs, hf, rfl⟩
    · exact ⟨fun _ _ => rfl, s, hs, hf, rfl⟩
  | append j n =>
    obtain ⟨h1, h2⟩ := onSys_other (w := w) (fun s => append s n) (show j ≠ k from hq)
    exact ⟨fun m _ => by simp only [exec]; rw [h2], s, by simp only [exec]; rw [h1, hs], by simp only [exec]; rw [h2]; exact hf, rfl⟩
  | remove j n =>
    obtain ⟨h1, h2⟩ := onSys_other (w := w) (fun s => removeConcept w.heap s n) (show j ≠ k from hq)
    exact ⟨fun m _ => by simp only [exec]; rw [h2], s, by simp only [exec]; rw [h1, hs], by simp only [exec]; rw [h2]; exact hf, rfl⟩
  | edit j n f =>
    obtain ⟨h1, h2⟩ := onSys_other (w := w) (fun s => edit hash w.heap s n f) (show j ≠ k from hq)
    exact ⟨fun m _ => by simp only [exec]; rw [h2], s, by simp only [exec]; rw [h1, hs], by simp only [exec]; rw [h2]; exact hf, rfl⟩
  | extend j n =>
    obtain ⟨h1, h2⟩ := onSys_other (w := w) (fun s => extend s n) (show j ≠ k from hq)
    exact ⟨fun m _ => by simp only [exec]; rw [h2], s, by simp only [exec]; rw [h1, hs], by simp only [exec]; rw [h2]; exact hf, rfl⟩
  | parents j n =>
    simp only [exec]
    rw [onSys_heap]
    refine ⟨fun _ _ => rfl, ?_⟩
    by_cases hjk : j = k
    · subst hjk
      obtain ⟨f1, f2, -⟩ := parents_fits hash hf n
      exact ⟨_, (onSys_self _ hs).1, f1, f2⟩
    · exact ⟨s, by rw [(onSys_other _ hjk).1, hs], hf, rfl⟩
  | children j n =>
    simp only [exec]
    rw [onSys_heap]
    refine ⟨fun _ _ => rfl, ?_⟩
    by_cases hjk : j = k
    · subst hjk
      obtain ⟨f1, f2, -⟩ := children_fits hash hf n
      exact ⟨_, (onSys_self _ hs).1, f1, f2⟩
    · exact ⟨s, by rw [(onSys_other _ hjk).1, hs], hf, rfl⟩

theorem run_cons (w : World α β K) (op : Op α β K) (ops : List (Op α β K)) :
    run hash w (op :: ops) = run hash (exec hash w op).1 ops := rfl

theorem run_fits {w : World α β K} {k : ℕ} {cs : List ℕ} {s : Sys K} (hs : w.systems[k]? = some s)
    (hf : Fits hash w.heap cs s) (ops : List (Op α β K)) (hq : ∀ op ∈ ops, Quiet k cs op) :
    (∀ m ∈ cs, (run hash w ops).heap m = w.heap m) ∧
    ∃ s', (run hash w ops).systems[k]? = some s' ∧ Fits hash (run hash w ops).heap cs s' ∧ s'.ends = s.ends := by
  induction ops generalizing w s with
  | nil => exact ⟨fun _ _ => rfl, s, hs, hf, rfl⟩
  | cons op ops ih =>
    obtain ⟨h1, s1, h2, h3, h4⟩ := exec_fits hash hs hf op (hq op (by simp))
    obtain ⟨g1, s2, g2, g3, g4⟩ := ih h2 h3 fun x hx => hq x (by simp [hx])
    rw [run_cons]
    exact ⟨fun m hm => (g1 m hm).trans (h1 m hm), s2, g2, g3, g4.trans h4⟩

/-- A lattice is not changed by its own methods. -/
theorem parents_lattice {h : Heap α β} {s : Sys K} {D : Dict K} {bt : ℕ × ℕ} (hc : s.cache = some D)
    (he : s.ends = some bt) (n : ℕ) : parents hash h s n = (s, get hash h D n) := by
  simp only [parents, fill, hc, he, Option.isNone_some, Bool.false_eq_true, false_and, if_false]

theorem childrenLoop_lattice {h : Heap α β} {s : Sys K} {D : Dict K} {bt : ℕ × ℕ} (hc : s.cache = some D)
    (he : s.ends = some bt) (n : ℕ) (ms : List ℕ) (T : PSet K) : (childrenLoop hash h n ms s T).1 = s := by
  induction ms generalizing T with
  | nil => rfl
  | cons m ms ih =>
    rw [childrenLoop, parents_lattice hash hc he]
    cases get hash h D m with
    | error e => rfl
    | ok S => exact ih _

theorem exec_lattice {w : World α β K} {k : ℕ} {s : Sys K} {D : Dict K} {bt : ℕ × ℕ} (hs : w.systems[k]? = some s)
    (hc : s.cache = some D) (he : s.ends = some bt) (op : Op α β K) (hq : HandsOff k op) :
    (exec hash w op).1.systems[k]? = some s := by
  have key : ∀ (j : ℕ) (f : Sys K → Sys K × Option PyErr), (j = k → (f s).1 = s) →
      (onSys w j f).1.systems[k]? = some s := by
    intro j f hf
    by_cases hjk : j = k
    · subst hjk
      rw [(onSys_self f hs).1, hf rfl]
    · rw [(onSys_other f hjk).1, hs]
  cases op with
  | change n v => exact hs
  | system l => exact append_getElem? hs
  | lattice l =>
    simp only [exec]
    split
    · exact append_getElem? hs
    · exact hs
  | append j n => exact key j _ fun _ => by simp [append, he]
  | remove j n => exact key j _ fun _ => by simp [removeConcept, he]
  | parents j n => exact key j _ fun _ => by simp only [parents_lattice hash hc he]
  | children j n => exact key j _ fun _ => childrenLoop_lattice hash hc he n _ _
  | edit j n f => exact key j _ fun hjk => absurd hjk hq
  | extend j n => exact key j _ fun hjk => absurd hjk hq

theorem run_lattice {w : World α β K} {k : ℕ} {s : Sys K} {D : Dict K} {bt : ℕ × ℕ} (hs : w.systems[k]? = some s)
    (hc : s.cache = some D) (he : s.ends = some bt) (ops : List (Op α β K)) (hq : ∀ op ∈ ops, HandsOff k op) :
    (run hash w ops).systems[k]? = some s := by
  induction ops generalizing w with
  | nil => exact hs
  | cons op ops ih =>
    rw [run_cons]
    exact ih (exec_lattice hash hs hc he op (hq op (by simp))) fun x hx => hq x (by simp [hx])

end KO

open KO

variable {K : Type} [DecidableEq K] (hash : KObj α β → K)

/-! ### C163 -/

/-- A new system, and a system after every `append` and every successful `remove`, has no dict, whatever happened before
(whatever was changed, also through the sets returned by `parents`); the list is the expected one. -/
theorem C163_renewed (w : World α β K) :
    (∀ cs, (exec hash w (.system cs)).2 = none ∧
      (exec hash w (.system cs)).1.systems[w.systems.length]? = some ⟨cs, none, none⟩) ∧
    (∀ (k : ℕ) (s : Sys K), w.systems[k]? = some s → s.ends = none → ∀ n,
      ((exec hash w (.append k n)).2 = none ∧
        (exec hash w (.append k n)).1.systems[k]? = some ⟨s.concepts ++ [n], none, none⟩) ∧
      ((∃ m ∈ s.concepts, (w.heap m).c = (w.heap n).c) → (exec hash w (.remove k n)).2 = none ∧
        ∃ l m r, s.concepts = l ++ m :: r ∧ (w.heap m).c = (w.heap n).c ∧ (∀ x ∈ l, (w.heap x).c ≠ (w.heap n).c) ∧
          (exec hash w (.remove k n)).1.systems[k]? = some ⟨l ++ r, none, none⟩) ∧
      ((¬ ∃ m ∈ s.concepts, (w.heap m).c = (w.heap n).c) → (exec hash w (.remove k n)).2 = some .valueError ∧
        (exec hash w (.remove k n)).1.systems[k]? = some s)) := by
  refine ⟨fun cs => ⟨rfl, by simp [exec]⟩, fun k s hs he n => ⟨?_, ?_, ?_⟩⟩
  · obtain ⟨h1, -, h3⟩ := onSys_self (w := w) (fun s => append s n) hs
    simp only [exec]
    rw [h1, h3]
    simp [append, he]
  · rintro ⟨m, hm, hmn⟩
    obtain ⟨h1, -, h3⟩ := onSys_self (w := w) (fun s => removeConcept w.heap s n) hs
    have hany : (s.concepts.any fun m => decide ((w.heap m).c = (w.heap n).c)) = true :=
      List.any_eq_true.2 ⟨m, hm, by simpa using hmn⟩
    obtain ⟨x, l, r, e1, e2, e3, e4⟩ := List.exists_of_eraseP (p := fun m => decide ((w.heap m).c = (w.heap n).c)) hm
      (by simpa using hmn)
    simp only [exec]
    rw [h1, h3]
    simp only [removeConcept, he, Option.isSome_none, Bool.false_eq_true, if_false, hany, if_true]
    refine ⟨trivial, l, x, r, e3, by simpa using e2, fun y hy => by simpa using e1 y hy, ?_⟩
    rw [e4]
  · intro hno
    obtain ⟨h1, -, h3⟩ := onSys_self (w := w) (fun s => removeConcept w.heap s n) hs
    have hany : ¬ (s.concepts.any fun m => decide ((w.heap m).c = (w.heap n).c)) = true := by
      rw [List.any_eq_true]
      rintro ⟨m, hm, hmn⟩
      exact hno ⟨m, hm, by simpa using hmn⟩
    simp only [exec]
    rw [h1, h3]
    simp only [removeConcept, he, Option.isSome_none, Bool.false_eq_true, if_false, if_neg hany]
    exact ⟨trivial, trivial⟩

/-- From such a moment on, as long as the program does not change the concepts of the system (other concepts, other
systems and lattices may change), `parents` and `children` give the upper and lower neighbours by the present intents:
`parents` for every object that agrees in hash and value with a member, KeyError for all others. Equal concepts may occur
several times, with different meta data, and the hash is arbitrary. -/
theorem C163_system (w : World α β K) (k : ℕ) (cs : List ℕ) (hk : w.systems[k]? = some ⟨cs, none, none⟩)
    (ops : List (Op α β K)) (hq : ∀ op ∈ ops, Quiet k cs op) :
    ∃ s, (run hash w ops).systems[k]? = some s ∧ s.concepts = cs ∧
      ∀ n, ((∃ m ∈ cs, kap hash (run hash w ops).heap m = kap hash (run hash w ops).heap n) →
          ∃ S, (parents hash (run hash w ops).heap s n).2 = .ok S ∧ IsParents hash (run hash w ops).heap cs n S) ∧
        ((¬ ∃ m ∈ cs, kap hash (run hash w ops).heap m = kap hash (run hash w ops).heap n) →
          (parents hash (run hash w ops).heap s n).2 = .error .keyError) ∧
        ∃ T, (children hash (run hash w ops).heap s n).2 = .ok T ∧ IsChildren hash (run hash w ops).heap cs n T := by
  obtain ⟨-, s, h2, h3, -⟩ := run_fits hash hk ⟨rfl, by simp⟩ ops hq
  refine ⟨s, h2, h3.concepts, fun n => ?_⟩
  obtain ⟨-, -, p1, p2⟩ := parents_fits hash h3 n
  exact ⟨p1, p2, (children_fits hash h3 n).2.2⟩

/-- What `ConceptLattice` computes. -/
theorem KO.makeLattice_good (h : Heap α β) (cs : List ℕ) (hne : cs ≠ []) :
    ∃ D b t, KO.makeLattice hash h cs = .ok ⟨cs, some D, some (b, t)⟩ ∧ Good hash h cs D ∧
      (b ∈ cs ∧ ∀ m ∈ cs, ¬ (h b).c.intent ⊂ (h m).c.intent) ∧
      (t ∈ cs ∧ ∀ m ∈ cs, ¬ (h m).c.intent ⊂ (h t).c.intent) := by
  obtain ⟨D, hD, hg⟩ := covers_good hash h cs
  obtain ⟨t, ht, hmin⟩ := exists_minimal (fun n => (h n).c.intent) cs hne
  obtain ⟨b, hb, hmax⟩ := exists_maximal (fun n => (h n).c.intent) cs hne
  obtain ⟨b', hb', hbm⟩ := pyGet_zero_filter (l := cs) (p := fun n => (ideal h cs n).isEmpty) ⟨b, hb, by
    rw [List.isEmpty_iff, ideal, List.filter_eq_nil_iff]
    intro m hm
    simpa using hmax m hm⟩
  obtain ⟨t', ht', htm⟩ := pyGet_zero_filter (l := cs) (p := fun n => (KO.filter h cs n).isEmpty) ⟨t, ht, by
    rw [List.isEmpty_iff, KO.filter, List.filter_eq_nil_iff]
    intro m hm
    simpa using hmin m hm⟩
  refine ⟨D, b', t', by simp only [KO.makeLattice, hD, hb', ht', py_ok_bind], hg, ⟨hbm.1, fun m hm hlt => ?_⟩,
    ⟨htm.1, fun m hm hlt => ?_⟩⟩
  · have := List.isEmpty_iff.1 hbm.2
    simp only [ideal, List.filter_eq_nil_iff, decide_eq_true_eq] at this
    exact this m hm hlt
  · have := List.isEmpty_iff.1 htm.2
    simp only [KO.filter, List.filter_eq_nil_iff, decide_eq_true_eq] at this
    exact this m hm hlt

/-- A lattice computes its dict once (IndexError if there is no concept). Whatever the program does, except to the list of
concepts and to the sets of parents the lattice hands out: whenever the concepts have the values they had when the
lattice was made, `parents` and `children` are right. -/
theorem C163_lattice (w : World α β K) (cs : List ℕ) :
    (cs = [] → exec hash w (.lattice cs) = (w, some .indexError)) ∧
    (cs ≠ [] → (exec hash w (.lattice cs)).2 = none ∧ ∀ (ops : List (Op α β K)) (w' : World α β K),
      w' = run hash (exec hash w (.lattice cs)).1 ops → (∀ op ∈ ops, HandsOff w.systems.length op) →
      (∀ m ∈ cs, w'.heap m = w.heap m) →
      ∃ s b t, w'.systems[w.systems.length]? = some s ∧ s.concepts = cs ∧ s.ends = some (b, t) ∧
        (b ∈ cs ∧ ∀ m ∈ cs, ¬ (w'.heap b).c.intent ⊂ (w'.heap m).c.intent) ∧
        (t ∈ cs ∧ ∀ m ∈ cs, ¬ (w'.heap m).c.intent ⊂ (w'.heap t).c.intent) ∧
        ∀ n, ((∃ m ∈ cs, kap hash w'.heap m = kap hash w'.heap n) →
            ∃ S, (parents hash w'.heap s n).2 = .ok S ∧ IsParents hash w'.heap cs n S) ∧
          ((¬ ∃ m ∈ cs, kap hash w'.heap m = kap hash w'.heap n) →
            (parents hash w'.heap s n).2 = .error .keyError) ∧
          ∃ T, (children hash w'.heap s n).2 = .ok T ∧ IsChildren hash w'.heap cs n T) := by
  constructor
  · rintro rfl
    rfl
  · intro hne
    obtain ⟨D, b, t, hm, hg, ⟨hb1, hb2⟩, ht1, ht2⟩ := KO.makeLattice_good hash w.heap cs hne
    have he : exec hash w (.lattice cs) = ({ w with systems := w.systems ++ [⟨cs, some D, some (b, t)⟩] }, none) := by
      simp only [exec, hm]
    rw [he]
    refine ⟨rfl, fun ops w' hw' hq hv => ?_⟩
    have hs : w'.systems[w.systems.length]? = some ⟨cs, some D, some (b, t)⟩ := by
      rw [hw']
      exact run_lattice hash (by simp) rfl rfl ops hq
    have hf : Fits hash w'.heap cs ⟨cs, some D, some (b, t)⟩ :=
      ⟨rfl, fun D' hD' => by
        simp only [Option.some.injEq] at hD'
        subst hD'
        exact hg.congr hash fun m hm => (hv m hm).symm⟩
    refine ⟨_, b, t, hs, rfl, rfl, ⟨hb1, fun m hm => ?_⟩, ⟨ht1, fun m hm => ?_⟩, fun n => ?_⟩
    · rw [hv b hb1, hv m hm]; exact hb2 m hm
    · rw [hv t ht1, hv m hm]; exact ht2 m hm
    · obtain ⟨-, -, p1, p2⟩ := parents_fits hash hf n
      exact ⟨p1, p2, (children_fits hash hf n).2.2⟩

/-- As long as a concept system fits its objects, its answers are those of the covering relation on values (`C36`). -/
theorem C163_values (h : Heap α β) (cs : List ℕ) (n : ℕ) (hn : ∃ m ∈ cs, (h m).c = (h n).c) (S : PSet K)
    (hS : IsParents hash h cs n S) :
    ∃ P, coveringRelation (cs.map fun m => (h m).c) = .ok P ∧
      dictGet P (h n).c = .ok (S.map fun e => (h e.2).c).toFinset := by
  obtain ⟨P, h1, h2, -⟩ := C36_covering (cs.map fun m => (h m).c)
  obtain ⟨m, hm, hmn⟩ := hn
  obtain ⟨S', h3, h4⟩ := h2 (h n).c (List.mem_map.2 ⟨m, hm, hmn⟩)
  refine ⟨P, h1, ?_⟩
  rw [h3]
  congr 1
  ext p
  rw [h4, List.mem_toFinset, List.mem_map]
  constructor
  · rintro ⟨hp1, hp2, hp3⟩
    obtain ⟨q, hq, rfl⟩ := List.mem_map.1 hp1
    have hcov : Covers (fun m => (h m).c.intent) cs q n := by
      refine ⟨hq, hp2, ?_⟩
      rintro ⟨k, hk, hk1, hk2⟩
      exact hp3 ⟨_, List.mem_map.2 ⟨k, hk, rfl⟩, hk1, hk2⟩
    have := (hS.mem_iff q).2 ⟨q, hcov, rfl⟩
    unfold mem at this
    obtain ⟨e, he, hh⟩ := List.any_eq_true.1 this
    unfold hit at hh
    rw [Bool.and_eq_true, decide_eq_true_iff, decide_eq_true_iff] at hh
    exact ⟨e, he, hh.2⟩
  · rintro ⟨e, he, rfl⟩
    obtain ⟨c1, c2, c3⟩ := hS.sound e he
    refine ⟨List.mem_map.2 ⟨_, c1, rfl⟩, c2, ?_⟩
    rintro ⟨k, hk, hk1, hk2⟩
    obtain ⟨x, hx, rfl⟩ := List.mem_map.1 hk
    exact c3 ⟨x, hx, hk1, hk2⟩

/-! ### Where the answers are wrong -/

theorem KO.get_lost {h : Heap α β} {D : Dict K} {n : ℕ} (hn : ∀ e ∈ D, e.1.1 ≠ hash (h n)) :
    get hash h D n = .error .keyError := by
  have : D.find? (fun e => hit hash h e.1 n) = none := by
    rw [List.find?_eq_none]
    intro e he hh
    unfold hit at hh
    rw [Bool.and_eq_true, decide_eq_true_iff] at hh
    exact hn e he hh.1
  simp only [get, this]

theorem KO.get_err {h : Heap α β} {D : Dict K} {n : ℕ} {e : PyErr} (hn : get hash h D n = .error e) : e = .keyError := by
  unfold get at hn
  split at hn
  · cases hn
  · cases hn; rfl

/-- The dict is used as it is. -/
def KO.Holds (s : Sys K) (D : Dict K) : Prop := s.cache = some D ∧ (s.ends.isSome ∨ D ≠ [])

theorem KO.fill_holds {h : Heap α β} {s : Sys K} {D : Dict K} (hh : Holds s D) : fill hash h s = .ok (s, D) := by
  have : ¬ (s.ends.isNone = true ∧ D.isEmpty = true) := by
    rintro ⟨h1, h2⟩
    rcases hh.2 with h3 | h3
    · rw [Option.isNone_iff_eq_none] at h1
      rw [h1] at h3
      simp at h3
    · exact h3 (List.isEmpty_iff.1 h2)
  simp only [fill, hh.1]
  rw [if_neg this]

theorem KO.parents_holds {h : Heap α β} {s : Sys K} {D : Dict K} (hh : Holds s D) (n : ℕ) :
    parents hash h s n = (s, get hash h D n) := by
  simp only [parents, fill_holds hash hh]

theorem KO.childrenLoop_lost {h : Heap α β} {s : Sys K} {D : Dict K} (hh : Holds s D) {n : ℕ} (ms : List ℕ)
    (hn : n ∈ ms) (hl : ∀ e ∈ D, e.1.1 ≠ hash (h n)) (x : ℕ) (T : PSet K) :
    childrenLoop hash h x ms s T = (s, .error .keyError) := by
  induction ms generalizing T with
  | nil => simp at hn
  | cons m ms ih =>
    rw [childrenLoop, parents_holds hash hh]
    cases hg : get hash h D m with
    | error e => rw [get_err hash hg]
    | ok S =>
      rcases List.mem_cons.1 hn with rfl | hn
      · rw [get_lost hash hl] at hg; cases hg
      · exact ih hn _

/-- A lattice with the concepts `cs` and a concept system with the concepts `ds` whose parents have been asked for, for
instance one made by `filter_concepts`: they share concept objects. If one of these objects changes, for instance gets
meta data by `compute_index`, and the new hash is none of the hashes so far, then `parents` of the object raises
KeyError in both, and so does `children` of every object. The lattice stays like this (until the object gets a hash
stored for an equal concept); the system gives right answers after the next `append` or `remove` (`C163_renewed`,
`C163_system`). -/
theorem C163_changed_violated (w : World α β K) (cs ds : List ℕ) (n : ℕ) (hn : n ∈ cs) (hd : n ∈ ds) (v : KObj α β)
    (hv : ∀ m ∈ cs ++ ds, hash (w.heap m) ≠ hash v) (w' : World α β K)
    (hw : w' = run hash w [.lattice cs, .system ds, .parents (w.systems.length + 1) n, .change n v]) :
    (w'.heap n = v ∧ ∀ m, m ≠ n → w'.heap m = w.heap m) ∧
    ∃ s t, w'.systems = w.systems ++ [s, t] ∧ s.concepts = cs ∧ t.concepts = ds ∧
      (parents hash w'.heap s n).2 = .error .keyError ∧ (parents hash w'.heap t n).2 = .error .keyError ∧
      ∀ x, (children hash w'.heap s x).2 = .error .keyError ∧ (children hash w'.heap t x).2 = .error .keyError := by
  obtain ⟨D, b, t, hm, hg, -⟩ := KO.makeLattice_good hash w.heap cs (List.ne_nil_of_mem hn)
  obtain ⟨E, hE, hgE⟩ := fill_fits hash (h := w.heap) (cs := ds) (s := ⟨ds, none, none⟩) ⟨rfl, by simp⟩
  have hEne : E ≠ [] := by
    rintro rfl
    obtain ⟨e, he, -⟩ := hgE.all n hd
    simp at he
  have hpar : parents hash w.heap (⟨ds, none, none⟩ : Sys K) n = (⟨ds, some E, none⟩, get hash w.heap E n) := by
    simp only [parents, hE]
  have hW : w' = ⟨Function.update w.heap n v, w.systems ++ [⟨cs, some D, some (b, t)⟩, ⟨ds, some E, none⟩]⟩ := by
    rw [hw]
    simp only [run, List.foldl_cons, List.foldl_nil, exec, hm, onSys]
    rw [show (w.systems ++ [(⟨cs, some D, some (b, t)⟩ : Sys K)] ++ [⟨ds, none, none⟩])[w.systems.length + 1]? =
      some ⟨ds, none, none⟩ by simp]
    simp only [hpar]
    congr 1
    rw [List.append_assoc, List.set_append_right _ _ (by omega)]
    simp
  subst hW
  have hlD : ∀ e ∈ D, e.1.1 ≠ hash (Function.update w.heap n v n) := by
    intro e he
    rw [Function.update_self, (hg.keys e he).1]
    exact hv _ (by simp [(hg.keys e he).2])
  have hlE : ∀ e ∈ E, e.1.1 ≠ hash (Function.update w.heap n v n) := by
    intro e he
    rw [Function.update_self, (hgE.keys e he).1]
    exact hv _ (by simp [(hgE.keys e he).2])
  have hD1 : Holds (⟨cs, some D, some (b, t)⟩ : Sys K) D := ⟨rfl, .inl rfl⟩
  have hE1 : Holds (⟨ds, some E, none⟩ : Sys K) E := ⟨rfl, .inr hEne⟩
  refine ⟨⟨Function.update_self .., fun m hm => Function.update_of_ne hm ..⟩, _, _, rfl, rfl, rfl, ?_, ?_, fun x => ⟨?_, ?_⟩⟩
  · rw [KO.parents_holds hash hD1, KO.get_lost hash hlD]
  · rw [KO.parents_holds hash hE1, KO.get_lost hash hlE]
  · rw [children, KO.childrenLoop_lost hash hD1 _ hn hlD]
  · rw [children, KO.childrenLoop_lost hash hE1 _ hd hlE]

/-- If the hash stays the same, the old answer is given without an exception: `parents` of a member that is changed to `v`
gives the parents it had, in every lattice (and every system that has its dict) where no other member is equal to it
before or after. -/
theorem C163_stale (w : World α β K) (cs : List ℕ) (n : ℕ) (hn : n ∈ cs) (v : KObj α β)
    (hv : hash v = hash (w.heap n))
    (ho : ∀ m ∈ cs, m ≠ n → (w.heap m).c ≠ (w.heap n).c ∧ (w.heap m).c ≠ v.c) (w' : World α β K)
    (hw : w' = run hash w [.lattice cs, .change n v]) :
    ∃ s S, w'.systems = w.systems ++ [s] ∧ s.concepts = cs ∧ (parents hash w'.heap s n).2 = .ok S ∧
      IsParents hash w.heap cs n S := by
  obtain ⟨D, b, t, hm, hg, -⟩ := KO.makeLattice_good hash w.heap cs (List.ne_nil_of_mem hn)
  have hW : w' = ⟨Function.update w.heap n v, w.systems ++ [⟨cs, some D, some (b, t)⟩]⟩ := by
    rw [hw]
    simp only [run, List.foldl_cons, List.foldl_nil, exec, hm]
  subst hW
  obtain ⟨S, hS, hP⟩ := (get_good hash hg n).1 ⟨n, hn, rfl⟩
  refine ⟨_, S, rfl, rfl, ?_, hP⟩
  rw [KO.parents_holds hash (⟨rfl, .inl rfl⟩ : Holds (⟨cs, some D, some (b, t)⟩ : Sys K) D)]
  simp only
  rw [← hS]
  unfold KO.get
  have : ∀ e ∈ D, hit hash (Function.update w.heap n v) e.1 n = hit hash w.heap e.1 n := by
    intro e he
    obtain ⟨k1, k2⟩ := hg.keys e he
    unfold hit
    rw [Function.update_self]
    by_cases hen : e.1.2 = n
    · rw [hen, Function.update_self, hv]
      simp
    · rw [Function.update_of_ne hen]
      have := ho _ k2 hen
      simp [this.1, this.2]
  have hfind : D.find? (fun e => hit hash (Function.update w.heap n v) e.1 n) =
      D.find? (fun e => hit hash w.heap e.1 n) := by
    clear hg hP hS hm hw
    induction D with
    | nil => rfl
    | cons e D ih =>
      rw [List.find?_cons, List.find?_cons, this e (by simp), ih fun x hx => this x (by simp [hx])]
  rw [hfind]

/-- The set returned by `parents` is the one in the dict: a change of it changes later answers. Emptying the set of a
concept that has an upper neighbour makes the answer wrong. -/
theorem C163_sets_violated (w : World α β K) (k : ℕ) (cs : List ℕ) (hk : w.systems[k]? = some ⟨cs, none, none⟩) (n q : ℕ)
    (hn : n ∈ cs) (hq : Covers (fun m => (w.heap m).c.intent) cs q n) (w' : World α β K)
    (hw : w' = run hash w [.edit k n fun _ => []]) :
    w'.heap = w.heap ∧ ∃ s, w'.systems[k]? = some s ∧ s.concepts = cs ∧
      (parents hash w'.heap s n).2 = .ok [] ∧ ¬ IsParents hash w'.heap cs n [] := by
  obtain ⟨E, hE, hgE⟩ := fill_fits hash (h := w.heap) (cs := cs) (s := ⟨cs, none, none⟩) ⟨rfl, by simp⟩
  have hmod : ∀ D : Dict K, (∃ e ∈ D, hit hash w.heap e.1 n = true) →
      ∃ D', modify hash w.heap n (fun _ => .ok []) D = .ok D' ∧ D' ≠ [] ∧ get hash w.heap D' n = .ok [] := by
    intro D
    induction D with
    | nil => simp
    | cons e D ih =>
      intro hex
      by_cases he : hit hash w.heap e.1 n = true
      · refine ⟨(e.1, []) :: D, by simp only [KO.modify, he, if_true, py_ok_bind], by simp, ?_⟩
        simp only [KO.get, List.find?_cons, he]
      · obtain ⟨x, hx, hxn⟩ := hex
        rcases List.mem_cons.1 hx with rfl | hx
        · exact absurd hxn he
        · obtain ⟨D', h1, h2, h3⟩ := ih ⟨x, hx, hxn⟩
          refine ⟨e :: D', by simp only [KO.modify, if_neg he, h1, py_ok_bind], by simp, ?_⟩
          simp only [KO.get, List.find?_cons, Bool.not_eq_true _ ▸ he] at h3 ⊢
          exact h3
  obtain ⟨e, he, hke⟩ := hgE.all n hn
  obtain ⟨D', h1, h2, h3⟩ := hmod E ⟨e, he, (hit_iff_kap hash (hgE.keys e he).1 n).2 hke⟩
  have hed : edit hash w.heap (⟨cs, none, none⟩ : Sys K) n (fun _ => []) = (⟨cs, some D', none⟩, none) := by
    simp only [edit, hE, h1]
  obtain ⟨g1, g2, -⟩ := onSys_self (w := w) (fun s => edit hash w.heap s n fun _ => []) hk
  have hrun : w' = (onSys w k fun s => edit hash w.heap s n fun _ => []).1 := by rw [hw]; rfl
  rw [hrun, g2]
  refine ⟨rfl, ⟨cs, some D', none⟩, by rw [g1, hed], rfl, ?_, ?_⟩
  · rw [KO.parents_holds hash (⟨rfl, .inr h2⟩ : Holds (⟨cs, some D', none⟩ : Sys K) D'), h3]
  · intro hP
    have := (hP.mem_iff q).2 ⟨q, hq, rfl⟩
    simp [mem] at this

theorem KO.err_modify (h : Heap α β) (n : ℕ) (f : PSet K → PSet K) (D : Dict K) :
    err (KO.modify hash h n (fun S => .ok (f S)) D) = err (KO.get hash h D n) := by
  induction D with
  | nil => rfl
  | cons e D ih =>
    by_cases he : hit hash h e.1 n = true
    · simp only [KO.modify, KO.get, he, if_true, py_ok_bind, List.find?_cons_of_pos, err]
    · have hg : KO.get hash h (e :: D) n = KO.get hash h D n := by
        simp only [KO.get, List.find?_cons, Bool.not_eq_true _ ▸ he]
      rw [hg, ← ih]
      simp only [KO.modify, if_neg he]
      cases KO.modify hash h n (fun S => .ok (f S)) D <;> rfl

theorem KO.modify_get (h : Heap α β) (n : ℕ) (f : PSet K → PSet K) (D : Dict K) (S : PSet K)
    (hg : KO.get hash h D n = .ok S) :
    ∃ D', KO.modify hash h n (fun S => .ok (f S)) D = .ok D' ∧ D' ≠ [] ∧ KO.get hash h D' n = .ok (f S) := by
  induction D with
  | nil => cases hg
  | cons e D ih =>
    by_cases he : hit hash h e.1 n = true
    · simp only [KO.get, List.find?_cons, he] at hg
      cases hg
      refine ⟨(e.1, f e.2) :: D, by simp only [KO.modify, he, if_true, py_ok_bind], by simp, ?_⟩
      simp only [KO.get, List.find?_cons, he]
    · simp only [KO.get, List.find?_cons, Bool.not_eq_true _ ▸ he] at hg
      obtain ⟨D', h1, h2, h3⟩ := ih hg
      refine ⟨e :: D', by simp only [KO.modify, if_neg he, h1, py_ok_bind], by simp, ?_⟩
      simp only [KO.get, List.find?_cons, Bool.not_eq_true _ ▸ he] at h3 ⊢
      exact h3

theorem KO.fill_concepts {h : Heap α β} {s s' : Sys K} {D : Dict K} (hf : fill hash h s = .ok (s', D)) :
    s'.concepts = s.concepts := by
  unfold fill at hf
  cases hcov : covers hash h s.concepts with
  | error e =>
    rw [hcov] at hf
    split at hf
    · split at hf
      · cases hf
      · cases hf; rfl
    · cases hf
  | ok E =>
    rw [hcov] at hf
    simp only [py_ok_bind] at hf
    split at hf
    · split at hf
      · cases hf; rfl
      · cases hf; rfl
    · cases hf; rfl

/-- Editing the set that `parents(n)` returns: the call raises exactly when `parents(n)` raises, with the same exception
(so KeyError for a concept that is not found); otherwise the list of concepts stays as it is and the next `parents(n)`
returns the edited set. -/
theorem C163_edit (w : World α β K) (k n : ℕ) (f : PSet K → PSet K) :
    (exec hash w (.edit k n f)).2 = (exec hash w (.parents k n)).2 ∧
    ∀ s S, w.systems[k]? = some s → (parents hash w.heap s n).2 = .ok S →
      ∃ s', (exec hash w (.edit k n f)).1.systems[k]? = some s' ∧ s'.concepts = s.concepts ∧
        (parents hash w.heap s' n).2 = .ok (f S) := by
  constructor
  · simp only [exec, onSys]
    cases w.systems[k]? with
    | none => rfl
    | some s =>
      simp only [edit, parents]
      cases hf : fill hash w.heap s with
      | error e => rfl
      | ok r =>
        obtain ⟨s', D⟩ := r
        simp only
        rw [← KO.err_modify hash w.heap n f D]
        cases KO.modify hash w.heap n (fun S => .ok (f S)) D <;> rfl
  · intro s S hs hS
    obtain ⟨g1, -, -⟩ := onSys_self (w := w) (fun s => edit hash w.heap s n f) hs
    refine ⟨_, g1, ?_⟩
    simp only [parents] at hS
    cases hf : fill hash w.heap s with
    | error e => rw [hf] at hS; cases hS
    | ok r =>
      obtain ⟨s', D⟩ := r
      rw [hf] at hS
      simp only at hS
      obtain ⟨D', h1, h2, h3⟩ := KO.modify_get hash w.heap n f D S hS
      have hed : edit hash w.heap s n f = ({ s' with cache := some D' }, none) := by simp only [edit, hf, h1]
      rw [hed]
      refine ⟨(KO.fill_concepts hash hf : s'.concepts = s.concepts), ?_⟩
      rw [KO.parents_holds hash (⟨rfl, .inr h2⟩ : Holds ({ s' with cache := some D' } : Sys K) D'), h3]

/-- A concept put into the list `lattice.concepts` has no entry in the dict: `children` of every object raises KeyError
from then on. -/
theorem C163_list_violated (w : World α β K) (cs : List ℕ) (hne : cs ≠ []) (n : ℕ)
    (hv : ∀ m ∈ cs, hash (w.heap m) ≠ hash (w.heap n)) (w' : World α β K)
    (hw : w' = run hash w [.lattice cs, .extend w.systems.length n]) :
    w'.heap = w.heap ∧ ∃ s, w'.systems = w.systems ++ [s] ∧ s.concepts = cs ++ [n] ∧
      (parents hash w'.heap s n).2 = .error .keyError ∧ ∀ x, (children hash w'.heap s x).2 = .error .keyError := by
  obtain ⟨D, b, t, hm, hg, -⟩ := KO.makeLattice_good hash w.heap cs hne
  have hW : w' = ⟨w.heap, w.systems ++ [⟨cs ++ [n], some D, some (b, t)⟩]⟩ := by
    rw [hw]
    simp only [run, List.foldl_cons, List.foldl_nil, exec, hm, onSys]
    rw [show (w.systems ++ [(⟨cs, some D, some (b, t)⟩ : Sys K)])[w.systems.length]? =
      some ⟨cs, some D, some (b, t)⟩ by simp]
    simp [extend]
  subst hW
  have hl : ∀ e ∈ D, e.1.1 ≠ hash (w.heap n) := by
    intro e he
    rw [(hg.keys e he).1]
    exact hv _ (hg.keys e he).2
  have hD1 : Holds (⟨cs ++ [n], some D, some (b, t)⟩ : Sys K) D := ⟨rfl, .inl rfl⟩
  refine ⟨rfl, _, rfl, rfl, ?_, fun x => ?_⟩
  · rw [KO.parents_holds hash hD1, KO.get_lost hash hl]
  · rw [children, KO.childrenLoop_lost hash hD1 _ (by simp) hl]

/-- `parents` of a concept that is in the system (`remove` would find it) raises KeyError if the member has other meta
data and therefore another hash. -/
theorem C163_equal_violated (w : World α β K) (k : ℕ) (cs : List ℕ) (hk : w.systems[k]? = some ⟨cs, none, none⟩) (n m : ℕ)
    (hm : m ∈ cs) (he : (w.heap m).c = (w.heap n).c) (hv : ∀ m ∈ cs, hash (w.heap m) ≠ hash (w.heap n)) :
    (parents hash w.heap (⟨cs, none, none⟩ : Sys K) n).2 = .error .keyError ∧
    (exec hash w (.remove k n)).2 = none := by
  refine ⟨(parents_fits hash (h := w.heap) (cs := cs) (s := ⟨cs, none, none⟩) ⟨rfl, by simp⟩ n).2.2.2 ?_, ?_⟩
  · rintro ⟨x, hx, hxn⟩
    exact hv x hx (congrArg Prod.fst hxn)
  · exact (((C163_renewed hash w).2 k _ hk rfl n).2.1 ⟨m, hm, he⟩).1

/-! ### Examples -/

/-- What `str` prints (`conceptKey`) and the meta data, as hash. -/
abbrev KO.printed (o : KObj (Fin 3) (Fin 3)) : (Option (Finset (Fin 3)) × Option (Finset (Fin 3))) × Meta :=
  ((if o.c.intent.card > 0 then some o.c.extent else none, if o.c.extent.card > 0 then some o.c.intent else none), o.data)

/-- Four concept objects: `({0, 1}, {0})`, `({0}, {0, 1})`, `({}, {0, 1, 2})`, and again the second one with meta data. -/
abbrev KO.heap0 : Heap (Fin 3) (Fin 3) := fun n =>
  if n = 0 then ⟨⟨{0, 1}, {0}⟩, []⟩ else if n = 1 then ⟨⟨{0}, {0, 1}⟩, []⟩ else if n = 2 then ⟨⟨∅, {0, 1, 2}⟩, []⟩
  else ⟨⟨{0}, {0, 1}⟩, [(['x'], 1)]⟩

/-- Parents in a system, and after a change of the object with the same value but other meta data. -/
example : (parents printed heap0 ⟨[0, 1, 2, 3], none, none⟩ 2).2.toOption.map (fun S => S.map Prod.snd) = some [1, 3] ∧
    (parents printed heap0 ⟨[0, 1, 2, 3], none, none⟩ 3).2.toOption.map (fun S => S.map Prod.snd) = some [0] ∧
    (children printed heap0 ⟨[0, 1, 2, 3], none, none⟩ 0).2.toOption.map (fun S => S.map Prod.snd) = some [1, 3] := by
  decide +kernel

/-- The hypotheses of `C163_changed_violated` hold: object 1 gets meta data. -/
example : ∀ m ∈ [0, 1, 2] ++ [1, 2], printed (heap0 m) ≠ printed (heap0 3) := by decide +kernel

/-- The hypotheses of `C163_stale` hold when the intent of the concept without objects is changed, which `str` does not
show; the answer is wrong afterwards: its parent is object 1 with intent `{0, 1}`, not contained in `{1, 2}`. -/
example : printed ⟨⟨∅, {1, 2}⟩, []⟩ = printed (heap0 2) ∧
    (∀ m ∈ [0, 1, 2], m ≠ 2 → (heap0 m).c ≠ (heap0 2).c ∧ (heap0 m).c ≠ ⟨∅, {1, 2}⟩) ∧
    (parents printed heap0 ⟨[0, 1, 2], none, none⟩ 2).2.toOption.map (fun S => S.map Prod.snd) = some [1] ∧
    ¬ (heap0 1).c.intent ⊂ ({1, 2} : Finset (Fin 3)) := by decide +kernel

/-- The bottom of a lattice of three objects is the concept without objects, the top the one with all of them. -/
example : (KO.makeLattice printed heap0 [0, 1, 2]).toOption.map (fun s => s.ends) = some (some (2, 0)) := by decide +kernel

/-- A program: a lattice, a system with the same objects, meta data and back. -/
example : (run printed ⟨heap0, []⟩ [.lattice [0, 1, 2], .system [1, 2], .parents 1 2, .change 1 (heap0 3), .parents 0 1,
    .change 1 (heap0 1), .append 1 0]).systems.map (fun s => s.concepts) = [[0, 1, 2], [1, 2, 0]] := by decide +kernel

/-- `C163_edit`: object 0 put into the set of parents of object 2, and the set of an object without entry. -/
example : (exec printed ⟨heap0, [⟨[0, 1, 2], none, none⟩]⟩ (.edit 0 2 fun S => S ++ [(printed (heap0 0), 0)])).1.systems.map
      (fun s => (parents printed heap0 s 2).2.toOption.map fun S => S.map Prod.snd) = [some [1, 0]] ∧
    (exec printed ⟨heap0, [⟨[0, 1, 2], none, none⟩]⟩ (.edit 0 3 fun _ => [])).2 = some .keyError := by decide +kernel
