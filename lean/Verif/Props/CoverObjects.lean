/-
Property C147: `minimize` when implication objects are shared between lists or stand twice in one.
-/
import Verif.Model.CoverObjects
import Verif.Props.CoverCanonical

set_option linter.unusedSectionVars false

open Spec

variable {β : Type} [DecidableEq β]

namespace Cover

theorem removeObj_head (h : ImpHeap β) (a : ℕ) (l : List ℕ) : removeObj h a (a :: l) = .ok l := by
  have hself : (h a).pyEq (h a) = true := by simp [Imp.pyEq]
  unfold removeObj
  rw [if_pos (by simp [hself])]
  simp [hself]

theorem map_update {h : ImpHeap β} {a : ℕ} {v : Imp β} {l : List ℕ} (hl : a ∉ l) :
    l.map (Function.update h a v) = l.map h := by
  refine List.map_congr_left fun x hx => ?_
  rw [Function.update_of_ne]
  rintro rfl
  exact hl hx

theorem minimizeObjLoop_nodup (todo done : List ℕ) (h : ImpHeap β) (hn : (todo ++ done).Nodup) :
    ∃ h' res, minimizeObjLoop todo h (todo ++ done) = .ok (h', res) ∧
      minimizeLoop (todo.map h) ((todo ++ done).map h) = .ok (res.map h') ∧
      (∀ a, a ∉ todo → h' a = h a) ∧ (∀ a, (h' a).conclusion = (h a).conclusion ∧ (h a).premise ⊆ (h' a).premise) ∧
      (∀ a, a ∈ res → a ∈ todo ++ done) ∧ res.Nodup ∧ (∀ a ∈ done, a ∈ res) ∧
      ∀ a ∈ todo, a ∉ res → (h' a).conclusion ⊆ (h' a).premise := by
  induction todo generalizing done h with
  | nil => exact ⟨h, done, rfl, rfl, fun _ _ => rfl, fun _ => ⟨rfl, subset_rfl⟩, fun a ha => ha, hn, fun a ha => ha, by simp⟩
  | cons a todo ih =>
    have hn' := hn
    rw [List.cons_append, List.nodup_cons] at hn'
    obtain ⟨ha, hnd⟩ := hn'
    have hrem : remove (h a) (h a :: (todo ++ done).map h) = .ok ((todo ++ done).map h) := by
      have hself : (h a).pyEq (h a) = true := by simp [Imp.pyEq]
      unfold remove
      rw [if_pos (by simp [hself])]
      simp [hself]
    obtain ⟨c1, -, -⟩ := simpleClosure_isLeast (h a).premise ((todo ++ done).map h)
    set imp' : Imp β := ⟨simpleClosure (h a).premise ((todo ++ done).map h), (h a).conclusion⟩ with himp
    set g : ImpHeap β := Function.update h a imp' with hg
    have hat : a ∉ todo := fun hh => ha (List.mem_append_left _ hh)
    have hga : g a = imp' := Function.update_self ..
    have hgo : ∀ b, b ≠ a → g b = h b := fun b hb => Function.update_of_ne hb _ _
    have hmap : (todo ++ done).map g = (todo ++ done).map h := map_update ha
    have hmapt : todo.map g = todo.map h := map_update hat
    have step : ∀ {h' : ImpHeap β}, (∀ b, b ∉ todo → h' b = g b) →
        (∀ b, (h' b).conclusion = (g b).conclusion ∧ (g b).premise ⊆ (h' b).premise) →
        (∀ b, b ∉ a :: todo → h' b = h b) ∧
        ∀ b, (h' b).conclusion = (h b).conclusion ∧ (h b).premise ⊆ (h' b).premise := by
      intro h' e1 e2
      refine ⟨fun b hb => ?_, fun b => ?_⟩
      · rw [e1 b (fun hh => hb (List.mem_cons_of_mem _ hh)), hgo b (fun e => hb (e ▸ List.mem_cons_self))]
      · obtain ⟨k1, k2⟩ := e2 b
        by_cases hb : b = a
        · subst hb
          rw [hga] at k1 k2
          exact ⟨k1, c1.trans k2⟩
        · rw [hgo b hb] at k1 k2
          exact ⟨k1, k2⟩
    have hunf : minimizeObjLoop (a :: todo) h (a :: todo ++ done) =
        minimizeObjLoop todo g (if imp'.reduced ⊆ imp'.premise then todo ++ done else todo ++ (done ++ [a])) := by
      rw [List.cons_append, minimizeObjLoop, removeObj_head]
      simp only [bind, Except.bind, ← himp, ← hg, List.append_assoc]
      rfl
    have hunf' : minimizeLoop ((a :: todo).map h) ((a :: todo ++ done).map h) =
        minimizeLoop (todo.map h) (if imp'.reduced ⊆ imp'.premise then (todo ++ done).map h
          else (todo ++ done).map h ++ [imp']) := by
      rw [List.cons_append, List.map_cons, List.map_cons, minimizeLoop, hrem]
      simp only [bind, Except.bind, ← himp]
      rfl
    rw [hunf, hunf']
    by_cases ht : imp'.reduced ⊆ imp'.premise
    · rw [if_pos ht, if_pos ht]
      obtain ⟨h', res, r1, r2, r3, r4, r5, r6, r7, r8⟩ := ih done g hnd
      obtain ⟨s1, s2⟩ := step r3 r4
      rw [hmap, hmapt] at r2
      refine ⟨h', res, r1, r2, s1, s2, fun b hb => List.mem_cons_of_mem _ (r5 b hb), r6, r7, ?_⟩
      intro b hb hbr
      rcases List.mem_cons.1 hb with rfl | hb
      · rw [r3 b hat, hga]
        have := (trivial_iff imp').1 ht
        exact Finset.sdiff_eq_empty_iff_subset.1 this
      · exact r8 b hb hbr
    · rw [if_neg ht, if_neg ht]
      have hnd' : (todo ++ (done ++ [a])).Nodup := by
        rw [← List.append_assoc, List.nodup_append]
        refine ⟨hnd, by simp, ?_⟩
        intro x hx y hy
        rw [List.mem_singleton.1 hy]
        rintro rfl
        exact ha hx
      obtain ⟨h', res, r1, r2, r3, r4, r5, r6, r7, r8⟩ := ih (done ++ [a]) g hnd'
      obtain ⟨s1, s2⟩ := step r3 r4
      have : (todo ++ (done ++ [a])).map g = (todo ++ done).map h ++ [imp'] := by
        rw [← List.append_assoc, List.map_append, hmap, List.map_singleton, hga]
      rw [this, hmapt] at r2
      refine ⟨h', res, r1, r2, s1, s2, ?_, r6, fun b hb => r7 b (List.mem_append_left _ hb), ?_⟩
      · intro b hb
        have := r5 b hb
        simp only [List.mem_append, List.mem_cons, List.not_mem_nil, or_false] at this ⊢
        tauto
      · intro b hb hbr
        rcases List.mem_cons.1 hb with rfl | hb
        · exact absurd (r7 b (by simp)) hbr
        · exact r8 b hb hbr

/-- A list of different objects: the list afterwards has the values that `minimize` has for implications as values, holds
some of the objects, and no other object is changed. -/
theorem C147_values (h : ImpHeap β) (cover : List ℕ) (hn : cover.Nodup) :
    ∃ h' res, minimizeObj h cover = .ok (h', res) ∧ minimize (cover.map h) = .ok (res.map h') ∧ res.Nodup ∧
      (∀ a ∈ res, a ∈ cover) ∧ (∀ a, a ∉ cover → h' a = h a) ∧
      ∀ a, (h' a).conclusion = (h a).conclusion ∧ (h a).premise ⊆ (h' a).premise := by
  obtain ⟨h', res, r1, r2, r3, r4, r5, r6, -, -⟩ := minimizeObjLoop_nodup cover [] h (by simpa using hn)
  simp only [List.append_nil] at r1 r2 r5
  exact ⟨h', res, r1, r2, r6, r5, r3, r4⟩

/-- Another list that holds all objects of the cover has the same closed sets afterwards, although its implications have
changed. -/
theorem C147_other_list {h h' : ImpHeap β} {cover res : List ℕ} (hn : cover.Nodup)
    (hr : minimizeObj h cover = .ok (h', res)) (other : List ℕ) (hsub : ∀ a ∈ cover, a ∈ other) (S : Finset β) :
    Closed (specImps (other.map h')) S ↔ Closed (specImps (other.map h)) S := by
  obtain ⟨k, r, r1, r2, r3, -, r5, -, -, r8⟩ := minimizeObjLoop_nodup cover [] h (by simpa using hn)
  simp only [List.append_nil] at r1 r2 r5
  unfold minimizeObj at hr
  rw [hr] at r1
  cases r1
  obtain ⟨v, v1, v2, -⟩ := C54_minimize (cover.map h)
  unfold minimize at v1
  rw [r2] at v1
  cases v1
  have key := v2 S
  rw [closed_specImps, closed_specImps] at key ⊢
  simp only [List.mem_map, forall_exists_index, and_imp, forall_apply_eq_imp_iff₂] at key ⊢
  constructor
  · intro hS a ha
    by_cases hac : a ∈ cover
    · exact key.1 (fun b hb => hS b (hsub b (r5 b hb))) a hac
    · rw [← r3 a hac]; exact hS a ha
  · intro hS a ha
    by_cases hac : a ∈ cover
    · by_cases har : a ∈ res
      · exact key.2 (fun b hb => hS b (hsub b hb)) a har
      · intro hp
        exact (r8 a hac har).trans hp
    · rw [r3 a hac]; exact hS a ha

theorem minimizeObjLoop_any (todo done : List ℕ) (h : ImpHeap β) (hd : ∀ a ∈ done, a ∉ todo) :
    ∃ h' res, minimizeObjLoop todo h (todo ++ done) = .ok (h', res) ∧ (∀ a ∈ res, a ∈ todo ++ done) ∧
      (∀ a ∈ todo, 2 ≤ todo.count a ∨ (h a).conclusion ⊆ (h a).premise → a ∉ res) ∧
      (∀ a, a ∉ todo → h' a = h a) ∧
      ∀ S, Closed (specImps ((todo ++ done).map h)) S → Closed (specImps (res.map h')) S := by
  induction todo generalizing done h with
  | nil => exact ⟨h, done, rfl, fun a ha => ha, by simp, fun _ _ => rfl, fun S hS => by simpa using hS⟩
  | cons a todo ih =>
    obtain ⟨c1, c2, c3⟩ := simpleClosure_isLeast (h a).premise ((todo ++ done).map h)
    set imp' : Imp β := ⟨simpleClosure (h a).premise ((todo ++ done).map h), (h a).conclusion⟩ with himp
    set g : ImpHeap β := Function.update h a imp' with hg
    have hga : g a = imp' := Function.update_self ..
    have hgo : ∀ b, b ≠ a → g b = h b := fun b hb => Function.update_of_ne hb _ _
    have hunf : minimizeObjLoop (a :: todo) h (a :: todo ++ done) =
        minimizeObjLoop todo g (if imp'.reduced ⊆ imp'.premise then todo ++ done else todo ++ (done ++ [a])) := by
      rw [List.cons_append, minimizeObjLoop, removeObj_head]
      simp only [bind, Except.bind, ← himp, ← hg, List.append_assoc]
      rfl
    have hcl : ∀ S, Closed (specImps ((a :: todo ++ done).map h)) S → ∀ b, b ∈ a :: todo ++ done →
        (g b).premise ⊆ S → (g b).conclusion ⊆ S := by
      intro S hS b hb
      rw [closed_specImps] at hS
      by_cases hba : b = a
      · subst hba
        rw [hga]
        intro hp
        exact hS (h b) (List.mem_map_of_mem (by simp)) (c1.trans hp)
      · rw [hgo b hba]
        exact hS (h b) (List.mem_map_of_mem hb)
    have htr : imp'.reduced ⊆ imp'.premise ↔ imp'.conclusion ⊆ imp'.premise := by
      rw [trivial_iff imp']
      exact Finset.sdiff_eq_empty_iff_subset
    have htwice : a ∈ todo → imp'.conclusion ⊆ imp'.premise := by
      intro hat
      rw [closed_specImps] at c2
      exact c2 (h a) (List.mem_map_of_mem (List.mem_append_left _ hat)) c1
    have hrest : ∀ b, b ∈ a :: todo → b ≠ a → 2 ≤ (a :: todo).count b ∨ (h b).conclusion ⊆ (h b).premise →
        b ∈ todo ∧ (2 ≤ todo.count b ∨ (g b).conclusion ⊆ (g b).premise) := by
      intro b hb hba hc
      have hbt : b ∈ todo := (List.mem_cons.1 hb).resolve_left hba
      refine ⟨hbt, hc.imp (fun h2 => ?_) (fun ht => ?_)⟩
      · rwa [List.count_cons_of_ne (Ne.symm hba)] at h2
      · rw [hgo b hba]; exact ht
    rw [hunf]
    by_cases ht : imp'.reduced ⊆ imp'.premise
    · rw [if_pos ht]
      have ht' := htr.1 ht
      obtain ⟨h', res, r1, r2, r3, r4, r5⟩ := ih done g (fun b hb hbt => hd b hb (List.mem_cons_of_mem _ hbt))
      refine ⟨h', res, r1, fun b hb => List.mem_cons_of_mem _ (r2 b hb), ?_, ?_, ?_⟩
      · intro b hb hc
        by_cases hba : b = a
        · subst hba
          by_cases hbt : b ∈ todo
          · exact r3 b hbt (.inr (by rw [hga]; exact ht'))
          · intro hbr
            rcases List.mem_append.1 (r2 b hbr) with hb' | hb'
            · exact hbt hb'
            · exact hd b hb' List.mem_cons_self
        · obtain ⟨k1, k2⟩ := hrest b hb hba hc
          exact r3 b k1 k2
      · intro b hb
        rw [r4 b (fun hh => hb (List.mem_cons_of_mem _ hh)), hgo b (fun e => hb (e ▸ List.mem_cons_self))]
      · intro S hS
        apply r5
        have := hcl S hS
        rw [closed_specImps]
        simp only [List.mem_map, forall_exists_index, and_imp, forall_apply_eq_imp_iff₂]
        exact fun b hb => this b (List.mem_cons_of_mem _ hb)
    · rw [if_neg ht]
      have hat : a ∉ todo := fun hh => ht (htr.2 (htwice hh))
      obtain ⟨h', res, r1, r2, r3, r4, r5⟩ := ih (done ++ [a]) g (by
        intro b hb hbt
        rcases List.mem_append.1 hb with hb | hb
        · exact hd b hb (List.mem_cons_of_mem _ hbt)
        · rw [List.mem_singleton.1 hb] at hbt
          exact hat hbt)
      refine ⟨h', res, r1, fun b hb => ?_, ?_, ?_, ?_⟩
      · have := r2 b hb
        simp only [List.mem_append, List.mem_cons, List.not_mem_nil, or_false] at this ⊢
        tauto
      · intro b hb hc
        by_cases hba : b = a
        · subst hba
          rcases hc with h2 | h2
          · rw [List.count_cons_self, List.count_eq_zero_of_not_mem hat] at h2
            omega
          · exact absurd (htr.2 (h2.trans c1)) ht
        · obtain ⟨k1, k2⟩ := hrest b hb hba hc
          exact r3 b k1 k2
      · intro b hb
        rw [r4 b (fun hh => hb (List.mem_cons_of_mem _ hh)), hgo b (fun e => hb (e ▸ List.mem_cons_self))]
      · intro S hS
        apply r5
        have := hcl S hS
        rw [closed_specImps]
        simp only [List.mem_map, forall_exists_index, and_imp, forall_apply_eq_imp_iff₂]
        intro b hb
        refine this b ?_
        simp only [List.mem_append, List.mem_cons, List.not_mem_nil, or_false] at hb ⊢
        tauto

/-- For every list: nothing is raised, what follows afterwards followed before, and no object that stands twice in the
list is left. -/
theorem C147_repeated (h : ImpHeap β) (cover : List ℕ) :
    ∃ h' res, minimizeObj h cover = .ok (h', res) ∧ (∀ a ∈ res, cover.count a = 1) ∧
      (∀ a, a ∉ cover → h' a = h a) ∧
      ∀ S, Closed (specImps (cover.map h)) S → Closed (specImps (res.map h')) S := by
  obtain ⟨h', res, r1, r2, r3, r4, r5⟩ := minimizeObjLoop_any cover [] h (by simp)
  simp only [List.append_nil] at r1 r2 r5
  refine ⟨h', res, r1, fun a ha => ?_, r4, r5⟩
  have hac := r2 a ha
  have h1 : 0 < cover.count a := List.count_pos_iff.2 hac
  by_contra hne
  exact r3 a hac (.inl (by omega)) ha

/-- So the closed sets change whenever the implications that stand once are not enough: a list that holds each of its
objects twice becomes empty. -/
theorem C147_repeated_violated (h : ImpHeap β) (cover : List ℕ) (i : Imp β)
    (hi : i ∈ cover.map h) (hnt : ¬ i.conclusion ⊆ i.premise) :
    ∃ h', minimizeObj h (cover ++ cover) = .ok (h', []) ∧
      ¬ ∀ S, Closed (specImps (([] : List ℕ).map h')) S ↔ Closed (specImps ((cover ++ cover).map h)) S := by
  obtain ⟨h', res, r1, r2, -, -⟩ := C147_repeated h (cover ++ cover)
  have hres : res = [] := by
    refine List.eq_nil_iff_forall_not_mem.2 fun a ha => ?_
    have := r2 a ha
    rw [List.count_append] at this
    omega
  subst hres
  refine ⟨h', r1, fun hh => hnt ?_⟩
  have := (hh i.premise).1 (by simp [specImps, Closed])
  rw [closed_specImps] at this
  exact this i (by rw [List.map_append]; exact List.mem_append_left _ hi) subset_rfl

/-! ### Cases -/

/-- The objects: 0 is `a → b`, 1 is `b → c`, 2 is `a → c`. -/
def heap147 : ImpHeap (Fin 3)
  | 0 => ⟨{0}, {1}⟩
  | 1 => ⟨{1}, {2}⟩
  | _ => ⟨{0}, {2}⟩

example : (minimizeObj heap147 [2, 0, 1]).map (fun r => (r.2, r.2.map r.1, r.1 2)) =
    .ok ([0, 1], [⟨{0}, {1}⟩, ⟨{1}, {2}⟩], ⟨{0, 1, 2}, {2}⟩) := by decide +kernel

/-- `a → b` stands twice and is lost. -/
example : (minimizeObj heap147 [0, 1, 0]).map (fun r => (r.2, r.2.map r.1)) = .ok ([1], [⟨{1}, {2}⟩]) := by decide +kernel

/-- Another list that holds only a part of the objects: `[a → c]` has become trivial. -/
theorem C147_part_violated : ∃ (h h' : ImpHeap (Fin 3)) (cover res other : List ℕ), cover.Nodup ∧
    minimizeObj h cover = .ok (h', res) ∧ (∀ a ∈ other, a ∈ cover) ∧
    ¬ ∀ S, Closed (specImps (other.map h')) S ↔ Closed (specImps (other.map h)) S := by
  obtain ⟨h', res, r1, r2, -⟩ := C147_values heap147 [2, 0, 1] (by decide)
  have e : (minimizeObj heap147 [2, 0, 1]).map (fun r => r.1 2) = .ok ⟨{0, 1, 2}, {2}⟩ := by decide +kernel
  rw [r1] at e
  have e' : h' 2 = ⟨{0, 1, 2}, {2}⟩ := by injection e
  refine ⟨heap147, h', [2, 0, 1], res, [2], by decide, r1, by decide, fun hh => ?_⟩
  have := (hh {0}).1 (by
    simp only [List.map_cons, List.map_nil, e', closed_specImps]
    decide)
  rw [closed_specImps] at this
  revert this
  simp only [List.map_cons, List.map_nil, heap147]
  decide

end Cover
