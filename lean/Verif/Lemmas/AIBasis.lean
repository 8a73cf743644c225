import Verif.Model.AIBasis
import Verif.Lemmas.Closure
import Verif.Lemmas.DGCorrect
import Mathlib.Tactic.Abel

set_option linter.unusedSectionVars false

open Spec

variable {α β : Type} [DecidableEq α] [DecidableEq β]

namespace AI

/-! ### Closure in a restricted context -/

/-- Objects of `G` having all attributes of `s`; `ex a` is the extent of `a`. -/
def dn (G : Finset α) (ex : β → Finset α) (s : Finset β) : Finset α := G.filter fun g => ∀ a ∈ s, g ∈ ex a

/-- Closure of `s` within the attributes `M`. -/
def clo (G : Finset α) (ex : β → Finset α) (M s : Finset β) : Finset β := M.filter fun a => dn G ex s ⊆ ex a

variable {G : Finset α} {ex : β → Finset α}

theorem mem_dn {s : Finset β} {g : α} : g ∈ dn G ex s ↔ g ∈ G ∧ ∀ a ∈ s, g ∈ ex a := by simp [dn]

theorem mem_clo {M s : Finset β} {a : β} : a ∈ clo G ex M s ↔ a ∈ M ∧ dn G ex s ⊆ ex a := by simp [clo]

theorem dn_insert (m : β) (s : Finset β) : dn G ex (insert m s) = dn G ex s ∩ ex m := by
  ext g
  simp only [mem_dn, Finset.mem_insert, forall_eq_or_imp, Finset.mem_inter]
  tauto

theorem dn_anti {s t : Finset β} (h : s ⊆ t) : dn G ex t ⊆ dn G ex s := fun g hg => by
  rw [mem_dn] at hg ⊢
  exact ⟨hg.1, fun a ha => hg.2 a (h ha)⟩

theorem clo_subset (M s : Finset β) : clo G ex M s ⊆ M := Finset.filter_subset _ _

theorem subset_clo {M s : Finset β} (h : s ⊆ M) : s ⊆ clo G ex M s := fun a ha => by
  rw [mem_clo]
  exact ⟨h ha, fun g hg => (mem_dn.1 hg).2 a ha⟩

theorem clo_mono {M s t : Finset β} (h : s ⊆ t) : clo G ex M s ⊆ clo G ex M t := fun a ha => by
  rw [mem_clo] at ha ⊢
  exact ⟨ha.1, (dn_anti h).trans ha.2⟩

theorem dn_clo {M s : Finset β} (h : s ⊆ M) : dn G ex (clo G ex M s) = dn G ex s := by
  apply Finset.Subset.antisymm (dn_anti (subset_clo h))
  intro g hg
  rw [mem_dn]
  exact ⟨(mem_dn.1 hg).1, fun a ha => (mem_clo.1 ha).2 hg⟩

theorem dn_between {M s t : Finset β} (h : s ⊆ M) (h1 : s ⊆ t) (h2 : t ⊆ clo G ex M s) : dn G ex t = dn G ex s :=
  Finset.Subset.antisymm (dn_anti h1) ((dn_clo h (M := M)).symm.subset.trans (dn_anti h2))

theorem clo_eq_of_dn {M s t : Finset β} (h : dn G ex s = dn G ex t) : clo G ex M s = clo G ex M t := by
  ext a; rw [mem_clo, mem_clo, h]

theorem clo_between {M s t : Finset β} (h : s ⊆ M) (h1 : s ⊆ t) (h2 : t ⊆ clo G ex M s) :
    clo G ex M t = clo G ex M s := clo_eq_of_dn (dn_between h h1 h2)

theorem clo_closureOp (M : Finset β) : IsClosureOp M (clo G ex M) where
  into _ _ := clo_subset _ _
  ext _ h := subset_clo h
  mono _ _ h _ := clo_mono h
  idem _ h := clo_eq_of_dn (dn_clo h)

theorem clo_insert_mod {M s : Finset β} {m : β} (h : dn G ex s ⊆ ex m) :
    clo G ex (insert m M) s = insert m (clo G ex M s) := by
  ext a
  simp only [mem_clo, Finset.mem_insert]
  constructor
  · rintro ⟨rfl | h1, h2⟩
    · exact Or.inl rfl
    · exact Or.inr ⟨h1, h2⟩
  · rintro (rfl | ⟨h1, h2⟩)
    · exact ⟨Or.inl rfl, h⟩
    · exact ⟨Or.inr h1, h2⟩

theorem clo_insert_stable {M s : Finset β} {m : β} (h : ¬ dn G ex s ⊆ ex m) :
    clo G ex (insert m M) s = clo G ex M s := by
  ext a
  simp only [mem_clo, Finset.mem_insert]
  constructor
  · rintro ⟨rfl | h1, h2⟩
    · exact absurd h2 h
    · exact ⟨h1, h2⟩
  · rintro ⟨h1, h2⟩
    exact ⟨Or.inr h1, h2⟩

theorem dn_insert_mod {s : Finset β} {m : β} (h : dn G ex s ⊆ ex m) : dn G ex (insert m s) = dn G ex s := by
  rw [dn_insert, Finset.inter_eq_left.2 h]

/-- `T ∪ {m}` is closed when `T` is closed and modified. -/
theorem clo_insert_closed {M T : Finset β} {m : β} (h : dn G ex T ⊆ ex m) (hT : clo G ex M T = T) :
    clo G ex (insert m M) (insert m T) = insert m T := by
  rw [clo_eq_of_dn (dn_insert_mod h), clo_insert_mod h, hT]

/-- Removing the last attribute from a closed set gives a closed set of the smaller context. -/
theorem clo_erase {M S : Finset β} {m : β} (hm : m ∉ M) (hS : clo G ex (insert m M) S = S) :
    clo G ex M (S.erase m) = S.erase m := by
  have hsub : S ⊆ insert m M := hS ▸ clo_subset _ _
  apply Finset.Subset.antisymm _ (subset_clo _)
  · intro a ha
    rw [mem_clo] at ha
    rw [Finset.mem_erase]
    refine ⟨fun h => hm (h ▸ ha.1), ?_⟩
    rw [← hS, mem_clo]
    exact ⟨Finset.mem_insert_of_mem ha.1, (dn_anti (Finset.erase_subset _ _)).trans ha.2⟩
  · intro a ha
    rw [Finset.mem_erase] at ha
    exact (Finset.mem_insert.1 (hsub ha.2)).resolve_left ha.1

/-! ### Invariants -/

/-- The implications of a list of entries. -/
def imps (l : List (Pre α β)) : List (Imp β) := (l.filter fun p => !p.isConcept).map Pre.imp

theorem imps_append (l l' : List (Pre α β)) : imps (l ++ l') = imps l ++ imps l' := by simp [imps]

theorem imps_cons (p q : Pre α β) : imps [p, q] = imps [p] ++ imps [q] := imps_append [p] [q]

theorem imps_none {p : Pre α β} (h : p.concl = none) : imps [p] = [] := by simp [imps, Pre.isConcept, h]

theorem imps_some {p : Pre α β} {C : Finset β} (h : p.concl = some C) : imps [p] = [⟨p.set, C⟩] := by
  simp [imps, Pre.isConcept, h, Pre.imp]

theorem mem_imps {l : List (Pre α β)} {i : Imp β} :
    i ∈ imps l ↔ ∃ p ∈ l, ∃ C, p.concl = some C ∧ i = ⟨p.set, C⟩ := by
  simp only [imps, List.mem_map, List.mem_filter, Pre.isConcept, Pre.imp]
  constructor
  · rintro ⟨p, ⟨hp, hc⟩, rfl⟩
    cases h : p.concl with
    | none => simp [h] at hc
    | some C => exact ⟨p, hp, C, h, by simp⟩
  · rintro ⟨p, hp, C, hC, rfl⟩
    exact ⟨p, ⟨hp, by simp [hC]⟩, by simp [hC]⟩

/-- An entry describes a closed set, or a set that is not closed together with its closure. -/
structure Ok (G : Finset α) (ex : β → Finset α) (M : Finset β) (p : Pre α β) : Prop where
  sub : p.set ⊆ M
  ext : p.ext = dn G ex p.set
  cc : p.concl = none ∧ clo G ex M p.set = p.set ∨ p.concl = some (clo G ex M p.set) ∧ clo G ex M p.set ≠ p.set

/-- Invariant between the attributes, for any sort. -/
structure Inv (G : Finset α) (ex : β → Finset α) (M : Finset β) (pre : List (Pre α β)) (basis : List (Imp β)) :
    Prop where
  ok : ∀ p ∈ pre, Ok G ex M p
  closed : ∀ S, clo G ex M S = S → ∃ p ∈ pre, p.concl = none ∧ p.set = S
  perm : basis.Perm (imps pre)
  complete : ∀ S, S ⊆ M → (∀ i ∈ basis, i.premise ⊆ S → i.conclusion ⊆ S) → clo G ex M S = S
  nd : (basis.map Imp.premise).Nodup

/-- Invariant of the loop over `preclosed`; `done` are the entries already visited. -/
structure LI (G : Finset α) (ex : β → Finset α) (M : Finset β) (m : β) (done : List (Pre α β)) (st : St α β) :
    Prop where
  perm : (st.oldStable ++ st.newStable ++ st.minMod).Perm (imps st.newPre)
  ok : ∀ q ∈ st.newPre, Ok G ex (insert m M) q
  stab : ∀ p ∈ done, ¬ p.ext ⊆ ex m → p ∈ st.newPre
  stabC : ∀ p ∈ done, ¬ p.ext ⊆ ex m → p.concl = none →
    (∀ i ∈ st.newStable, i.premise ⊆ insert m p.set → i.conclusion ⊆ insert m p.set) →
    ∃ q ∈ st.newPre, q.concl = none ∧ q.set = insert m p.set
  minL : ∀ p ∈ done, p.ext ⊆ ex m → ∃ i ∈ st.minMod, i.premise ⊆ p.set
  modI : ∀ p ∈ done, p.ext ⊆ ex m → ∀ C, p.concl = some C →
    ⟨p.set, insert m C⟩ ∈ st.minMod ∨ ⟨p.ext, insert m p.set, some (insert m C)⟩ ∈ st.nonMin
  modC : ∀ p ∈ done, p.ext ⊆ ex m → p.concl = none → ⟨p.ext, insert m p.set, none⟩ ∈ st.modExtra
  nonS : ∀ q ∈ st.nonMin, ∃ p ∈ done, p.ext ⊆ ex m ∧ ∃ C, p.concl = some C ∧
    q = ⟨p.ext, insert m p.set, some (insert m C)⟩
  extS : ∀ q ∈ st.modExtra, ∃ p ∈ done, p.ext ⊆ ex m ∧ p.concl = none ∧ q = ⟨p.ext, insert m p.set, none⟩
  minS : ∀ i ∈ st.minMod, ∃ p ∈ done, p.ext ⊆ ex m ∧ i.premise = p.set
  newS : ∀ i ∈ st.newStable, ∃ p ∈ done, ¬ p.ext ⊆ ex m ∧ p.concl = none ∧ i.premise = insert m p.set
  oldS : ∀ i ∈ st.oldStable, ∃ p ∈ done, ¬ p.ext ⊆ ex m ∧ ∃ C, p.concl = some C ∧ i = ⟨p.set, C⟩
  preS : ∀ q ∈ st.newPre, ∃ p ∈ done, q.set = p.set ∨
    (¬ p.ext ⊆ ex m ∧ p.concl = none ∧ q.set = insert m p.set)

/-- The part of the loop invariant that needs the order of the list. -/
structure LO (m : β) (st : St α β) : Prop where
  pre : st.newPre.Pairwise fun p q => ¬ q.set ⊆ p.set
  new : ∀ i ∈ st.newStable, ∀ j ∈ st.newStable, i ≠ j → j.premise ⊆ i.premise → j.conclusion ⊆ i.premise
  min : ∀ i ∈ st.minMod, ∀ j ∈ st.minMod, j.premise ⊆ i.premise → j = i
  ext : st.modExtra.Pairwise fun p q => p.set ≠ q.set

theorem LI.nil (M : Finset β) (m : β) : LI G ex M m [] ({} : St α β) := by
  constructor <;> simp [imps]

theorem LO.nil (m : β) : LO m ({} : St α β) := by
  constructor <;> simp

variable {M : Finset β} {m : β} {closure : Finset β → Py (Finset β)}

theorem Ok.stable {p : Pre α β} (h : Ok G ex M p) (hs : ¬ p.ext ⊆ ex m) : Ok G ex (insert m M) p := by
  have hs' := hs
  rw [h.ext] at hs'
  refine ⟨h.sub.trans (Finset.subset_insert _ _), h.ext, ?_⟩
  rw [clo_insert_stable hs']
  exact h.cc

theorem Ok.concl_eq {p : Pre α β} (h : Ok G ex M p) {C : Finset β} (hC : p.concl = some C) :
    C = clo G ex M p.set ∧ C ≠ p.set := by
  rcases h.cc with ⟨h1, _⟩ | ⟨h1, h2⟩
  · rw [h1] at hC; cases hC
  · rw [h1] at hC; cases hC; exact ⟨rfl, h2⟩

theorem Ok.closed {p : Pre α β} (h : Ok G ex M p) (hC : p.concl = none) : clo G ex M p.set = p.set := by
  rcases h.cc with ⟨_, h1⟩ | ⟨h1, h2⟩
  · exact h1
  · rw [h1] at hC; cases hC

theorem any_minMod {l : List (Imp β)} {s : Finset β} :
    (l.any fun i => decide (i.premise ⊆ s)) = true ↔ ∃ i ∈ l, i.premise ⊆ s := by simp

theorem perm_aux {a b c : List (Imp β)} {l : List (Pre α β)} (h : (a ++ b ++ c).Perm (imps l))
    (x y z : List (Imp β)) (r : List (Pre α β)) (hr : imps r = x ++ y ++ z) :
    ((a ++ x) ++ (b ++ y) ++ (c ++ z)).Perm (imps (l ++ r)) := by
  rw [imps_append, hr]
  rw [← Multiset.coe_eq_coe] at h ⊢
  simp only [← Multiset.coe_add] at h ⊢
  rw [← h]
  abel

theorem step_stableImp {done : List (Pre α β)} {st : St α β} {p : Pre α β} (h : LI G ex M m done st)
    (hp : Ok G ex M p) (hs : ¬ p.ext ⊆ ex m) {C : Finset β} (hC : p.concl = some C) :
    LI G ex M m (done ++ [p]) { st with newPre := st.newPre ++ [p], oldStable := st.oldStable ++ [p.imp] } := by
  have hi : p.imp = ⟨p.set, C⟩ := by simp [Pre.imp, hC]
  obtain ⟨h1, h2, h3, h4, h5, h6, h7, h8, h9, h10, h11, h12, h13⟩ := h
  constructor
  · simpa using perm_aux h1 [p.imp] [] [] [p] (by simp [imps_some hC, hi])
  · have := hp.stable hs
    simp only [List.mem_append, List.mem_singleton]
    grind
  all_goals simp only [List.mem_append, List.mem_singleton]
  all_goals grind

theorem step_stable0 {done : List (Pre α β)} {st : St α β} {p : Pre α β} (h : LI G ex M m done st)
    (hp : Ok G ex M p) (hs : ¬ p.ext ⊆ ex m) (hC : p.concl = none)
    (hf : ¬ ∀ i ∈ st.newStable, i.premise ⊆ insert m p.set → i.conclusion ⊆ insert m p.set) :
    LI G ex M m (done ++ [p]) { st with newPre := st.newPre ++ [p] } := by
  obtain ⟨h1, h2, h3, h4, h5, h6, h7, h8, h9, h10, h11, h12, h13⟩ := h
  constructor
  · simpa using perm_aux h1 [] [] [] [p] (by simp [imps_none hC])
  · have := hp.stable hs
    simp only [List.mem_append, List.mem_singleton]
    grind
  all_goals simp only [List.mem_append, List.mem_singleton]
  all_goals grind

theorem step_stable1 {done : List (Pre α β)} {st : St α β} {p : Pre α β} (h : LI G ex M m done st)
    (hp : Ok G ex M p) (hs : ¬ p.ext ⊆ ex m) (hC : p.concl = none)
    (hcl : clo G ex (insert m M) (insert m p.set) = insert m p.set) :
    LI G ex M m (done ++ [p]) { st with newPre := st.newPre ++ [p] ++ [⟨p.ext ∩ ex m, insert m p.set, none⟩] } := by
  have hok : Ok G ex (insert m M) ⟨p.ext ∩ ex m, insert m p.set, none⟩ :=
    ⟨Finset.insert_subset_insert _ hp.sub, by rw [dn_insert, hp.ext], Or.inl ⟨rfl, hcl⟩⟩
  obtain ⟨h1, h2, h3, h4, h5, h6, h7, h8, h9, h10, h11, h12, h13⟩ := h
  constructor
  · simpa using perm_aux h1 [] [] [] [p, ⟨p.ext ∩ ex m, insert m p.set, none⟩] (by
      rw [imps_cons, imps_none hC, imps_none rfl]; rfl)
  · have := hp.stable hs
    simp only [List.mem_append, List.mem_singleton]
    grind
  all_goals simp only [List.mem_append, List.mem_singleton]
  all_goals grind

theorem step_stable2 {done : List (Pre α β)} {st : St α β} {p : Pre α β} (h : LI G ex M m done st)
    (hp : Ok G ex M p) (hs : ¬ p.ext ⊆ ex m) (hC : p.concl = none)
    (hcl : clo G ex (insert m M) (insert m p.set) ≠ insert m p.set) :
    LI G ex M m (done ++ [p]) { st with
      newStable := st.newStable ++ [⟨insert m p.set, clo G ex (insert m M) (insert m p.set)⟩]
      newPre := st.newPre ++ [p] ++
        [⟨p.ext ∩ ex m, insert m p.set, some (clo G ex (insert m M) (insert m p.set))⟩] } := by
  have hsub : insert m p.set ⊆ insert m M := Finset.insert_subset_insert _ hp.sub
  have hok : Ok G ex (insert m M) ⟨p.ext ∩ ex m, insert m p.set, some (clo G ex (insert m M) (insert m p.set))⟩ :=
    ⟨hsub, by rw [dn_insert, hp.ext], Or.inr ⟨rfl, hcl⟩⟩
  have hnot : ¬ clo G ex (insert m M) (insert m p.set) ⊆ insert m p.set := fun hh =>
    hcl (Finset.Subset.antisymm hh (subset_clo hsub))
  obtain ⟨h1, h2, h3, h4, h5, h6, h7, h8, h9, h10, h11, h12, h13⟩ := h
  constructor
  · simpa using perm_aux h1 [] [⟨insert m p.set, clo G ex (insert m M) (insert m p.set)⟩] []
      [p, ⟨p.ext ∩ ex m, insert m p.set, some (clo G ex (insert m M) (insert m p.set))⟩] (by
      rw [imps_cons, imps_none hC, imps_some rfl]; rfl)
  · have := hp.stable hs
    simp only [List.mem_append, List.mem_singleton]
    grind
  · simp only [List.mem_append, List.mem_singleton]
    grind
  · simp only [List.mem_append, List.mem_singleton]
    rintro q (hq | rfl) hqs hqC hr
    · obtain ⟨x, hx, hx'⟩ := h4 q hq hqs hqC (fun i hi => hr i (Or.inl hi))
      exact ⟨x, Or.inl (Or.inl hx), hx'⟩
    · exact absurd (hr _ (Or.inr rfl) (subset_refl _)) hnot
  all_goals simp only [List.mem_append, List.mem_singleton]
  all_goals grind

/-- The entry of a modified set in the new context. -/
theorem Ok.modified {p : Pre α β} (hp : Ok G ex M p) (hs : p.ext ⊆ ex m) (hm : m ∉ M) :
    Ok G ex (insert m M) ⟨p.ext, p.set, some (insert m (clo G ex M p.set))⟩ := by
  have hs' := hs
  rw [hp.ext] at hs'
  refine ⟨hp.sub.trans (Finset.subset_insert _ _), hp.ext, Or.inr ⟨?_, ?_⟩⟩
  · rw [clo_insert_mod hs']
  · rw [clo_insert_mod hs']
    intro h
    exact hm (hp.sub (h ▸ Finset.mem_insert_self _ _))

theorem step_modI0 {done : List (Pre α β)} {st : St α β} {p : Pre α β} (h : LI G ex M m done st)
    (hs : p.ext ⊆ ex m) {C : Finset β} (hC : p.concl = some C)
    (hf : ∃ i ∈ st.minMod, i.premise ⊆ p.set) :
    LI G ex M m (done ++ [p])
      { st with nonMin := st.nonMin ++ [⟨p.ext, insert m p.set, some (insert m C)⟩] } := by
  obtain ⟨h1, h2, h3, h4, h5, h6, h7, h8, h9, h10, h11, h12, h13⟩ := h
  constructor
  · exact h1
  · exact h2
  all_goals simp only [List.mem_append, List.mem_singleton]
  all_goals grind

theorem step_modI1 {done : List (Pre α β)} {st : St α β} {p : Pre α β} (h : LI G ex M m done st)
    (hp : Ok G ex M p) (hm : m ∉ M) (hs : p.ext ⊆ ex m) {C : Finset β} (hC : p.concl = some C) :
    LI G ex M m (done ++ [p]) { st with
      minMod := st.minMod ++ [⟨p.set, insert m C⟩]
      newPre := st.newPre ++ [⟨p.ext, p.set, some (insert m C)⟩] } := by
  have hok := hp.modified hs hm
  rw [← (hp.concl_eq hC).1] at hok
  obtain ⟨h1, h2, h3, h4, h5, h6, h7, h8, h9, h10, h11, h12, h13⟩ := h
  constructor
  · simpa using perm_aux h1 [] [] [⟨p.set, insert m C⟩] [⟨p.ext, p.set, some (insert m C)⟩] (by
      rw [imps_some rfl]; rfl)
  · simp only [List.mem_append, List.mem_singleton]
    grind
  all_goals simp only [List.mem_append, List.mem_singleton]
  all_goals grind

theorem step_modC0 {done : List (Pre α β)} {st : St α β} {p : Pre α β} (h : LI G ex M m done st)
    (hs : p.ext ⊆ ex m) (hC : p.concl = none) (hf : ∃ i ∈ st.minMod, i.premise ⊆ p.set) :
    LI G ex M m (done ++ [p]) { st with modExtra := st.modExtra ++ [⟨p.ext, insert m p.set, none⟩] } := by
  obtain ⟨h1, h2, h3, h4, h5, h6, h7, h8, h9, h10, h11, h12, h13⟩ := h
  constructor
  · exact h1
  · exact h2
  all_goals simp only [List.mem_append, List.mem_singleton]
  all_goals grind

theorem step_modC1 {done : List (Pre α β)} {st : St α β} {p : Pre α β} (h : LI G ex M m done st)
    (hp : Ok G ex M p) (hm : m ∉ M) (hs : p.ext ⊆ ex m) (hC : p.concl = none) :
    LI G ex M m (done ++ [p]) { st with
      minMod := st.minMod ++ [⟨p.set, insert m p.set⟩]
      newPre := st.newPre ++ [⟨p.ext, p.set, some (insert m p.set)⟩]
      modExtra := st.modExtra ++ [⟨p.ext, insert m p.set, none⟩] } := by
  have hok := hp.modified hs hm
  rw [hp.closed hC] at hok
  obtain ⟨h1, h2, h3, h4, h5, h6, h7, h8, h9, h10, h11, h12, h13⟩ := h
  constructor
  · simpa using perm_aux h1 [] [] [⟨p.set, insert m p.set⟩] [⟨p.ext, p.set, some (insert m p.set)⟩] (by
      rw [imps_some rfl]; rfl)
  · simp only [List.mem_append, List.mem_singleton]
    grind
  all_goals simp only [List.mem_append, List.mem_singleton]
  all_goals grind

/-! ### The order -/

theorem sub_of_insert {s t : Finset β} (hs : m ∉ s) (h : s ⊆ insert m t) : s ⊆ t := fun _ hx =>
  (Finset.mem_insert.1 (h hx)).resolve_left fun e => hs (e ▸ hx)

theorem sub_of_insert_insert {s t : Finset β} (hs : m ∉ s) (h : insert m s ⊆ insert m t) : s ⊆ t :=
  sub_of_insert hs ((Finset.subset_insert _ _).trans h)

theorem not_insert_sub {s t : Finset β} (ht : m ∉ t) : ¬ insert m s ⊆ t := fun h => ht (h (Finset.mem_insert_self _ _))

/-- A later set is not contained in a set already appended. -/
theorem later_new {done : List (Pre α β)} {st : St α β} {s : Finset β} (h : LI G ex M m done st) (hs : m ∉ s)
    (ho : ∀ q ∈ done, ¬ s ⊆ q.set) : ∀ x ∈ st.newPre, ¬ s ⊆ x.set := by
  intro x hx hsx
  obtain ⟨d, hd, h1 | ⟨_, _, h1⟩⟩ := h.preS x hx
  · exact ho d hd (h1 ▸ hsx)
  · exact ho d hd (sub_of_insert hs (h1 ▸ hsx))

theorem later_new_insert {done : List (Pre α β)} {st : St α β} {s : Finset β} (h : LI G ex M m done st) (hs : m ∉ s)
    (hd : ∀ q ∈ done, m ∉ q.set) (ho : ∀ q ∈ done, ¬ s ⊆ q.set) : ∀ x ∈ st.newPre, ¬ insert m s ⊆ x.set := by
  intro x hx hsx
  obtain ⟨d, hd', h1 | ⟨_, _, h1⟩⟩ := h.preS x hx
  · exact not_insert_sub (hd d hd') (h1 ▸ hsx)
  · exact ho d hd' (sub_of_insert_insert hs (h1 ▸ hsx))

theorem pw_snoc {γ : Type} {R : γ → γ → Prop} {l : List γ} {x : γ} (h : l.Pairwise R) (hx : ∀ y ∈ l, R y x) :
    (l ++ [x]).Pairwise R := by
  rw [List.pairwise_append]
  exact ⟨h, List.pairwise_singleton _ _, fun y hy z hz => by rw [List.mem_singleton] at hz; exact hz ▸ hx y hy⟩

theorem stepPre_ok (hcl : ∀ s, s ⊆ insert m M → closure s = .ok (clo G ex (insert m M) s)) (hm : m ∉ M)
    {done : List (Pre α β)} {st : St α β} {p : Pre α β} (h : LI G ex M m done st) (hp : Ok G ex M p)
    (hd : ∀ q ∈ done, q.set ⊆ M) :
    ∃ st', stepPre closure m (ex m) p st = .ok st' ∧ LI G ex M m (done ++ [p]) st' ∧
      ((∀ q ∈ done, ¬ p.set ⊆ q.set) → LO m st → LO m st') := by
  have hmp : m ∉ p.set := fun hh => hm (hp.sub hh)
  have hmd : ∀ q ∈ done, m ∉ q.set := fun q hq hh => hm (hd q hq hh)
  have hsub : insert m p.set ⊆ insert m M := Finset.insert_subset_insert _ hp.sub
  unfold stepPre
  by_cases hs : p.ext ⊆ ex m
  · rw [if_pos hs]
    cases hC : p.concl with
    | none =>
      rw [if_pos (by simp [Pre.isConcept, hC])]
      unfold modifiedConcept
      have hext : LO m st → (∀ q ∈ done, ¬ p.set ⊆ q.set) →
          (st.modExtra ++ [(⟨p.ext, insert m p.set, none⟩ : Pre α β)]).Pairwise fun p q => p.set ≠ q.set := fun hl ho =>
        pw_snoc hl.ext (by
          intro y hy he
          obtain ⟨d, hd', _, _, rfl⟩ := h.extS y hy
          exact ho d hd' (sub_of_insert_insert hmp he.symm.subset))
      by_cases hf : ∃ i ∈ st.minMod, i.premise ⊆ p.set
      · rw [if_pos (any_minMod.2 hf)]
        exact ⟨_, rfl, step_modC0 h hs hC hf, fun ho hl => ⟨hl.pre, hl.new, hl.min, hext hl ho⟩⟩
      · rw [if_neg (fun hh => hf (any_minMod.1 hh))]
        refine ⟨_, rfl, step_modC1 h hp hm hs hC, fun ho hl => ⟨pw_snoc hl.pre (later_new h hmp ho), hl.new, ?_,
          hext hl ho⟩⟩
        have h2 := hl.min
        have h3 := h.minS
        simp only [List.mem_append, List.mem_singleton]
        grind
    | some C =>
      rw [if_neg (by simp [Pre.isConcept, hC])]
      unfold modifiedImplication
      simp only [hC, Option.getD_some]
      by_cases hf : ∃ i ∈ st.minMod, i.premise ⊆ p.set
      · rw [if_pos (any_minMod.2 hf)]
        exact ⟨_, rfl, step_modI0 h hs hC hf, fun ho hl => ⟨hl.pre, hl.new, hl.min, hl.ext⟩⟩
      · rw [if_neg (fun hh => hf (any_minMod.1 hh))]
        refine ⟨_, rfl, step_modI1 h hp hm hs hC, fun ho hl => ⟨pw_snoc hl.pre (later_new h hmp ho), hl.new, ?_,
          hl.ext⟩⟩
        have h2 := hl.min
        have h3 := h.minS
        simp only [List.mem_append, List.mem_singleton]
        grind
  · rw [if_neg hs]
    cases hC : p.concl with
    | some C =>
      rw [if_neg (by simp [Pre.isConcept, hC])]
      exact ⟨_, rfl, step_stableImp h hp hs hC, fun ho hl =>
        ⟨pw_snoc hl.pre (later_new h hmp ho), hl.new, hl.min, hl.ext⟩⟩
    | none =>
      rw [if_pos (by simp [Pre.isConcept, hC])]
      unfold stableConcept
      have hall : (st.newStable.all fun i => i.isRespected (insert m p.set)) = true ↔
          ∀ i ∈ st.newStable, i.premise ⊆ insert m p.set → i.conclusion ⊆ insert m p.set := by
        simp only [List.all_eq_true, Imp.isRespected_iff, Respects]
      by_cases hf : ∀ i ∈ st.newStable, i.premise ⊆ insert m p.set → i.conclusion ⊆ insert m p.set
      · simp only [hall.2 hf, if_true, hcl _ hsub, bind, Except.bind]
        have hpw : LO m st → (∀ q ∈ done, ¬ p.set ⊆ q.set) → ∀ r : Pre α β, r.set = insert m p.set →
            (st.newPre ++ [p] ++ [r]).Pairwise fun p q => ¬ q.set ⊆ p.set := fun hl ho r hr =>
          pw_snoc (pw_snoc hl.pre (later_new h hmp ho)) (by
            intro y hy
            rw [List.mem_append, List.mem_singleton] at hy
            rw [hr]
            rcases hy with hy | rfl
            · exact later_new_insert h hmp hmd ho y hy
            · exact not_insert_sub hmp)
        by_cases hc : clo G ex (insert m M) (insert m p.set) = insert m p.set
        · rw [if_pos hc]
          exact ⟨_, rfl, step_stable1 h hp hs hC hc, fun ho hl => ⟨hpw hl ho _ rfl, hl.new, hl.min, hl.ext⟩⟩
        · rw [if_neg hc]
          refine ⟨_, rfl, step_stable2 h hp hs hC hc, fun ho hl => ⟨hpw hl ho _ rfl, ?_, hl.min, hl.ext⟩⟩
          intro i hi j hj hne hji
          simp only [List.mem_append, List.mem_singleton] at hi hj
          rcases hi with hi | rfl
          · rcases hj with hj | rfl
            · exact hl.new i hi j hj hne hji
            · obtain ⟨d, hd', _, _, hpi⟩ := h.newS i hi
              rw [hpi] at hji
              exact absurd (sub_of_insert_insert hmp hji) (ho d hd')
          · rcases hj with hj | rfl
            · exact hf j hj hji
            · exact absurd rfl hne
      · rw [if_neg (fun hh => hf (hall.1 hh))]
        exact ⟨_, rfl, step_stable0 h hp hs hC hf, fun ho hl =>
          ⟨pw_snoc hl.pre (later_new h hmp ho), hl.new, hl.min, hl.ext⟩⟩

theorem loopPre_ok (hcl : ∀ s, s ⊆ insert m M → closure s = .ok (clo G ex (insert m M) s)) (hm : m ∉ M)
    (todo : List (Pre α β)) : ∀ (done : List (Pre α β)) (st : St α β), LI G ex M m done st →
    (∀ q ∈ done, q.set ⊆ M) → (∀ q ∈ todo, Ok G ex M q) →
    ∃ st', loopPre closure m (ex m) todo st = .ok st' ∧ LI G ex M m (done ++ todo) st' ∧
      ((done ++ todo).Pairwise (fun p q => ¬ q.set ⊆ p.set) → LO m st → LO m st') := by
  induction todo with
  | nil =>
    intro done st h _ _
    exact ⟨st, rfl, by simpa using h, fun _ hl => hl⟩
  | cons p rest ih =>
    intro done st h hd ht
    have hp := ht p (by simp)
    obtain ⟨st1, h1, h2, h3⟩ := stepPre_ok hcl hm h hp hd
    obtain ⟨st2, h4, h5, h6⟩ := ih (done ++ [p]) st1 h2 (by
      intro q hq
      rw [List.mem_append, List.mem_singleton] at hq
      rcases hq with hq | rfl
      · exact hd q hq
      · exact hp.sub) (fun q hq => ht q (by simp [hq]))
    refine ⟨st2, ?_, by simpa using h5, ?_⟩
    · unfold loopPre
      rw [h1]
      exact h4
    · intro hpw hl
      have hpw' := hpw
      rw [List.pairwise_append] at hpw'
      refine h6 (by simpa using hpw) (h3 (fun q hq => hpw'.2.2 q hq p (by simp)) hl)

/-! ### The premises are distinct -/

/-- The premises of the implications in the four lists. -/
def prems (st : St α β) : List (Finset β) :=
  (st.oldStable ++ st.newStable ++ st.minMod).map Imp.premise ++ st.nonMin.map Pre.set

theorem insert_inj {s t : Finset β} (hs : m ∉ s) (ht : m ∉ t) (h : insert m s = insert m t) : s = t := by
  rw [← Finset.erase_insert hs, h, Finset.erase_insert ht]

theorem nodup_snoc_perm {γ : Type} {l l' : List γ} {x : γ} (h : l'.Perm (x :: l)) (hl : l.Nodup) (hx : x ∉ l) : l'.Nodup :=
  h.nodup_iff.2 (List.nodup_cons.2 ⟨hx, hl⟩)

theorem stepPre_nd (hm : m ∉ M) {done : List (Pre α β)} {st st' : St α β} {p : Pre α β} (h : LI G ex M m done st)
    (hp : Ok G ex M p) (hd : ∀ q ∈ done, Ok G ex M q)
    (hne : ∀ C, p.concl = some C → ∀ q ∈ done, ∀ D, q.concl = some D → q.set ≠ p.set) (hnd : (prems st).Nodup)
    (hst : stepPre closure m (ex m) p st = .ok st') : (prems st').Nodup := by
  have hmp : m ∉ p.set := fun hh => hm (hp.sub hh)
  have hmd : ∀ q ∈ done, m ∉ q.set := fun q hq hh => hm ((hd q hq).sub hh)
  have hmem : ∀ x, x ∈ prems st ↔ (∃ i ∈ st.oldStable, i.premise = x) ∨ (∃ i ∈ st.newStable, i.premise = x) ∨
      (∃ i ∈ st.minMod, i.premise = x) ∨ ∃ q ∈ st.nonMin, q.set = x := by
    intro x
    simp only [prems, List.mem_append, List.mem_map]
    grind
  have hcc : ∀ q ∈ done, ∀ D, q.concl = some D → p.concl = none → q.set ≠ p.set := by
    intro q hq D hD hC he
    obtain ⟨h1, h2⟩ := (hd q hq).concl_eq hD
    have := hp.closed hC
    rw [← he, ← h1] at this
    exact h2 this
  -- premises with the new attribute
  have hin : insert m p.set ∉ st.oldStable.map Imp.premise ++ st.minMod.map Imp.premise := by
    rw [List.mem_append, List.mem_map, List.mem_map]
    rintro (⟨i, hi, he⟩ | ⟨i, hi, he⟩)
    · obtain ⟨q, hq, _, D, hD, rfl⟩ := h.oldS i hi
      exact hmd q hq (by rw [show q.set = _ from he]; exact Finset.mem_insert_self _ _)
    · obtain ⟨q, hq, _, hq'⟩ := h.minS i hi
      exact hmd q hq (by rw [← hq', he]; exact Finset.mem_insert_self _ _)
  -- premises without it
  have hout : p.set ∉ st.newStable.map Imp.premise ++ st.nonMin.map Pre.set := by
    rw [List.mem_append, List.mem_map, List.mem_map]
    rintro (⟨i, hi, he⟩ | ⟨q, hq, he⟩)
    · obtain ⟨q, hq, _, _, hq'⟩ := h.newS i hi
      exact hmp (by rw [← he, hq']; exact Finset.mem_insert_self _ _)
    · obtain ⟨d, hd', _, C, hC, rfl⟩ := h.nonS q hq
      exact hmp (by rw [← he]; exact Finset.mem_insert_self _ _)
  simp only [List.mem_append, List.mem_map, not_or, not_exists, not_and] at hin hout
  unfold stepPre at hst
  by_cases hs : p.ext ⊆ ex m
  · rw [if_pos hs] at hst
    cases hC : p.concl with
    | none =>
      rw [if_pos (by simp [Pre.isConcept, hC])] at hst
      unfold modifiedConcept at hst
      by_cases hf : ∃ i ∈ st.minMod, i.premise ⊆ p.set
      · rw [if_pos (any_minMod.2 hf)] at hst
        cases hst
        exact hnd
      · rw [if_neg (fun hh => hf (any_minMod.1 hh))] at hst
        cases hst
        refine nodup_snoc_perm (x := p.set) ?_ hnd ?_
        · simp only [prems, List.map_append, List.map_cons, List.map_nil]
          grind
        · rw [hmem]
          rintro (⟨i, hi, he⟩ | ⟨i, hi, he⟩ | ⟨i, hi, he⟩ | ⟨q, hq, he⟩)
          · obtain ⟨q, hq, _, D, hD, rfl⟩ := h.oldS i hi
            exact hcc q hq D hD hC he
          · exact hout.1 i hi he
          · exact hf ⟨i, hi, he.subset⟩
          · exact hout.2 q hq he
    | some C =>
      rw [if_neg (by simp [Pre.isConcept, hC])] at hst
      unfold modifiedImplication at hst
      by_cases hf : ∃ i ∈ st.minMod, i.premise ⊆ p.set
      · simp only [any_minMod.2 hf, if_true] at hst
        cases hst
        refine nodup_snoc_perm (x := insert m p.set) ?_ hnd ?_
        · simp only [prems, List.map_append, List.map_cons, List.map_nil]
          grind
        · rw [hmem]
          rintro (⟨i, hi, he⟩ | ⟨i, hi, he⟩ | ⟨i, hi, he⟩ | ⟨q, hq, he⟩)
          · exact hin.1 i hi he
          · obtain ⟨q, hq, _, hn, hq'⟩ := h.newS i hi
            have := insert_inj (hmd q hq) hmp (hq'.symm.trans he)
            obtain ⟨h1, h2⟩ := hp.concl_eq hC
            have h3 := (hd q hq).closed hn
            rw [this, ← h1] at h3
            exact h2 h3
          · exact hin.2 i hi he
          · obtain ⟨d, hd', _, D, hD, rfl⟩ := h.nonS q hq
            exact hne C hC d hd' D hD (insert_inj (hmd d hd') hmp he)
      · rw [if_neg (fun hh => hf (any_minMod.1 hh))] at hst
        cases hst
        refine nodup_snoc_perm (x := p.set) ?_ hnd ?_
        · simp only [prems, List.map_append, List.map_cons, List.map_nil]
          grind
        · rw [hmem]
          rintro (⟨i, hi, he⟩ | ⟨i, hi, he⟩ | ⟨i, hi, he⟩ | ⟨q, hq, he⟩)
          · obtain ⟨q, hq, _, D, hD, rfl⟩ := h.oldS i hi
            exact hne C hC q hq D hD he
          · exact hout.1 i hi he
          · exact hf ⟨i, hi, he.subset⟩
          · exact hout.2 q hq he
  · rw [if_neg hs] at hst
    cases hC : p.concl with
    | some C =>
      rw [if_neg (by simp [Pre.isConcept, hC])] at hst
      cases hst
      refine nodup_snoc_perm (x := p.set) ?_ hnd ?_
      · simp only [prems, List.map_append, List.map_cons, List.map_nil, Pre.imp]
        grind
      · rw [hmem]
        rintro (⟨i, hi, he⟩ | ⟨i, hi, he⟩ | ⟨i, hi, he⟩ | ⟨q, hq, he⟩)
        · obtain ⟨q, hq, _, D, hD, rfl⟩ := h.oldS i hi
          exact hne C hC q hq D hD he
        · exact hout.1 i hi he
        · obtain ⟨q, hq, hqm, hq'⟩ := h.minS i hi
          apply hs
          rw [hp.ext, ← he, hq', ← (hd q hq).ext]
          exact hqm
        · exact hout.2 q hq he
    | none =>
      rw [if_pos (by simp [Pre.isConcept, hC])] at hst
      unfold stableConcept at hst
      dsimp only at hst
      split at hst
      · next hall =>
        cases hc : closure (insert m p.set) with
        | error e =>
          rw [hc] at hst
          cases hst
        | ok cl =>
          simp only [hc, bind, Except.bind] at hst
          split at hst
          · cases hst
            exact hnd
          · cases hst
            refine nodup_snoc_perm (x := insert m p.set) ?_ hnd ?_
            · simp only [prems, List.map_append, List.map_cons, List.map_nil]
              grind
            · rw [hmem]
              rintro (⟨i, hi, he⟩ | ⟨i, hi, he⟩ | ⟨i, hi, he⟩ | ⟨q, hq, he⟩)
              · exact hin.1 i hi he
              · have hr := (Imp.isRespected_iff _ _).1 (List.all_eq_true.1 hall i hi)
                obtain ⟨q, hq, D, hD, rfl⟩ := mem_imps.1 (h.perm.mem_iff.1
                  (List.mem_append_left _ (List.mem_append_right _ hi)))
                obtain ⟨h1, h2⟩ := (h.ok q hq).concl_eq hD
                refine h2 (Finset.Subset.antisymm ?_ ?_)
                · exact (hr he.subset).trans he.symm.subset
                · rw [h1]
                  exact subset_clo (h.ok q hq).sub
              · exact hin.2 i hi he
              · obtain ⟨d, hd', _, D, hD, rfl⟩ := h.nonS q hq
                exact hcc d hd' D hD hC (insert_inj (hmd d hd') hmp he)
      · cases hst
        exact hnd

theorem loopPre_nd (hcl : ∀ s, s ⊆ insert m M → closure s = .ok (clo G ex (insert m M) s)) (hm : m ∉ M)
    (todo : List (Pre α β)) : ∀ (done : List (Pre α β)) (st st' : St α β), LI G ex M m done st →
    (∀ q ∈ done, Ok G ex M q) → (∀ q ∈ todo, Ok G ex M q) → ((imps (done ++ todo)).map Imp.premise).Nodup →
    (prems st).Nodup → loopPre closure m (ex m) todo st = .ok st' → (prems st').Nodup := by
  induction todo with
  | nil =>
    intro done st st' _ _ _ _ hnd he
    cases he
    exact hnd
  | cons p rest ih =>
    intro done st st' h hd ht hn hnd he
    have hp := ht p (by simp)
    obtain ⟨st1, h1, h2, -⟩ := stepPre_ok hcl hm h hp fun q hq => (hd q hq).sub
    unfold loopPre at he
    rw [h1] at he
    refine ih (done ++ [p]) st1 st' h2 ?_ (fun q hq => ht q (by simp [hq])) (by simpa using hn) ?_ he
    · intro q hq
      rw [List.mem_append, List.mem_singleton] at hq
      rcases hq with hq | rfl
      · exact hd q hq
      · exact hp
    · refine stepPre_nd hm h hp hd ?_ hnd h1
      intro C hC q hq D hD he
      rw [show done ++ p :: rest = done ++ ([p] ++ rest) by simp, imps_append, imps_append, imps_some hC, List.map_append] at hn
      exact (List.nodup_append.1 hn).2.2 q.set (List.mem_map.2 ⟨⟨q.set, D⟩, mem_imps.2 ⟨q, hq, D, hD, rfl⟩, rfl⟩) p.set
        (by simp) he

/-! ### The loop over the modified implications that are not minimal -/

/-- An entry of `non_min_mod`. -/
structure NM (G : Finset α) (ex : β → Finset α) (M : Finset β) (q : Pre α β) : Prop where
  sub : q.set ⊆ M
  ext : q.ext = dn G ex q.set
  concl : q.concl = some (clo G ex M q.set)

theorem loopNonMin_ok {close : Finset β → List (Imp β) → Finset β}
    (hclose : ∀ s L, (L.map Imp.premise).Nodup → IsLeastClosed (specImps L) s (close s L)) {base : List (Imp β)}
    (hb : ∀ i ∈ base, i.conclusion ⊆ clo G ex M i.premise ∧ ¬ i.conclusion ⊆ i.premise) (todo : List (Pre α β)) :
    ∀ (kept : List (Imp β)) (extra : List (Pre α β)),
    (∀ q ∈ todo, NM G ex M q ∧ ¬ q.imp.conclusion ⊆ q.imp.premise) →
    (∀ i ∈ kept, i.conclusion ⊆ clo G ex M i.premise ∧ ¬ i.conclusion ⊆ i.premise) →
    ((base ++ (todo.reverse.map Pre.imp ++ kept)).map Imp.premise).Nodup →
    ∃ E, loopNonMin close base todo kept extra = (base ++ (kept ++ E.map Pre.imp), extra ++ E) ∧
      (∀ e ∈ E, Ok G ex M e ∧ (∃ C, e.concl = some C) ∧ ∃ q ∈ todo, q.set ⊆ e.set ∧ e.concl = q.concl) ∧
      (∀ S, (∀ i ∈ base ++ (kept ++ E.map Pre.imp), i.premise ⊆ S → i.conclusion ⊆ S) →
        ∀ q ∈ todo, q.set ⊆ S → q.concl.getD ∅ ⊆ S) ∧
      (∀ e ∈ E, ∀ i ∈ base ++ kept, i.premise ⊆ e.set → i.conclusion ⊆ e.set) ∧
      E.Pairwise (fun e f => (f.set ⊆ e.set → f.concl.getD ∅ ⊆ e.set) ∧
        (e.set ⊆ f.set → e.concl.getD ∅ ⊆ f.set)) ∧
      ((base ++ (kept ++ E.map Pre.imp)).map Imp.premise).Nodup := by
  induction todo with
  | nil =>
    intro kept extra _ _ hnd
    exact ⟨[], by simp [loopNonMin], by simp, by simp, by simp, by simp, by simpa using hnd⟩
  | cons p rest ih =>
    intro kept extra ht' hk' hnd
    have ht : ∀ q ∈ p :: rest, NM G ex M q := fun q hq => (ht' q hq).1
    have hk : ∀ i ∈ kept, i.conclusion ⊆ clo G ex M i.premise := fun i hi => (hk' i hi).1
    have hp := ht p (by simp)
    have hndB : ((base ++ (rest.reverse.map Pre.imp ++ kept)).map Imp.premise).Nodup := by
      refine hnd.sublist (List.Sublist.map _ (List.Sublist.append_left (List.Sublist.append_right ?_ _) _))
      exact List.Sublist.map _ (List.reverse_sublist.2 (List.sublist_cons_self _ _))
    have hlc := hclose p.set (base ++ (rest.reverse.map Pre.imp ++ kept)) hndB
    set B := base ++ (rest.reverse.map Pre.imp ++ kept) with hB
    have hun : p.set ∪ close p.set B = close p.set B := Finset.union_eq_right.2 hlc.1
    have hclosed := (closed_specImps _ _).1 hlc.2.1
    have hsound : close p.set B ⊆ clo G ex M p.set := by
      apply hlc.2.2 _ (subset_clo hp.sub)
      rw [closed_specImps]
      intro i hi hpi
      have h1 : i.conclusion ⊆ clo G ex M i.premise := by
        rw [hB, List.mem_append, List.mem_append] at hi
        rcases hi with hi | hi | hi
        · exact (hb i hi).1
        · obtain ⟨q, hq, rfl⟩ := List.mem_map.1 hi
          have hq' := ht q (by rw [List.mem_reverse] at hq; simp [hq])
          simp [Pre.imp, hq'.concl]
        · exact hk i hi
      refine h1.trans ((clo_mono hpi).trans ?_)
      rw [(clo_closureOp M).idem _ hp.sub]
    have hrest : ∀ q ∈ rest, ∀ S, (∀ i ∈ B, i.premise ⊆ S → i.conclusion ⊆ S) → q.set ⊆ S →
        q.concl.getD ∅ ⊆ S := by
      intro q hq S hS hqS
      exact hS q.imp (by
        rw [hB, List.mem_append, List.mem_append]
        exact Or.inr (Or.inl (List.mem_map.2 ⟨q, List.mem_reverse.2 hq, rfl⟩))) hqS
    -- closed sets containing `p.set` contain the new premise
    have hgrow : ∀ S, (∀ i ∈ base ++ kept, i.premise ⊆ S → i.conclusion ⊆ S) →
        (∀ q ∈ rest, q.set ⊆ S → q.concl.getD ∅ ⊆ S) → p.set ⊆ S → close p.set B ⊆ S := by
      intro S h1 h2 h3
      apply hlc.2.2 _ h3
      rw [closed_specImps]
      intro i hi
      rw [hB, List.mem_append, List.mem_append] at hi
      rcases hi with hi | hi | hi
      · exact h1 i (by simp [hi])
      · obtain ⟨q, hq, rfl⟩ := List.mem_map.1 hi
        exact h2 q (List.mem_reverse.1 hq)
      · exact h1 i (by simp [hi])
    unfold loopNonMin
    simp only [← hB, hun]
    by_cases he : close p.set B = p.concl.getD ∅
    · rw [if_pos he]
      obtain ⟨E, h1, h2, h3, h4, h5, h6⟩ := ih kept extra (fun q hq => ht' q (by simp [hq])) hk' hndB
      refine ⟨E, h1, ?_, ?_, h4, h5, h6⟩
      · intro e hE
        obtain ⟨a, b, q, hq, c⟩ := h2 e hE
        exact ⟨a, b, q, by simp [hq], c⟩
      · intro S hS q hq hqS
        have hS' := h3 S hS
        rw [List.mem_cons] at hq
        rcases hq with rfl | hq
        · rw [← he]
          exact hgrow S (fun i hi => hS i (by
            rw [List.mem_append] at hi
            simp only [List.mem_append]; tauto)) hS' hqS
        · exact hS' q hq hqS
    · rw [if_neg he]
      have hcc : clo G ex M (close p.set B) = clo G ex M p.set := clo_between hp.sub hlc.1 hsound
      set p' : Pre α β := ⟨p.ext, close p.set B, p.concl⟩ with hp'
      have hok : Ok G ex M p' := by
        refine ⟨hsound.trans (clo_subset _ _), ?_, Or.inr ⟨?_, ?_⟩⟩
        · show p.ext = _
          rw [hp.ext, hp', dn_between hp.sub hlc.1 hsound]
        · show p.concl = _
          rw [hp.concl, hp', hcc]
        · show clo G ex M (close p.set B) ≠ close p.set B
          rw [hcc]
          rw [hp.concl] at he
          exact fun h => he h.symm
      have himp : p'.imp = ⟨close p.set B, clo G ex M p.set⟩ := by simp [Pre.imp, hp', hp.concl]
      have hpn : ¬ p'.imp.conclusion ⊆ p'.imp.premise := by
        rw [himp]
        intro hsub
        obtain ⟨h1, h2⟩ := hok.concl_eq (C := clo G ex M p.set) hp.concl
        exact h2 (Finset.Subset.antisymm hsub hsound)
      have hnd' : ((base ++ (rest.reverse.map Pre.imp ++ (kept ++ [p'.imp]))).map Imp.premise).Nodup := by
        have hB' : base ++ (rest.reverse.map Pre.imp ++ (kept ++ [p'.imp])) = B ++ [p'.imp] := by simp [hB]
        rw [hB', List.map_append, List.nodup_append]
        refine ⟨hndB, by simp, ?_⟩
        intro x hx y hy hxy
        obtain ⟨i, hi, rfl⟩ := List.mem_map.1 hx
        rw [List.map_cons, List.map_nil, List.mem_singleton, himp] at hy
        have hi' := hclosed i hi (hxy.trans hy).subset
        have : i.conclusion ⊆ i.premise := hi'.trans (hxy.trans hy).symm.subset
        rw [hB, List.mem_append, List.mem_append] at hi
        rcases hi with hi | hi | hi
        · exact (hb i hi).2 this
        · obtain ⟨q, hq, rfl⟩ := List.mem_map.1 hi
          exact (ht' q (by rw [List.mem_reverse] at hq; simp [hq])).2 this
        · exact (hk' i hi).2 this
      obtain ⟨E, h1, h2, h3, h4, h5, h6⟩ := ih (kept ++ [p'.imp]) (extra ++ [p'])
        (fun q hq => ht' q (by simp [hq])) (by
          intro i hi
          rw [List.mem_append, List.mem_singleton] at hi
          rcases hi with hi | rfl
          · exact hk' i hi
          · exact ⟨by rw [himp]; exact hcc.symm.subset, hpn⟩) hnd'
      refine ⟨p' :: E, by rw [h1]; simp, ?_, ?_, ?_, ?_, by simpa using h6⟩
      · intro e hE
        rw [List.mem_cons] at hE
        rcases hE with rfl | hE
        · exact ⟨hok, ⟨_, hp.concl⟩, p, by simp, hlc.1, rfl⟩
        · obtain ⟨a, b, q, hq, c⟩ := h2 e hE
          exact ⟨a, b, q, by simp [hq], c⟩
      · intro S hS q hq hqS
        have hS' := h3 S (by
          intro i hi
          apply hS i
          simp only [List.mem_append, List.map_cons, List.mem_cons] at hi ⊢
          tauto)
        rw [List.mem_cons] at hq
        rcases hq with rfl | hq
        · have hg := hgrow S (fun i hi => hS i (by
            rw [List.mem_append] at hi
            simp only [List.mem_append]; tauto)) hS' hqS
          exact hS p'.imp (by simp) hg
        · exact hS' q hq hqS
      · intro e hE i hi
        rw [List.mem_cons] at hE
        rcases hE with rfl | hE
        · apply hclosed i
          rw [hB]
          rw [List.mem_append] at hi
          simp only [List.mem_append]; tauto
        · exact h4 e hE i (by
            rw [List.mem_append] at hi
            simp only [List.mem_append]; tauto)
      · rw [List.pairwise_cons]
        refine ⟨?_, h5⟩
        intro e hE
        obtain ⟨_, _, q, hq, hqe, hqc⟩ := h2 e hE
        constructor
        · intro hsub
          rw [hqc]
          exact hrest q hq p'.set hclosed (hqe.trans hsub)
        · intro hsub
          exact h4 e hE p'.imp (by simp) hsub

/-! ### One attribute -/

/-- What one call of `update_preclosed` does. -/
def upd (sort : List (Pre α β) → List (Pre α β)) (close : Finset β → List (Imp β) → Finset β) (st : St α β) :
    List (Pre α β) × List (Imp β) :=
  let r := loopNonMin close (st.oldStable ++ st.newStable ++ st.minMod) st.nonMin.reverse [] st.modExtra
  (st.newPre ++ sort r.2, r.1)

/-- The invariant that needs the order. -/
structure IO (pre : List (Pre α β)) (basis : List (Imp β)) : Prop where
  pw : pre.Pairwise fun p q => ¬ q.set ⊆ p.set
  indep : ∀ i ∈ basis, ∀ j ∈ basis, i ≠ j → j.premise ⊆ i.premise → j.conclusion ⊆ i.premise

theorem Ok.mod_of_sub {p q : Pre α β} (hp : Ok G ex M p) (hq : Ok G ex M q) (h : q.set ⊆ p.set)
    (hm : q.ext ⊆ ex m) : p.ext ⊆ ex m := by
  rw [hp.ext]; rw [hq.ext] at hm
  exact (dn_anti h).trans hm

theorem imps_perm {l l' : List (Pre α β)} (h : l.Perm l') : (imps l).Perm (imps l') :=
  (h.filter _).map _

theorem imps_all {l : List (Pre α β)} (h : ∀ e ∈ l, ∃ C, e.concl = some C) : imps l = l.map Pre.imp := by
  unfold imps
  rw [List.filter_eq_self.2]
  intro e he
  obtain ⟨C, hC⟩ := h e he
  simp [Pre.isConcept, hC]

theorem imps_nil {l : List (Pre α β)} (h : ∀ e ∈ l, e.concl = none) : imps l = [] := by
  unfold imps
  rw [List.filter_eq_nil_iff.2, List.map_nil]
  intro e he
  simp [Pre.isConcept, h e he]

theorem pw_forall {γ : Type} {R : γ → γ → Prop} (hR : ∀ x y, R x y → R y x) {l : List γ} (h : l.Pairwise R) :
    ∀ x ∈ l, ∀ y ∈ l, x ≠ y → R x y := by
  induction h with
  | nil => simp
  | cons ha _ ih =>
    intro x hx y hy hne
    rw [List.mem_cons] at hx hy
    rcases hx with rfl | hx <;> rcases hy with rfl | hy
    · exact absurd rfl hne
    · exact ha y hy
    · exact hR _ _ (ha x hx)
    · exact ih x hx y hy hne

theorem upd_ok {sort : List (Pre α β) → List (Pre α β)} {close : Finset β → List (Imp β) → Finset β}
    (hsort : ∀ l, (sort l).Perm l)
    (hclose : ∀ s L, (L.map Imp.premise).Nodup → IsLeastClosed (specImps L) s (close s L)) (hm : m ∉ M)
    {pre : List (Pre α β)} {basis : List (Imp β)} (h : Inv G ex M pre basis) {st : St α β}
    (hl : LI G ex M m pre st) (hnd : (prems st).Nodup) :
    Inv G ex (insert m M) (upd sort close st).1 (upd sort close st).2 ∧
    ((∀ l, (sort l).Pairwise fun p q => ¬ q.set ⊂ p.set) → IO pre basis → LO m st →
      IO (upd sort close st).1 (upd sort close st).2) := by
  have hbase : ∀ i ∈ st.oldStable ++ st.newStable ++ st.minMod,
      i.conclusion = clo G ex (insert m M) i.premise := by
    intro i hi
    obtain ⟨q, hq, C, hC, rfl⟩ := mem_imps.1 (hl.perm.mem_iff.1 hi)
    exact ((hl.ok q hq).concl_eq hC).1
  have hnm : ∀ q ∈ st.nonMin.reverse, NM G ex (insert m M) q := by
    intro q hq
    obtain ⟨p, hp, hpm, C, hC, rfl⟩ := hl.nonS q (List.mem_reverse.1 hq)
    have hpo := h.ok p hp
    have hpm' := hpm
    rw [hpo.ext] at hpm'
    refine ⟨Finset.insert_subset_insert _ hpo.sub, ?_, ?_⟩
    · rw [dn_insert_mod hpm']; exact hpo.ext
    · show some (insert m C) = some (clo G ex (insert m M) (insert m p.set))
      rw [clo_eq_of_dn (dn_insert_mod hpm'), clo_insert_mod hpm', (hpo.concl_eq hC).1]
  have hbase' : ∀ i ∈ st.oldStable ++ st.newStable ++ st.minMod, ¬ i.conclusion ⊆ i.premise := by
    intro i hi hsub
    obtain ⟨q, hq, C, hC, rfl⟩ := mem_imps.1 (hl.perm.mem_iff.1 hi)
    obtain ⟨h1, h2⟩ := (hl.ok q hq).concl_eq hC
    exact h2 (Finset.Subset.antisymm hsub (h1 ▸ subset_clo (hl.ok q hq).sub))
  have hnm' : ∀ q ∈ st.nonMin.reverse, ¬ q.imp.conclusion ⊆ q.imp.premise := by
    intro q hq hsub
    obtain ⟨p, hp, hpm, C, hC, rfl⟩ := hl.nonS q (List.mem_reverse.1 hq)
    obtain ⟨h1, h2⟩ := (h.ok p hp).concl_eq hC
    have hmC : m ∉ C := fun hh => hm (clo_subset _ _ (h1 ▸ hh))
    refine h2 (Finset.Subset.antisymm ?_ (h1 ▸ subset_clo (h.ok p hp).sub))
    exact sub_of_insert hmC ((Finset.subset_insert _ _).trans hsub)
  obtain ⟨E, h1, h2, h3, h4, h5, h6⟩ := loopNonMin_ok hclose (fun i hi => ⟨(hbase i hi).subset, hbase' i hi⟩)
    st.nonMin.reverse [] st.modExtra (fun q hq => ⟨hnm q hq, hnm' q hq⟩) (by simp) (by
      simpa [prems, Pre.imp, Function.comp_def] using hnd)
  have hu1 : (upd sort close st).1 = st.newPre ++ sort (st.modExtra ++ E) := by simp only [upd, h1]
  have hu2 : (upd sort close st).2 = st.oldStable ++ st.newStable ++ st.minMod ++ E.map Pre.imp := by
    simp only [upd, h1, List.nil_append]
  rw [hu1, hu2]
  have hmemS : ∀ x, x ∈ sort (st.modExtra ++ E) ↔ x ∈ st.modExtra ∨ x ∈ E := by
    intro x; rw [(hsort _).mem_iff, List.mem_append]
  have hextOk : ∀ q ∈ st.modExtra, Ok G ex (insert m M) q ∧ q.concl = none := by
    intro q hq
    obtain ⟨p, hp, hpm, hC, rfl⟩ := hl.extS q hq
    have hpo := h.ok p hp
    have hpm' := hpm
    rw [hpo.ext] at hpm'
    refine ⟨⟨Finset.insert_subset_insert _ hpo.sub, ?_, Or.inl ⟨rfl, ?_⟩⟩, rfl⟩
    · rw [dn_insert_mod hpm']; exact hpo.ext
    · exact clo_insert_closed hpm' (hpo.closed hC)
  have hEsrc : ∀ e ∈ E, ∃ p ∈ pre, p.ext ⊆ ex m ∧ insert m p.set ⊆ e.set := by
    intro e he
    obtain ⟨_, _, q, hq, hqe, _⟩ := h2 e he
    obtain ⟨p, hp, hpm, C, hC, rfl⟩ := hl.nonS q (List.mem_reverse.1 hq)
    exact ⟨p, hp, hpm, hqe⟩
  have hmp : ∀ p ∈ pre, m ∉ p.set := fun p hp hh => hm ((h.ok p hp).sub hh)
  constructor
  · refine ⟨?_, ?_, ?_, ?_, by simpa using h6⟩
    · intro p hp
      rw [List.mem_append, hmemS] at hp
      rcases hp with hp | hp | hp
      · exact hl.ok p hp
      · exact (hextOk p hp).1
      · exact (h2 p hp).1
    · intro S hS
      by_cases hmS : m ∈ S
      · obtain ⟨p, hp, hpn, hpT⟩ := h.closed _ (clo_erase hm hS)
        have hins : insert m p.set = S := by rw [hpT, Finset.insert_erase hmS]
        by_cases hpm : p.ext ⊆ ex m
        · exact ⟨_, List.mem_append_right _ ((hmemS _).2 (Or.inl (hl.modC p hp hpm hpn))), rfl, hins⟩
        · obtain ⟨q, hq, hqn, hqs⟩ := hl.stabC p hp hpm hpn (by
            intro i hi hpi
            rw [hbase i (by simp [hi]), hins, ← hS]
            rw [hins] at hpi
            exact clo_mono hpi)
          exact ⟨q, List.mem_append_left _ hq, hqn, hqs.trans hins⟩
      · have hc := clo_erase hm hS
        rw [Finset.erase_eq_of_notMem hmS] at hc
        obtain ⟨p, hp, hpn, hpS⟩ := h.closed S hc
        refine ⟨p, List.mem_append_left _ (hl.stab p hp ?_), hpn, hpS⟩
        intro hpm
        rw [(h.ok p hp).ext, hpS] at hpm
        apply hmS
        rw [← hS, mem_clo]
        exact ⟨Finset.mem_insert_self _ _, hpm⟩
    · rw [imps_append]
      refine List.Perm.append hl.perm ?_
      have := imps_perm (hsort (st.modExtra ++ E))
      rw [imps_append, imps_nil (fun e he => (hextOk e he).2), imps_all (fun e he => (h2 e he).2.1),
        List.nil_append] at this
      exact this.symm
    · intro S hSM hS
      have hSb : ∀ i ∈ st.oldStable ++ st.newStable ++ st.minMod, i.premise ⊆ S → i.conclusion ⊆ S :=
        fun i hi => hS i (by rw [List.mem_append]; exact Or.inl hi)
      have hSn := h3 S (by simpa using hS)
      by_cases hmS : m ∈ S
      · have hTM : S.erase m ⊆ M := fun x hx =>
          (Finset.mem_insert.1 (hSM (Finset.mem_erase.1 hx).2)).resolve_left (Finset.mem_erase.1 hx).1
        have hTS : S.erase m ⊆ S := Finset.erase_subset _ _
        have hT : clo G ex M (S.erase m) = S.erase m := by
          apply h.complete _ hTM
          intro i hi hpi
          obtain ⟨p, hp, C, hC, rfl⟩ := mem_imps.1 (h.perm.mem_iff.1 hi)
          have hCM : m ∉ C := by
            rw [((h.ok p hp).concl_eq hC).1]
            exact fun hh => hm (clo_subset _ _ hh)
          have hCS : C ⊆ S := by
            by_cases hpm : p.ext ⊆ ex m
            · rcases hl.modI p hp hpm C hC with hh | hh
              · exact (Finset.subset_insert _ _).trans (hSb _ (List.mem_append_right _ hh) (hpi.trans hTS))
              · exact (Finset.subset_insert _ _).trans (hSn _ (List.mem_reverse.2 hh)
                  (Finset.insert_subset hmS (hpi.trans hTS)))
            · have := hl.perm.mem_iff.2 (mem_imps.2 ⟨p, hl.stab p hp hpm, C, hC, rfl⟩)
              exact hSb _ this (hpi.trans hTS)
          intro x hx
          rw [Finset.mem_erase]
          exact ⟨fun e => hCM (e ▸ hx), hCS hx⟩
        obtain ⟨p, hp, hpn, hpT⟩ := h.closed _ hT
        have hins : insert m p.set = S := by rw [hpT, Finset.insert_erase hmS]
        by_cases hpm : p.ext ⊆ ex m
        · have := (hextOk _ (hl.modC p hp hpm hpn)).1.closed rfl
          rwa [hins] at this
        · obtain ⟨q, hq, hqn, hqs⟩ := hl.stabC p hp hpm hpn (by
            intro i hi hpi
            rw [hins] at hpi ⊢
            exact hSb i (by simp [hi]) hpi)
          have := (hl.ok q hq).closed hqn
          rwa [hqs, hins] at this
      · have hSM' : S ⊆ M := sub_of_insert hmS hSM
        have hnomod : ∀ p ∈ pre, p.set ⊆ S → ¬ p.ext ⊆ ex m := by
          intro p hp hpS hpm
          obtain ⟨i, hi, hip⟩ := hl.minL p hp hpm
          have hc := hSb i (by simp [hi]) (hip.trans hpS)
          obtain ⟨q, hq, hqm, hqi⟩ := hl.minS i hi
          rw [hbase i (by simp [hi]), hqi] at hc
          rw [(h.ok q hq).ext] at hqm
          exact hmS (hc (mem_clo.2 ⟨Finset.mem_insert_self _ _, hqm⟩))
        have hc : clo G ex M S = S := by
          apply h.complete S hSM'
          intro i hi hpi
          obtain ⟨p, hp, C, hC, rfl⟩ := mem_imps.1 (h.perm.mem_iff.1 hi)
          have hpm := hnomod p hp hpi
          exact hSb _ (hl.perm.mem_iff.2 (mem_imps.2 ⟨p, hl.stab p hp hpm, C, hC, rfl⟩)) hpi
        obtain ⟨p, hp, hpn, hpS⟩ := h.closed S hc
        have := ((h.ok p hp).stable (hnomod p hp hpS.subset)).closed hpn
        rwa [hpS] at this
  · intro hso hio hlo
    have hEx : ∀ y, y ∈ st.modExtra ∨ y ∈ E → ∃ p ∈ pre, p.ext ⊆ ex m ∧ insert m p.set ⊆ y.set := by
      rintro y (hy | hy)
      · obtain ⟨p, hp, hpm, _, rfl⟩ := hl.extS y hy
        exact ⟨p, hp, hpm, subset_refl _⟩
      · exact hEsrc y hy
    constructor
    · rw [List.pairwise_append]
      refine ⟨hlo.pre, ?_, ?_⟩
      · have hne : (st.modExtra ++ E).Pairwise fun p q => p.set ≠ q.set := by
          rw [List.pairwise_append]
          refine ⟨hlo.ext, ?_, ?_⟩
          · refine List.Pairwise.imp_of_mem ?_ h5
            intro e f he hf hef hset
            obtain ⟨hfo, ⟨C, hC⟩, _⟩ := h2 f hf
            obtain ⟨hC1, hC2⟩ := hfo.concl_eq hC
            have := hef.1 hset.symm.subset
            rw [hC, hset] at this
            apply hC2
            apply Finset.Subset.antisymm this
            rw [hC1]
            exact subset_clo hfo.sub
          · intro x hx e he hset
            obtain ⟨hfo, ⟨C, hC⟩, _⟩ := h2 e he
            obtain ⟨hC1, hC2⟩ := hfo.concl_eq hC
            have := (hextOk x hx).1.closed (hextOk x hx).2
            rw [hset, ← hC1] at this
            exact hC2 this
        have hne' : (sort (st.modExtra ++ E)).Pairwise fun p q => p.set ≠ q.set :=
          ((hsort _).pairwise_iff (fun hxy => Ne.symm hxy)).2 hne
        refine (List.Pairwise.and hne' (hso _)).imp ?_
        rintro x y ⟨hxy, hxy'⟩ hsub
        exact hxy' (hsub.ssubset_of_ne (Ne.symm hxy))
      · intro x hx y hy hsub
        rw [hmemS] at hy
        obtain ⟨p, hp, hpm, hpy⟩ := hEx y hy
        obtain ⟨d, hd, hd1 | ⟨hd2, hd3, hd1⟩⟩ := hl.preS x hx
        · rw [hd1] at hsub
          exact not_insert_sub (hmp d hd) (hpy.trans hsub)
        · rw [hd1] at hsub
          exact hd2 ((h.ok d hd).mod_of_sub (h.ok p hp) (sub_of_insert_insert (hmp p hp) (hpy.trans hsub)) hpm)
    · have hEi : ∀ i ∈ E.map Pre.imp, ∃ p ∈ pre, p.ext ⊆ ex m ∧ insert m p.set ⊆ i.premise := by
        intro i hi
        obtain ⟨e, he, rfl⟩ := List.mem_map.1 hi
        exact hEsrc e he
      have hmE : ∀ i ∈ E.map Pre.imp, m ∈ i.premise := by
        intro i hi
        obtain ⟨p, _, _, hh⟩ := hEi i hi
        exact hh (Finset.mem_insert_self _ _)
      have hmN : ∀ i ∈ st.newStable, m ∈ i.premise := by
        intro i hi
        obtain ⟨p, _, _, _, hh⟩ := hl.newS i hi
        rw [hh]; exact Finset.mem_insert_self _ _
      intro i hi j hj hij hji
      simp only [List.mem_append] at hi hj
      rcases hi with ((hi | hi) | hi) | hi
      · obtain ⟨p, hp, hps, C, hC, rfl⟩ := hl.oldS i hi
        rcases hj with ((hj | hj) | hj) | hj
        · obtain ⟨q, hq, hqs, D, hD, rfl⟩ := hl.oldS j hj
          exact hio.indep _ (h.perm.mem_iff.2 (mem_imps.2 ⟨p, hp, C, hC, rfl⟩)) _
            (h.perm.mem_iff.2 (mem_imps.2 ⟨q, hq, D, hD, rfl⟩)) hij hji
        · exact absurd (hji (hmN j hj)) (hmp p hp)
        · obtain ⟨q, hq, hqm, hqj⟩ := hl.minS j hj
          rw [hqj] at hji
          exact absurd ((h.ok p hp).mod_of_sub (h.ok q hq) hji hqm) hps
        · exact absurd (hji (hmE j hj)) (hmp p hp)
      · obtain ⟨t, ht, hts, htn, hti⟩ := hl.newS i hi
        rcases hj with ((hj | hj) | hj) | hj
        · obtain ⟨q, hq, hqs, D, hD, rfl⟩ := hl.oldS j hj
          rw [hti] at hji ⊢
          have hqt := sub_of_insert (hmp q hq) hji
          have : D ⊆ t.set := by
            rw [((h.ok q hq).concl_eq hD).1, ← (h.ok t ht).closed htn]
            exact clo_mono hqt
          exact this.trans (Finset.subset_insert _ _)
        · exact hlo.new i hi j hj hij hji
        · obtain ⟨q, hq, hqm, hqj⟩ := hl.minS j hj
          rw [hqj, hti] at hji
          exact absurd ((h.ok t ht).mod_of_sub (h.ok q hq) (sub_of_insert (hmp q hq) hji) hqm) hts
        · obtain ⟨q, hq, hqm, hqj⟩ := hEi j hj
          rw [hti] at hji
          exact absurd ((h.ok t ht).mod_of_sub (h.ok q hq)
            (sub_of_insert_insert (hmp q hq) (hqj.trans hji)) hqm) hts
      · obtain ⟨p, hp, hpm, hpi⟩ := hl.minS i hi
        rcases hj with ((hj | hj) | hj) | hj
        · obtain ⟨q, hq, hqs, D, hD, rfl⟩ := hl.oldS j hj
          rw [hpi] at hji ⊢
          cases hC : p.concl with
          | none =>
            show D ⊆ _
            rw [((h.ok q hq).concl_eq hD).1, ← (h.ok p hp).closed hC]
            exact clo_mono hji
          | some C =>
            refine hio.indep _ (h.perm.mem_iff.2 (mem_imps.2 ⟨p, hp, C, hC, rfl⟩)) _
              (h.perm.mem_iff.2 (mem_imps.2 ⟨q, hq, D, hD, rfl⟩)) ?_ hji
            intro he
            simp only [Imp.mk.injEq] at he
            exact hqs ((h.ok q hq).mod_of_sub (h.ok p hp) he.1.subset hpm)
        · rw [hpi] at hji
          exact absurd (hji (hmN j hj)) (hmp p hp)
        · exact absurd (hlo.min i hi j hj hji).symm hij
        · rw [hpi] at hji
          exact absurd (hji (hmE j hj)) (hmp p hp)
      · obtain ⟨e, he, rfl⟩ := List.mem_map.1 hi
        have hb : ∀ j ∈ st.oldStable ++ st.newStable ++ st.minMod, j.premise ⊆ e.set → j.conclusion ⊆ e.set :=
          fun j hj => h4 e he j (by simpa using hj)
        rcases hj with hj | hj
        · exact hb j (by simpa only [List.mem_append] using hj) hji
        · obtain ⟨f, hf, rfl⟩ := List.mem_map.1 hj
          exact (pw_forall (fun _ _ hh => ⟨hh.2, hh.1⟩) h5 e he f hf (fun hh => hij (by rw [hh]))).1 hji

/-- A complete list of implications `P → cl P` in which every premise respects the other implications is
the canonical basis. -/
theorem pseudo_of_indep {cl : Finset β → Finset β} {basis : List (Imp β)}
    (hb : ∀ i ∈ basis, i.premise ⊆ M ∧ i.conclusion = cl i.premise ∧ cl i.premise ≠ i.premise)
    (hc : ∀ S, S ⊆ M → (∀ i ∈ basis, i.premise ⊆ S → i.conclusion ⊆ S) → cl S = S)
    (hi : ∀ i ∈ basis, ∀ j ∈ basis, i ≠ j → j.premise ⊆ i.premise → j.conclusion ⊆ i.premise) (P : Finset β) :
    IsPseudo M [] cl P ↔ ∃ i ∈ basis, i.premise = P := by
  induction P using Finset.strongInduction with
  | H P ih =>
    rw [isPseudo_iff]
    constructor
    · rintro ⟨⟨h1, _, h2⟩, h3⟩
      by_contra hno
      apply h3
      apply hc P h1
      intro i hib hiP
      have hss : i.premise ⊂ P := hiP.ssubset_of_ne fun he => hno ⟨i, hib, he⟩
      rw [(hb i hib).2.1]
      exact h2 _ hss ((ih _ hss).2 ⟨i, hib, rfl⟩)
    · rintro ⟨i, hib, rfl⟩
      refine ⟨⟨(hb i hib).1, by intro pc hpc; simp at hpc, ?_⟩, (hb i hib).2.2⟩
      intro Q hQ hps
      obtain ⟨j, hjb, rfl⟩ := (ih Q hQ).1 hps
      rw [← (hb j hjb).2.1]
      exact hi i hib j hjb (fun he => hQ.ne (by rw [he])) hQ.1

end AI
