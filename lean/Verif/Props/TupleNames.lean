/-
Property C177: names given as tuples, strings or ranges; strings in place of sets of names (fca/context.py:201-249,
356-431, 694-701).
-/
import Verif.Model.TupleNames
import Verif.Props.ObjState
import Verif.Props.HashOrder

set_option linter.unusedSectionVars false

open Spec

namespace OM

variable {σ γ δ : Type} {P : σ → Prop}

/-- `P` is kept, also by exceptions. -/
def Inv (P : σ → Prop) (m : OM σ γ) : Prop := ∀ s, P s → P (m s).2

/-- An exception is raised and `P` is kept. -/
def Fails (P : σ → Prop) (m : OM σ γ) : Prop := ∀ s, P s → (∃ e, (m s).1 = .error e) ∧ P (m s).2

theorem Fails.inv {m : OM σ γ} (h : Fails P m) : Inv P m := fun s hs => (h s hs).2

theorem fails_raise (e : PyErr) : Fails P (OM.raise e : OM σ γ) := fun _ hs => ⟨⟨e, rfl⟩, hs⟩

theorem fails_lift {r : Py γ} {f : γ → OM σ δ} (h : ∀ x, r = .ok x → Fails P (f x)) : Fails P (OM.lift r >>= f) := by
  intro s hs
  cases r with
  | error e => exact ⟨⟨e, rfl⟩, hs⟩
  | ok x => exact h x rfl s hs

theorem fails_get {f : σ → OM σ δ} (h : ∀ s, P s → Fails P (f s)) : Fails P (OM.get >>= f) :=
  fun s hs => h s hs s hs

theorem fails_modify {g : σ → σ} {f : Unit → OM σ δ} (hg : ∀ s, P s → P (g s)) (h : Fails P (f ())) :
    Fails P (OM.modify g >>= f) := fun s hs => h (g s) (hg s hs)

theorem fails_bind {m : OM σ γ} {f : γ → OM σ δ} (hm : Inv P m) (h : ∀ x, Fails P (f x)) : Fails P (m >>= f) := by
  intro s hs
  rw [bind_apply]
  have h1 := hm s hs
  match h2 : m s with
  | (.ok x, s') => rw [h2] at h1; exact h x s' h1
  | (.error e, s') => rw [h2] at h1; exact ⟨⟨e, rfl⟩, h1⟩

theorem inv_raise (e : PyErr) : Inv P (OM.raise e : OM σ γ) := fun _ hs => hs

theorem inv_lift {r : Py γ} {f : γ → OM σ δ} (h : ∀ x, r = .ok x → Inv P (f x)) : Inv P (OM.lift r >>= f) := by
  intro s hs
  cases r with
  | error e => exact hs
  | ok x => exact h x rfl s hs

theorem inv_get {f : σ → OM σ δ} (h : ∀ s, P s → Inv P (f s)) : Inv P (OM.get >>= f) :=
  fun s hs => h s hs s hs

theorem inv_modify {g : σ → σ} {f : Unit → OM σ δ} (hg : ∀ s, P s → P (g s)) (h : Inv P (f ())) :
    Inv P (OM.modify g >>= f) := fun s hs => h (g s) (hg s hs)

theorem inv_bind {m : OM σ γ} {f : γ → OM σ δ} (hm : Inv P m) (h : ∀ x, Inv P (f x)) : Inv P (m >>= f) := by
  intro s hs
  rw [bind_apply]
  have h1 := hm s hs
  match h2 : m s with
  | (.ok x, s') => rw [h2] at h1; exact h x s' h1
  | (.error e, s') => rw [h2] at h1; exact h1

end OM

namespace CObj

variable {α β : Type} [DecidableEq α] [DecidableEq β] [PyName α] [PyName β]

/-! ### the constructor -/

theorem initT_eq {ko ka : NameSeq} {objs : List α} {atts : List β} (ho : ko.Frozen → objs.Nodup)
    (ha : ka.Frozen → atts.Nodup) (t : TableArg) (s : CObj α β) : initT ko ka t objs atts s = init t objs atts s := by
  have h3 : ¬ (ka.Frozen ∧ atts.toFinset.card < atts.length) := fun h => by
    rw [List.toFinset_card_of_nodup (ha h.1)] at h; exact lt_irrefl _ h.2
  have h4 : ¬ (ko.Frozen ∧ objs.toFinset.card < objs.length) := fun h => by
    rw [List.toFinset_card_of_nodup (ho h.1)] at h; exact lt_irrefl _ h.2
  unfold initT
  rw [if_neg h3, if_neg h4]
  by_cases h1 : t.rows.length ≠ objs.length
  · rw [if_pos h1, init_eq, if_pos h1]; rfl
  rw [if_neg h1]
  by_cases h2 : t.rows ≠ [] ∧ (t.rows.headD []).length ≠ atts.length
  · rw [if_pos h2, init_eq, if_neg h1, if_pos h2]; rfl
  rw [if_neg h2]

theorem initT_rows {ko ka : NameSeq} {objs : List α} {atts : List β} {t : TableArg} (h : t.rows.length ≠ objs.length)
    (s : CObj α β) : initT ko ka t objs atts s = (.error .valueError, s) := by
  unfold initT; rw [if_pos h]; rfl

theorem initT_width {ko ka : NameSeq} {objs : List α} {atts : List β} {t : TableArg}
    (h : t.rows ≠ [] ∧ (t.rows.headD []).length ≠ atts.length) (s : CObj α β) :
    initT ko ka t objs atts s = (.error .valueError, s) := by
  unfold initT
  by_cases h1 : t.rows.length ≠ objs.length
  · rw [if_pos h1]; rfl
  rw [if_neg h1, if_pos h]; rfl

theorem card_lt_of_dup {γ : Type} [DecidableEq γ] {l : List γ} (h : ¬ l.Nodup) : l.toFinset.card < l.length := by
  rcases lt_or_eq_of_le (List.toFinset_card_le l) with h1 | h1
  · exact h1
  · exact absurd (Multiset.toFinset_card_eq_card_iff_nodup (m := (l : Multiset γ)) |>.1 h1) h

/-- C177, constructor: sequences without equal names make the same object as lists with these names. Equal names in a
tuple, string or range raise TypeError where equal names in a list are renamed. -/
theorem C177_construct (ko ka : NameSeq) (t : TableArg) (objs : List α) (atts : List β) (s : CObj α β) :
    ((ko.Frozen → objs.Nodup) → (ka.Frozen → atts.Nodup) → initT ko ka t objs atts s = init t objs atts s) ∧
    ((ko.Frozen ∧ ¬ objs.Nodup ∨ ka.Frozen ∧ ¬ atts.Nodup) → (∃ s', init t objs atts s = (.ok (), s')) →
      initT ko ka t objs atts s = (.error .typeError, s)) := by
  refine ⟨fun ho ha => initT_eq ho ha t s, ?_⟩
  rintro hd ⟨s', hs⟩
  rw [init_eq] at hs
  split at hs
  · simp at hs
  split at hs
  · simp at hs
  rename_i h1 h2
  unfold initT
  rw [if_neg h1, if_neg h2]
  by_cases h3 : ka.Frozen ∧ atts.toFinset.card < atts.length
  · rw [if_pos h3]; rfl
  rw [if_neg h3]
  rcases hd with ⟨h4, h5⟩ | ⟨h4, h5⟩
  · rw [if_pos ⟨h4, card_lt_of_dup h5⟩]; rfl
  · exact absurd ⟨h4, card_lt_of_dup h5⟩ h3

/-! ### calls that do not change a frozen sequence -/

/-- The call asks for no change of names in a sequence that cannot be changed. -/
def Call.Keeps (ko ka : NameSeq) : Call α β → Prop
  | .op (.addObject _ _) => ¬ ko.Frozen
  | .op (.addObjectWithIntent _ _) => ¬ ko.Frozen
  | .op (.deleteObject _) => ¬ ko.Frozen
  | .op (.renameObject _ _) => ¬ ko.Frozen
  | .op (.addAttribute _ _) => ¬ ka.Frozen
  | .op (.addAttributeWithExtent _ _) => ¬ ka.Frozen
  | .op (.deleteAttribute _) => ¬ ka.Frozen
  | .op (.renameAttribute _ _) => ¬ ka.Frozen
  | .deleteAttributes names => ka.Frozen → names = []
  | .op (.setObjectIntent _ _) => True
  | .op (.setAttributeExtent _ _) => True

/-- Names in frozen sequences are distinct. -/
structure SeqOk (ko ka : NameSeq) (s : CObj α β) : Prop where
  o : ko.Frozen → s.objects.Nodup
  a : ka.Frozen → s.attributes.Nodup

theorem mapM_nil_of {γ : Type} {f : γ → Py ℕ} {names : List γ} {js : List ℕ} (h : names.mapM f = .ok js) :
    js = [] ↔ names = [] := by
  cases names with
  | nil => cases h; simp
  | cons a as =>
    rw [List.mapM_cons] at h
    cases hf : f a with
    | error e => rw [hf] at h; cases h
    | ok i =>
      cases hg : as.mapM f with
      | error e => rw [hf, hg] at h; cases h
      | ok is => rw [hf, hg] at h; cases h; simp

/-- C177: a call that changes no frozen sequence does what it does for lists. -/
theorem C177_call {ko ka : NameSeq} {s : CObj α β} (hs : SeqOk ko ka s) {k : Call α β} (hk : k.Keeps ko ka) :
    callT ko ka k s = call k s := by
  have addO : ∀ row n, ¬ ko.Frozen → addObjectT ko ka row n s = addObject row n s := fun row n hk => by
    unfold addObjectT addObject
    rw [OM.get_bind, OM.get_bind]
    cases s.np.stackRow row with
    | error e => rfl
    | ok t =>
      rw [OM.lift_ok, OM.lift_ok, if_neg hk]
      exact initT_eq (fun h => absurd h hk) hs.a _ _
  have addA : ∀ col n, ¬ ka.Frozen → addAttributeT ko ka col n s = addAttribute col n s := fun col n hk => by
    unfold addAttributeT addAttribute
    rw [OM.get_bind, OM.get_bind]
    cases s.np.appendCol col with
    | error e => rfl
    | ok t =>
      rw [OM.lift_ok, OM.lift_ok, if_neg hk]
      exact initT_eq hs.o (fun h => absurd h hk) _ _
  cases k with
  | op o =>
    cases o with
    | addObject row n => exact addO row n hk
    | addAttribute col n => exact addA col n hk
    | addObjectWithIntent B n => exact addO _ n hk
    | addAttributeWithExtent A n => exact addA _ n hk
    | setObjectIntent B n =>
      show setObjectIntentT ko ka B n s = setObjectIntent B n s
      unfold setObjectIntentT setObjectIntent
      rw [OM.get_bind, OM.get_bind]
      cases B.mapM (dictIdx s.aidx) with
      | error e => rfl
      | ok js =>
        rw [OM.lift_ok, OM.lift_ok]
        cases flagsPy s.attributes.length js with
        | error e => rfl
        | ok row =>
          rw [OM.lift_ok, OM.lift_ok]
          cases dictIdx s.oidx n with
          | error e => rfl
          | ok i =>
            rw [OM.lift_ok, OM.lift_ok]
            cases s.np.setRow i row with
            | error e => rfl
            | ok t =>
              rw [OM.lift_ok, OM.lift_ok, OM.modify_bind, OM.modify_bind]
              exact initT_eq hs.o hs.a _ _
    | setAttributeExtent A n =>
      show setAttributeExtentT ko ka A n s = setAttributeExtent A n s
      unfold setAttributeExtentT setAttributeExtent
      rw [OM.get_bind, OM.get_bind]
      cases A.mapM (dictIdx s.oidx) with
      | error e => rfl
      | ok js =>
        rw [OM.lift_ok, OM.lift_ok]
        cases flagsPy s.objects.length js with
        | error e => rfl
        | ok row =>
          rw [OM.lift_ok, OM.lift_ok]
          cases dictIdx s.aidx n with
          | error e => rfl
          | ok i =>
            rw [OM.lift_ok, OM.lift_ok]
            cases s.np.setCol i row with
            | error e => rfl
            | ok t =>
              rw [OM.lift_ok, OM.lift_ok, OM.modify_bind, OM.modify_bind]
              exact initT_eq hs.o hs.a _ _
    | deleteObject n =>
      have hk : ¬ ko.Frozen := hk
      show deleteObjectT ko ka n s = deleteObject n s
      unfold deleteObjectT deleteObject
      rw [OM.get_bind, OM.get_bind]
      cases dictIdx s.oidx n with
      | error e => rfl
      | ok i =>
        rw [OM.lift_ok, OM.lift_ok]
        cases s.np.deleteRow i with
        | error e => rfl
        | ok t =>
          rw [OM.lift_ok, OM.lift_ok, OM.modify_bind, OM.modify_bind, if_neg hk]
          cases listDel s.objects i with
          | error e => rfl
          | ok os =>
            rw [OM.lift_ok, OM.lift_ok, OM.modify_bind, OM.modify_bind]
            exact initT_eq (fun h => absurd h hk) hs.a _ _
    | deleteAttribute n =>
      have hk : ¬ ka.Frozen := hk
      show deleteAttributeT ko ka n s = deleteAttribute n s
      unfold deleteAttributeT deleteAttribute
      rw [OM.get_bind, OM.get_bind]
      cases dictIdx s.aidx n with
      | error e => rfl
      | ok i =>
        rw [OM.lift_ok, OM.lift_ok]
        cases s.np.deleteCols [i] with
        | error e => rfl
        | ok t =>
          rw [OM.lift_ok, OM.lift_ok, OM.modify_bind, OM.modify_bind, if_neg hk]
          cases listDel s.attributes i with
          | error e => rfl
          | ok os =>
            rw [OM.lift_ok, OM.lift_ok, OM.modify_bind, OM.modify_bind]
            exact initT_eq hs.o (fun h => absurd h hk) _ _
    | renameObject old n =>
      have hk : ¬ ko.Frozen := hk
      show renameObjectT ko ka old n s = renameObject old n s
      unfold renameObjectT renameObject
      rw [OM.get_bind, OM.get_bind]
      cases dictIdx s.oidx old with
      | error e => rfl
      | ok i =>
        rw [OM.lift_ok, OM.lift_ok, if_neg hk]
        cases listAssign s.objects i n with
        | error e => rfl
        | ok os =>
          rw [OM.lift_ok, OM.lift_ok, OM.modify_bind, OM.modify_bind]
          exact initT_eq (fun h => absurd h hk) hs.a _ _
    | renameAttribute old n =>
      have hk : ¬ ka.Frozen := hk
      show renameAttributeT ko ka old n s = renameAttribute old n s
      unfold renameAttributeT renameAttribute
      rw [OM.get_bind, OM.get_bind]
      cases dictIdx s.aidx old with
      | error e => rfl
      | ok i =>
        rw [OM.lift_ok, OM.lift_ok, if_neg hk]
        cases listAssign s.attributes i n with
        | error e => rfl
        | ok os =>
          rw [OM.lift_ok, OM.lift_ok, OM.modify_bind, OM.modify_bind]
          exact initT_eq hs.o (fun h => absurd h hk) _ _
  | deleteAttributes names =>
    have hk : ka.Frozen → names = [] := hk
    show deleteAttributesT ko ka names s = deleteAttributes names s
    unfold deleteAttributesT deleteAttributes
    rw [OM.get_bind, OM.get_bind]
    cases hj : names.mapM (dictIdx s.aidx) with
    | error e => rfl
    | ok js =>
      rw [OM.lift_ok, OM.lift_ok]
      cases s.np.deleteCols js with
      | error e => rfl
      | ok t =>
        rw [OM.lift_ok, OM.lift_ok, OM.modify_bind, OM.modify_bind,
          if_neg (fun h => h.2 ((mapM_nil_of hj).2 (hk h.1)))]
        rw [OM.bind_apply, OM.bind_apply]
        obtain ⟨as, h1, h2⟩ := delNames_of (js.insertionSort (· ≥ ·)) { s with np := t }
        rcases h2 with ⟨h2, h3⟩ | ⟨h2, h3⟩
        rotate_left
        · rw [h2]
        · rw [h2]
          dsimp only
          rw [OM.get_bind, OM.get_bind]
          refine initT_eq hs.o (fun hf => ?_) _ _
          exact hs.a hf |>.sublist h1

/-! ### frozen sequences stay -/

theorem initT_objects {ko ka : NameSeq} (hf : ko.Frozen) {t : TableArg} {L : List α} {atts : List β} :
    OM.Inv (fun s : CObj α β => s.objects = L) (initT ko ka t L atts) := by
  intro s hs
  unfold initT
  split_ifs with h1 h2 h3 h4
  · exact hs
  · exact hs
  · exact hs
  · exact hs
  · have hn : renameAll L = L := by
      unfold renameAll; rw [if_neg (fun h => h4 ⟨hf, h⟩)]
    show (init t L atts s).2.objects = L
    rw [init_eq, if_neg h1, if_neg h2]
    cases t.toArray <;> exact hn

theorem initT_attributes {ko ka : NameSeq} (hf : ka.Frozen) {t : TableArg} {objs : List α} {L : List β} :
    OM.Inv (fun s : CObj α β => s.attributes = L) (initT ko ka t objs L) := by
  intro s hs
  unfold initT
  split_ifs with h1 h2 h3 h4
  · exact hs
  · exact hs
  · exact hs
  · exact hs
  · have hn : renameAll L = L := by
      unfold renameAll; rw [if_neg (fun h => h3 ⟨hf, h⟩)]
    show (init t objs L s).2.attributes = L
    rw [init_eq, if_neg h1, if_neg h2]
    cases t.toArray <;> exact hn

theorem delNames_objects (L : List α) (js : List ℕ) : OM.Inv (fun s : CObj α β => s.objects = L) (delNames js) := by
  intro s hs
  obtain ⟨as, -, h⟩ := delNames_of js s
  rcases h with ⟨h, -⟩ | ⟨h, -⟩ <;> rw [h] <;> exact hs

/-- C177: whatever is called, the names of objects in a tuple, string or range stay. -/
theorem C177_objects_stay {ko : NameSeq} (ka : NameSeq) (hf : ko.Frozen) (L : List α) (k : Call α β) :
    OM.Inv (fun s : CObj α β => s.objects = L) (callT ko ka k) := by
  have addO : ∀ row n, OM.Inv (fun s : CObj α β => s.objects = L) (addObjectT ko ka row n) := fun row n => by
    refine OM.inv_get fun s hs => OM.inv_lift fun t _ => ?_
    rw [if_pos hf]; exact OM.inv_raise _
  have addA : ∀ col n, OM.Inv (fun s : CObj α β => s.objects = L) (addAttributeT ko ka col n) := fun col n => by
    refine OM.inv_get fun s hs => OM.inv_lift fun t _ => ?_
    split_ifs
    · exact OM.inv_raise _
    · rw [hs]; exact initT_objects hf
  cases k with
  | op o =>
    cases o with
    | addObject row n => exact addO row n
    | addAttribute col n => exact addA col n
    | addObjectWithIntent B n => exact OM.inv_get fun s hs => addO _ n
    | addAttributeWithExtent A n => exact OM.inv_get fun s hs => addA _ n
    | setObjectIntent B n =>
      refine OM.inv_get fun s hs => OM.inv_lift fun _ _ => OM.inv_lift fun _ _ => OM.inv_lift fun _ _ =>
        OM.inv_lift fun t _ => OM.inv_modify (fun _ h => h) ?_
      rw [hs]; exact initT_objects hf
    | setAttributeExtent A n =>
      refine OM.inv_get fun s hs => OM.inv_lift fun _ _ => OM.inv_lift fun _ _ => OM.inv_lift fun _ _ =>
        OM.inv_lift fun t _ => OM.inv_modify (fun _ h => h) ?_
      rw [hs]; exact initT_objects hf
    | deleteObject n =>
      refine OM.inv_get fun s hs => OM.inv_lift fun _ _ => OM.inv_lift fun t _ => OM.inv_modify (fun _ h => h) ?_
      rw [if_pos hf]; exact OM.inv_raise _
    | deleteAttribute n =>
      refine OM.inv_get fun s hs => OM.inv_lift fun _ _ => OM.inv_lift fun t _ => OM.inv_modify (fun _ h => h) ?_
      split_ifs
      · exact OM.inv_raise _
      · refine OM.inv_lift fun _ _ => OM.inv_modify (fun _ h => h) ?_
        rw [hs]; exact initT_objects hf
    | renameObject old n =>
      refine OM.inv_get fun s hs => OM.inv_lift fun _ _ => ?_
      rw [if_pos hf]; exact OM.inv_raise _
    | renameAttribute old n =>
      refine OM.inv_get fun s hs => OM.inv_lift fun _ _ => ?_
      split_ifs
      · exact OM.inv_raise _
      · refine OM.inv_lift fun _ _ => OM.inv_modify (fun _ h => h) ?_
        rw [hs]; exact initT_objects hf
  | deleteAttributes names =>
    refine OM.inv_get fun s hs => OM.inv_lift fun _ _ => OM.inv_lift fun t _ => OM.inv_modify (fun _ h => h) ?_
    split_ifs
    · exact OM.inv_raise _
    · refine OM.inv_bind (delNames_objects _ _) fun _ => OM.inv_get fun s hs => ?_
      rw [hs]; exact initT_objects hf

/-- C177: whatever is called, the names of attributes in a tuple, string or range stay. -/
theorem C177_attributes_stay (ko : NameSeq) {ka : NameSeq} (hf : ka.Frozen) (L : List β) (k : Call α β) :
    OM.Inv (fun s : CObj α β => s.attributes = L) (callT ko ka k) := by
  have addA : ∀ col n, OM.Inv (fun s : CObj α β => s.attributes = L) (addAttributeT ko ka col n) := fun col n => by
    refine OM.inv_get fun s hs => OM.inv_lift fun t _ => ?_
    rw [if_pos hf]; exact OM.inv_raise _
  have addO : ∀ row n, OM.Inv (fun s : CObj α β => s.attributes = L) (addObjectT ko ka row n) := fun row n => by
    refine OM.inv_get fun s hs => OM.inv_lift fun t _ => ?_
    split_ifs
    · exact OM.inv_raise _
    · rw [hs]; exact initT_attributes hf
  cases k with
  | op o =>
    cases o with
    | addObject row n => exact addO row n
    | addAttribute col n => exact addA col n
    | addObjectWithIntent B n => exact OM.inv_get fun s hs => addO _ n
    | addAttributeWithExtent A n => exact OM.inv_get fun s hs => addA _ n
    | setObjectIntent B n =>
      refine OM.inv_get fun s hs => OM.inv_lift fun _ _ => OM.inv_lift fun _ _ => OM.inv_lift fun _ _ =>
        OM.inv_lift fun t _ => OM.inv_modify (fun _ h => h) ?_
      rw [hs]; exact initT_attributes hf
    | setAttributeExtent A n =>
      refine OM.inv_get fun s hs => OM.inv_lift fun _ _ => OM.inv_lift fun _ _ => OM.inv_lift fun _ _ =>
        OM.inv_lift fun t _ => OM.inv_modify (fun _ h => h) ?_
      rw [hs]; exact initT_attributes hf
    | deleteAttribute n =>
      refine OM.inv_get fun s hs => OM.inv_lift fun _ _ => OM.inv_lift fun t _ => OM.inv_modify (fun _ h => h) ?_
      rw [if_pos hf]; exact OM.inv_raise _
    | deleteObject n =>
      refine OM.inv_get fun s hs => OM.inv_lift fun _ _ => OM.inv_lift fun t _ => OM.inv_modify (fun _ h => h) ?_
      split_ifs
      · exact OM.inv_raise _
      · refine OM.inv_lift fun _ _ => OM.inv_modify (fun _ h => h) ?_
        rw [hs]; exact initT_attributes hf
    | renameAttribute old n =>
      refine OM.inv_get fun s hs => OM.inv_lift fun _ _ => ?_
      rw [if_pos hf]; exact OM.inv_raise _
    | renameObject old n =>
      refine OM.inv_get fun s hs => OM.inv_lift fun _ _ => ?_
      split_ifs
      · exact OM.inv_raise _
      · refine OM.inv_lift fun _ _ => OM.inv_modify (fun _ h => h) ?_
        rw [hs]; exact initT_attributes hf
  | deleteAttributes names =>
    refine OM.inv_get fun s hs => OM.inv_lift fun js _ => OM.inv_lift fun t _ => OM.inv_modify (fun _ h => h) ?_
    split_ifs with h
    · exact OM.inv_raise _
    · have hj : js = [] := by by_contra hj; exact h ⟨hf, hj⟩
      subst hj
      refine OM.inv_bind (fun s hs => hs) fun _ => OM.inv_get fun s hs => ?_
      rw [hs]; exact initT_attributes hf

/-- C177: a history of calls that ask for no change of a frozen sequence goes as for lists. -/
theorem C177_history {ko ka : NameSeq} {s : CObj α β} (hs : SeqOk ko ka s) {ks : List (Call α β)}
    (hk : ∀ k ∈ ks, k.Keeps ko ka) : historyT ko ka s ks = history s ks := by
  induction ks generalizing s with
  | nil => rfl
  | cons k ks ih =>
    have h1 := C177_call hs (hk k (by simp))
    have h2 : SeqOk ko ka (call k s).2 := by
      rw [← h1]
      refine ⟨fun hf => ?_, fun hf => ?_⟩
      · rw [C177_objects_stay ka hf s.objects k s rfl]; exact hs.o hf
      · rw [C177_attributes_stay ko hf s.attributes k s rfl]; exact hs.a hf
    show historyT ko ka (callT ko ka k s).2 ks = history (call k s).2 ks
    rw [h1]
    exact ih h2 fun k hk' => hk k (List.mem_cons_of_mem _ hk')

/-! ### calls that would change a frozen sequence -/

/-- C177: adding and renaming an object raise TypeError if the names of the objects are in a tuple, string or range, and
change nothing. -/
theorem C177_objects_refused {ko : NameSeq} (ka : NameSeq) (hf : ko.Frozen) {c : Ctx α β} (h : Shape c) :
    (∀ row n, row.length = c.attributes.length →
      callT ko ka (.op (.addObject row n)) (of c) = (.error .typeError, of c)) ∧
    (∀ B n, callT ko ka (.op (.addObjectWithIntent B n)) (of c) = (.error .typeError, of c)) ∧
    ∀ old n, old ∈ c.objects → callT ko ka (.op (.renameObject old n)) (of c) = (.error .typeError, of c) := by
  have add : ∀ row n, row.length = c.attributes.length → addObjectT ko ka row n (of c) = (.error .typeError, of c) := by
    intro row n hr
    have : ∃ t, (of c).np.stackRow row = .ok t := by
      show ∃ t, c.nd.stackRow row = .ok t
      unfold Nd.stackRow
      split_ifs with hne
      · unfold Nd.appendRow
        rw [h.cols hne]
        simp only
        rw [if_pos hr]
        exact ⟨_, rfl⟩
      · exact ⟨_, rfl⟩
    obtain ⟨t, ht⟩ := this
    unfold addObjectT
    rw [OM.get_bind, ht, OM.lift_ok, if_pos hf]
    rfl
  refine ⟨add, fun B n => add _ n (by simp [of]), fun old n ho => ?_⟩
  show renameObjectT ko ka old n (of c) = _
  obtain ⟨i, hi⟩ := lastIdx_mem ho
  unfold renameObjectT
  rw [OM.get_bind, show (of c).oidx = indexDict c.objects from rfl, dictIdx_eq, hi, OM.lift_ok, if_pos hf]
  rfl

/-- C177: the same for attributes. -/
theorem C177_attributes_refused (ko : NameSeq) {ka : NameSeq} (hf : ka.Frozen) {c : Ctx α β} (h : Shape c) :
    (∀ col n, col.length = c.objects.length →
      callT ko ka (.op (.addAttribute col n)) (of c) = (.error .typeError, of c)) ∧
    (∀ A n, callT ko ka (.op (.addAttributeWithExtent A n)) (of c) = (.error .typeError, of c)) ∧
    ∀ old n, old ∈ c.attributes → callT ko ka (.op (.renameAttribute old n)) (of c) = (.error .typeError, of c) := by
  have add : ∀ col n, col.length = c.objects.length → addAttributeT ko ka col n (of c) = (.error .typeError, of c) := by
    intro col n hr
    have : ∃ t, (of c).np.appendCol col = .ok t := by
      show ∃ t, c.nd.appendCol col = .ok t
      unfold Nd.appendCol
      cases hc : c.nd.cols with
      | none =>
        have hrows : c.nd.rows = [] := by
          by_contra hne; rw [h.cols hne] at hc; cases hc
        have : col = [] := by
          rw [← h.nrows, hrows] at hr; exact List.length_eq_zero_iff.1 hr
        exact ⟨_, if_pos this⟩
      | some m => exact ⟨_, if_pos (hr.trans h.nrows.symm)⟩
    obtain ⟨t, ht⟩ := this
    unfold addAttributeT
    rw [OM.get_bind, ht, OM.lift_ok, if_pos hf]
    rfl
  refine ⟨add, fun B n => add _ n (by simp [of]), fun old n ho => ?_⟩
  show renameAttributeT ko ka old n (of c) = _
  obtain ⟨i, hi⟩ := lastIdx_mem ho
  unfold renameAttributeT
  rw [OM.get_bind, show (of c).aidx = indexDict c.attributes from rfl, dictIdx_eq, hi, OM.lift_ok, if_pos hf]
  rfl

theorem lt_of_get {γ : Type} {l : List γ} {i : ℕ} {x : γ} (h : l[i]? = some x) : i < l.length := Ctx.lt_of_getElem? h

/-- C177, `delete_object` with the objects in a tuple, string or range: TypeError, but the row is gone. The objects before
the deleted one keep their intents, every later one is answered with the intent of its successor, and the last one raises
IndexError. -/
theorem C177_delete_object {ko : NameSeq} (ka : NameSeq) (hf : ko.Frozen) {c : Ctx α β} (h : Shape c)
    (hn : c.objects.Nodup) {i : ℕ} {o : α} (hi : c.objects[i]? = some o) :
    ∃ s', callT ko ka (.op (.deleteObject o)) (of c) = (.error .typeError, s') ∧
      s' = { of c with np := ⟨c.nd.cols, c.nd.rows.eraseIdx i⟩ } ∧
      (∀ k x, k < i → c.objects[k]? = some x → s'.objectIntent x = c.objectIntent x) ∧
      (∀ k x y, i ≤ k → c.objects[k]? = some x → c.objects[k + 1]? = some y → s'.objectIntent x = c.objectIntent y) ∧
      ∀ x, c.objects[c.objects.length - 1]? = some x → s'.objectIntent x = .error .indexError := by
  have hlt : i < c.nd.rows.length := by rw [h.nrows]; exact lt_of_get hi
  have hne : c.nd.rows ≠ [] := by intro e; rw [e] at hlt; simp at hlt
  have hcol := h.cols hne
  refine ⟨_, ?_, rfl, ?_, ?_, ?_⟩
  · show deleteObjectT ko ka o (of c) = _
    have h1 : c.nd.deleteRow i = .ok ⟨c.nd.cols, c.nd.rows.eraseIdx i⟩ := by unfold Nd.deleteRow; rw [if_pos hlt]
    unfold deleteObjectT
    rw [OM.get_bind, show (of c).oidx = indexDict c.objects from rfl, dictIdx_eq, lastIdx_eq hn hi, OM.lift_ok,
      show (of c).np = c.nd from rfl, h1, OM.lift_ok, OM.modify_bind, if_pos hf]
    rfl
  all_goals
    have key : ∀ k x, c.objects[k]? = some x →
        ({ of c with np := ⟨c.nd.cols, c.nd.rows.eraseIdx i⟩ } : CObj α β).objectIntent x =
          (pyGet (c.nd.rows.eraseIdx i) k >>= fun r => (nonzero r).mapM (pyGet c.attributes) >>= fun names =>
            .ok names.toFinset) := by
      intro k x hk
      unfold objectIntent
      dsimp only
      rw [show (of c).oidx = indexDict c.objects from rfl, dictIdx_eq, lastIdx_eq hn hk, py_ok_bind]
      unfold Nd.row
      rw [hcol]
      rfl
    have key2 : ∀ k x, c.objects[k]? = some x → c.objectIntent x =
          (pyGet c.nd.rows k >>= fun r => (nonzero r).mapM (pyGet c.attributes) >>= fun names =>
            .ok names.toFinset) := by
      intro k x hk
      unfold Ctx.objectIntent Ctx.intentByIndex Nd.row
      rw [lastIdx_eq hn hk, py_ok_bind, hcol]
  · intro k x hki hk
    rw [key k x hk, key2 k x hk]
    unfold pyGet
    rw [List.getElem?_eraseIdx, if_pos hki]
  · intro k x y hki hk hy
    rw [key k x hk, key2 (k + 1) y hy]
    unfold pyGet
    rw [List.getElem?_eraseIdx, if_neg (by omega)]
  · intro x hx
    rw [key _ x hx]
    unfold pyGet
    rw [List.getElem?_eq_none (by rw [List.length_eraseIdx, if_pos hlt, h.nrows])]
    rfl

/-- C177, `delete_attribute` with the attributes in a tuple, string or range (at least one object): TypeError, but the
column is gone, and the extents of later attributes are those of their successors. -/
theorem C177_delete_attribute (ko : NameSeq) {ka : NameSeq} (hf : ka.Frozen) {c : Ctx α β} (h : Shape c)
    (hne : c.objects ≠ []) (hn : c.attributes.Nodup) {j : ℕ} {a : β} (hj : c.attributes[j]? = some a) :
    ∃ s', callT ko ka (.op (.deleteAttribute a)) (of c) = (.error .typeError, s') ∧
      s' = { of c with np := ⟨some (c.attributes.length - 1), c.nd.rows.map fun r => r.eraseIdx j⟩ } ∧
      (∀ k x, k < j → c.attributes[k]? = some x → s'.attributeExtent x = c.attributeExtent x) ∧
      (∀ k x y, j ≤ k → c.attributes[k]? = some x → c.attributes[k + 1]? = some y →
        s'.attributeExtent x = c.attributeExtent y) ∧
      ∀ x, c.attributes[c.attributes.length - 1]? = some x → s'.attributeExtent x = .error .indexError := by
  have hrne : c.nd.rows ≠ [] := by
    intro e
    have h1 := h.nrows
    rw [e] at h1
    exact hne (List.length_eq_zero_iff.1 h1.symm)
  have hcol := h.cols hrne
  have hlt := lt_of_get hj
  refine ⟨_, ?_, rfl, ?_, ?_, ?_⟩
  · show deleteAttributeT ko ka a (of c) = _
    have h1 : c.nd.deleteCols [j] = .ok ⟨some (c.attributes.length - 1), c.nd.rows.map fun r => r.eraseIdx j⟩ := by
      unfold Nd.deleteCols
      rw [hcol]
      simp only
      rw [if_pos (by simpa using hlt)]
      congr 2
      · congr 1
        have := congrArg List.length (eraseIdx_eq_positions c.attributes a hlt)
        rw [List.length_map] at this
        rw [this, List.length_eraseIdx, if_pos hlt]
      · apply List.map_congr_left
        intro r hr
        exact eraseIdx_eq_positions r false (by rw [h.width r hr]; exact hlt)
    unfold deleteAttributeT
    rw [OM.get_bind, show (of c).aidx = indexDict c.attributes from rfl, dictIdx_eq, lastIdx_eq hn hj, OM.lift_ok,
      show (of c).np = c.nd from rfl, h1, OM.lift_ok, OM.modify_bind, if_pos hf]
    rfl
  all_goals
    have key : ∀ k x, c.attributes[k]? = some x →
        ({ of c with np := ⟨some (c.attributes.length - 1), c.nd.rows.map fun r => r.eraseIdx j⟩ } : CObj α β).attributeExtent x =
          ((if k < c.attributes.length - 1 then .ok (c.nd.rows.map fun r => (r.eraseIdx j).getD k false)
              else .error .indexError : Py (List Bool)) >>= fun r => (nonzero r).mapM (pyGet c.objects) >>= fun names =>
            .ok names.toFinset) := by
      intro k x hk
      unfold attributeExtent
      dsimp only
      rw [show (of c).aidx = indexDict c.attributes from rfl, dictIdx_eq, lastIdx_eq hn hk, py_ok_bind]
      unfold Nd.col
      simp only [List.map_map]
      rfl
    have key2 : ∀ k x, c.attributes[k]? = some x → c.attributeExtent x =
          ((if k < c.attributes.length then .ok (c.nd.rows.map fun r => r.getD k false)
              else .error .indexError : Py (List Bool)) >>= fun r => (nonzero r).mapM (pyGet c.objects) >>= fun names =>
            .ok names.toFinset) := by
      intro k x hk
      unfold Ctx.attributeExtent Ctx.extentByIndex Nd.col
      rw [lastIdx_eq hn hk, py_ok_bind, hcol]
  · intro k x hkj hk
    rw [key k x hk, key2 k x hk, if_pos (by omega), if_pos (by omega)]
    congr 2
    apply List.map_congr_left
    intro r _
    rw [List.getD_eq_getElem?_getD, List.getD_eq_getElem?_getD, List.getElem?_eraseIdx, if_pos hkj]
  · intro k x y hkj hk hy
    have hk1 := lt_of_get hy
    rw [key k x hk, key2 (k + 1) y hy, if_pos (by omega), if_pos hk1]
    congr 2
    apply List.map_congr_left
    intro r _
    rw [List.getD_eq_getElem?_getD, List.getD_eq_getElem?_getD, List.getElem?_eraseIdx, if_neg (by omega)]
  · intro x hx
    rw [key _ x hx, if_neg (lt_irrefl _)]
    rfl

/-! ### after a failed deletion -/

/-- The objects are `L` and the table has fewer rows. -/
def RowLost (L : List α) (s : CObj α β) : Prop := s.objects = L ∧ s.np.rows.length < L.length

theorem fails_initT_rows {ko ka : NameSeq} {P : CObj α β → Prop} {t : TableArg} {objs : List α} {atts : List β}
    (h : t.rows.length ≠ objs.length) : OM.Fails P (initT ko ka t objs atts) := fun s hs => by
  rw [initT_rows h]; exact ⟨⟨_, rfl⟩, hs⟩

theorem fails_initT_width {ko ka : NameSeq} {P : CObj α β → Prop} {t : TableArg} {objs : List α} {atts : List β}
    (h : t.rows ≠ [] ∧ (t.rows.headD []).length ≠ atts.length) : OM.Fails P (initT ko ka t objs atts) := fun s hs => by
  rw [initT_width h]; exact ⟨⟨_, rfl⟩, hs⟩

theorem appendCol_rows {t t' : Nd} {col : List Bool} (h : t.appendCol col = .ok t') : t'.rows.length ≤ t.rows.length := by
  unfold Nd.appendCol at h
  split at h
  · split at h
    · cases h; simp
    · cases h
  · split at h
    · cases h; simp
    · cases h

theorem setCol_rows {t t' : Nd} {j : ℕ} {col : List Bool} (h : t.setCol j col = .ok t') :
    t'.rows.length ≤ t.rows.length := by
  unfold Nd.setCol at h
  split at h
  · cases h
  split at h
  · split at h
    · cases h; simp
    · cases h
  · cases h

theorem setRow_rows {t t' : Nd} {i : ℕ} {row : List Bool} (h : t.setRow i row = .ok t') :
    t'.rows.length ≤ t.rows.length := by
  unfold Nd.setRow at h
  split at h
  · cases h
  split at h
  · split at h
    · cases h; simp
    · cases h
  · cases h

theorem deleteRow_rows {t t' : Nd} {i : ℕ} (h : t.deleteRow i = .ok t') : t'.rows.length ≤ t.rows.length := by
  unfold Nd.deleteRow at h
  split at h
  · cases h; exact List.length_eraseIdx_le _ _
  · cases h

theorem deleteCols_rows {t t' : Nd} {js : List ℕ} (h : t.deleteCols js = .ok t') : t'.rows.length ≤ t.rows.length := by
  unfold Nd.deleteCols at h
  split at h
  · cases h
  split at h
  · cases h; simp
  · cases h

/-- C177: once a row is lost, every call raises, whatever is called, and the row stays lost. -/
theorem C177_row_lost {ko : NameSeq} (ka : NameSeq) (hf : ko.Frozen) (L : List α) (k : Call α β) :
    OM.Fails (RowLost L : CObj α β → Prop) (callT ko ka k) := by
  have addO : ∀ row n, OM.Fails (RowLost L : CObj α β → Prop) (addObjectT ko ka row n) := fun row n => by
    refine OM.fails_get fun s hs => OM.fails_lift fun t _ => ?_
    rw [if_pos hf]; exact OM.fails_raise _
  have addA : ∀ col n, OM.Fails (RowLost L : CObj α β → Prop) (addAttributeT ko ka col n) := fun col n => by
    refine OM.fails_get fun s hs => OM.fails_lift fun t ht => ?_
    split_ifs
    · exact OM.fails_raise _
    · refine fails_initT_rows ?_
      rw [hs.1]
      exact (lt_of_le_of_lt (appendCol_rows ht) hs.2).ne
  have upd : ∀ t : Nd, t.rows.length < L.length → ∀ s : CObj α β, RowLost L s → RowLost L { s with np := t } :=
    fun t ht s hs => ⟨hs.1, ht⟩
  cases k with
  | op o =>
    cases o with
    | addObject row n => exact addO row n
    | addAttribute col n => exact addA col n
    | addObjectWithIntent B n => exact OM.fails_get fun s hs => addO _ n
    | addAttributeWithExtent A n => exact OM.fails_get fun s hs => addA _ n
    | setObjectIntent B n =>
      refine OM.fails_get fun s hs => OM.fails_lift fun _ _ => OM.fails_lift fun _ _ => OM.fails_lift fun _ _ =>
        OM.fails_lift fun t ht => ?_
      have hl := lt_of_le_of_lt (setRow_rows ht) hs.2
      refine OM.fails_modify (upd t hl) (fails_initT_rows ?_)
      rw [hs.1]; exact hl.ne
    | setAttributeExtent A n =>
      refine OM.fails_get fun s hs => OM.fails_lift fun _ _ => OM.fails_lift fun _ _ => OM.fails_lift fun _ _ =>
        OM.fails_lift fun t ht => ?_
      have hl := lt_of_le_of_lt (setCol_rows ht) hs.2
      refine OM.fails_modify (upd t hl) (fails_initT_rows ?_)
      rw [hs.1]; exact hl.ne
    | deleteObject n =>
      refine OM.fails_get fun s hs => OM.fails_lift fun _ _ => OM.fails_lift fun t ht => ?_
      refine OM.fails_modify (upd t (lt_of_le_of_lt (deleteRow_rows ht) hs.2)) ?_
      rw [if_pos hf]; exact OM.fails_raise _
    | deleteAttribute n =>
      refine OM.fails_get fun s hs => OM.fails_lift fun _ _ => OM.fails_lift fun t ht => ?_
      have hl := lt_of_le_of_lt (deleteCols_rows ht) hs.2
      refine OM.fails_modify (upd t hl) ?_
      split_ifs
      · exact OM.fails_raise _
      · refine OM.fails_lift fun _ _ => OM.fails_modify (fun _ h => h) (fails_initT_rows ?_)
        rw [hs.1]; exact hl.ne
    | renameObject old n =>
      refine OM.fails_get fun s hs => OM.fails_lift fun _ _ => ?_
      rw [if_pos hf]; exact OM.fails_raise _
    | renameAttribute old n =>
      refine OM.fails_get fun s hs => OM.fails_lift fun _ _ => ?_
      split_ifs
      · exact OM.fails_raise _
      · refine OM.fails_lift fun _ _ => OM.fails_modify (fun _ h => h) (fails_initT_rows ?_)
        rw [hs.1]; exact hs.2.ne
  | deleteAttributes names =>
    refine OM.fails_get fun s hs => OM.fails_lift fun _ _ => OM.fails_lift fun t ht => ?_
    have hl := lt_of_le_of_lt (deleteCols_rows ht) hs.2
    refine OM.fails_modify (upd t hl) ?_
    split_ifs
    · exact OM.fails_raise _
    · refine OM.fails_bind ?_ fun _ => OM.fails_get fun s hs => fails_initT_rows ?_
      · intro s hs
        obtain ⟨as, -, h⟩ := delNames_of _ s
        rcases h with ⟨h, -⟩ | ⟨h, -⟩ <;> rw [h] <;> exact hs
      · rw [hs.1]; exact hl.ne

/-- C177: after a failed `delete_object` every further call raises, in every history. -/
theorem C177_stuck {ko : NameSeq} (ka : NameSeq) (hf : ko.Frozen) {c : Ctx α β} (h : Shape c) (hn : c.objects.Nodup)
    {o : α} (ho : o ∈ c.objects) {s' : CObj α β} {r : Py Unit}
    (hd : callT ko ka (.op (.deleteObject o)) (of c) = (r, s')) (ks : List (Call α β)) (k : Call α β) :
    ∃ e, (callT ko ka k (historyT ko ka s' ks)).1 = .error e := by
  obtain ⟨i, hi⟩ := List.mem_iff_getElem?.1 ho
  obtain ⟨s₁, h1, h2, -⟩ := C177_delete_object ka hf h hn hi
  rw [hd] at h1
  have hs : s' = s₁ := (Prod.mk.inj h1).2
  have h0 : RowLost c.objects s' := by
    rw [hs, h2]
    refine ⟨rfl, ?_⟩
    show (c.nd.rows.eraseIdx i).length < _
    have hlt := lt_of_get hi
    rw [List.length_eraseIdx, if_pos (by rw [h.nrows]; exact hlt), h.nrows]
    omega
  have h3 : ∀ ks (s : CObj α β), RowLost c.objects s → RowLost c.objects (historyT ko ka s ks) := by
    intro ks
    induction ks with
    | nil => exact fun s hs => hs
    | cons k ks ih => exact fun s hs => ih _ (C177_row_lost ka hf c.objects k s hs).2
  exact (C177_row_lost ka hf c.objects k _ (h3 ks s' h0)).1

/-- The attributes are `L` and every row of the table is shorter; there is a row. -/
def ColLost (L : List β) (s : CObj α β) : Prop :=
  s.attributes = L ∧ ∃ w < L.length, s.np.cols = some w ∧ s.np.rows ≠ [] ∧ ∀ r ∈ s.np.rows, r.length = w

/-- The part of `ColLost` on the table. -/
def Narrow (n : ℕ) (t : Nd) : Prop := ∃ w < n, t.cols = some w ∧ t.rows ≠ [] ∧ ∀ r ∈ t.rows, r.length = w

theorem Narrow.head {n : ℕ} {t : Nd} (h : Narrow n t) : t.rows ≠ [] ∧ (t.rows.headD []).length ≠ n := by
  obtain ⟨w, hw, -, hne, hl⟩ := h
  refine ⟨hne, ?_⟩
  obtain ⟨r, rs, hr⟩ := List.exists_cons_of_ne_nil hne
  rw [hr]
  have := hl r (by rw [hr]; simp)
  simp only [List.headD_cons]
  omega

theorem Narrow.stackRow {n : ℕ} {t t' : Nd} {row : List Bool} (h : Narrow n t) (ht : t.stackRow row = .ok t') :
    Narrow n t' := by
  obtain ⟨w, hw, hc, hne, hl⟩ := h
  unfold Nd.stackRow at ht
  rw [if_pos hne] at ht
  unfold Nd.appendRow at ht
  rw [hc] at ht
  simp only at ht
  split at ht
  · cases ht
    refine ⟨w, hw, rfl, by simp, ?_⟩
    intro r hr
    rcases List.mem_append.1 hr with hr | hr
    · exact hl r hr
    · rw [List.mem_singleton.1 hr]; assumption
  · cases ht

theorem Narrow.setRow {n i : ℕ} {t t' : Nd} {row : List Bool} (h : Narrow n t) (ht : t.setRow i row = .ok t') :
    Narrow n t' := by
  obtain ⟨w, hw, hc, hne, hl⟩ := h
  unfold Nd.setRow at ht
  rw [hc] at ht
  simp only at ht
  split at ht
  · split at ht
    · cases ht
      refine ⟨w, hw, rfl, by simpa using hne, ?_⟩
      intro r hr
      rcases List.mem_or_eq_of_mem_set hr with hr | hr
      · exact hl r hr
      · rw [hr]; assumption
    · cases ht
  · cases ht

theorem Narrow.setCol {n j : ℕ} {t t' : Nd} {col : List Bool} (h : Narrow n t) (ht : t.setCol j col = .ok t') :
    Narrow n t' := by
  obtain ⟨w, hw, hc, hne, hl⟩ := h
  unfold Nd.setCol at ht
  rw [hc] at ht
  simp only at ht
  split at ht
  · split at ht
    · rename_i h2
      cases ht
      refine ⟨w, hw, rfl, ?_, ?_⟩
      · intro e
        have := congrArg List.length e
        rw [List.length_zipWith, h2, min_self] at this
        exact hne (List.length_eq_zero_iff.1 this)
      · intro r hr
        obtain ⟨k, hk⟩ := List.mem_iff_getElem?.1 hr
        rw [List.getElem?_zipWith] at hk
        cases h3 : t.rows[k]? with
        | none => rw [h3] at hk; simp at hk
        | some q =>
          cases h4 : col[k]? with
          | none => rw [h3, h4] at hk; simp at hk
          | some b =>
            rw [h3, h4] at hk
            simp only [Option.some.injEq] at hk
            rw [← hk, List.length_set]
            exact hl q (List.mem_of_getElem? h3)
    · cases ht
  · cases ht

theorem Narrow.deleteCols {n : ℕ} {t t' : Nd} {js : List ℕ} (h : Narrow n t) (ht : t.deleteCols js = .ok t') :
    Narrow n t' := by
  obtain ⟨w, hw, hc, hne, hl⟩ := h
  unfold Nd.deleteCols at ht
  rw [hc] at ht
  simp only at ht
  split at ht
  · cases ht
    refine ⟨_, ?_, rfl, by simpa using hne, ?_⟩
    · refine lt_of_le_of_lt (List.length_filter_le _ _) ?_
      simpa using hw
    · intro r hr
      obtain ⟨q, hq, rfl⟩ := List.mem_map.1 hr
      rw [List.length_map, hl q hq]
  · cases ht

theorem Narrow.deleteRow {n i : ℕ} {t t' : Nd} (h : Narrow n t) (ht : t.deleteRow i = .ok t') :
    t'.rows = [] ∨ Narrow n t' := by
  obtain ⟨w, hw, hc, hne, hl⟩ := h
  unfold Nd.deleteRow at ht
  split at ht
  · cases ht
    by_cases he : t.rows.eraseIdx i = []
    · exact .inl he
    · exact .inr ⟨w, hw, hc, he, fun r hr => hl r (List.mem_of_mem_eraseIdx hr)⟩
  · cases ht

/-- C177: once a column is lost, every call raises and the column stays lost, except that `delete_object` may take away the
last row. -/
theorem C177_column_lost (ko : NameSeq) {ka : NameSeq} (hf : ka.Frozen) (L : List β) (k : Call α β) {s : CObj α β}
    (hs : ColLost L s) :
    ((∃ e, (callT ko ka k s).1 = .error e) ∧ ColLost L (callT ko ka k s).2) ∨
      (∃ o, k = .op (.deleteObject o)) ∧ (callT ko ka k s).2.np.rows = [] := by
  have addA : ∀ col n, OM.Fails (ColLost L : CObj α β → Prop) (addAttributeT ko ka col n) := fun col n => by
    refine OM.fails_get fun s hs => OM.fails_lift fun t _ => ?_
    rw [if_pos hf]; exact OM.fails_raise _
  have addO : ∀ row n, OM.Fails (ColLost L : CObj α β → Prop) (addObjectT ko ka row n) := fun row n => by
    refine OM.fails_get fun s hs => OM.fails_lift fun t ht => ?_
    split_ifs
    · exact OM.fails_raise _
    · refine fails_initT_width ?_
      rw [hs.1]
      exact (Narrow.stackRow hs.2 ht).head
  have upd : ∀ t : Nd, Narrow L.length t → ∀ s : CObj α β, ColLost L s → ColLost L { s with np := t } :=
    fun t ht s hs => ⟨hs.1, ht⟩
  cases k with
  | op o =>
    cases o with
    | addObject row n => exact .inl (addO row n s hs)
    | addAttribute col n => exact .inl (addA col n s hs)
    | addObjectWithIntent B n => exact .inl ((OM.fails_get fun s hs => addO _ n : OM.Fails _ _) s hs)
    | addAttributeWithExtent A n => exact .inl ((OM.fails_get fun s hs => addA _ n : OM.Fails _ _) s hs)
    | setObjectIntent B n =>
      left
      refine (?_ : OM.Fails (ColLost L : CObj α β → Prop) (setObjectIntentT ko ka B n)) s hs
      refine OM.fails_get fun s hs => OM.fails_lift fun _ _ => OM.fails_lift fun _ _ => OM.fails_lift fun _ _ =>
        OM.fails_lift fun t ht => ?_
      have hl := Narrow.setRow hs.2 ht
      refine OM.fails_modify (upd t hl) (fails_initT_width ?_)
      rw [hs.1]; exact hl.head
    | setAttributeExtent A n =>
      left
      refine (?_ : OM.Fails (ColLost L : CObj α β → Prop) (setAttributeExtentT ko ka A n)) s hs
      refine OM.fails_get fun s hs => OM.fails_lift fun _ _ => OM.fails_lift fun _ _ => OM.fails_lift fun _ _ =>
        OM.fails_lift fun t ht => ?_
      have hl := Narrow.setCol hs.2 ht
      refine OM.fails_modify (upd t hl) (fails_initT_width ?_)
      rw [hs.1]; exact hl.head
    | deleteAttribute n =>
      left
      refine (?_ : OM.Fails (ColLost L : CObj α β → Prop) (deleteAttributeT ko ka n)) s hs
      refine OM.fails_get fun s hs => OM.fails_lift fun _ _ => OM.fails_lift fun t ht => ?_
      refine OM.fails_modify (upd t (Narrow.deleteCols hs.2 ht)) ?_
      rw [if_pos hf]; exact OM.fails_raise _
    | deleteObject n =>
      show _ ∨ (∃ o, Call.op (TOp.deleteObject n) = Call.op (TOp.deleteObject o)) ∧ (deleteObjectT ko ka n s).2.np.rows = []
      have e : callT ko ka (.op (.deleteObject n)) s = deleteObjectT ko ka n s := rfl
      rw [e]
      unfold deleteObjectT
      rw [OM.get_bind]
      cases dictIdx s.oidx n with
      | error e => exact .inl ⟨⟨e, rfl⟩, hs⟩
      | ok i =>
        rw [OM.lift_ok]
        cases ht : s.np.deleteRow i with
        | error e => exact .inl ⟨⟨e, rfl⟩, hs⟩
        | ok t =>
          rw [OM.lift_ok, OM.modify_bind]
          rcases Narrow.deleteRow hs.2 ht with h0 | h0
          · right
            refine ⟨⟨n, rfl⟩, ?_⟩
            split_ifs
            · exact h0
            · cases listDel s.objects i with
              | error e => exact h0
              | ok os =>
                rw [OM.lift_ok, OM.modify_bind]
                unfold initT
                split_ifs with g1 g2 g3 g4
                · exact h0
                · exact h0
                · exact h0
                · exact h0
                · rw [init_eq, if_neg g1, if_neg g2, show TableArg.toArray (.lists t.rows) = Nd.ofLists t.rows from rfl,
                    h0]
                  rfl
          · left
            refine (?_ : OM.Fails (ColLost L : CObj α β → Prop) _) { s with np := t } (upd t h0 s hs)
            split_ifs
            · exact OM.fails_raise _
            · refine OM.fails_lift fun _ _ => OM.fails_modify (fun _ h => h) (fails_initT_width ?_)
              rw [hs.1]; exact h0.head
    | renameAttribute old n =>
      left
      refine (?_ : OM.Fails (ColLost L : CObj α β → Prop) (renameAttributeT ko ka old n)) s hs
      refine OM.fails_get fun s hs => OM.fails_lift fun _ _ => ?_
      rw [if_pos hf]; exact OM.fails_raise _
    | renameObject old n =>
      left
      refine (?_ : OM.Fails (ColLost L : CObj α β → Prop) (renameObjectT ko ka old n)) s hs
      refine OM.fails_get fun s hs => OM.fails_lift fun _ _ => ?_
      split_ifs
      · exact OM.fails_raise _
      · refine OM.fails_lift fun _ _ => OM.fails_modify (fun _ h => h) (fails_initT_width ?_)
        rw [hs.1]; exact Narrow.head hs.2
  | deleteAttributes names =>
    left
    refine (?_ : OM.Fails (ColLost L : CObj α β → Prop) (deleteAttributesT ko ka names)) s hs
    refine OM.fails_get fun s hs => OM.fails_lift fun js _ => OM.fails_lift fun t ht => ?_
    have hl := Narrow.deleteCols hs.2 ht
    refine OM.fails_modify (upd t hl) ?_
    split_ifs with h
    · exact OM.fails_raise _
    · have hj : js = [] := by by_contra hj; exact h ⟨hf, hj⟩
      subst hj
      refine OM.fails_bind (fun s hs => hs) fun _ => OM.fails_get fun s hs => fails_initT_width ?_
      rw [hs.1]; exact hl.head

/-- C177: after a failed `delete_attribute` every further call raises as long as there are objects in the table. -/
theorem C177_attributes_stuck (ko : NameSeq) {ka : NameSeq} (hf : ka.Frozen) {c : Ctx α β} (h : Shape c)
    (hne : c.objects ≠ []) (hn : c.attributes.Nodup) {a : β} (ha : a ∈ c.attributes) {s' : CObj α β} {r : Py Unit}
    (hd : callT ko ka (.op (.deleteAttribute a)) (of c) = (r, s')) (ks : List (Call α β))
    (hrows : ∀ l, l <+: ks → (historyT ko ka s' l).np.rows ≠ []) {k : Call α β}
    (hk : ∀ o, k ≠ .op (.deleteObject o)) : ∃ e, (callT ko ka k (historyT ko ka s' ks)).1 = .error e := by
  obtain ⟨j, hj⟩ := List.mem_iff_getElem?.1 ha
  obtain ⟨s₁, h1, h2, -⟩ := C177_delete_attribute ko hf h hne hn hj
  rw [hd] at h1
  have hs : s' = s₁ := (Prod.mk.inj h1).2
  have hlt := lt_of_get hj
  have hrne : c.nd.rows ≠ [] := by
    intro e
    have h1 := h.nrows
    rw [e] at h1
    exact hne (List.length_eq_zero_iff.1 h1.symm)
  have h0 : ColLost c.attributes s' := by
    rw [hs, h2]
    refine ⟨rfl, c.attributes.length - 1, by omega, rfl, by simpa using hrne, ?_⟩
    intro r hr
    obtain ⟨q, hq, rfl⟩ := List.mem_map.1 hr
    rw [List.length_eraseIdx, h.width q hq, if_pos hlt]
  have h3 : ∀ ks (s : CObj α β), ColLost c.attributes s → (∀ l, l <+: ks → (historyT ko ka s l).np.rows ≠ []) →
      ColLost c.attributes (historyT ko ka s ks) := by
    intro ks
    induction ks with
    | nil => exact fun s hs _ => hs
    | cons k ks ih =>
      intro s hs hp
      refine ih _ ?_ fun l hl => hp (k :: l) (List.cons_prefix_cons.2 ⟨rfl, hl⟩)
      rcases C177_column_lost ko hf c.attributes k hs with h4 | h4
      · exact h4.2
      · exact absurd h4.2 (hp [k] (List.cons_prefix_cons.2 ⟨rfl, List.nil_prefix⟩))
  rcases C177_column_lost ko hf c.attributes k (h3 ks s' h0 hrows) with h4 | h4
  · exact h4.1
  · obtain ⟨⟨o, ho⟩, -⟩ := h4
    exact absurd ho (hk o)

end CObj

/-! ### products -/

/-- C177: a product needs the names in sequences of the same kind; the same names in a list and in a tuple raise. -/
theorem C177_product {α β γ : Type} [DecidableEq α] [DecidableEq β] [DecidableEq γ] [PyName α] [PyName β] [PyName γ]
    (ka ko : NameSeq) (l : Ctx α β) (r : Ctx β γ) :
    (ka = ko → Ctx.mulT ka ko l r = l.mul r) ∧ (ka ≠ ko → Ctx.mulT ka ko l r = .error .multiplicationException) :=
  ⟨fun h => if_neg (not_not.2 h), fun h => if_pos h⟩

/-! ### strings in place of sets -/

theorem letter_infix (ch : Char) (t : List Char) : [ch] <:+: t ↔ [ch] ∈ letters t := by
  unfold letters
  constructor
  · intro h
    exact List.mem_map.2 ⟨ch, h.subset (by simp), rfl⟩
  · intro h
    obtain ⟨d, hd, he⟩ := List.mem_map.1 h
    obtain rfl : d = ch := by simpa using he
    obtain ⟨a, b, rfl⟩ := List.append_of_mem hd
    exact ⟨a, b, by simp⟩

namespace Ctx

variable {α β : Type} [DecidableEq α] [DecidableEq β] [PyName α] [PyName β]

/-- C177: an object added with a string has the attributes whose names are substrings of it. -/
theorem C177_text (c : Ctx α (List Char)) (t : List Char) (n : α) :
    c.addObjectWithText t n = c.addObjectWithIntent {a ∈ c.attributes.toFinset | a <:+: t} n := by
  unfold addObjectWithText addObjectWithIntent
  congr 1
  apply List.map_congr_left
  intro a ha
  simp [ha]

/-- C177: the same for attributes added with a string. -/
theorem C177_text_extent (c : Ctx (List Char) β) (t : List Char) (n : β) :
    c.addAttributeWithText t n = c.addAttributeWithExtent {o ∈ c.objects.toFinset | o <:+: t} n := by
  unfold addAttributeWithText addAttributeWithExtent
  congr 1
  apply List.map_congr_left
  intro a ha
  simp [ha]

/-- C177: for names of one letter a string stands for the set of its letters. -/
theorem C177_text_letters (c : Ctx α (List Char)) (h : ∀ a ∈ c.attributes, a.length = 1) (t : List Char) (n : α) :
    c.addObjectWithText t n = c.addObjectWithIntent (letters t).toFinset n := by
  unfold addObjectWithText addObjectWithIntent
  congr 1
  apply List.map_congr_left
  intro a ha
  obtain ⟨ch, rfl⟩ := List.length_eq_one_iff.1 (h a ha)
  simp [letter_infix]

/-- C177: the name of an attribute in place of the set with this name: right exactly if no other name is a substring of
it. The empty name is a substring of all. -/
theorem C177_text_name (c : Ctx α (List Char)) {t : List Char} (ht : t ∈ c.attributes) :
    ({a ∈ c.attributes.toFinset | a <:+: t} : Finset (List Char)) = {t} ↔ ∀ a ∈ c.attributes, a <:+: t → a = t := by
  constructor
  · intro h a ha hi
    have : a ∈ ({a ∈ c.attributes.toFinset | a <:+: t} : Finset (List Char)) := by simp [ha, hi]
    rw [h] at this
    exact Finset.mem_singleton.1 this
  · intro h
    ext a
    simp only [Finset.mem_filter, List.mem_toFinset, Finset.mem_singleton]
    constructor
    · exact fun h1 => h a h1.1 h1.2
    · rintro rfl; exact ⟨ht, List.infix_rfl⟩

/-- C177: `set_object_intent` with a string: KeyError without effect if a letter is no name. -/
theorem C177_set_text (c : Ctx α (List Char)) {t : List Char} {ch : Char} (hm : ch ∈ t) (hc : [ch] ∉ c.attributes)
    (n : α) : c.setObjectText t n = (c, some .keyError) := by
  have key : ∀ l : List (List Char), [ch] ∈ l → l.mapM (lastIdx c.attributes) = .error .keyError := by
    intro l
    induction l with
    | nil => simp
    | cons x l ih =>
      intro h
      rw [List.mapM_cons]
      by_cases hx : x ∈ c.attributes
      · obtain ⟨i, hi⟩ := lastIdx_mem hx
        have hl : [ch] ∈ l := by
          rcases List.mem_cons.1 h with h | h
          · rw [h] at hc; exact absurd hx hc
          · exact h
        rw [hi, ih hl]
        rfl
      · rw [lastIdx_not_mem hx]
        rfl
  unfold setObjectText setObjectIntent
  rw [key (letters t) (List.mem_map.2 ⟨ch, hm, rfl⟩)]
  rfl

/-- C177: the same for `set_attribute_extent`. -/
theorem C177_set_text_extent (c : Ctx (List Char) β) {t : List Char} {ch : Char} (hm : ch ∈ t) (hc : [ch] ∉ c.objects)
    (n : β) : c.setAttributeText t n = (c, some .keyError) := by
  have key : ∀ l : List (List Char), [ch] ∈ l → l.mapM (lastIdx c.objects) = .error .keyError := by
    intro l
    induction l with
    | nil => simp
    | cons x l ih =>
      intro h
      rw [List.mapM_cons]
      by_cases hx : x ∈ c.objects
      · obtain ⟨i, hi⟩ := lastIdx_mem hx
        have hl : [ch] ∈ l := by
          rcases List.mem_cons.1 h with h | h
          · rw [h] at hc; exact absurd hx hc
          · exact h
        rw [hi, ih hl]
        rfl
      · rw [lastIdx_not_mem hx]
        rfl
  unfold setAttributeText setAttributeExtent
  rw [key (letters t) (List.mem_map.2 ⟨ch, hm, rfl⟩)]
  rfl

/-- C177: a string does what a set of its letters does, in whatever order this is iterated. -/
theorem C177_set_text_same (ord : SetOrder (List Char)) (t : List Char) (A : Finset (List Char))
    (hA : ∀ x, x ∈ A ↔ ∃ ch ∈ t, x = [ch]) :
    (∀ (c : Ctx α (List Char)) (n : α), c.setObjectText t n = c.setObjectIntent (ord.enum A) n) ∧
    ∀ (c : Ctx (List Char) β) (n : β), c.setAttributeText t n = c.setAttributeExtent (ord.enum A) n := by
  have h : HashOrder.SameSet (letters t) (ord.enum A) := fun x => by
    rw [ord.mem, hA]
    unfold letters
    rw [List.mem_map]
    constructor <;> rintro ⟨ch, h1, h2⟩ <;> exact ⟨ch, h1, h2.symm⟩
  exact ⟨fun c n => (HashOrder.C168_mutators c).1 h n, fun c n => (HashOrder.C168_mutators c).2 h n⟩

end Ctx

theorem strIndex_ok {t x : List Char} {i : ℕ} :
    strIndex t x = .ok i ↔ x <+: t.drop i ∧ i ≤ t.length ∧ ∀ k < i, ¬ x <+: t.drop k := by
  unfold strIndex
  cases h : (List.range (t.length + 1)).find? fun i => decide (x <+: t.drop i) with
  | none =>
    rw [List.find?_range_eq_none] at h
    simp only [reduceCtorEq, false_iff]
    rintro ⟨h1, h2, -⟩
    have := h i (by omega)
    simp [h1] at this
  | some m =>
    rw [List.find?_range_eq_some] at h
    obtain ⟨h1, h2, h3⟩ := h
    have h1 : x <+: t.drop m := by simpa using h1
    have h2 : m ≤ t.length := by simpa [Nat.lt_succ_iff] using h2
    have h3 : ∀ k < m, ¬ x <+: t.drop k := fun k hk => by simpa using h3 k hk
    constructor
    · intro e; cases e; exact ⟨h1, h2, h3⟩
    · rintro ⟨g1, g2, g3⟩
      rcases lt_trichotomy m i with hlt | rfl | hlt
      · exact absurd h1 (g3 m hlt)
      · rfl
      · exact absurd g1 (h3 i hlt)

/-- C177: `t.index(x)` raises ValueError exactly if `x` is no substring. -/
theorem C177_str_index {t x : List Char} : (∃ i, strIndex t x = .ok i) ↔ x <:+: t := by
  constructor
  · rintro ⟨i, hi⟩
    obtain ⟨h1, -, -⟩ := strIndex_ok.1 hi
    exact h1.isInfix.trans (List.drop_suffix i t).isInfix
  · rintro ⟨a, b, rfl⟩
    have : ∃ i, i ≤ (a ++ x ++ b).length ∧ x <+: (a ++ x ++ b).drop i := by
      refine ⟨a.length, by simp, ?_⟩
      rw [List.append_assoc, List.drop_left]
      exact List.prefix_append x b
    classical
    let i := Nat.find this
    exact ⟨i, strIndex_ok.2 ⟨(Nat.find_spec this).2, (Nat.find_spec this).1, fun k hk hp =>
      Nat.find_min this hk ⟨(le_of_lt hk).trans (Nat.find_spec this).1, hp⟩⟩⟩

theorem strIndex_err {t x : List Char} {e : PyErr} (h : strIndex t x = .error e) : e = .valueError := by
  unfold strIndex at h
  split at h
  · cases h
  · cases h; rfl

theorem letter_prefix {t : List Char} {ch : Char} {i : ℕ} : [ch] <+: t.drop i ↔ (letters t)[i]? = some [ch] := by
  unfold letters
  rw [List.getElem?_map]
  cases h : t.drop i with
  | nil =>
    have : t[i]? = none := by
      rw [List.getElem?_eq_none_iff]; exact List.drop_eq_nil_iff.1 h
    simp [this]
  | cons d ds =>
    have : t[i]? = some d := by
      have := congrArg List.head? h
      rwa [List.head?_drop, List.head?_cons] at this
    simp [this, List.cons_prefix_cons, eq_comm]

theorem firstIdx_first {γ : Type} [DecidableEq γ] {l : List γ} {x : γ} {i : ℕ} (h : firstIdx l x = .ok i) :
    l[i]? = some x ∧ ∀ k < i, l[k]? ≠ some x := by
  unfold firstIdx at h
  split at h
  · rename_i k hk
    cases h
    rw [List.idxOf?_eq_some_iff] at hk
    obtain ⟨hlt, h1, h2⟩ := hk
    refine ⟨by rw [List.getElem?_eq_getElem hlt, h1], fun k hk hp => h2 k hk ?_⟩
    rw [List.getElem?_eq_getElem (lt_trans hk hlt)] at hp
    exact Option.some.inj hp
  · cases h

/-- A letter is found where a list of the letters has it. -/
theorem strIndex_letter (t : List Char) (ch : Char) : strIndex t [ch] = firstIdx (letters t) [ch] := by
  by_cases hm : [ch] ∈ letters t
  · obtain ⟨i, hi⟩ := firstIdx_mem hm
    obtain ⟨h1, h2⟩ := firstIdx_first hi
    have hlen : (letters t).length = t.length := by simp [letters]
    have := Ctx.lt_of_getElem? h1
    rw [hi, strIndex_ok]
    exact ⟨letter_prefix.2 h1, by omega, fun k hk hp => h2 k hk (letter_prefix.1 hp)⟩
  · rw [firstIdx_not_mem hm]
    rw [← letter_infix, ← C177_str_index] at hm
    cases hs : strIndex t [ch] with
    | ok i => exact absurd ⟨i, hs⟩ hm
    | error e => rw [strIndex_err hs]

namespace Ctx

/-- C177, `get_value` with the names in strings: for letters the answer for lists. For longer texts, and the empty one,
lists raise ValueError; strings with them answer for the first letters of the texts. -/
theorem C177_get_value {c : Ctx (List Char) (List Char)} (hw : c.WFw) {so sa : List Char} (ho : c.objects = letters so)
    (ha : c.attributes = letters sa) :
    (∀ o a, getValueText c.nd so sa [o] [a] = c.getValue [o] [a]) ∧
    ∀ o a : List Char, o.length ≠ 1 → c.getValue o a = .error .valueError ∧
      (o ≠ [] → a ≠ [] → o <:+: so → a <:+: sa → ∃ b, getValueText c.nd so sa o a = .ok b) ∧
      (so.Nodup → ∀ x xs, o = x :: xs → o <:+: so → ∀ y, getValueText c.nd so sa o [y] = c.getValue [x] [y]) := by
  have hlo : c.objects.length = so.length := by rw [ho]; simp [letters]
  have hla : c.attributes.length = sa.length := by rw [ha]; simp [letters]
  refine ⟨fun o a => ?_, fun o a hl => ⟨?_, fun hon han h1 h2 => ?_, ?_⟩⟩
  · unfold getValueText getValue
    rw [strIndex_letter, strIndex_letter, ho, ha]
  · have : o ∉ c.objects := by
      rw [ho]
      intro h
      obtain ⟨ch, -, rfl⟩ := List.mem_map.1 h
      exact hl rfl
    unfold getValue
    rw [firstIdx_not_mem this]
    rfl
  · obtain ⟨i, hi⟩ := C177_str_index.2 h1
    obtain ⟨j, hj⟩ := C177_str_index.2 h2
    have lt : ∀ {t x : List Char} {i : ℕ}, x ≠ [] → strIndex t x = .ok i → i < t.length := by
      intro t x i hx h
      obtain ⟨h1, h2, -⟩ := strIndex_ok.1 h
      rcases lt_or_eq_of_le h2 with h3 | h3
      · exact h3
      · rw [h3, List.drop_length] at h1
        exact absurd (List.prefix_nil.1 h1) hx
    have hi' := lt hon hi
    have hj' := lt han hj
    have hr : i < c.nd.rows.length := by rw [hw.nrows, hlo]; exact hi'
    have hwid := hw.width _ (List.getElem_mem hr)
    unfold getValueText Nd.cell pyGet
    rw [hi, hj]
    simp only [py_ok_bind]
    rw [List.getElem?_eq_getElem hr]
    simp only [py_ok_bind]
    rw [List.getElem?_eq_getElem (by rw [hwid, hla]; exact hj')]
    exact ⟨_, rfl⟩
  · rintro hn x xs rfl h1 y
    obtain ⟨i, hi⟩ := C177_str_index.2 h1
    have hx : strIndex so [x] = .ok i := by
      obtain ⟨g1, g2, -⟩ := strIndex_ok.1 hi
      have g4 : [x] <+: so.drop i := List.IsPrefix.trans (by simp) g1
      refine strIndex_ok.2 ⟨g4, g2, fun k hk hp => ?_⟩
      have e : ∀ {m}, [x] <+: so.drop m → so[m]? = some x := by
        intro m hm
        rw [letter_prefix] at hm
        unfold letters at hm
        rw [List.getElem?_map] at hm
        cases hg : so[m]? with
        | none => rw [hg] at hm; simp at hm
        | some d => rw [hg] at hm; simpa using hm
      have e1 := e g4
      have e2 := e hp
      have l1 := Ctx.lt_of_getElem? e1
      have := (List.Nodup.getElem_inj_iff hn (hi := lt_trans hk l1) (hj := l1)).1 (by
        rw [List.getElem?_eq_getElem (lt_trans hk l1)] at e2
        rw [List.getElem?_eq_getElem l1] at e1
        exact (Option.some.inj e2).trans (Option.some.inj e1).symm)
      omega
    unfold getValueText getValue
    rw [hi, ho, ← strIndex_letter, hx, strIndex_letter, ha]

end Ctx

/-! ### examples -/

section examples

/-- Two objects, two attributes. -/
def tupleCtx : Ctx (Fin 4) (Fin 4) := ⟨[0, 1, 2], [0, 1], ⟨some 2, [[true, false], [false, true], [true, true]]⟩⟩

theorem tupleCtx_shape : CObj.Shape tupleCtx := by constructor <;> decide +kernel

example : CObj.SeqOk .tuple .str (CObj.of tupleCtx) := ⟨fun _ => by decide, fun _ => by decide⟩

/-- Deleting the first of three objects kept in a tuple: the second one has the intent of the third afterwards. -/
example : ∃ s', CObj.callT .tuple .list (.op (.deleteObject 0)) (CObj.of tupleCtx) = (.error .typeError, s') ∧
    s'.objectIntent 0 = tupleCtx.objectIntent 1 ∧ s'.objectIntent 1 = tupleCtx.objectIntent 2 ∧
    s'.objectIntent 2 = .error .indexError := by
  obtain ⟨s', h1, -, -, h3, h4⟩ := CObj.C177_delete_object (ko := .tuple) .list (by decide) tupleCtx_shape (by decide)
    (show tupleCtx.objects[0]? = some 0 from rfl)
  exact ⟨s', h1, h3 0 0 1 le_rfl rfl rfl, h3 1 1 2 (by omega) rfl rfl, h4 2 rfl⟩

/-- Equal names in a tuple raise. -/
example : CObj.initT .tuple .list (.lists [[true], [false]]) ([0, 0] : List (Fin 4)) ([0] : List (Fin 4))
    (CObj.of tupleCtx) = (.error .typeError, CObj.of tupleCtx) := rfl

/-- `Context([[True]], ['g'], ['ab', 'a', 'c'])` with an object `'h'` added with the string `'ab'`: it has 'ab' and 'a'. -/
example : ({a ∈ ([['a', 'b'], ['a'], ['c']] : List (List Char)).toFinset | a <:+: ['a', 'b']} : Finset (List Char)) =
    {['a', 'b'], ['a']} := by decide +kernel

/-- `'xyz'.index('yz')` is 1. -/
example : strIndex ['x', 'y', 'z'] ['y', 'z'] = .ok 1 := by decide +kernel

end examples
