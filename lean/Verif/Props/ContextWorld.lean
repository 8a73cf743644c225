/-
Property C159: which contexts of a program share lists and arrays, and what a change of one does to another.
-/
import Verif.Model.ContextWorld
import Verif.Props.ContextAlias

set_option linter.unusedSectionVars false

open Spec

namespace CWorld

variable {α β : Type} [DecidableEq α] [DecidableEq β] [PyName α] [PyName β]

/-! ### The object itself -/

/-- The computation does to object `k` what `n` does to an object alone. -/
def Lifts {γ : Type} (k : ℕ) (m : OM (CWorld α β) γ) (n : OM (CObj α β) γ) : Prop :=
  ∀ w, (m w).1 = (n (w.load k)).1 ∧ (m w).2.load k = (n (w.load k)).2

theorem Lifts.bind {γ δ : Type} {k : ℕ} {m : OM (CWorld α β) γ} {n : OM (CObj α β) γ} {f : γ → OM (CWorld α β) δ}
    {g : γ → OM (CObj α β) δ} (h : Lifts k m n) (hf : ∀ x, Lifts k (f x) (g x)) : Lifts k (m >>= f) (n >>= g) := by
  intro w
  obtain ⟨h1, h2⟩ := h w
  rw [OM.bind_apply, OM.bind_apply]
  cases hm : m w with
  | mk r w' =>
    cases hn : n (w.load k) with
    | mk r' s' =>
      rw [hm, hn] at h1 h2
      dsimp only at h1 h2
      subst h1 h2
      cases r with
      | ok x => exact hf x w'
      | error e => exact ⟨rfl, rfl⟩

theorem Lifts.self {k : ℕ} : Lifts k (self k : OM (CWorld α β) _) OM.get := fun _ => ⟨rfl, rfl⟩

theorem Lifts.lift {γ : Type} {k : ℕ} (r : Py γ) : Lifts k (OM.lift r : OM (CWorld α β) γ) (OM.lift r) := fun _ => ⟨rfl, rfl⟩

theorem Lifts.raise {γ : Type} {k : ℕ} (e : PyErr) : Lifts k (OM.raise e : OM (CWorld α β) γ) (OM.raise e) :=
  fun _ => ⟨rfl, rfl⟩

theorem Lifts.writeObjects {k : ℕ} (l : List α) :
    Lifts k (writeObjects k l : OM (CWorld α β) _) (OM.modify fun s => { s with objects := l }) := by
  intro w
  refine ⟨rfl, ?_⟩
  simp [CWorld.writeObjects, OM.modify, load]

theorem Lifts.writeAttributes {k : ℕ} (l : List β) :
    Lifts k (writeAttributes k l : OM (CWorld α β) _) (OM.modify fun s => { s with attributes := l }) := by
  intro w
  refine ⟨rfl, ?_⟩
  simp [CWorld.writeAttributes, OM.modify, load]

theorem Lifts.writeArray {k : ℕ} (t : Nd) :
    Lifts k (writeArray k t : OM (CWorld α β) _) (OM.modify fun s => { s with np := t }) := by
  intro w
  refine ⟨rfl, ?_⟩
  simp [CWorld.writeArray, OM.modify, load]

theorem Lifts.bindArray {k : ℕ} (t : Nd) :
    Lifts k (bindArray k t : OM (CWorld α β) _) (OM.modify fun s => { s with np := t }) := by
  intro w
  refine ⟨rfl, ?_⟩
  simp [CWorld.bindArray, OM.modify, load]

theorem Lifts.bindObjects {k : ℕ} (l : List α) :
    Lifts k (bindObjects k l : OM (CWorld α β) _) (OM.modify fun s => { s with objects := l }) := by
  intro w
  refine ⟨rfl, ?_⟩
  simp [CWorld.bindObjects, OM.modify, load]

theorem Lifts.bindAttributes {k : ℕ} (l : List β) :
    Lifts k (bindAttributes k l : OM (CWorld α β) _) (OM.modify fun s => { s with attributes := l }) := by
  intro w
  refine ⟨rfl, ?_⟩
  simp [CWorld.bindAttributes, OM.modify, load]

theorem Lifts.bindRest {k : ℕ} (c : List (List Bool)) (d : List (α × ℕ)) (e : List (β × ℕ)) :
    Lifts k (bindRest k c d e : OM (CWorld α β) _) (do
      OM.modify fun s => { s with cross := c }
      OM.modify fun s => { s with oidx := d }
      OM.modify fun s => { s with aidx := e }) := by
  intro w
  refine ⟨rfl, ?_⟩
  rw [OM.modify_bind, OM.modify_bind]
  simp [CWorld.bindRest, OM.modify, load]

theorem Lifts.init {k : ℕ} (t : TableArg) (objs : List α) (atts : List β) :
    Lifts k (init k t objs atts) (CObj.init t objs atts) := by
  unfold CWorld.init CObj.init
  split
  · exact .raise _
  split
  · exact .raise _
  · exact .bind (.bindObjects _) fun _ => .bind (.bindAttributes _) fun _ => .bind (.lift _) fun a =>
      .bind (.bindArray _) fun _ => .bindRest _ _ _

theorem Lifts.delNames {k : ℕ} (js : List ℕ) : Lifts k (delNames k js : OM (CWorld α β) _) (CObj.delNames js) := by
  induction js with
  | nil => exact fun _ => ⟨rfl, rfl⟩
  | cons j js ih =>
    exact .bind .self fun s => .bind (.lift _) fun as => .bind (.writeAttributes _) fun _ => ih

theorem Lifts.addObject {k : ℕ} (row : List Bool) (n : α) : Lifts k (addObject k row n : OM (CWorld α β) _) (CObj.addObject row n) :=
  .bind .self fun _ => .bind (.lift _) fun _ => .init _ _ _

theorem Lifts.addAttribute {k : ℕ} (col : List Bool) (n : β) :
    Lifts k (addAttribute k col n : OM (CWorld α β) _) (CObj.addAttribute col n) :=
  .bind .self fun _ => .bind (.lift _) fun _ => .init _ _ _

/-- C159: a call does to its object what it does to an object alone, whatever the object shares with others. -/
theorem C159_self (k : ℕ) (c : CObj.Call α β) (w : CWorld α β) :
    (call k c w).1 = (CObj.call c (w.load k)).1 ∧ (call k c w).2.load k = (CObj.call c (w.load k)).2 := by
  have key : Lifts k (call k c) (CObj.call c) := by
    cases c with
    | deleteAttributes names =>
      exact .bind .self fun s => .bind (.lift _) fun js => .bind (.lift _) fun t => .bind (.bindArray _) fun _ =>
        .bind (.delNames _) fun _ => .bind .self fun _ => .init _ _ _
    | op o =>
      cases o with
      | addObject row n => exact .addObject _ _
      | addAttribute col n => exact .addAttribute _ _
      | addObjectWithIntent B n => exact .bind .self fun s => .addObject _ _
      | addAttributeWithExtent A n => exact .bind .self fun s => .addAttribute _ _
      | setObjectIntent B n =>
        exact .bind .self fun s => .bind (.lift _) fun _ => .bind (.lift _) fun _ => .bind (.lift _) fun _ =>
          .bind (.lift _) fun _ => .bind (.writeArray _) fun _ => .init _ _ _
      | setAttributeExtent A n =>
        exact .bind .self fun s => .bind (.lift _) fun _ => .bind (.lift _) fun _ => .bind (.lift _) fun _ =>
          .bind (.lift _) fun _ => .bind (.writeArray _) fun _ => .init _ _ _
      | deleteObject n =>
        exact .bind .self fun s => .bind (.lift _) fun _ => .bind (.lift _) fun _ => .bind (.bindArray _) fun _ =>
          .bind (.lift _) fun _ => .bind (.writeObjects _) fun _ => .init _ _ _
      | deleteAttribute n =>
        exact .bind .self fun s => .bind (.lift _) fun _ => .bind (.lift _) fun _ => .bind (.bindArray _) fun _ =>
          .bind (.lift _) fun _ => .bind (.writeAttributes _) fun _ => .init _ _ _
      | renameObject old new =>
        exact .bind .self fun s => .bind (.lift _) fun _ => .bind (.lift _) fun _ => .bind (.writeObjects _) fun _ =>
          .init _ _ _
      | renameAttribute old new =>
        exact .bind .self fun s => .bind (.lift _) fun _ => .bind (.lift _) fun _ => .bind (.writeAttributes _) fun _ =>
          .init _ _ _
  exact key w

/-! ### The others -/

/-- What a computation on object `k` may change: the lists and the array the object holds, new ones, and which of them the
object holds. -/
structure Frame (k : ℕ) (w w' : CWorld α β) : Prop where
  size : w'.size = w.size
  next : w.next ≤ w'.next
  recs : ∀ j, j ≠ k → w'.recs j = w.recs j
  bound : (w'.recs k).bound = (w.recs k).bound
  o : (w'.recs k).o = (w.recs k).o ∨ (w.next ≤ (w'.recs k).o ∧ (w'.recs k).o < w'.next)
  a : (w'.recs k).a = (w.recs k).a ∨ (w.next ≤ (w'.recs k).a ∧ (w'.recs k).a < w'.next)
  t : (w'.recs k).t = (w.recs k).t ∨ (w.next ≤ (w'.recs k).t ∧ (w'.recs k).t < w'.next)
  olist : ∀ x, x < w.next → x ≠ (w.recs k).o → w'.olist x = w.olist x
  alist : ∀ x, x < w.next → x ≠ (w.recs k).a → w'.alist x = w.alist x
  arr : ∀ x, x < w.next → x ≠ (w.recs k).t → w'.arr x = w.arr x

theorem Frame.refl (k : ℕ) (w : CWorld α β) : Frame k w w :=
  ⟨rfl, le_refl _, fun _ _ => rfl, rfl, .inl rfl, .inl rfl, .inl rfl, fun _ _ _ => rfl, fun _ _ _ => rfl, fun _ _ _ => rfl⟩

theorem Frame.trans {k : ℕ} {w w' w'' : CWorld α β} (h : Frame k w w') (h' : Frame k w' w'') : Frame k w w'' := by
  have hn := h.next
  have hn' := h'.next
  refine ⟨h'.size.trans h.size, hn.trans hn', fun j hj => (h'.recs j hj).trans (h.recs j hj), h'.bound.trans h.bound,
    ?_, ?_, ?_, ?_, ?_, ?_⟩
  · rcases h'.o with e | e
    · rcases h.o with f | f
      · exact .inl (e.trans f)
      · exact .inr ⟨by omega, by omega⟩
    · exact .inr ⟨by omega, by omega⟩
  · rcases h'.a with e | e
    · rcases h.a with f | f
      · exact .inl (e.trans f)
      · exact .inr ⟨by omega, by omega⟩
    · exact .inr ⟨by omega, by omega⟩
  · rcases h'.t with e | e
    · rcases h.t with f | f
      · exact .inl (e.trans f)
      · exact .inr ⟨by omega, by omega⟩
    · exact .inr ⟨by omega, by omega⟩
  · intro x hx hne
    rw [h'.olist x (by omega) (by rcases h.o with f | f <;> omega), h.olist x hx hne]
  · intro x hx hne
    rw [h'.alist x (by omega) (by rcases h.a with f | f <;> omega), h.alist x hx hne]
  · intro x hx hne
    rw [h'.arr x (by omega) (by rcases h.t with f | f <;> omega), h.arr x hx hne]

/-- A computation on object `k`. `dirty` tells whether it may change lists and arrays in place. -/
structure On {γ : Type} (k : ℕ) (dirty : Bool) (m : OM (CWorld α β) γ) : Prop where
  frame : ∀ w, Frame k w (m w).2
  clean : dirty = false → ∀ w x, x < w.next →
    (m w).2.olist x = w.olist x ∧ (m w).2.alist x = w.alist x ∧ (m w).2.arr x = w.arr x

theorem On.bind {γ δ : Type} {k : ℕ} {d : Bool} {m : OM (CWorld α β) γ} {f : γ → OM (CWorld α β) δ} (h : On k d m)
    (hf : ∀ x, On k d (f x)) : On k d (m >>= f) := by
  refine ⟨fun w => ?_, fun hd w x hx => ?_⟩
  · rw [OM.bind_apply]
    have h1 := h.frame w
    cases hm : m w with
    | mk r w' =>
      rw [hm] at h1
      cases r with
      | ok y => exact h1.trans ((hf y).frame w')
      | error e => exact h1
  · rw [OM.bind_apply]
    have h1 := h.frame w
    have h2 := h.clean hd w x hx
    cases hm : m w with
    | mk r w' =>
      rw [hm] at h1 h2
      cases r with
      | ok y =>
        obtain ⟨a, b, c⟩ := (hf y).clean hd w' x (lt_of_lt_of_le hx h1.next)
        exact ⟨a.trans h2.1, b.trans h2.2.1, c.trans h2.2.2⟩
      | error e => exact h2

theorem On.still {γ : Type} {k : ℕ} {d : Bool} {m : OM (CWorld α β) γ} (h : ∀ w, (m w).2 = w) : On k d m :=
  ⟨fun w => by rw [h]; exact Frame.refl _ _, fun _ w x _ => by rw [h]; exact ⟨rfl, rfl, rfl⟩⟩

theorem On.self {k : ℕ} {d : Bool} : On k d (self k : OM (CWorld α β) _) := .still fun _ => rfl

theorem On.lift {γ : Type} {k : ℕ} {d : Bool} (r : Py γ) : On k d (OM.lift r : OM (CWorld α β) γ) := .still fun _ => rfl

theorem On.raise {γ : Type} {k : ℕ} {d : Bool} (e : PyErr) : On k d (OM.raise e : OM (CWorld α β) γ) := .still fun _ => rfl

theorem On.writeObjects {k : ℕ} (l : List α) : On k true (writeObjects k l : OM (CWorld α β) _) := by
  refine ⟨fun w => ?_, fun h => by cases h⟩
  exact ⟨rfl, le_refl _, fun _ _ => rfl, rfl, .inl rfl, .inl rfl, .inl rfl,
    fun x _ hx => Function.update_of_ne hx _ _, fun _ _ _ => rfl, fun _ _ _ => rfl⟩

theorem On.writeAttributes {k : ℕ} (l : List β) : On k true (writeAttributes k l : OM (CWorld α β) _) := by
  refine ⟨fun w => ?_, fun h => by cases h⟩
  exact ⟨rfl, le_refl _, fun _ _ => rfl, rfl, .inl rfl, .inl rfl, .inl rfl,
    fun _ _ _ => rfl, fun x _ hx => Function.update_of_ne hx _ _, fun _ _ _ => rfl⟩

theorem On.writeArray {k : ℕ} (t : Nd) : On k true (writeArray k t : OM (CWorld α β) _) := by
  refine ⟨fun w => ?_, fun h => by cases h⟩
  exact ⟨rfl, le_refl _, fun _ _ => rfl, rfl, .inl rfl, .inl rfl, .inl rfl,
    fun _ _ _ => rfl, fun _ _ _ => rfl, fun x _ hx => Function.update_of_ne hx _ _⟩

theorem On.bindArray {k : ℕ} {d : Bool} (t : Nd) : On k d (bindArray k t : OM (CWorld α β) _) := by
  refine ⟨fun w => ?_, fun _ w x hx => ⟨rfl, rfl, Function.update_of_ne (Nat.ne_of_lt hx) _ _⟩⟩
  have e : ((CWorld.bindArray k t w).2.recs k) = { w.recs k with t := w.next } := Function.update_self _ _ _
  exact ⟨rfl, Nat.le_succ _, fun j hj => Function.update_of_ne hj _ _, by rw [e], .inl (by rw [e]), .inl (by rw [e]),
    .inr (by rw [e]; exact ⟨le_refl _, Nat.lt_succ_self _⟩), fun _ _ _ => rfl, fun _ _ _ => rfl,
    fun x hx _ => Function.update_of_ne (Nat.ne_of_lt hx) _ _⟩

theorem On.bindObjects {k : ℕ} {d : Bool} (l : List α) : On k d (bindObjects k l : OM (CWorld α β) _) := by
  refine ⟨fun w => ?_, fun _ w x hx => ⟨Function.update_of_ne (Nat.ne_of_lt hx) _ _, rfl, rfl⟩⟩
  have e : ((CWorld.bindObjects k l w).2.recs k) = { w.recs k with o := w.next } := Function.update_self _ _ _
  exact ⟨rfl, Nat.le_succ _, fun j hj => Function.update_of_ne hj _ _, by rw [e],
    .inr (by rw [e]; exact ⟨le_refl _, Nat.lt_succ_self _⟩), .inl (by rw [e]), .inl (by rw [e]),
    fun x hx _ => Function.update_of_ne (Nat.ne_of_lt hx) _ _, fun _ _ _ => rfl, fun _ _ _ => rfl⟩

theorem On.bindAttributes {k : ℕ} {d : Bool} (l : List β) : On k d (bindAttributes k l : OM (CWorld α β) _) := by
  refine ⟨fun w => ?_, fun _ w x hx => ⟨rfl, Function.update_of_ne (Nat.ne_of_lt hx) _ _, rfl⟩⟩
  have e : ((CWorld.bindAttributes k l w).2.recs k) = { w.recs k with a := w.next } := Function.update_self _ _ _
  exact ⟨rfl, Nat.le_succ _, fun j hj => Function.update_of_ne hj _ _, by rw [e], .inl (by rw [e]),
    .inr (by rw [e]; exact ⟨le_refl _, Nat.lt_succ_self _⟩), .inl (by rw [e]), fun _ _ _ => rfl,
    fun x hx _ => Function.update_of_ne (Nat.ne_of_lt hx) _ _, fun _ _ _ => rfl⟩

theorem On.bindRest {k : ℕ} {d : Bool} (c : List (List Bool)) (p : List (α × ℕ)) (q : List (β × ℕ)) :
    On k d (bindRest k c p q : OM (CWorld α β) _) := by
  refine ⟨fun w => ?_, fun _ w x hx => ⟨rfl, rfl, rfl⟩⟩
  have e : ((CWorld.bindRest k c p q w).2.recs k) = { w.recs k with cross := c, oidx := p, aidx := q } :=
    Function.update_self _ _ _
  exact ⟨rfl, le_refl _, fun j hj => Function.update_of_ne hj _ _, by rw [e], .inl (by rw [e]), .inl (by rw [e]),
    .inl (by rw [e]), fun _ _ _ => rfl, fun _ _ _ => rfl, fun _ _ _ => rfl⟩

theorem On.init {k : ℕ} {d : Bool} (t : TableArg) (objs : List α) (atts : List β) :
    On k d (init k t objs atts : OM (CWorld α β) _) := by
  unfold CWorld.init
  split
  · exact .raise _
  split
  · exact .raise _
  · exact .bind (.bindObjects _) fun _ => .bind (.bindAttributes _) fun _ => .bind (.lift _) fun a =>
      .bind (.bindArray _) fun _ => .bindRest _ _ _

theorem On.delNames {k : ℕ} (js : List ℕ) : On k true (delNames k js : OM (CWorld α β) _) := by
  induction js with
  | nil => exact .still fun _ => rfl
  | cons j js ih =>
    exact .bind .self fun s => .bind (.lift _) fun as => .bind (.writeAttributes _) fun _ => ih

theorem On.addObject {k : ℕ} {d : Bool} (row : List Bool) (n : α) : On k d (addObject k row n : OM (CWorld α β) _) :=
  .bind .self fun _ => .bind (.lift _) fun _ => .init _ _ _

theorem On.addAttribute {k : ℕ} {d : Bool} (col : List Bool) (n : β) : On k d (addAttribute k col n : OM (CWorld α β) _) :=
  .bind .self fun _ => .bind (.lift _) fun _ => .init _ _ _

/-- The calls that add an object or an attribute. -/
def Adds : CObj.Call α β → Bool
  | .op (.addObject _ _) => true
  | .op (.addAttribute _ _) => true
  | .op (.addObjectWithIntent _ _) => true
  | .op (.addAttributeWithExtent _ _) => true
  | _ => false

theorem On.call (k : ℕ) (c : CObj.Call α β) : On k (!Adds c) (call k c : OM (CWorld α β) _) := by
  cases c with
  | deleteAttributes names =>
    exact .bind .self fun s => .bind (.lift _) fun js => .bind (.lift _) fun t => .bind (.bindArray _) fun _ =>
      .bind (.delNames _) fun _ => .bind .self fun _ => .init _ _ _
  | op o =>
    cases o with
    | addObject row n => exact .addObject _ _
    | addAttribute col n => exact .addAttribute _ _
    | addObjectWithIntent B n => exact .bind .self fun s => .addObject _ _
    | addAttributeWithExtent A n => exact .bind .self fun s => .addAttribute _ _
    | setObjectIntent B n =>
      exact .bind .self fun s => .bind (.lift _) fun _ => .bind (.lift _) fun _ => .bind (.lift _) fun _ =>
        .bind (.lift _) fun _ => .bind (.writeArray _) fun _ => .init _ _ _
    | setAttributeExtent A n =>
      exact .bind .self fun s => .bind (.lift _) fun _ => .bind (.lift _) fun _ => .bind (.lift _) fun _ =>
        .bind (.lift _) fun _ => .bind (.writeArray _) fun _ => .init _ _ _
    | deleteObject n =>
      exact .bind .self fun s => .bind (.lift _) fun _ => .bind (.lift _) fun _ => .bind (.bindArray _) fun _ =>
        .bind (.lift _) fun _ => .bind (.writeObjects _) fun _ => .init _ _ _
    | deleteAttribute n =>
      exact .bind .self fun s => .bind (.lift _) fun _ => .bind (.lift _) fun _ => .bind (.bindArray _) fun _ =>
        .bind (.lift _) fun _ => .bind (.writeAttributes _) fun _ => .init _ _ _
    | renameObject old new =>
      exact .bind .self fun s => .bind (.lift _) fun _ => .bind (.lift _) fun _ => .bind (.writeObjects _) fun _ =>
        .init _ _ _
    | renameAttribute old new =>
      exact .bind .self fun s => .bind (.lift _) fun _ => .bind (.lift _) fun _ => .bind (.writeAttributes _) fun _ =>
        .init _ _ _

/-- After a computation that returns the object holds new lists and a new array. -/
def Renews {γ : Type} (k : ℕ) (m : OM (CWorld α β) γ) : Prop :=
  ∀ w x, (m w).1 = .ok x → w.next ≤ ((m w).2.recs k).o ∧ w.next ≤ ((m w).2.recs k).a ∧ w.next ≤ ((m w).2.recs k).t

theorem Renews.bind {γ δ : Type} {k : ℕ} {d : Bool} {m : OM (CWorld α β) γ} {f : γ → OM (CWorld α β) δ} (h : On k d m)
    (hf : ∀ x, Renews k (f x)) : Renews k (m >>= f) := by
  intro w x hx
  rw [OM.bind_apply] at hx ⊢
  have h1 := (h.frame w).next
  cases hm : m w with
  | mk r w' =>
    rw [hm] at hx h1
    cases r with
    | ok y =>
      obtain ⟨a, b, c⟩ := hf y w' x hx
      exact ⟨h1.trans a, h1.trans b, h1.trans c⟩
    | error e => cases hx

theorem Renews.init {k : ℕ} (t : TableArg) (objs : List α) (atts : List β) :
    Renews k (init k t objs atts : OM (CWorld α β) _) := by
  intro w x hx
  unfold CWorld.init at hx ⊢
  split at hx
  · cases hx
  rename_i h1
  rw [if_neg h1]
  split at hx
  · cases hx
  rename_i h2
  rw [if_neg h2]
  cases ht : t.toArray with
  | error e => rw [ht] at hx; cases hx
  | ok a =>
    simp [CWorld.bindObjects, CWorld.bindAttributes, CWorld.bindArray, CWorld.bindRest, OM.modify_bind, OM.lift_ok, OM.modify]
    omega

theorem Renews.addObject {k : ℕ} (row : List Bool) (n : α) : Renews k (addObject k row n : OM (CWorld α β) _) :=
  .bind (d := true) .self fun _ => .bind (d := true) (.lift _) fun _ => .init _ _ _

theorem Renews.addAttribute {k : ℕ} (col : List Bool) (n : β) : Renews k (addAttribute k col n : OM (CWorld α β) _) :=
  .bind (d := true) .self fun _ => .bind (d := true) (.lift _) fun _ => .init _ _ _

theorem Renews.call (k : ℕ) (c : CObj.Call α β) : Renews k (call k c : OM (CWorld α β) _) := by
  cases c with
  | deleteAttributes names =>
    exact .bind (d := true) .self fun s => .bind (d := true) (.lift _) fun js => .bind (d := true) (.lift _) fun t =>
      .bind (d := true) (.bindArray _) fun _ => .bind (.delNames _) fun _ => .bind (d := true) .self fun _ => .init _ _ _
  | op o =>
    cases o with
    | addObject row n => exact .addObject _ _
    | addAttribute col n => exact .addAttribute _ _
    | addObjectWithIntent B n => exact .bind (d := true) .self fun s => .addObject _ _
    | addAttributeWithExtent A n => exact .bind (d := true) .self fun s => .addAttribute _ _
    | setObjectIntent B n =>
      exact .bind (d := true) .self fun s => .bind (d := true) (.lift _) fun _ => .bind (d := true) (.lift _) fun _ =>
        .bind (d := true) (.lift _) fun _ => .bind (d := true) (.lift _) fun _ => .bind (.writeArray _) fun _ => .init _ _ _
    | setAttributeExtent A n =>
      exact .bind (d := true) .self fun s => .bind (d := true) (.lift _) fun _ => .bind (d := true) (.lift _) fun _ =>
        .bind (d := true) (.lift _) fun _ => .bind (d := true) (.lift _) fun _ => .bind (.writeArray _) fun _ => .init _ _ _
    | deleteObject n =>
      exact .bind (d := true) .self fun s => .bind (d := true) (.lift _) fun _ => .bind (d := true) (.lift _) fun _ =>
        .bind (d := true) (.bindArray _) fun _ => .bind (d := true) (.lift _) fun _ => .bind (.writeObjects _) fun _ =>
        .init _ _ _
    | deleteAttribute n =>
      exact .bind (d := true) .self fun s => .bind (d := true) (.lift _) fun _ => .bind (d := true) (.lift _) fun _ =>
        .bind (d := true) (.bindArray _) fun _ => .bind (d := true) (.lift _) fun _ => .bind (.writeAttributes _) fun _ =>
        .init _ _ _
    | renameObject old new =>
      exact .bind (d := true) .self fun s => .bind (d := true) (.lift _) fun _ => .bind (d := true) (.lift _) fun _ =>
        .bind (.writeObjects _) fun _ => .init _ _ _
    | renameAttribute old new =>
      exact .bind (d := true) .self fun s => .bind (d := true) (.lift _) fun _ => .bind (d := true) (.lift _) fun _ =>
        .bind (.writeAttributes _) fun _ => .init _ _ _

/-! ### Programs -/

/-- Addresses in use. -/
def Bounded (w : CWorld α β) : Prop :=
  ∀ k < w.size, (w.recs k).o < w.next ∧ (w.recs k).a < w.next ∧ (w.recs k).t < w.next

/-- Two objects hold different lists and arrays. -/
def Apart (w : CWorld α β) (i j : ℕ) : Prop :=
  (w.recs i).o ≠ (w.recs j).o ∧ (w.recs i).a ≠ (w.recs j).a ∧ (w.recs i).t ≠ (w.recs j).t

theorem Frame.bounded {k : ℕ} {w w' : CWorld α β} (h : Frame k w w') (hb : Bounded w) : Bounded w' := by
  have hn := h.next
  intro j hj
  rw [h.size] at hj
  obtain ⟨b1, b2, b3⟩ := hb j hj
  by_cases hjk : j = k
  · subst hjk
    refine ⟨?_, ?_, ?_⟩
    · rcases h.o with e | e <;> omega
    · rcases h.a with e | e <;> omega
    · rcases h.t with e | e <;> omega
  · rw [h.recs j hjk]
    exact ⟨by omega, by omega, by omega⟩

/-- C159: a call leaves alone every object that shares nothing with its own. -/
theorem C159_apart {w : CWorld α β} (hb : Bounded w) {j k : ℕ} (hj : j < w.size) (hjk : j ≠ k) (hs : Apart w j k)
    (c : CObj.Call α β) :
    (call k c w).2.load j = w.load j ∧ Apart (call k c w).2 j k ∧ Bounded (call k c w).2 ∧
      (call k c w).2.size = w.size := by
  have h := (On.call k c).frame w
  obtain ⟨b1, b2, b3⟩ := hb j hj
  obtain ⟨s1, s2, s3⟩ := hs
  refine ⟨?_, ⟨?_, ?_, ?_⟩, h.bounded hb, h.size⟩
  · unfold load
    rw [h.recs j hjk, h.olist _ b1 s1, h.alist _ b2 s2, h.arr _ b3 s3]
  · rw [h.recs j hjk]
    rcases h.o with e | e <;> omega
  · rw [h.recs j hjk]
    rcases h.a with e | e <;> omega
  · rw [h.recs j hjk]
    rcases h.t with e | e <;> omega

/-- C159: a call that returns makes its object share nothing with any other one. -/
theorem C159_renews {w : CWorld α β} (hb : Bounded w) {j k : ℕ} (hj : j < w.size) (hjk : j ≠ k) (c : CObj.Call α β)
    (hr : (call k c w).1 = .ok ()) : Apart (call k c w).2 j k := by
  obtain ⟨a1, a2, a3⟩ := Renews.call k c w () hr
  obtain ⟨b1, b2, b3⟩ := hb j hj
  unfold Apart
  rw [((On.call k c).frame w).recs j hjk]
  exact ⟨by omega, by omega, by omega⟩

/-- Objects share nothing, and their methods are their own. -/
structure Good (w : CWorld α β) : Prop where
  bounded : Bounded w
  apart : ∀ i < w.size, ∀ j < w.size, i ≠ j → Apart w i j
  own : ∀ k < w.size, ∀ b, (w.recs k).bound = some b → b = k

/-- The command names objects that exist. -/
def Cmd.Legal (w : CWorld α β) : Cmd α β → Prop
  | .call k _ => k < w.size
  | .construct _ _ _ => True
  | .deepcopy k => k < w.size
  | .copy k => k < w.size
  | .basis k => k < w.size

instance (w : CWorld α β) (c : Cmd α β) : Decidable (c.Legal w) := by
  cases c <;> unfold Cmd.Legal <;> infer_instance

/-- The commands name objects that exist when they are executed. -/
def Legal : CWorld α β → List (Cmd α β) → Prop
  | _, [] => True
  | w, c :: p => c.Legal w ∧ Legal (exec c w).2 p

/-- The calls on object `j`. -/
def calls (j : ℕ) (p : List (Cmd α β)) : List (CObj.Call α β) :=
  p.filterMap fun
    | .call k c => if k = j then some c else none
    | _ => none

theorem push_load_old {w : CWorld α β} (hb : Bounded w) (s : CObj α β) {j : ℕ} (hj : j < w.size) :
    (w.push s).load j = w.load j ∧ (w.push s).recs j = w.recs j := by
  have e : (w.push s).recs j = w.recs j := Function.update_of_ne (Nat.ne_of_lt hj) _ _
  obtain ⟨b1, b2, b3⟩ := hb j hj
  refine ⟨?_, e⟩
  unfold load
  rw [e]
  simp only [push]
  rw [Function.update_of_ne (Nat.ne_of_lt b1), Function.update_of_ne (Nat.ne_of_lt b2),
    Function.update_of_ne (Nat.ne_of_lt b3)]

theorem push_load_new (w : CWorld α β) (s : CObj α β) : (w.push s).load w.size = s := by
  simp [load, push]

theorem push_bounded {w : CWorld α β} (hb : Bounded w) (s : CObj α β) : Bounded (w.push s) := by
  intro j hj
  by_cases h : j = w.size
  · subst h
    simp [push]
  · have hj' : j < w.size := by
      have : j < w.size + 1 := hj
      omega
    rw [(push_load_old hb s hj').2]
    obtain ⟨b1, b2, b3⟩ := hb j hj'
    exact ⟨Nat.lt_succ_of_lt b1, Nat.lt_succ_of_lt b2, Nat.lt_succ_of_lt b3⟩

theorem push_good {w : CWorld α β} (h : Good w) (s : CObj α β) : Good (w.push s) := by
  have hnew : (w.push s).recs w.size = ⟨w.next, w.next, w.next, s.cross, s.oidx, s.aidx, none⟩ := Function.update_self _ _ _
  have hold : ∀ j, j < w.size → (w.push s).recs j = w.recs j := fun j hj => (push_load_old h.bounded s hj).2
  have hlt : ∀ j, j < (w.push s).size → j = w.size ∨ j < w.size := fun j hj => by
    have : j < w.size + 1 := hj
    omega
  refine ⟨push_bounded h.bounded s, fun i hi j hj hij => ?_, fun k hk b hbk => ?_⟩
  · rcases hlt i hi with rfl | hi
    · rcases hlt j hj with rfl | hj
      · exact absurd rfl hij
      · obtain ⟨b1, b2, b3⟩ := h.bounded j hj
        unfold Apart
        rw [hnew, hold j hj]
        dsimp only
        exact ⟨by omega, by omega, by omega⟩
    · rcases hlt j hj with rfl | hj
      · obtain ⟨b1, b2, b3⟩ := h.bounded i hi
        unfold Apart
        rw [hnew, hold i hi]
        dsimp only
        exact ⟨by omega, by omega, by omega⟩
      · have := h.apart i hi j hj hij
        unfold Apart at this ⊢
        rw [hold i hi, hold j hj]
        exact this
  · rcases hlt k hk with rfl | hk
    · rw [hnew] at hbk
      cases hbk
    · rw [hold k hk] at hbk
      exact h.own k hk b hbk

theorem construct_cases (t : TableArg) (objs : List α) (atts : List β) (w : CWorld α β) :
    (∃ s, construct t objs atts w = (.ok (), w.push s)) ∨ ∃ e, construct t objs atts w = (.error e, w) := by
  unfold construct
  cases CObj.init t objs atts ⟨[], [], ⟨none, []⟩, [], [], []⟩ with
  | mk r s =>
    cases r with
    | ok u => exact .inl ⟨s, rfl⟩
    | error e => exact .inr ⟨e, rfl⟩

theorem basis_load (k : ℕ) (w : CWorld α β) (j : ℕ) : (basis k w).2.load j = w.load j := by
  unfold load basis OM.modify
  dsimp only
  by_cases h : j = k
  · subst h
    rw [Function.update_self]
  · rw [Function.update_of_ne h]

theorem exec_good {w : CWorld α β} (h : Good w) {c : Cmd α β} (hc : c.Legal w) (hcopy : ∀ k, c ≠ .copy k) :
    Good (exec c w).2 ∧ w.size ≤ (exec c w).2.size ∧
      ∀ j < w.size, (exec c w).2.load j = CObj.history (w.load j) (calls j [c]) := by
  cases c with
  | call k c =>
    have hk : k < w.size := hc
    have hf := (On.call k c).frame w
    refine ⟨⟨hf.bounded h.bounded, fun i hi j hj hij => ?_, fun i hi b hbi => ?_⟩, le_of_eq hf.size.symm, fun j hj => ?_⟩
    · change i < (call k c w).2.size at hi
      change j < (call k c w).2.size at hj
      show Apart (call k c w).2 i j
      rw [hf.size] at hi hj
      by_cases hik : i = k
      · subst hik
        have := (C159_apart h.bounded hj (Ne.symm hij) (h.apart j hj i hi (Ne.symm hij)) c).2.1
        exact ⟨this.1.symm, this.2.1.symm, this.2.2.symm⟩
      · by_cases hjk : j = k
        · subst hjk
          exact (C159_apart h.bounded hi hij (h.apart i hi j hj hij) c).2.1
        · have := h.apart i hi j hj hij
          unfold Apart at this ⊢
          rw [hf.recs i hik, hf.recs j hjk]
          exact this
    · change i < (call k c w).2.size at hi
      rw [hf.size] at hi
      change ((call k c w).2.recs i).bound = some b at hbi
      by_cases hik : i = k
      · subst hik
        rw [hf.bound] at hbi
        exact h.own i hi b hbi
      · rw [hf.recs i hik] at hbi
        exact h.own i hi b hbi
    · show (call k c w).2.load j = _
      by_cases hjk : k = j
      · subst hjk
        have : calls k [Cmd.call k c] = [c] := by simp [calls]
        rw [this, (C159_self k c w).2]
        rfl
      · have : calls j [Cmd.call k c] = [] := by simp [calls, hjk]
        rw [this, (C159_apart h.bounded hj (Ne.symm hjk) (h.apart j hj k hk (Ne.symm hjk)) c).1]
        rfl
  | construct t objs atts =>
    show Good (construct t objs atts w).2 ∧ w.size ≤ (construct t objs atts w).2.size ∧
      ∀ j < w.size, (construct t objs atts w).2.load j = w.load j
    rcases construct_cases t objs atts w with ⟨s, e⟩ | ⟨s, e⟩
    · rw [e]
      exact ⟨push_good h s, Nat.le_succ _, fun j hj => (push_load_old h.bounded s hj).1⟩
    · rw [e]
      exact ⟨h, le_refl _, fun _ _ => rfl⟩
  | deepcopy k =>
    show Good (construct (.array (w.load k).np) (w.load k).objects (w.load k).attributes w).2 ∧
      w.size ≤ (construct (.array (w.load k).np) (w.load k).objects (w.load k).attributes w).2.size ∧
      ∀ j < w.size, (construct (.array (w.load k).np) (w.load k).objects (w.load k).attributes w).2.load j = w.load j
    rcases construct_cases (.array (w.load k).np) (w.load k).objects (w.load k).attributes w with ⟨s, e⟩ | ⟨s, e⟩
    · rw [e]
      exact ⟨push_good h s, Nat.le_succ _, fun j hj => (push_load_old h.bounded s hj).1⟩
    · rw [e]
      exact ⟨h, le_refl _, fun _ _ => rfl⟩
  | copy k => exact absurd rfl (hcopy k)
  | basis k =>
    have hk : k < w.size := hc
    have hr : ∀ j, ((basis k w).2.recs j).o = (w.recs j).o ∧ ((basis k w).2.recs j).a = (w.recs j).a ∧
        ((basis k w).2.recs j).t = (w.recs j).t := by
      intro j
      unfold basis OM.modify
      dsimp only
      by_cases hj : j = k
      · subst hj
        rw [Function.update_self]
        exact ⟨rfl, rfl, rfl⟩
      · rw [Function.update_of_ne hj]
        exact ⟨rfl, rfl, rfl⟩
    refine ⟨⟨fun j hj => ?_, fun i hi j hj hij => ?_, fun i hi b hbi => ?_⟩, le_refl _, fun j hj => basis_load k w j⟩
    · change j < w.size at hj
      show ((basis k w).2.recs j).o < w.next ∧ ((basis k w).2.recs j).a < w.next ∧ ((basis k w).2.recs j).t < w.next
      rw [(hr j).1, (hr j).2.1, (hr j).2.2]
      exact h.bounded j hj
    · show Apart (basis k w).2 i j
      unfold Apart
      rw [(hr i).1, (hr i).2.1, (hr i).2.2, (hr j).1, (hr j).2.1, (hr j).2.2]
      exact h.apart i hi j hj hij
    · change ((basis k w).2.recs i).bound = some b at hbi
      unfold basis OM.modify at hbi
      dsimp only at hbi
      by_cases hik : i = k
      · subst hik
        rw [Function.update_self] at hbi
        cases hb : (w.recs i).bound with
        | none => rw [hb] at hbi; simpa using hbi.symm
        | some b' =>
          rw [hb] at hbi
          have := h.own i hk b' hb
          simp at hbi
          omega
      · rw [Function.update_of_ne hik] at hbi
        exact h.own i hi b hbi

/-- C159: in every program that makes contexts with the constructor and `copy.deepcopy`, each context goes through the
calls on it and nothing else; basis computations in between included. -/
theorem C159_programs (p : List (Cmd α β)) : ∀ {w : CWorld α β}, Good w → Legal w p → (∀ k, Cmd.copy k ∉ p) →
    Good (run w p) ∧ w.size ≤ (run w p).size ∧
      ∀ j < w.size, (run w p).load j = CObj.history (w.load j) (calls j p) := by
  induction p with
  | nil => intro w h _ _; exact ⟨h, le_refl _, fun _ _ => rfl⟩
  | cons c p ih =>
    intro w h hl hc
    obtain ⟨h1, h2, h3⟩ := exec_good h hl.1 fun k e => hc k (by simp [e])
    obtain ⟨i1, i2, i3⟩ := ih h1 hl.2 fun k hk => hc k (by simp [hk])
    refine ⟨i1, h2.trans i2, fun j hj => ?_⟩
    show (run (exec c w).2 p).load j = _
    rw [i3 j (hj.trans_le h2), h3 j hj]
    have : calls j (c :: p) = calls j [c] ++ calls j p := by
      simp only [calls]
      rw [← List.filterMap_append]
      rfl
    rw [this]
    simp only [CObj.history, List.foldl_append]

/-- C159: and every context answers from its own lists and its own array. -/
theorem C159_answers {w : CWorld α β} (h : Good w) {k : ℕ} (hk : k < w.size) :
    (∀ o, w.objectIntent k o = (w.load k).objectIntent o) ∧ ∀ a, w.attributeExtent k a = (w.load k).attributeExtent a := by
  have : (w.recs k).bound.getD k = k := by
    cases hb : (w.recs k).bound with
    | none => rfl
    | some b => exact h.own k hk b hb
  constructor
  · intro o
    simp only [objectIntent, CObj.objectIntent, this]
  · intro a
    simp only [attributeExtent, CObj.attributeExtent, this]

/-- C159: `copy.deepcopy` of a context returns a context with the same names and table. -/
theorem C159_deepcopy {w : CWorld α β} (h : Good w) {k : ℕ} {c : Ctx α β} (hc : c.WFw) (hk : w.load k = CObj.of c) :
    ∃ w', deepcopy k w = (.ok (), w') ∧ Good w' ∧ w'.size = w.size + 1 ∧ w'.load w.size = CObj.of c ∧
      ∀ j < w.size, w'.load j = w.load j := by
  have e : deepcopy k w = (.ok (), w.push (CObj.of c)) := by
    show construct (.array (w.load k).np) (w.load k).objects (w.load k).attributes w = _
    rw [hk]
    have e : CObj.init (.array c.nd) c.objects c.attributes (⟨[], [], ⟨none, []⟩, [], [], []⟩ : CObj α β) =
        (.ok (), CObj.of c) := by
      rw [CObj.init_array, CObj.ofNd_shape hc.nrows hc.width, renameAll_nodup hc.onodup, renameAll_nodup hc.anodup]
      rfl
    unfold construct
    rw [show (CObj.of c).np = c.nd from rfl, show (CObj.of c).objects = c.objects from rfl,
      show (CObj.of c).attributes = c.attributes from rfl, e]
  exact ⟨_, e, push_good h _, rfl, push_load_new _ _, fun j hj => (push_load_old h.bounded _ hj).1⟩

/-! ### Shallow copies -/

theorem shallow_bounded {w : CWorld α β} (hb : Bounded w) {k : ℕ} (hk : k < w.size) : Bounded (shallow k w).2 := by
  intro j hj
  have hj : j < w.size + 1 := hj
  show ((Function.update w.recs w.size (w.recs k)) j).o < w.next ∧ ((Function.update w.recs w.size (w.recs k)) j).a < w.next ∧
    ((Function.update w.recs w.size (w.recs k)) j).t < w.next
  by_cases h : j = w.size
  · subst h
    rw [Function.update_self]
    exact hb k hk
  · rw [Function.update_of_ne h]
    exact hb j (by omega)

theorem shallow_load {w : CWorld α β} {k : ℕ} :
    (shallow k w).2.load w.size = w.load k ∧ ∀ j, j ≠ w.size → (shallow k w).2.load j = w.load j := by
  constructor
  · simp [load, shallow, OM.modify]
  · intro j hj
    simp [load, shallow, OM.modify, Function.update_of_ne hj]

/-- C159: as long as objects and attributes are only added, contexts made with `copy.copy` are as independent as those made
with `copy.deepcopy`: nothing is changed in place. -/
theorem C159_adds (p : List (Cmd α β)) : ∀ {w : CWorld α β}, Bounded w → Legal w p →
    (∀ k c, Cmd.call k c ∈ p → Adds c = true) →
    Bounded (run w p) ∧ ∀ j < w.size, (run w p).load j = CObj.history (w.load j) (calls j p) := by
  induction p with
  | nil => intro w h _ _; exact ⟨h, fun _ _ => rfl⟩
  | cons c p ih =>
    intro w hb hl hc
    have hstep : Bounded (exec c w).2 ∧ w.size ≤ (exec c w).2.size ∧
        ∀ j < w.size, (exec c w).2.load j = CObj.history (w.load j) (calls j [c]) := by
      cases c with
      | call k c =>
        have hf := (On.call k c).frame w
        have hcl := (On.call k c).clean (by rw [hc k c (by simp)]; rfl) w
        refine ⟨hf.bounded hb, le_of_eq hf.size.symm, fun j hj => ?_⟩
        show (call k c w).2.load j = _
        by_cases hjk : k = j
        · subst hjk
          have : calls k [Cmd.call k c] = [c] := by simp [calls]
          rw [this, (C159_self k c w).2]
          rfl
        · have : calls j [Cmd.call k c] = [] := by simp [calls, hjk]
          rw [this]
          obtain ⟨b1, b2, b3⟩ := hb j hj
          unfold load
          rw [hf.recs j (Ne.symm hjk), (hcl _ b1).1, (hcl _ b2).2.1, (hcl _ b3).2.2]
          rfl
      | construct t objs atts =>
        show Bounded (construct t objs atts w).2 ∧ w.size ≤ (construct t objs atts w).2.size ∧
          ∀ j < w.size, (construct t objs atts w).2.load j = w.load j
        rcases construct_cases t objs atts w with ⟨s, e⟩ | ⟨s, e⟩
        · rw [e]
          exact ⟨push_bounded hb s, Nat.le_succ _, fun j hj => (push_load_old hb s hj).1⟩
        · rw [e]
          exact ⟨hb, le_refl _, fun _ _ => rfl⟩
      | deepcopy k =>
        show Bounded (construct (.array (w.load k).np) (w.load k).objects (w.load k).attributes w).2 ∧
          w.size ≤ (construct (.array (w.load k).np) (w.load k).objects (w.load k).attributes w).2.size ∧
          ∀ j < w.size, (construct (.array (w.load k).np) (w.load k).objects (w.load k).attributes w).2.load j = w.load j
        rcases construct_cases (.array (w.load k).np) (w.load k).objects (w.load k).attributes w with ⟨s, e⟩ | ⟨s, e⟩
        · rw [e]
          exact ⟨push_bounded hb s, Nat.le_succ _, fun j hj => (push_load_old hb s hj).1⟩
        · rw [e]
          exact ⟨hb, le_refl _, fun _ _ => rfl⟩
      | copy k => exact ⟨shallow_bounded hb hl.1, Nat.le_succ _, fun j hj => shallow_load.2 j (Nat.ne_of_lt hj)⟩
      | basis k =>
        refine ⟨fun j hj => ?_, le_refl _, fun j hj => basis_load k w j⟩
        have hj : j < w.size := hj
        show ((Function.update w.recs k _) j).o < w.next ∧ ((Function.update w.recs k _) j).a < w.next ∧
          ((Function.update w.recs k _) j).t < w.next
        by_cases h : j = k
        · subst h
          rw [Function.update_self]
          exact hb j hj
        · rw [Function.update_of_ne h]
          exact hb j hj
    obtain ⟨h1, h2, h3⟩ := hstep
    obtain ⟨i1, i3⟩ := ih h1 hl.2 fun k c hk => hc k c (by simp [hk])
    refine ⟨i1, fun j hj => ?_⟩
    show (run (exec c w).2 p).load j = _
    rw [i3 j (hj.trans_le h2), h3 j hj]
    have : calls j (c :: p) = calls j [c] ++ calls j p := by
      simp only [calls]
      rw [← List.filterMap_append]
      rfl
    rw [this]
    simp only [CObj.history, List.foldl_append]

/-- Two objects with the same lists and the same array. -/
structure Shared (w : CWorld α β) (j k : ℕ) : Prop where
  ne : j ≠ k
  o : (w.recs j).o = (w.recs k).o
  a : (w.recs j).a = (w.recs k).a
  t : (w.recs j).t = (w.recs k).t

/-- C159: `copy.copy` makes such an object. -/
theorem C159_copy (w : CWorld α β) {k : ℕ} (hk : k < w.size) :
    Shared (shallow k w).2 w.size k ∧ (shallow k w).2.load w.size = w.load k ∧ (shallow k w).2.load k = w.load k := by
  refine ⟨⟨(Nat.ne_of_lt hk).symm, ?_, ?_, ?_⟩, shallow_load.1, shallow_load.2 k (Nat.ne_of_lt hk)⟩ <;>
    simp [shallow, OM.modify, Function.update_of_ne (Nat.ne_of_lt hk)]

theorem init_other {w : CWorld α β} {j k : ℕ} (h : j ≠ k)
    (hb : (w.recs j).o < w.next ∧ (w.recs j).a < w.next ∧ (w.recs j).t < w.next) (t : TableArg) (objs : List α)
    (atts : List β) : (init k t objs atts w).2.load j = w.load j := by
  have hf := (On.init (k := k) (d := false) t objs atts).frame w
  have hc := (On.init (k := k) (d := false) t objs atts).clean rfl w
  obtain ⟨b1, b2, b3⟩ := hb
  unfold load
  rw [hf.recs j h, (hc _ b1).1, (hc _ b2).2.1, (hc _ b3).2.2]

theorem self_bind {γ : Type} (k : ℕ) (f : CObj α β → OM (CWorld α β) γ) (w : CWorld α β) :
    (self k >>= f) w = f (w.load k) w := rfl

/-- C159: `rename_object` on one of them also replaces the name in the list of the other; nothing else of the other
changes, so that its dictionary has the old name. -/
theorem C159_rename_object {w : CWorld α β} (hb : Bounded w) {j k : ℕ} (hj : j < w.size) (hs : Shared w j k) {c : Ctx α β}
    (hl : w.load j = CObj.of c) (hlk : w.load k = CObj.of c) {old : α} (ho : old ∈ c.objects) (new : α) :
    ∃ i, c.objects[i]? = some old ∧
      (call k (.op (.renameObject old new)) w).2.load j = { CObj.of c with objects := c.objects.set i new } := by
  obtain ⟨i, hi⟩ := lastIdx_mem ho
  have hi' := lastIdx_ok hi
  refine ⟨i, hi', ?_⟩
  have hlt : i < c.objects.length := Ctx.lt_of_getElem? hi'
  show (renameObject k old new w).2.load j = _
  unfold renameObject
  rw [self_bind, hlk, show (CObj.of c).oidx = indexDict c.objects from rfl, dictIdx_eq, hi, OM.lift_ok,
    show listAssign (CObj.of c).objects i new = .ok (c.objects.set i new) from if_pos hlt, OM.lift_ok]
  unfold writeObjects
  rw [OM.modify_bind, init_other hs.ne (by exact hb j hj)]
  rw [← hl]
  unfold load
  dsimp only
  rw [hs.o, Function.update_self]

theorem C159_rename_attribute {w : CWorld α β} (hb : Bounded w) {j k : ℕ} (hj : j < w.size) (hs : Shared w j k)
    {c : Ctx α β} (hl : w.load j = CObj.of c) (hlk : w.load k = CObj.of c) {old : β} (ho : old ∈ c.attributes) (new : β) :
    ∃ i, c.attributes[i]? = some old ∧
      (call k (.op (.renameAttribute old new)) w).2.load j = { CObj.of c with attributes := c.attributes.set i new } := by
  obtain ⟨i, hi⟩ := lastIdx_mem ho
  have hi' := lastIdx_ok hi
  refine ⟨i, hi', ?_⟩
  have hlt : i < c.attributes.length := Ctx.lt_of_getElem? hi'
  show (renameAttribute k old new w).2.load j = _
  unfold renameAttribute
  rw [self_bind, hlk, show (CObj.of c).aidx = indexDict c.attributes from rfl, dictIdx_eq, hi, OM.lift_ok,
    show listAssign (CObj.of c).attributes i new = .ok (c.attributes.set i new) from if_pos hlt, OM.lift_ok]
  unfold writeAttributes
  rw [OM.modify_bind, init_other hs.ne (by exact hb j hj)]
  rw [← hl]
  unfold load
  dsimp only
  rw [hs.a, Function.update_self]

/-- C159: `delete_object` on one of them deletes the name from the list of the other, whose table keeps the row. -/
theorem C159_delete_object {w : CWorld α β} (hb : Bounded w) {j k : ℕ} (hj : j < w.size) (hs : Shared w j k) {c : Ctx α β}
    (hc : c.WFw) (hl : w.load j = CObj.of c) (hlk : w.load k = CObj.of c) {n : α} (hn : n ∈ c.objects) :
    ∃ i, c.objects[i]? = some n ∧
      (call k (.op (.deleteObject n)) w).2.load j = { CObj.of c with objects := c.objects.eraseIdx i } := by
  obtain ⟨i, hi⟩ := lastIdx_mem hn
  have hi' := lastIdx_ok hi
  refine ⟨i, hi', ?_⟩
  have hlt : i < c.objects.length := Ctx.lt_of_getElem? hi'
  have hrow : i < c.nd.rows.length := by rw [hc.nrows]; exact hlt
  obtain ⟨t, ht⟩ : ∃ t, c.nd.deleteRow i = .ok t := ⟨_, if_pos hrow⟩
  show (deleteObject k n w).2.load j = _
  unfold deleteObject
  rw [self_bind, hlk, show (CObj.of c).oidx = indexDict c.objects from rfl, dictIdx_eq, hi, OM.lift_ok,
    show (CObj.of c).np = c.nd from rfl, ht, OM.lift_ok]
  unfold bindArray writeObjects
  rw [OM.modify_bind, show listDel (CObj.of c).objects i = .ok (c.objects.eraseIdx i) from if_pos hlt, OM.lift_ok,
    OM.modify_bind, init_other hs.ne]
  · rw [← hl]
    unfold load
    dsimp only
    rw [Function.update_of_ne hs.ne, Function.update_self, hs.o, Function.update_self,
      Function.update_of_ne (Nat.ne_of_lt (hb j hj).2.2)]
  · dsimp only
    rw [Function.update_of_ne hs.ne]
    obtain ⟨b1, b2, b3⟩ := hb j hj
    exact ⟨by omega, by omega, by omega⟩

theorem C159_delete_attribute {w : CWorld α β} (hb : Bounded w) {j k : ℕ} (hj : j < w.size) (hs : Shared w j k)
    {c : Ctx α β} (hc : c.WFw) (hr : c.nd.rows ≠ []) (hl : w.load j = CObj.of c) (hlk : w.load k = CObj.of c) {n : β}
    (hn : n ∈ c.attributes) :
    ∃ i, c.attributes[i]? = some n ∧
      (call k (.op (.deleteAttribute n)) w).2.load j = { CObj.of c with attributes := c.attributes.eraseIdx i } := by
  obtain ⟨i, hi⟩ := lastIdx_mem hn
  have hi' := lastIdx_ok hi
  refine ⟨i, hi', ?_⟩
  have hlt : i < c.attributes.length := Ctx.lt_of_getElem? hi'
  obtain ⟨t, ht⟩ : ∃ t, c.nd.deleteCols [i] = .ok t := by
    unfold Nd.deleteCols
    rw [hc.shape hr]
    dsimp only
    rw [if_pos (by simpa using hlt)]
    exact ⟨_, rfl⟩
  show (deleteAttribute k n w).2.load j = _
  unfold deleteAttribute
  rw [self_bind, hlk, show (CObj.of c).aidx = indexDict c.attributes from rfl, dictIdx_eq, hi, OM.lift_ok,
    show (CObj.of c).np = c.nd from rfl, ht, OM.lift_ok]
  unfold bindArray writeAttributes
  rw [OM.modify_bind, show listDel (CObj.of c).attributes i = .ok (c.attributes.eraseIdx i) from if_pos hlt, OM.lift_ok,
    OM.modify_bind, init_other hs.ne]
  · rw [← hl]
    unfold load
    dsimp only
    rw [Function.update_of_ne hs.ne, Function.update_self, hs.a, Function.update_self,
      Function.update_of_ne (Nat.ne_of_lt (hb j hj).2.2)]
  · dsimp only
    rw [Function.update_of_ne hs.ne]
    obtain ⟨b1, b2, b3⟩ := hb j hj
    exact ⟨by omega, by omega, by omega⟩

/-- C159: the other then takes no new object, and `copy.deepcopy` of it raises. -/
theorem C159_delete_object_stuck {c : Ctx α β} (hc : c.WFw) {i : ℕ} (hi : i < c.objects.length) {w : CWorld α β} {j : ℕ}
    (hl : w.load j = { CObj.of c with objects := c.objects.eraseIdx i }) :
    (∀ row x, (call j (.op (.addObject row x)) w).1 = .error .valueError) ∧ deepcopy j w = (.error .valueError, w) := by
  have hn : c.nd.rows.length = c.objects.length := hc.nrows
  have hne : c.nd.rows ≠ [] := by intro e; rw [e] at hn; simp at hn; omega
  have hlen : (c.objects.eraseIdx i).length = c.objects.length - 1 := by rw [List.length_eraseIdx, if_pos hi]
  constructor
  · intro row x
    rw [(C159_self j _ w).1, hl]
    show (CObj.addObject row x _).1 = _
    unfold CObj.addObject
    rw [OM.get_bind]
    show ((OM.lift (c.nd.stackRow row) >>= _) _).1 = _
    unfold Nd.stackRow Nd.appendRow
    rw [if_pos hne, hc.shape hne]
    dsimp only
    by_cases h : row.length = c.attributes.length
    · rw [if_pos h, OM.lift_ok, CObj.init_eq, if_pos]
      show (c.nd.rows ++ [row]).length ≠ (c.objects.eraseIdx i ++ [x]).length
      rw [List.length_append, List.length_append, hlen]
      simp only [List.length_singleton]
      omega
    · rw [if_neg h]
      rfl
  · show construct (.array (w.load j).np) (w.load j).objects (w.load j).attributes w = _
    rw [hl]
    have e : CObj.init (.array c.nd) (c.objects.eraseIdx i) c.attributes (⟨[], [], ⟨none, []⟩, [], [], []⟩ : CObj α β) =
        (.error .valueError, ⟨[], [], ⟨none, []⟩, [], [], []⟩) := by
      rw [CObj.init_eq, if_pos]
      show c.nd.rows.length ≠ _
      omega
    unfold construct
    dsimp only
    rw [show (CObj.of c).np = c.nd from rfl, show (CObj.of c).attributes = c.attributes from rfl, e]

theorem init_rows {k : ℕ} {t : TableArg} {objs : List α} {atts : List β} {w : CWorld α β}
    (h : (init k t objs atts w).1 = .ok ()) : ∃ a, t.toArray = .ok a ∧ ((init k t objs atts w).2.load k).np = a := by
  obtain ⟨h1, h2⟩ := Lifts.init (k := k) t objs atts w
  rw [h1, CObj.init_eq] at h
  rw [h2, CObj.init_eq]
  split at h
  · cases h
  rename_i e1
  rw [if_neg e1]
  split at h
  · cases h
  rename_i e2
  rw [if_neg e2]
  cases ht : t.toArray with
  | ok a => exact ⟨a, rfl, rfl⟩
  | error e => rw [ht] at h; cases h

theorem ofLists_rows {l : List (List Bool)} {a : Nd} (h : Nd.ofLists l = .ok a) : a.rows = l := by
  cases l with
  | nil => cases h; rfl
  | cons r rs =>
    simp only [Nd.ofLists] at h
    by_cases hr : (rs.all fun s => s.length == r.length) = true
    · rw [if_pos hr] at h; cases h; rfl
    · rw [if_neg hr] at h; cases h

theorem write_then {w : CWorld α β} {j k : ℕ} (hb : (w.recs j).o < w.next ∧ (w.recs j).a < w.next ∧ (w.recs j).t < w.next)
    (hne : j ≠ k) (ht : (w.recs j).t = (w.recs k).t) (t : Nd) (f : TableArg) (objs : List α) (atts : List β)
    (hf : ∀ a, f.toArray = .ok a → a.rows = t.rows)
    (h : ((writeArray k t >>= fun _ => init k f objs atts) w).1 = .ok ()) :
    ∃ t', ((writeArray k t >>= fun _ => init k f objs atts) w).2.load j = { w.load j with np := t' } ∧
      t'.rows = (((writeArray k t >>= fun _ => init k f objs atts) w).2.load k).np.rows := by
  refine ⟨t, ?_, ?_⟩
  · unfold writeArray
    rw [OM.modify_bind, init_other hne (by exact hb)]
    unfold load
    dsimp only
    rw [ht, Function.update_self]
  · unfold writeArray at h ⊢
    rw [OM.modify_bind] at h ⊢
    obtain ⟨a, h1, h2⟩ := init_rows h
    rw [h2, hf a h1]

/-- C159: `set_object_intent` and `set_attribute_extent` on one of them write into the array of the other too, whose
`cross_table` stays as it was. -/
theorem C159_set_intent {w : CWorld α β} (hb : Bounded w) {j k : ℕ} (hj : j < w.size) (hs : Shared w j k) (B : List β) (n : α)
    (h : (call k (.op (.setObjectIntent B n)) w).1 = .ok ()) :
    ∃ t, (call k (.op (.setObjectIntent B n)) w).2.load j = { w.load j with np := t } ∧
      t.rows = ((call k (.op (.setObjectIntent B n)) w).2.load k).np.rows := by
  change (setObjectIntent k B n w).1 = _ at h
  show ∃ t : Nd, (setObjectIntent k B n w).2.load j = _ ∧ t.rows = ((setObjectIntent k B n w).2.load k).np.rows
  unfold setObjectIntent at h ⊢
  rw [self_bind] at h ⊢
  cases h1 : B.mapM (dictIdx (w.load k).aidx) with
  | error e => rw [h1] at h; cases h
  | ok js =>
  rw [h1, OM.lift_ok] at h
  rw [OM.lift_ok]
  cases h2 : flagsPy (w.load k).attributes.length js with
  | error e => rw [h2] at h; cases h
  | ok row =>
  rw [h2, OM.lift_ok] at h
  rw [OM.lift_ok]
  cases h3 : dictIdx (w.load k).oidx n with
  | error e => rw [h3] at h; cases h
  | ok i =>
  rw [h3, OM.lift_ok] at h
  rw [OM.lift_ok]
  cases h4 : (w.load k).np.setRow i row with
  | error e => rw [h4] at h; cases h
  | ok t =>
  rw [h4, OM.lift_ok] at h
  rw [OM.lift_ok]
  exact write_then (hb j hj) hs.ne hs.t t _ _ _ (fun a ha => by cases ha; rfl) h

theorem C159_set_extent {w : CWorld α β} (hb : Bounded w) {j k : ℕ} (hj : j < w.size) (hs : Shared w j k) (A : List α) (n : β)
    (h : (call k (.op (.setAttributeExtent A n)) w).1 = .ok ()) :
    ∃ t, (call k (.op (.setAttributeExtent A n)) w).2.load j = { w.load j with np := t } ∧
      t.rows = ((call k (.op (.setAttributeExtent A n)) w).2.load k).np.rows := by
  change (setAttributeExtent k A n w).1 = _ at h
  show ∃ t : Nd, (setAttributeExtent k A n w).2.load j = _ ∧ t.rows = ((setAttributeExtent k A n w).2.load k).np.rows
  unfold setAttributeExtent at h ⊢
  rw [self_bind] at h ⊢
  cases h1 : A.mapM (dictIdx (w.load k).oidx) with
  | error e => rw [h1] at h; cases h
  | ok js =>
  rw [h1, OM.lift_ok] at h
  rw [OM.lift_ok]
  cases h2 : flagsPy (w.load k).objects.length js with
  | error e => rw [h2] at h; cases h
  | ok row =>
  rw [h2, OM.lift_ok] at h
  rw [OM.lift_ok]
  cases h3 : dictIdx (w.load k).aidx n with
  | error e => rw [h3] at h; cases h
  | ok i =>
  rw [h3, OM.lift_ok] at h
  rw [OM.lift_ok]
  cases h4 : (w.load k).np.setCol i row with
  | error e => rw [h4] at h; cases h
  | ok t =>
  rw [h4, OM.lift_ok] at h
  rw [OM.lift_ok]
  exact write_then (hb j hj) hs.ne hs.t t _ _ _ (fun a ha => ofLists_rows ha) h

/-- C159: after a basis computation `get_object_intent` and `get_attribute_extent` of a shallow copy read the table of the
original: a new object of the copy has no intent, and it is in no extent. -/
theorem C159_basis_copy_violated {w : CWorld α β} {k : ℕ} (hk : k < w.size) (hb : Bounded w)
    (hown : (w.recs k).bound = none) {c : Ctx α β} (hc : c.WFw) (hl : w.load k = CObj.of c) {row : List Bool}
    (hrow : row.length = c.attributes.length) {x : α} (hx : x ∉ c.objects) :
    let w' := run w [.basis k, .copy k, .call w.size (.op (.addObject row x))]
    (w'.load w.size).objects = c.objects ++ [x] ∧ (w'.load w.size).np.rows = c.nd.rows ++ [row] ∧
      w'.objectIntent w.size x = .error .indexError ∧ ∀ m, w'.attributeExtent w.size m = c.attributeExtent m := by
  intro w'
  have hkn : k ≠ w.size := Nat.ne_of_lt hk
  obtain ⟨w2, hw2⟩ : ∃ w2, w2 = (shallow k (basis k w).2).2 := ⟨_, rfl⟩
  have hw' : w' = (call w.size (.op (.addObject row x)) w2).2 := by rw [hw2]; rfl
  have e1 : (basis k w).2.load k = CObj.of c := by rw [basis_load, hl]
  have l1 : w2.load w.size = CObj.of c := by
    rw [hw2]
    exact (shallow_load (w := (basis k w).2)).1.trans e1
  have l2 : w2.load k = CObj.of c := by
    rw [hw2]
    exact ((shallow_load (w := (basis k w).2)).2 k hkn).trans e1
  have hbk : (w2.recs k).o < w2.next ∧ (w2.recs k).a < w2.next ∧ (w2.recs k).t < w2.next := by
    rw [hw2]
    have := hb k hk
    simpa [shallow, basis, OM.modify, Function.update_of_ne hkn] using this
  have hbound : (w2.recs w.size).bound = some k := by
    rw [hw2]
    simp [shallow, basis, OM.modify, hown]
  have hf := (On.call w.size (.op (.addObject row x))).frame w2
  have hcl := (On.call w.size (.op (.addObject row x) : CObj.Call α β)).clean rfl w2
  have lk : w'.load k = CObj.of c := by
    rw [hw', ← l2]
    unfold load
    rw [hf.recs k hkn, (hcl _ hbk.1).1, (hcl _ hbk.2.1).2.1, (hcl _ hbk.2.2).2.2]
  have hbd : (w'.recs w.size).bound = some k := by rw [hw', hf.bound, hbound]
  have hstack : ∃ n, c.nd.stackRow row = .ok ⟨some n, c.nd.rows ++ [row]⟩ := by
    unfold Nd.stackRow
    by_cases hne : c.nd.rows = []
    · rw [if_neg (by simpa using hne), hne]
      exact ⟨row.length, by simp [Nd.ofLists]⟩
    · rw [if_pos hne]
      unfold Nd.appendRow
      rw [hc.shape hne]
      dsimp only
      rw [if_pos hrow]
      exact ⟨_, rfl⟩
  obtain ⟨n, hn⟩ := hstack
  have hnd : (c.objects ++ [x]).Nodup := by
    rw [List.nodup_append]
    exact ⟨hc.onodup, by simp, fun a ha b hb => by simp at hb; subst hb; rintro rfl; exact hx ha⟩
  have lj : w'.load w.size = CObj.of ⟨c.objects ++ [x], c.attributes, ⟨some n, c.nd.rows ++ [row]⟩⟩ := by
    rw [hw', (C159_self _ _ _).2, l1]
    show (CObj.addObject row x (CObj.of c)).2 = _
    unfold CObj.addObject
    rw [OM.get_bind, show (CObj.of c).np = c.nd from rfl, hn, OM.lift_ok, CObj.init_array, CObj.ofNd_shape]
    · show CObj.of ⟨renameAll (c.objects ++ [x]), renameAll c.attributes, _⟩ = _
      rw [renameAll_nodup hnd, renameAll_nodup hc.anodup]
    · show (c.nd.rows ++ [row]).length = (c.objects ++ [x]).length
      rw [List.length_append, List.length_append, hc.nrows]
      rfl
    · intro r hr
      rcases List.mem_append.1 hr with hr | hr
      · exact hc.width r hr
      · rw [List.mem_singleton.1 hr]
        exact hrow
  refine ⟨by rw [lj]; rfl, by rw [lj]; rfl, ?_, fun m => ?_⟩
  swap
  · unfold attributeExtent Ctx.attributeExtent
    rw [lj, hbd]
    show (do
      let j ← dictIdx (indexDict c.attributes) m
      let r ← (w'.load k).np.col j
      let names ← (nonzero r).mapM (pyGet (w'.load k).objects)
      Except.ok names.toFinset : Py (Finset α)) = _
    rw [lk, dictIdx_eq]
    rfl
  have hlook : dictIdx (w'.load w.size).oidx x = .ok c.objects.length := by
    rw [lj]
    show dictIdx (indexDict (c.objects ++ [x])) x = _
    unfold dictIdx
    rw [(indexDict_spec (c.objects ++ [x]) x c.objects.length).2 ⟨by simp, fun i hi => ?_⟩]
    have := Ctx.lt_of_getElem? hi
    simp at this
    omega
  unfold objectIntent
  rw [hlook, hbd]
  show (do
      let r ← (w'.load k).np.row c.objects.length
      let names ← (nonzero r).mapM (pyGet (w'.load k).attributes)
      Except.ok names.toFinset : Py (Finset β)) = _
  rw [lk]
  have : c.nd.row c.objects.length = .error .indexError := by
    unfold Nd.row
    cases c.nd.cols with
    | none => rfl
    | some m =>
      unfold pyGet
      rw [List.getElem?_eq_none (by rw [hc.nrows])]
  rw [show (CObj.of c).np = c.nd from rfl, this]
  rfl

/-! ### A program -/

/-- One context: objects `u`, `v`, attributes `p`, `q`, rows `X.` and `XX`. -/
def exWorld : CWorld (List Char) (List Char) :=
  (construct (.lists [[true, false], [true, true]]) [['u'], ['v']] [['p'], ['q']]
    ⟨fun _ => [], fun _ => [], fun _ => ⟨none, []⟩, 0, fun _ => ⟨0, 0, 0, [], [], [], none⟩, 0⟩).2

def exWorldCtx : Ctx (List Char) (List Char) := ⟨[['u'], ['v']], [['p'], ['q']], ⟨some 2, [[true, false], [true, true]]⟩⟩

theorem exWorld_good : Good exWorld := by
  apply push_good
  exact ⟨fun k hk => absurd hk (Nat.not_lt_zero _), fun k hk => absurd hk (Nat.not_lt_zero _),
    fun k hk => absurd hk (Nat.not_lt_zero _)⟩

example : exWorldCtx.WFw := by constructor <;> decide +kernel

theorem exWorld_load : exWorld.load 0 = CObj.of exWorldCtx := rfl

/-- A deep copy and an object added to it, a basis computation, a deletion in the original. -/
def exProgram : List (Cmd (List Char) (List Char)) :=
  [.deepcopy 0, .basis 0, .call 1 (.op (.addObject [false, true] ['x'])), .call 0 (.op (.deleteObject ['u'])), .basis 1]

example : Legal exWorld exProgram := by
  refine ⟨?_, ?_, ?_, ?_, ?_, trivial⟩ <;> decide +kernel

example : ∀ k, Cmd.copy k ∉ exProgram := by
  intro k h
  simp [exProgram] at h

example : ((run exWorld exProgram).load 0).objects = [['v']] ∧
    ((run exWorld exProgram).load 1).objects = [['u'], ['v'], ['x']] ∧
    (run exWorld exProgram).objectIntent 1 ['x'] = .ok {['q']} := by
  refine ⟨?_, ?_, ?_⟩ <;> decide +kernel

/-- Additions to a context and to its shallow copy. -/
def exAdds : List (Cmd (List Char) (List Char)) :=
  [.copy 0, .call 1 (.op (.addObject [false, true] ['x'])), .call 0 (.op (.addAttribute [true, true] ['r']))]

example : Legal exWorld exAdds ∧ ∀ k c, Cmd.call k c ∈ exAdds → Adds c = true := by
  refine ⟨⟨?_, ?_, ?_, trivial⟩, fun k c h => ?_⟩
  · decide +kernel
  · decide +kernel
  · decide +kernel
  · simp [exAdds] at h
    rcases h with ⟨_, rfl⟩ | ⟨_, rfl⟩ <;> rfl

/-- C159: with `copy.copy` contexts are not independent: a deletion in the original takes the name from the copy, which then
raises ValueError for every new object. -/
theorem C159_copy_violated : ¬ ∀ (w : CWorld (List Char) (List Char)) (p : List (Cmd (List Char) (List Char))) (k : ℕ),
    Good w → Legal w (.copy k :: p) →
      (run w (.copy k :: p)).load w.size = CObj.history (w.load k) (calls w.size p) := by
  intro h
  have := h exWorld [.call 0 (.op (.deleteObject ['u']))] 0 exWorld_good ⟨by decide +kernel, by decide +kernel, trivial⟩
  have := congrArg CObj.objects this
  revert this
  decide +kernel

example : Shared (shallow 0 exWorld).2 1 0 := (C159_copy exWorld (by decide +kernel)).1

/-- The renamed object is in the list of the copy and not in its dictionary. -/
example : let w := run exWorld [.copy 0, .call 0 (.op (.renameObject ['u'] ['z']))]
    (w.load 1).objects = [['z'], ['v']] ∧ w.objectIntent 1 ['z'] = .error .keyError ∧
      w.objectIntent 1 ['u'] = .ok {['p']} ∧ w.objectIntent 0 ['z'] = .ok {['p']} := by
  refine ⟨?_, ?_, ?_, ?_⟩ <;> decide +kernel

/-- The new intent is that of the object in the copy as well; `cross_table` of the copy has the old row. -/
example : let w := run exWorld [.copy 0, .call 0 (.op (.setObjectIntent [['q']] ['u']))]
    (w.load 1).cross = [[true, false], [true, true]] ∧ w.objectIntent 1 ['u'] = .ok {['q']} ∧
      w.objectIntent 0 ['u'] = .ok {['q']} := by
  refine ⟨?_, ?_, ?_⟩ <;> decide +kernel

example : let w := run exWorld [.basis 0, .copy 0, .call 1 (.op (.addObject [false, true] ['x']))]
    w.objectIntent 1 ['x'] = .error .indexError ∧ w.attributeExtent 1 ['q'] = .ok {['v']} := by
  constructor <;> decide +kernel

/-- Without the basis computation the intent is that of the new row. -/
example : (run exWorld [.copy 0, .call 1 (.op (.addObject [false, true] ['x']))]).objectIntent 1 ['x'] = .ok {['q']} ∧
    (run exWorld [.copy 0, .call 1 (.op (.addObject [false, true] ['x']))]).attributeExtent 1 ['q'] = .ok {['v'], ['x']} := by
  constructor <;> decide +kernel

end CWorld
