/-
Abstract cross tables and the intended meaning of the mutators of `Context`
(independent of the model).
-/
import Mathlib.Data.Finset.Basic
import Mathlib.Data.List.Nodup

namespace Spec

/-- A cross table: names in order and a value for every pair of names. -/
structure Table (α β : Type) where
  objs : List α
  atts : List β
  rel : α → β → Bool

/-- The mutators of `Context`. -/
inductive TOp (α β : Type) where
  | addObject (row : List Bool) (name : α)
  | addAttribute (col : List Bool) (name : β)
  | addObjectWithIntent (intent : Finset β) (name : α)
  | addAttributeWithExtent (extent : Finset α) (name : β)
  | setObjectIntent (intent : List β) (name : α)
  | setAttributeExtent (extent : List α) (name : β)
  | deleteObject (name : α)
  | deleteAttribute (name : β)
  | renameObject (old new : α)
  | renameAttribute (old new : β)

variable {α β : Type} [DecidableEq α] [DecidableEq β]

/-- What a mutator means. -/
def Table.apply (t : Table α β) : TOp α β → Table α β
  | .addObject row n =>
    ⟨t.objs ++ [n], t.atts, fun o a => if o = n then row.getD (t.atts.idxOf a) false else t.rel o a⟩
  | .addAttribute col n =>
    ⟨t.objs, t.atts ++ [n], fun o a => if a = n then col.getD (t.objs.idxOf o) false else t.rel o a⟩
  | .addObjectWithIntent B n =>
    ⟨t.objs ++ [n], t.atts, fun o a => if o = n then decide (a ∈ B) else t.rel o a⟩
  | .addAttributeWithExtent A n =>
    ⟨t.objs, t.atts ++ [n], fun o a => if a = n then decide (o ∈ A) else t.rel o a⟩
  | .setObjectIntent B n => ⟨t.objs, t.atts, fun o a => if o = n then decide (a ∈ B) else t.rel o a⟩
  | .setAttributeExtent A n =>
    ⟨t.objs, t.atts, fun o a => if a = n then decide (o ∈ A) else t.rel o a⟩
  | .deleteObject n => ⟨t.objs.filter (· ≠ n), t.atts, t.rel⟩
  | .deleteAttribute n => ⟨t.objs, t.atts.filter (· ≠ n), t.rel⟩
  | .renameObject old new =>
    ⟨t.objs.map fun o => if o = old then new else o, t.atts,
      fun o a => if o = new then t.rel old a else t.rel o a⟩
  | .renameAttribute old new =>
    ⟨t.objs, t.atts.map fun a => if a = old then new else a,
      fun o a => if a = new then t.rel o old else t.rel o a⟩

/-- New names are not in use. -/
def TOp.Fresh (t : Table α β) : TOp α β → Prop
  | .addObject _ n | .addObjectWithIntent _ n => n ∉ t.objs
  | .addAttribute _ n | .addAttributeWithExtent _ n => n ∉ t.atts
  | .renameObject old new => new ∉ t.objs ∨ new = old
  | .renameAttribute old new => new ∉ t.atts ∨ new = old
  | _ => True

instance (t : Table α β) (op : TOp α β) : Decidable (op.Fresh t) := by
  cases op <;> unfold TOp.Fresh <;> infer_instance

/-- Every operation of the history uses new names when it is applied. -/
def FreshAll (t : Table α β) : List (TOp α β) → Prop
  | [] => True
  | op :: ops => op.Fresh t ∧ FreshAll (t.apply op) ops

instance decFreshAll : (t : Table α β) → (ops : List (TOp α β)) → Decidable (FreshAll t ops)
  | _, [] => .isTrue trivial
  | t, op :: ops =>
    have := decFreshAll (t.apply op) ops
    inferInstanceAs (Decidable (op.Fresh t ∧ FreshAll (t.apply op) ops))

/-- When a mutator is expected to succeed on a table with at least one object: known names and
matching lengths. -/
def TOp.Legal (t : Table α β) : TOp α β → Prop
  | .addObject row _ => row.length = t.atts.length
  | .addAttribute col _ => col.length = t.objs.length
  | .setObjectIntent B n => (∀ a ∈ B, a ∈ t.atts) ∧ n ∈ t.objs
  | .setAttributeExtent A n => (∀ o ∈ A, o ∈ t.objs) ∧ n ∈ t.atts
  | .deleteObject n => n ∈ t.objs
  | .deleteAttribute n => n ∈ t.atts
  | .renameObject old _ => old ∈ t.objs
  | .renameAttribute old _ => old ∈ t.atts
  | _ => True

end Spec
