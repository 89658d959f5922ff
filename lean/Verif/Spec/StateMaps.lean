import Verif.Model.Base
/-
Bookkeeping of recorded items as one chronological list.
-/
namespace Notatin.Spec
open Notatin

/-- An operation on a store of items filed under keys. -/
inductive Op (κ α : Type) where
  | add (key : κ) (item : α)
  | remove (key : κ) (which : α → Bool)

/-- Drops the first element satisfying `p`, if there is one. -/
def dropFirst {α : Type} (p : α → Bool) : List α → List α
  | [] => []
  | a :: as => if p a then as else a :: dropFirst p as

/-- The items on record after a history, with the key they are filed under, oldest first. -/
def record {κ α : Type} [DecidableEq κ] : List (κ × α) → Op κ α → List (κ × α)
  | l, .add k a => l ++ [(k, a)]
  | l, .remove k p => dropFirst (fun x => decide (x.1 = k) && p x.2) l

/-- The items on record under `k`, oldest first. -/
def recordedUnder {κ α : Type} [DecidableEq κ] (l : List (κ × α)) (k : κ) : List α :=
  (l.filter fun x => decide (x.1 = k)).map Prod.snd

end Notatin.Spec
