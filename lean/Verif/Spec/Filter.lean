import Verif.Spec.Tree
/-
Which keys a filter asks for, written from its documentation.
-/
namespace Notatin.Spec
open Notatin

/-- The text with its ASCII letters in lower case. -/
def lowerAscii (s : Str) : Str :=
  s.map fun c => if 65 ≤ c.toNat ∧ c.toNat ≤ 90 then Char.ofNat (c.toNat + 32) else c

/-- One segment of a filter: a literal, or a pattern (the texts the regex engine accepts). -/
inductive Seg where
  | lit (s : Str)
  | pat (accepts : Str → Bool)

/-- A literal matches up to the case of ASCII letters; a pattern is applied to the lower-cased
name. -/
def Seg.Matches : Seg → Str → Prop
  | .lit s, name => SameIgnoringCase s name
  | .pat m, name => m (lowerAscii name) = true

/-- The path has as many segments as the filter and all match in order. -/
def Exact (P : List Seg) (K : List Str) : Prop := Pairwise2 Seg.Matches P K

/-- Some key properly above the path is an exact match. -/
def Under (P : List Seg) (K : List Str) : Prop := ∃ i, i < K.length ∧ Exact P (K.take i)

/-- The path matches the beginning of the filter, which has further segments. -/
def OnTheWay (P : List Seg) (K : List Str) : Prop := ∃ i, i < P.length ∧ Exact (P.take i) K

/-- The keys a filter asks for: exact matches; what is below them if child keys were requested; what
is above them if ancestors were requested. -/
def Wanted (P : List Seg) (children ancestors : Bool) (K : List Str) : Prop :=
  Exact P K ∨ (children = true ∧ Under P K) ∨ (ancestors = true ∧ OnTheWay P K)

instance decPairwise2 {α β : Type} (R : α → β → Prop) [∀ a b, Decidable (R a b)] :
    ∀ as bs, Decidable (Pairwise2 R as bs)
  | [], [] => .isTrue trivial
  | a :: as, b :: bs => by
    unfold Pairwise2
    have := decPairwise2 R as bs
    infer_instance
  | [], _ :: _ => .isFalse (by simp [Pairwise2])
  | _ :: _, [] => .isFalse (by simp [Pairwise2])

instance (s : Seg) (name : Str) : Decidable (s.Matches name) := by
  cases s with
  | lit s => unfold Seg.Matches SameIgnoringCase SameLetter UpperLower; infer_instance
  | pat m => unfold Seg.Matches; infer_instance

instance (P : List Seg) (K : List Str) : Decidable (Exact P K) := by unfold Exact; infer_instance
instance (P : List Seg) (K : List Str) : Decidable (Under P K) := by unfold Under; infer_instance
instance (P : List Seg) (K : List Str) : Decidable (OnTheWay P K) := by unfold OnTheWay; infer_instance
instance (P : List Seg) (c a : Bool) (K : List Str) : Decidable (Wanted P c a K) := by
  unfold Wanted; infer_instance

mutual
/-- The keys in pre-order, each with its offset, its path and the names from the root down to it. -/
def Tree.named (parent : Str) (above : List Str) : Tree → List (Nat × Str × List Str)
  | .mk off _ name kids =>
    (off, parent ++ '\\' :: name, above ++ [name]) ::
      namedAll (parent ++ '\\' :: name) (above ++ [name]) kids
/-- The same for a list of trees. -/
def namedAll (parent : Str) (above : List Str) : List Tree → List (Nat × Str × List Str)
  | [] => []
  | t :: ts => t.named parent above ++ namedAll parent above ts
end

/-- The segments a filter is compared with: the names below the root or, when the filter includes
the root (`\ROOT\a\b`), the empty text before the first backslash and all names. -/
def segments (hasRoot : Bool) (names : List Str) : List Str :=
  if hasRoot then [] :: names else names.drop 1

/-- The listing a filter asks for: pre-order, restricted to the wanted keys. -/
def filtered (P : List Seg) (hasRoot children ancestors : Bool) (t : Tree) : List (Nat × Str) :=
  ((t.named [] []).filter fun x => decide (Wanted P children ancestors (segments hasRoot x.2.2))).map
    fun x => (x.1, x.2.1)

mutual
/-- The keys in post-order, each with its offset, its path and the names from the root down to it. -/
def Tree.namedPost (parent : Str) (above : List Str) : Tree → List (Nat × Str × List Str)
  | .mk off _ name kids =>
    namedPostAll (parent ++ '\\' :: name) (above ++ [name]) kids ++
      [(off, parent ++ '\\' :: name, above ++ [name])]
/-- The same for a list of trees. -/
def namedPostAll (parent : Str) (above : List Str) : List Tree → List (Nat × Str × List Str)
  | [] => []
  | t :: ts => t.namedPost parent above ++ namedPostAll parent above ts
end

/-- The post-order listing a filter asks for. -/
def filteredPost (P : List Seg) (hasRoot children ancestors : Bool) (t : Tree) : List (Nat × Str) :=
  ((t.namedPost [] []).filter fun x =>
      decide (Wanted P children ancestors (segments hasRoot x.2.2))).map fun x => (x.1, x.2.1)

mutual
/-- The predicate holds for a key and everything below it. -/
def Tree.Every (p : Tree → Prop) : Tree → Prop
  | .mk off c name kids => p (.mk off c name kids) ∧ EveryAll p kids
/-- The same for a list of trees. -/
def EveryAll (p : Tree → Prop) : List Tree → Prop
  | [] => True
  | t :: ts => t.Every p ∧ EveryAll p ts
end

end Notatin.Spec
