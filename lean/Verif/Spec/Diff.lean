import Verif.Model.Base
/-
What a diff in unified format looks like, read from its text.
-/
namespace Notatin.Spec

/-- The lines of a text, each ended by a line feed; what follows the last line feed is a line too
unless it is empty. -/
def lines : Str → List Str
  | [] => []
  | c :: s =>
    if c = '\n' then [] :: lines s
    else
      match lines s with
      | [] => [[c]]
      | l :: ls => (c :: l) :: ls

/-- The digits `s` denote `n`. -/
def Number (s : Str) (n : Nat) : Prop :=
  s ≠ [] ∧ (∀ c ∈ s, c.isDigit) ∧ s.foldl (fun v c => 10 * v + (c.toNat - '0'.toNat)) 0 = n

/-- The line is the head of a hunk with these numbers. -/
def HunkHead (line : Str) (oldStart oldCount newStart newCount : Nat) : Prop :=
  ∃ a b c d, Number a oldStart ∧ Number b oldCount ∧ Number c newStart ∧ Number d newCount ∧
    line = "@@ -".toList ++ a ++ ",".toList ++ b ++ " +".toList ++ c ++ ",".toList ++ d ++ " @@".toList

/-- The lines are a sequence of hunks, where `old` and `new` lines of the two files were already
printed: each begins where the lines printed so far end, has at least one line, and as many removed
lines and as many added lines as it says.  All removed lines together are `minus`, all added ones
`plus`. -/
inductive Hunks : Nat → Nat → List Str → List Str → List Str → Prop where
  | nil {old new : Nat} : Hunks old new [] [] []
  | cons {old new : Nat} {head : Str} {removed added rest minus plus : List Str}
      (hhead : HunkHead head (1 + old) removed.length (1 + new) added.length)
      (hne : 0 < removed.length + added.length)
      (hrest : Hunks (old + removed.length) (new + added.length) rest minus plus) :
      Hunks old new (head :: (removed.map ('-' :: ·) ++ added.map ('+' :: ·) ++ rest))
        (removed ++ minus) (added ++ plus)

/-- The text is a diff of the files `base` and `comp` with these removed and added lines. -/
def IsDiff (base comp : Str) (minus plus : List Str) (text : Str) : Prop :=
  ∃ body, lines text = ("--- ".toList ++ base) :: ("+++ ".toList ++ comp) :: body ∧
    Hunks 0 0 body minus plus

end Notatin.Spec
