import Verif.Spec.Diff
import Verif.Props.CompareFile
/-
C31: the comparison printed as a diff.
-/
namespace Notatin
open Spec

theorem lines_append (l s : Str) (h : '\n' ∉ l) : lines (l ++ '\n' :: s) = l :: lines s := by
  induction l with
  | nil => simp [lines]
  | cons c l ih =>
    rw [List.mem_cons, not_or] at h
    rw [List.cons_append, lines, if_neg (Ne.symm h.1), ih h.2]

theorem lines_writeLn (l s : Str) (h : '\n' ∉ l) : lines (writeLn l ++ s) = l :: lines s := by
  unfold writeLn
  rw [List.append_assoc]
  exact lines_append l s h

theorem lines_flatMap (c : Char) (hc : c ≠ '\n') (ls : List Str) (s : Str) (h : ∀ l ∈ ls, '\n' ∉ l) :
    lines ((ls.flatMap fun l => writeLn (c :: l)) ++ s) = ls.map (c :: ·) ++ lines s := by
  induction ls with
  | nil => rfl
  | cons l ls ih =>
    rw [List.flatMap_cons, List.append_assoc, lines_writeLn, ih fun l hl => h l (List.mem_cons_of_mem _ hl)]
    · rfl
    · rw [List.mem_cons, not_or]
      exact ⟨Ne.symm hc, h l List.mem_cons_self⟩

theorem decimal_digit {n : Nat} {c : Char} (h : c ∈ decimal n) : c.isDigit :=
  Nat.isDigit_of_mem_toDigits (by decide) (by decide) h

theorem decimal_number (n : Nat) : Number (decimal n) n := by
  refine ⟨Nat.toDigits_ne_nil, fun c hc => decimal_digit hc, ?_⟩
  exact Nat.ofDigitChars_ten_toDigits

theorem decimal_nl (n : Nat) : '\n' ∉ decimal n := fun h => absurd (decimal_digit h) (by decide)

/-- The text of one section followed by more text: nothing, or one hunk. -/
theorem section_lines (left right : List Str) (lline rline : Nat) (s : Str)
    (hl : ∀ l ∈ left, '\n' ∉ l) (hr : ∀ l ∈ right, '\n' ∉ l) :
    writeDiffSection (1 + lline) left left.length (1 + rline) right right.length
        = ((writeDiffSection (1 + lline) left left.length (1 + rline) right right.length).1,
          1 + (lline + left.length), 1 + (rline + right.length)) ∧
    ∀ minus plus, Hunks (lline + left.length) (rline + right.length) (lines s) minus plus →
      Hunks lline rline (lines ((writeDiffSection (1 + lline) left left.length (1 + rline) right
        right.length).1 ++ s)) (left ++ minus) (right ++ plus) := by
  unfold writeDiffSection
  by_cases h : 0 < left.length ∨ 0 < right.length
  · rw [if_pos h]
    refine ⟨by simp only [Nat.add_assoc], fun minus plus hh => ?_⟩
    simp only
    rw [List.append_assoc, List.append_assoc, lines_writeLn,
      lines_flatMap '-' (by decide) left _ hl, lines_flatMap '+' (by decide) right _ hr, ← List.append_assoc]
    · refine .cons ?_ (by omega) hh
      refine ⟨_, _, _, _, decimal_number _, decimal_number _, decimal_number _, decimal_number _, ?_⟩
      simp only [List.append_assoc]
      rfl
    · simp only [List.mem_append, List.mem_cons, not_or]
      simp only [decimal_nl]
      decide
  · rw [if_neg h]
    have h1 : left = [] := List.length_eq_zero_iff.1 (by omega)
    have h2 : right = [] := List.length_eq_zero_iff.1 (by omega)
    subst h1 h2
    exact ⟨rfl, fun minus plus hh => hh⟩

theorem section_ok (left right : List Str) (llen rlen L R lline rline : Nat) (hll : llen = left.length)
    (hrl : rlen = right.length) (hL : L = 1 + lline) (hR : R = 1 + rline)
    (hl : ∀ l ∈ left, '\n' ∉ l) (hr : ∀ l ∈ right, '\n' ∉ l) :
    ∃ t, writeDiffSection L left llen R right rlen
        = (t, 1 + (lline + left.length), 1 + (rline + right.length)) ∧
    ∀ s minus plus, Hunks (lline + left.length) (rline + right.length) (lines s) minus plus →
      Hunks lline rline (lines (t ++ s)) (left ++ minus) (right ++ plus) := by
  subst hll hrl hL hR
  exact ⟨_, (section_lines left right lline rline [] hl hr).1,
    fun s => (section_lines left right lline rline s hl hr).2⟩

/-- The rows of removed items, in the order in which they are printed. -/
def removedRows (rest : Node → Str) (content : Value → Str) (d : Differences) : List Str :=
  d.keysDeleted.map (formatKey rest) ++ (d.keysModified.map fun k => formatKey rest k.1) ++
    (d.valuesDeleted.map fun v => formatValue content v.1 v.2) ++
    (d.valuesModified.map fun v => formatValue content v.1 v.2.1)

/-- The rows of added items. -/
def addedRows (rest : Node → Str) (content : Value → Str) (d : Differences) : List Str :=
  d.keysAdded.map (formatKey rest) ++ (d.keysModified.map fun k => formatKey rest k.2) ++
    (d.valuesAdded.map fun v => formatValue content v.1 v.2) ++
    (d.valuesModified.map fun v => formatValue content v.1 v.2.2)

/-- C31: as long as no row and no file name contains a line feed, the output is a diff in unified
format: each hunk starts where the lines printed so far end and has as many removed and added lines as
it says, at least one; the removed lines are the rows of the deleted keys, the modified keys as they
were, and so on.

Partial: paths and names of values are printed as they are, and can contain line feeds
(`diff_newline_violated`). -/
theorem diff_hunks_partial (rest : Node → Str) (content : Value → Str) (base comp : Str) (d : Differences)
    (hb : '\n' ∉ base) (hc : '\n' ∉ comp) (hm : ∀ l ∈ removedRows rest content d, '\n' ∉ l)
    (hp : ∀ l ∈ addedRows rest content d, '\n' ∉ l) :
    IsDiff base comp (removedRows rest content d) (addedRows rest content d)
      (writeDiff rest content base comp d) := by
  unfold removedRows at hm ⊢
  unfold addedRows at hp ⊢
  simp only [List.mem_append] at hm hp
  have h1 : ∀ l ∈ d.keysDeleted.map (formatKey rest), '\n' ∉ l := fun l hl => hm l (by simp [hl])
  have h2 : ∀ l ∈ d.keysModified.map fun k => formatKey rest k.1, '\n' ∉ l := fun l hl => hm l (by simp [hl])
  have h3 : ∀ l ∈ d.valuesDeleted.map fun v => formatValue content v.1 v.2, '\n' ∉ l :=
    fun l hl => hm l (by simp [hl])
  have h4 : ∀ l ∈ d.valuesModified.map fun v => formatValue content v.1 v.2.1, '\n' ∉ l :=
    fun l hl => hm l (by simp [hl])
  have h5 : ∀ l ∈ d.keysAdded.map (formatKey rest), '\n' ∉ l := fun l hl => hp l (by simp [hl])
  have h6 : ∀ l ∈ d.keysModified.map fun k => formatKey rest k.2, '\n' ∉ l := fun l hl => hp l (by simp [hl])
  have h7 : ∀ l ∈ d.valuesAdded.map fun v => formatValue content v.1 v.2, '\n' ∉ l :=
    fun l hl => hp l (by simp [hl])
  have h8 : ∀ l ∈ d.valuesModified.map fun v => formatValue content v.1 v.2.2, '\n' ∉ l :=
    fun l hl => hp l (by simp [hl])
  clear hm hp
  have n0 : ∀ l ∈ ([] : List Str), '\n' ∉ l := by simp
  unfold writeDiff
  obtain ⟨t1, e1, k1⟩ := section_ok _ [] d.keysDeleted.length 0 1 1 0 0 (by simp) rfl rfl rfl h1 n0
  obtain ⟨t2, e2, k2⟩ := section_ok [] _ 0 d.keysAdded.length _ _ _ _ rfl (by simp) rfl rfl n0 h5
  obtain ⟨t3, e3, k3⟩ := section_ok _ _ d.keysModified.length d.keysModified.length _ _ _ _ (by simp)
    (by simp) rfl rfl h2 h6
  obtain ⟨t4, e4, k4⟩ := section_ok _ [] d.valuesDeleted.length 0 _ _ _ _ (by simp) rfl rfl rfl h3 n0
  obtain ⟨t5, e5, k5⟩ := section_ok [] _ 0 d.valuesAdded.length _ _ _ _ rfl (by simp) rfl rfl n0 h7
  obtain ⟨t6, e6, k6⟩ := section_ok _ _ d.valuesModified.length d.valuesModified.length _ _ _ _ (by simp)
    (by simp) rfl rfl h4 h8
  rw [e1]
  simp only
  rw [e2]
  simp only
  rw [e3]
  simp only
  rw [e4]
  simp only
  rw [e5]
  simp only
  rw [e6]
  simp only
  refine ⟨lines (t1 ++ (t2 ++ (t3 ++ (t4 ++ (t5 ++ (t6 ++ [])))))), ?_, ?_⟩
  · simp only [List.append_assoc, List.append_nil]
    rw [lines_writeLn, lines_writeLn]
    · simpa using hc
    · simpa using hb
  · have := k1 _ _ _ (k2 _ _ _ (k3 _ _ _ (k4 _ _ _ (k5 _ _ _ (k6 [] [] [] .nil)))))
    simpa only [List.append_assoc, List.append_nil, List.nil_append] using this

/-! ### Examples and violations -/

/-- A key without values. -/
def diffNode (path : Str) : Node := .mk { defaultKey with path := path } [] []

example : IsDiff ['b'] ['c'] ["\\RT\\x\t".toList] ["\\RT\\y\t".toList, "\\RT\\z\t".toList]
    (writeDiff (fun _ => []) (fun _ => []) ['b'] ['c']
      { keysDeleted := [diffNode "\\RT\\x".toList]
        keysAdded := [diffNode "\\RT\\y".toList, diffNode "\\RT\\z".toList] }) :=
  diff_hunks_partial _ _ _ _ _ (by decide) (by decide) (by decide) (by decide)

example : String.ofList (writeDiff (fun _ => []) (fun _ => []) ['b'] ['c']
      { keysDeleted := [diffNode "\\RT\\x".toList]
        keysAdded := [diffNode "\\RT\\y".toList, diffNode "\\RT\\z".toList] })
    = "--- b\n+++ c\n@@ -1,1 +1,0 @@\n-\\RT\\x\t\n@@ -2,0 +1,2 @@\n+\\RT\\y\t\n+\\RT\\z\t\n" := by
  decide +kernel

/-- In a sequence of hunks a line that begins with none of `-`, `+` and `@` does not occur. -/
theorem hunks_line {old new : Nat} {body minus plus : List Str} (h : Hunks old new body minus plus) :
    ∀ l ∈ body, l.head? = some '-' ∨ l.head? = some '+' ∨ l.head? = some '@' := by
  induction h with
  | nil => simp
  | cons hhead _ _ ih =>
    intro l hl
    rcases List.mem_cons.1 hl with rfl | hl
    · obtain ⟨a, b, c, d, _, _, _, _, rfl⟩ := hhead
      exact .inr (.inr rfl)
    · rcases List.mem_append.1 hl with hl | hl
      · rcases List.mem_append.1 hl with hl | hl
        · obtain ⟨x, _, rfl⟩ := List.mem_map.1 hl
          exact .inl rfl
        · obtain ⟨x, _, rfl⟩ := List.mem_map.1 hl
          exact .inr (.inl rfl)
      · exact ih l hl

/-- The lines of the diff that follow the two file names. -/
def diffBody (r : Option (Res Differences)) : Option (List Str) :=
  match r with
  | some (.ok d) => some ((lines (writeDiff (fun _ => []) (fun _ => []) ['b'] ['c'] d)).drop 2)
  | _ => none

/-- C31 does not hold for every pair of hives: a deleted key has a name with a line feed; it is printed
as it is and breaks the hunk. -/
theorem diff_newline_violated : ∃ base comp bs cs d,
    base.keys 9 {} = some (.ok bs) ∧ comp.keys 9 {} = some (.ok cs) ∧ Unique bs ∧ Unique cs ∧
    regCompare id 9 {} base comp = some (.ok d) ∧
    ∀ minus plus, ¬ IsDiff ['b'] ['c'] minus plus (writeDiff (fun _ => []) (fun _ => []) ['b'] ['c'] d) := by
  obtain ⟨bs, hb, hub, _⟩ := listed_unique (r := (openPair (pairHive 0x61 0x0a)).keys 9 {})
    (ps := [("\\RT".toList, 0), ("\\RT\\a".toList, 0), ("\\RT\\\n".toList, 0)]) (by decide +kernel)
    (by decide) (by decide)
  obtain ⟨cs, hc, huc, _⟩ := listed_unique (r := (openPair (pairHive 0x61 0x63)).keys 9 {})
    (ps := [("\\RT".toList, 0), ("\\RT\\a".toList, 0), ("\\RT\\c".toList, 0)]) (by decide +kernel)
    (by decide) (by decide)
  have h : diffBody (regCompare id 9 {} (openPair (pairHive 0x61 0x0a)) (openPair (pairHive 0x61 0x63)))
      = some ["@@ -1,1 +1,0 @@".toList, "-\\RT\\".toList, "\t".toList, "@@ -2,0 +1,1 @@".toList,
        "+\\RT\\c\t".toList] := by decide +kernel
  generalize hg : regCompare id 9 {} (openPair (pairHive 0x61 0x0a)) (openPair (pairHive 0x61 0x63)) = r
    at h
  unfold diffBody at h
  split at h
  · rename_i d
    refine ⟨_, _, bs, cs, d, hb, hc, hub, huc, hg, ?_⟩
    rintro minus plus ⟨body, e, hh⟩
    rw [e] at h
    cases h
    exact absurd (hunks_line hh "\t".toList (by decide)) (by decide)
  · cases h

end Notatin
