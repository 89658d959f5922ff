import Verif.Props.Writers
import Verif.Props.Util
/-
C52: the TSV export can be read back.
-/
namespace Notatin
open Spec

/-- The characters that may stand between fields. -/
def Sep (c : Char) : Prop := c = '\t' ∨ c = ','

/-- A field that needs no quotes. -/
def Bare (sep : Char) (s : Str) : Prop := ∀ c ∈ s, c ≠ sep ∧ c ≠ '\n' ∧ c ≠ '"'

theorem readBareCell_text (sep : Char) (s rest : Str) (c : Char) (h1 : sep ∉ s) (h2 : '\n' ∉ s)
    (hc : c = sep ∨ c = '\n') : readBareCell sep (s ++ c :: rest) = (s, c :: rest) := by
  induction s with
  | nil => rw [List.nil_append, readBareCell, if_pos hc]
  | cons d s ih =>
    rw [List.cons_append, readBareCell, if_neg, ih (fun h => h1 (List.mem_cons_of_mem _ h))
      fun h => h2 (List.mem_cons_of_mem _ h)]
    rintro (h | h)
    · exact h1 (h ▸ List.mem_cons_self)
    · exact h2 (h ▸ List.mem_cons_self)

theorem sep_ne_quote {sep : Char} (hsep : Sep sep) : sep ≠ '"' := by
  rcases hsep with rfl | rfl <;> decide

theorem end_ne_quote {sep c : Char} (hsep : Sep sep) (hc : c = sep ∨ c = '\n') : c ≠ '"' := by
  rcases hc with rfl | rfl
  · exact sep_ne_quote hsep
  · decide

theorem readCell_bare (sep : Char) (hsep : Sep sep) (s rest : Str) (c : Char) (h : Bare sep s)
    (hc : c = sep ∨ c = '\n') : readCell sep (s ++ c :: rest) = some (s, c :: rest) := by
  have e : readCell sep (s ++ c :: rest) = some (readBareCell sep (s ++ c :: rest)) := by
    cases s with
    | nil =>
      rw [List.nil_append, readCell]
      intro r h'
      exact end_ne_quote hsep hc (List.cons.inj h').1
    | cons d s =>
      have hd : d ≠ '"' := (h d List.mem_cons_self).2.2
      rw [List.cons_append, readCell]
      intro r h'
      exact hd (List.cons.inj h').1
  rw [e, readBareCell_text sep s rest c (fun h' => (h _ h').1 rfl) (fun h' => (h _ h').2.1 rfl) hc]

theorem readCell_escape (sep : Char) (hsep : Sep sep) (s rest : Str) (c : Char) (hc : c = sep ∨ c = '\n') :
    readCell sep (escapeString s ++ c :: rest) = some (s, c :: rest) := by
  by_cases h : ∃ c ∈ s, special c
  · unfold escapeString
    rw [if_pos ((any_special s).2 h)]
    have hq : ∀ r, c :: rest ≠ '"' :: r := fun r hh => end_ne_quote hsep hc (List.cons.inj hh).1
    have := readQuoted_escaped s (c :: rest) hq
    simpa [readCell] using this
  · have hp : ∀ c ∈ s, ¬ special c := fun c hc hs => h ⟨c, hc, hs⟩
    rw [escape_plain s hp]
    refine readCell_bare sep hsep s rest c (fun d hd => ⟨fun h' => hp _ hd ?_, fun h' => hp _ hd ?_, fun h' => hp _ hd ?_⟩) hc
    · subst h'; rcases hsep with rfl | rfl <;> simp [special]
    · subst h'; simp [special]
    · subst h'; simp [special]

/-- The text of a field reads back as the field. -/
def ReadsAs (sep : Char) (text field : Str) : Prop :=
  ∀ (c : Char) (rest : Str), (c = sep ∨ c = '\n') →
    readCell sep (text ++ c :: rest) = some (field, c :: rest)

theorem readsAs_bare {sep : Char} (hsep : Sep sep) {s : Str} (h : Bare sep s) : ReadsAs sep s s :=
  fun c rest hc => readCell_bare sep hsep s rest c h hc
theorem readsAs_escape {sep : Char} (hsep : Sep sep) (s : Str) : ReadsAs sep (escapeString s) s :=
  fun c rest hc => readCell_escape sep hsep s rest c hc

theorem readRecord_last {sep : Char} {a f : Str} (h : ReadsAs sep a f) (rest : Str) :
    readRecord sep 0 (a ++ '\n' :: rest) = some ([f], rest) := by
  rw [readRecord, h '\n' rest (.inr rfl)]
  rfl

theorem readRecord_more {sep : Char} {a f : Str} (h : ReadsAs sep a f) {n : Nat} {s : Str}
    {fs : List Str} {rest : Str} (hs : readRecord sep n s = some (fs, rest)) :
    readRecord sep (n + 1) (a ++ sep :: s) = some (f :: fs, rest) := by
  rw [readRecord, h sep s (.inl rfl)]
  simp only
  rw [if_pos trivial, hs]
  rfl

theorem bare_decimal {sep : Char} (hsep : Sep sep) (n : Nat) : Bare sep (decimal n) := by
  intro c hc
  have := decimal_digit hc
  refine ⟨?_, ?_, ?_⟩
  · rintro rfl; rcases hsep with rfl | rfl <;> exact absurd this (by decide)
  · rintro rfl; exact absurd this (by decide)
  · rintro rfl; exact absurd this (by decide)

theorem bare_nil {sep : Char} : Bare sep [] := fun c hc => absurd hc List.not_mem_nil

theorem bare_seq (n : Option Nat) : Bare '\t' (seqText n) := by
  cases n with
  | none => exact bare_nil
  | some n => exact bare_decimal (.inl rfl) n

theorem seqText_eq (n : Option Nat) : seqText n = numberText n := by
  cases n <;> rfl

instance (sep : Char) (s : Str) : Decidable (Bare sep s) := inferInstanceAs (Decidable (∀ c ∈ s, _))

theorem bare_status (s : CellState) : Bare '\t' (statusText s) := by
  cases s <;> decide

theorem statusText_eq (s : CellState) : statusText s = (stateName s).toList := by cases s <;> rfl

theorem sep_tab : Sep '\t' := .inl rfl
theorem sep_comma : Sep ',' := .inr rfl

/-- The parameters that are written without quotes need none. -/
structure TsvTexts.Plain (t : TsvTexts) : Prop where
  time : ∀ k, Bare '\t' (t.time k)
  flags : ∀ k, Bare '\t' (t.flags k)
  access : ∀ k, Bare '\t' (t.access k)
  type : ∀ v, Bare '\t' (t.type v)

theorem readsAs_empty {sep : Char} (hsep : Sep sep) : ReadsAs sep [] [] := readsAs_bare hsep bare_nil

/-- One row reads back as the index and the fields of the item. -/
theorem row_reads (t : TsvTexts) (ht : t.Plain) (i : Nat) (x : ExportItem) (rest : Str) :
    readRecord '\t' 12 (decimal i ++ '\t' :: rowText (tsvKeyCols t) (tsvValueCols t) x ++ '\n' :: rest)
      = some (decimal i :: x.fields t, rest) := by
  cases x with
  | key n =>
    have := readRecord_more (readsAs_bare sep_tab (bare_decimal sep_tab i)) <|
      readRecord_more (readsAs_escape sep_tab n.key.path) <|
      readRecord_more (readsAs_bare sep_tab (bare_decimal sep_tab n.key.subKeyOffsets.length)) <|
      readRecord_more (readsAs_empty sep_tab) <| readRecord_more (readsAs_empty sep_tab) <|
      readRecord_more (readsAs_bare sep_tab (ht.time n.key)) <|
      readRecord_more (readsAs_bare sep_tab (bare_status n.key.cellState)) <|
      readRecord_more (readsAs_bare sep_tab (bare_seq n.key.seq)) <|
      readRecord_more (readsAs_bare sep_tab (bare_seq n.key.updatedBySeq)) <|
      readRecord_more (readsAs_bare sep_tab (ht.flags n.key)) <|
      readRecord_more (readsAs_bare sep_tab (ht.access n.key)) <|
      readRecord_more (readsAs_empty sep_tab) <|
      readRecord_last (readsAs_escape sep_tab (t.logs n.key.logs)) rest
    simp only [List.nil_append] at this
    simp only [rowText, tsvKeyCols, ExportItem.fields, ← seqText_eq, ← statusText_eq, List.append_assoc,
      List.cons_append]
    exact this
  | value n v =>
    have := readRecord_more (readsAs_bare sep_tab (bare_decimal sep_tab i)) <|
      readRecord_more (readsAs_escape sep_tab n.key.path) <|
      readRecord_more (readsAs_empty sep_tab) <|
      readRecord_more (readsAs_escape sep_tab v.val.prettyName) <|
      readRecord_more (readsAs_escape sep_tab (t.data v)) <|
      readRecord_more (readsAs_empty sep_tab) <|
      readRecord_more (readsAs_bare sep_tab (bare_status v.val.cellState)) <|
      readRecord_more (readsAs_bare sep_tab (bare_seq v.val.seq)) <|
      readRecord_more (readsAs_bare sep_tab (bare_seq v.val.updatedBySeq)) <|
      readRecord_more (readsAs_empty sep_tab) <| readRecord_more (readsAs_empty sep_tab) <|
      readRecord_more (readsAs_bare sep_tab (ht.type v)) <|
      readRecord_last (readsAs_escape sep_tab (t.logs v.val.logs)) rest
    simp only [List.nil_append] at this
    have hp : (if v.val.name = [] then "(default)".toList else v.val.name) = v.val.prettyName := by
      unfold KeyValue.prettyName getPrettyName
      cases v.val.name <;> rfl
    simp only [rowText, tsvValueCols, ExportItem.fields, ← seqText_eq, ← statusText_eq, List.append_assoc,
      List.cons_append, hp]
    exact this

theorem rows_read (t : TsvTexts) (ht : t.Plain) (i : Nat) (xs : List ExportItem) (rest : Str) :
    readRecords '\t' 12 xs.length
      (fileText (numbered i (xs.map (rowText (tsvKeyCols t) (tsvValueCols t)))) ++ rest)
      = some (itemRecords t i xs, rest) := by
  induction xs generalizing i with
  | nil => rfl
  | cons x xs ih =>
    rw [List.length_cons, readRecords, List.map_cons, numbered, fileText, List.flatMap_cons, writeLn]
    have := row_reads t ht i x (fileText (numbered (i + 1) (xs.map (rowText (tsvKeyCols t) (tsvValueCols t)))) ++ rest)
    simp only [List.append_assoc, List.cons_append, List.nil_append] at this ⊢
    rw [show (Nat.toDigits 10 i) = decimal i from rfl]
    unfold fileText at this
    rw [this]
    simp only
    have ih := ih (i + 1)
    unfold fileText at ih
    rw [ih]
    rfl

/-- C52: a reader of tables with tabs between the fields and quotes around fields gets from the TSV
export the heading and one record per item, with the item's fields as they are, whatever characters
they have; after them come an empty line and the logs. -/
theorem tsv_read_back (t : TsvTexts) (ht : t.Plain) (recoveredOnly : Bool) (logs : List Str) (ns : List Node) :
    readRecords '\t' 12
        ((if recoveredOnly then (allItems ns).filter ExportItem.recovered else allItems ns).length + 1)
        (fileText (writeTsv (tsvKeyCols t) (tsvValueCols t) recoveredOnly logs ns))
      = some (tsvColumns :: itemRecords t 1
          (if recoveredOnly then (allItems ns).filter ExportItem.recovered else allItems ns),
        fileText ("\nLogs\n-----------".toList :: logs)) := by
  rw [tsv_rows]
  generalize (if recoveredOnly then (allItems ns).filter ExportItem.recovered else allItems ns) = items
  have e : fileText (tsvHeader :: (numbered 1 (items.map (rowText (tsvKeyCols t) (tsvValueCols t)))
      ++ "\nLogs\n-----------".toList :: logs))
      = tsvHeader ++ '\n' :: (fileText (numbered 1 (items.map (rowText (tsvKeyCols t) (tsvValueCols t)))) ++
        fileText ("\nLogs\n-----------".toList :: logs)) := by
    simp only [fileText, List.flatMap_cons, List.flatMap_append, writeLn, List.append_assoc, List.cons_append,
      List.nil_append]
  have hb : ∀ s ∈ tsvColumns, ReadsAs '\t' s s := by
    have : ∀ s ∈ tsvColumns, Bare '\t' s := by decide
    exact fun s hs => readsAs_bare sep_tab (this s hs)
  have hh : ∀ rest, readRecord '\t' 12 (tsvHeader ++ '\n' :: rest) = some (tsvColumns, rest) := by
    intro rest
    have go : ∀ (cs : List Str) (rest : Str) (c : Str), (∀ s ∈ c :: cs, ReadsAs '\t' s s) →
        readRecord '\t' cs.length (joinSep '\t' (c :: cs) ++ '\n' :: rest) = some (c :: cs, rest) := by
      intro cs rest
      induction cs with
      | nil => intro c hc; exact readRecord_last (hc c List.mem_cons_self) rest
      | cons d cs ih =>
        intro c hc
        rw [joinSep, List.append_assoc]
        exact readRecord_more (hc c List.mem_cons_self) (ih d fun s hs => hc s (List.mem_cons_of_mem _ hs))
    have e1 : tsvHeader = joinSep '\t' tsvColumns := by decide +kernel
    rw [e1]
    cases hc : tsvColumns with
    | nil => exact absurd hc (by decide)
    | cons c cs =>
      have e2 : cs.length = 12 := by
        have : (c :: cs).length = 13 := by rw [← hc]; decide
        simpa using this
      rw [← e2]
      exact go cs rest c (hc ▸ hb)
  rw [e, readRecords, hh]
  simp only
  rw [rows_read t ht]
  rfl

/-- A key whose name has a tab, a line feed and quotes. -/
def tabNode : Node := .mk { defaultKey with path := "\\a\tb\n\"c\"".toList } [] []

example : (readRecords '\t' 12 2 (fileText (writeTsv
      (tsvKeyCols ⟨fun _ => [], fun _ => [], fun _ => [], fun _ => [], fun _ => [], fun _ => []⟩)
      (tsvValueCols ⟨fun _ => [], fun _ => [], fun _ => [], fun _ => [], fun _ => [], fun _ => []⟩)
      false [] [tabNode]))).map (fun r => (r.1.getD 1 []).getD 1 [])
    = some "\\a\tb\n\"c\"".toList := by decide +kernel

end Notatin
