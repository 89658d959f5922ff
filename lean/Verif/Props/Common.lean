import Verif.Props.TsvText
import Verif.Props.Json
/-
C57: the common export can be read back as its heading documents.
-/
namespace Notatin
open Spec

/-- Whatever the counters are, the step writes these records. -/
def Records {α : Type} (f : α → Totals → Res (List Str × Totals)) (g : α → List Str) : Prop :=
  ∀ a t r t', f a t = .ok (r, t') → r = g a

theorem writeEach_records {α : Type} {f : α → Totals → Res (List Str × Totals)} {g : α → List Str}
    (hf : Records f g) : Records (writeEach f) (fun as => as.flatMap g) := by
  intro as
  induction as with
  | nil => intro t r t' h; rw [writeEach] at h; cases h; rfl
  | cons a as ih =>
    intro t r t' h
    rw [writeEach] at h
    cases h1 : f a t with
    | err => rw [h1] at h; cases h
    | panic => rw [h1] at h; cases h
    | ok x =>
      obtain ⟨r1, t1⟩ := x
      rw [h1] at h
      simp only at h
      cases h2 : writeEach f as t1 with
      | err => rw [h2] at h; cases h
      | panic => rw [h2] at h; cases h
      | ok y =>
        obtain ⟨r2, t2⟩ := y
        rw [h2] at h
        cases h
        show _ = (a :: as).flatMap g
        rw [List.flatMap_cons, hf a t r1 t1 h1, ih t1 r2 _ h2]

/-- The fourth column of a key. -/
def keyColumn (n : Node) : Str :=
  if unusedState n.key.cellState then n.key.name else n.key.path.drop 1

/-- The fourth column of a value. -/
def valueColumn (n : Node) (v : Value) : Str :=
  if unusedState v.val.cellState then [] else n.key.name

theorem sliceFrom1_ok {s p : Str} (h : sliceFrom1 s = .ok p) : p = s.drop 1 := by
  unfold sliceFrom1 at h
  cases s with
  | nil => simp [dropBytes] at h
  | cons c s =>
    rw [dropBytes] at h
    split at h
    · rename_i r hr
      cases h
      split at hr
      · rename_i hc
        have : 0 + 1 - c.utf8Size = 0 := by have := c.utf8Size_pos; omega
        rw [this] at hr
        rw [dropBytes] at hr
        cases hr
        rfl
      · cases hr
    · cases h

theorem commonKey_records (time : KeyNode → Str) :
    Records (commonKey time) (fun n => [commonKeyRow time n (keyColumn n)]) := by
  intro n t r t' h
  show r = [commonKeyRow time n (keyColumn n)]
  unfold commonKey at h
  have hk : ∀ s, n.key.cellState = s → keyColumn n = if unusedState s then n.key.name else n.key.path.drop 1 := by
    rintro s rfl; rfl
  cases hs : n.key.cellState with
  | DeletedPrimaryFile | DeletedPrimaryFileSlack =>
    rw [hs] at h
    simp only at h
    rw [hk _ hs, unusedState, if_pos rfl]
    split at h
    · cases h; rfl
    · cases h
  | Allocated | DeletedTransactionLog | ModifiedTransactionLog =>
    rw [hs] at h
    simp only at h
    rw [hk _ hs, unusedState, if_neg (by decide)]
    split at h
    · rename_i hp
      cases h
      rw [sliceFrom1_ok hp]
    · cases h

theorem commonValue_records (n : Node) :
    Records (commonValue n) (fun v => [commonValueRow v (valueColumn n v)]) := by
  intro v t r t' h
  show r = [commonValueRow v (valueColumn n v)]
  unfold commonValue at h
  have hk : ∀ s, v.val.cellState = s → valueColumn n v = if unusedState s then [] else n.key.name := by
    rintro s rfl; rfl
  cases hs : v.val.cellState with
  | DeletedPrimaryFile | DeletedPrimaryFileSlack =>
    rw [hs] at h
    simp only at h
    rw [hk _ hs, unusedState, if_pos rfl]
    split at h
    · cases h; rfl
    · cases h
  | Allocated | DeletedTransactionLog | ModifiedTransactionLog =>
    rw [hs] at h
    simp only at h
    rw [hk _ hs, unusedState, if_neg (by decide)]
    split at h
    · cases h; rfl
    · cases h

/-- The row of an item. -/
def commonRow (time : KeyNode → Str) : ExportItem → Str
  | .key n => commonKeyRow time n (keyColumn n)
  | .value n v => commonValueRow v (valueColumn n v)

theorem commonItem_records (time : KeyNode → Str) :
    Records (commonItem time) (fun n => (commonItems [n]).map (commonRow time)) := by
  intro n t r t' h
  unfold commonItem at h
  cases h1 : writeEach (commonKey time) (n :: n.versions) t with
  | err => rw [h1] at h; cases h
  | panic => rw [h1] at h; cases h
  | ok x =>
    obtain ⟨r1, t1⟩ := x
    rw [h1] at h
    simp only at h
    cases h2 : writeEach (commonValues n) n.key.values t1 with
    | err => rw [h2] at h; cases h
    | panic => rw [h2] at h; cases h
    | ok y =>
      obtain ⟨r2, t2⟩ := y
      rw [h2] at h
      cases h
      have e1 := writeEach_records (commonKey_records time) _ _ _ _ h1
      have hv : Records (commonValues n)
          (fun v => (v :: v.versions).flatMap fun v => [commonValueRow v (valueColumn n v)]) :=
        fun v t r t' h => writeEach_records (commonValue_records n) _ _ _ _ h
      have e2 := writeEach_records hv _ _ _ _ h2
      rw [e1, e2]
      simp only [commonItems, List.flatMap_cons, List.flatMap_nil, List.append_nil, List.map_append,
        List.map_map, List.map_flatMap, ← List.map_eq_flatMap]
      rfl

/-- The records of the export: the heading, one row per item, the eight totals. -/
theorem writeCommon_records (time : KeyNode → Str) (ns : List Node) (records : List Str)
    (h : writeCommon time ns = .ok records) :
    ∃ totals : List Str, records = commonHeader :: ((commonItems ns).map (commonRow time) ++ totals) ∧
      ∀ t ∈ totals, '\n' ∉ t ∧ ['#', '#'] <+: t := by
  unfold writeCommon at h
  cases h1 : writeEach (commonItem time) ns {} with
  | err => rw [h1] at h; cases h
  | panic => rw [h1] at h; cases h
  | ok x =>
    obtain ⟨rows, t⟩ := x
    have e := writeEach_records (commonItem_records time) _ _ _ _ h1
    have e' : rows = (commonItems ns).map (commonRow time) := by
      rw [e, commonItems, List.map_flatMap]
      have : (fun n => (commonItems [n]).map (commonRow time)) = fun a => List.map (commonRow time)
          (List.map ExportItem.key (a :: a.versions) ++
            List.flatMap (fun v => List.map (ExportItem.value a) (v :: v.versions)) a.key.values) := by
        funext n
        rw [commonItems, List.flatMap_cons, List.flatMap_nil, List.append_nil]
      rw [← this]
    rw [h1] at h
    cases h
    rw [e']
    refine ⟨_, List.cons_append, ?_⟩
    have hd : ∀ (a : Str) (n : Nat), '\n' ∉ a → ['#', '#'] <+: a →
        '\n' ∉ a ++ decimal n ∧ ['#', '#'] <+: a ++ decimal n := by
      intro a n h1 h2
      refine ⟨fun h => ?_, h2.trans (List.prefix_append _ _)⟩
      rcases List.mem_append.1 h with h | h
      · exact h1 h
      · exact absurd (decimal_digit h) (by decide)
    intro s hs
    simp only [List.mem_cons, List.not_mem_nil, or_false] at hs
    rcases hs with rfl | rfl | rfl | rfl | rfl | rfl | rfl | rfl <;>
      exact hd _ _ (by decide) (by decide)

theorem bare_flag (s : CellState) : Bare ',' (allocChar s) := by cases s <;> decide
theorem allocChar_eq (s : CellState) : allocChar s = [flagOf s] := by cases s <;> rfl

theorem bare_hex (bs : Bytes) : Bare ',' (toHexString bs) := by
  rw [hex_form]
  have hd : ∀ n, n < 16 → hexDigit n ≠ ',' ∧ hexDigit n ≠ '\n' ∧ hexDigit n ≠ '"' := by decide +kernel
  have hp : ∀ (b : UInt8), ∀ c ∈ hexPair b, c ≠ ',' ∧ c ≠ '\n' ∧ c ≠ '"' := by
    intro b c hc
    have hb := b.toNat_lt
    unfold hexPair at hc
    simp only [List.mem_cons, List.not_mem_nil, or_false] at hc
    rcases hc with rfl | rfl
    · exact hd _ (by omega)
    · exact hd _ (by omega)
  induction bs with
  | nil => exact bare_nil
  | cons b bs ih =>
    cases bs with
    | nil => exact hp b
    | cons c bs =>
      intro d hd
      rw [hexJoin] at hd
      rcases List.mem_append.1 hd with hd | hd
      · exact hp b d hd
      · rcases List.mem_cons.1 hd with rfl | hd
        · decide
        · exact ih d hd

/-- The number of a data type that is documented is the one stored. -/
theorem number_ofRaw (raw : Nat) (h : documentedType raw = true) : (DataType.ofRaw raw).number = raw := by
  have hlt : raw < 288 := by
    unfold documentedType at h
    simp only [Bool.or_eq_true, decide_eq_true_eq, beq_iff_eq, Bool.and_eq_true] at h
    omega
  have : ∀ n, n < 288 → documentedType n = true → (DataType.ofRaw n).number = n := by decide +kernel
  exact this raw hlt h

theorem keyRow_shape (time : KeyNode → Str) (n : Node) (rest : Str) :
    commonRow time (.key n) ++ '\n' :: rest = "key".toList ++ ',' :: (allocChar n.key.cellState ++ ',' ::
      (decimal n.key.fileOffset ++ ',' :: (escapeString (keyColumn n) ++ ',' :: ([] ++ ',' :: ([] ++ ',' ::
        ([] ++ ',' :: (time n.key ++ '\n' :: rest))))))) := by
  have e1 : "key,".toList = "key".toList ++ [','] := by decide
  have e2 : ",".toList = [','] := by decide
  have e3 : ",,,,".toList = [',', ',', ',', ','] := by decide
  unfold commonRow commonKeyRow
  simp only [e1, e2, e3, List.append_assoc, List.cons_append, List.nil_append]

theorem valueRow_shape (time : KeyNode → Str) (n : Node) (v : Value) (rest : Str) :
    commonRow time (.value n v) ++ '\n' :: rest = "value".toList ++ ',' :: (allocChar v.val.cellState ++ ',' ::
      (decimal v.val.fileOffset ++ ',' :: (escapeString (valueColumn n v) ++ ',' ::
        (escapeString v.val.prettyName ++ ',' :: (decimal v.val.dataType.number ++ ',' ::
          (toHexString (v.val.valueBytes.getD []) ++ ',' :: ([] ++ '\n' :: rest))))))) := by
  have e1 : "value,".toList = "value".toList ++ [','] := by decide
  have e2 : ",".toList = [','] := by decide
  unfold commonRow commonValueRow
  simp only [e1, e2, List.append_assoc, List.cons_append, List.nil_append]

/-- One row reads back as what the item should show. -/
theorem common_row_reads (time : KeyNode → Str) (ht : ∀ k, Bare ',' (time k)) (x : ExportItem) (rest : Str) :
    ∃ record, readRecord ',' 7 (commonRow time x ++ '\n' :: rest) = some (record, rest) ∧
      ShowsCommon time (fun n => n.key.name) documentedType record x := by
  cases x with
  | key n =>
    have := readRecord_more (readsAs_bare sep_comma (by decide : Bare ',' "key".toList)) <|
      readRecord_more (readsAs_bare sep_comma (bare_flag n.key.cellState)) <|
      readRecord_more (readsAs_bare sep_comma (bare_decimal sep_comma n.key.fileOffset)) <|
      readRecord_more (readsAs_escape sep_comma (keyColumn n)) <|
      readRecord_more (readsAs_empty sep_comma) <| readRecord_more (readsAs_empty sep_comma) <|
      readRecord_more (readsAs_empty sep_comma) <|
      readRecord_last (readsAs_bare sep_comma (ht n.key)) rest
    refine ⟨["key".toList, allocChar n.key.cellState, decimal n.key.fileOffset, keyColumn n, [], [], [],
      time n.key], ?_, ?_⟩
    · rw [keyRow_shape]
      exact this
    · rw [ShowsCommon, allocChar_eq]
      rfl
  | value n v =>
    have := readRecord_more (readsAs_bare sep_comma (by decide : Bare ',' "value".toList)) <|
      readRecord_more (readsAs_bare sep_comma (bare_flag v.val.cellState)) <|
      readRecord_more (readsAs_bare sep_comma (bare_decimal sep_comma v.val.fileOffset)) <|
      readRecord_more (readsAs_escape sep_comma (valueColumn n v)) <|
      readRecord_more (readsAs_escape sep_comma v.val.prettyName) <|
      readRecord_more (readsAs_bare sep_comma (bare_decimal sep_comma v.val.dataType.number)) <|
      readRecord_more (readsAs_bare sep_comma (bare_hex (v.val.valueBytes.getD []))) <|
      readRecord_last (readsAs_empty sep_comma) rest
    refine ⟨["value".toList, allocChar v.val.cellState, decimal v.val.fileOffset, valueColumn n v,
      v.val.prettyName, decimal v.val.dataType.number, toHexString (v.val.valueBytes.getD []), []], ?_, ?_⟩
    · rw [valueRow_shape]
      exact this
    · rw [ShowsCommon, allocChar_eq]
      have hp : (if v.val.name = [] then "(default)".toList else v.val.name) = v.val.prettyName := by
        unfold KeyValue.prettyName getPrettyName
        cases v.val.name <;> rfl
      rw [hp]
      refine ⟨decimal v.val.dataType.number, toHexString (v.val.valueBytes.getD []), rfl, ?_, hex_roundtrip _⟩
      intro h1 h2
      rw [h2, number_ofRaw _ h1]
      rfl

theorem common_rows_read (time : KeyNode → Str) (ht : ∀ k, Bare ',' (time k)) (xs : List ExportItem) (rest : Str) :
    ∃ recs, readRecords ',' 7 xs.length (fileText (xs.map (commonRow time)) ++ rest) = some (recs, rest) ∧
      Pairwise2 (ShowsCommon time (fun n => n.key.name) documentedType) recs xs := by
  induction xs with
  | nil => exact ⟨[], rfl, trivial⟩
  | cons x xs ih =>
    obtain ⟨recs, h1, h2⟩ := ih
    obtain ⟨r, h3, h4⟩ := common_row_reads time ht x (fileText (xs.map (commonRow time)) ++ rest)
    refine ⟨r :: recs, ?_, h4, h2⟩
    rw [List.length_cons, readRecords, List.map_cons, fileText, List.flatMap_cons, writeLn, List.append_assoc,
      List.append_assoc, List.cons_append, List.nil_append]
    rw [fileText] at h3 h1
    rw [h3]
    simp only
    rw [h1]
    rfl

theorem lines_fileText_append (rs : List Str) (s : Str) (h : ∀ r ∈ rs, '\n' ∉ r) :
    lines (fileText rs ++ s) = rs ++ lines s := by
  induction rs with
  | nil => rfl
  | cons r rs ih =>
    rw [fileText, List.flatMap_cons, List.append_assoc, lines_writeLn _ _ (h r List.mem_cons_self), List.cons_append]
    rw [fileText] at ih
    rw [ih fun r hr => h r (List.mem_cons_of_mem _ hr)]

/-- The lines put together again are the text, if it ends with a line feed. -/
theorem unlines_lines (s : Str) : (lines (s ++ ['\n'])).flatMap (· ++ ['\n']) = s ++ ['\n'] := by
  have hne : ∀ s : Str, lines (s ++ ['\n']) ≠ [] := by
    intro s
    cases s with
    | nil => simp [lines]
    | cons c s =>
      rw [List.cons_append, lines]
      split
      · simp
      · split <;> simp
  induction s with
  | nil => simp [lines]
  | cons c s ih =>
    rw [List.cons_append, lines]
    by_cases hc : c = '\n'
    · rw [if_pos hc, List.flatMap_cons, ih, hc]; rfl
    · rw [if_neg hc]
      cases hl : lines (s ++ ['\n']) with
      | nil => exact absurd hl (hne s)
      | cons l ls =>
        rw [hl, List.flatMap_cons] at ih
        simp only [List.flatMap_cons, List.cons_append]
        rw [ih]

theorem lines_head (c : Char) (s : Str) (hc : c ≠ '\n') : ∃ l ls, lines (c :: s) = (c :: l) :: ls := by
  rw [lines, if_neg hc]
  split
  · exact ⟨_, _, rfl⟩
  · exact ⟨_, _, rfl⟩

theorem heading_text : writeLn commonHeader = fileText (commonHeaderLines.map String.toList ++ ["##".toList]) := by
  unfold commonHeader fileText writeLn
  rw [List.flatMap_append, List.flatMap_map, List.flatMap_cons, List.flatMap_nil, List.append_nil,
    List.append_assoc]

/-- Every line of the heading begins with `##`. -/
theorem heading_lines : ∀ l ∈ commonHeaderLines.map String.toList ++ ["##".toList],
    '\n' ∉ l ∧ ['#', '#'].isPrefixOf l = true := by
  have hn : ∀ l ∈ commonHeaderLines, '\n' ∉ l.toList ∧ ['#', '#'].isPrefixOf l.toList = true := by
    decide +kernel
  intro l hl
  rcases List.mem_append.1 hl with hl | hl
  · obtain ⟨x, hx, rfl⟩ := List.mem_map.1 hl
    exact hn x hx
  · rw [List.mem_singleton.1 hl]
    decide

theorem dropWhile_all {α : Type} (p : α → Bool) (as bs : List α) (h : ∀ a ∈ as, p a = true) :
    (as ++ bs).dropWhile p = bs.dropWhile p := by
  induction as with
  | nil => rfl
  | cons a as ih =>
    rw [List.cons_append, List.dropWhile_cons, if_pos (h a List.mem_cons_self)]
    exact ih fun b hb => h b (List.mem_cons_of_mem _ hb)

/-- The comments of the heading are skipped, the rows are not. -/
theorem afterComments_body (c : Char) (s : Str) (hc : c ≠ '\n') (hc2 : c ≠ '#') :
    afterComments (writeLn commonHeader ++ (c :: s ++ ['\n'])) = c :: s ++ ['\n'] := by
  unfold afterComments
  rw [heading_text, lines_fileText_append _ _ fun l hl => (heading_lines l hl).1,
    dropWhile_all _ _ _ fun l hl => (heading_lines l hl).2]
  obtain ⟨l, ls, hl⟩ := lines_head c (s ++ ['\n']) hc
  have hd : (lines (c :: s ++ ['\n'])).dropWhile (['#', '#'].isPrefixOf ·) = lines (c :: s ++ ['\n']) := by
    rw [List.cons_append, hl, List.dropWhile_cons, if_neg]
    rw [List.isPrefixOf_cons_cons]
    intro h
    rw [Bool.and_eq_true, beq_iff_eq] at h
    exact hc2 h.1.symm
  rw [hd]
  exact unlines_lines (c :: s)

/-- C57: whenever the common export finishes, its text reads as its heading documents: comment lines, one
record of eight fields per key, version and value with the fields named in the heading, whatever
characters the names have, and the totals.

Partial: in the column for the path of the key, the rows of values have only the name of the key
(`common_key_path_violated`); the number of a data type is right only for the documented ones
(`common_type_violated`). -/
theorem common_read_back_partial (time : KeyNode → Str) (ht : ∀ k, Bare ',' (time k)) (ns : List Node)
    (records : List Str) (h : writeCommon time ns = .ok records) :
    CommonReadsBack time (fun n => n.key.name) documentedType ns (fileText records) := by
  obtain ⟨totals, h1, h3⟩ := writeCommon_records time ns records h
  have hrest : ∀ l ∈ lines (fileText totals), ['#', '#'] <+: l := by
    rw [lines_fileText _ fun l hl => (h3 l hl).1]
    exact fun l hl => (h3 l hl).2
  have e : fileText records = writeLn commonHeader ++
      (fileText ((commonItems ns).map (commonRow time)) ++ fileText totals) := by
    rw [h1, fileText, List.flatMap_cons, List.flatMap_append]
    rfl
  obtain ⟨recs, h4, h5⟩ := common_rows_read time ht (commonItems ns) (fileText totals)
  rw [e]
  cases ns with
  | nil =>
    refine ⟨[], _, rfl, trivial, ?_⟩
    have : afterComments (writeLn commonHeader ++
      (fileText ((commonItems []).map (commonRow time)) ++ fileText totals)) = [] := by
      unfold afterComments
      rw [heading_text, lines_fileText_append _ _ fun l hl => (heading_lines l hl).1,
        dropWhile_all _ _ _ fun l hl => (heading_lines l hl).2]
      have : lines (fileText ((commonItems []).map (commonRow time)) ++ fileText totals) = totals :=
        lines_fileText totals fun l hl => (h3 l hl).1
      rw [this, ← List.append_nil totals,
        dropWhile_all _ _ _ fun l hl => List.isPrefixOf_iff_prefix.2 (h3 l hl).2]
      rfl
    rw [this]
    intro l hl
    exact absurd hl List.not_mem_nil
  | cons n ns =>
    refine ⟨recs, fileText totals, ?_, h5, hrest⟩
    have hb : ∃ s, fileText ((commonItems (n :: ns)).map (commonRow time)) ++ fileText totals
        = 'k' :: s ++ ['\n'] := by
      have hfirst : ∃ r rs, (commonItems (n :: ns)).map (commonRow time) = ('k' :: r) :: rs :=
        ⟨_, _, rfl⟩
      obtain ⟨r, rs, hr⟩ := hfirst
      rw [hr]
      have hl : ∀ (xs : List Str) (y : Str), ∃ s, fileText (y :: xs) = y ++ s ++ ['\n'] := by
        intro xs
        induction xs with
        | nil => intro y; exact ⟨[], by simp [fileText, writeLn]⟩
        | cons x xs ih =>
          intro y
          obtain ⟨s, hs⟩ := ih x
          refine ⟨'\n' :: (x ++ s), ?_⟩
          rw [fileText, List.flatMap_cons, ← fileText, hs, writeLn]
          simp
      obtain ⟨s, hs⟩ := hl (rs ++ totals) ('k' :: r)
      refine ⟨r ++ s, ?_⟩
      have : fileText (('k' :: r) :: rs) ++ fileText totals = fileText (('k' :: r) :: (rs ++ totals)) := by
        simp only [fileText, List.flatMap_cons, List.flatMap_append, List.append_assoc]
      rw [this, hs]
      rfl
    obtain ⟨s, hs⟩ := hb
    rw [hs] at h4 ⊢
    rw [afterComments_body 'k' s (by decide) (by decide)]
    exact h4

/-- The full claim of C57. -/
def CommonReadBackOk (parent : Node → Str) (known : Nat → Bool) : Prop :=
  ∀ (time : KeyNode → Str), (∀ k, Bare ',' (time k)) → ∀ (ns : List Node) (records : List Str),
    writeCommon time ns = .ok records → CommonReadsBack time parent known ns (fileText records)

/-- A key `\RT\a` with the value `v` of the type 18, which is none of the documented ones. -/
def commonNode : Node :=
  .mk { defaultKey with
    path := "\\RT\\a".toList, name := ['a'],
    values := [
      .mk { fileOffset := 4096, size := -32, nameSize := 1, dataSizeRaw := 2 ^ 31 + 1, dataOffset := 7,
            dataTypeRaw := 18, flagsRaw := 1, padding := 0, name := ['v'], slack := [],
            dataType := DataType.ofRaw 18, flags := 1, valueBytes := some [7] } []] } [] []

theorem commonNode_written : ∃ records, writeCommon (fun _ => []) [commonNode] = .ok records :=
  common_finishes_partial _ _ (by
    intro m hm _
    simp only [keyItems, List.flatMap_cons, List.flatMap_nil, List.append_nil, commonNode, Node.versions,
      List.mem_cons, List.not_mem_nil, or_false] at hm
    subst hm
    exact ⟨_, rfl⟩) (by decide)

/-- `common_read_back_partial` applies to it. -/
example : ∃ records, writeCommon (fun _ => []) [commonNode] = .ok records ∧
    CommonReadsBack (fun _ => []) (fun n => n.key.name) documentedType [commonNode] (fileText records) := by
  obtain ⟨records, h⟩ := commonNode_written
  exact ⟨records, h, common_read_back_partial _ (fun _ => bare_nil) _ _ h⟩

/-- What a value of the example reads as. -/
theorem commonNode_rows (parent parent' : Node → Str) (known known' : Nat → Bool) (text : Str)
    (h1 : CommonReadsBack (fun _ => []) parent known [commonNode] text)
    (h2 : CommonReadsBack (fun _ => []) parent' known' [commonNode] text) :
    ∃ record v, v ∈ commonNode.key.values ∧ ShowsCommon (fun _ => []) parent known record (.value commonNode v) ∧
      ShowsCommon (fun _ => []) parent' known' record (.value commonNode v) ∧ v.val.dataTypeRaw = 18 ∧
      v.val.dataType = DataType.ofRaw v.val.dataTypeRaw ∧ v.val.cellState = .Allocated := by
  obtain ⟨recs, rest, e1, p1, -⟩ := h1
  obtain ⟨recs', rest', e2, p2, -⟩ := h2
  rw [e1] at e2
  cases e2
  match recs, p1, p2 with
  | [_, r], p1, p2 => exact ⟨r, _, List.mem_cons_self, p1.2.1, p2.2.1, rfl, rfl, rfl⟩

/-- C57: the code violates the claim.  The heading says that the rows of values have the path of the key;
they have its name only. -/
theorem common_key_path_violated : ¬ CommonReadBackOk keyPath documentedType := by
  intro h
  obtain ⟨records, hw⟩ := commonNode_written
  obtain ⟨r, v, hv, s1, s2, -, -, hst⟩ := commonNode_rows _ _ _ _ _ (h _ (fun _ => bare_nil) _ _ hw)
    (common_read_back_partial _ (fun _ => bare_nil) _ _ hw)
  obtain ⟨t1, x1, e1, -⟩ := s1
  obtain ⟨t2, x2, e2, -⟩ := s2
  rw [e1, hst] at e2
  have : keyPath commonNode = commonNode.key.name := congrArg (fun l => l.getD 3 []) e2
  exact absurd this (by decide)

/-- The same key with its value of another type. -/
def commonNodeOf (raw : Nat) : Node :=
  .mk { defaultKey with
    path := "\\RT\\a".toList, name := ['a'],
    values := [
      .mk { fileOffset := 4096, size := -32, nameSize := 1, dataSizeRaw := 2 ^ 31 + 1, dataOffset := 7,
            dataTypeRaw := raw, flagsRaw := 1, padding := 0, name := ['v'], slack := [],
            dataType := .REG_UNKNOWN, flags := 1, valueBytes := some [7] } []] } [] []

theorem commonNodeOf_same (raw : Nat) :
    writeCommon (fun _ => []) [commonNodeOf raw] = writeCommon (fun _ => []) [commonNodeOf 0] := by
  have hv : ∀ t, writeEach (commonValues (commonNodeOf raw)) (commonNodeOf raw).key.values t =
      writeEach (commonValues (commonNodeOf 0)) (commonNodeOf 0).key.values t := fun _ => rfl
  have hi : ∀ t, commonItem (fun _ => []) (commonNodeOf raw) t = commonItem (fun _ => []) (commonNodeOf 0) t := by
    intro t
    unfold commonItem
    simp only [hv]
    rfl
  have he : writeEach (commonItem fun _ => []) [commonNodeOf raw] {} =
      writeEach (commonItem fun _ => []) [commonNodeOf 0] {} := by
    rw [writeEach, writeEach, hi]
  unfold writeCommon
  rw [he]

theorem commonNodeOf_written (raw : Nat) : ∃ records, writeCommon (fun _ => []) [commonNodeOf raw] = .ok records :=
  common_finishes_partial _ _ (by
    intro m hm _
    simp only [keyItems, List.flatMap_cons, List.flatMap_nil, List.append_nil, commonNodeOf, Node.versions,
      List.mem_cons, List.not_mem_nil, or_false] at hm
    subst hm
    exact ⟨_, rfl⟩) (show 1 + 1 < 4294967296 by decide)

/-- C57: the code violates the claim.  Values of the types 18 and 19, which are not documented, are exported
alike. -/
theorem common_type_violated : ¬ CommonReadBackOk (fun n => n.key.name) fun _ => true := by
  intro h
  obtain ⟨records, w1⟩ := commonNodeOf_written 18
  have w2 : writeCommon (fun _ => []) [commonNodeOf 19] = .ok records := by
    rw [commonNodeOf_same, ← commonNodeOf_same 18, w1]
  obtain ⟨recs, rest, e1, p1, -⟩ := h _ (fun _ => bare_nil) _ _ w1
  obtain ⟨recs', rest', e2, p2, -⟩ := h _ (fun _ => bare_nil) _ _ w2
  have hl : (commonItems [commonNodeOf 19]).length = (commonItems [commonNodeOf 18]).length := rfl
  rw [hl, e1] at e2
  cases e2
  match recs, p1, p2 with
  | [_, r], p1, p2 =>
    obtain ⟨t1, x1, r1, k1, -⟩ := p1.2.1
    obtain ⟨t2, x2, r2, k2, -⟩ := p2.2.1
    have k1 := k1 rfl (by decide +kernel)
    have k2 := k2 rfl (by decide +kernel)
    rw [r1, k1, k2] at r2
    have : Nat.toDigits 10 18 = Nat.toDigits 10 19 := congrArg (fun l => l.getD 5 []) r2
    exact absurd this (by decide)

end Notatin
