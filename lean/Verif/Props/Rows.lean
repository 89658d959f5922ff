import Verif.Props.Texts

/-!
Property theorems C52, C53, C55, C57, C58, C59, C60 for the exports with the texts they really have:
what the columns say about times, flags and contents.
-/

namespace Notatin
open Spec

theorem valueContent_ok (v : Value) :
    ∃ w, getContent v.val.dataType v.val.valueBytes = .ok (valueContent v, w) ∧ valueContent v ≠ .Error := by
  obtain ⟨c, w, h, hc⟩ := content_total v.val.dataType v.val.valueBytes
  have : valueContent v = c := by
    unfold valueContent
    rw [h]
  rw [this]
  exact ⟨w, h, hc⟩

theorem column_idx : (["Index", "Key Path", "Subkey Count", "Value Name", "Value Data", "Timestamp", "Status",
    "Previous Seq Num", "Modifying Seq Num", "Flags", "Access Flags", "Value Type", "Logs"].map
      fun s => tsvColumns.idxOf s.toList) = [0, 1, 2, 3, 4, 5, 6, 7, 8, 9, 10, 11, 12] := by decide +kernel

/-- The fields of an item say what is stored. -/
theorem fields_tell (u : Prints) (i : Str) (x : ExportItem) : RowTells FitsNanos (i :: x.fields u.tsv) x := by
  have hc := column_idx
  simp only [List.map_cons, List.map_nil, List.cons.injEq, and_true] at hc
  obtain ⟨h0, h1, h2, h3, h4, h5, h6, h7, h8, h9, h10, h11, h12⟩ := hc
  cases x with
  | key n =>
    unfold RowTells column
    simp only [h1, h2, h3, h4, h5, h6, h7, h8, h9, h10, h11]
    refine ⟨rfl, rfl, ⟨_, rfl, fun ht => (times_told_partial _ ht).1⟩, rfl, ⟨_, rfl, keyFlags_named n.key⟩,
      ⟨_, rfl, keyAccess_named n.key⟩, rfl, rfl, rfl, rfl, rfl⟩
  | value n v =>
    unfold RowTells column
    simp only [h1, h3, h4, h5, h6, h7, h8, h9, h10, h11]
    obtain ⟨w, hw, -⟩ := valueContent_ok v
    exact ⟨rfl, rfl, ⟨_, _, _, w, rfl, rfl, hw, content_read_back u.printed _⟩, rfl, rfl, rfl, rfl, rfl, rfl⟩

theorem itemRecords_get (t : TsvTexts) (i : Nat) (xs : List ExportItem) (j : Nat) (x : ExportItem)
    (h : xs[j]? = some x) : (itemRecords t i xs)[j]? = some (Nat.toDigits 10 (i + j) :: x.fields t) := by
  induction xs generalizing i j with
  | nil => simp at h
  | cons y ys ih =>
    cases j with
    | zero =>
      simp only [List.getElem?_cons_zero, Option.some.injEq] at h
      subst h
      rfl
    | succ j =>
      rw [itemRecords, List.getElem?_cons_succ, ih (i + 1) j (by simpa using h)]
      congr 3
      omega

theorem itemRecords_length (t : TsvTexts) (i : Nat) (xs : List ExportItem) :
    (itemRecords t i xs).length = xs.length := by
  induction xs generalizing i with
  | nil => rfl
  | cons y ys ih => rw [itemRecords, List.length_cons, List.length_cons, ih]

/-- C52, C59, C60: a reader of the TSV export finds for every exported item, in order, a row that is
numbered and says under the headings what is stored: names, times, the names of the flags, and for values
the content.

Partial with respect to the times: only those from 1677 to 2262 (`times_violated`). -/
theorem tsv_rows_tell_partial (u : Prints) (recoveredOnly : Bool) (logs : List Str) (ns : List Node) :
    ∃ rows rest, readRecords '\t' 12 ((exported recoveredOnly ns).length + 1)
        (fileText (writeTsv (tsvKeyCols u.tsv) (tsvValueCols u.tsv) recoveredOnly logs ns)) =
          some (tsvColumns :: rows, rest) ∧
      rows.length = (exported recoveredOnly ns).length ∧
      ∀ i x, (exported recoveredOnly ns)[i]? = some x → ∃ row, rows[i]? = some row ∧
        column row "Index" = some (Nat.toDigits 10 (i + 1)) ∧ RowTells FitsNanos row x := by
  refine ⟨_, _, tsv_read_back u.tsv (tsv_plain u) recoveredOnly logs ns, itemRecords_length _ _ _, ?_⟩
  intro i x hx
  refine ⟨_, itemRecords_get u.tsv 1 _ i x hx, ?_, fields_tell u _ x⟩
  have hc := column_idx
  simp only [List.map_cons, List.map_nil, List.cons.injEq, and_true] at hc
  unfold column
  rw [hc.1, Nat.add_comm 1]
  rfl

/-- The same listing for the example of C52, with times and flags. -/
example : ∃ rows rest, readRecords '\t' 12 2
    (fileText (writeTsv (tsvKeyCols (Prints.tsv ⟨fun _ => true, fun _ _ => [], fun _ => []⟩))
      (tsvValueCols (Prints.tsv ⟨fun _ => true, fun _ _ => [], fun _ => []⟩)) false [] [tabNode])) =
        some (tsvColumns :: rows, rest) ∧ rows.length = 1 := by
  obtain ⟨rows, rest, h1, h2, -⟩ := tsv_rows_tell_partial ⟨fun _ => true, fun _ _ => [], fun _ => []⟩ false [] [tabNode]
  exact ⟨rows, rest, h1, h2⟩

/-- C53, C59, C60: in a finished spreadsheet the row of every exported item shows, without the characters
XML does not allow, cells that say what is stored.

Partial with respect to the times, as `tsv_rows_tell_partial`. -/
theorem xlsx_rows_tell_partial (u : Prints) (hp : ∀ c, u.printed c = true → XmlChar c) (recoveredOnly : Bool)
    (logs : List (Str × Str)) (ns : List Node) {items l o : Sheet}
    (h : writeXlsx u.xlsx recoveredOnly logs ns = .ok (items, l, o)) (i : Nat) (x : ExportItem)
    (hx : (exported recoveredOnly ns)[i]? = some x) :
    ∃ row, RowTells FitsNanos row x ∧ column row "Index" = some (Nat.toDigits 10 (i + 1)) ∧
      ∀ c, Shows items o (i + 1) c (cleaned (row[c]?.getD [])) := by
  refine ⟨Nat.toDigits 10 (i + 1) :: x.fields u.tsv, fields_tell u _ x, ?_, fun c => ?_⟩
  · have hc := column_idx
    simp only [List.map_cons, List.map_nil, List.cons.injEq, and_true] at hc
    unfold column
    rw [hc.1]
    rfl
  have h2 := (xlsx_rows u.xlsx (xlsx_plain u hp) recoveredOnly logs ns h).2.1 i x hx c
  have e : (itemRow u.xlsx (i + 1) x)[c]?.getD [] =
      cleaned ((Nat.toDigits 10 (i + 1) :: x.fields u.tsv)[c]?.getD []) := by
    unfold itemRow
    have ht : u.xlsx.tsv = u.tsv := rfl
    rw [ht]
    cases c with
    | zero =>
      simp only [List.getElem?_cons_zero, Option.getD_some]
      exact (cleaned_legal_eq (legal_decimal (i + 1))).symm
    | succ c =>
      simp only [List.getElem?_cons_succ, List.getElem?_map]
      cases (x.fields u.tsv)[c]? <;> rfl
  rw [← e]
  exact h2

/-- C57, C58: the common export reads as its heading documents, and the time of a key is told.

Partial as `common_read_back_partial` and `times_told_partial`. -/
theorem common_times_told_partial (ns : List Node) (records : List Str) (h : writeCommon keyTime ns = .ok records) :
    CommonReadsBack keyTime (fun n => n.key.name) documentedType ns (fileText records) ∧
      ∀ k : KeyNode, FitsNanos k.lastWritten → Tells (keyTime k) k.lastWritten :=
  ⟨common_read_back_partial keyTime (fun k => time_bare sep_comma k) ns records h,
    fun _ hk => (times_told_partial _ hk).1⟩

/-! ### JSONL -/

theorem key_detail_interpreted (t : JsonTexts) (full : Bool) (k : KeyNode) (f : DetailField) (x : String)
    (hf : f ∈ keyFields t k) (v : Json) (hv : (x, v) ∈ f.extra)
    (hn : (["value", "offset", "len"] ++ f.extra.map Prod.fst).Nodup) :
    (detailJson full (keyDetail t full k)).at [variant full, f.name, x] = some v := by
  obtain ⟨o, ho⟩ := detail_mem full (keyFields t k) f hf 0
  have ho' : (f.name, Json.obj ([("value", f.value)] ++
      (if full then [("offset", .nat o), ("len", .nat f.len)] else []) ++ f.extra)) ∈ keyDetail t full k :=
    List.mem_append_left _ ho
  have h1 := field_of_mem _ (by
    unfold keyDetail
    rw [List.map_append, detail_names, detail_names, ← List.map_append]
    exact key_detail_names t k _ rfl) _ _ ho'
  have h2 : (detailJson full (keyDetail t full k)).field (variant full) = some (.obj (keyDetail t full k)) := by
    unfold detailJson variant Json.field
    simp
  rw [at_field _ _ _ _ h2, at_field _ _ _ _ h1, at_one]
  apply field_of_mem
  · rw [List.map_append, List.map_append]
    cases full with
    | true => exact hn
    | false =>
      refine hn.sublist (List.Sublist.append ?_ (List.Sublist.refl _))
      exact .cons_cons _ (.cons _ (.cons _ .slnil))
  · exact List.mem_append_right _ hv

theorem flagExtra_names (t : JsonTexts) (mask bits : Nat) (text : Str) :
    (["value", "offset", "len"] ++ (flagExtra t mask bits text).map Prod.fst).Nodup := by
  unfold flagExtra
  split <;> (simp only [List.map_cons, List.map_nil]; decide +kernel)

/-- C55, C58, C59: in the JSONL export the interpretations beside the stored time and flags are right, and
stored bits without a name are noted beside them.

Partial with respect to the times, as `times_told_partial`. -/
theorem jsonl_texts_told_partial (u : Prints) (full : Bool) (n : Node) (j : Json)
    (hj : keyJson u.json full n = .ok j) :
    (∃ s, j.at ["detail", variant full, "last_key_written_date_and_time", "interpreted"] = some (.str s) ∧
      (FitsNanos n.key.lastWritten → Tells s n.key.lastWritten)) ∧
    (∃ s, j.at ["detail", variant full, "key_node_flag_bits", "interpreted"] = some (.str s) ∧
      NamesFlags "KeyNodeFlags" keyFlagNames n.key.flagBits s) ∧
    (∃ s, j.at ["detail", variant full, "access_flag_bits", "interpreted"] = some (.str s) ∧
      NamesFlags "AccessFlags" accessFlagNames n.key.accessBits s) ∧
    ((∃ i, n.key.flagBits.testBit i = true ∧ i ∉ keyFlagNames.map Prod.fst) →
      (j.at ["detail", variant full, "key_node_flag_bits", "logs"]).isSome) ∧
    ((∃ i, n.key.accessBits.testBit i = true ∧ i ∉ accessFlagNames.map Prod.fst) →
      (j.at ["detail", variant full, "access_flag_bits", "logs"]).isSome) := by
  unfold keyJson at hj
  cases hv : valuesJson u.json full n.key.values with
  | err => rw [hv] at hj; cases hj
  | panic => rw [hv] at hj; cases hj
  | ok vs =>
  rw [hv] at hj
  cases hj
  have hlog : ∀ (mask bits : Nat), (∃ i, bits.testBit i = true ∧ mask.testBit i = false) →
      (fromBitsChecked mask bits {}).2.hasLogs = true := by
    rintro mask bits ⟨i, h1, h2⟩
    have : bits ≠ bits &&& mask := by
      intro h
      have := congrArg (fun n => n.testBit i) h
      simp only [Nat.testBit_and, h1, h2] at this
      cases this
    unfold fromBitsChecked
    simp only
    rw [if_pos this]
    rfl
  refine ⟨⟨keyTime n.key, ?_, fun h => (times_told_partial _ h).1⟩,
    ⟨keyFlagsText n.key, ?_, keyFlags_named n.key⟩, ⟨keyAccessText n.key, ?_, keyAccess_named n.key⟩, ?_, ?_⟩
  · rw [at_field _ _ _ _ rfl]
    exact key_detail_interpreted u.json full n.key _ "interpreted" (List.mem_of_getElem? (i := 3) rfl) _
      List.mem_cons_self (show ["value", "offset", "len", "interpreted"].Nodup by decide +kernel)
  · rw [at_field _ _ _ _ rfl]
    exact key_detail_interpreted u.json full n.key _ "interpreted" (List.mem_of_getElem? (i := 2) rfl) _
      List.mem_cons_self (flagExtra_names _ _ _ _)
  · rw [at_field _ _ _ _ rfl]
    exact key_detail_interpreted u.json full n.key _ "interpreted" (List.mem_of_getElem? (i := 4) rfl) _
      List.mem_cons_self (flagExtra_names _ _ _ _)
  · rintro ⟨i, h1, h2⟩
    have hm : keyNodeFlagsMask.testBit i = false := by
      have := keyFlags_mask i
      cases hb : keyNodeFlagsMask.testBit i with
      | false => rfl
      | true => exact absurd (this.1 hb) h2
    have hl := hlog keyNodeFlagsMask n.key.flagBits ⟨i, h1, hm⟩
    rw [at_field _ _ _ _ rfl, key_detail_interpreted u.json full n.key _ "logs" (List.mem_of_getElem? (i := 2) rfl)
      (.str (u.json.flagLog n.key.flagBits)) (by unfold flagExtra; rw [if_pos hl]; exact List.mem_cons_of_mem _ List.mem_cons_self)
      (flagExtra_names _ _ _ _)]
    rfl
  · rintro ⟨i, h1, h2⟩
    have hm : accessFlagsMask.testBit i = false := by
      have := accessFlags_mask i
      cases hb : accessFlagsMask.testBit i with
      | false => rfl
      | true => exact absurd (this.1 hb) h2
    have hl := hlog accessFlagsMask n.key.accessBits ⟨i, h1, hm⟩
    rw [at_field _ _ _ _ rfl, key_detail_interpreted u.json full n.key _ "logs" (List.mem_of_getElem? (i := 4) rfl)
      (.str (u.json.flagLog n.key.accessBits)) (by unfold flagExtra; rw [if_pos hl]; exact List.mem_cons_of_mem _ List.mem_cons_self)
      (flagExtra_names _ _ _ _)]
    rfl

/-- C59 is violated: bits of the access flags without a name leave no trace in the TSV export, whatever the
texts of the logs. -/
theorem access_bits_violated (u : Prints) :
    ∃ k k' : KeyNode, k.accessBits ≠ k'.accessBits ∧ k = { k' with accessBits := k.accessBits } ∧
      tsvKeyCols u.tsv k = tsvKeyCols u.tsv k' := by
  refine ⟨{ defaultKey with accessBits := 4 }, { defaultKey with accessBits := 0 }, by decide, rfl, ?_⟩
  have h : keyAccessText { defaultKey with accessBits := 4 } = keyAccessText { defaultKey with accessBits := 0 } := by
    decide +kernel
  have ht : ∀ k, u.tsv.access k = keyAccessText k := fun _ => rfl
  unfold tsvKeyCols
  rw [ht, ht, h]
  rfl

/-! ### Spreadsheets with the texts they really have -/

/-- C54: every text in a finished spreadsheet is one XML 1.0 allows, when the texts of the parser's logs are. -/
theorem xlsx_legal_texts (u : Prints) (hp : ∀ c, u.printed c = true → XmlChar c) (recoveredOnly : Bool)
    (logs : List (Str × Str)) (hl : ∀ x ∈ logs, (∀ c ∈ x.1, XmlChar c) ∧ ∀ c ∈ x.2, XmlChar c) (ns : List Node)
    {items l o : Sheet} (h : writeXlsx u.xlsx recoveredOnly logs ns = .ok (items, l, o)) :
    ∀ s ∈ [items, l, o], ∀ x ∈ s.cells, ∀ text, x.2.2 = .text text →
      text.length ≤ 32767 ∧ ∀ c ∈ text, XmlChar c :=
  xlsx_legal u.xlsx (xlsx_plain u hp) recoveredOnly logs hl ns h

/-- C53, partial: the export finishes when it is not too large.  Missing: larger exports, which fail
(`xlsx_row_limit_violated`). -/
theorem xlsx_finishes_texts_partial (u : Prints) (hp : ∀ c, u.printed c = true → XmlChar c) (recoveredOnly : Bool)
    (logs : List (Str × Str)) (ns : List Node)
    (hitems : (exported recoveredOnly ns).length < 1048576)
    (hlogs : logs.length ≤ 1048576)
    (hlong : ((exported recoveredOnly ns).map fun x => longCount (longable u.xlsx x)).sum ≤ 65530)
    (hlonglogs : longCount (logs.map Prod.snd) ≤ 65530)
    (hfit : ∀ x ∈ exported recoveredOnly ns, ∀ s ∈ longable u.xlsx x, s.length ≤ 536821761)
    (hlog : ∀ x ∈ logs, (x.1.length ≤ 32767 ∧ '\x00' ∉ x.1) ∧ (x.2.length ≤ 536821761 ∧ '\x00' ∉ x.2)) :
    ∃ sheets, writeXlsx u.xlsx recoveredOnly logs ns = .ok sheets :=
  xlsx_finishes_partial u.xlsx (xlsx_plain u hp) (xlsx_short u) recoveredOnly logs ns hitems hlogs hlong hlonglogs
    hfit hlog

/-- Texts for examples: the printable ASCII characters are printed as they are. -/
def someTexts : Prints := ⟨fun c => 32 ≤ c.toNat && c.toNat ≤ 126, fun _ _ => [], fun _ => []⟩

theorem someTexts_legal (c : Char) (h : someTexts.printed c = true) : XmlChar c := by
  simp only [someTexts, Bool.and_eq_true, decide_eq_true_eq] at h
  unfold XmlChar
  omega

/-- The spreadsheet of a key is finished, so the theorems above apply to it. -/
theorem someTexts_finishes : ∃ sheets, writeXlsx someTexts.xlsx false [] [tabNode] = .ok sheets := by
  have e : exported false [tabNode] = [.key tabNode] := rfl
  refine xlsx_finishes_texts_partial someTexts someTexts_legal false [] [tabNode]
    (by decide) (by decide) ?_ (by decide) ?_ (fun x hx => absurd hx List.not_mem_nil)
  · rw [e]
    have h2 : longCount (longable someTexts.xlsx (.key tabNode)) ≤ 2 := List.countP_le_length
    simp only [List.map_cons, List.map_nil, List.sum_cons, List.sum_nil]
    omega
  · rw [e]
    intro x hx s hs
    simp only [List.mem_cons, List.not_mem_nil, or_false] at hx
    subst hx
    simp only [longable, List.map_cons, List.map_nil, List.mem_cons, List.not_mem_nil, or_false] at hs
    rcases hs with rfl | rfl
    · decide
    · exact Nat.zero_le _

example : ∃ items l o, writeXlsx someTexts.xlsx false [] [tabNode] = .ok (items, l, o) ∧
    ∃ row, RowTells FitsNanos row (.key tabNode) ∧ column row "Index" = some (Nat.toDigits 10 (0 + 1)) ∧
      ∀ c, Shows items o (0 + 1) c (cleaned (row[c]?.getD [])) := by
  obtain ⟨⟨items, l, o⟩, h⟩ := someTexts_finishes
  exact ⟨items, l, o, h, xlsx_rows_tell_partial someTexts someTexts_legal false [] [tabNode] h 0 _ rfl⟩

/-! ### Data that is not what its type says -/

/-- C61: in the JSONL export a value of a text type has one warning for every unpaired surrogate in its
data. -/
theorem jsonl_ill_formed_marked (t : JsonTexts) (full : Bool) (v : Value) (j : Json)
    (hj : valueJson t full v = .ok j) (ht : kindOf v.val.dataType = .text) (bs : Bytes)
    (hb : v.val.valueBytes = some bs) :
    ∃ ps tail, PiecesWF ps ∧ TextEnd tail ∧ bs = unitBytes (ps.flatMap Piece.units) ++ tail ∧
      (0 < loneCount ps → IsWarnings (j.at ["value_parse_warnings", "logs"])
        (List.replicate (loneCount ps) .WarningConversion)) := by
  obtain ⟨ps, tail, logs, h1, h2, h3, h4, h5⟩ := content_text_total v.val.dataType ht bs
  refine ⟨ps, tail, h1, h2, h3, fun hpos => ?_⟩
  obtain ⟨j', hj', hs⟩ := valueJson_ok t full v
  rw [hj] at hj'
  cases hj'
  cases v with
  | mk v vs =>
  rw [ShowsValue] at hs
  obtain ⟨-, -, -, -, -, -, -, -, -, -, -, ⟨c, w, hc, -, hw⟩, -⟩ := hs
  have hc' : getContent v.dataType (some bs) = .ok (c, w) := by
    have : v.valueBytes = some bs := hb
    rw [← this]
    exact hc
  have h4' : getContent v.dataType (some bs) = .ok (.String (ps.map Piece.shown), logs) := h4
  rw [h4'] at hc'
  cases hc'
  cases logs with
  | none =>
    simp only [Option.map_none, Option.getD_none] at h5
    have := congrArg List.length h5
    simp at this
    omega
  | some l =>
    simp only [Option.map_some, Option.getD_some] at h5
    rw [← h5]
    exact hw

/-- A value of type `REG_SZ` with these bytes. -/
def textValue (bs : Bytes) : Value :=
  .mk ⟨4096, -24, 1, bs.length, 32, 1, 1, 0, ['v'], [], some bs, .REG_SZ, 1, [4128], .Allocated, {}, none, none,
    none⟩ []

/-- The unpaired surrogate D800, and the character that is put in its place. -/
theorem textValue_content :
    getContent .REG_SZ (some [0x00, 0xD8, 0x00, 0x00]) = .ok (.String ['\uFFFD'], some (({} : Logs).add .WarningConversion)) ∧
    getContent .REG_SZ (some [0xFD, 0xFF, 0x00, 0x00]) = .ok (.String ['\uFFFD'], none) := by
  decide +kernel

/-- C61 is violated by the TSV export: a text with an unpaired surrogate has the same row as the text with
the character U+FFFD in its place, so nothing marks it. -/
theorem tsv_ill_formed_violated (u : Prints) (n : Node) :
    ∃ v v' : Value, v.val.valueBytes ≠ v'.val.valueBytes ∧
      (∃ c w, getContent v.val.dataType v.val.valueBytes = .ok (c, some w) ∧ w.codes = [.WarningConversion]) ∧
      tsvValueCols u.tsv n v = tsvValueCols u.tsv n v' := by
  refine ⟨textValue [0x00, 0xD8, 0x00, 0x00], textValue [0xFD, 0xFF, 0x00, 0x00], by decide,
    ⟨_, _, textValue_content.1, rfl⟩, ?_⟩
  have h : valueContent (textValue [0x00, 0xD8, 0x00, 0x00]) = valueContent (textValue [0xFD, 0xFF, 0x00, 0x00]) := by
    have h1 : getContent (textValue [0x00, 0xD8, 0x00, 0x00]).val.dataType (textValue [0x00, 0xD8, 0x00, 0x00]).val.valueBytes
      = _ := textValue_content.1
    have h2 : getContent (textValue [0xFD, 0xFF, 0x00, 0x00]).val.dataType (textValue [0xFD, 0xFF, 0x00, 0x00]).val.valueBytes
      = _ := textValue_content.2
    unfold valueContent
    rw [h1, h2]
  have hd : u.tsv.data (textValue [0x00, 0xD8, 0x00, 0x00]) = u.tsv.data (textValue [0xFD, 0xFF, 0x00, 0x00]) := by
    show (valueContent _).display _ = (valueContent _).display _
    rw [h]
  have ht : u.tsv.type (textValue [0x00, 0xD8, 0x00, 0x00]) = u.tsv.type (textValue [0xFD, 0xFF, 0x00, 0x00]) := by
    show (valueContent _).typeText = (valueContent _).typeText
    rw [h]
  unfold tsvValueCols
  rw [hd, ht]
  rfl

/-- The theorem about JSONL applies to this value. -/
example : kindOf (textValue [0x00, 0xD8, 0x00, 0x00]).val.dataType = .text ∧
    ∃ j, valueJson jsonTexts true (textValue [0x00, 0xD8, 0x00, 0x00]) = .ok j :=
  ⟨rfl, let ⟨j, h, _⟩ := valueJson_ok jsonTexts true (textValue [0x00, 0xD8, 0x00, 0x00]); ⟨j, h⟩⟩

/-- Texts with a quote, a line feed, a comma and a character that is not printed. -/
example : debugList someTexts.printed ["a\"b".toList, [], "\n, é".toList] = "[\"a\\\"b\", \"\", \"\\n, \\u{e9}\"]".toList := by
  decide +kernel

end Notatin
