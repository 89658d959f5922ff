import Verif.Props.Xlsx
/-
C53, C54: what the whole spreadsheet shows, which characters it has, and when it is written.
-/
namespace Notatin
open Spec

/-! ### Characters -/

/-- A text of characters XML 1.0 allows. -/
def Legal (s : Str) : Prop := ∀ c ∈ s, XmlChar c

theorem char_range (c : Char) : c.toNat < 0xD800 ∨ (0xDFFF < c.toNat ∧ c.toNat < 0x110000) := c.valid

theorem char_toNat {c d : Char} : c = d ↔ c.toNat = d.toNat :=
  ⟨fun h => h ▸ rfl, fun h => by
    have := congrArg Char.ofNat h
    rwa [Char.ofNat_toNat, Char.ofNat_toNat] at this⟩

theorem isLegalXml_iff (c : Char) : isLegalXml c = true ↔ XmlChar c := by
  have hr := char_range c
  have h1 : c = '\t' ↔ c.toNat = 9 := char_toNat
  have h2 : c = '\n' ↔ c.toNat = 10 := char_toNat
  have h3 : c = '\r' ↔ c.toNat = 13 := char_toNat
  unfold isLegalXml XmlChar
  rw [h1, h2, h3]
  generalize c.toNat = n at hr
  simp only [Bool.or_eq_true, beq_iff_eq, Bool.and_eq_true, decide_eq_true_eq]
  omega

theorem position_none {p : Char → Bool} {s : Str} (h : positionOf p s = none) : ∀ c ∈ s, p c = false := by
  induction s with
  | nil => intro c hc; exact absurd hc List.not_mem_nil
  | cons d s ih =>
    rw [positionOf] at h
    cases hd : p d with
    | true => rw [hd] at h; cases h
    | false =>
      rw [hd] at h
      simp only [Bool.false_eq_true, if_false, Option.map_eq_none_iff] at h
      intro c hc
      rcases List.mem_cons.1 hc with rfl | hc
      · exact hd
      · exact ih h c hc

theorem position_some {p : Char → Bool} {s : Str} {i : Nat} (h : positionOf p s = some i) :
    ∀ c ∈ s.take i, p c = false := by
  induction s generalizing i with
  | nil => cases h
  | cons d s ih =>
    rw [positionOf] at h
    cases hd : p d with
    | true =>
      rw [hd] at h
      cases h
      intro c hc
      exact absurd hc List.not_mem_nil
    | false =>
      rw [hd] at h
      simp only [Bool.false_eq_true, if_false, Option.map_eq_some_iff] at h
      obtain ⟨j, hj, rfl⟩ := h
      intro c hc
      rw [List.take_succ_cons] at hc
      rcases List.mem_cons.1 hc with rfl | hc
      · exact hd
      · exact ih hj c hc

theorem cleaned_legal_eq {s : Str} (h : Legal s) : cleaned s = s := by
  unfold cleaned
  conv => rhs; rw [← List.map_id s]
  apply List.map_congr_left
  intro c hc
  rw [if_pos (h c hc)]
  rfl

/-- C54: cleaning replaces exactly the characters XML 1.0 does not allow. -/
theorem sanitize_cleaned (s : Str) : sanitizeXml s = cleaned s := by
  unfold sanitizeXml
  have good : ∀ t : Str, (∀ c ∈ t, (!isLegalXml c) = false) → Legal t := by
    intro t ht c hc
    rw [← isLegalXml_iff]
    simpa using ht c hc
  cases h : positionOf (fun c => !isLegalXml c) s with
  | none => exact (cleaned_legal_eq (good s (position_none h))).symm
  | some i =>
    simp only
    have e : (s.drop i).map (fun c => if isLegalXml c then c else '�') = cleaned (s.drop i) := by
      unfold cleaned
      apply List.map_congr_left
      intro c _
      by_cases hc : XmlChar c
      · rw [if_pos hc, if_pos ((isLegalXml_iff c).2 hc)]
      · rw [if_neg hc, if_neg fun h => hc ((isLegalXml_iff c).1 h)]
    rw [e]
    conv => lhs; rw [← cleaned_legal_eq (good _ (position_some h))]
    unfold cleaned
    rw [← List.map_append, List.take_append_drop]

theorem cleaned_legal (s : Str) : Legal (cleaned s) := by
  intro c hc
  unfold cleaned at hc
  obtain ⟨d, _, rfl⟩ := List.mem_map.1 hc
  by_cases hd : XmlChar d
  · rw [if_pos hd]; exact hd
  · rw [if_neg hd]; decide

theorem legal_append {a b : Str} (ha : Legal a) (hb : Legal b) : Legal (a ++ b) := by
  intro c hc
  rcases List.mem_append.1 hc with h | h
  · exact ha c h
  · exact hb c h

theorem legal_nil : Legal [] := fun _ h => absurd h List.not_mem_nil

theorem legal_decimal (n : Nat) : Legal (decimal n) := by
  intro c hc
  have := decimal_digit hc
  unfold Char.isDigit at this
  simp only [ge_iff_le, Bool.and_eq_true, decide_eq_true_eq] at this
  have h1 : 48 ≤ c.toNat := this.1
  have h2 : c.toNat ≤ 57 := this.2
  refine ⟨fun h => ?_, ?_, ?_⟩ <;> omega

theorem legal_int (i : Int) : Legal (intText i) := by
  cases i with
  | ofNat n => exact legal_decimal n
  | negSucc n =>
    intro c hc
    rcases List.mem_cons.1 hc with rfl | hc
    · decide
    · exact legal_decimal _ c hc

theorem hexDigit_legal : ∀ n < 16, XmlChar (hexDigit n) := by decide

theorem legal_hex (b : Bytes) : Legal (toHexString b) := by
  intro c hc
  unfold toHexString at hc
  have hs : ∀ t : Str, ∀ c ∈ trimEnd t, c ∈ t := by
    intro t c hc
    unfold trimEnd at hc
    exact List.mem_reverse.1 ((List.dropWhile_sublist _).subset (List.mem_reverse.1 hc))
  obtain ⟨x, _, hx⟩ := List.mem_flatMap.1 (hs _ c hc)
  have := x.toNat_lt
  simp only [List.mem_cons, List.not_mem_nil, or_false] at hx
  rcases hx with rfl | rfl | rfl
  · exact hexDigit_legal _ (by omega)
  · exact hexDigit_legal _ (by omega)
  · decide

/-- The parameters give texts with characters XML 1.0 allows: formatted times, names of flags and
types, and `{:?}` of texts, which escapes everything that cannot be printed. -/
structure XlsxTexts.Plain (t : XlsxTexts) : Prop where
  time : ∀ k, Legal (t.time k)
  flags : ∀ k, Legal (t.flags k)
  access : ∀ k, Legal (t.access k)
  type : ∀ v, Legal (t.type v)
  dbg : ∀ m, Legal (t.dbg m)

theorem sanitizeCell_cleaned (t : XlsxTexts) (ht : t.Plain) (v : CellValue) :
    sanitizeCell t.dbg v = cleaned (v.display t.dbg) := by
  cases v with
  | String s => exact sanitize_cleaned s
  | Binary b => exact (cleaned_legal_eq (legal_hex b)).symm
  | MultiString m => exact (cleaned_legal_eq (ht.dbg m)).symm
  | U32 n => exact (cleaned_legal_eq (legal_decimal n)).symm
  | I32 n => exact (cleaned_legal_eq (legal_int n)).symm
  | U64 n => exact (cleaned_legal_eq (legal_decimal n)).symm
  | I64 n => exact (cleaned_legal_eq (legal_int n)).symm
  | None => rfl
  | Error => rfl

theorem legal_status (s : CellState) : Legal (statusText s) := by
  unfold Legal
  cases s <;> decide

/-! ### The rows -/

theorem numberText_opt (n : Option Nat) : cleaned (numberText n) = (n.map decimal).getD [] := by
  cases n with
  | none => rfl
  | some n => exact cleaned_legal_eq (legal_decimal n)

theorem prettyName_eq (v : Value) :
    (if v.val.name = [] then "(default)".toList else v.val.name) = v.val.prettyName := by
  unfold KeyValue.prettyName getPrettyName
  cases v.val.name <;> rfl

theorem item_shown (t : XlsxTexts) (ht : t.Plain) (i : Nat) (x : ExportItem) (c : Nat) :
    shownAt (itemFields t x i) c = (itemRow t i x)[c]?.getD [] := by
  have hst : ∀ s : CellState, cleaned (stateName s).toList = statusText s := fun s => by
    rw [← statusText_eq]
    exact cleaned_legal_eq (legal_status s)
  have hd : ∀ n, cleaned (Nat.toDigits 10 n) = decimal n := fun n => cleaned_legal_eq (legal_decimal n)
  have he : cleaned [] = [] := rfl
  cases x with
  | key n =>
    simp only [itemFields, itemRow, ExportItem.fields, xlsxKeyFields, XlsxTexts.tsv, List.map_cons, List.map_nil,
      numberText_opt, hst, hd, he, sanitize_cleaned, cleaned_legal_eq (ht.time _), cleaned_legal_eq (ht.flags _),
      cleaned_legal_eq (ht.access _)]
    cases n.key.seq <;> cases n.key.updatedBySeq <;>
      (match c with
       | 0 | 1 | 2 | 3 | 4 | 5 | 6 | 7 | 8 | 9 | 10 | 11 | 12 => rfl
       | c + 13 => rfl)
  | value n v =>
    simp only [itemFields, itemRow, ExportItem.fields, xlsxValueFields, XlsxTexts.tsv, List.map_cons, List.map_nil,
      numberText_opt, hst, he, prettyName_eq, sanitize_cleaned, sanitizeCell_cleaned t ht,
      cleaned_legal_eq (ht.type _)]
    cases v.val.seq <;> cases v.val.updatedBySeq <;>
      (match c with
       | 0 | 1 | 2 | 3 | 4 | 5 | 6 | 7 | 8 | 9 | 10 | 11 | 12 => rfl
       | c + 13 => rfl)

theorem header_shown (c : Nat) : shownAt xlsxHeader c = tsvColumns[c]?.getD [] := by
  match c with
  | 0 | 1 | 2 | 3 | 4 | 5 | 6 | 7 | 8 | 9 | 10 | 11 | 12 => rfl
  | c + 13 => rfl

theorem rowsFrom_get (t : XlsxTexts) (i : Nat) (xs : List ExportItem) (j : Nat) :
    (rowsFrom t i xs)[j]? = xs[j]?.map fun x => shownAt (itemFields t x (i + j)) := by
  induction xs generalizing i j with
  | nil => rfl
  | cons x xs ih =>
    cases j with
    | zero => rfl
    | succ j =>
      rw [rowsFrom, List.getElem?_cons_succ, List.getElem?_cons_succ, ih, Nat.add_right_comm, Nat.add_assoc]

/-- The overflow sheet goes on. -/
structure Longer (o o' : Sheet) : Prop where
  row : o.row ≤ o'.row
  keep : ∀ n < o.row, rowCells o' n = rowCells o n

theorem Spec.Shows.longer {s o o' : Sheet} (h : Longer o o') {r c : Nat} {x : Str} (hs : Shows s o r c x) :
    Shows s o' r c x := by
  cases hs with
  | empty h1 h2 h3 => exact .empty h1 h2 h3
  | cell x h1 h2 h3 => exact .cell x h1 h2 h3
  | long n cs h1 h2 h3 h4 h5 =>
    exact .long n cs h1 h2 (Nat.lt_of_lt_of_le h3 h.row) ((h.keep n h3).trans h4) h5

/-- The writes of a log. -/
def logFields (l : Str × Str) : List (Nat × XField) := [(0, .text l.1), (1, .checked l.2)]

theorem xlsxLogs_filled {logs : List (Str × Str)} {s s' : Sheet × Sheet} {rows : List (Nat → Str)}
    (hf : Filled s rows) (hr : s.1.row = rows.length) (h : xlsxLogs logs s = .ok s') :
    Filled s' (rows ++ logs.map fun l => shownAt (logFields l)) ∧ Longer s.2 s'.2 := by
  induction logs generalizing s rows with
  | nil =>
    cases h
    rw [List.map_nil, List.append_nil]
    exact ⟨hf, Nat.le_refl _, fun _ _ => rfl⟩
  | cons l logs ih =>
    obtain ⟨code, text⟩ := l
    rw [xlsxLogs] at h
    cases h1 : writeFields s.1 s.2 [(0, .text code), (1, .checked text)] with
    | err => rw [h1] at h; cases h
    | panic => rw [h1] at h; cases h
    | ok s1 =>
    rw [h1] at h
    simp only [Res.bind_ok] at h
    have a := (writeFields_step (p' := s1.1) (o' := s1.2) h1 (by simp)).1
    have b := fields_filled (by simp) hf hr h1
    have hf' : Filled ({ s1.1 with row := s1.1.row + 1 }, s1.2)
        (rows ++ [shownAt [(0, XField.text code), (1, XField.checked text)]]) :=
      ⟨fun i f hi c => by
        cases b.1.shows i f hi c with
        | empty h1 h2 h3 => exact .empty h1 h2 h3
        | cell x h1 h2 h3 => exact .cell x h1 h2 h3
        | long n cs h1 h2 h3 h4 h5 => exact .long n cs h1 h2 h3 h4 h5, b.1.free, b.1.ofree⟩
    have c := ih hf' (by rw [List.length_append, List.length_singleton]; exact congrArg (· + 1) b.2) h
    rw [List.append_assoc] at c
    refine ⟨c.1, Nat.le_trans a.orow c.2.row, fun n hn => ?_⟩
    exact (c.2.keep n (Nat.lt_of_lt_of_le hn a.orow)).trans (a.okeep n hn)

/-- The parts of a finished export. -/
theorem writeXlsx_parts {t : XlsxTexts} {ro : Bool} {logs : List (Str × Str)} {ns : List Node}
    {items l o : Sheet} (h : writeXlsx t ro logs ns = .ok (items, l, o)) :
    ∃ s o1, writeFields {} {} xlsxHeader = .ok s ∧ xlsxEach (xlsxKey t ro) ns s = .ok (items, o1) ∧
      xlsxLogs logs ({}, o1) = .ok (l, o) := by
  unfold writeXlsx at h
  cases h1 : writeFields {} {} xlsxHeader with
  | err => rw [h1] at h; cases h
  | panic => rw [h1] at h; cases h
  | ok s =>
  rw [h1] at h
  simp only [Res.bind_ok] at h
  cases h2 : xlsxEach (xlsxKey t ro) ns s with
  | err => rw [h2] at h; cases h
  | panic => rw [h2] at h; cases h
  | ok s2 =>
  obtain ⟨items', o1⟩ := s2
  rw [h2] at h
  simp only [Res.bind_ok] at h
  cases h3 : xlsxLogs logs ({}, o1) with
  | err => rw [h3] at h; cases h
  | panic => rw [h3] at h; cases h
  | ok s3 =>
  obtain ⟨l', o'⟩ := s3
  rw [h3] at h
  simp only [Res.bind_ok, Res.ok.injEq, Prod.mk.injEq] at h
  obtain ⟨rfl, rfl, rfl⟩ := h
  exact ⟨s, o1, rfl, h2, h3⟩

theorem exported_eq (ro : Bool) (ns : List Node) :
    (ns.flatMap fun n => wanted ro (allItems [n])) = exported ro ns := by
  rw [← wanted_flatMap]
  have e : (ns.flatMap fun n => allItems [n]) = allItems ns := by
    simp only [allItems, List.flatMap_cons, List.flatMap_nil, List.append_nil]
  rw [e]
  rfl

theorem items_filled {t : XlsxTexts} {ro : Bool} {ns : List Node} {s s' : Sheet × Sheet}
    (h1 : writeFields {} {} xlsxHeader = .ok s) (h2 : xlsxEach (xlsxKey t ro) ns s = .ok s') :
    Filled s' ([shownAt xlsxHeader] ++ rowsFrom t 1 (exported ro ns)) ∧ s'.1.row = (exported ro ns).length := by
  have f0 : Filled (({}, {}) : Sheet × Sheet) [] :=
    ⟨fun i f hi => by simp at hi, fun _ _ _ => ⟨rfl, rfl⟩, fun _ _ => rfl⟩
  have f1 := fields_filled (by decide) f0 rfl h1
  have f2 := xlsxEach_adds ns (fun n _ => xlsxKey_adds t ro n) s s' _ f1.1 (by rw [f1.2]; rfl) h2
  simp only [exported_eq, List.nil_append, List.length_singleton] at f2
  exact ⟨f2.1, by have := f2.2; omega⟩

/-- C53: in a finished export the first row of the sheet with the items has the names of the columns,
the row after it for every exported item, in order, its number and its fields, the same as in the TSV
export, and then nothing follows; the sheet with the logs has a row for every log.  Texts of more than
32767 bytes are in the overflow sheet, completely, in the row that the cell names and links. -/
theorem xlsx_rows (t : XlsxTexts) (ht : t.Plain) (recoveredOnly : Bool) (logs : List (Str × Str))
    (ns : List Node) {items l o : Sheet} (h : writeXlsx t recoveredOnly logs ns = .ok (items, l, o)) :
    (∀ c, Shows items o 0 c (tsvColumns[c]?.getD [])) ∧
    (∀ i x, (exported recoveredOnly ns)[i]? = some x → ∀ c,
      Shows items o (i + 1) c ((itemRow t (i + 1) x)[c]?.getD [])) ∧
    (∀ i, (exported recoveredOnly ns).length < i → ∀ c, Shows items o i c []) ∧
    (∀ i code text, logs[i]? = some (code, text) → Shows l o i 0 code ∧ Shows l o i 1 text) := by
  obtain ⟨s, o1, h1, h2, h3⟩ := writeXlsx_parts h
  obtain ⟨fi, _⟩ := items_filled h1 h2
  have f0 : Filled (({}, o1) : Sheet × Sheet) [] :=
    ⟨fun i f hi => by simp at hi, fun _ _ _ => ⟨rfl, rfl⟩, fi.ofree⟩
  obtain ⟨fl, hg⟩ := xlsxLogs_filled f0 rfl h3
  refine ⟨fun c => ?_, fun i x hx c => ?_, fun i hi c => ?_, fun i code text hl => ?_⟩
  · rw [← header_shown]
    exact (fi.shows 0 _ rfl c).longer hg
  · rw [← item_shown t ht]
    refine (fi.shows (i + 1) (shownAt (itemFields t x (i + 1))) ?_ c).longer hg
    rw [List.singleton_append, List.getElem?_cons_succ, rowsFrom_get, hx, Nat.add_comm 1]
    rfl
  · have := fi.free i (by rw [List.length_append, rowsFrom_length, List.length_singleton]; omega) c
    exact .empty this.1 this.2 rfl
  · have := fl.shows i (shownAt (logFields (code, text))) (by rw [List.nil_append, List.getElem?_map, hl]; rfl)
    exact ⟨this 0, this 1⟩

/-! ### The cells -/

/-- A cell in range, and, given `L`, with characters XML 1.0 allows. -/
def GoodCell (L : Prop) (x : Nat × Nat × XCell) : Prop :=
  x.1 < 1048576 ∧ x.2.2.accepted = true ∧ (L → Legal x.2.2.shown)

/-- All cells are good. -/
def GoodSheet (L : Prop) (s : Sheet) : Prop := ∀ x ∈ s.cells, GoodCell L x

theorem put_good {L : Prop} {s s' : Sheet} {col : Nat} {c : XCell} (hs : GoodSheet L s)
    (hc : L → Legal c.shown) (h : s.put col c = .ok s') : GoodSheet L s' := by
  obtain ⟨rfl, h1, h2⟩ := put_ok h
  intro x hx
  rcases List.mem_append.1 hx with hx | hx
  · exact hs x hx
  · rw [List.mem_singleton] at hx
    subst hx
    exact ⟨h1, h2, hc⟩

theorem putChunks_good {L : Prop} {s s' : Sheet} {col : Nat} {cs : List Str} (hs : GoodSheet L s)
    (hc : L → ∀ c ∈ cs, Legal c) (h : putChunks s col cs = .ok s') : GoodSheet L s' := by
  induction cs generalizing s col with
  | nil => cases h; exact hs
  | cons c cs ih =>
    rw [putChunks] at h
    by_cases hcol : col < 65536
    · rw [if_pos hcol] at h
      cases h1 : s.put col (.text c) with
      | err => rw [h1] at h; cases h
      | panic => rw [h1] at h; cases h
      | ok s1 =>
      rw [h1] at h
      exact ih (put_good (c := .text c) hs (fun hl => hc hl c List.mem_cons_self) h1)
        (fun hl d hd => hc hl d (List.mem_cons_of_mem _ hd)) h
    · rw [if_neg hcol] at h
      cases h

theorem legal_label (n : Nat) : Legal (truncatedLabel n) := by
  rw [label_eq]
  refine legal_append (legal_append ?_ (legal_decimal n)) ?_
  · unfold Legal; decide
  · unfold Legal; decide

theorem writeField_good {L : Prop} {p o p' o' : Sheet} {col : Nat} {f : XField} (hp : GoodSheet L p)
    (ho : GoodSheet L o) (hf : L → Legal f.shown) (h : writeField p o col f = .ok (p', o')) :
    GoodSheet L p' ∧ GoodSheet L o' := by
  have simple : ∀ x : XCell, (L → Legal x.shown) →
      (do let p ← p.put col x; .ok (p, o) : Res (Sheet × Sheet)) = .ok (p', o') →
      GoodSheet L p' ∧ GoodSheet L o' := by
    intro x hx h
    cases h1 : p.put col x with
    | err => rw [h1] at h; cases h
    | panic => rw [h1] at h; cases h
    | ok p1 =>
    rw [h1] at h
    simp only [Res.bind_ok, Res.ok.injEq, Prod.mk.injEq] at h
    obtain ⟨rfl, rfl⟩ := h
    exact ⟨put_good hp hx h1, ho⟩
  cases f with
  | number n => exact simple (.number n) hf h
  | text s => exact simple (.text s) hf h
  | checked s =>
    rw [writeField, checkWrite] at h
    by_cases hs : s = []
    · rw [if_pos hs] at h
      cases h
      exact ⟨hp, ho⟩
    · rw [if_neg hs] at h
      unfold writeOverflow at h
      by_cases hl : utf8Len s > 32767
      · rw [if_pos hl] at h
        simp only at h
        cases h1 : o.put 0 (.text (truncatedLabel (o.row + 1))) with
        | err => rw [h1] at h; cases h
        | panic => rw [h1] at h; cases h
        | ok o1 =>
        rw [h1] at h
        simp only [Res.bind_ok] at h
        cases h2 : putChunks o1 1 (overflowChunks s) with
        | err => rw [h2] at h; cases h
        | panic => rw [h2] at h; cases h
        | ok o2 =>
        rw [h2] at h
        simp only [Res.bind_ok] at h
        cases h3 : p.link col ("internal:Overflow!A".toList ++ decimal (o2.row + 1)) with
        | err => rw [h3] at h; cases h
        | panic => rw [h3] at h; cases h
        | ok p1 =>
        rw [h3] at h
        simp only [Res.bind_ok] at h
        cases h4 : p1.put col (.text (safeTruncate s 250 ++ truncatedLabel (o.row + 1))) with
        | err => rw [h4] at h; cases h
        | panic => rw [h4] at h; cases h
        | ok p2 =>
        rw [h4] at h
        simp only [Res.bind_ok, Res.ok.injEq, Prod.mk.injEq] at h
        obtain ⟨rfl, rfl⟩ := h
        have g1 := put_good (c := .text _) ho (fun _ => legal_label (o.row + 1)) h1
        have g2 := putChunks_good g1 (fun hL c hc d hd => hf hL d
          (by rw [← chunks_flatten s] ; exact List.mem_flatten.2 ⟨c, hc, hd⟩)) h2
        have g3 : GoodSheet L p1 := by rw [link_ok h3]; exact hp
        exact ⟨put_good (c := .text _) g3 (fun hL => legal_append
          (fun d hd => hf hL d (List.mem_of_mem_take hd)) (legal_label (o.row + 1))) h4, g2⟩
      · rw [if_neg hl] at h
        exact simple (.text s) hf h

theorem writeFields_good {L : Prop} {fs : List (Nat × XField)} {s s' : Sheet × Sheet}
    (hs : GoodSheet L s.1 ∧ GoodSheet L s.2) (hf : L → ∀ f ∈ fs, Legal f.2.shown)
    (h : writeFields s.1 s.2 fs = .ok s') : GoodSheet L s'.1 ∧ GoodSheet L s'.2 := by
  induction fs generalizing s with
  | nil => cases h; exact hs
  | cons x fs ih =>
    obtain ⟨col, f⟩ := x
    rw [writeFields] at h
    cases h1 : writeField s.1 s.2 col f with
    | err => rw [h1] at h; cases h
    | panic => rw [h1] at h; cases h
    | ok s1 =>
    rw [h1] at h
    exact ih (writeField_good (p' := s1.1) (o' := s1.2) hs.1 hs.2 (fun hL => hf hL (col, f) List.mem_cons_self) h1)
      (fun hL f hf' => hf hL f (List.mem_cons_of_mem _ hf')) h

/-! ### Invariants of the traversal -/

theorem xlsxEach_keeps {α : Type} {I : Sheet × Sheet → Prop} {f : α → Sheet × Sheet → Res (Sheet × Sheet)}
    (as : List α) (h : ∀ a ∈ as, ∀ s s', I s → f a s = .ok s' → I s') {s s' : Sheet × Sheet} (hs : I s)
    (hr : xlsxEach f as s = .ok s') : I s' := by
  induction as generalizing s with
  | nil => cases hr; exact hs
  | cons a as ih =>
    rw [xlsxEach] at hr
    cases h1 : f a s with
    | err => rw [h1] at hr; cases hr
    | panic => rw [h1] at hr; cases hr
    | ok s1 =>
    rw [h1] at hr
    exact ih (fun a ha => h a (List.mem_cons_of_mem _ ha)) (h a List.mem_cons_self s s1 hs h1) hr

mutual
theorem xlsxVersion_keeps (t : XlsxTexts) (ro : Bool) {I : Sheet × Sheet → Prop}
    (hI : ∀ x s s', I s → xlsxRow (itemFields t x) s = .ok s' → I s') :
    ∀ n s s', I s → xlsxVersion t ro n s = .ok s' → I s'
  | .mk k vs ds => by
    intro s s' hs h
    rw [xlsxVersion] at h
    by_cases hc : (!ro || (Node.mk k vs ds).hasOrIsRecovered) = true
    · rw [if_pos hc] at h
      cases h1 : xlsxRow (xlsxKeyFields t k) s with
      | err => rw [h1] at h; cases h
      | panic => rw [h1] at h; cases h
      | ok s1 =>
      rw [h1] at h
      exact xlsxVersions_keeps t ro hI vs s1 s' (hI (.key (.mk k vs ds)) s s1 hs h1) h
    · rw [if_neg hc] at h
      cases h
      exact hs
theorem xlsxVersions_keeps (t : XlsxTexts) (ro : Bool) {I : Sheet × Sheet → Prop}
    (hI : ∀ x s s', I s → xlsxRow (itemFields t x) s = .ok s' → I s') :
    ∀ vs s s', I s → xlsxVersion.versions t ro vs s = .ok s' → I s'
  | [] => by
    intro s s' hs h
    rw [xlsxVersion.versions] at h
    cases h
    exact hs
  | v :: vs => by
    intro s s' hs h
    rw [xlsxVersion.versions] at h
    cases h1 : xlsxVersion t ro v s with
    | err => rw [h1] at h; cases h
    | panic => rw [h1] at h; cases h
    | ok s1 =>
    rw [h1] at h
    exact xlsxVersions_keeps t ro hI vs s1 s' (xlsxVersion_keeps t ro hI v s s1 hs h1) h
end

theorem xlsxKey_keeps (t : XlsxTexts) (ro : Bool) {I : Sheet × Sheet → Prop}
    (hI : ∀ x s s', I s → xlsxRow (itemFields t x) s = .ok s' → I s') (n : Node) (s s' : Sheet × Sheet)
    (hs : I s) (h : xlsxKey t ro n s = .ok s') : I s' := by
  unfold xlsxKey at h
  cases h1 : xlsxVersion t ro n s with
  | err => rw [h1] at h; cases h
  | panic => rw [h1] at h; cases h
  | ok s1 =>
  rw [h1] at h
  refine xlsxEach_keeps n.key.values (fun v _ s s' hs h => ?_) (xlsxVersion_keeps t ro hI n s s1 hs h1) h
  refine xlsxEach_keeps (v :: v.versions) (fun v _ s s' hs h => ?_) hs h
  unfold xlsxValue at h
  by_cases hc : (ro && !v.hasOrIsRecovered) = true
  · rw [if_pos hc] at h
    cases h
    exact hs
  · rw [if_neg hc] at h
    exact hI (.value n v) s s' hs h

theorem itemFields_legal (t : XlsxTexts) (ht : t.Plain) (x : ExportItem) (row : Nat) :
    ∀ f ∈ itemFields t x row, Legal f.2.shown := by
  have hopt : ∀ c (n : Option Nat), ∀ f ∈ optNumber c n, Legal f.2.shown := by
    intro c n f hf
    cases n with
    | none => exact absurd hf List.not_mem_nil
    | some n =>
      rw [optNumber, List.mem_singleton] at hf
      subst hf
      exact legal_decimal n
  have hsan : ∀ s, Legal (sanitizeXml s) := fun s => sanitize_cleaned s ▸ cleaned_legal s
  have hcell : ∀ v, Legal (sanitizeCell t.dbg v) := fun v => sanitizeCell_cleaned t ht v ▸ cleaned_legal _
  cases x with
  | key n =>
    intro f hf
    simp only [itemFields, xlsxKeyFields, List.mem_append, List.mem_cons, List.not_mem_nil, or_false] at hf
    rcases hf with (((rfl | rfl | rfl | rfl | rfl) | hf) | hf) | (rfl | rfl | rfl)
    · exact legal_decimal _
    · exact hsan _
    · exact legal_decimal _
    · exact ht.time _
    · exact legal_status _
    · exact hopt _ _ f hf
    · exact hopt _ _ f hf
    · exact ht.flags _
    · exact ht.access _
    · exact hsan _
  | value n v =>
    intro f hf
    simp only [itemFields, xlsxValueFields, List.mem_append, List.mem_cons, List.not_mem_nil, or_false] at hf
    rcases hf with (((rfl | rfl | rfl | rfl | rfl) | hf) | hf) | (rfl | rfl)
    · exact legal_decimal _
    · exact hsan _
    · exact hsan _
    · exact hcell _
    · exact legal_status _
    · exact hopt _ _ f hf
    · exact hopt _ _ f hf
    · exact ht.type _
    · exact hsan _

theorem xlsxLogs_good {L : Prop} {logs : List (Str × Str)} {s s' : Sheet × Sheet}
    (hs : GoodSheet L s.1 ∧ GoodSheet L s.2) (hl : L → ∀ x ∈ logs, Legal x.1 ∧ Legal x.2)
    (h : xlsxLogs logs s = .ok s') : GoodSheet L s'.1 ∧ GoodSheet L s'.2 := by
  induction logs generalizing s with
  | nil => cases h; exact hs
  | cons x logs ih =>
    obtain ⟨code, text⟩ := x
    rw [xlsxLogs] at h
    cases h1 : writeFields s.1 s.2 [(0, .text code), (1, .checked text)] with
    | err => rw [h1] at h; cases h
    | panic => rw [h1] at h; cases h
    | ok s1 =>
    rw [h1] at h
    have a := writeFields_good hs (fun hL f hf => by
      have := hl hL (code, text) List.mem_cons_self
      simp only [List.mem_cons, List.not_mem_nil, or_false] at hf
      rcases hf with rfl | rfl
      · exact this.1
      · exact this.2) h1
    exact ih (s := ({ s1.1 with row := s1.1.row + 1 }, s1.2)) a (fun hL x hx => hl hL x (List.mem_cons_of_mem _ hx)) h

theorem xlsx_good {L : Prop} (t : XlsxTexts) (ht : L → t.Plain) (ro : Bool) (logs : List (Str × Str))
    (hl : L → ∀ x ∈ logs, Legal x.1 ∧ Legal x.2) (ns : List Node) {items l o : Sheet}
    (h : writeXlsx t ro logs ns = .ok (items, l, o)) : GoodSheet L items ∧ GoodSheet L l ∧ GoodSheet L o := by
  obtain ⟨s, o1, h1, h2, h3⟩ := writeXlsx_parts h
  have g0 : GoodSheet L ({} : Sheet) := fun _ h => absurd h List.not_mem_nil
  have g1 := writeFields_good (L := L) (s := ({}, {})) ⟨g0, g0⟩
    (fun _ => by unfold Legal; decide) h1
  have hrow : ∀ x (s s' : Sheet × Sheet), GoodSheet L s.1 ∧ GoodSheet L s.2 →
      xlsxRow (itemFields t x) s = .ok s' → GoodSheet L s'.1 ∧ GoodSheet L s'.2 := by
    intro x s s' hs h
    exact writeFields_good (s := (⟨s.1.row + 1, s.1.cells, s.1.links⟩, s.2)) (s' := s') hs
      (fun hL => itemFields_legal t (ht hL) x (s.1.row + 1)) h
  have g2 := xlsxEach_keeps (I := fun s => GoodSheet L s.1 ∧ GoodSheet L s.2) ns
    (fun n _ => xlsxKey_keeps t ro hrow n) g1 h2
  have g3 := xlsxLogs_good (s := ({}, o1)) ⟨g0, g2.2⟩ hl h3
  exact ⟨g2.1, g3.1, g3.2⟩

/-- C54: every text in a finished export has only characters XML 1.0 allows and at most 32767 of
them, whatever the names and the data, when the texts of the parser's logs have only such
characters. -/
theorem xlsx_legal (t : XlsxTexts) (ht : t.Plain) (recoveredOnly : Bool) (logs : List (Str × Str))
    (hl : ∀ x ∈ logs, (∀ c ∈ x.1, XmlChar c) ∧ ∀ c ∈ x.2, XmlChar c) (ns : List Node) {items l o : Sheet}
    (h : writeXlsx t recoveredOnly logs ns = .ok (items, l, o)) :
    ∀ s ∈ [items, l, o], ∀ x ∈ s.cells, ∀ text, x.2.2 = .text text →
      text.length ≤ 32767 ∧ ∀ c ∈ text, XmlChar c := by
  obtain ⟨a, b, c⟩ := xlsx_good (L := True) t (fun _ => ht) recoveredOnly logs (fun _ => hl) ns h
  intro s hs x hx text he
  have g : GoodCell True x := by
    simp only [List.mem_cons, List.not_mem_nil, or_false] at hs
    rcases hs with rfl | rfl | rfl
    · exact a x hx
    · exact b x hx
    · exact c x hx
  obtain ⟨-, g2, g3⟩ := g
  rw [he] at g2 g3
  simp only [XCell.accepted, Bool.and_eq_true, decide_eq_true_eq] at g2
  exact ⟨g2.1, g3 trivial⟩

/-- C53: an export with more items than a sheet has rows, 1048575 apart from the heading, does not
finish. -/
theorem xlsx_row_limit (t : XlsxTexts) (recoveredOnly : Bool) (logs : List (Str × Str)) (ns : List Node)
    {items l o : Sheet} (h : writeXlsx t recoveredOnly logs ns = .ok (items, l, o)) :
    (exported recoveredOnly ns).length < 1048576 := by
  have g := (xlsx_good (L := False) t False.elim recoveredOnly logs False.elim ns h).1
  obtain ⟨s, o1, h1, h2, -⟩ := writeXlsx_parts h
  obtain ⟨fi, -⟩ := items_filled h1 h2
  cases hn : (exported recoveredOnly ns).length with
  | zero => omega
  | succ n =>
  cases hx : (exported recoveredOnly ns)[n]? with
  | none => rw [List.getElem?_eq_none_iff] at hx; omega
  | some x =>
  have hs := fi.shows (n + 1) (shownAt (itemFields t x (n + 1))) (by
    rw [List.singleton_append, List.getElem?_cons_succ, rowsFrom_get, hx, Nat.add_comm 1]
    rfl) 0
  have e : shownAt (itemFields t x (n + 1)) 0 = decimal (n + 1) := by cases x <;> rfl
  rw [e] at hs
  have hne : cellsAt items (n + 1) 0 ≠ [] := by
    cases hs with
    | empty _ _ h => exact absurd h Nat.toDigits_ne_nil
    | cell x h => rw [h]; exact List.cons_ne_nil _ _
    | long _ _ h => rw [h]; exact List.cons_ne_nil _ _
  obtain ⟨y, hy⟩ := List.exists_mem_of_ne_nil _ hne
  obtain ⟨z, hz, he⟩ := List.mem_filterMap.1 hy
  have hr : z.1 = n + 1 := by
    by_cases hz : z.1 = n + 1 ∧ z.2.1 = 0
    · exact hz.1
    · rw [if_neg hz] at he
      cases he
  have := (g z hz).1
  omega

end Notatin
