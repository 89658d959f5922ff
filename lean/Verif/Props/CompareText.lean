import Verif.Model.CompareRun
import Verif.Spec.CompareTells
import Verif.Props.Diff
import Verif.Props.Rows
import Verif.Props.Dump
/-
C74: the rows and the text of the report of `reg_compare` can be read.
-/
namespace Notatin
open Spec

/-! ### The content of a value reads back -/

theorem readByteList_join (b : Bytes) (hb : b ≠ []) (fuel : Nat) (hf : b.length ≤ fuel) :
    readByteList fuel (joinCommas (b.map fun x => decimal x.toNat) ++ [']', ')']) = some b := by
  induction b generalizing fuel with
  | nil => exact absurd rfl hb
  | cons x b ih =>
    cases fuel with
    | zero => simp at hf
    | succ fuel =>
      have hx : x.toNat < 256 := x.toNat_lt
      cases b with
      | nil =>
        simp only [List.map_cons, List.map_nil, joinCommas, readByteList]
        rw [readDigits_decimal _ _ (fun c s h => by cases h; decide)]
        simp only
        rw [if_pos hx, UInt8.ofNat_toNat]
      | cons y b =>
        have ih := ih (by simp) fuel (by simp at hf ⊢; omega)
        simp only [List.map_cons] at ih
        simp only [List.map_cons, joinCommas, List.cons_append, List.append_assoc, readByteList]
        rw [readDigits_decimal _ _ (fun c s h => by cases h; decide)]
        simp only
        rw [if_pos hx, UInt8.ofNat_toNat, ih]
        rfl

theorem joinCommas_decimal_length (b : Bytes) : b.length ≤ (joinCommas (b.map fun x => decimal x.toNat)).length := by
  induction b with
  | nil => exact Nat.zero_le _
  | cons x b ih =>
    have h1 : 0 < (decimal x.toNat).length := List.length_pos_iff.2 Nat.toDigits_ne_nil
    cases b with
    | nil => simp only [List.map_cons, List.map_nil, joinCommas, List.length_cons, List.length_nil]; omega
    | cons y b =>
      simp only [List.map_cons, joinCommas, List.length_cons, List.length_append] at ih ⊢
      omega

theorem inBrackets_some (name : String) (r : Str) : inBrackets name (name.toList ++ '(' :: r ++ [')']) = some r := by
  unfold inBrackets
  rw [if_pos]
  · congr 1
    have : name.toList ++ '(' :: r ++ [')'] = (name.toList ++ ['(']) ++ (r ++ [')']) := by simp
    rw [this, List.drop_append_of_le_length (by simp), List.drop_of_length_le (by simp), List.nil_append,
      List.dropLast_concat]
  · constructor
    · exact ⟨r ++ [')'], by simp⟩
    · exact List.getLast?_concat

theorem inBrackets_none (name other : String) (r : Str) (h : ¬ name.toList ++ ['('] <+: other.toList ++ ['('] )
    (h' : ¬ other.toList ++ ['('] <+: name.toList ++ ['(']) :
    inBrackets name (other.toList ++ '(' :: r ++ [')']) = none := by
  unfold inBrackets
  rw [if_neg]
  rintro ⟨hp, _⟩
  have h2 : other.toList ++ ['('] <+: other.toList ++ '(' :: r ++ [')'] := ⟨r ++ [')'], by simp⟩
  rcases Nat.le_total (name.toList ++ ['(']).length (other.toList ++ ['(']).length with hl | hl
  · exact h (List.prefix_of_prefix_length_le hp h2 hl)
  · exact h' (List.prefix_of_prefix_length_le h2 hp hl)

/-- A text that begins like another one but goes on differently. -/
theorem not_prefix_of (name : String) (k : Str) (r : Str) (h : ¬ k <+: name.toList ++ ['('])
    (h' : ¬ name.toList ++ ['('] <+: k) : ¬ k <+: name.toList ++ '(' :: r ++ [')'] := by
  intro hp
  have h2 : name.toList ++ ['('] <+: name.toList ++ '(' :: r ++ [')'] := ⟨r ++ [')'], by simp⟩
  rcases Nat.le_total k.length (name.toList ++ ['(']).length with hl | hl
  · exact h (List.prefix_of_prefix_length_le hp h2 hl)
  · exact h' (List.prefix_of_prefix_length_le h2 hp hl)

theorem ne_of_not_prefix {k s : Str} (h : ¬ k <+: s) : s ≠ k := fun e => h (e ▸ List.prefix_refl _)

/-- What is not a list of bytes is read by the name in front. -/
theorem readShown_named (name : String) (r : Str)
    (h1 : ¬ "None".toList <+: name.toList ++ ['('] ∧ ¬ name.toList ++ ['('] <+: "None".toList)
    (h2 : ¬ "Error".toList <+: name.toList ++ ['('] ∧ ¬ name.toList ++ ['('] <+: "Error".toList)
    (h3 : ¬ "Binary([])".toList <+: name.toList ++ ['('] ∧ ¬ name.toList ++ ['('] <+: "Binary([])".toList)
    (h4 : ¬ "Binary([".toList <+: name.toList ++ ['('] ∧ ¬ name.toList ++ ['('] <+: "Binary([".toList) :
    readShown (name.toList ++ '(' :: r ++ [')']) = readNamed (name.toList ++ '(' :: r ++ [')']) := by
  rw [readShown.eq_def]
  rw [if_neg (ne_of_not_prefix (not_prefix_of name _ r h1.1 h1.2)),
    if_neg (ne_of_not_prefix (not_prefix_of name _ r h2.1 h2.2)),
    if_neg (ne_of_not_prefix (not_prefix_of name _ r h3.1 h3.2)),
    if_neg (not_prefix_of name _ r h4.1 h4.2)]

/-- C74: the content shown in a row of the report is the content. -/
theorem shown_read_back (printed : Char → Bool) (c : CellValue) : readShown (c.debug printed) = some c := by
  cases c with
  | None => show readShown "None".toList = _; decide +kernel
  | Error => show readShown "Error".toList = _; decide +kernel
  | Binary b =>
    cases b with
    | nil => show readShown "Binary([])".toList = _; decide +kernel
    | cons x b =>
      have hne : joinCommas ((x :: b).map fun x => decimal x.toNat) ++ "])".toList ≠ "])".toList := by
        intro h
        have := List.append_cancel_right (as := joinCommas ((x :: b).map fun x => decimal x.toNat)) (cs := []) h
        have hl := joinCommas_decimal_length (x :: b)
        rw [this] at hl
        simp at hl
      rw [readShown.eq_def]
      have e : (CellValue.Binary (x :: b)).debug printed =
        "Binary([".toList ++ (joinCommas ((x :: b).map fun x => decimal x.toNat) ++ [']', ')']) := by
        rw [← List.append_assoc]; rfl
      rw [e, if_neg, if_neg, if_neg, if_pos (List.prefix_append _ _)]
      · have hd : ("Binary([".toList ++ (joinCommas ((x :: b).map fun x => decimal x.toNat) ++ [']', ')'])).drop 8
            = joinCommas ((x :: b).map fun x => decimal x.toNat) ++ [']', ')'] := rfl
        rw [hd, readByteList_join _ (by simp) _ _]
        · rfl
        · have := joinCommas_decimal_length (x :: b)
          simp only [List.length_append]
          omega
      · intro h
        have h' : "Binary([".toList ++ (joinCommas ((x :: b).map fun x => decimal x.toNat) ++ [']', ')'])
          = "Binary([".toList ++ [']', ')'] := h
        exact hne (List.append_cancel_left h')
      · intro h
        have : some 'B' = some 'E' := congrArg List.head? h
        exact absurd this (by decide)
      · intro h
        have : some 'B' = some 'N' := congrArg List.head? h
        exact absurd this (by decide)
  | String s =>
    have e : (CellValue.String s).debug printed = "String".toList ++ '(' :: debugStr printed s ++ [')'] := rfl
    rw [e, readShown_named _ _ (by decide) (by decide) (by decide) (by decide), readNamed, inBrackets_some]
    simp only [debugStr, List.cons_append, readDebug_text]
  | MultiString m =>
    have e : (CellValue.MultiString m).debug printed = "MultiString".toList ++ '(' :: debugList printed m ++ [')'] := rfl
    rw [e, readShown_named _ _ (by decide) (by decide) (by decide) (by decide), readNamed,
      inBrackets_none "String" "MultiString" _ (by decide) (by decide), inBrackets_some]
    simp only [readTextList_debug, Option.map_some]
  | U32 n =>
    have e : (CellValue.U32 n).debug printed = "U32".toList ++ '(' :: decimal n ++ [')'] := rfl
    rw [e, readShown_named _ _ (by decide) (by decide) (by decide) (by decide), readNamed,
      inBrackets_none "String" "U32" _ (by decide) (by decide),
      inBrackets_none "MultiString" "U32" _ (by decide) (by decide), inBrackets_some]
    simp only [readNumber_decimal, Option.map_some]
  | I32 i =>
    have e : (CellValue.I32 i).debug printed = "I32".toList ++ '(' :: intText i ++ [')'] := rfl
    rw [e, readShown_named _ _ (by decide) (by decide) (by decide) (by decide), readNamed,
      inBrackets_none "String" "I32" _ (by decide) (by decide),
      inBrackets_none "MultiString" "I32" _ (by decide) (by decide),
      inBrackets_none "U32" "I32" _ (by decide) (by decide),
      inBrackets_none "U64" "I32" _ (by decide) (by decide), inBrackets_some]
    simp only [readSigned_text, Option.map_some]
  | U64 n =>
    have e : (CellValue.U64 n).debug printed = "U64".toList ++ '(' :: decimal n ++ [')'] := rfl
    rw [e, readShown_named _ _ (by decide) (by decide) (by decide) (by decide), readNamed,
      inBrackets_none "String" "U64" _ (by decide) (by decide),
      inBrackets_none "MultiString" "U64" _ (by decide) (by decide),
      inBrackets_none "U32" "U64" _ (by decide) (by decide), inBrackets_some]
    simp only [readNumber_decimal, Option.map_some]
  | I64 i =>
    have e : (CellValue.I64 i).debug printed = "I64".toList ++ '(' :: intText i ++ [')'] := rfl
    rw [e, readShown_named _ _ (by decide) (by decide) (by decide) (by decide), readNamed,
      inBrackets_none "String" "I64" _ (by decide) (by decide),
      inBrackets_none "MultiString" "I64" _ (by decide) (by decide),
      inBrackets_none "U32" "I64" _ (by decide) (by decide),
      inBrackets_none "U64" "I64" _ (by decide) (by decide),
      inBrackets_none "I32" "I64" _ (by decide) (by decide), inBrackets_some]
    simp only [readSigned_text, Option.map_some, Option.bind_some]

/-! ### Rows have no line feeds -/

theorem joinCommas_mem (ws : List Str) (c : Char) (h : c ∈ joinCommas ws) : c = ',' ∨ c = ' ' ∨ ∃ w ∈ ws, c ∈ w := by
  induction ws with
  | nil => exact absurd h List.not_mem_nil
  | cons w ws ih =>
    cases ws with
    | nil => exact .inr (.inr ⟨w, List.mem_cons_self, h⟩)
    | cons v vs =>
      simp only [joinCommas, List.mem_append, List.mem_cons] at h
      rcases h with h | rfl | rfl | h
      · exact .inr (.inr ⟨w, List.mem_cons_self, h⟩)
      · exact .inl rfl
      · exact .inr (.inl rfl)
      · rcases ih h with h | h | ⟨x, hx, h⟩
        · exact .inl h
        · exact .inr (.inl h)
        · exact .inr (.inr ⟨x, List.mem_cons_of_mem _ hx, h⟩)

theorem debugChar_nl (printed : Char → Bool) (c : Char) : '\n' ∉ debugChar printed c := by
  unfold debugChar
  by_cases h0 : c.toNat = 0
  · rw [if_pos h0]; decide
  · rw [if_neg h0]
    by_cases h1 : c = '\t'
    · rw [if_pos h1]; decide
    · rw [if_neg h1]
      by_cases h2 : c = '\r'
      · rw [if_pos h2]; decide
      · rw [if_neg h2]
        by_cases h3 : c = '\n'
        · rw [if_pos h3]; decide
        · rw [if_neg h3]
          by_cases h4 : c = '"'
          · rw [if_pos h4]; decide
          · rw [if_neg h4]
            by_cases h5 : c = '\\'
            · rw [if_pos h5]; decide
            · rw [if_neg h5]
              by_cases h6 : printed c = true
              · rw [if_pos h6, List.mem_singleton]; exact Ne.symm h3
              · rw [if_neg h6]
                intro h
                have hh : '\n' ∈ Nat.toDigits 16 c.toNat := by
                  simp only [List.mem_cons, List.mem_append, List.cons_append, List.not_mem_nil, or_false] at h
                  rcases h with h | h | h | h | h
                  · exact absurd h (by decide)
                  · exact absurd h (by decide)
                  · exact absurd h (by decide)
                  · exact h
                  · exact absurd h (by decide)
                have hd : ∀ n, '\n' ∉ Nat.toDigits 16 n := by
                  intro n
                  induction n using Nat.strongRecOn with
                  | ind n ih =>
                    have hc : ∀ m < 16, '\n' ≠ m.digitChar := by decide
                    by_cases hn : n < 16
                    · rw [Nat.toDigits_of_lt_base hn, List.mem_singleton]; exact hc n hn
                    · rw [Nat.toDigits_of_base_le (by decide) (by omega), List.mem_append, List.mem_singleton]
                      rintro (h | h)
                      · exact ih (n / 16) (by omega) h
                      · exact hc (n % 16) (by omega) h
                exact hd _ hh

theorem debugStr_nl (printed : Char → Bool) (s : Str) : '\n' ∉ debugStr printed s := by
  unfold debugStr
  intro h
  simp only [List.mem_cons, List.mem_append, List.cons_append, List.mem_flatMap, List.not_mem_nil, or_false] at h
  rcases h with h | ⟨c, _, h⟩ | h
  · exact absurd h (by decide)
  · exact debugChar_nl printed c h
  · exact absurd h (by decide)

theorem debug_nl (printed : Char → Bool) (c : CellValue) : '\n' ∉ c.debug printed := by
  have hint : ∀ i : Int, '\n' ∉ intText i := by
    intro i
    cases i with
    | ofNat n => exact decimal_nl n
    | negSucc n =>
      rw [intText, List.mem_cons]
      rintro (h | h)
      · exact absurd h (by decide)
      · exact decimal_nl _ h
  have hwrap : ∀ (a s : Str), '\n' ∉ a → '\n' ∉ s → '\n' ∉ a ++ s ++ [')'] := by
    intro a s h1 h2 h
    simp only [List.mem_append, List.mem_singleton] at h
    rcases h with (h | h) | h
    · exact h1 h
    · exact h2 h
    · exact absurd h (by decide)
  cases c with
  | None => show '\n' ∉ "None".toList; decide
  | Error => show '\n' ∉ "Error".toList; decide
  | Binary b =>
    have : '\n' ∉ joinCommas (b.map fun x => decimal x.toNat) := by
      intro h
      rcases joinCommas_mem _ _ h with h | h | ⟨w, hw, h⟩
      · exact absurd h (by decide)
      · exact absurd h (by decide)
      · obtain ⟨x, _, rfl⟩ := List.mem_map.1 hw
        exact decimal_nl _ h
    intro h
    have h : '\n' ∈ "Binary([".toList ++ joinCommas (b.map fun x => decimal x.toNat) ++ "])".toList := h
    rw [List.mem_append, List.mem_append] at h
    rcases h with (h | h) | h
    · exact absurd h (by decide)
    · exact this h
    · exact absurd h (by decide)
  | String s => exact hwrap _ _ (by decide) (debugStr_nl printed s)
  | MultiString m =>
    refine hwrap _ _ (by decide) ?_
    unfold debugList
    intro h
    simp only [List.cons_append, List.mem_cons, List.mem_append, List.not_mem_nil, or_false] at h
    rcases h with h | h | h
    · exact absurd h (by decide)
    · rcases joinCommas_mem _ _ h with h | h | ⟨w, hw, h⟩
      · exact absurd h (by decide)
      · exact absurd h (by decide)
      · obtain ⟨x, _, rfl⟩ := List.mem_map.1 hw
        exact debugStr_nl printed x h
    · exact absurd h (by decide)
  | U32 n => exact hwrap _ _ (by decide) (decimal_nl n)
  | I32 i => exact hwrap _ _ (by decide) (hint i)
  | U64 n => exact hwrap _ _ (by decide) (decimal_nl n)
  | I64 i => exact hwrap _ _ (by decide) (hint i)

theorem keyRest_nl (n : Node) : '\n' ∉ compareKeyRest n := by
  have h2 : '\n' ∉ keyFlagsText n.key := fun h =>
    absurd (flagsDebug_chars "KeyNodeFlags" keyNodeFlagTable _ (by decide) (by decide) _ h) (by decide)
  have h3 : '\n' ∉ keyAccessText n.key := fun h =>
    absurd (flagsDebug_chars "AccessFlags" accessFlagTable _ (by decide) (by decide) _ h) (by decide)
  intro h
  simp only [compareKeyRest, List.mem_append, List.mem_cons] at h
  rcases h with (h | h | h) | h | h
  · exact absurd (time_chars n.key _ h) (by decide)
  · exact absurd h (by decide)
  · exact h2 h
  · exact absurd h (by decide)
  · exact h3 h

theorem formatKey_nl {n : Node} (h : '\n' ∉ n.key.path) : '\n' ∉ formatKey compareKeyRest n := by
  intro hm
  simp only [formatKey, List.mem_append, List.mem_cons] at hm
  rcases hm with hm | hm | hm
  · exact h hm
  · exact absurd hm (by decide)
  · exact keyRest_nl n hm

theorem formatValue_nl (u : Prints) {path : Str} {v : Value} (hp : '\n' ∉ path) (hv : '\n' ∉ v.val.name) :
    '\n' ∉ formatValue (compareContent u) path v := by
  have hn : '\n' ∉ v.val.prettyName := by
    unfold KeyValue.prettyName getPrettyName
    by_cases h : v.val.name.isEmpty = true
    · rw [if_pos h]; decide
    · rw [if_neg h]; exact hv
  intro hm
  simp only [formatValue, List.mem_append, List.mem_cons] at hm
  rcases hm with (hm | hm | hm) | hm | hm
  · exact hp hm
  · exact absurd hm (by decide)
  · exact hn hm
  · exact absurd hm (by decide)
  · exact debug_nl u.printed _ hm

/-! ### The text report -/

theorem lines_rows (ls : List Str) (s : Str) (h : ∀ l ∈ ls, '\n' ∉ l) :
    lines ((ls.flatMap writeLn) ++ s) = ls ++ lines s := by
  induction ls with
  | nil => rfl
  | cons l ls ih =>
    rw [List.flatMap_cons, List.append_assoc, lines_writeLn _ _ (h l List.mem_cons_self),
      ih fun l hl => h l (List.mem_cons_of_mem _ hl)]
    rfl

theorem zipLongest_left (ls : List Str) : zipLongest ls [] = ls.flatMap writeLn := by
  induction ls with
  | nil => rw [zipLongest]; rfl
  | cons l ls ih => rw [zipLongest, ih, List.flatMap_cons]

theorem zipLongest_right (ls : List Str) : zipLongest [] ls = ls.flatMap writeLn := by
  induction ls with
  | nil => rw [zipLongest]; rfl
  | cons l ls ih => rw [zipLongest, ih, List.flatMap_cons]

theorem zipLongest_pairs (ls : List (Str × Str)) :
    zipLongest (ls.map Prod.fst) (ls.map Prod.snd) = (ls.flatMap fun x => [x.1, x.2]).flatMap writeLn := by
  induction ls with
  | nil => rw [List.map_nil, List.map_nil, zipLongest]; rfl
  | cons l ls ih =>
    rw [List.map_cons, List.map_cons, zipLongest, ih]
    simp

theorem dashes_eq : dashes = List.replicate 34 '-' := by decide +kernel

theorem section_read (title : String) (removed added rows : List Str) (n : Nat) (s : Str)
    (ht : '\n' ∉ title.toList) (he : zipLongest removed added = rows.flatMap writeLn) (hr : ∀ l ∈ rows, '\n' ∉ l) :
    lines (writeTextSection title.toList removed added n ++ s) = reportSection title n rows ++ lines s := by
  have hd : '\n' ∉ dashes := by decide +kernel
  have e : writeTextSection title.toList removed added n ++ s =
      [] ++ '\n' :: (dashes ++ '\n' :: ((title.toList ++ ':' :: ' ' :: decimal n) ++ '\n' :: (dashes ++ '\n' ::
        (rows.flatMap writeLn ++ s)))) := by
    unfold writeTextSection
    rw [he]
    show _ ++ ['\n'] ++ _ ++ s = _
    simp
  rw [e, lines_append _ _ (by simp), lines_append _ _ hd, lines_append, lines_append _ _ hd, lines_rows _ _ hr]
  · unfold reportSection
    rw [← dashes_eq]
    rfl
  · simp only [List.mem_append, List.mem_cons]
    rintro (h | h | h | h)
    · exact ht h
    · exact absurd h (by decide)
    · exact absurd h (by decide)
    · exact decimal_nl _ h

/-- C74, text reports: the lines are the sections with their titles, numbers and rows. -/
theorem report_lines (rest : Node → Str) (content : Value → Str) (base comp : Str) (d : Differences)
    (hb : '\n' ∉ base) (hc : '\n' ∉ comp) (hm : ∀ l ∈ removedRows rest content d, '\n' ∉ l)
    (hp : ∀ l ∈ addedRows rest content d, '\n' ∉ l) :
    IsReport base comp (d.keysDeleted.map (formatKey rest)) (d.keysAdded.map (formatKey rest))
      (d.keysModified.map fun k => (formatKey rest k.1, formatKey rest k.2))
      (d.valuesDeleted.map fun v => formatValue content v.1 v.2)
      (d.valuesAdded.map fun v => formatValue content v.1 v.2)
      (d.valuesModified.map fun v => (formatValue content v.1 v.2.1, formatValue content v.1 v.2.2))
      (writeText rest content base comp d) := by
  unfold removedRows at hm
  unfold addedRows at hp
  simp only [List.mem_append] at hm hp
  have h1 : ∀ l ∈ d.keysDeleted.map (formatKey rest), '\n' ∉ l := fun l hl => hm l (by simp [hl])
  have h2 : ∀ l ∈ d.keysModified.map fun k => formatKey rest k.1, '\n' ∉ l := fun l hl => hm l (by simp [hl])
  have h3 : ∀ l ∈ d.valuesDeleted.map fun v => formatValue content v.1 v.2, '\n' ∉ l :=
    fun l hl => hm l (by simp [hl])
  have h4 : ∀ l ∈ d.valuesModified.map fun v => formatValue content v.1 v.2.1, '\n' ∉ l :=
    fun l hl => hm l (by simp [hl])
  have g1 : ∀ l ∈ d.keysAdded.map (formatKey rest), '\n' ∉ l := fun l hl => hp l (by simp [hl])
  have g2 : ∀ l ∈ d.keysModified.map fun k => formatKey rest k.2, '\n' ∉ l := fun l hl => hp l (by simp [hl])
  have g3 : ∀ l ∈ d.valuesAdded.map fun v => formatValue content v.1 v.2, '\n' ∉ l :=
    fun l hl => hp l (by simp [hl])
  have g4 : ∀ l ∈ d.valuesModified.map fun v => formatValue content v.1 v.2.2, '\n' ∉ l :=
    fun l hl => hp l (by simp [hl])
  have e1 := zipLongest_pairs (d.keysModified.map fun k => (formatKey rest k.1, formatKey rest k.2))
  have e2 := zipLongest_pairs
    (d.valuesModified.map fun v => (formatValue content v.1 v.2.1, formatValue content v.1 v.2.2))
  rw [List.map_map, List.map_map] at e1 e2
  have e1 : zipLongest (d.keysModified.map fun k => formatKey rest k.1)
    (d.keysModified.map fun k => formatKey rest k.2) = _ := e1
  have e2 : zipLongest (d.valuesModified.map fun v => formatValue content v.1 v.2.1)
    (d.valuesModified.map fun v => formatValue content v.1 v.2.2) = _ := e2
  have hpair : ∀ l : List (Str × Str), (∀ x ∈ l.map Prod.fst, '\n' ∉ x) → (∀ x ∈ l.map Prod.snd, '\n' ∉ x) →
      ∀ x ∈ l.flatMap fun x => [x.1, x.2], '\n' ∉ x := by
    intro l ha hb x hx
    obtain ⟨y, hy, hx⟩ := List.mem_flatMap.1 hx
    rcases List.mem_cons.1 hx with rfl | hx
    · exact ha _ (List.mem_map.2 ⟨y, hy, rfl⟩)
    · rw [List.mem_singleton.1 hx]
      exact hb _ (List.mem_map.2 ⟨y, hy, rfl⟩)
  have k2 := hpair (d.keysModified.map fun k => (formatKey rest k.1, formatKey rest k.2))
    (by rw [List.map_map]; exact h2) (by rw [List.map_map]; exact g2)
  have k4 := hpair (d.valuesModified.map fun v => (formatValue content v.1 v.2.1, formatValue content v.1 v.2.2))
    (by rw [List.map_map]; exact h4) (by rw [List.map_map]; exact g4)
  unfold IsReport writeText
  simp only [List.append_assoc]
  rw [lines_writeLn, lines_writeLn, section_read _ _ _ _ _ _ (by decide) (zipLongest_left _) h1,
    section_read _ _ _ _ _ _ (by decide) (zipLongest_right _) g1,
    section_read _ _ _ _ _ _ (by decide) e1 k2,
    section_read _ _ _ _ _ _ (by decide) (zipLongest_left _) h3,
    section_read _ _ _ _ _ _ (by decide) (zipLongest_right _) g3,
    section_read _ _ _ _ _ _ (by decide) e2 k4]
  · have hl := section_read "Total changes" [] [] []
      (d.keysDeleted.length + d.keysAdded.length + d.keysModified.length +
        d.valuesDeleted.length + d.valuesAdded.length + d.valuesModified.length) [] (by decide) (by rw [zipLongest]; rfl)
        (fun _ h => absurd h List.not_mem_nil)
    have e : writeLn ('\n' :: dashes ++ "\nTotal changes: ".toList ++
        decimal (d.keysDeleted.length + d.keysAdded.length + d.keysModified.length +
        d.valuesDeleted.length + d.valuesAdded.length + d.valuesModified.length) ++ '\n' :: dashes) =
      writeTextSection "Total changes".toList [] []
        (d.keysDeleted.length + d.keysAdded.length + d.keysModified.length +
        d.valuesDeleted.length + d.valuesAdded.length + d.valuesModified.length) ++ [] := by
      unfold writeTextSection zipLongest
      rw [List.append_nil, List.append_nil]
      have : "\nTotal changes: ".toList = '\n' :: "Total changes".toList ++ ": ".toList := by decide
      rw [this]
      simp
    have e' := congrArg lines e
    simp only [List.append_assoc] at e'
    rw [e', hl]
    simp only [List.length_map]
    rw [lines, List.append_nil]
    rfl
  · simp only [List.mem_append]
    rintro (h | h)
    · exact absurd h (by decide)
    · exact hc h
  · simp only [List.mem_append]
    rintro (h | h | h)
    · exact absurd h (by decide)
    · exact hb h
    · exact absurd h (by decide)

end Notatin
