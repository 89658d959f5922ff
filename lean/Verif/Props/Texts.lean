import Verif.Model.Texts
import Verif.Spec.Texts
import Verif.Props.Time
import Verif.Props.Json
import Verif.Props.XlsxEnds
import Verif.Props.Common
import Verif.Props.Content

/-!
Property theorems C59 (the names of flags) and C60 (the data of values read back).
-/

namespace Notatin
open Spec

/-! ### Flags -/

theorem containsFlag_bit (b i : Nat) : containsFlag b (2 ^ i) = b.testBit i := by
  have e : b &&& 2 ^ i = if b.testBit i then 2 ^ i else 0 := by
    apply Nat.eq_of_testBit_eq
    intro j
    rw [Nat.testBit_and, Nat.testBit_two_pow]
    by_cases h : i = j
    · subst h
      cases hb : b.testBit i <;> simp
    · cases hb : b.testBit i <;> simp [h, Nat.testBit_two_pow]
  have : 0 < 2 ^ i := Nat.two_pow_pos i
  unfold containsFlag
  rw [e]
  cases b.testBit i
  · simp only [Bool.false_eq_true, if_false, beq_eq_false_iff_ne]
    omega
  · simp

theorem splitBars_word (w : Str) (hw : ' ' ∉ w) : splitBars w = [w] := by
  induction w with
  | nil => rw [splitBars]
  | cons c w ih =>
    rw [splitBars, if_neg (fun h => hw (by rw [h.1]; exact List.mem_cons_self)),
      ih fun h => hw (List.mem_cons_of_mem _ h)]

theorem splitBars_more (w s : Str) (hw : ' ' ∉ w) : splitBars (w ++ ' ' :: '|' :: ' ' :: s) = w :: splitBars s := by
  induction w with
  | nil => rw [List.nil_append, splitBars, if_pos ⟨rfl, rfl⟩]; rfl
  | cons c w ih =>
    rw [List.cons_append, splitBars, if_neg (fun h => hw (by rw [h.1]; exact List.mem_cons_self)),
      ih fun h => hw (List.mem_cons_of_mem _ h)]

theorem splitBars_join (ws : List Str) (hne : ws ≠ []) (h : ∀ w ∈ ws, ' ' ∉ w) : splitBars (joinBars ws) = ws := by
  induction ws with
  | nil => exact absurd rfl hne
  | cons w ws ih =>
    cases ws with
    | nil => exact splitBars_word w (h w List.mem_cons_self)
    | cons v vs =>
      rw [joinBars, splitBars_more w _ (h w List.mem_cons_self),
        ih (by simp) fun x hx => h x (List.mem_cons_of_mem _ hx)]

theorem joinBars_head (w : Str) (ws : List Str) (hw : w ≠ []) : (joinBars (w :: ws)).head? = w.head? := by
  cases ws with
  | nil => rfl
  | cons v vs =>
    cases w with
    | nil => exact absurd rfl hw
    | cons c w => rfl

/-- The text names the flags, for a table of names and its mask. -/
theorem flags_named (type : String) (names : List (Nat × String)) (mask bits : Nat)
    (hm : ∀ i, mask.testBit i = true ↔ i ∈ names.map Prod.fst)
    (hn : ∀ f ∈ names, ' ' ∉ f.2.toList ∧ f.2.toList ≠ [] ∧ f.2.toList.head? ≠ some '0') :
    NamesFlags type names bits (flagsDebug type (names.map fun f => (2 ^ f.1, f.2)) (bits &&& mask)) := by
  have hf : ∀ l : List (Nat × String), (∀ f ∈ l, f ∈ names) →
      (((l.map fun f => (2 ^ f.1, f.2)).filter fun f => containsFlag (bits &&& mask) f.1).map fun f => f.2.toList)
        = (l.filter fun f => bits.testBit f.1).map fun f => f.2.toList := by
    intro l hl
    induction l with
    | nil => rfl
    | cons f l ih =>
      have ih := ih fun g hg => hl g (List.mem_cons_of_mem _ hg)
      have hb : containsFlag (bits &&& mask) (2 ^ f.1) = bits.testBit f.1 := by
        rw [containsFlag_bit, Nat.testBit_and,
          (hm f.1).2 (List.mem_map.2 ⟨f, hl f List.mem_cons_self, rfl⟩), Bool.and_true]
      rw [List.map_cons, List.filter_cons, List.filter_cons]
      simp only [hb]
      cases bits.testBit f.1 with
      | true => simp only [if_true, List.map_cons, ih]
      | false => simpa using ih
  have hws : ∀ w ∈ (names.filter fun f => bits.testBit f.1).map fun f => f.2.toList,
      ' ' ∉ w ∧ w ≠ [] ∧ w.head? ≠ some '0' := by
    intro w hw
    obtain ⟨f, hf, rfl⟩ := List.mem_map.1 hw
    exact hn f (List.mem_filter.1 hf).1
  have hz : bits &&& mask = 0 ↔ ((names.filter fun f => bits.testBit f.1).map fun f => f.2.toList) = [] := by
    rw [List.map_eq_nil_iff, List.filter_eq_nil_iff]
    constructor
    · intro h f hf hb
      have := congrArg (fun n => n.testBit f.1) h
      simp only [Nat.testBit_and, hb, (hm f.1).2 (List.mem_map.2 ⟨f, hf, rfl⟩), Nat.zero_testBit] at this
      cases this
    · intro h
      apply Nat.eq_of_testBit_eq
      intro i
      rw [Nat.testBit_and, Nat.zero_testBit]
      cases hi : mask.testBit i with
      | false => rw [Bool.and_false]
      | true =>
        obtain ⟨f, hf, rfl⟩ := List.mem_map.1 ((hm i).1 hi)
        have := h f hf
        rw [Bool.and_true]
        simpa using this
  generalize hi : (if bits &&& mask = 0 then "0x0".toList
    else joinBars (((names.map fun f => (2 ^ f.1, f.2)).filter fun f => containsFlag (bits &&& mask) f.1).map
      fun f => f.2.toList)) = inside
  have he : flagsDebug type (names.map fun f => (2 ^ f.1, f.2)) (bits &&& mask) =
      type.toList ++ ['('] ++ (inside ++ [')']) := by
    unfold flagsDebug
    rw [hi]
    simp
  unfold NamesFlags readFlags
  rw [he, if_pos ⟨List.prefix_append _ _, by
    rw [← List.append_assoc, List.getLast?_concat]⟩]
  have hd : (type.toList ++ ['('] ++ (inside ++ [')'])).drop (type.toList.length + 1) = inside ++ [')'] := by
    have : (type.toList ++ ['(']).length = type.toList.length + 1 := by simp
    rw [← this, List.drop_left]
  simp only [hd, List.dropLast_concat]
  rw [hf names fun f h => h] at hi
  by_cases h0 : bits &&& mask = 0
  · rw [if_pos h0] at hi
    rw [if_pos hi.symm, hz.1 h0]
  · rw [if_neg h0] at hi
    have hne := fun h => h0 (hz.2 h)
    generalize (names.filter fun f => bits.testBit f.1).map (fun f => f.2.toList) = ws at hi hws hne ⊢
    rw [← hi, if_neg, splitBars_join ws hne fun w hw => (hws w hw).1]
    cases ws with
    | nil => exact absurd rfl hne
    | cons w ws =>
      intro h
      have h1 := joinBars_head w ws (hws w List.mem_cons_self).2.1
      rw [h] at h1
      exact (hws w List.mem_cons_self).2.2 (h1.symm.trans rfl)

theorem keyFlags_mask (i : Nat) : keyNodeFlagsMask.testBit i = true ↔ i ∈ keyFlagNames.map Prod.fst := by
  by_cases h : i < 16
  · have : ∀ j < 16, keyNodeFlagsMask.testBit j = true ↔ j ∈ keyFlagNames.map Prod.fst := by decide
    exact this i h
  · rw [Nat.testBit_lt_two_pow (Nat.lt_of_lt_of_le (by decide : keyNodeFlagsMask < 2 ^ 16)
      (Nat.pow_le_pow_right (by decide) (by omega)))]
    refine ⟨fun h => Bool.noConfusion h, fun hm => ?_⟩
    have : ∀ j ∈ keyFlagNames.map Prod.fst, j < 16 := by decide
    exact absurd (this i hm) h

theorem accessFlags_mask (i : Nat) : accessFlagsMask.testBit i = true ↔ i ∈ accessFlagNames.map Prod.fst := by
  by_cases h : i < 2
  · have : ∀ j < 2, accessFlagsMask.testBit j = true ↔ j ∈ accessFlagNames.map Prod.fst := by decide
    exact this i h
  · rw [Nat.testBit_lt_two_pow (Nat.lt_of_lt_of_le (by decide : accessFlagsMask < 2 ^ 2)
      (Nat.pow_le_pow_right (by decide) (by omega)))]
    refine ⟨fun h => Bool.noConfusion h, fun hm => ?_⟩
    have : ∀ j ∈ accessFlagNames.map Prod.fst, j < 2 := by decide
    exact absurd (this i hm) h

/-- C59: the text of the flags of a key names exactly those of the documented flags that are stored. -/
theorem keyFlags_named (k : KeyNode) : NamesFlags "KeyNodeFlags" keyFlagNames k.flagBits (keyFlagsText k) :=
  flags_named "KeyNodeFlags" keyFlagNames keyNodeFlagsMask k.flagBits keyFlags_mask (by decide)

/-- C59: the same for the access flags. -/
theorem keyAccess_named (k : KeyNode) : NamesFlags "AccessFlags" accessFlagNames k.accessBits (keyAccessText k) :=
  flags_named "AccessFlags" accessFlagNames accessFlagsMask k.accessBits accessFlags_mask (by decide)

/-- C59, partial: the same for the flags of a value.  Missing: values with bits that have no name, whose
flags are all dropped (`value_flags_violated`). -/
theorem valueFlags_named_partial (raw : Nat) (h : raw &&& keyValueFlagsMask = raw) :
    NamesFlags "CellKeyValueFlags" valueFlagNames raw (valueFlagsText (keyValueFlags raw)) := by
  have := flags_named "CellKeyValueFlags" valueFlagNames keyValueFlagsMask raw (fun i => ?_) (by decide)
  · unfold keyValueFlags
    rw [if_pos h]
    rw [h] at this
    exact this
  by_cases h : i < 2
  · have : ∀ j < 2, keyValueFlagsMask.testBit j = true ↔ j ∈ valueFlagNames.map Prod.fst := by decide
    exact this i h
  · rw [Nat.testBit_lt_two_pow (Nat.lt_of_lt_of_le (by decide : keyValueFlagsMask < 2 ^ 2)
      (Nat.pow_le_pow_right (by decide) (by omega)))]
    refine ⟨fun h => Bool.noConfusion h, fun hm => ?_⟩
    have : ∀ j ∈ valueFlagNames.map Prod.fst, j < 2 := by decide
    exact absurd (this i hm) h

example : (3 : Nat) &&& keyValueFlagsMask = 3 ∧
    valueFlagsText 3 = "CellKeyValueFlags(VALUE_COMP_NAME_ASCII | IS_TOMBSTONE)".toList := by decide +kernel

/-- The flags of a root key. -/
example : keyFlagsText { defaultKey with flagBits := 0x2C } =
    "KeyNodeFlags(KEY_HIVE_ENTRY | KEY_NO_DELETE | KEY_COMP_NAME)".toList := by decide +kernel

/-! ### Texts in quotes -/

theorem hexDigitVal_digitChar : ∀ n < 16, hexDigitVal n.digitChar = some n ∧ n.digitChar ≠ '}' := by decide

/-- Hexadecimal digits read back. -/
theorem hex_digits (n : Nat) : (∀ c ∈ Nat.toDigits 16 n, c ≠ '}') ∧
    (Nat.toDigits 16 n).foldl (fun v c => 16 * v + (hexDigitVal c).getD 0) 0 = n := by
  induction n using Nat.strongRecOn with
  | ind n ih =>
    by_cases h : n < 16
    · rw [Nat.toDigits_of_lt_base h]
      obtain ⟨h1, h2⟩ := hexDigitVal_digitChar n h
      refine ⟨fun c hc => by rw [List.mem_singleton.1 hc]; exact h2, ?_⟩
      simp [h1]
    · rw [Nat.toDigits_of_base_le (by decide) (by omega)]
      obtain ⟨i1, i2⟩ := ih (n / 16) (by omega)
      obtain ⟨h1, h2⟩ := hexDigitVal_digitChar (n % 16) (by omega)
      constructor
      · intro c hc
        rcases List.mem_append.1 hc with hc | hc
        · exact i1 c hc
        · rw [List.mem_singleton.1 hc]; exact h2
      · rw [List.foldl_append, i2]
        simp only [List.foldl_cons, List.foldl_nil, h1, Option.getD_some]
        omega

theorem takeWhile_brace (ds r : Str) (h : ∀ c ∈ ds, c ≠ '}') :
    (ds ++ '}' :: r).takeWhile (· ≠ '}') = ds ∧ ((ds ++ '}' :: r).dropWhile (· ≠ '}')).drop 1 = r := by
  induction ds with
  | nil => simp
  | cons d ds ih =>
    have h1 := ih fun c hc => h c (List.mem_cons_of_mem _ hc)
    have h2 : decide (d ≠ '}') = true := decide_eq_true (h d List.mem_cons_self)
    constructor
    · rw [List.cons_append, List.takeWhile_cons, if_pos h2, h1.1]
    · rw [List.cons_append, List.dropWhile_cons, if_pos h2, h1.2]

/-- An escaped character reads back. -/
theorem readDebug_char (printed : Char → Bool) (c : Char) (s : Str) :
    readDebug (debugChar printed c ++ s) = (readDebug s).map fun (t, r) => (c :: t, r) := by
  unfold debugChar
  by_cases h0 : c.toNat = 0
  · rw [if_pos h0]
    have : c = '\x00' := char_toNat.2 h0
    subst this
    rw [List.cons_append, List.cons_append, List.nil_append, readDebug]
  rw [if_neg h0]
  by_cases h1 : c = '\t'
  · subst h1
    rw [if_pos rfl, List.cons_append, List.cons_append, List.nil_append, readDebug]
  rw [if_neg h1]
  by_cases h2 : c = '\r'
  · subst h2
    rw [if_pos rfl, List.cons_append, List.cons_append, List.nil_append, readDebug]
  rw [if_neg h2]
  by_cases h3 : c = '\n'
  · subst h3
    rw [if_pos rfl, List.cons_append, List.cons_append, List.nil_append, readDebug]
  rw [if_neg h3]
  by_cases h4 : c = '"'
  · subst h4
    rw [if_pos rfl, List.cons_append, List.cons_append, List.nil_append, readDebug]
  rw [if_neg h4]
  by_cases h5 : c = '\\'
  · subst h5
    rw [if_pos rfl, List.cons_append, List.cons_append, List.nil_append, readDebug]
  rw [if_neg h5]
  by_cases h6 : printed c = true
  · rw [if_pos h6, List.cons_append, List.nil_append, readDebug.eq_def]
    split <;> rename_i heq <;> simp_all
  rw [if_neg h6]
  obtain ⟨a, b⟩ := hex_digits c.toNat
  obtain ⟨e1, e2⟩ := takeWhile_brace (Nat.toDigits 16 c.toNat) s a
  have : '\\' :: 'u' :: '{' :: Nat.toDigits 16 c.toNat ++ ['}'] ++ s =
      '\\' :: 'u' :: '{' :: (Nat.toDigits 16 c.toNat ++ '}' :: s) := by simp
  rw [this, readDebug, e1, e2, b, Char.ofNat_toNat]

theorem readDebug_text (printed : Char → Bool) (s r : Str) :
    readDebug (s.flatMap (debugChar printed) ++ '"' :: r) = some (s, r) := by
  induction s with
  | nil => rw [List.flatMap_nil, List.nil_append, readDebug]
  | cons c s ih =>
    rw [List.flatMap_cons, List.append_assoc, readDebug_char, ih]
    rfl

theorem readTexts_join (printed : Char → Bool) (m : List Str) (hm : m ≠ []) (fuel : Nat) (hf : m.length ≤ fuel) :
    readTexts fuel (joinCommas (m.map (debugStr printed)) ++ [']']) = some m := by
  induction m generalizing fuel with
  | nil => exact absurd rfl hm
  | cons s m ih =>
    cases fuel with
    | zero => simp at hf
    | succ fuel =>
      cases m with
      | nil =>
        simp only [List.map_cons, List.map_nil, joinCommas, debugStr, List.cons_append, List.append_assoc,
          List.nil_append, readTexts, readDebug_text]
      | cons t m =>
        have ih := ih (by simp) fuel (by simp at hf ⊢; omega)
        simp only [List.map_cons] at ih
        simp only [List.map_cons, joinCommas, debugStr, List.cons_append, List.append_assoc,
          List.nil_append, readTexts, readDebug_text]
        simp only [debugStr, List.cons_append, List.append_assoc, List.nil_append] at ih
        rw [ih]
        rfl

theorem joinCommas_length (printed : Char → Bool) (m : List Str) :
    m.length ≤ (joinCommas (m.map (debugStr printed))).length := by
  induction m with
  | nil => exact Nat.zero_le _
  | cons s m ih =>
    cases m with
    | nil => simp [joinCommas, debugStr]
    | cons t m =>
      simp only [List.map_cons, joinCommas, List.length_append, List.length_cons] at ih ⊢
      omega

theorem readTextList_debug (printed : Char → Bool) (m : List Str) : readTextList (debugList printed m) = some m := by
  cases m with
  | nil => rfl
  | cons s m =>
    have h1 := joinCommas_length printed (s :: m)
    have h2 := readTexts_join printed (s :: m) (by simp)
      (('[' :: joinCommas ((s :: m).map (debugStr printed)) ++ [']']).length) (by
        simp only [List.length_append, List.length_cons] at h1 ⊢
        omega)
    unfold debugList
    have hq : ∃ q, joinCommas ((s :: m).map (debugStr printed)) = '"' :: q := by
      cases m with
      | nil => exact ⟨_, rfl⟩
      | cons t m => exact ⟨_, rfl⟩
    obtain ⟨q, hq⟩ := hq
    rw [hq] at h2 ⊢
    simp only [List.cons_append] at h2 ⊢
    unfold readTextList
    simpa using h2

theorem readNumber_decimal (n : Nat) : readNumber (decimal n) = some n := by
  have := readDigits_decimal n [] (fun c s h => by cases h)
  rw [List.append_nil] at this
  rw [readNumber, this]

theorem readSigned_text (i : Int) : readSigned (intText i) = some i := by
  cases i with
  | ofNat n =>
    rw [intText]
    cases hd : decimal n with
    | nil => exact absurd hd Nat.toDigits_ne_nil
    | cons c cs =>
      have hc : c.isDigit := decimal_digit (n := n) (by rw [hd]; exact List.mem_cons_self)
      have hn := readNumber_decimal n
      rw [hd] at hn
      unfold readSigned
      split
      · rename_i heq
        rw [(List.cons.inj heq).1] at hc
        exact absurd hc (by decide)
      · rw [hn]; rfl
  | negSucc n =>
    rw [intText, readSigned, readNumber_decimal]
    rfl

/-- C60: from the data and the type in a row the decoded content of the value can be read. -/
theorem content_read_back (printed : Char → Bool) (v : CellValue) :
    readContent v.typeText (v.display (debugList printed)) = some v := by
  cases v with
  | None => rfl
  | Error => rfl
  | Binary b =>
    show readContent "Binary".toList (toHexString b) = _
    unfold readContent
    rw [if_neg (fun h => absurd h.1 (by decide)), if_neg (fun h => absurd h.1 (by decide)), if_pos rfl,
      hex_roundtrip]
    rfl
  | String s =>
    show readContent "String".toList (s) = _
    unfold readContent
    rw [if_neg (fun h => absurd h.1 (by decide)), if_neg (fun h => absurd h.1 (by decide)), if_neg (by decide),
      if_pos rfl]
  | MultiString m =>
    show readContent "MultiString".toList (debugList printed m) = _
    unfold readContent
    rw [if_neg (fun h => absurd h.1 (by decide)), if_neg (fun h => absurd h.1 (by decide)), if_neg (by decide),
      if_neg (by decide), if_pos rfl, readTextList_debug]
    rfl
  | U32 n =>
    show readContent "U32".toList (decimal n) = _
    unfold readContent
    rw [if_neg (fun h => absurd h.1 (by decide)), if_neg (fun h => absurd h.1 (by decide)), if_neg (by decide),
      if_neg (by decide), if_neg (by decide), if_pos rfl, readNumber_decimal]
    rfl
  | I32 i =>
    show readContent "I32".toList (intText i) = _
    unfold readContent
    rw [if_neg (fun h => absurd h.1 (by decide)), if_neg (fun h => absurd h.1 (by decide)), if_neg (by decide),
      if_neg (by decide), if_neg (by decide), if_neg (by decide), if_neg (by decide), if_pos rfl, readSigned_text]
    rfl
  | U64 n =>
    show readContent "U64".toList (decimal n) = _
    unfold readContent
    rw [if_neg (fun h => absurd h.1 (by decide)), if_neg (fun h => absurd h.1 (by decide)), if_neg (by decide),
      if_neg (by decide), if_neg (by decide), if_neg (by decide), if_pos rfl, readNumber_decimal]
    rfl
  | I64 i =>
    show readContent "I64".toList (intText i) = _
    unfold readContent
    rw [if_neg (fun h => absurd h.1 (by decide)), if_neg (fun h => absurd h.1 (by decide)), if_neg (by decide),
      if_neg (by decide), if_neg (by decide), if_neg (by decide), if_neg (by decide), if_neg (by decide), if_pos rfl,
      readSigned_text]
    rfl

/-! ### The characters of the texts -/

theorem dateText_chars (secs : Nat) : ∀ c ∈ dateText secs, 45 ≤ c.toNat ∧ c.toNat ≤ 90 := by
  have hp : ∀ w n, ∀ c ∈ padded w n, 45 ≤ c.toNat ∧ c.toNat ≤ 90 := fun w n c hc => by
    have := padded_digit w n c hc
    omega
  unfold dateText
  intro c hc
  simp only [List.mem_append, List.mem_cons, List.append_assoc, List.cons_append] at hc
  rcases hc with h | rfl | h | rfl | h | rfl | h | rfl | h | rfl | h
  all_goals first | exact hp _ _ _ h | decide

theorem time_chars (k : KeyNode) : ∀ c ∈ keyTime k, 45 ≤ c.toNat ∧ c.toNat ≤ 90 := by
  have hp : ∀ w n, ∀ c ∈ padded w n, 45 ≤ c.toNat ∧ c.toNat ≤ 90 := fun w n c hc => by
    have := padded_digit w n c hc
    omega
  unfold keyTime formatDateTime
  intro c hc
  simp only at hc
  split at hc
  · simp only [List.mem_append, List.mem_cons, List.append_assoc, List.cons_append, List.not_mem_nil, or_false] at hc
    rcases hc with h | rfl | h | rfl
    · exact dateText_chars _ c h
    · decide
    · exact hp _ _ _ (List.mem_of_mem_take h)
    · decide
  · simp only [List.mem_append, List.mem_cons, List.append_assoc, List.cons_append, List.not_mem_nil, or_false] at hc
    rcases hc with h | rfl | h | rfl
    · exact dateText_chars _ c h
    · decide
    · exact hp _ _ _ h
    · decide

theorem time_length (k : KeyNode) : (keyTime k).length ≤ 30 := by
  have hd : ∀ secs, (dateText secs).length = 19 := fun secs => by
    unfold dateText
    simp [padded_length]
  unfold keyTime formatDateTime
  simp only
  split
  · simp only [List.length_append, List.length_cons, List.length_nil, hd, List.length_take, padded_length]
    decide
  · simp only [List.length_append, List.length_cons, List.length_nil, hd, padded_length]
    decide

theorem time_bare {sep : Char} (hsep : Sep sep) (k : KeyNode) : Bare sep (keyTime k) := by
  intro c hc
  have := time_chars k c hc
  refine ⟨fun h => ?_, fun h => ?_, fun h => ?_⟩
  · rcases hsep with rfl | rfl <;> (subst h; revert this; decide)
  · subst h; revert this; decide
  · subst h; revert this; decide

theorem joinBars_mem (ws : List Str) (c : Char) (h : c ∈ joinBars ws) : c = ' ' ∨ c = '|' ∨ ∃ w ∈ ws, c ∈ w := by
  induction ws with
  | nil => exact absurd h List.not_mem_nil
  | cons w ws ih =>
    cases ws with
    | nil => exact .inr (.inr ⟨w, List.mem_cons_self, h⟩)
    | cons v vs =>
      simp only [joinBars, List.mem_append, List.mem_cons] at h
      rcases h with h | rfl | rfl | rfl | h
      · exact .inr (.inr ⟨w, List.mem_cons_self, h⟩)
      · exact .inl rfl
      · exact .inr (.inl rfl)
      · exact .inl rfl
      · rcases ih h with h | h | ⟨x, hx, h⟩
        · exact .inl h
        · exact .inr (.inl h)
        · exact .inr (.inr ⟨x, List.mem_cons_of_mem _ hx, h⟩)

theorem joinBars_length (ws : List Str) : (joinBars ws).length ≤ (ws.map fun w => w.length + 3).sum := by
  induction ws with
  | nil => exact Nat.le_refl _
  | cons w ws ih =>
    cases ws with
    | nil => simp [joinBars]
    | cons v vs =>
      simp only [joinBars, List.length_append, List.length_cons, List.map_cons, List.sum_cons] at ih ⊢
      omega

/-- Characters of names. -/
def NameChar (c : Char) : Prop := 32 ≤ c.toNat ∧ c.toNat ≤ 124 ∧ c ≠ '"'

instance (c : Char) : Decidable (NameChar c) := inferInstanceAs (Decidable (_ ∧ _))

theorem flagsDebug_chars (type : String) (table : List (Nat × String)) (bits : Nat)
    (ht : ∀ c ∈ type.toList, NameChar c) (hn : ∀ f ∈ table, ∀ c ∈ f.2.toList, NameChar c) :
    ∀ c ∈ flagsDebug type table bits, NameChar c := by
  intro c hc
  unfold flagsDebug at hc
  simp only [List.mem_append, List.mem_cons, List.not_mem_nil, or_false] at hc
  rcases hc with (h | rfl | h) | rfl
  · exact ht c h
  · decide
  · by_cases h0 : bits = 0
    · rw [if_pos h0] at h
      have : ∀ c ∈ "0x0".toList, NameChar c := by decide
      exact this c h
    · rw [if_neg h0] at h
      rcases joinBars_mem _ c h with rfl | rfl | ⟨w, hw, h⟩
      · decide
      · decide
      · obtain ⟨f, hf, rfl⟩ := List.mem_map.1 hw
        exact hn f (List.mem_filter.1 hf).1 c h
  · decide

theorem flagsDebug_length (type : String) (table : List (Nat × String)) (bits : Nat) :
    (flagsDebug type table bits).length ≤ type.toList.length + 5 + (table.map fun f => f.2.toList.length + 3).sum := by
  have hs : ∀ l : List (Nat × String),
      (((l.filter fun f => containsFlag bits f.1).map fun f => f.2.toList).map fun w => w.length + 3).sum ≤
        (l.map fun f => f.2.toList.length + 3).sum := by
    intro l
    induction l with
    | nil => exact Nat.le_refl _
    | cons f l ih =>
      rw [List.filter_cons]
      split
      · simp only [List.map_cons, List.sum_cons] at ih ⊢
        omega
      · simp only [List.map_cons, List.sum_cons] at ih ⊢
        omega
  unfold flagsDebug
  simp only [List.length_append, List.length_cons, List.length_nil]
  by_cases h0 : bits = 0
  · rw [if_pos h0]
    have : ("0x0".toList).length = 3 := by decide
    omega
  · rw [if_neg h0]
    have h1 := joinBars_length ((table.filter fun f => containsFlag bits f.1).map fun f => f.2.toList)
    have h2 := Nat.le_trans h1 (hs table)
    omega

theorem nameChar_bare {s : Str} (h : ∀ c ∈ s, NameChar c) : Bare '\t' s := by
  intro c hc
  obtain ⟨h1, h2, h3⟩ := h c hc
  refine ⟨fun h => ?_, fun h => ?_, h3⟩
  · subst h; revert h1; decide
  · subst h; revert h1; decide

theorem keyFlags_chars (k : KeyNode) : ∀ c ∈ keyFlagsText k, NameChar c :=
  flagsDebug_chars _ _ _ (by decide) (by decide)

theorem keyAccess_chars (k : KeyNode) : ∀ c ∈ keyAccessText k, NameChar c :=
  flagsDebug_chars _ _ _ (by decide) (by decide)

theorem type_chars (v : CellValue) : ∀ c ∈ v.typeText, NameChar c := by
  have : ∀ s ∈ ["None", "Binary", "String", "MultiString", "U32", "I32", "U64", "I64", "Error"],
    ∀ c ∈ s.toList, NameChar c := by decide
  cases v <;> exact this _ (by simp)

/-- C52: the texts written without quotes need none. -/
theorem tsv_plain (u : Prints) : u.tsv.Plain :=
  ⟨fun k => time_bare sep_tab k, fun k => nameChar_bare (keyFlags_chars k), fun k => nameChar_bare (keyAccess_chars k),
    fun v => nameChar_bare (type_chars (valueContent v))⟩

theorem legal_of_range {s : Str} (h : ∀ c ∈ s, 32 ≤ c.toNat ∧ c.toNat ≤ 124) : Legal s := by
  intro c hc
  obtain ⟨h1, h2⟩ := h c hc
  unfold XmlChar
  omega

theorem debugChar_legal (printed : Char → Bool) (hp : ∀ c, printed c = true → XmlChar c) (c : Char) :
    Legal (debugChar printed c) := by
  unfold debugChar
  have hd : ∀ n, Legal (Nat.toDigits 16 n) := fun n c hc => by
    have : c ∈ (List.range 16).map Nat.digitChar := by
      induction n using Nat.strongRecOn with
      | ind n ih =>
        by_cases h : n < 16
        · rw [Nat.toDigits_of_lt_base h] at hc
          exact List.mem_map.2 ⟨n, List.mem_range.2 h, (List.mem_singleton.1 hc).symm⟩
        · rw [Nat.toDigits_of_base_le (by decide) (by omega)] at hc
          rcases List.mem_append.1 hc with hc | hc
          · exact ih _ (by omega) hc
          · exact List.mem_map.2 ⟨n % 16, List.mem_range.2 (by omega), (List.mem_singleton.1 hc).symm⟩
    have h2 : ∀ c ∈ (List.range 16).map Nat.digitChar, XmlChar c := by decide
    exact h2 c this
  split
  · unfold Legal; decide
  split
  · unfold Legal; decide
  split
  · unfold Legal; decide
  split
  · unfold Legal; decide
  split
  · unfold Legal; decide
  split
  · unfold Legal; decide
  split
  · rename_i h
    intro d hdd
    rw [List.mem_singleton.1 hdd]
    exact hp c h
  · intro d hdd
    simp only [List.mem_append, List.mem_cons, List.cons_append, List.not_mem_nil, or_false] at hdd
    rcases hdd with rfl | rfl | rfl | h | rfl
    · decide
    · decide
    · decide
    · exact hd _ d h
    · decide

theorem debugList_legal (printed : Char → Bool) (hp : ∀ c, printed c = true → XmlChar c) (m : List Str) :
    Legal (debugList printed m) := by
  have hs : ∀ s, Legal (debugStr printed s) := by
    intro s c hc
    unfold debugStr at hc
    simp only [List.mem_append, List.mem_cons, List.not_mem_nil, or_false, List.cons_append, List.mem_flatMap] at hc
    rcases hc with rfl | ⟨d, -, h⟩ | rfl
    · decide
    · exact debugChar_legal printed hp d c h
    · decide
  have hj : ∀ m : List Str, Legal (joinCommas (m.map (debugStr printed))) := by
    intro m
    induction m with
    | nil => exact legal_nil
    | cons s m ih =>
      cases m with
      | nil => exact hs s
      | cons t m =>
        intro c hc
        simp only [List.map_cons, joinCommas, List.mem_append, List.mem_cons] at hc
        rcases hc with h | rfl | rfl | h
        · exact hs s c h
        · decide
        · decide
        · exact ih c h
  intro c hc
  unfold debugList at hc
  simp only [List.mem_append, List.mem_cons, List.not_mem_nil, or_false, List.cons_append] at hc
  rcases hc with rfl | h | rfl
  · decide
  · exact hj m c h
  · decide

/-- C53, C54: the texts of the spreadsheet have only characters XML 1.0 allows when `Debug` prints only
such characters as they are. -/
theorem xlsx_plain (u : Prints) (hp : ∀ c, u.printed c = true → XmlChar c) : u.xlsx.Plain where
  time k := legal_of_range fun c hc => by have := time_chars k c hc; omega
  flags k := legal_of_range fun c hc => by have := keyFlags_chars k c hc; exact ⟨this.1, this.2.1⟩
  access k := legal_of_range fun c hc => by have := keyAccess_chars k c hc; exact ⟨this.1, this.2.1⟩
  type v := legal_of_range fun c hc => by have := type_chars (valueContent v) c hc; exact ⟨this.1, this.2.1⟩
  dbg m := debugList_legal u.printed hp m

theorem xlsx_short (u : Prints) : u.xlsx.Short where
  time k := Nat.le_trans (time_length k) (by decide)
  flags k := Nat.le_trans (flagsDebug_length _ _ _) (by decide)
  access k := Nat.le_trans (flagsDebug_length _ _ _) (by decide)

end Notatin
