import Verif.Model.Util
import Verif.Spec.Text
import Verif.Spec.Time
import Verif.Lemmas.Text
/-
Property theorems C20 (FILETIME), C21 (ROT13), C22 (hex), C23 (escaping), C25 (root prefix).
-/
namespace Notatin
open Spec

/-! ### C20 -/

namespace Spec
/-- The instant a FILETIME denotes (100 ns ticks since 1601-01-01), in nanoseconds since 1970. -/
def filetimeInstant (ticks : Nat) : Int :=
  (ticks : Int) * 100 - (daysFrom 1601 (1970 - 1601) : Int) * 86400 * 1000000000

/-- The full claim of C20 (exactness). -/
def FiletimeExact : Prop := ∀ ft : Nat, ft < 2 ^ 64 → dateTimeFromFiletime ft = filetimeInstant ft
end Spec

theorem daysFrom_val : daysFrom 1601 (1970 - 1601) = 134774 := by decide +kernel

/-- C20, partial: the conversion is exact precisely for FILETIMEs whose instant fits in a signed
64-bit number of nanoseconds around 1970 (years 1677 to 2262); missing: all other FILETIMEs, for
which the code yields a wrong instant (`filetime_violated`). -/
theorem filetime_exact_iff_partial (ft : Nat) :
    dateTimeFromFiletime ft = filetimeInstant ft ↔
      (-(2 ^ 63) ≤ filetimeInstant ft ∧ filetimeInstant ft < 2 ^ 63) := by
  unfold dateTimeFromFiletime filetimeInstant wrapI64
  rw [daysFrom_val]
  dsimp only
  split <;> constructor <;> intro h <;> omega

/-- C20, partial: within that range conversion preserves and reflects order. -/
theorem filetime_monotone_partial (a b : Nat)
    (ha : -(2 ^ 63) ≤ filetimeInstant a ∧ filetimeInstant a < 2 ^ 63)
    (hb : -(2 ^ 63) ≤ filetimeInstant b ∧ filetimeInstant b < 2 ^ 63) :
    dateTimeFromFiletime a < dateTimeFromFiletime b ↔ a < b := by
  rw [(filetime_exact_iff_partial a).2 ha, (filetime_exact_iff_partial b).2 hb]
  unfold filetimeInstant
  omega

/-- The hypotheses are met by 2021-01-01T00:00:00Z. -/
example : -(2 ^ 63) ≤ filetimeInstant 132539328000000000 ∧
    filetimeInstant 132539328000000000 < 2 ^ 63 ∧
    dateTimeFromFiletime 132539328000000000 = 1609459200 * 1000000000 := by decide +kernel

/-- C20 is violated: FILETIME 0 (1601-01-01) is reported as an instant in the year 2185. -/
theorem filetime_violated : ¬ FiletimeExact ∧
    dateTimeFromFiletime 0 = 6802270473709551616 ∧ ∃ a b, a < b ∧ b < 2 ^ 64 ∧
      dateTimeFromFiletime b < dateTimeFromFiletime a := by
  refine ⟨fun h => ?_, by decide +kernel, 0, 132539328000000000, by decide, by decide,
    by decide +kernel⟩
  have := h 0 (by decide)
  revert this
  decide +kernel

/-! ### C21 -/

theorem char_le_iff (a b : Char) : a ≤ b ↔ a.toNat ≤ b.toNat := Iff.rfl

theorem char_ext {a b : Char} (h : a.toNat = b.toNat) : a = b := by
  rw [← Char.ofNat_toNat a, ← Char.ofNat_toNat b, h]

namespace Spec
/-- The letter 13 places on in its alphabet (`base` is `'A'` or `'a'`). -/
def isRot (base : Nat) (c d : Char) : Prop :=
  base ≤ c.toNat ∧ c.toNat < base + 26 ∧ d.toNat = base + (c.toNat - base + 13) % 26
end Spec

theorem rot13Char_spec (c : Char) :
    isRot 65 c (rot13Char c) ∨ isRot 97 c (rot13Char c) ∨
      (rot13Char c = c ∧ ¬ (65 ≤ c.toNat ∧ c.toNat ≤ 90) ∧ ¬ (97 ≤ c.toNat ∧ c.toNat ≤ 122)) := by
  unfold rot13Char isRot
  simp only [char_le_iff]
  have e1 : 'A'.toNat = 65 := rfl
  have e2 : 'M'.toNat = 77 := rfl
  have e3 : 'a'.toNat = 97 := rfl
  have e4 : 'm'.toNat = 109 := rfl
  have e5 : 'N'.toNat = 78 := rfl
  have e6 : 'Z'.toNat = 90 := rfl
  have e7 : 'n'.toNat = 110 := rfl
  have e8 : 'z'.toNat = 122 := rfl
  simp only [e1, e2, e3, e4, e5, e6, e7, e8]
  split
  · rw [toNat_ofNat_of_valid (.inl (by omega))]; omega
  · split
    · rw [toNat_ofNat_of_valid (.inl (by omega))]; omega
    · right; right; refine ⟨rfl, ?_, ?_⟩ <;> omega

/-- C21: the decoder maps character by character: ASCII letters 13 places on within their case,
everything else to itself. -/
theorem rot13_pointwise (t : Str) :
    (decodeRot13 t).length = t.length ∧
    ∀ i (h : i < t.length), ∃ d, (decodeRot13 t)[i]? = some d ∧
      (isRot 65 t[i] d ∨ isRot 97 t[i] d ∨
        (d = t[i] ∧ ¬ (65 ≤ t[i].toNat ∧ t[i].toNat ≤ 90) ∧
          ¬ (97 ≤ t[i].toNat ∧ t[i].toNat ≤ 122))) := by
  refine ⟨by simp [decodeRot13], fun i h => ⟨rot13Char t[i], ?_, ?_⟩⟩
  · simp [decodeRot13, h]
  · exact rot13Char_spec t[i]

/-- C21: decoding twice gives back the text. -/
theorem rot13_involution (t : Str) : decodeRot13 (decodeRot13 t) = t := by
  unfold decodeRot13
  rw [List.map_map]
  conv => rhs; rw [← List.map_id t]
  apply List.map_congr_left
  intro c _
  have h1 := rot13Char_spec c
  have h2 := rot13Char_spec (rot13Char c)
  simp only [Function.comp, id]
  rcases h1 with h1 | h1 | h1
  · apply char_ext
    unfold isRot at *
    rcases h2 with h2 | h2 | h2 <;> omega
  · apply char_ext
    unfold isRot at *
    rcases h2 with h2 | h2 | h2 <;> omega
  · rw [h1.1, h1.1]

example : decodeRot13 "Pzq, é9".toList = "Cmd, é9".toList := by decide

/-! ### C22 -/

theorem trimEnd_append_ws (s : Str) (c : Char) (h : isWhitespace c = true) :
    trimEnd (s ++ [c]) = trimEnd s := by
  unfold trimEnd; simp [h]

theorem trimEnd_append_nonws (s : Str) (c : Char) (h : isWhitespace c = false) :
    trimEnd (s ++ [c]) = s ++ [c] := by
  unfold trimEnd; simp [h]

theorem hexDigit_nonws : ∀ n < 16, isWhitespace (hexDigit n) = false := by decide

theorem hexVal_hexDigit : ∀ n < 16, hexVal (hexDigit n) = some n := by decide

/-- The rendering of one byte. -/
def hexPair (b : UInt8) : Str := [hexDigit (b.toNat / 16), hexDigit (b.toNat % 16)]

namespace Spec
/-- Pairs separated by single blanks. -/
def hexJoin : Bytes → (UInt8 → Str) → Str
  | [], _ => []
  | [b], f => f b
  | b :: c :: bs, f => f b ++ ' ' :: hexJoin (c :: bs) f
end Spec

theorem flatMap_hex (bs : Bytes) (hne : bs ≠ []) :
    (bs.flatMap fun b => [hexDigit (b.toNat / 16), hexDigit (b.toNat % 16), ' ']) =
      hexJoin bs hexPair ++ [' '] := by
  match bs with
  | [] => exact absurd rfl hne
  | [b] => simp [hexJoin, hexPair]
  | b :: c :: bs =>
    have := flatMap_hex (c :: bs) (by simp)
    rw [List.flatMap_cons, this]
    simp [hexJoin, hexPair]

theorem hexJoin_last (bs : Bytes) (hne : bs ≠ []) :
    ∃ s d, hexJoin bs hexPair = s ++ [d] ∧ isWhitespace d = false := by
  match bs with
  | [] => exact absurd rfl hne
  | [b] => exact ⟨[_], _, rfl, hexDigit_nonws _ (Nat.mod_lt _ (by decide))⟩
  | b :: c :: bs =>
    obtain ⟨s, d, h, hd⟩ := hexJoin_last (c :: bs) (by simp)
    exact ⟨hexPair b ++ ' ' :: s, d, by rw [hexJoin, h]; simp, hd⟩

/-- C22: the rendering is `HH HH ... HH` with exactly one blank between bytes. -/
theorem hex_form (bs : Bytes) : toHexString bs = hexJoin bs hexPair := by
  unfold toHexString
  by_cases h : bs = []
  · subst h; rfl
  · rw [flatMap_hex bs h, trimEnd_append_ws _ _ (by decide)]
    obtain ⟨s, d, h1, h2⟩ := hexJoin_last bs h
    rw [h1, trimEnd_append_nonws _ _ h2]

theorem readHex_join (bs : Bytes) : readHex (hexJoin bs hexPair) = some bs := by
  match bs with
  | [] => rfl
  | [b] =>
    have h1 := b.toNat_lt
    simp only [hexJoin, hexPair, readHex, hexVal_hexDigit _ (by omega : b.toNat / 16 < 16),
      hexVal_hexDigit _ (by omega : b.toNat % 16 < 16)]
    congr 2
    apply UInt8.toNat.inj; simp; omega
  | b :: c :: bs =>
    have h1 := b.toNat_lt
    have ih := readHex_join (c :: bs)
    have hx : ∃ h2 rest, hexJoin (c :: bs) hexPair = h2 :: rest := by
      cases bs with
      | nil => exact ⟨_, _, rfl⟩
      | cons _ _ => exact ⟨_, _, rfl⟩
    obtain ⟨h2, rest, hr⟩ := hx
    rw [hr] at ih
    simp only [hexJoin, hr, hexPair, List.cons_append, List.nil_append, readHex,
      hexVal_hexDigit _ (by omega : b.toNat / 16 < 16),
      hexVal_hexDigit _ (by omega : b.toNat % 16 < 16), ih]
    congr 2
    apply UInt8.toNat.inj; simp; omega

/-- C22: the rendering read back as hex pairs is the byte string. -/
theorem hex_roundtrip (bs : Bytes) : readHex (toHexString bs) = some bs := by
  rw [hex_form, readHex_join]

/-- C22: two different byte strings never render the same. -/
theorem hex_injective (as bs : Bytes) (h : toHexString as = toHexString bs) : as = bs := by
  have h1 := hex_roundtrip as
  rw [h, hex_roundtrip] at h1
  exact (Option.some.inj h1).symm

example : toHexString [0, 0xAB, 0x10] = "00 AB 10".toList := by decide

/-! ### C23 -/

namespace Spec
/-- Characters that force quoting in an export field. -/
def special (c : Char) : Prop := c = '\t' ∨ c = '\r' ∨ c = '\n' ∨ c = ',' ∨ c = '"'
end Spec

theorem any_special (s : Str) :
    (s.any fun c => ['\t', '\r', '\n', ',', '"'].contains c) = true ↔ ∃ c ∈ s, special c := by
  simp [special]

/-- C23: a text without special characters is exported unchanged. -/
theorem escape_plain (s : Str) (h : ∀ c ∈ s, ¬ special c) : escapeString s = s := by
  unfold escapeString
  rw [if_neg]
  rw [any_special]
  rintro ⟨c, hc, hs⟩
  exact h c hc hs

theorem readQuoted_escaped (s rest : Str) (hr : ∀ r, rest ≠ '"' :: r) :
    readQuoted ((s.flatMap fun c => if c = '"' then ['"', '"'] else [c]) ++ '"' :: rest) =
      some (s, rest) := by
  induction s with
  | nil =>
    cases rest with
    | nil => rfl
    | cons d r =>
      have : d ≠ '"' := fun h => hr r (by rw [h])
      simp only [List.flatMap_nil, List.nil_append]
      rw [readQuoted]
      intro r' h; simp at h; exact this h.1
  | cons c s ih =>
    rw [List.flatMap_cons]
    by_cases hc : c = '"'
    · subst hc
      simp only [if_true, List.cons_append, List.nil_append]
      rw [readQuoted, ih]; rfl
    · simp only [hc, if_false, List.cons_append, List.nil_append]
      rw [readQuoted, ih]
      · rfl
      · intro _ h; exact absurd h hc
      · exact hc

theorem readBare_plain (sep : Char) (s rest : Str) (hs : ∀ c ∈ s, ¬ special c) (hsep : special sep)
    (hr : rest = [] ∨ ∃ r, rest = sep :: r) :
    readBare sep (s ++ rest) = some (s, rest) := by
  induction s with
  | nil =>
    rcases hr with rfl | ⟨r, rfl⟩
    · rfl
    · simp [readBare]
  | cons c s ih =>
    have h1 := hs c (by simp)
    have hne : c ≠ sep := fun h => h1 (h ▸ hsep)
    have hne2 : ¬ (c = '"' ∨ c = '\r' ∨ c = '\n') := by
      unfold special at h1
      intro h
      apply h1
      rcases h with h | h | h <;> simp [h]
    rw [List.cons_append, readBare, if_neg hne, if_neg hne2, ih (fun d hd => hs d (by simp [hd]))]
    rfl

/-- C23: an escaped field, followed by the end of the row or a separator, reads back as the text. -/
theorem escape_read_field (sep : Char) (hsep : sep = '\t' ∨ sep = ',') (s rest : Str)
    (hr : rest = [] ∨ ∃ r, rest = sep :: r) :
    readField sep (escapeString s ++ rest) = some (s, rest) := by
  have hsp : special sep := by unfold special; rcases hsep with h | h <;> simp [h]
  by_cases h : ∃ c ∈ s, special c
  · unfold escapeString
    rw [if_pos ((any_special s).2 h)]
    have hq : ∀ r, rest ≠ '"' :: r := by
      intro r hh
      rcases hr with rfl | ⟨r', rfl⟩
      · cases hh
      · rcases hsep with rfl | rfl <;> simp at hh
    have := readQuoted_escaped s rest hq
    simpa [readField] using this
  · have hp : ∀ c ∈ s, ¬ special c := fun c hc hs => h ⟨c, hc, hs⟩
    rw [escape_plain s hp]
    have hb := readBare_plain sep s rest hp hsp hr
    unfold readField
    split
    · rename_i r heq
      exfalso
      cases s with
      | nil =>
        simp only [List.nil_append] at heq
        rcases hr with rfl | ⟨r', rfl⟩
        · cases heq
        · rcases hsep with rfl | rfl <;> simp at heq
      | cons c s =>
        simp at heq
        exact hp c (by simp) (by unfold special; simp [heq.1])
    · exact hb

/-- C23: a row of escaped fields (tab or comma separated) reads back as exactly those fields. -/
theorem escape_row_roundtrip (sep : Char) (hsep : sep = '\t' ∨ sep = ',') (f : Str) (fs : List Str) :
    readRow sep (f :: fs).length (joinSep sep ((f :: fs).map escapeString)) = some (f :: fs) := by
  induction fs generalizing f with
  | nil =>
    have := escape_read_field sep hsep f [] (.inl rfl)
    simp only [List.append_nil] at this
    simp [joinSep, readRow, this]
  | cons g gs ih =>
    have h1 := escape_read_field sep hsep f (sep :: joinSep sep ((g :: gs).map escapeString))
      (.inr ⟨_, rfl⟩)
    rw [List.length_cons, readRow]
    have hj : joinSep sep ((f :: g :: gs).map escapeString) =
        escapeString f ++ sep :: joinSep sep ((g :: gs).map escapeString) := rfl
    rw [hj, h1]
    simp only [if_true]
    rw [ih g]; rfl

/-- C23: escaping never loses information. -/
theorem escape_injective (a b : Str) (h : escapeString a = escapeString b) : a = b := by
  have h1 := escape_read_field '\t' (.inl rfl) a [] (.inl rfl)
  rw [h, escape_read_field '\t' (.inl rfl) b [] (.inl rfl)] at h1
  simp at h1
  exact h1.symm

example : escapeString "a\t\"b\"".toList = "\"a\t\"\"b\"\"\"".toList := by decide

/-! ### C25 -/

theorem findBackslash_none (s : Str) : findBackslash s = none ↔ '\\' ∉ s := by
  induction s with
  | nil => simp [findBackslash]
  | cons c s ih =>
    by_cases h : c = '\\'
    · simp [findBackslash, h]
    · simp [findBackslash, h, ih]
      intro _ h2; exact h h2.symm

theorem findBackslash_some (a b : Str) (h : '\\' ∉ a) :
    findBackslash (a ++ '\\' :: b) = some (utf8Len a) := by
  induction a with
  | nil => simp [findBackslash, utf8Len]
  | cons c a ih =>
    simp at h
    have hc : c ≠ '\\' := fun hh => h.1 hh.symm
    simp [findBackslash, hc, ih h.2, utf8Len]; omega

theorem dropBytes_append (a b : Str) : dropBytes (utf8Len a) (a ++ b) = some b := by
  induction a with
  | nil => simp [utf8Len, dropBytes]
  | cons c a ih =>
    have hpos : 0 < c.utf8Size := Char.utf8Size_pos c
    have hlen : utf8Len (c :: a) = c.utf8Size + utf8Len a := by simp [utf8Len]
    rw [hlen]
    obtain ⟨n, hn⟩ : ∃ n, c.utf8Size + utf8Len a = n + 1 := ⟨c.utf8Size + utf8Len a - 1, by omega⟩
    rw [hn, List.cons_append, dropBytes, if_pos (by omega)]
    have : n + 1 - c.utf8Size = utf8Len a := by omega
    rw [this, ih]

/-- C25: for `\root\rest` exactly `\root\` is stripped. -/
theorem root_prefix_stripped (root rest : Str) (h : '\\' ∉ root) :
    dropBytes (getRootPathOffset ('\\' :: root ++ '\\' :: rest)) ('\\' :: root ++ '\\' :: rest) =
      some rest := by
  have h1 : getRootPathOffset ('\\' :: root ++ '\\' :: rest) = utf8Len root + 2 := by
    rw [List.cons_append, getRootPathOffset, findBackslash_some root rest h]
  have h2 : utf8Len root + 2 = utf8Len ('\\' :: root ++ ['\\']) := by
    simp [utf8Len, show '\\'.utf8Size = 1 from rfl]; omega
  rw [h1, h2]
  have := dropBytes_append ('\\' :: root ++ ['\\']) rest
  simpa using this

/-- C25: `\root` alone and paths without a leading backslash are not stripped. -/
theorem root_prefix_absent (p : Str)
    (h : (∃ root, p = '\\' :: root ∧ '\\' ∉ root) ∨ (∀ r, p ≠ '\\' :: r)) :
    getRootPathOffset p = 0 ∧ dropBytes (getRootPathOffset p) p = some p := by
  have h0 : getRootPathOffset p = 0 := by
    rcases h with ⟨root, rfl, hn⟩ | h
    · rw [getRootPathOffset, (findBackslash_none root).2 hn]
    · unfold getRootPathOffset
      split
      · rename_i r; exact absurd rfl (h r)
      · rfl
  refine ⟨h0, ?_⟩
  rw [h0]; unfold dropBytes; rfl

/-- C25: the offset always lies on a character boundary inside the path (slicing there never
panics). -/
theorem root_prefix_in_bounds (p : Str) :
    getRootPathOffset p ≤ utf8Len p ∧ ∃ r, dropBytes (getRootPathOffset p) p = some r := by
  by_cases h : (∃ root, p = '\\' :: root ∧ '\\' ∉ root) ∨ (∀ r, p ≠ '\\' :: r)
  · obtain ⟨h1, h2⟩ := root_prefix_absent p h
    exact ⟨by rw [h1]; omega, p, h2⟩
  · simp only [not_or, not_exists, not_and] at h
    obtain ⟨h1, h2⟩ := h
    have : ∃ q, p = '\\' :: q := by
      apply Classical.byContradiction
      intro hn; exact h2 fun r hr => hn ⟨r, hr⟩
    obtain ⟨q, rfl⟩ := this
    have hmem : '\\' ∈ q := Classical.byContradiction fun hn => h1 q rfl hn
    have : ∃ a b, q = a ++ '\\' :: b ∧ '\\' ∉ a := by
      clear h1 h2
      induction q with
      | nil => cases hmem
      | cons c q ih =>
        by_cases hc : c = '\\'
        · exact ⟨[], q, by simp [hc], by simp⟩
        · have hm : '\\' ∈ q := by
            rcases List.mem_cons.1 hmem with h | h
            · exact absurd h.symm hc
            · exact h
          obtain ⟨a, b, h3, h4⟩ := ih hm
          refine ⟨c :: a, b, by simp [h3], ?_⟩
          simp only [List.mem_cons, not_or]
          exact ⟨fun h => hc h.symm, h4⟩
    obtain ⟨a, b, rfl, ha⟩ := this
    have h3 := root_prefix_stripped a b ha
    refine ⟨?_, b, h3⟩
    have : getRootPathOffset ('\\' :: (a ++ '\\' :: b)) = utf8Len a + 2 := by
      rw [getRootPathOffset, findBackslash_some a b ha]
    rw [this]
    simp [utf8Len, show '\\'.utf8Size = 1 from rfl]; omega

example : getRootPathOffset "\\ROOT\\é\\b".toList = 6 ∧
    dropBytes 6 "\\ROOT\\é\\b".toList = some "é\\b".toList := by decide +kernel

end Notatin
