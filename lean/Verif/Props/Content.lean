import Verif.Spec.Content
import Verif.Props.Text
import Verif.Props.Util
import Verif.Props.Lznt1
import Verif.Lemmas.Slice
/-
Property theorems C17 (typed content) and C47 (decoding content never panics).
-/
namespace Notatin
open Spec

theorem leVal_eq (bs : Bytes) : leVal bs = leNat bs := by
  induction bs with
  | nil => rfl
  | cons b bs ih =>
    show b.toNat + 256 * leVal bs = _
    rw [ih]; rfl

theorem beVal_eq (bs : Bytes) : beVal bs = beNat bs := by
  unfold beNat
  rw [← leVal_eq]
  unfold beVal leVal
  rw [List.foldr_reverse]
  congr 1
  funext a b; omega

theorem numericArm_ok (w : Nat) (f : Bytes → CellValue) (bs : Bytes) (h : w ≤ bs.length) :
    numericArm w f bs {} = .ok (f (bs.take w), {}) := by
  unfold numericArm
  rw [getRange_eq _ _ _ (by omega) h, Nat.sub_zero, slice_zero_take]

theorem numericArm_short (w : Nat) (f : Bytes → CellValue) (bs : Bytes) (h : bs.length < w) :
    numericArm w f bs {} = .ok (.Binary bs, ({} : Logs).add .WarningConversion) := by
  unfold numericArm
  have : getRange bs 0 w = none := by unfold getRange; rw [if_neg (by omega)]
  rw [this]; rfl

/-- C17: a numeric type with enough bytes decodes to the number in its first bytes, without a
warning. -/
theorem content_number (t : DataType) (w : Nat) (hw : (kindOf t).width = some w) (bs : Bytes)
    (h : w ≤ bs.length) :
    ∃ v, getContent t (some bs) = .ok (v, none) ∧ numberOf v = (kindOf t).number bs := by
  have s2 : ∀ n, toI16 n = signedVal 2 n := by
    intro n; unfold toI16 signedVal
    simp only [show (256 ^ 2 : Nat) = 65536 by decide]
    split <;> split <;> omega
  have s4 : ∀ n, toI32 n = signedVal 4 n := by
    intro n; unfold toI32 signedVal
    simp only [show (256 ^ 4 : Nat) = 4294967296 by decide]
    split <;> split <;> omega
  have s8 : ∀ n, toI64 n = signedVal 8 n := by
    intro n; unfold toI64 signedVal
    simp only [show (256 ^ 8 : Nat) = 18446744073709551616 by decide]
    split <;> split <;> omega
  cases t <;> simp only [kindOf, Kind.width, Option.some.injEq, reduceCtorEq] at hw <;> subst hw <;>
    simp only [getContent, DataType.getValueContent, numericArm_ok _ _ _ h] <;>
    refine ⟨_, rfl, ?_⟩ <;>
    simp only [numberOf, kindOf, Kind.number, leVal_eq, beVal_eq, s2, s4, s8]

/-- C17: with too few bytes the raw bytes are returned, with one warning. -/
theorem content_number_short (t : DataType) (w : Nat) (hw : (kindOf t).width = some w) (bs : Bytes)
    (h : bs.length < w) :
    ∃ logs, getContent t (some bs) = .ok (.Binary bs, some logs) ∧
      logs.codes = [.WarningConversion] := by
  cases t <;> simp only [kindOf, Kind.width, Option.some.injEq, reduceCtorEq] at hw <;> subst hw <;>
    simp only [getContent, DataType.getValueContent, numericArm_short _ _ _ h] <;>
    exact ⟨_, rfl, rfl⟩

/-- C17: the string types decode as UTF-16 text. -/
theorem content_text (t : DataType) (ht : kindOf t = .text) (s : Str) (hs : '\x00' ∉ s)
    (tail : Bytes) (htail : TextEnd tail) :
    getContent t (some (utf16le s ++ tail)) = .ok (.String s, none) := by
  have h := utf16_roundtrip s hs tail htail ({} : Logs)
  cases t <;> simp only [kindOf, reduceCtorEq] at ht <;>
    simp only [getContent, DataType.getValueContent, h] <;> rfl

/-- C17: ill-formed text still decodes, one warning per unpaired surrogate. -/
theorem content_text_total (t : DataType) (ht : kindOf t = .text) (bs : Bytes) :
    ∃ ps tail logs, PiecesWF ps ∧ TextEnd tail ∧
      bs = unitBytes (ps.flatMap Piece.units) ++ tail ∧
      getContent t (some bs) = .ok (.String (ps.map Piece.shown), logs) ∧
      (logs.map Logs.codes).getD [] = List.replicate (loneCount ps) .WarningConversion := by
  obtain ⟨ps, tail, logs', h1, h2, h3, h4, h5⟩ := utf16_total bs {}
  refine ⟨ps, tail, logs'.getOption, h1, h2, h3, ?_, ?_⟩
  · cases t <;> simp only [kindOf, reduceCtorEq] at ht <;>
      simp only [getContent, DataType.getValueContent, h4]
  · rw [show (List.replicate (loneCount ps) LogCode.WarningConversion)
      = ({} : Logs).codes ++ List.replicate (loneCount ps) .WarningConversion from rfl, ← h5]
    unfold Logs.getOption Logs.codes
    cases h : logs'.logs <;> simp [h]

/-- C17: `REG_MULTI_SZ` decodes to a list of strings, whatever the bytes. -/
theorem content_texts_total (bs : Bytes) :
    ∃ strs logs, getContent .REG_MULTI_SZ (some bs) = .ok (.MultiString strs, logs) := by
  obtain ⟨strs, logs', h, _⟩ := multi_sz_total bs {}
  exact ⟨strs, logs'.getOption, by simp only [getContent, DataType.getValueContent, h]⟩

/-- C17: every other type gives the raw bytes. -/
theorem content_raw (t : DataType) (ht : kindOf t = .raw) (bs : Bytes) :
    getContent t (some bs) = .ok (.Binary bs, none) := by
  cases t <;> simp only [kindOf, reduceCtorEq] at ht <;> rfl

/-- C17: absent data gives `None`. -/
theorem content_absent (t : DataType) : getContent t none = .ok (.None, none) := rfl

/-- C17: no error and no panic, for every type and every data. -/
theorem content_total (t : DataType) (data : Option Bytes) :
    ∃ v logs, getContent t data = .ok (v, logs) ∧ v ≠ .Error := by
  cases data with
  | none => exact ⟨_, _, rfl, by decide⟩
  | some bs =>
    cases hk : kindOf t with
    | unsigned w | signed w | bigEndian w =>
      have hw : (kindOf t).width = some w := by rw [hk]; rfl
      rcases Nat.lt_or_ge bs.length w with h | h
      · obtain ⟨l, h1, _⟩ := content_number_short t w hw bs h
        exact ⟨_, _, h1, by simp⟩
      · obtain ⟨v, h1, h2⟩ := content_number t w hw bs h
        refine ⟨_, _, h1, ?_⟩
        rintro rfl
        rw [hk] at h2
        simp [numberOf, Kind.number] at h2
    | text =>
      obtain ⟨ps, tail, l, _, _, _, h, _⟩ := content_text_total t hk bs
      exact ⟨_, _, h, by simp⟩
    | texts =>
      have : t = .REG_MULTI_SZ := by cases t <;> simp [kindOf] at hk ⊢
      subst this
      obtain ⟨strs, l, h⟩ := content_texts_total bs
      exact ⟨_, _, h, by simp⟩
    | raw => exact ⟨_, _, content_raw t hk bs, by simp⟩

example : (kindOf .REG_COMPOSITE_INT16).width = some 2 ∧ kindOf .REG_LINK = .text ∧
    kindOf .REG_BIN = .raw := by decide
example : getContent .REG_COMPOSITE_INT16 (some [0xFE, 0xFF, 9]) = .ok (.I32 (-2), none) := by
  decide +kernel

/-! ### C47 -/

/-- C47, the full claim: decoding the content of a value never panics or fails. -/
def DecodeContentTotal : Prop :=
  ∀ (t : DataType) (data : Option Bytes) (fmt : DecodeFormat) (offset : Nat),
    ∃ v logs, decodeContent t data fmt offset = .ok (v, logs)

/-- C47, partial: proved for ROT13, for UTF-16 at every offset and for the string list at offset
0.  Missing: LZNT1 (`lznt1_panics`) and the string list at a positive offset. -/
theorem decode_content_partial (t : DataType) (data : Option Bytes) (fmt : DecodeFormat)
    (offset : Nat) (h : fmt = .Rot13 ∨ fmt = .Utf16 ∨ (fmt = .Utf16Multiple ∧ offset = 0)) :
    ∃ v logs, decodeContent t data fmt offset = .ok (v, logs) := by
  obtain ⟨v, l, hc, _⟩ := content_total t data
  unfold decodeContent
  rw [hc]
  simp only
  rcases h with rfl | rfl | ⟨rfl, rfl⟩
  · exact ⟨_, _, rfl⟩
  · cases v <;> try exact ⟨_, _, rfl⟩
    rename_i b _
    simp only [DecodeFormat.decode, DecodeFormat.decodeBytes]
    unfold getFrom
    split
    · rename_i sl hsl
      split at hsl
      · injection hsl with hsl
        obtain ⟨ps, tail, l', _, _, _, h4, _⟩ := utf16_total sl {}
        have : b.length - offset = sl.length := by rw [← hsl]; simp
        rw [this, h4]
        exact ⟨_, _, rfl⟩
      · cases hsl
    · exact ⟨_, _, rfl⟩
  · cases v <;> try exact ⟨_, _, rfl⟩
    rename_i b _
    simp only [DecodeFormat.decode, DecodeFormat.decodeBytes]
    have : getFrom b 0 = some b := by simp [getFrom]
    rw [this]
    obtain ⟨strs, l', h, _⟩ := multi_sz_total b {}
    simp only [h]
    exact ⟨_, _, rfl⟩

/-- C47: what UTF-16 decoding of binary data from an offset on gives. -/
theorem decode_content_utf16 (t : DataType) (ht : kindOf t = .raw) (skip : Bytes) (s : Str)
    (hs : '\x00' ∉ s) (tail : Bytes) (htail : TextEnd tail) :
    decodeContent t (some (skip ++ (utf16le s ++ tail))) .Utf16 skip.length
      = .ok (.String s, none) := by
  unfold decodeContent
  rw [content_raw t ht]
  simp only [DecodeFormat.decode, DecodeFormat.decodeBytes]
  have : getFrom (skip ++ (utf16le s ++ tail)) skip.length = some (utf16le s ++ tail) := by
    unfold getFrom
    rw [if_pos (by simp), List.drop_left]
  rw [this]
  simp only
  have hl : (skip ++ (utf16le s ++ tail)).length - skip.length = (utf16le s ++ tail).length := by
    simp
  rw [hl, utf16_roundtrip s hs tail htail]
  rfl

/-- C47: ROT13 of a string value; any other kind gives the error value and one warning. -/
theorem decode_content_rot13 (t : DataType) (ht : kindOf t = .text) (s : Str) (hs : '\x00' ∉ s)
    (tail : Bytes) (htail : TextEnd tail) (offset : Nat) :
    decodeContent t (some (utf16le s ++ tail)) .Rot13 offset = .ok (.String (decodeRot13 s), none) := by
  unfold decodeContent
  rw [content_text t ht s hs tail htail]
  rfl

/-- C47: the code violates the claim: the list of strings of binary data `..a` decoded from offset
2 panics (the length of the whole data is used for the shorter rest), and so does malformed
LZNT1 data. -/
theorem decode_content_violated : ¬ DecodeContentTotal ∧
    decodeContent .REG_BIN (some [9, 9, 9, 9, 0x61, 0]) .Utf16Multiple 4 = .panic ∧
    decodeContent .REG_BIN (some [0x01]) .Lznt1 0 = .panic := by
  have h2 : decodeContent .REG_BIN (some [0x01]) .Lznt1 0 = .panic := by decide +kernel
  refine ⟨fun h => ?_, by decide +kernel, h2⟩
  obtain ⟨v, l, h⟩ := h .REG_BIN (some [0x01]) .Lznt1 0
  rw [h2] at h; cases h

end Notatin
