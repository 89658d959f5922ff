import Verif.Lemmas.Text
/-
Property theorems C18 (UTF-16 text), C19 (MULTI_SZ), C40 (ASCII names).
-/
namespace Notatin
open Spec

/-! ### C18 -/

/-- C18: on any sequence of characters and unpaired surrogates (ended by the end of the slice, an
odd byte, or a NUL and arbitrary bytes) the decoder yields one character per piece, U+FFFD for
each unpaired surrogate, and exactly one conversion warning per unpaired surrogate. -/
theorem utf16_decode_pieces (ps : List Piece) (hps : PiecesWF ps) (tail : Bytes)
    (ht : TextEnd tail) (logs : Logs) :
    ∃ logs', fromUtf16LeString (unitBytes (ps.flatMap Piece.units) ++ tail)
        (unitBytes (ps.flatMap Piece.units) ++ tail).length logs = .ok (ps.map Piece.shown, logs') ∧
      logs'.codes = logs.codes ++ List.replicate (loneCount ps) .WarningConversion := by
  refine ⟨addWarn (loneCount ps) logs, ?_, codes_addWarn _ _⟩
  unfold fromUtf16LeString
  rw [if_pos (Nat.le_refl _), single_pieces ps hps tail ht logs _ rfl]

/-- C18: decoding a NUL-free text gives back the text and no warning. -/
theorem utf16_roundtrip (s : Str) (hs : '\x00' ∉ s) (tail : Bytes) (ht : TextEnd tail)
    (logs : Logs) :
    fromUtf16LeString (utf16le s ++ tail) (utf16le s ++ tail).length logs = .ok (s, logs) := by
  unfold fromUtf16LeString
  rw [if_pos (Nat.le_refl _), utf16le_eq_units,
    single_pieces _ (piecesWF_chars s hs) tail ht logs _ rfl, shown_chars, loneCount_chars]
  rfl

/-- C18: every byte string decodes, according to the unique reading as pieces: the decoder never
fails, and its output never contains NUL. -/
theorem utf16_total (bs : Bytes) (logs : Logs) :
    ∃ ps tail logs', PiecesWF ps ∧ TextEnd tail ∧
      bs = unitBytes (ps.flatMap Piece.units) ++ tail ∧
      fromUtf16LeString bs bs.length logs = .ok (ps.map Piece.shown, logs') ∧
      logs'.codes = logs.codes ++ List.replicate (loneCount ps) .WarningConversion := by
  obtain ⟨ps, tail, hp, ht, rfl⟩ := exists_pieces_bytes bs
  obtain ⟨logs', h1, h2⟩ := utf16_decode_pieces ps hp tail ht logs
  exact ⟨ps, tail, logs', hp, ht, rfl, h1, h2⟩

example : '\x00' ∉ "aé𐐷".toList ∧ TextEnd ([0, 0, 65, 0] : Bytes) :=
  ⟨by decide, .inr ⟨[65, 0], rfl⟩⟩

example : utf16le "a𐐷".toList = [0x61, 0, 0x01, 0xD8, 0x37, 0xDC] := by decide

example : PiecesWF [.char 'a', .lone 0xD801, .char 'b', .lone 0xDC00] :=
  ⟨by decide, ⟨by decide, by decide, by intro _ v qs h; simp at h, by decide, by decide, by decide,
    by intro h; omega, trivial⟩⟩

/-! ### C19 -/

/-- The standard encoding of a list of strings. -/
def Spec.multiSz (strs : List Str) : Bytes :=
  strs.flatMap fun s => utf16le s ++ [0, 0]

/-- Characters of the basic multilingual plane. -/
def Spec.isBmp (s : Str) : Prop := ∀ c ∈ s, c.toNat < 0x10000

/-- The full claim of C19. -/
def Spec.MultiSzRoundTrip : Prop :=
  ∀ strs : List Str, (∀ s ∈ strs, s ≠ [] ∧ '\x00' ∉ s) →
    fromUtf16LeStrings (multiSz strs ++ [0, 0]) (multiSz strs ++ [0, 0]).length {} = .ok (strs, {})

theorem isBlank_eq_false (s : Str) : isBlank s = false ↔ ∃ c ∈ s, isWhitespace c = false := by
  simp [isBlank]

theorem length_units_bmp (s : Str) (h : isBmp s) : (utf16le s).length = 2 * s.length := by
  unfold utf16le
  rw [length_unitBytes]
  congr 1
  induction s with
  | nil => rfl
  | cons c s ih =>
    have h1 : c.toNat < 0x10000 := h c (by simp)
    have := ih (fun d hd => h d (by simp [hd]))
    simp [utf16Units, h1, this]

theorem strings_loop (strs : List Str)
    (h : ∀ s ∈ strs, '\x00' ∉ s ∧ isBmp s ∧ ∃ c ∈ s, isWhitespace c = false)
    (tail : Bytes) (ht : TextEnd tail) (pre : Bytes) (logs : Logs) :
    utf16StringsLoop (pre ++ (multiSz strs ++ tail)) (pre ++ (multiSz strs ++ tail)).length
      pre.length logs = .ok (strs, logs) := by
  induction strs generalizing pre with
  | nil =>
    rw [utf16StringsLoop]
    simp only [multiSz, List.flatMap_nil, List.nil_append]
    split
    · rw [if_pos (by simp), List.drop_left, List.length_append, Nat.add_sub_cancel_left]
      have := single_pieces [] trivial tail ht logs tail.length (by simp [unitBytes])
      simp only [List.flatMap_nil, unitBytes, List.nil_append] at this
      rw [this]
      simp [isBlank, loneCount, addWarn]
    · rfl
  | cons s rest ih =>
    obtain ⟨hn, hb, hw⟩ := h s (by simp)
    have hpos : 0 < (utf16le s).length := by
      rw [length_units_bmp s hb]
      obtain ⟨c, hc, _⟩ := hw
      have := List.length_pos_of_mem hc
      omega
    have hshape : multiSz (s :: rest) ++ tail = utf16le s ++ (0 :: 0 :: (multiSz rest ++ tail)) := by
      simp [multiSz]
    rw [hshape, utf16StringsLoop, if_pos (by simp only [List.length_append]; omega),
      if_pos (by simp), List.drop_left, List.length_append, Nat.add_sub_cancel_left]
    have h1 := single_pieces (s.map Piece.char) (piecesWF_chars s hn)
      (0 :: 0 :: (multiSz rest ++ tail)) (.inr ⟨_, rfl⟩) logs _ rfl
    rw [← utf16le_eq_units] at h1
    rw [h1, shown_chars, loneCount_chars]
    have hblank : isBlank s = false := (isBlank_eq_false s).2 hw
    simp only [hblank, Bool.false_eq_true, if_false, addWarn]
    have hend : endCount (unitsOf ((0 :: 0 :: (multiSz rest ++ tail) : Bytes).length / 2)
        (0 :: 0 :: (multiSz rest ++ tail))) = 1 := by
      have : (0 :: 0 :: (multiSz rest ++ tail) : Bytes).length / 2 =
        (multiSz rest ++ tail).length / 2 + 1 := by simp; omega
      rw [this, unitsOf_cons]; rfl
    rw [hend, List.length_map, Nat.add_sub_cancel]
    have h2 := ih (fun t ht => h t (by simp [ht])) (pre ++ (utf16le s ++ [0, 0]))
    have e1 : pre ++ (utf16le s ++ [0, 0]) ++ (multiSz rest ++ tail) =
        pre ++ (utf16le s ++ 0 :: 0 :: (multiSz rest ++ tail)) := by simp
    have e2 : (pre ++ (utf16le s ++ [0, 0])).length = pre.length + s.length * 2 + 2 := by
      simp [length_units_bmp s hb]; omega
    rw [e1, e2, List.length_append] at h2
    rw [h2]

/-- C19, partial: proved for strings that contain a non-whitespace character and only characters
of the basic multilingual plane (with or without the final terminator and with arbitrary bytes
after it).  Missing, because the code does not satisfy it: strings with characters outside the
BMP and blank strings; see `multi_sz_violated`. -/
theorem multi_sz_roundtrip_partial (strs : List Str)
    (h : ∀ s ∈ strs, '\x00' ∉ s ∧ isBmp s ∧ ∃ c ∈ s, isWhitespace c = false)
    (tail : Bytes) (ht : TextEnd tail) (logs : Logs) :
    fromUtf16LeStrings (multiSz strs ++ tail) (multiSz strs ++ tail).length logs =
      .ok (strs, logs) := by
  have := strings_loop strs h tail ht [] logs
  simpa [fromUtf16LeStrings] using this

example : ∀ s ∈ ["ab".toList, "é c".toList], '\x00' ∉ s ∧ isBmp s ∧ ∃ c ∈ s, isWhitespace c = false := by
  unfold isBmp; decide

/-- C19 is violated: after a string with a character outside the BMP the read position is two
bytes short, so the next "string" read is empty and the rest of the list is lost. -/
theorem multi_sz_violated : ¬ MultiSzRoundTrip := by
  intro h
  have h1 := h ["𐐷".toList, "a".toList] (by decide)
  revert h1
  simp only [fromUtf16LeStrings]
  decide +kernel

/-- C19 is violated also within the BMP: a blank string ends the list. -/
theorem multi_sz_blank_violated :
    fromUtf16LeStrings (multiSz [" ".toList, "a".toList] ++ [0, 0])
      (multiSz [" ".toList, "a".toList] ++ [0, 0]).length {} = .ok ([], {}) := by
  decide +kernel

theorem length_pieces_le (ps : List Piece) : ps.length ≤ (ps.flatMap Piece.units).length := by
  induction ps with
  | nil => simp
  | cons p ps ih =>
    have : 1 ≤ p.units.length := by
      cases p with
      | char c => simp only [Piece.units, utf16Units]; split <;> simp
      | lone u => simp [Piece.units]
    rw [List.flatMap_cons, List.length_append, List.length_cons]; omega

theorem nul_not_mem_shown (ps : List Piece) (hp : PiecesWF ps) : '\x00' ∉ ps.map Piece.shown := by
  induction ps with
  | nil => simp
  | cons p ps ih2 =>
    cases p with
    | char c =>
      simp only [List.map_cons, List.mem_cons, not_or, Piece.shown]
      exact ⟨fun h => hp.1 h.symm, ih2 hp.2⟩
    | lone u =>
      simp only [List.map_cons, List.mem_cons, not_or, Piece.shown]
      exact ⟨by decide, ih2 hp.2.2.2⟩

theorem strings_total_aux (slice : Bytes) (n : Nat) :
    ∀ offset logs, offset ≤ slice.length → slice.length - offset ≤ n →
    ∃ strs logs', utf16StringsLoop slice slice.length offset logs = .ok (strs, logs') ∧
      ∀ s ∈ strs, '\x00' ∉ s ∧ ∃ c ∈ s, isWhitespace c = false := by
  induction n with
  | zero =>
    intro offset logs h1 h2
    rw [utf16StringsLoop, if_neg (by omega)]
    exact ⟨[], logs, rfl, by simp⟩
  | succ n ih =>
    intro offset logs h1 h2
    rw [utf16StringsLoop]
    split
    · obtain ⟨ps, tail, hp, ht, hb⟩ := exists_pieces_bytes (slice.drop offset)
      have hs := single_pieces ps hp tail ht logs (slice.length - offset)
        (by rw [← hb]; simp)
      rw [← hb] at hs
      rw [hs]
      by_cases hblank : isBlank (ps.map Piece.shown) = true
      · simp only [hblank, if_true]
        exact ⟨[], _, rfl, by simp⟩
      · simp only [hblank]
        have hlen := length_pieces_le ps
        have hcons : 1 ≤ ps.length := by
          cases ps with
          | nil => simp [isBlank] at hblank
          | cons _ _ => simp
        have htl : 2 * endCount (unitsOf (tail.length / 2) tail) ≤ tail.length := by
          unfold endCount
          split
          · omega
          · rename_i hne
            have : tail.length / 2 ≠ 0 := by
              intro h0; rw [h0] at hne; exact hne rfl
            omega
        have htot : slice.length - offset = 2 * (ps.flatMap Piece.units).length + tail.length := by
          rw [← length_unitBytes, ← List.length_append, ← hb]; simp
        obtain ⟨strs, logs', hr, hall⟩ := ih (offset +
          (ps.length + endCount (unitsOf (tail.length / 2) tail) - 1) * 2 + 2)
          (addWarn (loneCount ps) logs) (by omega) (by omega)
        rw [hr]
        refine ⟨_, _, rfl, ?_⟩
        intro s hs
        rcases List.mem_cons.1 hs with rfl | hs
        · refine ⟨?_, (isBlank_eq_false _).1 (by simpa using hblank)⟩
          exact nul_not_mem_shown ps hp
        · exact hall s hs
    · exact ⟨[], logs, rfl, by simp⟩

/-- C19/C17: reading a MULTI_SZ never fails on any bytes; every string reported is NUL free and
not blank. -/
theorem multi_sz_total (bs : Bytes) (logs : Logs) :
    ∃ strs logs', fromUtf16LeStrings bs bs.length logs = .ok (strs, logs') ∧
      ∀ s ∈ strs, '\x00' ∉ s ∧ ∃ c ∈ s, isWhitespace c = false :=
  strings_total_aux bs bs.length 0 logs (by omega) (by omega)

/-! ### C40 -/

theorem ofNat_byte_toNat (b : UInt8) : (Char.ofNat b.toNat).toNat = b.toNat :=
  toNat_ofNat_of_valid (.inl (by have := b.toNat_lt; omega))

/-- C40: an ASCII (compressed) name decodes to one character per byte with the same code point,
never fails and adds no warning. -/
theorem ascii_decode (bs : Bytes) (logs : Logs) :
    ∃ s, fromAscii bs logs = .ok (s, logs) ∧ s.map Char.toNat = bs.map UInt8.toNat := by
  induction bs with
  | nil => exact ⟨[], rfl, rfl⟩
  | cons b bs ih =>
    obtain ⟨s, h1, h2⟩ := ih
    refine ⟨Char.ofNat b.toNat :: s, ?_, ?_⟩
    · unfold fromAscii
      split
      · rw [h1]
      · rename_i hb
        have hlt := b.toNat_lt
        have : decodeLoop [some b.toNat] logs = .ok ([Char.ofNat b.toNat], 1, logs) := by
          rw [decodeLoop.eq_def]
          simp only
          rw [if_pos (by omega), if_neg (by omega)]
          simp [decodeLoop]
        rw [this]
        simp only [h1]
        rfl
    · simp [ofNat_byte_toNat, h2]

/-- C40: decoding of ASCII names is injective. -/
theorem ascii_injective (as bs : Bytes) (s : Str) (l l' m m' : Logs)
    (ha : fromAscii as l = .ok (s, l')) (hb : fromAscii bs m = .ok (s, m')) : as = bs := by
  obtain ⟨s1, h1, h2⟩ := ascii_decode as l
  obtain ⟨s2, h3, h4⟩ := ascii_decode bs m
  rw [h1] at ha; rw [h3] at hb
  simp only [Res.ok.injEq, Prod.mk.injEq] at ha hb
  have he : as.map UInt8.toNat = bs.map UInt8.toNat := by
    rw [← h2, ← h4, ha.1, hb.1]
  exact (List.map_inj_right (fun _ _ h => UInt8.toNat.inj h)).1 he

/-- C40: names flagged as ASCII are read byte by byte, others as UTF-16. -/
theorem name_decode_choice (bs : Bytes) (s : Str) (hs : '\x00' ∉ s) (logs : Logs) :
    (∃ t, stringFromBytes true bs bs.length logs = .ok (t, logs) ∧
      t.map Char.toNat = bs.map UInt8.toNat) ∧
    stringFromBytes false (utf16le s) (utf16le s).length logs = .ok (s, logs) := by
  constructor
  · exact ascii_decode bs logs
  · have := utf16_roundtrip s hs [] (.inl (by simp)) logs
    simpa [stringFromBytes] using this

example : fromAscii [0x41, 0xE9, 0xFF] {} = .ok ("Aéÿ".toList, {}) := by
  simp [fromAscii, decodeLoop]

end Notatin
