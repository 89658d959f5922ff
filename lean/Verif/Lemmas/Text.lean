import Verif.Model.Util
import Verif.Spec.Text
import Verif.Lemmas.Base
/- Helper lemmas for text decoding. -/
namespace Notatin
open Spec

/-! ### Units of a byte slice -/

/-- The units the decoder sees. -/
def unitsOf (n : Nat) (slice : Bytes) : List (Option Nat) := (List.range n).map (unitAt slice)

theorem unitsOf_zero (slice : Bytes) : unitsOf 0 slice = [] := rfl

theorem unitsOf_cons (n : Nat) (a b : UInt8) (rest : Bytes) :
    unitsOf (n + 1) (a :: b :: rest) = some (a.toNat + 256 * b.toNat) :: unitsOf n rest := by
  unfold unitsOf
  rw [List.range_succ_eq_map, List.map_cons, List.map_map]
  congr 1

theorem encLE_two (u : Nat) : ∃ a b : UInt8, encLE 2 u = [a, b] ∧
    (u < 65536 → a.toNat + 256 * b.toNat = u) := by
  refine ⟨UInt8.ofNat (u % 256), UInt8.ofNat (u / 256 % 256), rfl, ?_⟩
  intro h
  simp only [UInt8.toNat_ofNat']
  omega

theorem unitsOf_unitBytes (us : List Nat) (hu : ∀ u ∈ us, u < 65536) (n : Nat) (tail : Bytes)
    (hn : us.length ≤ n) :
    unitsOf n (unitBytes us ++ tail) = us.map some ++ unitsOf (n - us.length) tail := by
  induction us generalizing n with
  | nil => simp [unitBytes]
  | cons u us ih =>
    obtain ⟨m, rfl⟩ : ∃ m, n = m + 1 := ⟨n - 1, by simp at hn; omega⟩
    obtain ⟨a, b, hab, hv⟩ := encLE_two u
    have : unitBytes (u :: us) ++ tail = a :: b :: (unitBytes us ++ tail) := by
      simp [unitBytes, hab]
    rw [this, unitsOf_cons, ih (fun x hx => hu x (by simp [hx])) m (by simpa using hn),
      hv (hu u (by simp))]
    simp

theorem length_unitBytes (us : List Nat) : (unitBytes us).length = 2 * us.length := by
  induction us with
  | nil => rfl
  | cons u us ih =>
    obtain ⟨a, b, hab, _⟩ := encLE_two u
    have : unitBytes (u :: us) = a :: b :: unitBytes us := by simp [unitBytes, hab]
    rw [this]; simp [ih]; omega

/-! ### Characters -/

theorem Char.toNat_lt (c : Char) : c.toNat < 0x110000 := by
  have := c.valid
  simp only [UInt32.isValidChar, Nat.isValidChar] at this
  simp only [Char.toNat]; omega

theorem Char.not_surrogate (c : Char) : c.toNat < 0xD800 ∨ 0xE000 ≤ c.toNat := by
  have := c.valid
  simp only [UInt32.isValidChar, Nat.isValidChar] at this
  simp only [Char.toNat]; omega

theorem toNat_ofNat_of_valid {n : Nat} (h : Nat.isValidChar n) : (Char.ofNat n).toNat = n := by
  unfold Char.ofNat
  rw [dif_pos h]
  rfl

theorem char_ne_nul (c : Char) : c ≠ '\x00' ↔ c.toNat ≠ 0 := by
  constructor
  · intro h h0; apply h
    rw [← Char.ofNat_toNat c, h0]
  · intro h h0; apply h; rw [h0]; rfl

theorem utf16Units_lt (c : Char) : ∀ u ∈ utf16Units c, u < 65536 := by
  intro u hu
  have h1 := Char.toNat_lt c
  unfold utf16Units at hu
  split at hu <;> simp at hu
  · omega
  · omega

/-- The decoder's stopping context after the pieces: end of input or a NUL unit. -/
def EndsHere (rest : List (Option Nat)) : Prop := rest = [] ∨ ∃ r, rest = some 0 :: r

/-- Characters inspected in the stopping context: the NUL counts. -/
def endCount (rest : List (Option Nat)) : Nat := if rest = [] then 0 else 1

theorem decodeLoop_end (rest : List (Option Nat)) (h : EndsHere rest) (logs : Logs) :
    decodeLoop rest logs = .ok ([], endCount rest, logs) := by
  rcases h with rfl | ⟨r, rfl⟩
  · simp [decodeLoop, endCount]
  · unfold decodeLoop; simp [endCount]

/-- Adds `n` conversion warnings. -/
def addWarn : Nat → Logs → Logs
  | 0, l => l
  | n + 1, l => addWarn n (l.add .WarningConversion)

theorem codes_addWarn (n : Nat) (l : Logs) :
    (addWarn n l).codes = l.codes ++ List.replicate n .WarningConversion := by
  induction n generalizing l with
  | zero => simp [addWarn]
  | succ n ih => simp [addWarn, ih, List.replicate_succ]

theorem decodeLoop_char (c : Char) (hc : c ≠ '\x00') (rest : List (Option Nat)) (logs : Logs) :
    decodeLoop ((utf16Units c).map some ++ rest) logs =
      match decodeLoop rest logs with
      | .ok (s, n, logs) => .ok (c :: s, n + 1, logs)
      | .err => .err
      | .panic => .panic := by
  have h1 := Char.toNat_lt c
  have h2 := Char.not_surrogate c
  have h3 := (char_ne_nul c).1 hc
  unfold utf16Units
  split
  · simp only [List.map_cons, List.map_nil, List.cons_append, List.nil_append]
    rw [decodeLoop.eq_def]; simp only; rw [if_pos h2, if_neg h3, Char.ofNat_toNat]; rfl
  · simp only [List.map_cons, List.map_nil, List.cons_append, List.nil_append]
    rw [decodeLoop.eq_def]; simp only; rw [if_neg (by omega), if_neg (by omega)]
    rw [if_pos (by omega)]
    have : 0x10000 + (0xD800 + (c.toNat - 0x10000) / 0x400 - 0xD800) * 0x400 +
        (0xDC00 + (c.toNat - 0x10000) % 0x400 - 0xDC00) = c.toNat := by omega
    rw [this, Char.ofNat_toNat]; rfl

theorem decodeLoop_lone (u : Nat) (h1 : 0xD800 ≤ u) (h2 : u ≤ 0xDFFF) (rest : List (Option Nat))
    (hr : rest = [] ∨ ∃ v r, rest = some v :: r ∧ (u ≤ 0xDBFF → ¬ (0xDC00 ≤ v ∧ v ≤ 0xDFFF)))
    (logs : Logs) :
    decodeLoop (some u :: rest) logs =
      match decodeLoop rest (logs.add .WarningConversion) with
      | .ok (s, n, logs) => .ok (replacementChar :: s, n + 1, logs)
      | .err => .err
      | .panic => .panic := by
  rw [decodeLoop.eq_def]; simp only; rw [if_neg (by omega)]
  split
  · rfl
  · rcases hr with rfl | ⟨v, r, rfl, hv⟩
    · simp [decodeLoop]
    · simp only
      rw [if_neg (hv (by omega))]; rfl

/-- First unit of a well-formed piece sequence that follows a lone high surrogate. -/
theorem pieces_head (ps : List Piece) (hps : PiecesWF ps) (tl : List (Option Nat))
    (htl : EndsHere tl) (hlow : ∀ v qs, ps = .lone v :: qs → v ≤ 0xDBFF) :
    (ps.flatMap Piece.units).map some ++ tl = [] ∨
    ∃ v r, (ps.flatMap Piece.units).map some ++ tl = some v :: r ∧
      ¬ (0xDC00 ≤ v ∧ v ≤ 0xDFFF) := by
  cases ps with
  | nil =>
    rcases htl with rfl | ⟨r, rfl⟩
    · exact .inl rfl
    · exact .inr ⟨0, r, rfl, by omega⟩
  | cons p qs =>
    right
    cases p with
    | char c =>
      have h2 := Char.not_surrogate c
      have h1 := Char.toNat_lt c
      simp only [List.flatMap_cons, Piece.units, utf16Units]
      split
      · exact ⟨_, _, rfl, by omega⟩
      · exact ⟨_, _, rfl, by omega⟩
    | lone v =>
      have := hlow v qs rfl
      exact ⟨v, _, rfl, by omega⟩

theorem decodeLoop_pieces (ps : List Piece) (hps : PiecesWF ps) (tl : List (Option Nat))
    (htl : EndsHere tl) (logs : Logs) :
    decodeLoop ((ps.flatMap Piece.units).map some ++ tl) logs =
      .ok (ps.map Piece.shown, ps.length + endCount tl, addWarn (loneCount ps) logs) := by
  induction ps generalizing logs with
  | nil => simp [decodeLoop_end tl htl, addWarn, loneCount]
  | cons p qs ih =>
    cases p with
    | char c =>
      obtain ⟨hc, hq⟩ := hps
      have hshape : ((Piece.char c :: qs).flatMap Piece.units).map some ++ tl =
          (utf16Units c).map some ++ ((qs.flatMap Piece.units).map some ++ tl) := by
        simp [Piece.units]
      rw [hshape, decodeLoop_char c hc, ih hq]
      simp [Piece.shown, loneCount]; omega
    | lone u =>
      obtain ⟨h1, h2, hlow, hq⟩ := hps
      have hshape : ((Piece.lone u :: qs).flatMap Piece.units).map some ++ tl =
          some u :: ((qs.flatMap Piece.units).map some ++ tl) := by
        simp [Piece.units]
      rw [hshape, decodeLoop_lone u h1 h2, ih hq]
      · simp [Piece.shown, loneCount, addWarn, replacementChar]; omega
      · by_cases hu : u ≤ 0xDBFF
        · rcases pieces_head qs hq tl htl (hlow hu) with h | ⟨v, r, h, hv⟩
          · exact .inl h
          · exact .inr ⟨v, r, h, fun _ => hv⟩
        · cases hx : (qs.flatMap Piece.units).map some ++ tl with
          | nil => exact .inl rfl
          | cons a r =>
            right
            cases a with
            | some v => exact ⟨v, r, rfl, fun h => absurd h hu⟩
            | none =>
              exfalso
              have hm : (none : Option Nat) ∈ (qs.flatMap Piece.units).map some ++ tl := by
                rw [hx]; simp
              cases hqs : (qs.flatMap Piece.units) with
              | nil =>
                rw [hqs] at hx
                rcases htl with rfl | ⟨r', rfl⟩ <;> simp at hx
              | cons a l => rw [hqs] at hx; simp at hx

/-- Every NUL-free code unit sequence is the units of a well-formed piece sequence. -/
theorem exists_pieces (us : List Nat) (hu : ∀ u ∈ us, u < 65536 ∧ u ≠ 0) :
    ∃ ps, PiecesWF ps ∧ ps.flatMap Piece.units = us := by
  induction hn : us.length using Nat.strongRecOn generalizing us with
  | _ n ih =>
  cases us with
  | nil => exact ⟨[], trivial, rfl⟩
  | cons u rest =>
    have hu0 := hu u (by simp)
    have hrest : ∀ v ∈ rest, v < 65536 ∧ v ≠ 0 := fun v hv => hu v (by simp [hv])
    obtain ⟨ps, hwf, hps⟩ := ih rest.length (by simp at hn; omega) rest hrest rfl
    by_cases hs : u < 0xD800 ∨ 0xE000 ≤ u
    · have hval : Nat.isValidChar u := by
        rcases hs with h | h
        · exact .inl h
        · exact .inr ⟨by omega, by omega⟩
      have htn : (Char.ofNat u).toNat = u := by
        exact toNat_ofNat_of_valid hval
      refine ⟨.char (Char.ofNat u) :: ps, ⟨?_, hwf⟩, ?_⟩
      · rw [char_ne_nul, htn]; exact hu0.2
      · simp [Piece.units, utf16Units, htn, hu0.1, hps]
    · by_cases hlow : 0xDC00 ≤ u
      · exact ⟨.lone u :: ps, ⟨by omega, by omega, by omega, hwf⟩, by simp [Piece.units, hps]⟩
      · cases rest with
        | nil =>
          refine ⟨[.lone u], ⟨by omega, by omega, ?_, trivial⟩, by simp [Piece.units]⟩
          intro _ v qs h; cases h
        | cons v r2 =>
          by_cases hv : 0xDC00 ≤ v ∧ v ≤ 0xDFFF
          · obtain ⟨ps2, hwf2, hps2⟩ := ih r2.length (by simp at hn; omega) r2
              (fun w hw => hu w (by simp [hw])) rfl
            have hval : Nat.isValidChar (0x10000 + (u - 0xD800) * 0x400 + (v - 0xDC00)) := by
              right; omega
            have htn : (Char.ofNat (0x10000 + (u - 0xD800) * 0x400 + (v - 0xDC00))).toNat =
                0x10000 + (u - 0xD800) * 0x400 + (v - 0xDC00) := by
              exact toNat_ofNat_of_valid hval
            refine ⟨.char (Char.ofNat (0x10000 + (u - 0xD800) * 0x400 + (v - 0xDC00))) :: ps2,
              ⟨?_, hwf2⟩, ?_⟩
            · rw [char_ne_nul, htn]; omega
            · simp only [List.flatMap_cons, Piece.units, utf16Units, htn]
              rw [if_neg (by omega), hps2]
              simp; omega
          · refine ⟨.lone u :: ps, ⟨by omega, by omega, ?_, hwf⟩, by simp [Piece.units, hps]⟩
            intro _ w qs hw
            subst hw
            simp [Piece.units] at hps
            have := hwf.1
            have := hwf.2.1
            omega

theorem units_lt_of_pieces (ps : List Piece) (h : PiecesWF ps) :
    ∀ u ∈ ps.flatMap Piece.units, u < 65536 := by
  induction ps with
  | nil => simp
  | cons p qs ih =>
    intro u hu
    rw [List.flatMap_cons, List.mem_append] at hu
    cases p with
    | char c =>
      rcases hu with hu | hu
      · exact utf16Units_lt c u hu
      · exact ih h.2 u hu
    | lone v =>
      rcases hu with hu | hu
      · simp [Piece.units] at hu; have := h.2.1; omega
      · exact ih h.2.2.2 u hu

end Notatin

namespace Notatin
open Spec

theorem utf16le_eq_units (s : Str) :
    utf16le s = unitBytes ((s.map Piece.char).flatMap Piece.units) := by
  unfold utf16le
  congr 1
  induction s with
  | nil => rfl
  | cons c s ih => simp [Piece.units, ih]

theorem piecesWF_chars (s : Str) (h : '\x00' ∉ s) : PiecesWF (s.map Piece.char) := by
  induction s with
  | nil => trivial
  | cons c s ih =>
    simp at h
    exact ⟨fun hc => h.1 hc.symm, ih h.2⟩

theorem loneCount_chars (s : Str) : loneCount (s.map Piece.char) = 0 := by
  induction s with
  | nil => rfl
  | cons c s ih => simpa [loneCount] using ih

theorem shown_chars (s : Str) : (s.map Piece.char).map Piece.shown = s := by
  induction s with
  | nil => rfl
  | cons c s ih => simp at ih ⊢; exact ⟨rfl, ih⟩

/-- Shape of what may follow the text: at most one odd byte, or a NUL unit and anything. -/
def TextEnd (tail : Bytes) : Prop := tail.length ≤ 1 ∨ ∃ t, tail = 0 :: 0 :: t

theorem endsHere_of_textEnd (tail : Bytes) (h : TextEnd tail) :
    EndsHere (unitsOf (tail.length / 2) tail) := by
  rcases h with h | ⟨t, rfl⟩
  · left
    have : tail.length / 2 = 0 := by omega
    rw [this]; rfl
  · right
    have : (0 :: 0 :: t : Bytes).length / 2 = t.length / 2 + 1 := by simp; omega
    rw [this, unitsOf_cons]
    exact ⟨_, rfl⟩

theorem single_pieces (ps : List Piece) (hps : PiecesWF ps) (tail : Bytes) (ht : TextEnd tail)
    (logs : Logs) (count : Nat)
    (hc : count = (unitBytes (ps.flatMap Piece.units) ++ tail).length) :
    fromUtf16Single (unitBytes (ps.flatMap Piece.units) ++ tail) count logs =
      .ok (ps.map Piece.shown,
        ps.length + endCount (unitsOf (tail.length / 2) tail) - 1,
        addWarn (loneCount ps) logs) := by
  subst hc
  unfold fromUtf16Single
  have hlen : (unitBytes (ps.flatMap Piece.units) ++ tail).length / 2 =
      (ps.flatMap Piece.units).length + tail.length / 2 := by
    rw [List.length_append, length_unitBytes]; omega
  have := unitsOf_unitBytes (ps.flatMap Piece.units) (units_lt_of_pieces ps hps)
    ((ps.flatMap Piece.units).length + tail.length / 2) tail (by omega)
  unfold unitsOf at this
  rw [hlen, this, Nat.add_sub_cancel_left]
  have h := decodeLoop_pieces ps hps (unitsOf (tail.length / 2) tail)
    (endsHere_of_textEnd tail ht) logs
  unfold unitsOf at h
  rw [h]
  simp only [Res.ok.injEq, Prod.mk.injEq, true_and, and_true]
  unfold unitsOf
  split <;> omega

/-- Every byte string is the bytes of a well-formed piece sequence and a text end. -/
theorem exists_pieces_bytes (bs : Bytes) :
    ∃ ps tail, PiecesWF ps ∧ TextEnd tail ∧ bs = unitBytes (ps.flatMap Piece.units) ++ tail := by
  have key : ∀ n (bs : Bytes), bs.length ≤ n → ∃ us : List Nat, ∃ tail,
      (∀ u ∈ us, u < 65536 ∧ u ≠ 0) ∧ TextEnd tail ∧ bs = unitBytes us ++ tail := by
    intro n
    induction n with
    | zero => intro bs h; exact ⟨[], bs, by simp, .inl (by omega), by simp [unitBytes]⟩
    | succ n ih =>
      intro bs h
      match bs, h with
      | [], _ => exact ⟨[], [], by simp, .inl (by simp), by simp [unitBytes]⟩
      | [a], _ => exact ⟨[], [a], by simp, .inl (by simp), by simp [unitBytes]⟩
      | a :: b :: rest, h =>
        by_cases hz : a.toNat + 256 * b.toNat = 0
        · refine ⟨[], a :: b :: rest, by simp, .inr ⟨rest, ?_⟩, by simp [unitBytes]⟩
          have ha : a = 0 := UInt8.toNat.inj (by simp; omega)
          have hb : b = 0 := UInt8.toNat.inj (by simp; omega)
          rw [ha, hb]
        · obtain ⟨us, tail, h1, h2, h3⟩ := ih rest (by simp at h; omega)
          refine ⟨(a.toNat + 256 * b.toNat) :: us, tail, ?_, h2, ?_⟩
          · intro u hu
            rcases List.mem_cons.1 hu with rfl | hu
            · refine ⟨?_, hz⟩
              have := a.toNat_lt; have := b.toNat_lt; omega
            · exact h1 u hu
          · have hab : encLE 2 (a.toNat + 256 * b.toNat) = [a, b] := by
              have := a.toNat_lt
              have := b.toNat_lt
              simp only [encLE, List.cons.injEq, and_true]
              constructor
              · apply UInt8.toNat.inj; simp
              · apply UInt8.toNat.inj; simp; omega
            simp [unitBytes, hab] at h3 ⊢
            exact h3
  obtain ⟨us, tail, h1, h2, h3⟩ := key bs.length bs (Nat.le_refl _)
  obtain ⟨ps, hp, hpu⟩ := exists_pieces us h1
  exact ⟨ps, tail, hp, h2, by rw [hpu]; exact h3⟩

end Notatin
