import Verif.Model.Util
/-
Model of `decode_lznt1`, `/repo/src/util.rs` lines 225-240 and 254-334.
Every slice or array index that can be out of range is an explicit `panic`; a subtraction that
underflows (`dest_index - (token >> bits) - 1`) panics in a debug build and in a release build
yields a huge index which panics at once (the copy length is at least 3).
Simplification: `dest_index` is always `decompressed.len()` and is not kept separately;
`source_index + source_offset` is kept as one absolute index.
-/
namespace Notatin

/-- Loop of `calc_compression_bits`, /repo/src/util.rs lines 231-238; `n` entries remain. -/
def calcCompressionBits : Nat → Nat → Nat → Nat → List Nat
  | 0, _, _, _ => []
  | n + 1, x, y, offsetBits =>
    (4 + offsetBits) ::
      (if x = y then calcCompressionBits n (x + 1) (2 * y) (offsetBits + 1)
       else calcCompressionBits n (x + 1) y offsetBits)

/-- `COMPRESSION_BITS`, /repo/src/util.rs line 261. -/
def compressionBits : List Nat := calcCompressionBits 4096 0 0x10 0

/-- Copy loop of a back reference, /repo/src/util.rs lines 322-326; `none` is the index panic. -/
def lzCopy : Nat → Nat → Bytes → Option Bytes
  | 0, _, out => some out
  | n + 1, back, out =>
    match out[back]? with
    | some b => lzCopy n (back + 1) (out ++ [b])
    | none => none

/-- `u16::from_le_bytes(source[i..i+2])`; `none` is the slice panic. -/
def u16At (source : Bytes) (i : Nat) : Option Nat :=
  match source[i]?, source[i + 1]? with
  | some a, some b => some (a.toNat + 256 * b.toNat)
  | _, _ => none

/-- The token loop, /repo/src/util.rs lines 297-329 (`n` tokens left of the 8). -/
def lzTokens (source : Bytes) (subEnd start : Nat) : Nat → Nat → Nat → Bytes → Res (Nat × Bytes)
  | 0, _, si, out => .ok (si, out)
  | n + 1, tag, si, out =>
    if si ≥ subEnd then .ok (si, out)
    else if tag % 2 = 0 then
      match source[si]? with
      | some b => lzTokens source subEnd start n (tag / 2) (si + 1) (out ++ [b])
      | none => .panic
    else
      match compressionBits[out.length - start]? with
      | none => .panic
      | some bits =>
        let lengthBits := 16 - bits
        match u16At source si with
        | none => .panic
        | some tok =>
          let disp := tok / 2 ^ lengthBits
          if disp + 1 ≤ out.length then
            match lzCopy (tok % 2 ^ lengthBits + 3) (out.length - disp - 1) out with
            | some out => lzTokens source subEnd start n (tag / 2) (si + 2) out
            | none => .panic
          else .panic

/-- A token loop never moves backwards. -/
theorem lzTokens_le (source : Bytes) (subEnd start : Nat) :
    ∀ (n tag si : Nat) (out : Bytes) (si' : Nat) (out' : Bytes),
      lzTokens source subEnd start n tag si out = .ok (si', out') → si ≤ si' := by
  intro n
  induction n with
  | zero => intro tag si out si' out' h; simp only [lzTokens, Res.ok.injEq, Prod.mk.injEq] at h; omega
  | succ n ih =>
    intro tag si out si' out' h
    unfold lzTokens at h
    split at h
    · simp only [Res.ok.injEq, Prod.mk.injEq] at h; omega
    · split at h
      · split at h
        · have := ih _ _ _ _ _ h; omega
        · cases h
      · split at h
        · cases h
        · dsimp only at h
          split at h
          · cases h
          · split at h
            · split at h
              · have := ih _ _ _ _ _ h; omega
              · cases h
            · cases h

/-- The loop over the groups of a compressed sub-block, /repo/src/util.rs lines 291-330. -/
def lzGroups (source : Bytes) (subEnd start si : Nat) (out : Bytes) : Res (Nat × Bytes) :=
  if si < subEnd then
    match source[si]? with
    | none => .panic
    | some tag =>
      match _h : lzTokens source subEnd start 8 tag.toNat (si + 1) out with
      | .ok (si', out') => lzGroups source subEnd start si' out'
      | .err => .err
      | .panic => .panic
  else .ok (si, out)
termination_by subEnd - si
decreasing_by have := lzTokens_le _ _ _ _ _ _ _ _ _ _h; omega

theorem lzGroups_le (source : Bytes) (subEnd start si : Nat) (out : Bytes) (si' : Nat)
    (out' : Bytes) (h : lzGroups source subEnd start si out = .ok (si', out')) : si ≤ si' := by
  fun_induction lzGroups source subEnd start si out <;> simp_all
  rename_i h2 _
  have := lzTokens_le _ _ _ _ _ _ _ _ _ h2
  omega

/-- The outer loop, /repo/src/util.rs lines 268-332. -/
def lzLoop (source : Bytes) (sourceLength si : Nat) (out : Bytes) : Res Bytes :=
  if si < sourceLength then
    match u16At source si with
    | none => .panic
    | some header =>
      if header = 0 then .ok out
      else if header < 0x8000 then
        let blockSize := header % 0x1000 + 1
        match getRange source (si + 2) (si + 2 + blockSize) with
        | none => .panic
        | some raw => lzLoop source sourceLength (si + 2 + blockSize) (out ++ raw)
      else
        match _h : lzGroups source (si + 2 + header % 0x1000 + 1) out.length (si + 2) out with
        | .ok (si', out') => lzLoop source sourceLength si' out'
        | .err => .err
        | .panic => .panic
  else .ok out
termination_by sourceLength - si
decreasing_by
  · omega
  · have := lzGroups_le _ _ _ _ _ _ _ _h; omega

/-- `decode_lznt1`, /repo/src/util.rs lines 254-334. -/
def decodeLznt1 (source : Bytes) (sourceOffset sourceLength : Nat) : Res Bytes :=
  lzLoop source sourceLength sourceOffset []

end Notatin
