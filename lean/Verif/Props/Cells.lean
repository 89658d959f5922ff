import Verif.Lemmas.Cells
/-
Property theorems C13 (key cells), C14 (value cells), C34 (flags).
-/
namespace Notatin
open Spec

/-! ### C34 -/

theorem testBit_lt (n i k : Nat) (h : n < 2 ^ k) (hi : n.testBit i = true) : i < k := by
  refine Nat.lt_of_not_le fun hle => ?_
  have := Nat.testBit_lt_two_pow (Nat.lt_of_lt_of_le h (Nat.pow_le_pow_right (by omega) hle))
  rw [this] at hi; cases hi

theorem keyMask_bit (i : Nat) (h : i < 16) : keyNodeFlagsMask.testBit i = keyFlagBit i := by
  have : ∀ j < 16, keyNodeFlagsMask.testBit j = keyFlagBit j := by decide
  exact this i h

theorem accessMask_bit (i : Nat) (h : i < 32) : accessFlagsMask.testBit i = accessFlagBit i := by
  have : ∀ j < 32, accessFlagsMask.testBit j = accessFlagBit j := by decide
  exact this i h

theorem valueMask_bit (i : Nat) (h : i < 16) : keyValueFlagsMask.testBit i = valueFlagBit i := by
  have : ∀ j < 16, keyValueFlagsMask.testBit j = valueFlagBit j := by decide
  exact this i h

theorem and_mask_eq_iff (mask flags k : Nat) (doc : Nat → Bool) (hf : flags < 2 ^ k)
    (hm : ∀ i < k, mask.testBit i = doc i) :
    flags &&& mask = flags ↔ ∀ i, flags.testBit i = true → doc i = true := by
  constructor
  · intro h i hi
    have := congrArg (fun n => n.testBit i) h
    simp only [Nat.testBit_and, hi, Bool.true_and] at this
    rw [hm i (testBit_lt _ _ _ hf hi)] at this
    exact this
  · intro h
    apply Nat.eq_of_testBit_eq
    intro i
    rw [Nat.testBit_and]
    cases hi : flags.testBit i with
    | false => rfl
    | true => rw [hm i (testBit_lt _ _ _ hf hi), h i hi]; rfl

theorem checked_spec (mask flags k : Nat) (doc : Nat → Bool) (hf : flags < 2 ^ k)
    (hm : ∀ i < k, mask.testBit i = doc i) (logs : Logs) :
    (∀ i, (fromBitsChecked mask flags logs).1.testBit i = (flags.testBit i && doc i)) ∧
    ((∀ i, flags.testBit i = true → doc i = true) → (fromBitsChecked mask flags logs).2 = logs) ∧
    ((∃ i, flags.testBit i = true ∧ doc i = false) →
      (fromBitsChecked mask flags logs).2.codes = logs.codes ++ [.WarningUnrecognizedBitflag]) := by
  refine ⟨?_, ?_, ?_⟩
  · intro i
    show (flags &&& mask).testBit i = _
    rw [Nat.testBit_and]
    cases hi : flags.testBit i with
    | false => rfl
    | true => rw [hm i (testBit_lt _ _ _ hf hi)]
  · intro h
    have := (and_mask_eq_iff mask flags k doc hf hm).2 h
    simp [fromBitsChecked, this]
  · rintro ⟨i, h1, h2⟩
    have : flags ≠ flags &&& mask := by
      intro h
      have := (and_mask_eq_iff mask flags k doc hf hm).1 h.symm i h1
      rw [this] at h2; cases h2
    simp only [fromBitsChecked, if_pos this, Logs.codes_add]

/-- C34: the decoded key flags are exactly the documented bits that are stored; one warning is
added iff an undocumented bit is stored. -/
theorem key_flags_decode (flags : Nat) (hf : flags < 65536) (logs : Logs) :
    (∀ i, (fromBitsChecked keyNodeFlagsMask flags logs).1.testBit i
        = (flags.testBit i && keyFlagBit i)) ∧
    ((∀ i, flags.testBit i = true → keyFlagBit i = true) →
      (fromBitsChecked keyNodeFlagsMask flags logs).2 = logs) ∧
    ((∃ i, flags.testBit i = true ∧ keyFlagBit i = false) →
      (fromBitsChecked keyNodeFlagsMask flags logs).2.codes
        = logs.codes ++ [.WarningUnrecognizedBitflag]) :=
  checked_spec _ _ 16 _ hf keyMask_bit logs

/-- C34: the same for the access flags. -/
theorem access_flags_decode (flags : Nat) (hf : flags < 4294967296) (logs : Logs) :
    (∀ i, (fromBitsChecked accessFlagsMask flags logs).1.testBit i
        = (flags.testBit i && accessFlagBit i)) ∧
    ((∀ i, flags.testBit i = true → accessFlagBit i = true) →
      (fromBitsChecked accessFlagsMask flags logs).2 = logs) ∧
    ((∃ i, flags.testBit i = true ∧ accessFlagBit i = false) →
      (fromBitsChecked accessFlagsMask flags logs).2.codes
        = logs.codes ++ [.WarningUnrecognizedBitflag]) :=
  checked_spec _ _ 32 _ hf accessMask_bit logs

/-- C34 for value flags, the full claim: the decoded flags are the documented bits stored. -/
def ValueFlagsKept : Prop :=
  ∀ flags < 65536, ∀ i, (keyValueFlags flags).testBit i = (flags.testBit i && valueFlagBit i)

/-- C34 for value flags, partial: exact when no undocumented bit is stored; otherwise all flags
are dropped.  Missing: an undocumented bit must not change the documented ones. -/
theorem value_flags_decode_partial (flags : Nat) (hf : flags < 65536) :
    ((∀ i, flags.testBit i = true → valueFlagBit i = true) → keyValueFlags flags = flags) ∧
    ((∃ i, flags.testBit i = true ∧ valueFlagBit i = false) → keyValueFlags flags = 0) := by
  have h := and_mask_eq_iff keyValueFlagsMask flags 16 valueFlagBit hf valueMask_bit
  constructor
  · intro hd
    simp [keyValueFlags, h.2 hd]
  · rintro ⟨i, h1, h2⟩
    unfold keyValueFlags
    rw [if_neg]
    intro he
    have := h.1 he i h1
    rw [this] at h2; cases h2

/-- C34: the code violates the claim for value flags: with the undocumented bit 2 the ASCII flag
(bit 0) is lost, so the name of such a value is decoded as UTF-16. -/
theorem value_flags_violated : ¬ ValueFlagsKept := by
  intro h
  have := h 5 (by decide) 0
  revert this; decide

/-- C34: enumerations of the header: the documented values are recognised, everything else maps
to unknown; a warning is added unless the value is the one declared for unknown. -/
theorem file_type_decode (v : Nat) (logs : Logs) :
    ((FileType.fromValue v logs).1 = .primary ↔ v = 0) ∧
    ((FileType.fromValue v logs).1 = .transactionLog ↔ v = 1) ∧
    ((FileType.fromValue v logs).1 = .transactionLogNewFormat ↔ v = 6) ∧
    ((FileType.fromValue v logs).2.codes = logs.codes ++
      if v = 0 ∨ v = 1 ∨ v = 6 ∨ v = 0x0fffffff then [] else [.WarningConversion]) := by
  unfold FileType.fromValue
  by_cases h0 : v = 0
  · subst h0; simp
  by_cases h1 : v = 1
  · subst h1; simp
  by_cases h6 : v = 6
  · subst h6; simp
  by_cases hf : v = 0x0fffffff
  · subst hf; simp
  · simp [h0, h1, h6, hf]

example : ∃ i, (0x2020 : Nat).testBit i = true ∧ keyFlagBit i = false := ⟨13, by decide⟩
example : (fromBitsChecked keyNodeFlagsMask 0x2020 {}).1 = 0x20 := by decide

/-! ### C13 -/

/-- The decoded key equals the stored cell, field by field. -/
def KeyMatches (k : KeyNode) (c : NkCell) (parentPath name : Str) (fileOffset : Nat)
    (seq : Option Nat) : Prop :=
  k.size = c.size ∧ k.flagBits = c.flags ∧ k.lastWritten = c.lastWritten ∧
  k.accessBits = c.access ∧ k.parentOffset = c.parent ∧ k.nSubKeys = c.nSubKeys ∧
  k.nVolatileSubKeys = c.nVolatile ∧ k.subKeysListOffset = c.subKeysList ∧
  k.volatileListOffset = c.volatileList ∧ k.nValues = c.nValues ∧
  k.valuesListOffset = c.valuesList ∧ k.securityOffset = c.security ∧
  k.classNameOffset = c.className ∧ k.largestSubKeyName = c.largestSubKeyName ∧
  k.largestSubKeyClassName = c.largestSubKeyClass ∧ k.largestValueName = c.largestValueName ∧
  k.largestValueData = c.largestValueData ∧ k.workVar = c.workVar ∧
  k.nameSize = c.nameBytes.length ∧ k.classNameSize = c.classNameSize ∧ k.slack = c.slack ∧
  k.name = name ∧ k.path = parentPath ++ '\\' :: name ∧ k.fileOffset = fileOffset ∧
  k.seq = seq ∧ k.cellState = .Allocated ∧ k.values = []

theorem nk_decode_raw (hashFn : Bytes → Bytes) (c : NkCell) (hc : c.Fits) (rest : Bytes)
    (fileOffset : Nat) (parentPath : Str) (seq : Option Nat) (name : Str) (logs : Logs)
    (hn : stringFromBytes (containsFlag (c.flags &&& keyNodeFlagsMask) 0x20) c.nameBytes
      c.nameBytes.length (fromBitsChecked keyNodeFlagsMask c.flags {}).2 = .ok (name, logs)) :
    ∃ k, KeyNode.fromBytes hashFn (c.encode ++ rest) fileOffset parentPath seq = .ok (k, rest) ∧
      KeyMatches k c parentPath name fileOffset seq ∧ k.logs = logs := by
  obtain ⟨h0, hsz, h1, h2, h3, h4, h5, h6, h7, h8, h9, h10, h11, h12, h13, h14, h15, h16, h17,
    h18, h19⟩ := hc
  have hlen : (c.encode ++ rest).length = c.size.natAbs + rest.length := by
    simp only [NkCell.encode, List.length_append, length_encI32, length_encLE, hsz]
    simp only [nkSig, List.length_cons, List.length_nil]
    omega
  unfold KeyNode.fromBytes
  have hchk : keyCheckSize c.size (c.size.natAbs + rest.length) = true := by
    unfold keyCheckSize unsignedAbs
    rw [Bool.and_eq_true, decide_eq_true_iff, decide_eq_true_iff]
    omega
  have hin : ∀ i : Bytes, encI32 c.size ++ i = c.encode ++ rest →
      i.length + 4 = c.size.natAbs + rest.length := by
    intro i hi
    rw [← hlen, ← hi, List.length_append, length_encI32]; omega
  have hcons : (c.encode ++ rest).length - (c.slack ++ rest).length
      = 80 + c.nameBytes.length := by
    rw [hlen, List.length_append, hsz]; omega
  have heat : eatRemaining (c.slack ++ rest) (unsignedAbs c.size) (80 + c.nameBytes.length)
      = some (c.slack, rest) := by
    unfold eatRemaining unsignedAbs
    split
    · exact take_append _ _ _ (by omega)
    · have : c.slack = [] := List.length_eq_zero_iff.1 (by omega)
      rw [this]; rfl
  simp only [NkCell.encode, List.append_assoc] at hin hcons ⊢
  rw [leI32_enc h0]
  simp only [Res.ofOption_some, Res.bind_ok]
  rw [hin _ rfl, hchk]
  simp only [Bool.not_true, Bool.false_eq_true, if_false]
  have htag : ∀ r : Bytes, tag [0x6E, 0x6B] (nkSig ++ r) = some ((), r) := fun r => tag_append nkSig r
  simp only [htag, leU16_enc h1, leU64_enc h2, leU32_enc h3, leI32_enc h4, leU32_enc h5,
    leU32_enc h6, leU32_enc h7, leI32_enc h8, leU32_enc h9, leI32_enc h10, leU32_enc h11,
    leI32_enc h12, leU32_enc h13, leU32_enc h14, leU32_enc h15, leU32_enc h16, leU32_enc h17,
    leU16_enc h18, leU16_enc h19, take_append _ _ _ rfl, Res.ofOption_some, Res.bind_ok]
  have hf : (fromBitsChecked keyNodeFlagsMask c.flags {}).1 = c.flags &&& keyNodeFlagsMask := rfl
  rw [hf, hn]
  simp only [Res.bind_ok, hcons, heat, Res.ofOption_some]
  exact ⟨_, rfl, by simp [KeyMatches], rfl⟩

/-- C13: a key cell with an ASCII name decodes to exactly the stored fields, its path is
`parent\name`, the bytes after the name are the slack and the input is consumed exactly up to
the end of the cell. -/
theorem nk_decode_ascii (hashFn : Bytes → Bytes) (c : NkCell) (hc : c.Fits)
    (hflag : c.flags.testBit 5 = true) (rest : Bytes) (fileOffset : Nat) (parentPath : Str)
    (seq : Option Nat) :
    ∃ k, KeyNode.fromBytes hashFn (c.encode ++ rest) fileOffset parentPath seq = .ok (k, rest) ∧
      KeyMatches k c parentPath (latin1 c.nameBytes) fileOffset seq ∧
      ((∀ i, c.flags.testBit i = true → keyFlagBit i = true) → k.logs.codes = []) := by
  have hcf : containsFlag (c.flags &&& keyNodeFlagsMask) 0x20 = true := by
    unfold containsFlag
    rw [beq_iff_eq]
    apply Nat.eq_of_testBit_eq
    intro i
    rw [Nat.testBit_and, Nat.testBit_and]
    cases h32 : (0x20 : Nat).testBit i with
    | false => simp
    | true =>
      have : i = 5 := by
        have : i < 6 := testBit_lt 0x20 i 6 (by decide) h32
        have hh : ∀ j < 6, (0x20 : Nat).testBit j = true → j = 5 := by decide
        exact hh i this h32
      subst this
      rw [hflag]; decide
  obtain ⟨k, h1, h2, h3⟩ := nk_decode_raw hashFn c hc rest fileOffset parentPath seq
    (latin1 c.nameBytes) (fromBitsChecked keyNodeFlagsMask c.flags {}).2
    (by rw [hcf]; exact ascii_latin1 _ _)
  refine ⟨k, h1, h2, fun hd => ?_⟩
  rw [h3, (key_flags_decode c.flags hc.2.2.1 {}).2.1 hd]
  rfl

/-- C13: the same for a UTF-16 name. -/
theorem nk_decode_utf16 (hashFn : Bytes → Bytes) (c : NkCell) (hc : c.Fits) (name : Str)
    (hflag : c.flags.testBit 5 = false) (hname : c.nameBytes = utf16le name) (hz : '\x00' ∉ name)
    (rest : Bytes) (fileOffset : Nat) (parentPath : Str) (seq : Option Nat) :
    ∃ k, KeyNode.fromBytes hashFn (c.encode ++ rest) fileOffset parentPath seq = .ok (k, rest) ∧
      KeyMatches k c parentPath name fileOffset seq ∧
      ((∀ i, c.flags.testBit i = true → keyFlagBit i = true) → k.logs.codes = []) := by
  have hcf : containsFlag (c.flags &&& keyNodeFlagsMask) 0x20 = false := by
    unfold containsFlag
    rw [beq_eq_false_iff_ne]
    intro h
    have := congrArg (fun n => n.testBit 5) h
    simp only [Nat.testBit_and, hflag, Bool.false_and] at this
    revert this; decide
  obtain ⟨k, h1, h2, h3⟩ := nk_decode_raw hashFn c hc rest fileOffset parentPath seq
    name (fromBitsChecked keyNodeFlagsMask c.flags {}).2
    (by
      rw [hcf, hname]
      have := utf16_roundtrip name hz [] (.inl (by simp))
        (fromBitsChecked keyNodeFlagsMask c.flags {}).2
      simpa [stringFromBytes] using this)
  refine ⟨k, h1, h2, fun hd => ?_⟩
  rw [h3, (key_flags_decode c.flags hc.2.2.1 {}).2.1 hd]
  rfl

/-- C13: exactly the cells with an absolute size between 72 and the available bytes, the
signature and a complete name are accepted; everything else is an error, never a panic. -/
theorem nk_accepts_iff (hashFn : Bytes → Bytes) (bs : Bytes) (fileOffset : Nat) (parentPath : Str)
    (seq : Option Nat) :
    (72 ≤ (toI32 (u32At bs 0)).natAbs ∧ (toI32 (u32At bs 0)).natAbs ≤ bs.length ∧
        slice bs 4 2 = nkSig ∧ 80 + leNat (slice bs 76 2) ≤ bs.length →
      ∃ x, KeyNode.fromBytes hashFn bs fileOffset parentPath seq = .ok x) ∧
    (¬ (72 ≤ (toI32 (u32At bs 0)).natAbs ∧ (toI32 (u32At bs 0)).natAbs ≤ bs.length ∧
        slice bs 4 2 = nkSig ∧ 80 + leNat (slice bs 76 2) ≤ bs.length) →
      KeyNode.fromBytes hashFn bs fileOffset parentPath seq = .err) := by
  rcases keyNode_cases hashFn bs fileOffset parentPath seq with ⟨h, n, l, _, hp⟩ | ⟨h, hp⟩
  · exact ⟨fun _ => ⟨_, hp⟩, fun hn => absurd h hn⟩
  · exact ⟨fun hy => absurd hy h, fun _ => hp⟩

/-- C13, the "stays inside its cell" half: the decoded key depends only on the bytes of the cell. -/
def KeyInsideCell : Prop :=
  ∀ (hashFn : Bytes → Bytes) (a b : Bytes) (off : Nat) (path : Str) (seq : Option Nat),
    (toI32 (u32At a 0)).natAbs ≤ a.length → (toI32 (u32At a 0)).natAbs ≤ b.length →
    a.take (toI32 (u32At a 0)).natAbs = b.take (toI32 (u32At a 0)).natAbs →
    ∀ k r, KeyNode.fromBytes hashFn a off path seq = .ok (k, r) →
      ∃ r', KeyNode.fromBytes hashFn b off path seq = .ok (k, r')

theorem slice_of_take_eq {a b : Bytes} {n o k : Nat} (h : a.take n = b.take n) (hk : o + k ≤ n) :
    slice a o k = slice b o k := by
  unfold slice
  have e : ∀ x : Bytes, (x.drop o).take k = ((x.take n).drop o).take k := by
    intro x
    rw [List.drop_take, List.take_take, Nat.min_eq_left (by omega)]
  rw [e a, e b, h]

/-- C13, partial: true when the header and the name fit the cell size.  Missing: cells whose size
field is smaller than header plus name (`nk_inside_violated`). -/
theorem nk_inside_partial (hashFn : Bytes → Bytes) (a b : Bytes) (off : Nat) (path : Str)
    (seq : Option Nat)
    (hb : (toI32 (u32At a 0)).natAbs ≤ b.length)
    (heq : a.take (toI32 (u32At a 0)).natAbs = b.take (toI32 (u32At a 0)).natAbs)
    (hfit : 80 + leNat (slice a 76 2) ≤ (toI32 (u32At a 0)).natAbs)
    (k : KeyNode) (r : Bytes) (h : KeyNode.fromBytes hashFn a off path seq = .ok (k, r)) :
    ∃ r', KeyNode.fromBytes hashFn b off path seq = .ok (k, r') := by
  have hs : ∀ o n, o + n ≤ (toI32 (u32At a 0)).natAbs → slice a o n = slice b o n :=
    fun o n ho => slice_of_take_eq heq ho
  have h0 : u32At b 0 = u32At a 0 := by unfold u32At; rw [hs 0 4 (by omega)]
  have hc : cellSizeAt b = cellSizeAt a := by unfold cellSizeAt; rw [h0]
  have hca : cellSizeAt a = (toI32 (u32At a 0)).natAbs := rfl
  have hns : nkNameSize b = nkNameSize a := by unfold nkNameSize; rw [hs 76 2 (by omega)]
  have hnsa : nkNameSize a = leNat (slice a 76 2) := rfl
  rcases keyNode_cases hashFn a off path seq with ⟨⟨g1, g2, g3, g4⟩, n, l, hn, hp⟩ | ⟨_, hp⟩
  · rw [hp] at h
    simp only [Res.ok.injEq, Prod.mk.injEq] at h
    obtain ⟨rfl, _⟩ := h
    rcases keyNode_cases hashFn b off path seq with ⟨_, n', l', hn', hp'⟩ | ⟨hne, _⟩
    · rw [← hs 6 2 (by omega), hns, ← hs 80 (nkNameSize a) (by omega), hn] at hn'
      simp only [Res.ok.injEq, Prod.mk.injEq] at hn'
      obtain ⟨rfl, rfl⟩ := hn'
      refine ⟨(b.drop (max (cellSizeAt b) (80 + nkNameSize b))), hp'.trans ?_⟩
      have : keyOfSlices hashFn b off path seq n l = keyOfSlices hashFn a off path seq n l := by
        unfold keyOfSlices u32At
        rw [hns, hc, ← hs 0 4 (by omega), ← hs 6 2 (by omega), ← hs 8 8 (by omega),
          ← hs 16 4 (by omega), ← hs 20 4 (by omega), ← hs 24 4 (by omega), ← hs 28 4 (by omega),
          ← hs 32 4 (by omega), ← hs 36 4 (by omega), ← hs 40 4 (by omega), ← hs 44 4 (by omega),
          ← hs 48 4 (by omega), ← hs 52 4 (by omega), ← hs 56 4 (by omega), ← hs 60 4 (by omega),
          ← hs 64 4 (by omega), ← hs 68 4 (by omega), ← hs 72 4 (by omega), ← hs 78 2 (by omega),
          ← hs (80 + nkNameSize a) (cellSizeAt a - (80 + nkNameSize a)) (by omega)]
      rw [this]
    · exfalso
      apply hne
      rw [hc, hns, ← hs 4 2 (by omega)]
      exact ⟨g1, by omega, g3, by omega⟩
  · rw [hp] at h; cases h

/-- A key cell whose size field (72) ends before the work variable and the name length. -/
def shortNk (work : UInt8) : Bytes :=
  [0xB8, 0xFF, 0xFF, 0xFF, 0x6E, 0x6B, 0x20, 0] ++ List.replicate 64 0 ++ [work, 0, 0, 0, 0, 0, 0, 0]

/-- C13: the code violates the "inside the cell" half: the minimum size it checks is 72 although
the fixed part has 80 bytes, so fields are taken from the following cell (and likewise a name
longer than the cell). -/
theorem nk_inside_violated : ¬ KeyInsideCell := by
  intro h
  obtain ⟨x, hx⟩ := (nk_accepts_iff (fun b => b) (shortNk 1) 0 [] none).1 (by decide +kernel)
  obtain ⟨k, r⟩ := x
  obtain ⟨r', hr⟩ := h (fun b => b) (shortNk 1) (shortNk 2) 0 [] none (by decide +kernel)
    (by decide +kernel) (by decide +kernel) k r hx
  have e1 : k.workVar = 1 := by
    rcases keyNode_cases (fun b => b) (shortNk 1) 0 [] none with ⟨_, n, l, _, hp⟩ | ⟨_, hp⟩
    · rw [hp] at hx
      simp only [Res.ok.injEq, Prod.mk.injEq] at hx
      rw [← hx.1]
      show u32At (shortNk 1) 72 = 1
      decide +kernel
    · rw [hp] at hx; cases hx
  have e2 : k.workVar = 2 := by
    rcases keyNode_cases (fun b => b) (shortNk 2) 0 [] none with ⟨_, n, l, _, hp⟩ | ⟨_, hp⟩
    · rw [hp] at hr
      simp only [Res.ok.injEq, Prod.mk.injEq] at hr
      rw [← hr.1]
      show u32At (shortNk 2) 72 = 2
      decide +kernel
    · rw [hp] at hr; cases hr
  rw [e1] at e2; cases e2

/-- A concrete key cell satisfying the hypotheses of the decoding theorems. -/
def exampleNk : NkCell :=
  { size := -88, flags := 0x24, lastWritten := 0x01D0000000000000, access := 2, parent := -1,
    nSubKeys := 3, nVolatile := 0, subKeysList := 0x120, volatileList := -1, nValues := 1,
    valuesList := 0x200, security := 0x80, className := -1, largestSubKeyName := 8,
    largestSubKeyClass := 0, largestValueName := 4, largestValueData := 4, workVar := 0,
    classNameSize := 0, nameBytes := [0x52, 0x4F, 0x4F, 0x54], slack := [1, 2, 3, 4] }

example : exampleNk.Fits ∧ exampleNk.flags.testBit 5 = true := by
  unfold NkCell.Fits; decide

/-! ### C14 -/

/-- The decoded value equals the stored cell, field by field. -/
def ValueMatches (v : KeyValue) (c : VkCell) (name : Str) (fileOffset : Nat) (seq : Option Nat) :
    Prop :=
  v.size = c.size ∧ v.nameSize = c.nameBytes.length ∧ v.dataSizeRaw = c.dataSize ∧
  v.dataOffset = c.dataOffset ∧ v.dataTypeRaw = c.dataType ∧ v.flagsRaw = c.flags ∧
  v.padding = c.padding ∧ v.slack = c.slack ∧ v.name = name ∧ v.fileOffset = fileOffset ∧
  v.seq = seq ∧ v.cellState = .Allocated ∧ v.valueBytes = none ∧
  v.dataType = DataType.ofRaw c.dataType

theorem vk_decode_raw (c : VkCell) (hc : c.Fits) (rest : Bytes) (fileOffset : Nat)
    (seq : Option Nat) (name : Str) (logs : Logs)
    (hn : vkName (keyValueFlags c.flags) c.nameBytes c.nameBytes.length = .ok (name, logs)) :
    ∃ v, KeyValue.fromBytes (c.encode ++ rest) fileOffset seq = .ok (v, rest) ∧
      ValueMatches v c name fileOffset seq ∧ v.logs = logs := by
  obtain ⟨h0, hsz, h1, h2, h3, h4, h5, h6⟩ := hc
  have hlen : (c.encode ++ rest).length = c.size.natAbs + rest.length := by
    simp only [VkCell.encode, List.length_append, length_encI32, length_encLE, hsz]
    simp only [vkSig, List.length_cons, List.length_nil]
    omega
  unfold KeyValue.fromBytes
  have hchk : valueCheckSize c.size (c.size.natAbs + rest.length) = true := by
    unfold valueCheckSize unsignedAbs
    rw [Bool.and_eq_true, decide_eq_true_iff, decide_eq_true_iff]
    omega
  have hcons : (c.encode ++ rest).length - (c.slack ++ rest).length
      = 24 + c.nameBytes.length := by
    rw [hlen, List.length_append, hsz]; omega
  have heat : eatRemaining (c.slack ++ rest) (unsignedAbs c.size) (24 + c.nameBytes.length)
      = some (c.slack, rest) := by
    unfold eatRemaining unsignedAbs
    split
    · exact take_append _ _ _ (by omega)
    · have : c.slack = [] := List.length_eq_zero_iff.1 (by omega)
      rw [this]; rfl
  simp only [VkCell.encode, List.append_assoc] at hlen hcons ⊢
  rw [leI32_enc h0]
  simp only [Res.ofOption_some, Res.bind_ok]
  rw [hlen, hchk]
  rw [hlen] at hcons
  simp only [Bool.not_true, Bool.false_eq_true, if_false]
  have htag : ∀ r : Bytes, tag [0x76, 0x6B] (vkSig ++ r) = some ((), r) := fun r => tag_append vkSig r
  simp only [htag, leU16_enc h6, leU32_enc h1, leU32_enc h2, leU32_enc h3, leU16_enc h4,
    leU16_enc h5, take_append _ _ _ rfl, Res.ofOption_some, Res.bind_ok]
  rw [hn]
  simp only [Res.bind_ok, hcons, heat, Res.ofOption_some]
  exact ⟨_, rfl, by simp [ValueMatches], rfl⟩

/-- C14: a value cell with an ASCII name (and no undocumented flag bit) decodes to exactly the
stored fields, without any warning. -/
theorem vk_decode_ascii (c : VkCell) (hc : c.Fits) (hflag : c.flags.testBit 0 = true)
    (hdoc : ∀ i, c.flags.testBit i = true → valueFlagBit i = true)
    (rest : Bytes) (fileOffset : Nat) (seq : Option Nat) :
    ∃ v, KeyValue.fromBytes (c.encode ++ rest) fileOffset seq = .ok (v, rest) ∧
      ValueMatches v c (latin1 c.nameBytes) fileOffset seq ∧ v.flags = c.flags ∧ v.logs = {} := by
  have hfl := (value_flags_decode_partial c.flags hc.2.2.2.2.2.1).1 hdoc
  have hcf : containsFlag c.flags 1 = true := by
    unfold containsFlag
    rw [beq_iff_eq]
    have : c.flags &&& 1 = c.flags % 2 := Nat.and_one_is_mod c.flags
    rw [this]
    have := Nat.testBit_zero c.flags
    rw [hflag] at this
    simpa using this.symm
  obtain ⟨v, h1, h2, h3⟩ := vk_decode_raw c hc rest fileOffset seq (latin1 c.nameBytes) {} (by
    unfold vkName
    rw [hfl, hcf]
    split
    · rename_i hz
      have : c.nameBytes = [] := List.length_eq_zero_iff.1 hz
      rw [this]; rfl
    · exact ascii_latin1 _ _)
  refine ⟨v, h1, h2, ?_, h3⟩
  rcases keyValue_cases (c.encode ++ rest) fileOffset seq with ⟨_, n, l, _, hp⟩ | ⟨_, hp⟩
  · rw [hp] at h1
    simp only [Res.ok.injEq, Prod.mk.injEq] at h1
    have hv := h2.2.2.2.2.2.1
    rw [← h1.1] at hv ⊢
    have hv' : leNat (slice (c.encode ++ rest) 20 2) = c.flags := hv
    show keyValueFlags (leNat (slice (c.encode ++ rest) 20 2)) = c.flags
    rw [hv', hfl]
  · rw [hp] at h1; cases h1

/-- C14: the same for a UTF-16 name. -/
theorem vk_decode_utf16 (c : VkCell) (hc : c.Fits) (name : Str)
    (hflag : c.flags.testBit 0 = false) (hname : c.nameBytes = utf16le name) (hz : '\x00' ∉ name)
    (rest : Bytes) (fileOffset : Nat) (seq : Option Nat) :
    ∃ v, KeyValue.fromBytes (c.encode ++ rest) fileOffset seq = .ok (v, rest) ∧
      ValueMatches v c name fileOffset seq ∧ v.logs = {} := by
  have hcf : containsFlag (keyValueFlags c.flags) 1 = false := by
    unfold containsFlag
    rw [beq_eq_false_iff_ne]
    intro h
    have := congrArg (fun n => n.testBit 0) h
    simp only [Nat.testBit_and] at this
    have hb : (keyValueFlags c.flags).testBit 0 = false := by
      unfold keyValueFlags
      split
      · exact hflag
      · decide
    rw [hb] at this
    revert this; decide
  apply vk_decode_raw c hc rest fileOffset seq name {}
  unfold vkName
  rw [hcf, hname]
  split
  · rename_i h0
    have hu : utf16le name = [] := List.length_eq_zero_iff.1 h0
    cases name with
    | nil => rfl
    | cons ch s =>
      exfalso
      have := congrArg List.length hu
      unfold utf16le at this
      rw [length_unitBytes] at this
      simp only [List.flatMap_cons, List.length_append, List.length_nil] at this
      have h1 : 1 ≤ (utf16Units ch).length := by unfold utf16Units; split <;> simp
      omega
  · have := utf16_roundtrip name hz [] (.inl (by simp)) ({} : Logs)
    simpa [stringFromBytes] using this

/-- C14: exactly the cells with an absolute size between 24 and the available bytes, the signature
and a complete name are accepted; everything else is an error, never a panic. -/
theorem vk_accepts_iff (bs : Bytes) (fileOffset : Nat) (seq : Option Nat) :
    (24 ≤ (toI32 (u32At bs 0)).natAbs ∧ (toI32 (u32At bs 0)).natAbs ≤ bs.length ∧
        slice bs 4 2 = vkSig ∧ 24 + leNat (slice bs 6 2) ≤ bs.length →
      ∃ x, KeyValue.fromBytes bs fileOffset seq = .ok x) ∧
    (¬ (24 ≤ (toI32 (u32At bs 0)).natAbs ∧ (toI32 (u32At bs 0)).natAbs ≤ bs.length ∧
        slice bs 4 2 = vkSig ∧ 24 + leNat (slice bs 6 2) ≤ bs.length) →
      KeyValue.fromBytes bs fileOffset seq = .err) := by
  rcases keyValue_cases bs fileOffset seq with ⟨h, n, l, _, hp⟩ | ⟨h, hp⟩
  · exact ⟨fun _ => ⟨_, hp⟩, fun hn => absurd h hn⟩
  · exact ⟨fun hy => absurd hy h, fun _ => hp⟩

/-- C14, the "stays inside its cell" half. -/
def ValueInsideCell : Prop :=
  ∀ (a b : Bytes) (off : Nat) (seq : Option Nat),
    (toI32 (u32At a 0)).natAbs ≤ a.length → (toI32 (u32At a 0)).natAbs ≤ b.length →
    a.take (toI32 (u32At a 0)).natAbs = b.take (toI32 (u32At a 0)).natAbs →
    ∀ v r, KeyValue.fromBytes a off seq = .ok (v, r) →
      ∃ r', KeyValue.fromBytes b off seq = .ok (v, r')

/-- C14, partial: true when the name fits the cell size.  Missing: names longer than the cell. -/
theorem vk_inside_partial (a b : Bytes) (off : Nat) (seq : Option Nat)
    (hb : (toI32 (u32At a 0)).natAbs ≤ b.length)
    (heq : a.take (toI32 (u32At a 0)).natAbs = b.take (toI32 (u32At a 0)).natAbs)
    (hfit : 24 + leNat (slice a 6 2) ≤ (toI32 (u32At a 0)).natAbs)
    (v : KeyValue) (r : Bytes) (h : KeyValue.fromBytes a off seq = .ok (v, r)) :
    ∃ r', KeyValue.fromBytes b off seq = .ok (v, r') := by
  have hs : ∀ o n, o + n ≤ (toI32 (u32At a 0)).natAbs → slice a o n = slice b o n :=
    fun o n ho => slice_of_take_eq heq ho
  have h0 : u32At b 0 = u32At a 0 := by unfold u32At; rw [hs 0 4 (by omega)]
  have hc : cellSizeAt b = cellSizeAt a := by unfold cellSizeAt; rw [h0]
  have hca : cellSizeAt a = (toI32 (u32At a 0)).natAbs := rfl
  have hns : vkNameSize b = vkNameSize a := by unfold vkNameSize; rw [hs 6 2 (by omega)]
  have hnsa : vkNameSize a = leNat (slice a 6 2) := rfl
  rcases keyValue_cases a off seq with ⟨⟨g1, g2, g3, g4⟩, n, l, hn, hp⟩ | ⟨_, hp⟩
  · rw [hp] at h
    simp only [Res.ok.injEq, Prod.mk.injEq] at h
    obtain ⟨rfl, _⟩ := h
    rcases keyValue_cases b off seq with ⟨_, n', l', hn', hp'⟩ | ⟨hne, _⟩
    · rw [← hs 20 2 (by omega), hns, ← hs 24 (vkNameSize a) (by omega), hn] at hn'
      simp only [Res.ok.injEq, Prod.mk.injEq] at hn'
      obtain ⟨rfl, rfl⟩ := hn'
      refine ⟨(b.drop (max (cellSizeAt b) (24 + vkNameSize b))), hp'.trans ?_⟩
      have : valueOfSlices b off seq n l = valueOfSlices a off seq n l := by
        unfold valueOfSlices u32At
        rw [hns, hc, ← hs 0 4 (by omega), ← hs 8 4 (by omega), ← hs 12 4 (by omega),
          ← hs 16 4 (by omega), ← hs 20 2 (by omega), ← hs 22 2 (by omega),
          ← hs (24 + vkNameSize a) (cellSizeAt a - (24 + vkNameSize a)) (by omega)]
      rw [this]
    · exfalso
      apply hne
      rw [hc, hns, ← hs 4 2 (by omega)]
      exact ⟨g1, by omega, g3, by omega⟩
  · rw [hp] at h; cases h

/-- A value cell of size 24 that claims a name of one byte, which lies in the next cell. -/
def shortVk (next : UInt8) : Bytes :=
  [0xE8, 0xFF, 0xFF, 0xFF, 0x76, 0x6B, 1, 0, 4, 0, 0, 0x80, 0, 0, 0, 0, 4, 0, 0, 0, 1, 0, 0, 0, next]

/-- C14: the code violates the "inside the cell" half: the name length is not compared with the
cell size, the name is then read from the following cell. -/
theorem vk_inside_violated : ¬ ValueInsideCell := by
  intro h
  obtain ⟨x, hx⟩ := (vk_accepts_iff (shortVk 0x41) 0 none).1 (by decide +kernel)
  obtain ⟨v, r⟩ := x
  obtain ⟨r', hr⟩ := h (shortVk 0x41) (shortVk 0x42) 0 none (by decide +kernel)
    (by decide +kernel) (by decide +kernel) v r hx
  have e1 : (KeyValue.fromBytes (shortVk 0x41) 0 none = .ok (v, r)) → v.name = ['A'] := by
    intro hh
    have : ∃ w q, KeyValue.fromBytes (shortVk 0x41) 0 none = .ok (w, q) ∧ w.name = ['A'] :=
      ⟨_, _, rfl, by decide⟩
    obtain ⟨w, q, hw, hn⟩ := this
    rw [hw] at hh
    simp only [Res.ok.injEq, Prod.mk.injEq] at hh
    rw [← hh.1]; exact hn
  have e2 : (KeyValue.fromBytes (shortVk 0x42) 0 none = .ok (v, r')) → v.name = ['B'] := by
    intro hh
    have : ∃ w q, KeyValue.fromBytes (shortVk 0x42) 0 none = .ok (w, q) ∧ w.name = ['B'] :=
      ⟨_, _, rfl, by decide⟩
    obtain ⟨w, q, hw, hn⟩ := this
    rw [hw] at hh
    simp only [Res.ok.injEq, Prod.mk.injEq] at hh
    rw [← hh.1]; exact hn
  have := (e1 hx).symm.trans (e2 hr)
  revert this; decide

/-- The numbers of the documented value types. -/
theorem data_type_decode (raw : Nat) (t : DataType) (ht : t ≠ .REG_UNKNOWN) :
    DataType.ofRaw raw = t ↔ (raw % 4096, t) ∈ dataTypeTable := by
  have hm : raw &&& 0xFFF = raw % 4096 := Nat.and_two_pow_sub_one_eq_mod raw 12
  unfold DataType.ofRaw DataType.fromU32
  rw [hm]
  generalize raw % 4096 = n
  have hnd : ∀ (l : List (Nat × DataType)), (l.map Prod.fst).Nodup →
      (l.lookup n = some t ↔ (n, t) ∈ l) := by
    intro l
    induction l with
    | nil => simp
    | cons p l ih =>
      intro hnd
      obtain ⟨a, b⟩ := p
      simp only [List.map_cons, List.nodup_cons] at hnd
      rw [List.lookup_cons]
      by_cases hna : n = a
      · subst hna
        simp only [beq_self_eq_true, Option.some.injEq, List.mem_cons, Prod.mk.injEq, true_and]
        constructor
        · exact fun h => .inl h.symm
        · rintro (h | h)
          · exact h.symm
          · exact absurd (List.mem_map.2 ⟨(n, t), h, rfl⟩) hnd.1
      · simp only [beq_eq_false_iff_ne.2 hna, List.mem_cons, Prod.mk.injEq, hna, false_and,
          false_or]
        exact ih hnd.2
  rw [← hnd dataTypeTable (by decide)]
  cases dataTypeTable.lookup n with
  | none => simp [ht.symm]
  | some u => simp

/-- A concrete value cell satisfying the hypotheses of the decoding theorems. -/
def exampleVk : VkCell :=
  { size := -32, dataSize := 0x80000004, dataOffset := 7, dataType := 4, flags := 1, padding := 0,
    nameBytes := [0x4E, 0x61], slack := [0, 0, 0, 0, 0, 0] }

example : exampleVk.Fits ∧ exampleVk.flags.testBit 0 = true := by
  unfold VkCell.Fits; decide

end Notatin
