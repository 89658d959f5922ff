import Verif.Lemmas.BaseBlock
/-
Property theorems C01 (header checksum) and C02 (header rewrite).
-/
namespace Notatin
open Spec

/-! ### C01 -/

namespace Spec
/-- XOR of the 127 little-endian dwords of bytes 0..508. -/
def xorDwords (bs : Bytes) : Nat := ((List.range 127).map fun i => u32At bs (4 * i)).foldr (· ^^^ ·) 0

/-- The documented substitution: 0 becomes 1 and 0xFFFFFFFF becomes 0xFFFFFFFE. -/
def substSum (x : Nat) : Nat := if x = 0 then 1 else if x = 0xFFFFFFFF then 0xFFFFFFFE else x
end Spec

theorem u32At_lt (bs : Bytes) (o : Nat) : u32At bs o < 2 ^ 32 := by
  have h := leNat_lt (slice bs o 4)
  have hl : (slice bs o 4).length ≤ 4 := by simp [slice]; omega
  have : 256 ^ (slice bs o 4).length ≤ 256 ^ 4 := Nat.pow_le_pow_right (by decide) hl
  unfold u32At; omega

theorem checksumLoop_ok (bs : Bytes) : ∀ (n k x : Nat), 4 * k + 4 * n ≤ bs.length →
    checksumLoop bs n (4 * k) x =
      .ok (x ^^^ (((List.range' k n).map fun i => u32At bs (4 * i)).foldr (· ^^^ ·) 0)) := by
  intro n
  induction n with
  | zero => intro k x _; simp [checksumLoop]
  | succ n ih =>
    intro k x h
    rw [checksumLoop, getRange_eq _ _ _ (by omega) (by omega)]
    simp only
    have e : 4 * k + 4 = 4 * (k + 1) := by omega
    rw [e, ih (k + 1) _ (by omega), List.range'_succ, List.map_cons, List.foldr_cons,
      ← Nat.xor_assoc]
    have e2 : 4 * (k + 1) - 4 * k = 4 := by omega
    rw [e2]; rfl

/-- C01: on a buffer of at least 508 bytes the computed checksum is the documented one; on a
shorter buffer an error is returned. -/
theorem checksum_spec (bs : Bytes) (h : 508 ≤ bs.length) :
    calculateChecksum bs = .ok (substSum (xorDwords bs)) := by
  unfold calculateChecksum
  have := checksumLoop_ok bs checksumSteps 0 0 (by simp [checksumSteps]; omega)
  rw [Nat.mul_zero] at this
  rw [this]
  simp only [Nat.zero_xor]
  rfl

theorem checksumLoop_short (bs : Bytes) : ∀ (n i x : Nat), i ≤ bs.length → bs.length < i + 4 * n →
    checksumLoop bs n i x = .err := by
  intro n
  induction n with
  | zero => intro i x h1 h2; omega
  | succ n ih =>
    intro i x h1 h2
    rw [checksumLoop]
    by_cases h : i + 4 ≤ bs.length
    · rw [getRange_eq _ _ _ (by omega) h]
      exact ih _ _ h (by omega)
    · simp [getRange, h]

/-- C01: fewer than 508 bytes give an error, never a panic. -/
theorem checksum_short (bs : Bytes) (h : bs.length < 508) : calculateChecksum bs = .err := by
  unfold calculateChecksum
  rw [checksumLoop_short bs _ _ _ (by omega) (by simp [checksumSteps]; omega)]

/-- C01: the checksum is a 32-bit number and never 0 or 0xFFFFFFFF. -/
theorem checksum_never_trivial (bs : Bytes) (c : Nat) (h : calculateChecksum bs = .ok c) :
    c ≠ 0 ∧ c ≠ 0xFFFFFFFF ∧ c < 2 ^ 32 := by
  by_cases hl : 508 ≤ bs.length
  · rw [checksum_spec bs hl] at h
    have hx : xorDwords bs < 2 ^ 32 := by
      unfold xorDwords
      generalize List.range 127 = l
      induction l with
      | nil => simp
      | cons a l ih =>
        rw [List.map_cons, List.foldr_cons]
        exact Nat.xor_lt_two_pow (u32At_lt _ _) ih
    simp only [Res.ok.injEq, substSum] at h
    subst h
    split
    · omega
    · split <;> omega
  · rw [checksum_short bs (by omega)] at h; cases h

/-- C01: no byte from offset 508 on influences the checksum. -/
theorem checksum_prefix_only (a b : Bytes) (h : a.take 508 = b.take 508)
    (ha : 508 ≤ a.length) (hb : 508 ≤ b.length) : calculateChecksum a = calculateChecksum b := by
  rw [checksum_spec a ha, checksum_spec b hb]
  congr 2
  unfold xorDwords
  congr 1
  apply List.map_congr_left
  intro i hi
  rw [List.mem_range] at hi
  unfold u32At
  congr 1
  apply slice_ext
  intro j h1 h2
  have h3 : (a.take 508)[j]? = (b.take 508)[j]? := by rw [h]
  rw [List.getElem?_take, List.getElem?_take, if_pos (by omega), if_pos (by omega)] at h3
  exact h3

theorem foldr_xor_init (l : List Nat) (a : Nat) :
    l.foldr (· ^^^ ·) a = l.foldr (· ^^^ ·) 0 ^^^ a := by
  induction l with
  | nil => simp
  | cons b l ih => rw [List.foldr_cons, List.foldr_cons, ih, Nat.xor_assoc]

theorem foldr_xor_diff (f g : Nat → Nat) (j : Nat) (hfg : ∀ i, i ≠ j → f i = g i) (n : Nat) :
    ((List.range n).map f).foldr (· ^^^ ·) 0 =
      ((List.range n).map g).foldr (· ^^^ ·) 0 ^^^ (if j < n then f j ^^^ g j else 0) := by
  induction n with
  | zero => simp
  | succ n ih =>
    rw [List.range_succ, List.map_append, List.map_append, List.foldr_append, List.foldr_append]
    simp only [List.map_cons, List.map_nil, List.foldr_cons, List.foldr_nil, Nat.xor_zero]
    rw [foldr_xor_init _ (f n), foldr_xor_init _ (g n), ih]
    by_cases h1 : j < n
    · rw [if_pos h1, if_pos (by omega), hfg n (by omega)]
      simp only [Nat.xor_assoc]
      congr 1
      rw [← Nat.xor_assoc, Nat.xor_comm]
    · by_cases h2 : j = n
      · subst h2
        rw [if_neg h1, if_pos (by omega), Nat.xor_zero, Nat.xor_assoc,
          Nat.xor_comm (f j), ← Nat.xor_assoc (g j), Nat.xor_self, Nat.zero_xor]
      · rw [if_neg h1, if_neg (by omega), hfg n (fun h => h2 h.symm)]; simp

/-- C01: changing exactly one of the 127 dwords changes the checksum, unless both sums are among
the values merged by the substitution (0 with 1, 0xFFFFFFFF with 0xFFFFFFFE). -/
theorem checksum_detects_dword (a b : Bytes) (j : Nat) (hj : j < 127)
    (ha : 508 ≤ a.length) (hb : 508 ≤ b.length)
    (hsame : ∀ i, i ≠ j → u32At a (4 * i) = u32At b (4 * i))
    (hdiff : u32At a (4 * j) ≠ u32At b (4 * j))
    (hna : xorDwords a ≠ 0 ∧ xorDwords a ≠ 0xFFFFFFFF)
    (hnb : xorDwords b ≠ 0 ∧ xorDwords b ≠ 0xFFFFFFFF) :
    calculateChecksum a ≠ calculateChecksum b := by
  rw [checksum_spec a ha, checksum_spec b hb]
  intro h
  simp only [Res.ok.injEq, substSum, hna.1, hna.2, hnb.1, hnb.2, if_false] at h
  have key := foldr_xor_diff (fun i => u32At a (4 * i)) (fun i => u32At b (4 * i)) j
    (fun i hi => hsame i hi) 127
  rw [if_pos hj] at key
  unfold xorDwords at h
  rw [h] at key
  apply hdiff
  have h2 : ∀ x y : Nat, x = x ^^^ y → y = 0 := by
    intro x y hxy
    have := congrArg (x ^^^ ·) hxy
    simp only [← Nat.xor_assoc, Nat.xor_self, Nat.zero_xor] at this
    exact this.symm
  have h3 := h2 _ _ key
  have h4 := congrArg (· ^^^ u32At b (4 * j)) h3
  simp only [Nat.xor_assoc, Nat.xor_self, Nat.xor_zero, Nat.zero_xor] at h4
  exact h4

/-- Two 508-byte headers that differ in one dword and meet the hypotheses. -/
example : let a := [1, 2, 3, 4] ++ List.replicate 504 0
    let b := [5, 2, 3, 4] ++ List.replicate 504 0
    508 ≤ a.length ∧ u32At a 0 ≠ u32At b 0 ∧ xorDwords a = 0x04030201 ∧
      xorDwords b = 0x04030205 ∧ calculateChecksum a = .ok 0x04030201 := by decide +kernel

/-! ### C02 -/

/-- C02: the header rewrite succeeds on every parseable hive, changes only bytes 4..12 and
508..512, and re-parsing gives both sequence numbers equal to the new number, the stored checksum
equal to the computed one, and every other field unchanged. -/
theorem header_rewrite (buf : Bytes) (bb : BaseBlock) (rest : Bytes)
    (hp : BaseBlock.fromBytes buf = .ok (bb, rest)) (s : Nat) (hs : s < 2 ^ 32) :
    ∃ buf' c, rewriteHeader buf s = .ok buf' ∧ buf'.length = buf.length ∧
      (∀ i, ¬ (4 ≤ i ∧ i < 12) → ¬ (508 ≤ i ∧ i < 512) → buf'[i]? = buf[i]?) ∧
      calculateChecksum (buf'.take 512) = .ok c ∧
      BaseBlock.fromBytes buf' =
        .ok ({ bb with base := { bb.base with primarySeq := s, secondarySeq := s, checksum := c } },
          rest) := by
  -- the parse of the old buffer
  unfold BaseBlock.fromBytes at hp
  rcases baseBlockBase_cases buf with ⟨hlen, hsig, fn, logs, hb⟩ | ⟨_, hb⟩
  rotate_left
  · rw [hb] at hp; cases hp
  rw [hb] at hp
  simp only [Res.bind_ok] at hp
  cases hext : BaseBlockExtended.fromBytes (buf.drop 512) with
  | none => rw [hext] at hp; cases hp
  | some ext =>
  rw [hext] at hp
  simp only [Res.ofOption_some, Res.bind_ok, Res.ok.injEq, Prod.mk.injEq] at hp
  obtain ⟨hbb, hrest⟩ := hp
  have hl4 : ∀ n, (u32ToLeBytes n).length = 4 := fun n => rfl
  -- the writes
  obtain ⟨b1, hw1, hb1l, hb1⟩ := writeAt_eq buf 4 (u32ToLeBytes s) (by rw [hl4]; omega)
  obtain ⟨b2, hw2, hb2l, hb2⟩ := writeAt_eq b1 8 (u32ToLeBytes s) (by rw [hl4]; omega)
  have hsum : calculateChecksum (slice b2 0 512) = .ok (substSum (xorDwords (slice b2 0 512))) :=
    checksum_spec _ (by rw [length_slice _ _ _ (by omega)]; omega)
  generalize hc : substSum (xorDwords (slice b2 0 512)) = c at hsum
  obtain ⟨hc0, hc1, hclt⟩ := checksum_never_trivial _ _ hsum
  obtain ⟨b3, hw3, hb3l, hb3⟩ := writeAt_eq b2 508 (u32ToLeBytes c) (by rw [hl4]; omega)
  have hr : rewriteHeader buf s = .ok b3 := by
    unfold rewriteHeader
    simp only [hw1, hw2, getRange_eq b2 0 0x200 (by omega) (by omega), hsum, hw3]
  have hsame : ∀ i, ¬ (4 ≤ i ∧ i < 12) → ¬ (508 ≤ i ∧ i < 512) → b3[i]? = buf[i]? := by
    intro i h1 h2
    rw [hb3, hl4, if_neg (by omega), hb2, hl4, if_neg (by omega), hb1, hl4, if_neg (by omega)]
  have hslice : ∀ o k, (o + k ≤ 4 ∨ 12 ≤ o) → (o + k ≤ 508 ∨ 512 ≤ o) →
      slice b3 o k = slice buf o k := by
    intro o k h1 h2
    apply slice_ext
    intro i h3 h4
    exact hsame i (by omega) (by omega)
  have hdrop : b3.drop 512 = buf.drop 512 := by
    apply List.ext_getElem?
    intro i
    rw [List.getElem?_drop, List.getElem?_drop]
    exact hsame _ (by omega) (by omega)
  have hu : ∀ n, n < 2 ^ 32 → leNat (u32ToLeBytes n) = n := by
    intro n hn
    rw [u32ToLeBytes_eq, leNat_encLE_of_lt (by simpa using hn)]
  have hat : ∀ o n, n < 2 ^ 32 → (∀ i, i < 4 → b3[o + i]? = (u32ToLeBytes n)[i]?) →
      u32At b3 o = n := by
    intro o n hn h
    unfold u32At
    have : slice b3 o 4 = u32ToLeBytes n := by
      apply List.ext_getElem?
      intro i
      rw [getElem?_slice]
      split
      · exact h i (by omega)
      · symm; rw [List.getElem?_eq_none_iff, hl4]; omega
    rw [this, hu n hn]
  have hprim : u32At b3 4 = s := hat 4 s hs (fun i hi => by
    rw [hb3, hl4, if_neg (by omega), hb2, hl4, if_neg (by omega), hb1, hl4, if_pos (by omega)]
    rw [Nat.add_sub_cancel_left])
  have hsec : u32At b3 8 = s := hat 8 s hs (fun i hi => by
    rw [hb3, hl4, if_neg (by omega), hb2, hl4, if_pos (by omega)]
    rw [Nat.add_sub_cancel_left])
  have hck : u32At b3 508 = c := hat 508 c hclt (fun i hi => by
    rw [hb3, hl4, if_pos (by omega)]
    rw [Nat.add_sub_cancel_left])
  have hsig3 : b3.take 4 = regf := by
    rw [← hsig, ← slice_zero_take, ← slice_zero_take]
    exact hslice 0 4 (by omega) (by omega)
  have hsum3 : calculateChecksum (b3.take 512) = .ok c := by
    rw [← hsum]
    apply checksum_prefix_only
    · rw [slice_zero_take, List.take_take, List.take_take]
      apply List.ext_getElem?
      intro i
      rw [List.getElem?_take, List.getElem?_take]
      split
      · rw [hb3, hl4, if_neg (by omega)]
      · rfl
    · simp; omega
    · rw [length_slice _ _ _ (by omega)]; omega
  refine ⟨b3, c, hr, by omega, hsame, hsum3, ?_⟩
  obtain ⟨fn3, logs3, hf3, hb3p⟩ := baseBlockBase_closed b3 (by omega) hsig3
  obtain ⟨fn0, logs0, hf0, hb0p⟩ := baseBlockBase_closed buf hlen hsig
  have e28 : u32At b3 28 = u32At buf 28 := by unfold u32At; rw [hslice 28 4 (by omega) (by omega)]
  have e32 : u32At b3 32 = u32At buf 32 := by unfold u32At; rw [hslice 32 4 (by omega) (by omega)]
  have hlogs : baseLogs b3 = baseLogs buf := by unfold baseLogs; rw [e28, e32]
  rw [hslice 48 64 (by omega) (by omega), hlogs, hf0] at hf3
  simp only [Res.ok.injEq, Prod.mk.injEq] at hf3
  obtain ⟨rfl, rfl⟩ := hf3
  rw [hb0p] at hb
  simp only [Res.ok.injEq, Prod.mk.injEq, and_true] at hb
  unfold BaseBlock.fromBytes
  rw [hb3p]
  simp only [Res.bind_ok, hdrop, hext, Res.ofOption_some]
  rw [← hbb, ← hrest, ← hb]
  have ebase : baseOfSlices b3 fn0 logs0 =
      { baseOfSlices buf fn0 logs0 with primarySeq := s, secondarySeq := s, checksum := c } := by
    unfold baseOfSlices
    simp only [hprim, hsec, hck, e28, e32, hslice 12 8 (by omega) (by omega),
      hslice 112 396 (by omega) (by omega)]
    simp only [u32At, hslice 20 4 (by omega) (by omega), hslice 24 4 (by omega) (by omega),
      hslice 36 4 (by omega) (by omega), hslice 40 4 (by omega) (by omega),
      hslice 44 4 (by omega) (by omega)]
  rw [ebase]

/-- A parseable hive header (all zero besides the signature). -/
example : (match BaseBlock.fromBytes (regf ++ List.replicate 4092 0) with
    | .ok (bb, rest) => rest.length == 0 && bb.base.primarySeq == 0
    | _ => false) = true := by decide +kernel

end Notatin
