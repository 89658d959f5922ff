import Verif.Spec.ValueData
import Verif.Lemmas.Slice
import Verif.Model.KeyValue
/-
Property theorems C15 (value data), C45 (incomplete data is reported), C46 (data offsets).
-/
namespace Notatin
open Spec

theorem at_getFrom {buf : Bytes} {off : Nat} {bs : Bytes} (h : At buf off bs) :
    ∃ post, Notatin.getFrom buf off = some (bs ++ post) ∧ buf.length = off + bs.length + post.length := by
  obtain ⟨pre, post, rfl, rfl⟩ := h
  refine ⟨post, ?_, ?_⟩
  · unfold Notatin.getFrom
    rw [if_pos (by simp), List.drop_left]
  · simp; omega

theorem at_getRange {buf : Bytes} {off : Nat} {a bs : Bytes} (h : At buf off (a ++ bs)) :
    Notatin.getRange buf (off + a.length) (off + a.length + bs.length) = some bs := by
  obtain ⟨pre, post, rfl, rfl⟩ := h
  unfold Notatin.getRange
  rw [if_pos (by simp; omega)]
  have : pre ++ (a ++ bs ++ post) = (pre ++ a) ++ (bs ++ post) := by simp
  rw [this, ← List.length_append, List.drop_left]
  simp

theorem count_leU32 (offs : List Nat) (rest : Bytes) (h : ∀ o ∈ offs, o < 4294967296) :
    Notatin.count leU32 offs.length (offs.flatMap (encLE 4) ++ rest) = some (offs, rest) := by
  induction offs with
  | nil => rfl
  | cons o os ih =>
    simp only [List.length_cons, Notatin.count, List.flatMap_cons, List.append_assoc]
    rw [leU32_enc (h o (by simp))]
    simp only
    rw [ih (fun x hx => h x (by simp [hx]))]

theorem bigDataLoop_zero (fi : FileInfo) (offs : List Nat) : bigDataLoop fi offs 0 = some [] := by
  induction offs with
  | nil => rfl
  | cons o os ih => rw [bigDataLoop, if_neg (by omega), ih]

theorem bigDataLoop_segments (fi : FileInfo) (offs : List Nat) (data : Bytes)
    (h : SegmentsAt fi.buffer fi.hbin offs data) :
    bigDataLoop fi offs data.length = some data := by
  have step : ∀ (off : Nat) (size : Int) (seg : Bytes) (offs : List Nat) (n : Nat),
      isI32 size → seg.length ≤ size.natAbs → 0 < seg.length → seg.length ≤ 16344 →
      (seg.length = 16344 ∨ n = 0) → At fi.buffer (fi.hbin + off) (encI32 size ++ seg) →
      bigDataLoop fi (off :: offs) (seg.length + n)
        = match bigDataLoop fi offs n with
          | none => none
          | some rest => some (seg ++ rest) := by
    intro off size seg offs n h1 h2 h3 h4 h5 h6
    obtain ⟨post, hg, _⟩ := at_getFrom h6
    rw [bigDataLoop, if_pos (by omega)]
    have hp : parseBigDataSize fi off = some (size, seg ++ post) := by
      unfold parseBigDataSize
      rw [hg]
      simp only [Option.bind_eq_bind, Option.bind_some, List.append_assoc]
      exact leI32_enc h1 _
    rw [hp]
    have hmin : min (unsignedAbs size) (min (seg.length + n) bigDataThreshold) = seg.length := by
      unfold unsignedAbs bigDataThreshold; omega
    simp only [hmin]
    have hr : Notatin.getRange (seg ++ post) 0 seg.length = some seg := by
      unfold Notatin.getRange
      rw [if_pos (by simp)]; simp
    rw [hr, Nat.add_sub_cancel_left]
    rfl
  induction h with
  | last off size data h1 h2 h3 h4 h5 =>
    have := step off size data [] 0 h1 h2 h3 h4 (.inr rfl) h5
    rw [Nat.add_zero] at this
    rw [this, bigDataLoop_zero]; simp
  | cons off size seg offs rest h1 h2 h3 h4 _ ih =>
    have := step off size seg offs rest.length h1 h2 (by omega) (by omega) (.inl h3) h4
    rw [List.length_append, this, ih]

theorem and_top_bit (n : Nat) (h : n < 2147483648) : n &&& 0x80000000 = 0 := by
  apply Nat.eq_of_testBit_eq
  intro i
  rw [Nat.testBit_and, Nat.zero_testBit]
  by_cases hi : i = 31
  · subst hi
    rw [Nat.testBit_lt_two_pow (by omega)]; rfl
  · have : (0x80000000 : Nat).testBit i = false := by
      have := Nat.testBit_two_pow_of_ne (n := 31) (m := i) (fun h => hi h.symm)
      simpa using this
    rw [this, Bool.and_false]

theorem and_top_bit' (n : Nat) (h : n < 2147483648) : (2147483648 + n) &&& 0x80000000 ≠ 0 := by
  intro h0
  have := congrArg (fun m => m.testBit 31) h0
  have e : (2147483648 + n).testBit 31 = true := by
    have := Nat.testBit_two_pow_add_eq n 31
    rw [show (2 ^ 31 : Nat) = 2147483648 by decide,
      Nat.testBit_lt_two_pow (by omega : n < 2 ^ 31)] at this
    exact this
  simp only [Nat.testBit_and, e, Nat.zero_testBit] at this
  revert this; decide

theorem xor_top_bit (n : Nat) (h : n < 2147483648) : (2147483648 + n) ^^^ 0x80000000 = n := by
  have h1 : 2147483648 + n = 2147483648 ^^^ n := by
    have := Nat.two_pow_add_eq_or_of_lt (i := 31) (b := n) (by omega) 1
    apply Nat.eq_of_testBit_eq
    intro i
    rw [Nat.testBit_xor]
    by_cases hi : i = 31
    · subst hi
      have := Nat.testBit_two_pow_add_eq n 31
      rw [show (2 ^ 31 : Nat) = 2147483648 by decide] at this
      rw [this, Nat.testBit_lt_two_pow (by omega : n < 2 ^ 31)]; decide
    · have e : (2147483648 : Nat).testBit i = false := by
        have := Nat.testBit_two_pow_of_ne (n := 31) (m := i) (fun h => hi h.symm)
        simpa using this
      rw [e, Bool.false_xor]
      rw [show (2147483648 : Nat) = 2 ^ 31 * 1 by decide, this, Nat.testBit_or,
        show (2 ^ 31 * 1 : Nat) = 2147483648 by decide, e, Bool.false_or]
  rw [h1, Nat.xor_comm 2147483648 n, Nat.xor_assoc, Nat.xor_self, Nat.xor_zero]

theorem getValueBytes_id (t : DataType) (data : Bytes)
    (h : t.len = none ∨ ∃ n, t.len = some n ∧ data.length ≤ n) : t.getValueBytes data = data := by
  unfold DataType.getValueBytes
  rcases h with h | ⟨n, h, hn⟩
  · rw [h]
  · rw [h]
    simp only
    rw [Nat.min_eq_right hn, List.take_length]

/-- C15, the full claim: for data stored in any of the three ways the bytes reported are exactly
that data, without a warning. -/
def ValueDataExact : Prop :=
  ∀ (fi : FileInfo) (cell raw off : Nat) (t : DataType) (logs : Logs) (data : Bytes)
    (locs : List Nat), Stored fi.buffer fi.hbin cell raw off data locs →
    (readValueBytesDirect cell raw off t fi logs).1 = data ∧
    (readValueBytesDirect cell raw off t fi logs).2.2 = logs

theorem getBigData (fi : FileInfo) (off : Nat) (t : DataType) (size : Int) (segList listSize : Nat)
    (offs : List Nat) (data : Bytes) (h1 : isI32 size) (h2 : offs.length < 65536)
    (h3 : segList < 4294967296) (h5 : ∀ o ∈ offs, o < 4294967296)
    (hhead : At fi.buffer (off + fi.hbin)
      (encI32 size ++ [0x64, 0x62] ++ encLE 2 offs.length ++ encLE 4 segList))
    (hlist : At fi.buffer (fi.hbin + segList) (encLE 4 listSize ++ offs.flatMap (encLE 4)))
    (n : Nat) (hloop : bigDataLoop fi offs n = some data) :
    getBigDataBytes fi (off + fi.hbin) t n = some (t.getValueBytes data, offs) := by
  obtain ⟨post, hg, _⟩ := at_getFrom hhead
  obtain ⟨post2, hg2, _⟩ := at_getFrom hlist
  have hbd : BigData.fromBytes (encI32 size ++ [0x64, 0x62] ++ encLE 2 offs.length
      ++ encLE 4 segList ++ post)
      = some ({ size := unsignedAbs size, count := offs.length, segmentListOffset := segList }, post) := by
    unfold BigData.fromBytes
    simp only [List.append_assoc, Option.bind_eq_bind]
    rw [leI32_enc h1]
    simp only [Option.bind_some]
    rw [tag_append]
    simp only [Option.bind_some]
    rw [leU16_enc h2]
    simp only [Option.bind_some]
    rw [leU32_enc h3]
    rfl
  unfold getBigDataBytes
  rw [hg]
  simp only [Option.bind_eq_bind, Option.bind_some, hbd]
  unfold BigData.parseOffsets
  simp only [hg2, Option.bind_eq_bind, Option.bind_some, List.append_assoc]
  have : leU32 (encLE 4 listSize ++ (offs.flatMap (encLE 4) ++ post2))
      = some (leNat (encLE 4 listSize), offs.flatMap (encLE 4) ++ post2) :=
    leUint_append 4 _ _ (length_encLE 4 listSize)
  rw [this]
  simp only [Option.bind_some]
  rw [count_leU32 offs post2 h5]
  simp only [Option.bind_some, hloop]

/-- C15, partial.  Missing: types with a fixed length storing more bytes than that
(`value_data_truncated_violated`), and data of more than 16344 bytes in a single cell beginning
with the letters `db` (`value_data_db_violated`). -/
theorem value_data_partial (fi : FileInfo) (cell raw off : Nat) (t : DataType) (logs : Logs)
    (data : Bytes) (locs : List Nat) (h : Stored fi.buffer fi.hbin cell raw off data locs)
    (ht : t.len = none ∨ ∃ n, t.len = some n ∧ data.length ≤ n)
    (hdb : data.length ≤ 16344 ∨ data.take 2 ≠ [0x64, 0x62] ∨ 1 < locs.length) :
    (readValueBytesDirect cell raw off t fi logs).1 = data ∧
    (readValueBytesDirect cell raw off t fi logs).2.2 = logs := by
  cases h with
  | resident _ pad hlen =>
    have hl : data.length ≤ 4 := by rw [List.length_append] at hlen; omega
    unfold readValueBytesDirect
    rw [if_neg (and_top_bit' _ (by omega))]
    simp only
    rw [xor_top_bit _ (by omega), u32ToLeBytes_eq]
    have : encLE 4 (leNat (data ++ pad)) = data ++ pad := by
      rw [← hlen]; exact encLE_leNat _
    rw [this]
    have hr : Notatin.getRange (data ++ pad) 0 data.length = some data := by
      unfold Notatin.getRange
      rw [if_pos (by simp)]; simp
    rw [hr]
    exact ⟨getValueBytes_id t data ht, rfl⟩
  | plain _ size _ hlen hsz hat =>
    unfold readValueBytesDirect
    rw [if_pos (and_top_bit _ hlen)]
    simp only
    obtain ⟨post, hg, hlen2⟩ := at_getFrom hat
    rw [Nat.add_comm off fi.hbin, hg]
    simp only
    rw [if_neg]
    · have := at_getRange hat
      rw [length_encI32] at this
      rw [this]
      exact ⟨getValueBytes_id t data ht, rfl⟩
    · rintro ⟨hb, hdb2⟩
      rcases hdb with hdb | hdb | hdb
      · unfold bigDataThreshold at hb; omega
      · apply hdb
        unfold isBigDataBlock Notatin.getFrom at hdb2
        rw [if_pos (by simp)] at hdb2
        simp only [List.append_assoc] at hdb2
        rw [List.drop_append, List.drop_of_length_le (by simp), length_encI32] at hdb2
        simp only [List.nil_append, Nat.sub_self, List.drop_zero] at hdb2
        unfold tag at hdb2
        split at hdb2
        · rename_i he
          rw [List.take_append_of_le_length (by simp; unfold bigDataThreshold at hb; omega)] at he
          exact he
        · simp at hdb2
      · simp at hdb
  | big _ size segList listSize offs _ h1 h2 h3 h4 h5 h6 h7 h8 h9 h10 =>
    unfold readValueBytesDirect
    rw [if_pos (and_top_bit _ h2)]
    simp only
    obtain ⟨post, hg, hlen2⟩ := at_getFrom h8
    rw [Nat.add_comm off fi.hbin, hg]
    simp only
    rw [if_pos]
    · rw [Nat.add_comm fi.hbin off] at h8 ⊢
      rw [getBigData fi off t size segList listSize offs data h3 h4 h5 h7 h8 h9 _
        (bigDataLoop_segments fi offs data h10)]
      exact ⟨getValueBytes_id t data ht, rfl⟩
    · refine ⟨h1, ?_⟩
      unfold isBigDataBlock Notatin.getFrom
      rw [if_pos (by simp)]
      simp only [List.append_assoc]
      rw [List.drop_append, List.drop_of_length_le (by simp), length_encI32]
      simp only [List.nil_append, Nat.sub_self, List.drop_zero]
      rw [tag_append]; rfl

/-- C15: the code violates the claim: a `REG_DWORD` value storing 8 bytes is reported with 4. -/
theorem value_data_truncated_violated : ¬ ValueDataExact := by
  intro h
  have hs : Stored ([0xF0, 0xFF, 0xFF, 0xFF, 1, 2, 3, 4, 5, 6, 7, 8] : Bytes) 0 0 8 0
      [1, 2, 3, 4, 5, 6, 7, 8] [4] :=
    .plain 0 (-16) [1, 2, 3, 4, 5, 6, 7, 8] (by decide) (by decide) ⟨[], [], by decide, rfl⟩
  have := (h ⟨0, [0xF0, 0xFF, 0xFF, 0xFF, 1, 2, 3, 4, 5, 6, 7, 8]⟩ 0 8 0 .REG_DWORD {} _ _ hs).1
  revert this; decide +kernel

/-- C15: a value of a hive without big data (version up to 1.3) whose more than 16344 bytes of
data start with `db` is taken for a big-data header: here nothing at all is reported. -/
theorem value_data_db_violated : ∃ (fi : FileInfo) (data : Bytes),
    Stored fi.buffer fi.hbin 0 data.length 0 data [4] ∧ data.length = 16352 ∧
    readValueBytesDirect 0 data.length 0 .REG_BIN fi {} = ([], [], {}) := by
  obtain ⟨body, hbody⟩ : ∃ b : Bytes, b.length = 16344 := ⟨List.replicate 16344 0, List.length_replicate⟩
  let data : Bytes := [0x64, 0x62] ++ encLE 2 0 ++ encLE 4 0 ++ body
  have hlen : data.length = 16352 := by simp [data, hbody]
  refine ⟨⟨0, encI32 (-16360) ++ data⟩, data, ?_, ?_, ?_⟩
  · exact .plain 0 (-16360) data (by omega) (by decide) ⟨[], [], by simp, rfl⟩
  · exact hlen
  · have hhead : At (encI32 (-16360) ++ data) (0 + 0)
        (encI32 (-16360) ++ [0x64, 0x62] ++ encLE 2 ([] : List Nat).length ++ encLE 4 0) :=
      ⟨[], body, by simp [data], rfl⟩
    have hlist : At (encI32 (-16360) ++ data) (0 + 0)
        (encLE 4 4294950936 ++ ([] : List Nat).flatMap (encLE 4)) :=
      ⟨[], data, by
        rw [show encLE 4 4294950936 = encI32 (-16360) by decide]; simp, rfl⟩
    have hb := getBigData ⟨0, encI32 (-16360) ++ data⟩ 0 .REG_BIN (-16360) 0 4294950936 [] []
      (by decide) (by decide) (by decide) (by simp) hhead hlist data.length rfl
    unfold readValueBytesDirect
    rw [if_pos (by rw [hlen]; decide)]
    have hgf : Notatin.getFrom (encI32 (-16360) ++ data) (0 + 0) = some (encI32 (-16360) ++ data) := by
      simp [Notatin.getFrom]
    simp only
    rw [hgf]
    simp only
    rw [if_pos]
    · rw [hb]; rfl
    · rw [hlen]
      refine ⟨by decide, ?_⟩
      unfold isBigDataBlock Notatin.getFrom
      rw [if_pos (by simp)]
      simp only
      rw [List.drop_append, List.drop_of_length_le (by simp), length_encI32]
      simp only [List.nil_append, Nat.sub_self, List.drop_zero, data, List.append_assoc]
      rw [tag_append]; rfl

/-- Concrete stored values meeting the hypotheses of `value_data_partial`. -/
example : Stored [] 0 100 (2147483648 + 2) (leNat ([7, 8] ++ [0, 0])) [7, 8] [112] :=
  .resident [7, 8] [0, 0] rfl

/-- A value stored in two segments. -/
theorem bigExample : ∃ (buf data : Bytes), data.length = 16346 ∧
    At buf (0 + 0) (encI32 (-16) ++ [0x64, 0x62] ++ encLE 2 [32, 16384].length ++ encLE 4 16) ∧
    At buf (0 + 16) (encLE 4 12 ++ [32, 16384].flatMap (encLE 4)) ∧
    SegmentsAt buf 0 [32, 16384] data := by
  obtain ⟨seg1, l1⟩ : ∃ b : Bytes, b.length = 16344 :=
    ⟨List.replicate 16344 1, List.length_replicate⟩
  let seg2 : Bytes := [2, 3]
  let hd : Bytes := encI32 (-16) ++ [0x64, 0x62] ++ encLE 2 2 ++ encLE 4 16
  let ls : Bytes := encLE 4 12 ++ [32, 16384].flatMap (encLE 4)
  let s1 : Bytes := encI32 (-16348) ++ seg1
  let s2 : Bytes := encI32 (-8) ++ seg2
  have l2 : hd.length = 12 := by simp [hd]
  have l3 : ls.length = 12 := by simp [ls]
  let buf : Bytes := hd ++ [0, 0, 0, 0] ++ ls ++ [0, 0, 0, 0] ++ s1 ++ [0, 0, 0, 0] ++ s2
  refine ⟨buf, seg1 ++ seg2, by simp [l1, seg2],
    ⟨[], [0, 0, 0, 0] ++ ls ++ [0, 0, 0, 0] ++ s1 ++ [0, 0, 0, 0] ++ s2, by simp [buf, hd], rfl⟩,
    ⟨hd ++ [0, 0, 0, 0], [0, 0, 0, 0] ++ s1 ++ [0, 0, 0, 0] ++ s2, by simp [buf, ls],
      by simp [l2]⟩, ?_⟩
  refine .cons 32 (-16348) seg1 [16384] seg2 (by decide) (by rw [l1]; decide) l1
    ⟨hd ++ [0, 0, 0, 0] ++ ls ++ [0, 0, 0, 0], [0, 0, 0, 0] ++ s2, by simp [buf, s1],
      by simp [l2, l3]⟩ ?_
  exact .last 16384 (-8) seg2 (by decide) (by decide) (by decide) (by decide)
    ⟨hd ++ [0, 0, 0, 0] ++ ls ++ [0, 0, 0, 0] ++ s1 ++ [0, 0, 0, 0], [], by simp [buf, s2],
      by simp [l2, l3, s1, l1]⟩

theorem bigExample_stored : ∃ (buf data : Bytes),
    Stored buf 0 0 data.length 0 data ([32, 16384].map (0 + · + 4)) ∧
    readValueBytesDirect 0 data.length 0 .REG_BIN ⟨0, buf⟩ {} = (data, [32, 16384], {}) := by
  obtain ⟨buf, data, hlen, hhd, hls, hseg⟩ := bigExample
  refine ⟨buf, data, .big 0 (-16) 16 12 [32, 16384] _ (by omega) (by omega) (by decide)
    (by decide) (by decide) (by decide) (by decide) hhd hls hseg, ?_⟩
  have hb := getBigData ⟨0, buf⟩ 0 .REG_BIN (-16) 16 12 [32, 16384] data (by decide)
    (by decide) (by decide) (by decide) hhd hls _ (bigDataLoop_segments ⟨0, buf⟩ _ _ hseg)
  unfold readValueBytesDirect
  obtain ⟨post, hg, _⟩ := at_getFrom hhd
  rw [if_pos (by rw [hlen]; decide)]
  simp only
  simp only at hb
  rw [hg]
  simp only
  rw [if_pos, hb]
  · rfl
  · rw [hlen]
    refine ⟨by decide, ?_⟩
    unfold isBigDataBlock Notatin.getFrom
    rw [if_pos (by simp)]
    simp only [List.append_assoc]
    rw [List.drop_append, List.drop_of_length_le (by simp), length_encI32]
    simp only [List.nil_append, Nat.sub_self, List.drop_zero]
    rw [tag_append]; rfl

/-! ### C45 -/

/-- C45, the full claim: when fewer bytes are reported than the size field says (and the type has
no fixed length), a warning is added. -/
def IncompleteDataWarned : Prop :=
  ∀ (fi : FileInfo) (cell raw off : Nat) (t : DataType) (logs : Logs), raw < 4294967296 →
    t.len = none → (readValueBytesDirect cell raw off t fi logs).1.length ≠ raw % 2147483648 →
    ∃ w, (readValueBytesDirect cell raw off t fi logs).2.2.codes = logs.codes ++ [w]

theorem getRange_length {bs s : Bytes} {a b : Nat} (h : Notatin.getRange bs a b = some s) :
    s.length = b - a := by
  unfold Notatin.getRange at h
  split at h
  · injection h with h; rw [← h]; simp; omega
  · cases h

/-- C45, partial: proved for everything not stored as big data.  Missing: big data whose segment
list is too short (`incomplete_data_violated`). -/
theorem incomplete_data_partial (fi : FileInfo) (cell raw off : Nat) (t : DataType) (logs : Logs)
    (hraw : raw < 4294967296) (ht : t.len = none)
    (hbig : raw ≤ 16344 ∨ 2147483648 ≤ raw ∨
      slice fi.buffer (off + fi.hbin + 4) 2 ≠ [0x64, 0x62]) :
    ((readValueBytesDirect cell raw off t fi logs).1.length = raw % 2147483648 ∧
      (readValueBytesDirect cell raw off t fi logs).2.2 = logs) ∨
    ((readValueBytesDirect cell raw off t fi logs).1 = [] ∧
      ∃ w, (readValueBytesDirect cell raw off t fi logs).2.2.codes = logs.codes ++ [w]) := by
  have hid : ∀ d, t.getValueBytes d = d := fun d => getValueBytes_id t d (.inl ht)
  unfold readValueBytesDirect
  by_cases hr : raw < 2147483648
  · rw [if_pos (and_top_bit _ hr)]
    simp only
    cases hg : Notatin.getFrom fi.buffer (off + fi.hbin) with
    | none => right; exact ⟨rfl, _, Logs.codes_add _ _⟩
    | some sl =>
      simp only
      rw [if_neg]
      · cases hg2 : Notatin.getRange fi.buffer (off + fi.hbin + 4) (off + fi.hbin + 4 + raw) with
        | none => right; exact ⟨rfl, _, Logs.codes_add _ _⟩
        | some d =>
          left
          refine ⟨?_, rfl⟩
          show (t.getValueBytes d).length = _
          rw [hid, getRange_length hg2]; omega
      · rintro ⟨hb, hdb⟩
        rcases hbig with h | h | h
        · unfold bigDataThreshold at hb; omega
        · omega
        · apply h
          unfold Notatin.getFrom at hg
          split at hg
          · injection hg with hg
            subst hg
            unfold isBigDataBlock Notatin.getFrom at hdb
            split at hdb
            · rename_i s1 he
              split at he
              · injection he with he
                subst he
                unfold tag at hdb
                split at hdb
                · rename_i he2
                  rw [List.drop_drop] at he2
                  exact he2
                · simp at hdb
              · cases he
            · cases hdb
          · cases hg
  · obtain ⟨n, rfl⟩ : ∃ n, raw = 2147483648 + n := ⟨raw - 2147483648, by omega⟩
    rw [if_neg (and_top_bit' _ (by omega))]
    simp only
    rw [xor_top_bit _ (by omega)]
    cases hg2 : Notatin.getRange (u32ToLeBytes off) 0 n with
    | none => right; exact ⟨rfl, _, Logs.codes_add _ _⟩
    | some d =>
      left
      refine ⟨?_, rfl⟩
      show (t.getValueBytes d).length = _
      rw [hid, getRange_length hg2]; omega

/-- C45: the code violates the claim: big data whose segment list is empty reports no bytes and no
warning, whatever the size field says. -/
theorem incomplete_data_violated : ¬ IncompleteDataWarned := by
  intro h
  obtain ⟨fi, data, hs, hlen, he⟩ := value_data_db_violated
  obtain ⟨w, hw⟩ := h fi 0 data.length 0 .REG_BIN {} (by omega) rfl
    (by rw [he, hlen]; decide)
  rw [he] at hw
  simp [Logs.codes] at hw

/-! ### C46 -/

/-- C46, the full claim: the reported absolute data offsets are where the data is. -/
def DataOffsetsExact : Prop :=
  ∀ (fi : FileInfo) (cell raw off : Nat) (t : DataType) (logs : Logs) (data : Bytes)
    (locs : List Nat), Stored fi.buffer fi.hbin cell raw off data locs →
    (readValueBytesDirect cell raw off t fi logs).2.1 = locs

/-- C46, partial: proved for data up to 16344 bytes (resident and in one cell).  Missing: big
data (`data_offsets_violated`). -/
theorem data_offsets_partial (fi : FileInfo) (cell raw off : Nat) (t : DataType) (logs : Logs)
    (data : Bytes) (locs : List Nat) (h : Stored fi.buffer fi.hbin cell raw off data locs)
    (hsmall : data.length ≤ 16344) :
    (readValueBytesDirect cell raw off t fi logs).2.1 = locs := by
  cases h with
  | resident _ pad hlen =>
    have hl : data.length ≤ 4 := by rw [List.length_append] at hlen; omega
    unfold readValueBytesDirect
    rw [if_neg (and_top_bit' _ (by omega))]
    simp only
    split <;> rfl
  | plain _ size _ hlen hsz hat =>
    unfold readValueBytesDirect
    rw [if_pos (and_top_bit _ hlen)]
    simp only
    obtain ⟨post, hg, hlen2⟩ := at_getFrom hat
    rw [Nat.add_comm off fi.hbin, hg]
    simp only
    rw [if_neg (by unfold bigDataThreshold; omega)]
    split <;> rfl
  | big => omega

/-- C46: for big data the offsets reported as absolute are the relative ones of the segment list
(and point to the segment's size field). -/
theorem data_offsets_violated : ¬ DataOffsetsExact := by
  intro h
  obtain ⟨buf, data, hs, he⟩ := bigExample_stored
  have := h ⟨0, buf⟩ 0 _ 0 .REG_BIN {} _ _ hs
  rw [he] at this
  simp at this

end Notatin
