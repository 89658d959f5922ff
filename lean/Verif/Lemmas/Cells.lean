import Verif.Model.KeyNode
import Verif.Spec.Cells
import Verif.Lemmas.Slice
import Verif.Props.Text
/- Closed forms of the key and value cell parsers. -/
namespace Notatin
open Spec

theorem ascii_latin1 (bs : Bytes) (logs : Logs) : fromAscii bs logs = .ok (latin1 bs, logs) := by
  obtain ⟨s, h1, h2⟩ := ascii_decode bs logs
  rw [h1]
  have : s = latin1 bs := by
    apply (List.map_inj_right (f := Char.toNat) (fun a b h => char_toNat_inj h)).1
    rw [h2, latin1, List.map_map]
    apply List.map_congr_left
    intro b _
    exact (ofNat_byte_toNat b).symm
  rw [this]
where
  char_toNat_inj {a b : Char} (h : a.toNat = b.toNat) : a = b :=
    Char.ext (UInt32.toNat.inj h)

/-- Name decoding never fails when the byte count is the length. -/
theorem stringFromBytes_ok (b : Bool) (bs : Bytes) (n : Nat) (hn : bs.length = n) (logs : Logs) :
    ∃ s logs', stringFromBytes b bs n logs = .ok (s, logs') := by
  subst hn
  unfold stringFromBytes
  split
  · exact ⟨_, _, ascii_latin1 bs logs⟩
  · obtain ⟨ps, tail, logs', _, _, _, h, _⟩ := utf16_total bs logs
    exact ⟨_, _, h⟩

theorem ofOption_bind_ok {α β : Type} {o : Option α} {f : α → Res β} {y : β}
    (h : ((Res.ofOption o) >>= f) = .ok y) : ∃ a, o = some a ∧ f a = .ok y := by
  cases o with
  | none => cases h
  | some a => exact ⟨a, rfl, h⟩

theorem ofOption_bind_panic {α β : Type} {o : Option α} {f : α → Res β}
    (h : ((Res.ofOption o) >>= f) = .panic) : ∃ a, o = some a ∧ f a = .panic := by
  cases o with
  | none => cases h
  | some a => exact ⟨a, rfl, h⟩

theorem leI32_length {i r : Bytes} {n : Int} (h : leI32 i = some (n, r)) : i.length = 4 + r.length := by
  unfold leI32 at h
  split at h
  · rename_i heq
    obtain ⟨a, ha, hb, _⟩ := leUint_eq_some.1 heq
    simp only [Option.some.injEq, Prod.mk.injEq] at h
    rw [hb, h.2, List.length_append, ha]
  · cases h

theorem leUint_length {k : Nat} {i r : Bytes} {n : Nat} (h : leUint k i = some (n, r)) :
    i.length = k + r.length := by
  obtain ⟨a, ha, hb, _⟩ := leUint_eq_some.1 h
  rw [hb, List.length_append, ha]

theorem take_length {k : Nat} {i a r : Bytes} (h : Notatin.take k i = some (a, r)) :
    i.length = k + r.length ∧ a.length = k := by
  obtain ⟨ha, hb⟩ := take_eq_some.1 h
  exact ⟨by rw [hb, List.length_append, ha], ha⟩

theorem tag_length {s i r : Bytes} {u : Unit} (h : tag s i = some (u, r)) :
    i.length = s.length + r.length := by
  rw [tag_eq_some.1 h, List.length_append]

theorem leI32_zero (bs : Bytes) (h : 4 ≤ bs.length) :
    leI32 bs = some (toI32 (u32At bs 0), bs.drop 4) := by
  have := leI32_drop bs 0 (by omega)
  simpa [u32At] using this

theorem tag_drop (s bs : Bytes) (o : Nat) :
    tag s (bs.drop o) = if slice bs o s.length = s then some ((), bs.drop (o + s.length)) else none := by
  unfold tag slice
  simp [List.drop_drop]

theorem unsignedAbs_toI32_le (n : Nat) (h : n < 4294967296) : unsignedAbs (toI32 n) ≤ 2147483648 := by
  unfold unsignedAbs toI32; split <;> omega

/-! ### Key cells -/

/-- The stored name size of a key cell. -/
def nkNameSize (bs : Bytes) : Nat := leNat (slice bs 76 2)
/-- The absolute cell size. -/
def cellSizeAt (bs : Bytes) : Nat := (toI32 (u32At bs 0)).natAbs

/-- The key a cell denotes, in terms of its byte ranges. -/
def keyOfSlices (hashFn : Bytes → Bytes) (bs : Bytes) (fileOffset : Nat) (curPath : Str)
    (seq : Option Nat) (name : Str) (logs : Logs) : KeyNode :=
  { fileOffset
    size := toI32 (u32At bs 0)
    flagBits := leNat (slice bs 6 2)
    lastWritten := leNat (slice bs 8 8)
    accessBits := u32At bs 16
    parentOffset := toI32 (u32At bs 20)
    nSubKeys := u32At bs 24
    nVolatileSubKeys := u32At bs 28
    subKeysListOffset := u32At bs 32
    volatileListOffset := toI32 (u32At bs 36)
    nValues := u32At bs 40
    valuesListOffset := toI32 (u32At bs 44)
    securityOffset := u32At bs 48
    classNameOffset := toI32 (u32At bs 52)
    largestSubKeyName := u32At bs 56
    largestSubKeyClassName := u32At bs 60
    largestValueName := u32At bs 64
    largestValueData := u32At bs 68
    workVar := u32At bs 72
    nameSize := nkNameSize bs
    classNameSize := leNat (slice bs 78 2)
    slack := slice bs (80 + nkNameSize bs) (cellSizeAt bs - (80 + nkNameSize bs))
    name, logs, seq
    path := curPath ++ '\\' :: name
    hash := some (KeyNode.hashOf hashFn (leNat (slice bs 6 2)) (leNat (slice bs 8 8)) (u32At bs 16)) }

theorem eatRemaining_drop (bs : Bytes) (size o : Nat) (ho : o ≤ bs.length) (h : size ≤ bs.length) :
    eatRemaining (bs.drop o) size (bs.length - (bs.drop o).length) =
      some (slice bs o (size - o), bs.drop (max size o)) := by
  unfold eatRemaining
  have hc : bs.length - (bs.drop o).length = o := by rw [List.length_drop]; omega
  rw [hc]
  split
  · rw [take_drop _ _ _ (by omega), show o + (size - o) = max size o by omega]
  · rw [show size - o = 0 by omega, show max size o = o by omega]
    simp [slice]

theorem keyNode_closed (hashFn : Bytes → Bytes) (bs : Bytes) (fileOffset : Nat) (curPath : Str)
    (seq : Option Nat) (h1 : 72 ≤ cellSizeAt bs) (h2 : cellSizeAt bs ≤ bs.length)
    (hs : slice bs 4 2 = nkSig) (h3 : 80 + nkNameSize bs ≤ bs.length) :
    ∃ name logs,
      stringFromBytes (containsFlag (leNat (slice bs 6 2) &&& keyNodeFlagsMask) 0x20)
        (slice bs 80 (nkNameSize bs)) (nkNameSize bs)
        (fromBitsChecked keyNodeFlagsMask (leNat (slice bs 6 2)) {}).2 = .ok (name, logs) ∧
      KeyNode.fromBytes hashFn bs fileOffset curPath seq =
        .ok (keyOfSlices hashFn bs fileOffset curPath seq name logs,
          bs.drop (max (cellSizeAt bs) (80 + nkNameSize bs))) := by
  obtain ⟨name, logs, hn⟩ := stringFromBytes_ok
    (containsFlag (leNat (slice bs 6 2) &&& keyNodeFlagsMask) 0x20)
    (slice bs 80 (nkNameSize bs)) (nkNameSize bs) (length_slice _ _ _ h3)
    (fromBitsChecked keyNodeFlagsMask (leNat (slice bs 6 2)) {}).2
  refine ⟨name, logs, hn, ?_⟩
  have hchk : keyCheckSize (toI32 (u32At bs 0)) ((bs.drop 4).length + 4) = true := by
    unfold keyCheckSize
    have : (bs.drop 4).length + 4 = bs.length := by rw [List.length_drop]; omega
    rw [this]
    unfold cellSizeAt at h1 h2
    simp [unsignedAbs, h1, h2]
  unfold KeyNode.fromBytes
  simp only [leI32_zero bs (by omega), Res.ofOption_some, Res.bind_ok, hchk, Bool.not_true,
    Bool.false_eq_true, if_false]
  have htag : tag [0x6E, 0x6B] (bs.drop 4) = some ((), bs.drop 6) := by
    rw [tag_drop]; exact if_pos hs
  rw [htag]
  simp only [leU16, leU32, leU64, Nat.reduceAdd,
    Res.ofOption_some, Res.bind_ok,
    leUint_drop 2 bs 6 (by omega), leUint_drop 8 bs 8 (by omega), leUint_drop 4 bs 16 (by omega),
    leI32_drop bs 20 (by omega), leUint_drop 4 bs 24 (by omega), leUint_drop 4 bs 28 (by omega),
    leUint_drop 4 bs 32 (by omega), leI32_drop bs 36 (by omega), leUint_drop 4 bs 40 (by omega),
    leI32_drop bs 44 (by omega), leUint_drop 4 bs 48 (by omega), leI32_drop bs 52 (by omega),
    leUint_drop 4 bs 56 (by omega), leUint_drop 4 bs 60 (by omega), leUint_drop 4 bs 64 (by omega),
    leUint_drop 4 bs 68 (by omega), leUint_drop 4 bs 72 (by omega), leUint_drop 2 bs 76 (by omega),
    leUint_drop 2 bs 78 (by omega)]
  have hT := take_drop (nkNameSize bs) bs 80 h3
  unfold nkNameSize at hT hn
  rw [hT]
  simp only [Res.ofOption_some, Res.bind_ok]
  have hf : (fromBitsChecked keyNodeFlagsMask (leNat (slice bs 6 2)) {}).1
      = leNat (slice bs 6 2) &&& keyNodeFlagsMask := rfl
  rw [hf, hn]
  simp only [Res.bind_ok]
  have hE := eatRemaining_drop bs (cellSizeAt bs) (80 + leNat (slice bs 76 2)) h3 h2
  have hE' : unsignedAbs (toI32 (u32At bs 0)) = cellSizeAt bs := rfl
  rw [hE', hE]
  rfl

theorem keyNode_ok (hashFn : Bytes → Bytes) (bs : Bytes) (fileOffset : Nat) (curPath : Str)
    (seq : Option Nat) (x : KeyNode × Bytes)
    (h : KeyNode.fromBytes hashFn bs fileOffset curPath seq = .ok x) :
    72 ≤ cellSizeAt bs ∧ cellSizeAt bs ≤ bs.length ∧ slice bs 4 2 = nkSig ∧
      80 + nkNameSize bs ≤ bs.length := by
  unfold KeyNode.fromBytes at h
  obtain ⟨⟨size, i0⟩, h0, h⟩ := ofOption_bind_ok h
  have l0 := leI32_length h0
  rw [leI32_zero bs (by omega)] at h0
  simp only [Option.some.injEq, Prod.mk.injEq] at h0
  obtain ⟨rfl, rfl⟩ := h0
  simp only at h
  split at h
  · cases h
  rename_i hc
  simp only [Bool.not_eq_true, Bool.not_eq_false', keyCheckSize, Bool.and_eq_true,
    decide_eq_true_eq] at hc
  have hl : (bs.drop 4).length + 4 = bs.length := by omega
  rw [hl] at hc
  obtain ⟨⟨_, i⟩, h1, h⟩ := ofOption_bind_ok h
  rw [tag_drop] at h1
  split at h1
  rotate_left
  · cases h1
  rename_i hsig
  simp only [Option.some.injEq, Prod.mk.injEq, true_and] at h1
  subst h1
  refine ⟨hc.1, hc.2, hsig, ?_⟩
  simp only [List.length_cons, List.length_nil, Nat.reduceAdd] at h
  obtain ⟨⟨_, i1⟩, h1, h⟩ := ofOption_bind_ok h
  obtain ⟨⟨_, i2⟩, h2, h⟩ := ofOption_bind_ok h
  obtain ⟨⟨_, i3⟩, h3, h⟩ := ofOption_bind_ok h
  obtain ⟨⟨_, i4⟩, h4, h⟩ := ofOption_bind_ok h
  obtain ⟨⟨_, i5⟩, h5, h⟩ := ofOption_bind_ok h
  obtain ⟨⟨_, i6⟩, h6, h⟩ := ofOption_bind_ok h
  obtain ⟨⟨_, i7⟩, h7, h⟩ := ofOption_bind_ok h
  obtain ⟨⟨_, i8⟩, h8, h⟩ := ofOption_bind_ok h
  obtain ⟨⟨_, i9⟩, h9, h⟩ := ofOption_bind_ok h
  obtain ⟨⟨_, i10⟩, h10, h⟩ := ofOption_bind_ok h
  obtain ⟨⟨_, i11⟩, h11, h⟩ := ofOption_bind_ok h
  obtain ⟨⟨_, i12⟩, h12, h⟩ := ofOption_bind_ok h
  obtain ⟨⟨_, i13⟩, h13, h⟩ := ofOption_bind_ok h
  obtain ⟨⟨_, i14⟩, h14, h⟩ := ofOption_bind_ok h
  obtain ⟨⟨_, i15⟩, h15, h⟩ := ofOption_bind_ok h
  obtain ⟨⟨_, i16⟩, h16, h⟩ := ofOption_bind_ok h
  obtain ⟨⟨_, i17⟩, h17, h⟩ := ofOption_bind_ok h
  obtain ⟨⟨ns, i18⟩, h18, h⟩ := ofOption_bind_ok h
  obtain ⟨⟨_, i19⟩, h19, h⟩ := ofOption_bind_ok h
  obtain ⟨⟨_, i20⟩, h20, h⟩ := ofOption_bind_ok h
  simp only at *
  have hns : ns = nkNameSize bs := by
    have l1 := leUint_length h1; have l2 := leUint_length h2; have l3 := leUint_length h3
    have l4 := leI32_length h4; have l5 := leUint_length h5; have l6 := leUint_length h6
    have l7 := leUint_length h7; have l8 := leI32_length h8; have l9 := leUint_length h9
    have l10 := leI32_length h10; have l11 := leUint_length h11; have l12 := leI32_length h12
    have l13 := leUint_length h13; have l14 := leUint_length h14; have l15 := leUint_length h15
    have l16 := leUint_length h16; have l17 := leUint_length h17; have l18 := leUint_length h18
    rw [List.length_drop] at l1
    simp only [leU16, leU32, leU64] at *
    have key : ∀ {k o : Nat} {n : Nat} {r : Bytes}, leUint k (bs.drop o) = some (n, r) →
        o + k ≤ bs.length → n = leNat (slice bs o k) ∧ r = bs.drop (o + k) := by
      intro k o n r hh hle
      rw [leUint_drop _ _ _ hle] at hh
      simp only [Option.some.injEq, Prod.mk.injEq] at hh
      exact ⟨hh.1.symm, hh.2.symm⟩
    have keyI : ∀ {o : Nat} {n : Int} {r : Bytes}, leI32 (bs.drop o) = some (n, r) →
        o + 4 ≤ bs.length → r = bs.drop (o + 4) := by
      intro o n r hh hle
      rw [leI32_drop _ _ hle] at hh
      simp only [Option.some.injEq, Prod.mk.injEq] at hh
      exact hh.2.symm
    have e1 := (key h1 (by omega)).2; subst e1
    have e2 := (key h2 (by omega)).2; subst e2
    have e3 := (key h3 (by omega)).2; subst e3
    have e4 := keyI h4 (by omega); subst e4
    have e5 := (key h5 (by omega)).2; subst e5
    have e6 := (key h6 (by omega)).2; subst e6
    have e7 := (key h7 (by omega)).2; subst e7
    have e8 := keyI h8 (by omega); subst e8
    have e9 := (key h9 (by omega)).2; subst e9
    have e10 := keyI h10 (by omega); subst e10
    have e11 := (key h11 (by omega)).2; subst e11
    have e12 := keyI h12 (by omega); subst e12
    have e13 := (key h13 (by omega)).2; subst e13
    have e14 := (key h14 (by omega)).2; subst e14
    have e15 := (key h15 (by omega)).2; subst e15
    have e16 := (key h16 (by omega)).2; subst e16
    have e17 := (key h17 (by omega)).2; subst e17
    exact (key h18 (by omega)).1
  have l1 := leUint_length h1; have l2 := leUint_length h2; have l3 := leUint_length h3
  have l4 := leI32_length h4; have l5 := leUint_length h5; have l6 := leUint_length h6
  have l7 := leUint_length h7; have l8 := leI32_length h8; have l9 := leUint_length h9
  have l10 := leI32_length h10; have l11 := leUint_length h11; have l12 := leI32_length h12
  have l13 := leUint_length h13; have l14 := leUint_length h14; have l15 := leUint_length h15
  have l16 := leUint_length h16; have l17 := leUint_length h17; have l18 := leUint_length h18
  have l19 := leUint_length h19; have l20 := (take_length h20).1
  rw [List.length_drop] at l1
  omega

theorem res_bind_ok {α β : Type} {x : Res α} {f : α → Res β} {y : β}
    (h : (x >>= f) = .ok y) : ∃ a, x = .ok a ∧ f a = .ok y := by
  cases x with
  | ok a => exact ⟨a, rfl, h⟩
  | err => cases h
  | panic => cases h

theorem keyNode_no_panic (hashFn : Bytes → Bytes) (bs : Bytes) (fileOffset : Nat) (curPath : Str)
    (seq : Option Nat) : KeyNode.fromBytes hashFn bs fileOffset curPath seq ≠ .panic := by
  intro h
  unfold KeyNode.fromBytes at h
  obtain ⟨⟨size, i0⟩, h0, h⟩ := ofOption_bind_panic h
  simp only at h
  split at h
  · cases h
  iterate 20 obtain ⟨⟨_, _⟩, _, h⟩ := ofOption_bind_panic h
  obtain ⟨⟨nb, i20⟩, h20, h⟩ := ofOption_bind_panic h
  simp only at h
  have hl := (take_length h20).2
  obtain ⟨s, logs, hs⟩ := stringFromBytes_ok
    (containsFlag (fromBitsChecked keyNodeFlagsMask _ {}).1 0x20) nb _ hl
    (fromBitsChecked keyNodeFlagsMask _ {}).2
  rw [hs] at h
  simp only [Res.bind_ok] at h
  obtain ⟨⟨_, _⟩, _, h⟩ := ofOption_bind_panic h
  cases h

/-- The key parser is total: it accepts exactly the cells with a plausible size, the signature and
a complete name, and otherwise returns an error. -/
theorem keyNode_cases (hashFn : Bytes → Bytes) (bs : Bytes) (fileOffset : Nat) (curPath : Str)
    (seq : Option Nat) :
    ((72 ≤ cellSizeAt bs ∧ cellSizeAt bs ≤ bs.length ∧ slice bs 4 2 = nkSig ∧
        80 + nkNameSize bs ≤ bs.length) ∧
      ∃ name logs, stringFromBytes (containsFlag (leNat (slice bs 6 2) &&& keyNodeFlagsMask) 0x20)
          (slice bs 80 (nkNameSize bs)) (nkNameSize bs)
          (fromBitsChecked keyNodeFlagsMask (leNat (slice bs 6 2)) {}).2 = .ok (name, logs) ∧
        KeyNode.fromBytes hashFn bs fileOffset curPath seq =
          .ok (keyOfSlices hashFn bs fileOffset curPath seq name logs,
            bs.drop (max (cellSizeAt bs) (80 + nkNameSize bs)))) ∨
    (¬ (72 ≤ cellSizeAt bs ∧ cellSizeAt bs ≤ bs.length ∧ slice bs 4 2 = nkSig ∧
        80 + nkNameSize bs ≤ bs.length) ∧
      KeyNode.fromBytes hashFn bs fileOffset curPath seq = .err) := by
  by_cases h : 72 ≤ cellSizeAt bs ∧ cellSizeAt bs ≤ bs.length ∧ slice bs 4 2 = nkSig ∧
        80 + nkNameSize bs ≤ bs.length
  · exact .inl ⟨h, keyNode_closed hashFn bs fileOffset curPath seq h.1 h.2.1 h.2.2.1 h.2.2.2⟩
  · right
    refine ⟨h, ?_⟩
    cases hp : KeyNode.fromBytes hashFn bs fileOffset curPath seq with
    | ok x => exact absurd (keyNode_ok hashFn bs fileOffset curPath seq x hp) h
    | err => rfl
    | panic => exact absurd hp (keyNode_no_panic _ _ _ _ _)

/-! ### Value cells -/

/-- The stored name size of a value cell. -/
def vkNameSize (bs : Bytes) : Nat := leNat (slice bs 6 2)

/-- The value a cell denotes, in terms of its byte ranges. -/
def valueOfSlices (bs : Bytes) (fileOffset : Nat) (seq : Option Nat) (name : Str) (logs : Logs) :
    KeyValue :=
  { fileOffset
    size := toI32 (u32At bs 0)
    nameSize := vkNameSize bs
    dataSizeRaw := u32At bs 8
    dataOffset := u32At bs 12
    dataTypeRaw := u32At bs 16
    flagsRaw := leNat (slice bs 20 2)
    padding := leNat (slice bs 22 2)
    name, logs, seq
    slack := slice bs (24 + vkNameSize bs) (cellSizeAt bs - (24 + vkNameSize bs))
    dataType := DataType.ofRaw (u32At bs 16)
    flags := keyValueFlags (leNat (slice bs 20 2)) }

theorem vkName_ok (flags : Nat) (bs : Bytes) (n : Nat) (hn : bs.length = n) :
    ∃ s logs, vkName flags bs n = .ok (s, logs) := by
  unfold vkName
  split
  · exact ⟨_, _, rfl⟩
  · exact stringFromBytes_ok _ _ _ hn _

theorem keyValue_closed (bs : Bytes) (fileOffset : Nat) (seq : Option Nat)
    (h1 : 24 ≤ cellSizeAt bs) (h2 : cellSizeAt bs ≤ bs.length)
    (hs : slice bs 4 2 = vkSig) (h3 : 24 + vkNameSize bs ≤ bs.length) :
    ∃ name logs,
      vkName (keyValueFlags (leNat (slice bs 20 2))) (slice bs 24 (vkNameSize bs)) (vkNameSize bs)
        = .ok (name, logs) ∧
      KeyValue.fromBytes bs fileOffset seq =
        .ok (valueOfSlices bs fileOffset seq name logs,
          bs.drop (max (cellSizeAt bs) (24 + vkNameSize bs))) := by
  obtain ⟨name, logs, hn⟩ := vkName_ok (keyValueFlags (leNat (slice bs 20 2)))
    (slice bs 24 (vkNameSize bs)) (vkNameSize bs) (length_slice _ _ _ h3)
  refine ⟨name, logs, hn, ?_⟩
  have hchk : valueCheckSize (toI32 (u32At bs 0)) bs.length = true := by
    unfold valueCheckSize
    unfold cellSizeAt at h1 h2
    simp [unsignedAbs, h1, h2]
  unfold KeyValue.fromBytes
  simp only [leI32_zero bs (by omega), Res.ofOption_some, Res.bind_ok, hchk, Bool.not_true,
    Bool.false_eq_true, if_false]
  have htag : tag [0x76, 0x6B] (bs.drop 4) = some ((), bs.drop 6) := by
    rw [tag_drop]; exact if_pos hs
  rw [htag]
  simp only [leU16, leU32, Nat.reduceAdd,
    Res.ofOption_some, Res.bind_ok,
    leUint_drop 2 bs 6 (by omega), leUint_drop 4 bs 8 (by omega), leUint_drop 4 bs 12 (by omega),
    leUint_drop 4 bs 16 (by omega), leUint_drop 2 bs 20 (by omega), leUint_drop 2 bs 22 (by omega)]
  have hT := take_drop (vkNameSize bs) bs 24 h3
  unfold vkNameSize at hT hn
  rw [hT]
  simp only [Res.ofOption_some, Res.bind_ok]
  rw [hn]
  simp only [Res.bind_ok]
  have hE := eatRemaining_drop bs (cellSizeAt bs) (24 + leNat (slice bs 6 2)) h3 h2
  have hE' : unsignedAbs (toI32 (u32At bs 0)) = cellSizeAt bs := rfl
  rw [hE', hE]
  rfl

theorem keyValue_ok (bs : Bytes) (fileOffset : Nat) (seq : Option Nat) (x : KeyValue × Bytes)
    (h : KeyValue.fromBytes bs fileOffset seq = .ok x) :
    24 ≤ cellSizeAt bs ∧ cellSizeAt bs ≤ bs.length ∧ slice bs 4 2 = vkSig ∧
      24 + vkNameSize bs ≤ bs.length := by
  unfold KeyValue.fromBytes at h
  obtain ⟨⟨size, i0⟩, h0, h⟩ := ofOption_bind_ok h
  have l0 := leI32_length h0
  rw [leI32_zero bs (by omega)] at h0
  simp only [Option.some.injEq, Prod.mk.injEq] at h0
  obtain ⟨rfl, rfl⟩ := h0
  simp only at h
  split at h
  · cases h
  rename_i hc
  simp only [Bool.not_eq_true, Bool.not_eq_false', valueCheckSize, Bool.and_eq_true,
    decide_eq_true_eq] at hc
  obtain ⟨⟨_, i⟩, h1, h⟩ := ofOption_bind_ok h
  rw [tag_drop] at h1
  split at h1
  rotate_left
  · cases h1
  rename_i hsig
  simp only [Option.some.injEq, Prod.mk.injEq, true_and] at h1
  subst h1
  refine ⟨hc.1, hc.2, hsig, ?_⟩
  have h24 : 24 ≤ bs.length := Nat.le_trans hc.1 hc.2
  simp only [List.length_cons, List.length_nil, Nat.reduceAdd, leU16, leU32,
    leUint_drop 2 bs 6 (by omega), leUint_drop 4 bs 8 (by omega), leUint_drop 4 bs 12 (by omega),
    leUint_drop 4 bs 16 (by omega), leUint_drop 2 bs 20 (by omega), leUint_drop 2 bs 22 (by omega),
    Res.ofOption_some, Res.bind_ok] at h
  obtain ⟨⟨_, i20⟩, h20, h⟩ := ofOption_bind_ok h
  have l20 := (take_length h20).1
  rw [List.length_drop] at l20
  unfold vkNameSize
  omega

theorem keyValue_no_panic (bs : Bytes) (fileOffset : Nat) (seq : Option Nat) :
    KeyValue.fromBytes bs fileOffset seq ≠ .panic := by
  intro h
  unfold KeyValue.fromBytes at h
  obtain ⟨⟨size, i0⟩, h0, h⟩ := ofOption_bind_panic h
  simp only at h
  split at h
  · cases h
  iterate 7 obtain ⟨⟨_, _⟩, _, h⟩ := ofOption_bind_panic h
  obtain ⟨⟨nb, i20⟩, h20, h⟩ := ofOption_bind_panic h
  simp only at h
  have hl := (take_length h20).2
  obtain ⟨s, logs, hs⟩ := vkName_ok (keyValueFlags _) nb _ hl
  rw [hs] at h
  simp only [Res.bind_ok] at h
  obtain ⟨⟨_, _⟩, _, h⟩ := ofOption_bind_panic h
  cases h

/-- The value parser is total, see `keyNode_cases`. -/
theorem keyValue_cases (bs : Bytes) (fileOffset : Nat) (seq : Option Nat) :
    ((24 ≤ cellSizeAt bs ∧ cellSizeAt bs ≤ bs.length ∧ slice bs 4 2 = vkSig ∧
        24 + vkNameSize bs ≤ bs.length) ∧
      ∃ name logs,
        vkName (keyValueFlags (leNat (slice bs 20 2))) (slice bs 24 (vkNameSize bs)) (vkNameSize bs)
          = .ok (name, logs) ∧
        KeyValue.fromBytes bs fileOffset seq =
          .ok (valueOfSlices bs fileOffset seq name logs,
            bs.drop (max (cellSizeAt bs) (24 + vkNameSize bs)))) ∨
    (¬ (24 ≤ cellSizeAt bs ∧ cellSizeAt bs ≤ bs.length ∧ slice bs 4 2 = vkSig ∧
        24 + vkNameSize bs ≤ bs.length) ∧
      KeyValue.fromBytes bs fileOffset seq = .err) := by
  by_cases h : 24 ≤ cellSizeAt bs ∧ cellSizeAt bs ≤ bs.length ∧ slice bs 4 2 = vkSig ∧
        24 + vkNameSize bs ≤ bs.length
  · exact .inl ⟨h, keyValue_closed bs fileOffset seq h.1 h.2.1 h.2.2.1 h.2.2.2⟩
  · right
    refine ⟨h, ?_⟩
    cases hp : KeyValue.fromBytes bs fileOffset seq with
    | ok x => exact absurd (keyValue_ok bs fileOffset seq x hp) h
    | err => rfl
    | panic => exact absurd hp (keyValue_no_panic _ _ _)

end Notatin
