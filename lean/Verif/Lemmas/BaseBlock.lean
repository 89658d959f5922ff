import Verif.Lemmas.Slice
import Verif.Props.Text
/- Closed form of the header parser. -/
namespace Notatin
open Spec

/-- The header a buffer denotes, in terms of its byte ranges. -/
def baseOfSlices (bs : Bytes) (filename : Str) (logs : Logs) : BaseBlockBase :=
  { primarySeq := u32At bs 4
    secondarySeq := u32At bs 8
    lastModification := dateTimeFromFiletime (leNat (slice bs 12 8))
    majorVersion := u32At bs 20
    minorVersion := u32At bs 24
    fileType := (FileType.fromValue (u32At bs 28) {}).1
    format := (FileFormat.fromValue (u32At bs 32) (FileType.fromValue (u32At bs 28) {}).2).1
    rootCellOffset := toI32 (u32At bs 36)
    hiveBinsDataSize := u32At bs 40
    clusteringFactor := u32At bs 44
    filename := filename
    unk2 := slice bs 112 396
    checksum := u32At bs 508
    logs := logs }

/-- Logs before the file name is decoded. -/
def baseLogs (bs : Bytes) : Logs :=
  (FileFormat.fromValue (u32At bs 32) (FileType.fromValue (u32At bs 28) {}).2).2

theorem baseBlockBase_closed (bs : Bytes) (h : 512 ≤ bs.length) (hs : bs.take 4 = regf) :
    ∃ fn logs, fromUtf16LeString (slice bs 48 64) 64 (baseLogs bs) = .ok (fn, logs) ∧
      BaseBlockBase.fromBytes bs = .ok (baseOfSlices bs fn logs, bs.drop 512) := by
  have hlen : (slice bs 48 64).length = 64 := length_slice _ _ _ (by omega)
  obtain ⟨ps, tail, logs', _, _, _, hdec, _⟩ := utf16_total (slice bs 48 64) (baseLogs bs)
  rw [hlen] at hdec
  refine ⟨_, _, hdec, ?_⟩
  have htag : tag regf bs = some ((), bs.drop 4) := by
    simp [tag, regf] at hs ⊢; exact hs
  unfold BaseBlockBase.fromBytes
  simp only [htag, Res.ofOption_some, Res.bind_ok, leU32, leU64,
    leUint_drop 4 bs 4 (by omega), leUint_drop 4 bs 8 (by omega),
    leUint_drop 8 bs 12 (by omega), leUint_drop 4 bs 20 (by omega),
    leUint_drop 4 bs 24 (by omega), leUint_drop 4 bs 28 (by omega),
    leUint_drop 4 bs 32 (by omega), leI32_drop bs 36 (by omega),
    leUint_drop 4 bs 40 (by omega), leUint_drop 4 bs 44 (by omega),
    take_drop 64 bs 48 (by omega), take_drop 396 bs 112 (by omega),
    leUint_drop 4 bs 508 (by omega), Nat.reduceAdd]
  unfold baseLogs u32At at hdec
  rw [hdec]
  rfl

theorem baseBlockBase_ok (bs : Bytes) (x : BaseBlockBase × Bytes)
    (h : BaseBlockBase.fromBytes bs = .ok x) : 512 ≤ bs.length ∧ bs.take 4 = regf := by
  have key : ∀ {α β : Type} (o : Option α) (f : α → Res β) (y : β),
      ((Res.ofOption o) >>= f) = .ok y → ∃ a, o = some a ∧ f a = .ok y := by
    intro α β o f y hh
    cases o with
    | none => cases hh
    | some a => exact ⟨a, rfl, hh⟩
  unfold BaseBlockBase.fromBytes at h
  obtain ⟨⟨_, i0⟩, h0, h⟩ := key _ _ _ h
  obtain ⟨⟨_, i1⟩, h1, h⟩ := key _ _ _ h
  obtain ⟨⟨_, i2⟩, h2, h⟩ := key _ _ _ h
  obtain ⟨⟨_, i3⟩, h3, h⟩ := key _ _ _ h
  obtain ⟨⟨_, i4⟩, h4, h⟩ := key _ _ _ h
  obtain ⟨⟨_, i5⟩, h5, h⟩ := key _ _ _ h
  obtain ⟨⟨_, i6⟩, h6, h⟩ := key _ _ _ h
  obtain ⟨⟨_, i7⟩, h7, h⟩ := key _ _ _ h
  obtain ⟨⟨_, i8⟩, h8, h⟩ := key _ _ _ h
  obtain ⟨⟨_, i9⟩, h9, h⟩ := key _ _ _ h
  obtain ⟨⟨_, i10⟩, h10, h⟩ := key _ _ _ h
  obtain ⟨⟨_, i11⟩, h11, h⟩ := key _ _ _ h
  obtain ⟨⟨_, i12⟩, h12, h⟩ := key _ _ _ h
  obtain ⟨⟨_, i13⟩, h13, _⟩ := key _ _ _ h
  have hi : ∀ {i r : Bytes} {n : Int}, leI32 i = some (n, r) → ∃ a, a.length = 4 ∧ i = a ++ r := by
    intro i r n hh
    unfold leI32 at hh
    split at hh
    · rename_i heq
      obtain ⟨a, ha, hb, _⟩ := leUint_eq_some.1 heq
      simp only [Option.some.injEq, Prod.mk.injEq] at hh
      exact ⟨a, ha, by rw [hb, hh.2]⟩
    · cases hh
  obtain h0 := tag_eq_some.1 h0
  obtain ⟨a1, l1, e1, _⟩ := leUint_eq_some.1 h1
  obtain ⟨a2, l2, e2, _⟩ := leUint_eq_some.1 h2
  obtain ⟨a3, l3, e3, _⟩ := leUint_eq_some.1 h3
  obtain ⟨a4, l4, e4, _⟩ := leUint_eq_some.1 h4
  obtain ⟨a5, l5, e5, _⟩ := leUint_eq_some.1 h5
  obtain ⟨a6, l6, e6, _⟩ := leUint_eq_some.1 h6
  obtain ⟨a7, l7, e7, _⟩ := leUint_eq_some.1 h7
  obtain ⟨a8, l8, e8⟩ := hi h8
  obtain ⟨a9, l9, e9, _⟩ := leUint_eq_some.1 h9
  obtain ⟨a10, l10, e10, _⟩ := leUint_eq_some.1 h10
  obtain ⟨l11, e11⟩ := take_eq_some.1 h11
  obtain ⟨l12, e12⟩ := take_eq_some.1 h12
  obtain ⟨a13, l13, e13, _⟩ := leUint_eq_some.1 h13
  simp only at *
  have hr : regf.length = 4 := rfl
  constructor
  · have hh := congrArg List.length h0
    rw [e1, e2, e3, e4, e5, e6, e7, e8, e9, e10, e11, e12, e13] at hh
    simp only [List.length_append, l1, l2, l3, l4, l5, l6, l7, l8, l9, l10, l11, l12, l13, hr] at hh
    omega
  · rw [h0, ← hr, List.take_left]

/-- The header parser accepts exactly buffers of at least 512 bytes starting with `regf`; it never
panics. -/
theorem baseBlockBase_cases (bs : Bytes) :
    (512 ≤ bs.length ∧ bs.take 4 = regf ∧
      ∃ fn logs, BaseBlockBase.fromBytes bs = .ok (baseOfSlices bs fn logs, bs.drop 512)) ∨
    (¬ (512 ≤ bs.length ∧ bs.take 4 = regf) ∧ BaseBlockBase.fromBytes bs = .err) := by
  by_cases h : 512 ≤ bs.length ∧ bs.take 4 = regf
  · left
    obtain ⟨fn, logs, _, h2⟩ := baseBlockBase_closed bs h.1 h.2
    exact ⟨h.1, h.2, fn, logs, h2⟩
  · right
    refine ⟨h, ?_⟩
    cases hp : BaseBlockBase.fromBytes bs with
    | ok x => exact absurd (baseBlockBase_ok bs x hp) h
    | err => rfl
    | panic =>
      exfalso
      -- a panic can only come from the file name, which has 64 bytes
      have key : ∀ {α β : Type} (o : Option α) (f : α → Res β),
          ((Res.ofOption o) >>= f) = .panic → ∃ a, o = some a ∧ f a = .panic := by
        intro α β o f hh
        cases o with
        | none => cases hh
        | some a => exact ⟨a, rfl, hh⟩
      unfold BaseBlockBase.fromBytes at hp
      obtain ⟨⟨_, i0⟩, h0, hp⟩ := key _ _ hp
      obtain ⟨⟨_, i1⟩, h1, hp⟩ := key _ _ hp
      obtain ⟨⟨_, i2⟩, h2, hp⟩ := key _ _ hp
      obtain ⟨⟨_, i3⟩, h3, hp⟩ := key _ _ hp
      obtain ⟨⟨_, i4⟩, h4, hp⟩ := key _ _ hp
      obtain ⟨⟨_, i5⟩, h5, hp⟩ := key _ _ hp
      obtain ⟨⟨_, i6⟩, h6, hp⟩ := key _ _ hp
      obtain ⟨⟨_, i7⟩, h7, hp⟩ := key _ _ hp
      obtain ⟨⟨_, i8⟩, h8, hp⟩ := key _ _ hp
      obtain ⟨⟨_, i9⟩, h9, hp⟩ := key _ _ hp
      obtain ⟨⟨_, i10⟩, h10, hp⟩ := key _ _ hp
      obtain ⟨⟨name, i11⟩, h11, hp⟩ := key _ _ hp
      obtain ⟨⟨_, i12⟩, h12, hp⟩ := key _ _ hp
      obtain ⟨⟨_, i13⟩, h13, hp⟩ := key _ _ hp
      obtain ⟨l11, _⟩ := take_eq_some.1 h11
      simp only at hp
      revert hp
      generalize (FileFormat.fromValue _ _).2 = lg
      obtain ⟨_, _, _, _, _, _, hdec, _⟩ := utf16_total name lg
      rw [l11] at hdec
      rw [hdec]
      simp

theorem extended_fromBytes_len (bs : Bytes) (x : BaseBlockExtended × Bytes)
    (h : BaseBlockExtended.fromBytes bs = some x) :
    x.2 = bs.drop 3584 ∧ 3584 ≤ bs.length := by
  unfold BaseBlockExtended.fromBytes Reserved.fromBytes at h
  simp only [Option.bind_eq_bind, Option.bind_eq_some_iff, Option.some.injEq] at h
  obtain ⟨⟨r, i⟩, ⟨⟨_, i1⟩, h1, ⟨_, i2⟩, h2, ⟨_, i3⟩, h3, ⟨_, i4⟩, h4, ⟨_, i5⟩, h5, ⟨_, i6⟩, h6,
    ⟨_, i7⟩, h7, h8⟩, ⟨_, i9⟩, h9, ⟨_, i10⟩, h10, h11⟩ := h
  obtain ⟨l1, e1⟩ := take_eq_some.1 h1
  obtain ⟨l2, e2⟩ := take_eq_some.1 h2
  obtain ⟨a3, l3, e3, _⟩ := leUint_eq_some.1 h3
  obtain ⟨l4, e4⟩ := take_eq_some.1 h4
  obtain ⟨a5, l5, e5, _⟩ := leUint_eq_some.1 h5
  obtain ⟨a6, l6, e6, _⟩ := leUint_eq_some.1 h6
  obtain ⟨l7, e7⟩ := take_eq_some.1 h7
  obtain ⟨a9, l9, e9, _⟩ := leUint_eq_some.1 h9
  obtain ⟨a10, l10, e10, _⟩ := leUint_eq_some.1 h10
  simp only [Prod.mk.injEq] at h8 e1 e2 e3 e4 e5 e6 e7 e9 e10
  obtain ⟨_, rfl⟩ := h8
  subst h11
  subst e10 e9 e7 e6 e5 e4 e3 e2 e1
  simp only [← List.append_assoc]
  constructor
  · rw [List.drop_left' (by simp [l1, l2, l3, l4, l5, l6, l7, l9, l10])]
  · simp [l1, l2, l3, l4, l5, l6, l7, l9, l10]; omega

/-- The extended header in terms of byte ranges. -/
def extOfSlices (bs : Bytes) : BaseBlockExtended :=
  { reserved :=
      { rmId := slice bs 512 16, logId := slice bs 528 16,
        flags := (ReservedFlags.fromValue (u32At bs 544) {}).1,
        tmId := slice bs 548 16, signature := u32At bs 564,
        lastReorganized := dateTimeFromFiletime (leNat (slice bs 568 8)),
        remaining := slice bs 576 3512, logs := (ReservedFlags.fromValue (u32At bs 544) {}).2 },
    bootType := u32At bs 4088, bootRecover := u32At bs 4092 }

theorem ext_closed (bs : Bytes) (h : 4096 ≤ bs.length) :
    BaseBlockExtended.fromBytes (bs.drop 512) = some (extOfSlices bs, bs.drop 4096) := by
  unfold BaseBlockExtended.fromBytes Reserved.fromBytes
  simp only [leU32, leU64, take_drop 16 bs 512 (by omega), take_drop 16 bs 528 (by omega),
    leUint_drop 4 bs 544 (by omega), take_drop 16 bs 548 (by omega), leUint_drop 4 bs 564 (by omega),
    leUint_drop 8 bs 568 (by omega), take_drop 3512 bs 576 (by omega),
    leUint_drop 4 bs 4088 (by omega), leUint_drop 4 bs 4092 (by omega), Nat.reduceAdd,
    Option.bind_eq_bind, Option.bind_some]
  rfl

/-- The whole header parser reads exactly the first 4096 bytes. -/
theorem baseBlock_frame (a : Bytes) (bb : BaseBlock) (rest : Bytes)
    (h : BaseBlock.fromBytes a = .ok (bb, rest)) :
    rest = a.drop 4096 ∧ 4096 ≤ a.length ∧
    ∀ b : Bytes, 4096 ≤ b.length → (∀ i, i < 4096 → b[i]? = a[i]?) →
      BaseBlock.fromBytes b = .ok (bb, b.drop 4096) := by
  unfold BaseBlock.fromBytes at h
  rcases baseBlockBase_cases a with ⟨hlen, hsig, _⟩ | ⟨_, hb⟩
  · obtain ⟨fn, logs, hf, hb⟩ := baseBlockBase_closed a hlen hsig
    rw [hb] at h
    simp only [Res.bind_ok] at h
    cases hext : BaseBlockExtended.fromBytes (a.drop 512) with
    | none => rw [hext] at h; cases h
    | some ext =>
    rw [hext] at h
    simp only [Res.ofOption_some, Res.bind_ok, Res.ok.injEq, Prod.mk.injEq] at h
    obtain ⟨hbb, hrest⟩ := h
    obtain ⟨e1, e2⟩ := extended_fromBytes_len _ _ hext
    rw [List.length_drop] at e2
    rw [List.drop_drop] at e1
    refine ⟨by rw [← hrest, e1], by omega, fun b hbl hab => ?_⟩
    have hs : ∀ o k, o + k ≤ 4096 → slice b o k = slice a o k := by
      intro o k hk
      apply slice_ext
      intro i h1 h2
      exact hab i (by omega)
    have hu : ∀ o, o + 4 ≤ 4096 → u32At b o = u32At a o := by
      intro o hk; unfold u32At; rw [hs o 4 hk]
    have hsig' : b.take 4 = regf := by
      rw [← hsig, ← slice_zero_take, ← slice_zero_take]; exact hs 0 4 (by omega)
    obtain ⟨fn', logs', hf', hb'⟩ := baseBlockBase_closed b (by omega) hsig'
    have hl : baseLogs b = baseLogs a := by
      unfold baseLogs; rw [hu 28 (by omega), hu 32 (by omega)]
    rw [hs 48 64 (by omega), hl, hf] at hf'
    simp only [Res.ok.injEq, Prod.mk.injEq] at hf'
    obtain ⟨rfl, rfl⟩ := hf'
    have hbase : baseOfSlices b fn logs = baseOfSlices a fn logs := by
      unfold baseOfSlices
      simp only [hu 4 (by omega), hu 8 (by omega), hs 12 8 (by omega), hu 20 (by omega),
        hu 24 (by omega), hu 28 (by omega), hu 32 (by omega), hu 36 (by omega), hu 40 (by omega),
        hu 44 (by omega), hs 112 396 (by omega), hu 508 (by omega)]
    have hex : extOfSlices b = extOfSlices a := by
      unfold extOfSlices
      simp only [hs 512 16 (by omega), hs 528 16 (by omega), hu 544 (by omega), hs 548 16 (by omega),
        hu 564 (by omega), hs 568 8 (by omega), hs 576 3512 (by omega), hu 4088 (by omega),
        hu 4092 (by omega)]
    rw [ext_closed a (by omega)] at hext
    cases hext
    unfold BaseBlock.fromBytes
    rw [hb']
    simp only [Res.bind_ok, ext_closed b hbl, Res.ofOption_some, hbase, hex]
    rw [← hbb]
  · rw [hb] at h; cases h

theorem baseBlock_no_panic (a : Bytes) : BaseBlock.fromBytes a ≠ .panic := by
  unfold BaseBlock.fromBytes
  rcases baseBlockBase_cases a with ⟨_, _, fn, logs, hb⟩ | ⟨_, hb⟩
  · rw [hb]
    simp only [Res.bind_ok]
    cases BaseBlockExtended.fromBytes (a.drop 512) <;> simp
  · rw [hb]; simp

end Notatin
