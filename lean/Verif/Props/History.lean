import Verif.Lemmas.History
import Verif.Lemmas.SameFrom
import Verif.Props.Replay
/-
C75: what a transaction log deletes is listed by recovery, from the bytes of the hive and its logs.
-/
namespace Notatin
open Spec

/-- What the listing of an opened hive says about the history of the file: the keys that are not marked as
recovered are those stored in the last state; every other listed key tells a key that was lost below a
survivor; every key lost below a survivor is told; and nothing is told twice: no two listed keys have the same
path. -/
def Spec.ListsLost (p : HiveParser) (states : List FileState) (last : FileState) : Prop :=
  ∀ anc, ∃ N ns, p.iterate N {} false true anc = some (.ok ns) ∧ liveKeys ns = last.keys ∧
    (∀ y ∈ ns, y.key.cellState ≠ .Allocated →
      ∃ q ∈ steps states, ∃ key, Lost q.1 q.2 key ∧ BelowSurvivor last key.2 ∧ TellsLost q.1 q.2 key y) ∧
    (∀ q ∈ steps states, ∀ key, Lost q.1 q.2 key → BelowSurvivor last key.2 → ∃ y ∈ ns, TellsLost q.1 q.2 key y) ∧
    (ns.map fun y => y.key.path).Nodup

/-- C75 (partial: the hive as given holds no deleted items, what is lost
does not come back, and of the keys that are lost only those below a survivor other than the root are listed;
see `lost_keys_listed_violated`).  Whatever history a dirty hive has: it is opened, and the listing tells the
history. -/
theorem lost_keys_listed_partial (w : World) (b : Builder) (a : FileState) (later : List FileState)
    (hd : 1 < w.depth) (hord : ∀ m, (w.order m).Perm m) (hist : History w b a later) :
    ∃ N, ∀ steps, N ≤ steps → ∃ p, b.build { w with steps } = some (.ok p) ∧
      ListsLost p (a :: later) ((a :: later).getLast (by simp)) := by
  obtain ⟨hrec, ha, ⟨bb, logs, ⟨⟨warn, hlogs⟩, ⟨rest, hp⟩, hsup, hck, hdirty, hsec, hsound, hfresh⟩,
    ⟨N0, st0, hplain, hscan⟩, hrep⟩, hstates, hno, hap⟩ := hist
  obtain ⟨sup, bad, info', hi, hs, hbad⟩ := initBaseBlock_ok b.primary {} bb rest hp
  have hb0 : bad = false := by
    cases bad with
    | false => rfl
    | true => exact absurd hck (hbad.1 rfl).2
  have hs0 : sup = true := by rw [hs]; simp [hsup]
  subst hb0 hs0
  obtain ⟨hrest, hl4, _⟩ := baseBlock_frame _ _ _ hp
  have hao := (hstates a List.mem_cons_self).1
  obtain ⟨N1, items, hstart, hdesc⟩ := records_start w (by omega) a hao bb st0 hplain
  obtain ⟨N2, k, st, items', hrun, hrecs, happ⟩ := records_run w hd hord bb.base.hiveBinsDataSize
    ((takenLogs bb.base.secondarySeq 0 logs).flatMap (·.entries)) bb.base.hiveBinsDataSize 0 a later [] st0 items
    (Nat.le_refl _) hrep hao
    (fun s hs => hstates s (List.mem_cons_of_mem _ hs)) (lostRecords_start w st0 hplain) hdesc nofun hno
  rw [List.nil_append] at hrecs
  simp only [List.replicate_zero, List.append_nil] at hrun happ
  refine ⟨max N0 (max N1 N2), fun steps hsteps => ?_⟩
  let w' : World := { w with steps }
  let h : Hive Recovery := ⟨b.primary, 4096, bb, info', some (.ok (st0, []))⟩
  have hwf : h.Wf := ⟨by show BaseBlock.fromBytes b.primary = _; rw [hp, hrest], rfl, hl4⟩
  obtain ⟨used, hused, h1, hne, h2, h3, h4⟩ := header_seq_partial (w'.analyze true) (w'.initItems true) h
    (some (.ok (st0, items))) logs hwf (by
      show World.initItems w' true b.primary (some (.ok (st0, []))) = _
      unfold World.initItems
      simp only [if_true]
      rw [show getRegItems (w'.env b.primary) w'.steps 0 st0 = some (.ok (items, st0)) by
        rw [← ha]; exact hstart steps (by omega)]) hdirty hsec hsound hfresh
  have hlast : (applyAll 4096 h.baseBlock.base.hiveBinsDataSize (used.flatMap (·.entries)) h.buffer) =
      .ok (((a :: later).getLast (by simp)).buf ++ List.replicate k 0) := by
    rw [hused]
    show applyAll 4096 bb.base.hiveBinsDataSize _ b.primary = _
    rw [← ha]
    exact happ
  rw [hlast] at h4
  obtain ⟨h', last, ha', _, _, _, _, hsame, hw', hl', hr'⟩ := h4
  have hopen : openHive (w'.analyze b.recover) (w'.initItems b.recover) (w'.scan b.recover) b.primary
      (some (.ok ({}, []))) logs = .ok (true, h') := by
    unfold openHive
    rw [hi, hrec]
    simp only [Res.bind_ok, if_true]
    rw [show w'.scan true b.primary bb (some (.ok ({}, []))) = .ok (some (.ok (st0, []))) by
      unfold World.scan
      simp only [if_true]
      rw [show initRecoverDeleted (w'.env b.primary) w'.steps bb.base.hiveBinsDataSize {} = some (.ok st0) from
        hscan steps (by omega)]]
    rw [Res.bind_ok]
    rw [show applyTransactionLogs (w'.analyze true) (w'.initItems true)
      { buffer := b.primary, hbinOffset := 4096, baseBlock := bb, info := info', recovery := some (.ok (st0, [])) }
      false logs = .ok h' from ha']
    rfl
  have hr'' : h'.recovery = some (.ok (st, items')) := by
    rw [hr', hused]
    show recordedOver (w'.analyze true) 4096 bb.base.hiveBinsDataSize _ b.primary _ = _
    rw [← ha]
    exact hrun steps (by omega)
  obtain ⟨info2, hbd⟩ := build_opened w' b logs warn h' st items' hlogs hopen hw'.2.1 hr''
  have hlo := (hstates _ (List.getLast_mem (l := a :: later) (by simp))).1
  have hst : StoredHive w h'.buffer ((a :: later).getLast (by simp)).tree ((a :: later).getLast (by simp)).vals := by
    have hlen := hw'.2.2
    obtain ⟨h0, h1, more, h2⟩ := sameFrom_stored hlo.stored (List.replicate k 0)
    refine storedHive_same ⟨h0, by omega, more, ?_⟩ hlo.stored
    rw [← h2]
    apply List.ext_getElem?
    intro i
    rw [List.getElem?_drop, List.getElem?_drop]
    exact hsame _ (by omega) (by omega)
  have hshow := fun anc => records_shown w hd a later { st with info := info2 } (hrecs.withInfo info2) hap hno _ rfl hlo
    h'.buffer hst anc
  obtain ⟨root, hroot, _⟩ := hshow false
  refine ⟨_, hbd root hroot, fun anc => ?_⟩
  obtain ⟨root', hroot', N, ns, g1, g2⟩ := hshow anc
  have : root' = root := by
    have := hroot'.symm.trans hroot
    cases this; rfl
  subst this
  exact ⟨N, ns, g1, g2⟩

/-- The full claim of C75: every key a log has taken away is listed. -/
def LostKeysListed : Prop :=
  ∀ (w : World) (b : Builder) (a : FileState) (later : List FileState), 1 < w.depth → (∀ m, (w.order m).Perm m) →
    History w b a later → ∃ N, ∀ steps, N ≤ steps → ∃ p, b.build { w with steps } = some (.ok p) ∧
      ∀ anc, ∃ M ns, p.iterate M {} false true anc = some (.ok ns) ∧
        ∀ q ∈ Spec.steps (a :: later), ∀ key, Lost q.1 q.2 key → ∃ y ∈ ns, TellsLost q.1 q.2 key y

/-! ### Examples -/

/-- The root key `RT` with `n` sub-keys. -/
def histRoot (n : Nat) : NkCell := exampleCell 0x24 n 114 [0x52, 0x54]

/-- Its sub-key `a` with `m` sub-keys, last written at `x`. -/
def histA (m x : Nat) : NkCell := { exampleCell 0x20 m 211 [0x61] with lastWritten := x }

/-- The sub-key `b` of `a`. -/
def histB : NkCell := exampleCell 0x20 0 0 [0x62]

def histBin (n m x : Nat) : Bytes :=
  hbinBytes 0 308 0 0 0 0 ++ (histRoot n).encode ++ leafCell .lf (-16) [(130, [0, 0, 0, 0])] ++ (histA m x).encode ++
    leafCell .lf (-16) [(227, [0, 0, 0, 0])] ++ histB.encode

def histPre : Bytes := sampleHeader 5 4 4096 ++ List.replicate 3584 0

def histBuf (n m x : Nat) : Bytes := histPre ++ histBin n m x

def histWorld : World := ⟨fun _ => [], 20, id, 1000⟩

/-- All three keys. -/
def histFull : FileState :=
  ⟨0, histBuf 1 1 1, .mk 4128 (histRoot 1) ['R', 'T'] [.mk 4226 (histA 1 1) ['a'] [.mk 4323 histB ['b'] []]], fun _ => []⟩

/-- Without `b`. -/
def histBare (seq x : Nat) : FileState :=
  ⟨seq, histBuf 1 0 x, .mk 4128 (histRoot 1) ['R', 'T'] [.mk 4226 (histA 0 x) ['a'] []], fun _ => []⟩

/-- Without `a`. -/
def histEmpty : FileState := ⟨4, histBuf 0 1 1, .mk 4128 (histRoot 0) ['R', 'T'] [], fun _ => []⟩

theorem histPre_length : histPre.length = 4096 := by
  unfold histPre
  rw [List.length_append, List.length_replicate]
  simp only [sampleHeader, List.length_append, length_encLE, List.length_replicate]
  rfl

theorem hist_at (B : Bytes) (off : Nat) (enc : Bytes) (he : B = B.take off ++ (enc ++ B.drop (off + enc.length)))
    (ho : off ≤ B.length) : At (histPre ++ B) (4096 + off) enc := by
  refine ⟨histPre ++ B.take off, B.drop (off + enc.length), ?_, ?_⟩
  · conv => lhs; rw [he]
    rw [List.append_assoc _ (B.take off)]
  · rw [List.length_append, histPre_length, List.length_take]; omega

theorem noValues (buf : Bytes) (hbin : Nat) (c : NkCell) (h : c.nValues = 0) : ValuesAt buf hbin c [] :=
  ⟨h, by decide, .inl rfl⟩

theorem histFull_ordinary : Ordinary histWorld histFull := by
  have hl : (histBin 1 1 1).length = 308 := by decide +kernel
  refine ⟨⟨⟨⟨0, 308, 0, 0, 0, 0, by decide, by decide, by decide, by decide, by decide, by decide,
    hist_at _ 0 _ (by decide +kernel) (Nat.zero_le _)⟩, rfl, ?_, by decide +kernel⟩, ?_⟩, by decide +kernel, ?_, ?_,
    by decide +kernel, ?_, by decide +kernel⟩
  · unfold histFull
    simp only
    rw [TreeAt.eq_def]
    simp only
    rw [ForestAt, ForestAt, TreeAt.eq_def]
    simp only
    rw [ForestAt, ForestAt, TreeAt, ForestAt]
    refine ⟨⟨by unfold NkCell.Fits isI32; decide, hist_at _ 32 _ (by decide +kernel) (by rw [hl]; decide), .inl ⟨by decide, by decide⟩⟩,
      .inr ⟨by decide, by decide, .inl ⟨.lf, -16, [(130, [0, 0, 0, 0])], by decide, by decide, by decide,
        hist_at _ 114 _ (by decide +kernel) (by rw [hl]; decide), rfl⟩⟩, by simp only [Tree.off]; decide,
      ⟨⟨by unfold NkCell.Fits isI32; decide, hist_at _ 130 _ (by decide +kernel) (by rw [hl]; decide), .inl ⟨by decide, by decide⟩⟩,
      .inr ⟨by decide, by decide, .inl ⟨.lf, -16, [(227, [0, 0, 0, 0])], by decide, by decide, by decide,
        hist_at _ 211 _ (by decide +kernel) (by rw [hl]; decide), rfl⟩⟩, by simp only [Tree.off]; decide,
      ⟨⟨by unfold NkCell.Fits isI32; decide, hist_at _ 227 _ (by decide +kernel) (by rw [hl]; decide), .inl ⟨by decide, by decide⟩⟩,
        .inl ⟨rfl, rfl⟩, trivial⟩, trivial⟩, trivial⟩
  · simp only [histFull, Tree.Every, EveryAll]
    exact ⟨noValues _ _ _ rfl, ⟨noValues _ _ _ rfl, ⟨noValues _ _ _ rfl, trivial⟩, trivial⟩, trivial⟩
  · simp only [histFull, Tree.Every, EveryAll, Tree.name]; decide
  · simp only [histFull, Tree.Every, EveryAll]; decide
  · simp only [histFull, EveryAll, Tree.Every, Tree.kids, Tree.cell]; decide

theorem histBare_ordinary (seq x : Nat) (hx : x = 1 ∨ x = 2) : Ordinary histWorld (histBare seq x) := by
  have hl : (histBin 1 0 x).length = 308 := by rcases hx with rfl | rfl <;> decide +kernel
  refine ⟨⟨⟨⟨0, 308, 0, 0, 0, 0, by decide, by decide, by decide, by decide, by decide, by decide,
    hist_at _ 0 _ (by rcases hx with rfl | rfl <;> decide +kernel) (by rw [hl]; decide)⟩, rfl, ?_,
    (by decide : ([4128, 4226] : List Nat).Nodup)⟩, ?_⟩,
    (by decide : (["\\RT".toList, "\\RT\\a".toList] : List Str).Nodup), ?_, ?_,
    (by decide : (0x24 : Nat).testBit 2 = true), ?_,
    (by decide : ∀ e ∈ [(4128, "\\RT".toList), (4226, "\\RT\\a".toList)], e.2.length + 1 < 20)⟩
  · unfold histBare
    simp only
    rw [TreeAt.eq_def]
    simp only
    rw [ForestAt, ForestAt, TreeAt, ForestAt]
    refine ⟨⟨by unfold NkCell.Fits isI32; decide, hist_at _ 32 _ (by rcases hx with rfl | rfl <;> decide +kernel) (by rw [hl]; decide),
        .inl ⟨by decide, by decide⟩⟩,
      .inr ⟨by decide, by decide, .inl ⟨.lf, -16, [(130, [0, 0, 0, 0])], by decide, by decide, by decide,
        hist_at _ 114 _ (by rcases hx with rfl | rfl <;> decide +kernel) (by rw [hl]; decide), rfl⟩⟩,
      by simp only [Tree.off]; decide,
      ⟨⟨by rcases hx with rfl | rfl <;> (unfold NkCell.Fits isI32; decide),
        hist_at _ 130 _ (by rcases hx with rfl | rfl <;> decide +kernel) (by rw [hl]; decide),
        .inl ⟨(by decide : (0x20 : Nat).testBit 5 = true), rfl⟩⟩, .inl ⟨rfl, rfl⟩, trivial⟩, trivial⟩
  · simp only [histBare, Tree.Every, EveryAll]
    exact ⟨noValues _ _ _ rfl, ⟨noValues _ _ _ rfl, trivial⟩, trivial⟩
  · simp only [histBare, Tree.Every, EveryAll, Tree.name]; decide
  · simp only [histBare, Tree.Every, EveryAll]; decide
  · simp only [histBare, EveryAll, Tree.Every, Tree.kids, Tree.cell]
    exact ⟨⟨(by decide : (0x20 : Nat).testBit 2 = false), trivial⟩, trivial⟩

theorem histEmpty_ordinary : Ordinary histWorld histEmpty := by
  have hl : (histBin 0 1 1).length = 308 := by decide +kernel
  refine ⟨⟨⟨⟨0, 308, 0, 0, 0, 0, by decide, by decide, by decide, by decide, by decide, by decide,
    hist_at _ 0 _ (by decide +kernel) (Nat.zero_le _)⟩, rfl, ?_, by decide +kernel⟩, ?_⟩, by decide +kernel, ?_, ?_,
    by decide +kernel, ?_, by decide +kernel⟩
  · unfold histEmpty
    simp only
    rw [TreeAt, ForestAt]
    exact ⟨⟨by unfold NkCell.Fits isI32; decide, hist_at _ 32 _ (by decide +kernel) (by rw [hl]; decide), .inl ⟨by decide, by decide⟩⟩,
      .inl ⟨rfl, rfl⟩, trivial⟩
  · simp only [histEmpty, Tree.Every, EveryAll]
    exact ⟨noValues _ _ _ rfl, trivial⟩
  · simp only [histEmpty, Tree.Every, EveryAll, Tree.name]; decide
  · simp only [histEmpty, Tree.Every, EveryAll]; decide
  · simp only [histEmpty, EveryAll, Tree.kids]

/-- A log entry that writes one byte. -/
def histEntry (seq off : Nat) (v : UInt8) (size : Nat := 4096) : RawEntry :=
  let e0 : RawEntry := ⟨0, seq, size, 0, 0, [(off, [v])], []⟩
  let e1 := { e0 with hash1 := (marvin32 defaultSeed (e0.encode.drop 40)).toNat }
  { e1 with hash2 := (marvin32 defaultSeed (e1.encode.take 32)).toNat }

def histLog (es : List RawEntry) : Bytes := sampleHeader 4 4 4096 ++ (es.flatMap (·.encode) ++ [])

theorem histLog_parse (es : List RawEntry) (hf : ∀ e ∈ es, e.Fits) (hne : (histLog es).isEmpty = false) :
    ∃ l, TransactionLog.parse [histLog es] = .ok ([l], none) ∧ l.base.primarySeq = 4 ∧
      l.entries = expectedEntries 512 es := by
  have hh : (match BaseBlockBase.fromBytes (sampleHeader 4 4 4096) with
      | .ok (b, []) => decide (b.primarySeq = 4) | _ => false) = true := by decide +kernel
  cases hb : BaseBlockBase.fromBytes (sampleHeader 4 4 4096) with
  | err => rw [hb] at hh; cases hh
  | panic => rw [hb] at hh; cases hh
  | ok x =>
    obtain ⟨base, r⟩ := x
    rw [hb] at hh
    cases r with
    | cons a r => cases hh
    | nil =>
      have hp : base.primarySeq = 4 := of_decide_eq_true hh
      have hf := log_file_roundtrip _ base hb es hf [] (by intro pos; rw [LogEntry.fromBytes.eq_def]; rfl)
      exact ⟨⟨base, sampleHeader 4 4 4096, expectedEntries 512 es⟩, parse_single _ _ _ hne hf, hp, rfl⟩

theorem hist_header : ∀ B, (match BaseBlock.fromBytes (histPre ++ B) with
      | .ok (bb, _) => decide (bb.base.fileType ≠ .unknown ∧ bb.base.primarySeq = 5 ∧ bb.base.secondarySeq = 4 ∧
          bb.base.hiveBinsDataSize = 4096 ∧
          calculateChecksum ((histPre ++ B).take 512) = .ok bb.base.checksum)
      | _ => false) = true →
    ∃ bb rest, BaseBlock.fromBytes (histPre ++ B) = .ok (bb, rest) ∧ bb.base.fileType ≠ .unknown ∧
      bb.base.primarySeq = 5 ∧ bb.base.secondarySeq = 4 ∧ bb.base.hiveBinsDataSize = 4096 ∧
      calculateChecksum ((histPre ++ B).take 512) = .ok bb.base.checksum := by
  intro B h
  cases hb : BaseBlock.fromBytes (histPre ++ B) with
  | err => rw [hb] at h; cases h
  | panic => rw [hb] at h; cases h
  | ok x =>
    rw [hb] at h
    exact ⟨x.1, x.2, rfl, of_decide_eq_true h⟩

/-- One byte written. -/
theorem written_byte (e : LogEntry) (B B' : Bytes) (off : Nat) (v : UInt8) (he : e.dirtyPages = [⟨off, [v]⟩])
    (ho : off < B.length) (hB : B' = B.set off v) : Written e (histPre ++ B) (histPre ++ B') := by
  subst hB
  refine ⟨?_, by simp, fun i hi => ?_⟩
  · rw [he]
    intro q hq
    cases List.mem_singleton.1 hq
    rw [List.length_append, histPre_length]
    show 4096 + off + 1 ≤ _
    omega
  · rw [he]
    by_cases hio : i = 4096 + off
    · subst hio
      refine .inl ⟨[], ⟨off, [v]⟩, [], rfl, ⟨Nat.le_refl _, by simp⟩, nofun, ?_⟩
      rw [List.getElem?_append_right (by rw [histPre_length]; omega), histPre_length,
        show 4096 + off - 4096 = off by omega, List.getElem?_set_self ho]
      simp
    · refine .inr ⟨?_, ?_⟩
      · intro q hq
        cases List.mem_singleton.1 hq
        rintro ⟨h1, h2⟩
        simp at h1 h2
        omega
      · by_cases h : i < 4096
        · rw [List.getElem?_append_left (by rw [histPre_length]; omega),
            List.getElem?_append_left (by rw [histPre_length]; omega)]
        · rw [List.getElem?_append_right (by rw [histPre_length]; omega),
            List.getElem?_append_right (by rw [histPre_length]; omega), histPre_length,
            List.getElem?_set_ne (by omega)]

/-- Nothing grows. -/
theorem written_same {e : LogEntry} {old new : Bytes} {size : Nat} (hs : e.hiveBinsDataSize ≤ size)
    (h : Written e old new) : Written e (old ++ List.replicate (e.hiveBinsDataSize - size) 0) new := by
  rw [show e.hiveBinsDataSize - size = 0 by omega, List.replicate_zero, List.append_nil]
  exact h

/-- A hive with this header is dirty, and with a log of these entries it can be replayed. -/
theorem dirty_history (w : World) (B : Bytes) (a : FileState) (ha : a.buf = histPre ++ B) (hao : Ordinary w a)
    (hhead : (match BaseBlock.fromBytes (histPre ++ B) with
      | .ok (bb, _) => decide (bb.base.fileType ≠ .unknown ∧ bb.base.primarySeq = 5 ∧ bb.base.secondarySeq = 4 ∧
          bb.base.hiveBinsDataSize = 4096 ∧
          calculateChecksum ((histPre ++ B).take 512) = .ok bb.base.checksum)
      | _ => false) = true)
    (hscan : ∀ s, initRecoverDeleted (w.env (histPre ++ B)) (s + 1) 4096 {} = some (.ok {}))
    (es : List RawEntry) (hf : ∀ e ∈ es, e.Fits) (hne : (histLog es).isEmpty = false)
    (h1 : (expectedEntries 512 es).head?.map (·.seq) = some 4)
    (h2 : ∀ e ∈ expectedEntries 512 es, e.hasValidHashes = true ∧ e.hiveBinsDataSize % 4096 = 0 ∧
      e.seq + 1 < 4294967296)
    (h3 : Consecutive (expectedEntries 512 es)) (later : List FileState)
    (h4 : Replays 4096 (expectedEntries 512 es) a later)
    (h5 : ∀ s ∈ later, Ordinary w s ∧ s.tree.name = a.tree.name)
    (h6 : NoReturn (a :: later)) (h7 : Apart (a :: later)) :
    History w { primary := histPre ++ B, logs := [histLog es], recover := true } a later := by
  obtain ⟨bb, rest, b1, b2, b3, b4, b5, b6⟩ := hist_header B hhead
  obtain ⟨l, l1, l2, l3⟩ := histLog_parse es hf hne
  have hs : SoundLog l := by
    refine ⟨?_, by rw [l3]; exact h2, by rw [l3]; exact h3⟩
    rw [l3]
    cases hh : (expectedEntries 512 es).head? with
    | none => rw [hh] at h1; cases h1
    | some e =>
      rw [hh] at h1
      exact ⟨e, rfl, by rw [l2]; exact Option.some.inj h1⟩
  refine ⟨rfl, ha, ⟨bb, [l], ⟨⟨none, l1⟩, ⟨rest, b1⟩, b2, b6, by omega, by omega, ?_, ⟨l, by simp, by omega⟩⟩,
    ⟨1, {}, ⟨fun _ => rfl, fun _ => rfl, fun _ => rfl, fun _ => rfl⟩, ?_⟩, ?_⟩, ?_, h6, h7⟩
  · intro x hx
    cases List.mem_singleton.1 hx
    exact hs
  · intro steps hst
    obtain ⟨s, rfl⟩ : ∃ s, steps = s + 1 := ⟨steps - 1, by omega⟩
    rw [b5]
    exact hscan s
  · rw [b5, takenLogs, if_pos ⟨by omega, .inl rfl⟩, takenLogs, List.flatMap_cons, List.flatMap_nil, List.append_nil, l3]
    exact h4
  · intro s hs
    rcases List.mem_cons.1 hs with rfl | hs
    · exact ⟨hao, rfl⟩
    · exact h5 s hs

/-- The hive with all three keys is dirty, and with a log of these entries it can be replayed. -/
theorem hist_dirty (es : List RawEntry) (hf : ∀ e ∈ es, e.Fits) (hne : (histLog es).isEmpty = false)
    (h1 : (expectedEntries 512 es).head?.map (·.seq) = some 4)
    (h2 : ∀ e ∈ expectedEntries 512 es, e.hasValidHashes = true ∧ e.hiveBinsDataSize % 4096 = 0 ∧
      e.seq + 1 < 4294967296)
    (h3 : Consecutive (expectedEntries 512 es)) (later : List FileState)
    (h4 : Replays 4096 (expectedEntries 512 es) histFull later)
    (h5 : ∀ s ∈ later, Ordinary histWorld s ∧ s.tree.name = ['R', 'T'])
    (h6 : NoReturn (histFull :: later)) (h7 : Apart (histFull :: later)) :
    History histWorld { primary := histBuf 1 1 1, logs := [histLog es], recover := true } histFull later :=
  dirty_history histWorld (histBin 1 1 1) histFull rfl histFull_ordinary (by decide +kernel) (fun _ => rfl) es hf hne
    h1 h2 h3 later h4 h5 h6 h7

theorem hist_apart (states : List FileState) (h : ∀ s ∈ states, ∀ e ∈ s.keys, e ∈ histFull.keys) : Apart states := by
  intro s hs t ht key hk sub hsub name hn _ heq
  have hinj : ∀ x ∈ histFull.keys, ∀ y ∈ histFull.keys, x.1 = y.1 → x = y := by decide +kernel
  have := hinj key (h s hs key hk) sub (h t ht sub hsub) heq
  rw [← this] at hn
  have := congrArg List.length hn
  simp at this

/-- The log takes `b` away and then changes the time of `a`. -/
theorem hist_small : History histWorld
    { primary := histBuf 1 1 1, logs := [histLog [histEntry 4 154 0, histEntry 5 138 2]], recover := true }
    histFull [histBare 4 1, histBare 5 2] := by
  have hpages : (expectedEntries 512 [histEntry 4 154 0, histEntry 5 138 2]).map
      (fun e => (e.seq, e.hiveBinsDataSize, e.dirtyPages, e.hasValidHashes)) =
      [(4, 4096, [⟨154, [0]⟩], true), (5, 4096, [⟨138, [2]⟩], true)] := by decide +kernel
  have hf : ∀ e ∈ [histEntry 4 154 0, histEntry 5 138 2], e.Fits := by unfold RawEntry.Fits; decide +kernel
  have hne : (histLog [histEntry 4 154 0, histEntry 5 138 2]).isEmpty = false := by decide +kernel
  have hd := hist_dirty _ hf hne
  generalize expectedEntries 512 [histEntry 4 154 0, histEntry 5 138 2] = es at hpages hd
  match es, hpages, congrArg List.length hpages with
  | [e1, e2], hpages, _ =>
    simp only [List.map_cons, List.map_nil, List.cons.injEq, Prod.mk.injEq, and_true] at hpages
    obtain ⟨⟨a1, a2, a3, a4⟩, c1, c2, c3, c4⟩ := hpages
    refine hd (by simp [a1]) ?_ ⟨by omega, trivial⟩ _ ⟨a1.symm, ?_, c1.symm, ?_, trivial⟩ ?_ ?_ ?_
    · intro e he
      rcases List.mem_cons.1 he with rfl | he
      · exact ⟨a4, by omega, by omega⟩
      · cases List.mem_singleton.1 he
        exact ⟨c4, by omega, by omega⟩
    · exact written_same (by omega) (written_byte e1 (histBin 1 1 1) (histBin 1 0 1) 154 0 a3 (by decide +kernel) (by decide +kernel))
    · exact written_same (by omega) (written_byte e2 (histBin 1 0 1) (histBin 1 0 2) 138 2 c3 (by decide +kernel) (by decide +kernel))
    · intro s hs
      rcases List.mem_cons.1 hs with rfl | hs
      · exact ⟨histBare_ordinary 4 1 (.inl rfl), rfl⟩
      · cases List.mem_singleton.1 hs
        exact ⟨histBare_ordinary 5 2 (.inr rfl), rfl⟩
    · refine ⟨?_, fun _ _ s hs => absurd hs List.not_mem_nil, trivial⟩
      intro key hk s hs
      cases List.mem_singleton.1 hs
      exact hk.2
    · exact hist_apart _ (by decide +kernel)

/-- The hypotheses of `lost_keys_listed_partial`; `b` is what is lost, below the survivor `a`. -/
example : Lost histFull (histBare 4 1) (4323, "\\RT\\a\\b".toList) ∧
    BelowSurvivor (histBare 5 2) "\\RT\\a\\b".toList ∧
    ∃ N, ∀ steps, N ≤ steps → ∃ p,
      ({ primary := histBuf 1 1 1, logs := [histLog [histEntry 4 154 0, histEntry 5 138 2]], recover := true } : Builder).build
        { histWorld with steps } = some (.ok p) ∧ ListsLost p [histFull, histBare 4 1, histBare 5 2] (histBare 5 2) :=
  ⟨⟨by decide +kernel, by decide +kernel⟩, ⟨(4226, "\\RT\\a".toList), by decide +kernel, by decide, ['b'], rfl⟩,
    lost_keys_listed_partial histWorld _ _ _ (by decide) (fun m => List.Perm.refl m) hist_small⟩

/-- The state with 4096 bytes more. -/
def grown (s : FileState) : FileState := { s with buf := s.buf ++ List.replicate 4096 0 }

/-- The same log, but its first entry doubles the hive bins. -/
theorem hist_grown : History histWorld
    { primary := histBuf 1 1 1, logs := [histLog [histEntry 4 154 0 8192, histEntry 5 138 2 8192]], recover := true }
    histFull [grown (histBare 4 1), grown (histBare 5 2)] := by
  have hpages : (expectedEntries 512 [histEntry 4 154 0 8192, histEntry 5 138 2 8192]).map
      (fun e => (e.seq, e.hiveBinsDataSize, e.dirtyPages, e.hasValidHashes)) =
      [(4, 8192, [⟨154, [0]⟩], true), (5, 8192, [⟨138, [2]⟩], true)] := by decide +kernel
  have hf : ∀ e ∈ [histEntry 4 154 0 8192, histEntry 5 138 2 8192], e.Fits := by unfold RawEntry.Fits; decide +kernel
  have hne : (histLog [histEntry 4 154 0 8192, histEntry 5 138 2 8192]).isEmpty = false := by decide +kernel
  have hd := hist_dirty _ hf hne
  generalize expectedEntries 512 [histEntry 4 154 0 8192, histEntry 5 138 2 8192] = es at hpages hd
  match es, hpages, congrArg List.length hpages with
  | [e1, e2], hpages, _ =>
    simp only [List.map_cons, List.map_nil, List.cons.injEq, Prod.mk.injEq, and_true] at hpages
    obtain ⟨⟨a1, a2, a3, a4⟩, c1, c2, c3, c4⟩ := hpages
    have hset : ∀ {B B' : Bytes} {off : Nat} {v : UInt8}, off < B.length → B' = B.set off v →
        B' ++ List.replicate 4096 0 = (B ++ List.replicate 4096 0).set off v := by
      intro B B' off v ho h
      rw [List.set_append_left _ _ ho, h]
    have hlen : ∀ n m x : Nat, (n, m, x) ∈ [(1, 1, 1), (1, 0, 1)] → (histBin n m x).length = 308 := by
      intro n m x h
      simp only [List.mem_cons, Prod.mk.injEq, List.not_mem_nil, or_false] at h
      rcases h with ⟨rfl, rfl, rfl⟩ | ⟨rfl, rfl, rfl⟩ <;> decide +kernel
    refine hd (by simp [a1]) ?_ ⟨by omega, trivial⟩ _ ⟨a1.symm, ?_, c1.symm, written_same (by omega) ?_, trivial⟩ ?_ ?_ ?_
    · intro e he
      rcases List.mem_cons.1 he with rfl | he
      · exact ⟨a4, by omega, by omega⟩
      · cases List.mem_singleton.1 he
        exact ⟨c4, by omega, by omega⟩
    · rw [a2]
      show Written e1 ((histPre ++ histBin 1 1 1) ++ List.replicate 4096 0)
        ((histPre ++ histBin 1 0 1) ++ List.replicate 4096 0)
      rw [List.append_assoc, List.append_assoc]
      exact written_byte e1 _ _ 154 0 a3 (by rw [List.length_append, hlen _ _ _ (by decide)]; omega)
        (hset (by rw [hlen _ _ _ (by decide)]; omega) (by decide +kernel))
    · show Written e2 ((histPre ++ histBin 1 0 1) ++ List.replicate 4096 0)
        ((histPre ++ histBin 1 0 2) ++ List.replicate 4096 0)
      rw [List.append_assoc, List.append_assoc]
      exact written_byte e2 _ _ 138 2 c3 (by rw [List.length_append, hlen _ _ _ (by decide)]; omega)
        (hset (by rw [hlen _ _ _ (by decide)]; omega) (by decide +kernel))
    · intro s hs
      rcases List.mem_cons.1 hs with rfl | hs
      · exact ⟨ordinary_more (histBare_ordinary 4 1 (.inl rfl)) _, rfl⟩
      · cases List.mem_singleton.1 hs
        exact ⟨ordinary_more (histBare_ordinary 5 2 (.inr rfl)) _, rfl⟩
    · refine ⟨?_, fun _ _ s hs => absurd hs List.not_mem_nil, trivial⟩
      intro key hk s hs
      cases List.mem_singleton.1 hs
      exact hk.2
    · exact hist_apart _ (by decide +kernel)

/-- The hypotheses of `lost_keys_listed_partial` with entries that make the hive bins larger. -/
example : Lost histFull (grown (histBare 4 1)) (4323, "\\RT\\a\\b".toList) ∧
    ∃ N, ∀ steps, N ≤ steps → ∃ p,
      ({ primary := histBuf 1 1 1, logs := [histLog [histEntry 4 154 0 8192, histEntry 5 138 2 8192]], recover := true } :
        Builder).build { histWorld with steps } = some (.ok p) ∧
      ListsLost p [histFull, grown (histBare 4 1), grown (histBare 5 2)] (grown (histBare 5 2)) :=
  ⟨⟨by decide +kernel, by decide +kernel⟩,
    lost_keys_listed_partial histWorld _ _ _ (by decide) (fun m => List.Perm.refl m) hist_grown⟩

/-- The log takes `a` away, with `b` below it. -/
theorem hist_large : History histWorld
    { primary := histBuf 1 1 1, logs := [histLog [histEntry 4 56 0]], recover := true } histFull [histEmpty] := by
  have hpages : (expectedEntries 512 [histEntry 4 56 0]).map
      (fun e => (e.seq, e.hiveBinsDataSize, e.dirtyPages, e.hasValidHashes)) = [(4, 4096, [⟨56, [0]⟩], true)] := by
    decide +kernel
  have hf : ∀ e ∈ [histEntry 4 56 0], e.Fits := by unfold RawEntry.Fits; decide +kernel
  have hne : (histLog [histEntry 4 56 0]).isEmpty = false := by decide +kernel
  have hd := hist_dirty _ hf hne
  generalize expectedEntries 512 [histEntry 4 56 0] = es at hpages hd
  match es, hpages, congrArg List.length hpages with
  | [e1], hpages, _ =>
    simp only [List.map_cons, List.map_nil, List.cons.injEq, Prod.mk.injEq, and_true] at hpages
    obtain ⟨a1, a2, a3, a4⟩ := hpages
    refine hd (by simp [a1]) ?_ trivial _ ⟨a1.symm, ?_, trivial⟩ ?_ ?_ ?_
    · intro e he
      cases List.mem_singleton.1 he
      exact ⟨a4, by omega, by omega⟩
    · exact written_same (by omega) (written_byte e1 (histBin 1 1 1) (histBin 0 1 1) 56 0 a3 (by decide +kernel) (by decide +kernel))
    · intro s hs
      cases List.mem_singleton.1 hs
      exact ⟨histEmpty_ordinary, rfl⟩
    · exact ⟨fun _ _ s hs => absurd hs List.not_mem_nil, trivial⟩
    · exact hist_apart _ (by decide +kernel)

/-- C75 is violated: of a key directly below the root that a log takes away, and of everything below it, nothing
is listed. -/
theorem lost_keys_listed_violated : ¬ LostKeysListed := by
  intro h
  obtain ⟨N1, h1⟩ := h histWorld _ _ _ (by decide) (fun m => List.Perm.refl m) hist_large
  obtain ⟨N2, h2⟩ := lost_keys_listed_partial histWorld _ _ _ (by decide) (fun m => List.Perm.refl m) hist_large
  obtain ⟨p, e1, h1⟩ := h1 (max N1 N2) (by omega)
  obtain ⟨p', e2, h2⟩ := h2 (max N1 N2) (by omega)
  have : p = p' := by
    have := e1.symm.trans e2
    cases this; rfl
  subst this
  obtain ⟨M1, ns, i1, h1⟩ := h1 false
  obtain ⟨M2, ns', i2, _, h2, _⟩ := h2 false
  have hns : ns = ns' := by
    have := collect_unique (fuelMono_pre p.env) _ _ _ _ _ i1 i2
    cases this; rfl
  subst hns
  obtain ⟨y, hy, hty⟩ := h1 (histFull, histEmpty) List.mem_cons_self (4226, "\\RT\\a".toList)
    ⟨by decide +kernel, by decide +kernel⟩
  obtain ⟨q, _, key, _, ⟨e, he, hne, _⟩, _⟩ := h2 y hy (by rw [hty.2.2.2.1]; simp)
  exact hne ((by decide +kernel : ∀ e ∈ histEmpty.keys, e.2 = '\\' :: histEmpty.tree.name) e he)

end Notatin
