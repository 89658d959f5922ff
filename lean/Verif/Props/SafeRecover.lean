import Verif.Props.SafeLookup
import Verif.Props.Recovered
import Verif.Props.DumpFree
/-
C86: with recovery on, opening, listing and exporting any file of which no log entry is applied ends without a crash,
as long as the stack has room for one call per 24 bytes of the file; and not a byte less will do.
-/
namespace Notatin
open Spec

/-- The two sequence numbers agree and the checksum is right: all that the logs hold has been written. -/
def Spec.CleanHeader (buf : Bytes) : Prop := u32At buf 4 = u32At buf 8 ∧ u32At buf 508 = substSum (xorDwords (buf.take 512))

/-! ### Opening -/

theorem cleanHeader_read {buf : Bytes} (h : CleanHeader buf) (bb : BaseBlock) (rest : Bytes)
    (hb : BaseBlock.fromBytes buf = .ok (bb, rest)) :
    bb.base.primarySeq = bb.base.secondarySeq ∧ calculateChecksum (buf.take 512) = .ok bb.base.checksum := by
  obtain ⟨_, hl, _⟩ := baseBlock_frame _ _ _ hb
  unfold BaseBlock.fromBytes at hb
  rcases baseBlockBase_cases buf with ⟨hlen, hsig, _⟩ | ⟨_, hc⟩
  · obtain ⟨fn, logs, _, hc⟩ := baseBlockBase_closed buf hlen hsig
    rw [hc] at hb
    simp only [Res.bind_ok] at hb
    cases hext : BaseBlockExtended.fromBytes (buf.drop 512) with
    | none => rw [hext] at hb; cases hb
    | some ext =>
      rw [hext] at hb
      cases hb
      refine ⟨h.1, ?_⟩
      rw [checksum_spec _ (by rw [List.length_take]; omega), ← h.2]
      rfl
  · rw [hc] at hb; cases hb

/-- A key read from free space has nothing attached. -/
theorem deletedAt_bare {env : Env} {off : Nat} {m : Node} (hm : readKey env {} (deletedAt off) = .ok (some m, 0)) :
    m.deletedKeys = [] := by
  unfold readKey at hm
  split at hm
  · cases hm
  · unfold readFromSlice at hm
    split at hm
    · cases hm
    · cases hm
    · split at hm
      · cases hm
      · cases hm
      · split at hm
        · cases hm
        · split at hm
          · cases hm
          · cases hm
          · unfold finishStep at hm
            simp only [deletedAt] at hm
            cases hm
            rfl

theorem attachLoop_deleted (st : State) (fuel off : Nat) (l : List Node)
    (h : ∀ d ∈ l, d.key.cellState.isDeletedPrimaryFile = true) :
    updateModifiedLists.attachLoop (updateModifiedLists st (fuel + 1)) off l = .ok l := by
  apply attachLoop_kept
  intro d hd
  obtain ⟨k, vs, ds⟩ := d
  have hk : k.cellState.isDeletedPrimaryFile = true := h _ hd
  rw [updateModifiedLists]
  simp only [Node.key, hk, if_true]

/-- What a scan finds can be attached: keys of free space have nothing attached in turn. -/
theorem attachOk_scan (env : Env) (st : State) (hd : 1 < env.depth)
    (h : ∀ q ds, st.deletedKeys q = some ds → ∀ d ∈ ds, d.key.cellState.isDeletedPrimaryFile = true) : AttachOk env st := by
  intro k
  obtain ⟨d, hd'⟩ : ∃ d, env.depth = d + 2 := ⟨env.depth - 2, by omega⟩
  rw [hd', updateModifiedLists]
  simp only
  split
  · simp
  · generalize (if (Node.mk k [] []).key.isKeyRoot = true then ([] : Str) else (Node.mk k [] []).key.path) = q
    cases hq : st.deletedKeys q with
    | none => simp [updateModifiedLists.attachDeleted]
    | some ds =>
      rw [updateModifiedLists.attachDeleted, attachLoop_deleted st d _ ds (h q ds hq)]
      simp

theorem initRoot_safe_of (env : Env) (st : State) (h : StateSafe env st) :
    initRoot env st ≠ .panic ∧ ∀ x ro, initRoot env st = .ok (x, ro) → ro = st.rootOffset ∧
      ∀ r, x = some r → DelOk r ∧ ∃ o, slice env.fi.buffer (o + 4) 2 = [0x6E, 0x6B] ∧
        r.key.nSubKeys = u32At env.fi.buffer (o + 24) ∧ r.key.subKeysListOffset = u32At env.fi.buffer (o + 32) ∧
        ∃ name, r.key.path = '\\' :: name := by
  unfold initRoot
  cases getFrom env.fi.buffer env.fi.hbin with
  | none => exact ⟨by simp, by intro x ro h; cases h⟩
  | some input =>
    simp only
    cases HiveBinHeader.fromBytes env.fi.hbin input with
    | none => exact ⟨by simp, by intro x ro h; cases h⟩
    | some x =>
      obtain ⟨_, rest⟩ := x
      simp only
      obtain ⟨r1, r2⟩ := readKey_safe env st
        { offset := env.fi.buffer.length - rest.length, curPath := [], filter := none, selfMatch := true, seq := none, getModified := true }
        (· = st.rootOffset) h.attach (by
          intro k _
          unfold filterStep
          exact ⟨by simp, by intro fl ro h; cases h; rfl⟩)
      refine ⟨r1, fun x ro hx => ⟨r2 x ro hx, ?_⟩⟩
      rintro r rfl
      obtain ⟨g1, g2, g3, g4, name, g5⟩ := readKey_cell_del env st _ r ro h.del hx
      exact ⟨g1, _, g2, g3, g4, name, by simpa using g5⟩

theorem initRoot_cell (env : Env) (st : State) (h : StateCell env st) (r : Node) (ro : Nat)
    (hr : initRoot env st = .ok (some r, ro)) : CellKey env r := by
  unfold initRoot at hr
  cases hg : getFrom env.fi.buffer env.fi.hbin with
  | none => rw [hg] at hr; cases hr
  | some input =>
    rw [hg] at hr
    simp only at hr
    cases hb : HiveBinHeader.fromBytes env.fi.hbin input with
    | none => rw [hb] at hr; cases hr
    | some x =>
      obtain ⟨_, rest⟩ := x
      rw [hb] at hr
      exact readKey_cellKey h hr

theorem scan_safe (w : World) (buf : Bytes) (hd : buf.length < 24 * w.depth) (hs : buf.length < w.steps) (bb : BaseBlock)
    (h4 : 4096 ≤ buf.length) :
    w.scan true buf bb (some (.ok ({}, []))) = .err ∨ ∃ st, w.scan true buf bb (some (.ok ({}, []))) = .ok (some (.ok (st, []))) ∧
      StateSafe (w.env buf) st ∧ StateCell (w.env buf) st ∧ st.rootOffset = 0 := by
  obtain ⟨r, hr, hne⟩ := recover_terminates_partial (w.env buf) hd bb.base.hiveBinsDataSize w.steps hs {}
  unfold World.scan
  simp only [if_true, hr]
  rcases r with st | _ | _
  · right
    obtain ⟨vs, ns, e1, e2, e3, e4, e5, e6, e7, e8, e9⟩ := recover_sound_partial (w.env buf) hd _ w.steps hs {} st hr
    have hall : ∀ q ds, st.deletedKeys q = some ds → ∀ d ∈ ds, d ∈ ns := by
      intro q ds hq d hdm
      by_cases hqe : q = []
      · subst hqe
        rw [hq] at e2
        have : ds = ns := e2
        rwa [← this]
      · rw [(e6 q hqe).2] at hq; cases hq
    have hatt : AttachOk (w.env buf) st :=
      attachOk_scan _ _ (show 1 < w.depth by omega)
        (fun q ds hq d hdm => (deletedAs_state (e4 d (hall q ds hq d hdm)).2.1).1)
    refine ⟨st, rfl, ⟨hatt, ?_⟩, ⟨hatt, ?_⟩, e9⟩
    rotate_left
    · intro q ds hq d hdm
      obtain ⟨_, g2, m, g3, g4⟩ := e4 d (hall q ds hq d hdm)
      obtain ⟨_, c1, c2, c3, _⟩ := readKey_cell_of _ _ _ m 0 (fun _ => True) (fun _ => ⟨trivial, fun _ _ => trivial⟩) g3
      have hm : CellNums (w.env buf) m := .inr ⟨_, c1, c2, c3⟩
      refine ⟨?_, ?_, (deletedAs_state g2).1⟩
      · rw [g4]
        exact hm.congr _ rfl rfl
      · rw [g4]
        show m.deletedKeys = []
        exact deletedAt_bare g3
    · intro q ds hq d hdm
      obtain ⟨_, g2, m, g3, g4⟩ := e4 d (hall q ds hq d hdm)
      refine (allDel_iff d).2 ⟨(deletedAs_state g2).2, ?_⟩
      have hm := deletedAt_bare g3
      have : d.deletedKeys = [] := by rw [g4]; exact hm
      intro x hx
      rw [this] at hx
      cases hx
  · exact .inl rfl
  · exact absurd rfl hne

/-- Opening with recovery, no log entry being applied: it ends, without a crash. -/
theorem build_scan_safe (w : World) (b : Builder) (hrec : b.recover = true) (hd : b.primary.length < 24 * w.depth)
    (hs : b.primary.length < w.steps) (hl : ∀ f ∈ b.logs, SaneLog f) (hn : b.logs = [] ∨ CleanHeader b.primary) :
    ∃ r, b.build w = some r ∧ r ≠ .panic ∧ ∀ p, r = .ok p → SafeOpen w p ∧ CellOpen w p ∧ p.env.fi.buffer = b.primary := by
  obtain ⟨ls, warn, hp, _⟩ := logs_safe hl
  have hempty : b.logs = [] → ls = [] := by
    intro h
    have : TransactionLog.parse [] = .ok ([], none) := by decide +kernel
    rw [h, this] at hp
    cases hp
    rfl
  unfold Builder.build
  rw [hp, hrec]
  simp only
  cases hb : BaseBlock.fromBytes b.primary with
  | panic => exact absurd hb (baseBlock_no_panic _)
  | err =>
    have : openHive (w.analyze true) (w.initItems true) (w.scan true) b.primary (some (.ok ({}, []))) ls = .err := by
      unfold openHive initBaseBlock
      rw [hb]
      rfl
    rw [this]
    exact ⟨_, rfl, by simp, by intro p h; cases h⟩
  | ok x =>
    obtain ⟨bb, rest⟩ := x
    obtain ⟨_, h4, _⟩ := baseBlock_frame _ _ _ hb
    by_cases hu : bb.base.fileType = .unknown
    · obtain ⟨info, ho⟩ := open_unsupported (w.analyze true) (w.initItems true) (w.scan true) b.primary (some (.ok ({}, []))) ls bb rest hb hu
      rw [ho]
      refine ⟨_, rfl, by simp, ?_⟩
      intro p h
      cases h
      exact ⟨⟨rfl, ⟨attachOk_empty _ _ (show 0 < w.depth by omega) (fun _ => rfl), fun _ _ h => by cases h⟩, rfl, by intro r h; cases h⟩,
        ⟨rfl, ⟨attachOk_empty _ _ (show 0 < w.depth by omega) (fun _ => rfl), fun _ _ h => by cases h⟩, by intro r h; cases h⟩, rfl⟩
    · rcases scan_safe w b.primary hd hs bb h4 with he | ⟨st, he, hst, hcs, hro⟩
      · obtain ⟨sup, bad, info', hi, hsup, _⟩ := initBaseBlock_ok b.primary {} bb rest hb
        have : openHive (w.analyze true) (w.initItems true) (w.scan true) b.primary (some (.ok ({}, []))) ls = .err := by
          unfold openHive
          rw [hi]
          have : sup = true := by rw [hsup]; simp [hu]
          subst this
          simp only [Res.bind_ok, if_true, he]
          rfl
        rw [this]
        exact ⟨_, rfl, by simp, by intro p h; cases h⟩
      · have hopen : ∃ info, openHive (w.analyze true) (w.initItems true) (w.scan true) b.primary (some (.ok ({}, []))) ls =
            .ok (true, { buffer := b.primary, hbinOffset := 4096, baseBlock := bb, info := info, recovery := some (.ok (st, [])) }) := by
          rcases hn with hn | hn
          · rw [hempty hn]
            obtain ⟨info, ho, _⟩ := open_no_logs (w.analyze true) (w.initItems true) (w.scan true) b.primary _ _ bb rest hb hu he
            exact ⟨info, ho⟩
          · obtain ⟨c1, c2⟩ := cleanHeader_read hn bb rest hb
            exact open_clean (w.analyze true) (w.initItems true) (w.scan true) b.primary _ _ ls bb rest hb hu c1 c2 he
        obtain ⟨info, ho⟩ := hopen
        rw [ho]
        simp only [if_true]
        have hst' : StateSafe (w.env b.primary) { st with info := (info.extend st.info).extend (warn.getD {}) } := by
          refine ⟨fun k => ?_, hst.del⟩
          rw [updateModifiedLists_info]
          exact hst.attach k
        have hcs' : StateCell (w.env b.primary) { st with info := (info.extend st.info).extend (warn.getD {}) } :=
          ⟨hst'.attach, hcs.del⟩
        obtain ⟨i1, i2⟩ := initRoot_safe_of _ _ hst'
        have i3 := initRoot_cell _ _ hcs'
        unfold World.env at i1 i2
        split
        · exact ⟨_, rfl, by simp, by intro p h; cases h⟩
        · rename_i hpan; exact absurd hpan i1
        · rename_i root ro hi
          refine ⟨_, rfl, by simp, ?_⟩
          intro p h
          cases h
          obtain ⟨j1, j2⟩ := i2 _ _ hi
          exact ⟨⟨rfl, hst'.at ro, j1.trans hro, j2⟩, ⟨rfl, hcs'.at ro, fun r hr => i3 r ro (hr ▸ hi)⟩, rfl⟩

/-- C86, opening (partial: `open_nested_violated` shows that the stack must be as large).  Whatever the bytes of the
file, with recovery on and no log entry to be applied — no logs, or a header that tells all is written — and a stack
with room for one call per 24 bytes of the file: within as many rounds of each loop as the file has bytes, the hive is
opened or refused. -/
theorem recover_open_partial (w : World) (b : Builder) (hrec : b.recover = true) (hd : b.primary.length < 24 * w.depth)
    (hs : b.primary.length < w.steps) (hl : ∀ f ∈ b.logs, SaneLog f) (hn : b.logs = [] ∨ CleanHeader b.primary) :
    b.build w = some .err ∨ ∃ p, b.build w = some (.ok p) := by
  obtain ⟨r, h1, h2, _⟩ := build_scan_safe w b hrec hd hs hl hn
  rcases r with p | _ | _
  · exact .inr ⟨p, h1⟩
  · exact .inl h1
  · exact absurd rfl h2

/-! ### Listing -/

/-- C86, listing.  Whatever hive has been opened so, its sub-key lists not nesting deeper than the stack has room for:
the iteration, with any filter, ends without an error, and no key of the tree is listed twice. -/
theorem recover_list_partial (w : World) (b : Builder) (hrec : b.recover = true) (hd : b.primary.length < 24 * w.depth)
    (hs : b.primary.length < w.steps) (hl : ∀ f ∈ b.logs, SaneLog f) (hn : b.logs = [] ∨ CleanHeader b.primary)
    (p : HiveParser) (hp : b.build w = some (.ok p))
    (hls : SaneLists b.primary w.depth) (filter : Filter) (gm anc : Bool) :
    ∃ steps ns, p.iterate steps filter false gm anc = some (.ok ns) ∧ (liveOffs ns).Nodup := by
  obtain ⟨r, h1, _, h3⟩ := build_scan_safe w b hrec hd hs hl hn
  rw [hp] at h1
  obtain ⟨h4, _, h5⟩ := h3 p (Option.some.inj h1).symm
  exact iterate_safe_of w p h4 (by rw [h5]; exact hls) filter gm anc

/-! ### Lookups -/

/-- C86, by path (partial: `root_cell_crash_violated` and `get_key_self_violated` apply here, too).  In a hive opened so,
whatever the path, if the stack has room for as many calls as the path has segments: the key is found, or the answer
is that there is none. -/
theorem recover_get_key_partial (w : World) (b : Builder) (hrec : b.recover = true) (hd : b.primary.length < 24 * w.depth)
    (hs : b.primary.length < w.steps) (hl : ∀ f ∈ b.logs, SaneLog f) (hn : b.logs = [] ∨ CleanHeader b.primary)
    (p : HiveParser) (hp : b.build w = some (.ok p))
    (hls : SaneLists b.primary w.depth) (hroot : 0 ≤ p.header.base.rootCellOffset) (ro : Nat) (path : Str)
    (hasRoot : Bool) (hlen : path.count '\\' + 2 ≤ w.depth) :
    ∃ x ro', getKey p.env (p.after ro) p.header.base.rootCellOffset path hasRoot = .ok (x, ro') := by
  obtain ⟨r, h1, _, h3⟩ := build_scan_safe w b hrec hd hs hl hn
  rw [hp] at h1
  obtain ⟨_, h4, h5⟩ := h3 p (Option.some.inj h1).symm
  obtain ⟨x, ro', h, _⟩ := get_key_cell w (by omega) p h4 (by rw [h5]; exact hls) hroot ro path hasRoot hlen
  exact ⟨x, ro', h⟩

/-- C86, from a key at hand, recovered keys among them (partial: `parent_crash_violated` applies here, too).  However a
key has been obtained from a hive opened so: its sub-keys can be read by index, one after the other, all at once or by
a path, and its parent can be read, without a crash. -/
theorem recover_key_partial (w : World) (b : Builder) (hrec : b.recover = true) (hd : b.primary.length < 24 * w.depth)
    (hs : b.primary.length < w.steps) (hl : ∀ f ∈ b.logs, SaneLog f) (hn : b.logs = [] ∨ CleanHeader b.primary)
    (p : HiveParser) (hp : b.build w = some (.ok p))
    (hls : SaneKeyLists b.primary w.depth) (n : Node) (hob : Obtained p n) (ro : Nat) :
    (∀ i, ∃ x n', getSubKeyByIndex p.env (p.after ro) n i = .ok (x, n')) ∧
    (∃ x n', nextSubKey p.env (p.after ro) n = .ok (x, n')) ∧
    (∃ ms, readSubKeys p.env (p.after ro) n = .ok ms) ∧
    (∀ sub, sub.count '\\' + 2 ≤ w.depth → ∃ x ro', getSubKeyByPath p.env (p.after ro) n sub = .ok (x, ro')) ∧
    (0 ≤ n.key.parentOffset → getParentKey p.env (p.after ro) n ≠ .panic) := by
  obtain ⟨r, h1, _, h3⟩ := build_scan_safe w b hrec hd hs hl hn
  rw [hp] at h1
  obtain ⟨_, h4, h5⟩ := h3 p (Option.some.inj h1).symm
  exact obtained_safe w (by omega) p h4 (by rw [h5]; exact hls) n hob ro

/-! ### reg_dump -/

/-- `reg_dump` with recovery ends, if the listings it gets can be written. -/
theorem recover_dump_ends (w : World) (u : Prints) (disk : Disk) (o : DumpOptions)
    (dir : List Str) (name : Str) (f : Bytes) (hf : disk (dir ++ [name]) = some f) (hrec : o.recover = true)
    (hd : f.length < 24 * w.depth) (hs : f.length < w.steps)
    (hl : ∀ q ∈ (getLogFiles disk.files o.skipLogs name (dir ++ [name])).getD [], ∀ f, disk q = some f → SaneLog f)
    (hn : (getLogFiles disk.files o.skipLogs name (dir ++ [name])).getD [] = [] ∨ CleanHeader f)
    (hls : SaneLists f w.depth)
    (hw : ∀ p steps filter ns, buildFromPath w disk (dir ++ [name])
        ((getLogFiles disk.files o.skipLogs name (dir ++ [name])).getD []) true o.full = some (.ok p) →
      dumpFilter o.filter = .ok filter → p.iterate steps (filter.getD {}) = some (.ok ns) →
      writeDump u o (p.parseLogs u) ns ≠ .panic) :
    ∃ steps, dumpFile w steps u disk o (dir ++ [name]) = some .err ∨
      ∃ out, dumpFile w steps u disk o (dir ++ [name]) = some (.ok out) := by
  obtain ⟨filter, hfl⟩ : ∃ filter, dumpFilter o.filter = .ok filter ∨ dumpFilter o.filter = .err := by
    unfold dumpFilter
    cases o.filter with
    | none => exact ⟨_, .inl rfl⟩
    | some f =>
      simp only
      unfold FilterBuilder.build
      split
      · exact ⟨_, .inl rfl⟩
      · rename_i h; exact ⟨none, .inr rfl⟩
      · rename_i h; split at h <;> cases h
  rcases hfl with hfl | hfl
  case inr => exact ⟨0, .inl (by unfold dumpFile; rw [hfl])⟩
  have hlast : (dir ++ [name]).getLast? = some name := by simp
  have hdump : ∀ steps, dumpFile w steps u disk o (dir ++ [name]) =
      regDump w steps u disk o filter (dir ++ [name]) (getLogFiles disk.files o.skipLogs name (dir ++ [name])) := by
    intro steps
    unfold dumpFile processFile
    rw [hfl, hlast]
  simp only [hdump]
  unfold regDump
  rw [hrec]
  generalize (getLogFiles disk.files o.skipLogs name (dir ++ [name])).getD [] = paths at hl hn hw
  have hbuild : ∃ r, buildFromPath w disk (dir ++ [name]) paths true o.full = some r ∧ r ≠ .panic ∧
      ∀ p, r = .ok p → SafeOpen w p ∧ CellOpen w p ∧ p.env.fi.buffer = f := by
    unfold buildFromPath
    cases ho : openLogs disk paths with
    | none => exact ⟨_, rfl, by simp, by intro p h; cases h⟩
    | some bs =>
      simp only [hf]
      refine build_scan_safe w _ rfl hd hs ?_ ?_
      · intro f hfm
        obtain ⟨q, h1, h2⟩ := openLogs_mem ho f hfm
        exact hl q h1 f h2
      · rcases hn with hn | hn
        · left
          rw [hn] at ho
          cases ho
          rfl
        · exact .inr hn
  obtain ⟨r, h1, h2, h3⟩ := hbuild
  rw [h1]
  rcases r with p | _ | _
  · obtain ⟨g1, _, g2⟩ := h3 p rfl
    obtain ⟨steps, ns, hi, _⟩ := iterate_safe_of w p g1 (by rw [g2]; exact hls) (filter.getD {}) true false
    refine ⟨steps, ?_⟩
    simp only
    rw [hi]
    simp only
    have := hw p _ _ _ h1 hfl hi
    cases hx : writeDump u o (p.parseLogs u) ns with
    | ok out => exact .inr ⟨out, rfl⟩
    | err => exact .inl rfl
    | panic => exact absurd hx this
  · exact ⟨0, .inl rfl⟩
  · exact absurd rfl h2

/-- C86, `reg_dump` with recovery.  Whatever the bytes of the file and the filter, in all formats but the common one,
no log entry being applied: the tool ends, and not by a panic. -/
theorem recover_dump_partial (w : World) (u : Prints) (disk : Disk) (o : DumpOptions)
    (dir : List Str) (name : Str) (f : Bytes) (hf : disk (dir ++ [name]) = some f) (hrec : o.recover = true) (hc : o.type ≠ .Common)
    (hd : f.length < 24 * w.depth) (hs : f.length < w.steps)
    (hl : ∀ q ∈ (getLogFiles disk.files o.skipLogs name (dir ++ [name])).getD [], ∀ f, disk q = some f → SaneLog f)
    (hn : (getLogFiles disk.files o.skipLogs name (dir ++ [name])).getD [] = [] ∨ CleanHeader f)
    (hls : SaneLists f w.depth) :
    ∃ steps, dumpFile w steps u disk o (dir ++ [name]) = some .err ∨
      ∃ out, dumpFile w steps u disk o (dir ++ [name]) = some (.ok out) :=
  recover_dump_ends w u disk o dir name f hf hrec hd hs hl hn hls fun _ _ _ _ _ _ _ => writeDump_safe u o hc _ _

/-! ### Violations and examples -/

/-- The cell of a root key `RT` without sub-keys or values; in its unused part are `n` value cells, each in the unused
part of the one before. -/
def nestedRoot (n : Nat) : NkCell :=
  { exampleCell 0x24 0 0 [0x52, 0x54] with size := -(82 + 24 * n : Nat), slack := nested n }

/-- A clean hive with nothing but that key. -/
def nestedHive (n : Nat) : Bytes :=
  sampleHeader 5 5 8192 ++ List.replicate 3584 0 ++ (hbinBytes 0 8192 0 0 0 0 ++ (nestedRoot n).encode)

theorem nestedRoot_fits (n : Nat) (h : n < 80000000) : (nestedRoot n).Fits := by
  have := nested_length n
  unfold NkCell.Fits isI32 nestedRoot exampleCell
  simp only [this, List.length_cons, List.length_nil]
  omega

theorem nk_encode_length (c : NkCell) : c.encode.length = 80 + c.nameBytes.length + c.slack.length := by
  simp only [NkCell.encode, List.length_append, length_encI32, length_encLE, nkSig, List.length_cons, List.length_nil]
  omega

theorem nestedPre_length : (sampleHeader 5 5 8192 ++ List.replicate 3584 0).length = 4096 := by decide +kernel

theorem nestedRoot_length (n : Nat) : (nestedRoot n).encode.length = 82 + 24 * n := by
  have h1 : (nestedRoot n).slack.length = 24 * n := nested_length n
  have h2 : (nestedRoot n).nameBytes.length = 2 := rfl
  rw [nk_encode_length, h1, h2]

theorem nestedHive_length (n : Nat) : (nestedHive n).length = 4210 + 24 * n := by
  have h2 : (hbinBytes 0 8192 0 0 0 0).length = 32 := by decide +kernel
  unfold nestedHive
  rw [List.length_append, List.length_append (as := hbinBytes 0 8192 0 0 0 0), nestedPre_length, h2, nestedRoot_length]
  omega

theorem nestedHive_header (n : Nat) : ∃ bb rest, BaseBlock.fromBytes (nestedHive n) = .ok (bb, rest) ∧
    bb.base.fileType ≠ .unknown ∧ bb.base.primarySeq = bb.base.secondarySeq ∧
    calculateChecksum ((nestedHive n).take 512) = .ok bb.base.checksum ∧ bb.base.hiveBinsDataSize = 8192 := by
  have hpl := nestedPre_length
  have hh : (match BaseBlock.fromBytes (sampleHeader 5 5 8192 ++ List.replicate 3584 0) with
      | .ok (bb, _) => decide (bb.base.fileType ≠ .unknown ∧ bb.base.primarySeq = bb.base.secondarySeq ∧
          calculateChecksum ((sampleHeader 5 5 8192 ++ List.replicate 3584 0).take 512) = .ok bb.base.checksum ∧
          bb.base.hiveBinsDataSize = 8192)
      | _ => false) = true := by decide +kernel
  cases hb : BaseBlock.fromBytes (sampleHeader 5 5 8192 ++ List.replicate 3584 0) with
  | err => rw [hb] at hh; cases hh
  | panic => rw [hb] at hh; cases hh
  | ok x =>
    obtain ⟨bb, rest⟩ := x
    rw [hb] at hh
    obtain ⟨g1, g2, g3, g4⟩ := of_decide_eq_true hh
    obtain ⟨_, _, hfr⟩ := baseBlock_frame _ _ _ hb
    refine ⟨bb, _, hfr (nestedHive n) (by rw [nestedHive_length]; omega) ?_, g1, g2, ?_, g4⟩
    · intro i hi
      unfold nestedHive
      rw [List.getElem?_append_left (by rw [hpl]; exact hi)]
    · unfold nestedHive
      rw [List.take_append_of_le_length (by rw [hpl]; omega)]
      exact g3

theorem nestedHive_stored (w : World) (n : Nat) (h : n < 80000000) :
    StoredTree w (nestedHive n) (.mk 4128 (nestedRoot n) ['R', 'T'] []) := by
  have hpl := nestedPre_length
  have hbl : (hbinBytes 0 8192 0 0 0 0).length = 32 := by decide +kernel
  refine ⟨⟨0, 8192, 0, 0, 0, 0, by decide, by decide, by decide, by decide, by decide, by decide, _, _, rfl, hpl⟩, rfl, ?_,
    List.pairwise_singleton _ _⟩
  rw [TreeAt, ForestAt]
  refine ⟨⟨nestedRoot_fits n h, ⟨sampleHeader 5 5 8192 ++ List.replicate 3584 0 ++ hbinBytes 0 8192 0 0 0 0, [], ?_, ?_⟩,
    .inl ⟨show Nat.testBit 0x24 5 = true by decide, show ['R', 'T'] = latin1 [0x52, 0x54] by decide⟩⟩, .inl ⟨rfl, rfl⟩, trivial⟩
  · unfold nestedHive
    simp only [List.append_assoc, List.append_nil]
  · rw [List.length_append, hpl, hbl]

/-- C86, violated on a smaller stack: for every stack depth there is a clean hive, of 24 bytes per call and 4210 more,
with one key, which is opened and listed without recovery, and crashes the opening with recovery. -/
theorem open_nested_violated (w : World) (hd : 0 < w.depth) (hlt : w.depth < 80000000) (hs : 0 < w.steps) :
    (nestedHive w.depth).length = 4210 + 24 * w.depth ∧
    (∃ p, ({ primary := nestedHive w.depth } : Builder).build w = some (.ok p) ∧
      Lists p (.mk 4128 (nestedRoot w.depth) ['R', 'T'] [])) ∧
    ({ primary := nestedHive w.depth, recover := true } : Builder).build w = some .panic := by
  have hlen := nestedHive_length w.depth
  obtain ⟨bb, rest, h1, h2, h3, h4, h5⟩ := nestedHive_header w.depth
  have hlogs : TransactionLog.parse [] = .ok ([], none) := by decide +kernel
  have hst := nestedHive_stored w w.depth hlt
  refine ⟨hlen, ?_, ?_⟩
  · obtain ⟨p, hp, _, _, _, hl⟩ := open_clean_lists w { primary := nestedHive w.depth } bb rest _ hd rfl ⟨_, hlogs⟩ h1 h2 h3 h4 hst
    exact ⟨p, hp, hl⟩
  have hscan : w.scan true (nestedHive w.depth) bb (some (.ok ({}, []))) = .panic := by
    obtain ⟨s, hs'⟩ : ∃ s, w.steps = s + 1 := ⟨w.steps - 1, by omega⟩
    have hpl := nestedPre_length
    have hd1 : (nestedHive w.depth).drop 4096 = hbinBytes 0 8192 0 0 0 0 ++ (nestedRoot w.depth).encode := List.drop_left' hpl
    have hd2 : (nestedHive w.depth).drop 4128 = (nestedRoot w.depth).encode := by
      rw [show 4128 = 4096 + 32 from rfl, ← List.drop_drop, hd1]
      exact List.drop_left' (by decide +kernel)
    have hel := nestedRoot_length w.depth
    obtain ⟨hb, hh, hsz⟩ : ∃ hb, HiveBinHeader.fromBytes 4096 (hbinBytes 0 8192 0 0 0 0 ++ (nestedRoot w.depth).encode) =
        some (hb, (nestedRoot w.depth).encode) ∧ hb.size = 8192 :=
      ⟨_, hbin_parse 4096 0 8192 0 0 0 0 (by decide) (by decide) (by decide) (by decide) (by decide) (by decide) _, rfl⟩
    have hfit := nestedRoot_fits w.depth hlt
    have hi : leI32 (nestedRoot w.depth).encode = some ((nestedRoot w.depth).size, (nestedRoot w.depth).encode.drop 4) := by
      have : (nestedRoot w.depth).encode = encI32 (nestedRoot w.depth).size ++ (nestedRoot w.depth).encode.drop 4 := by
        unfold NkCell.encode
        rw [List.drop_left' (length_encI32 _)]
      conv => lhs; rw [this]
      exact leI32_enc hfit.1 _
    have hct : CellType.readCellType ((nestedRoot w.depth).encode.drop 4) = .CellKey := by
      unfold NkCell.encode
      rw [List.drop_left' (length_encI32 _)]
      rfl
    obtain ⟨k, hk, hm, _⟩ := nk_decode_ascii w.hashFn (nestedRoot w.depth) hfit (show Nat.testBit 0x24 5 = true by decide) [] 4128 [] none
    rw [List.append_nil] at hk
    have hslack : k.slack = nested w.depth := by
      unfold KeyMatches at hm
      simp only [nestedRoot] at hm
      grind
    have hrun : initRecoverDeleted (w.env (nestedHive w.depth)) w.steps 8192 {} = some .panic := by
      show scanBins ⟨⟨4096, nestedHive w.depth⟩, w.hashFn, w.depth⟩ 8192 w.steps 4096 {} = some .panic
      rw [hs', scanBins, if_pos (show (4096 : Nat) < 8192 by decide)]
      unfold scanBin readChecked
      simp only
      rw [if_pos (by rw [hlen]; omega)]
      simp only [hd1, hh, hsz]
      rw [hel, show (nestedHive w.depth).length - (82 + 24 * w.depth) = 4128 by omega, if_pos (by rw [hlen]; omega), hd2]
      simp only
      unfold binLoop
      rw [if_pos (by omega), hi]
      simp only
      rw [if_neg (by simp only [nestedRoot]; omega), hct]
      unfold visitCell readChecked
      simp only
      rw [if_pos (by rw [hlen]; omega), hd2]
      simp only
      unfold readCellKeyNode
      have hopt : (⟨4128, [], none, true, none, false⟩ : ReadOptions) = deletedAt 4128 := rfl
      rw [hopt]
      rcases readFromSlice_deleted ⟨⟨4096, nestedHive w.depth⟩, w.hashFn, w.depth⟩ {} (nestedRoot w.depth).encode 4128 with
        ⟨k', r, vs, lg, hk', hr, _⟩ | ⟨hk', _⟩
      · rw [hk] at hk'
        cases hk'
        rw [hr]
        simp only
        unfold keepKey
        have : (Node.mk { k with values := vs, logs := lg } [] []).key.slack = nested w.depth := hslack
        rw [this, slack_overflow _ _ (by omega) _ _ (Nat.le_refl _) hlt]
      · rw [hk] at hk'; cases hk'
    unfold World.scan
    simp only [if_true, h5, hrun]
  unfold Builder.build
  rw [hlogs]
  simp only
  obtain ⟨sup, bad, info', hi, hsup, _⟩ := initBaseBlock_ok (nestedHive w.depth) {} bb rest h1
  have : openHive (w.analyze true) (w.initItems true) (w.scan true) (nestedHive w.depth) (some (.ok ({}, []))) [] = .panic := by
    unfold openHive
    rw [hi]
    have : sup = true := by rw [hsup]; simp [h2]
    subst this
    simp only [Res.bind_ok, if_true, hscan]
    rfl
  rw [this]

/-- Room for the hive of the example, of 4477 bytes. -/
def smallWorld : World := ⟨fun _ => [], 200, id, 5000⟩

/-- The hypotheses of `recover_open_partial` and `recover_list_partial`, and that a hive is opened: one with a freed
key, listed with a filter for the keys `b`. -/
example : ∃ p, ({ primary := sampleHive 5 5 4477 0x61 [], recover := true } : Builder).build smallWorld = some (.ok p) ∧
    ∃ steps ns, p.iterate steps { query := some { keyPath := [.lit ['b']], hasRoot := false, children := true } } = some (.ok ns) := by
  have hl : (sampleHive 5 5 4477 0x61 []).length = 4477 := by decide +kernel
  rcases recover_open_partial smallWorld { primary := sampleHive 5 5 4477 0x61 [], recover := true } rfl
    (by rw [hl]; decide) (by rw [hl]; decide) (by intro f hf; cases hf) (.inl rfl) with h | ⟨p, hp⟩
  · have : (match ({ primary := sampleHive 5 5 4477 0x61 [], recover := true } : Builder).build smallWorld with
        | some (.ok _) => true
        | _ => false) = true := by decide +kernel
    rw [h] at this
    cases this
  · obtain ⟨steps, ns, h, _⟩ := recover_list_partial smallWorld _ rfl
      (by rw [hl]; decide) (by rw [hl]; decide) (by intro f hf; cases hf) (.inl rfl) p hp (sampleHive_sane 199) _ true false
    exact ⟨p, hp, steps, ns, h⟩

/-- The hypotheses of `recover_get_key_partial` and `recover_key_partial`: in that hive any path with up to 198
backslashes can be looked up, and the sub-keys of whatever is listed, the freed key among them, can be read. -/
example (p : HiveParser) (hp : ({ primary := sampleHive 5 5 4477 0x61 [], recover := true } : Builder).build smallWorld = some (.ok p)) :
    (∀ path : Str, path.count '\\' ≤ 198 →
      ∃ x ro, getKey p.env (p.after 0) p.header.base.rootCellOffset path false = .ok (x, ro)) ∧
    ∀ steps ns, p.iterate steps {} = some (.ok ns) → ∀ n ∈ ns, ∃ ms, readSubKeys p.env (p.after 0) n = .ok ms := by
  have hl : (sampleHive 5 5 4477 0x61 []).length = 4477 := by decide +kernel
  have h32 : (match ({ primary := sampleHive 5 5 4477 0x61 [], recover := true } : Builder).build smallWorld with
      | some (.ok p) => decide (0 ≤ p.header.base.rootCellOffset)
      | _ => false) = true := by decide +kernel
  rw [hp] at h32
  refine ⟨fun path hc => ?_, fun steps ns hns n hn => ?_⟩
  · exact recover_get_key_partial smallWorld _ rfl (by rw [hl]; decide) (by rw [hl]; decide) (by intro f hf; cases hf) (.inl rfl)
      p hp (sampleHive_sane 199) (of_decide_eq_true h32) 0 path false (by show _ ≤ 200; omega)
  · exact (recover_key_partial smallWorld _ rfl (by rw [hl]; decide) (by rw [hl]; decide) (by intro f hf; cases hf) (.inl rfl)
      p hp (sampleHive_key_lists 199) n (.listed hns hn) 0).2.2.1

/-- The hypotheses of `recover_dump_partial`: the clean hive of `uncleanDisk`. -/
example (u : Prints) : ∃ steps, dumpFile smallWorld steps u uncleanDisk { type := .Xlsx, recover := true } [['A']] = some .err ∨
    ∃ out, dumpFile smallWorld steps u uncleanDisk { type := .Xlsx, recover := true } [['A']] = some (.ok out) := by
  have hl : (sampleHive 5 5 4477 0x61 []).length = 4477 := by decide +kernel
  have hg : (getLogFiles uncleanDisk.files false ['A'] ([] ++ [['A']])).getD [] = [] := by decide +kernel
  refine recover_dump_partial smallWorld u uncleanDisk { type := .Xlsx, recover := true } [] ['A'] (sampleHive 5 5 4477 0x61 [])
    (if_pos rfl) rfl (by decide) (by rw [hl]; decide) (by rw [hl]; decide) ?_ (.inl hg) (sampleHive_sane 199)
  rw [hg]
  intro q hq
  cases hq

example : CleanHeader (sampleHive 5 5 4477 0x61 []) := by
  unfold CleanHeader
  decide +kernel

end Notatin
