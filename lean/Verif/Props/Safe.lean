import Verif.Lemmas.SafeIter
import Verif.Props.DumpTold
import Verif.Props.XlsxEnds
/-
C83: whatever the bytes of the hive and of its logs, opening, listing and exporting (without recovery) ends, and
ends without a crash.
-/
namespace Notatin
open Spec

/-! ### Opening -/

/-- The root of a parser, when the hive has one, is a key cell of the file; nothing is recorded as deleted. -/
structure PlainOpen (w : World) (p : HiveParser) : Prop where
  env : p.env = w.env p.env.fi.buffer
  state : ∀ q, p.state.deletedKeys q = none
  offset : p.state.rootOffset = 0
  root : ∀ r, p.root = some r → r.deletedKeys = [] ∧ ∃ o, slice p.env.fi.buffer (o + 4) 2 = [0x6E, 0x6B] ∧
    r.key.nSubKeys = u32At p.env.fi.buffer (o + 24) ∧ r.key.subKeysListOffset = u32At p.env.fi.buffer (o + 32) ∧
    ∃ name, r.key.path = '\\' :: name

theorem initRoot_safe (env : Env) (st : State) (hd : 0 < env.depth) (h : ∀ q, st.deletedKeys q = none) :
    initRoot env st ≠ .panic ∧ ∀ x ro, initRoot env st = .ok (x, ro) → ro = st.rootOffset ∧
      ∀ r, x = some r → r.deletedKeys = [] ∧ ∃ o, slice env.fi.buffer (o + 4) 2 = [0x6E, 0x6B] ∧
        r.key.nSubKeys = u32At env.fi.buffer (o + 24) ∧ r.key.subKeysListOffset = u32At env.fi.buffer (o + 32) ∧
        ∃ name, r.key.path = '\\' :: name := by
  unfold initRoot
  cases getFrom env.fi.buffer env.fi.hbin with
  | none => exact ⟨by simp, by intro x ro h; cases h⟩
  | some input =>
    simp only
    cases HiveBinHeader.fromBytes env.fi.hbin input with
    | none => exact ⟨by simp, by intro x ro h; cases h⟩
    | some x =>
      obtain ⟨_, rest⟩ := x
      simp only
      obtain ⟨r1, r2⟩ := readKey_safe env st
        { offset := env.fi.buffer.length - rest.length, curPath := [], filter := none, selfMatch := true, seq := none, getModified := true }
        (· = st.rootOffset) (attachOk_empty env st hd h) (by
          intro k _
          unfold filterStep
          exact ⟨by simp, by intro fl ro h; cases h; rfl⟩)
      refine ⟨r1, fun x ro hx => ⟨r2 x ro hx, ?_⟩⟩
      rintro r rfl
      obtain ⟨g1, g2, g3, g4, name, g5⟩ := readKey_cell env st _ r ro h hx
      exact ⟨g1, _, g2, g3, g4, name, by simpa using g5⟩

/-- Opening without recovery, when the logs are sane: it ends, without a crash. -/
theorem build_safe (w : World) (hd : 0 < w.depth) (b : Builder) (hrec : b.recover = false)
    (hl : ∀ f ∈ b.logs, SaneLog f) :
    ∃ r, b.build w = some r ∧ r ≠ .panic ∧ ∀ p, r = .ok p → PlainOpen w p := by
  obtain ⟨ls, warn, hp, hsafe⟩ := logs_safe hl
  unfold Builder.build
  rw [hp, hrec]
  simp only
  have hno : openHive (w.analyze false) (w.initItems false) (w.scan false) b.primary (some (.ok ({}, []))) ls ≠ .panic :=
    openHive_safe _ _ _ (by rw [initItems_false]; intro b s; simp) (by rw [scan_false]; intro b bb s; simp) _ _ _ hsafe
  cases ho : openHive (w.analyze false) (w.initItems false) (w.scan false) b.primary (some (.ok ({}, []))) ls with
  | err => exact ⟨_, rfl, by simp, by intro p h; cases h⟩
  | panic => exact absurd ho hno
  | ok x =>
    obtain ⟨sup, hv⟩ := x
    have hoff : hv.hbinOffset = 4096 := openHive_hbin _ _ _ _ _ _ _ _ ho
    have hr' : hv.recovery = some (.ok ({}, [])) := by
      rw [analyze_false, initItems_false, scan_false] at ho
      exact openHive_inv _ _ _ (· = some (.ok ({}, []))) (fun _ _ _ s h => h)
        (fun _ s s' h e => by cases e; exact h) (fun _ _ s s' h e => by cases e; exact h) _ _ _ _ _ rfl ho
    simp only [hr', hoff]
    cases sup with
    | false =>
      refine ⟨_, rfl, by simp, ?_⟩
      intro p h
      cases h
      exact ⟨rfl, fun _ => rfl, rfl, by intro r h; cases h⟩
    | true =>
      simp only [if_true]
      obtain ⟨i1, i2⟩ := initRoot_safe ⟨⟨4096, hv.buffer⟩, w.hashFn, w.depth⟩
        { info := (hv.info.extend ({} : Logs)).extend (warn.getD {}) } hd (fun _ => rfl)
      split
      · exact ⟨_, rfl, by simp, by intro p h; cases h⟩
      · rename_i hpan; exact absurd hpan i1
      · rename_i root ro hi
        refine ⟨_, rfl, by simp, ?_⟩
        intro p h
        cases h
        obtain ⟨j1, j2⟩ := i2 _ _ hi
        exact ⟨rfl, fun _ => rfl, j1, j2⟩

/-- C83, opening (partial: `tiny_entry_violated` and `last_number_violated` show what logs not sane can do).  Whatever
the bytes of the hive, and whatever the logs as long as no entry in them tells a size below that of its fixed fields
or the last sequence number of 32 bits: without recovery the hive is opened or refused. -/
theorem open_safe_partial (w : World) (hd : 0 < w.depth) (b : Builder) (hrec : b.recover = false)
    (hl : ∀ f ∈ b.logs, SaneLog f) : b.build w = some .err ∨ ∃ p, b.build w = some (.ok p) := by
  obtain ⟨r, h1, h2, _⟩ := build_safe w hd b hrec hl
  rcases r with p | _ | _
  · exact .inr ⟨p, h1⟩
  · exact .inl h1
  · exact absurd rfl h2

/-! ### Listing -/

/-- What listing needs of an opened hive: what recovery has recorded can be attached, and is deleted. -/
structure SafeOpen (w : World) (p : HiveParser) : Prop where
  env : p.env = w.env p.env.fi.buffer
  state : StateSafe p.env p.state
  offset : p.state.rootOffset = 0
  root : ∀ r, p.root = some r → DelOk r ∧ ∃ o, slice p.env.fi.buffer (o + 4) 2 = [0x6E, 0x6B] ∧
    r.key.nSubKeys = u32At p.env.fi.buffer (o + 24) ∧ r.key.subKeysListOffset = u32At p.env.fi.buffer (o + 32) ∧
    ∃ name, r.key.path = '\\' :: name

theorem PlainOpen.safe {w : World} {p : HiveParser} (ho : PlainOpen w p) (hd : 0 < w.depth) : SafeOpen w p := by
  refine ⟨ho.env, ⟨attachOk_empty _ _ (by rw [ho.env]; exact hd) ho.state, ?_⟩, ho.offset, ?_⟩
  · intro q ds h; rw [ho.state] at h; cases h
  · intro r hr
    obtain ⟨h1, h2⟩ := ho.root r hr
    exact ⟨(by intro d hdm; rw [h1] at hdm; cases hdm), h2⟩

theorem iterate_safe_of (w : World) (p : HiveParser) (ho : SafeOpen w p)
    (hs : SaneLists p.env.fi.buffer w.depth) (filter : Filter) (gm anc : Bool) :
    ∃ steps ns, p.iterate steps filter false gm anc = some (.ok ns) ∧ (liveOffs ns).Nodup := by
  have hdep : p.env.depth = w.depth := by rw [ho.env]; rfl
  have hfi : p.env.fi = ⟨4096, p.env.fi.buffer⟩ := by
    conv => lhs; rw [ho.env]
    rfl
  have hlists : ∀ o, slice p.env.fi.buffer (o + 4) 2 = [0x6E, 0x6B] → 0 < u32At p.env.fi.buffer (o + 24) →
      u32At p.env.fi.buffer (o + 24) ≤ 1048576 →
      parseSubKeyList p.env.fi p.env.depth (u32At p.env.fi.buffer (o + 32)) ≠ .panic := by
    intro o h1 h2 h3
    rw [hdep, hfi]
    exact parseSubKeyList_safe _ _ _ (hs o h1 h2 h3)
  have hroot : ∃ rn, NodeSafe p.env rn (p.root.getD (.mk defaultKey [] [])) := by
    cases hr : p.root with
    | none => exact ⟨[], (by intro d hd; cases hd), fun _ h => absurd h (by decide), fun _ h => absurd h (by decide)⟩
    | some r =>
      obtain ⟨h1, o, h2, h3, h4, name, h5⟩ := ho.root r hr
      refine ⟨name, h1, ?_, fun _ _ => ⟨[], by simp [h5], .inl rfl⟩⟩
      intro _ g1 g2
      rw [Option.getD_some, h4]
      exact hlists o h2 (by rw [← h3]; exact g1) (by rw [← h3]; exact g2)
  obtain ⟨rn, hn⟩ := hroot
  obtain ⟨c, hc⟩ := root_part rn
  obtain ⟨steps, res, h1, h2, h3⟩ := iteration_ends_partial p.env p.state p.root filter gm anc ho.state.del
    (fun r hr => (ho.root r hr).1)
  have hsafe := collect_safe p.env rn c hc hlists steps (.start p.state p.root filter gm anc)
    ⟨ho.state, .inl ho.offset, by intro n hn'; cases List.mem_singleton.1 hn'; exact hn⟩
  rcases res with ns | _ | _
  · exact ⟨steps, ns, by unfold HiveParser.iterate; simpa using h1, h3 ns rfl⟩
  · exact absurd rfl h2
  · exact absurd h1 hsafe

theorem iterate_safe (w : World) (hd : 0 < w.depth) (p : HiveParser) (ho : PlainOpen w p)
    (hs : SaneLists p.env.fi.buffer w.depth) (filter : Filter) (gm anc : Bool) :
    ∃ steps ns, p.iterate steps filter false gm anc = some (.ok ns) ∧ (liveOffs ns).Nodup :=
  iterate_safe_of w p (ho.safe hd) hs filter gm anc

/-- C83, listing (partial: `self_list_violated` shows what lists not sane can do).  Whatever hive has been opened
without recovery, its sub-key lists not nesting deeper than the stack has room for: the iteration, with any filter,
ends without an error, and no key is listed twice. -/
theorem list_safe_partial (w : World) (hd : 0 < w.depth) (b : Builder) (hrec : b.recover = false)
    (hl : ∀ f ∈ b.logs, SaneLog f) (p : HiveParser) (hp : b.build w = some (.ok p))
    (hs : SaneLists p.env.fi.buffer w.depth) (filter : Filter) (gm anc : Bool) :
    ∃ steps ns, p.iterate steps filter false gm anc = some (.ok ns) ∧ (liveOffs ns).Nodup := by
  obtain ⟨r, h1, _, h3⟩ := build_safe w hd b hrec hl
  rw [hp] at h1
  exact iterate_safe w hd p (h3 p (Option.some.inj h1).symm) hs filter gm anc

/-! ### reg_dump -/

theorem put_safe (s : Sheet) (col : Nat) (c : XCell) : s.put col c ≠ .panic := by
  unfold Sheet.put; split <;> simp

theorem bind_safe {α β : Type} {r : Res α} {f : α → Res β} (h : r ≠ .panic) (hf : ∀ a, f a ≠ .panic) :
    (r >>= f) ≠ .panic := by
  rcases r with a | _ | _
  · exact hf a
  · simp [bind, Res.bind]
  · exact absurd rfl h

theorem putChunks_safe : ∀ (cs : List Str) (o : Sheet) (col : Nat), putChunks o col cs ≠ .panic := by
  intro cs
  induction cs with
  | nil => intro o col; simp [putChunks]
  | cons c cs ih =>
    intro o col
    rw [putChunks]
    split
    · have := put_safe o col (.text c)
      cases hx : o.put col (.text c) with
      | ok o => exact ih o (col + 1)
      | err => simp
      | panic => exact absurd hx this
    · simp

theorem writeField_safe (p o : Sheet) (col : Nat) (f : XField) : writeField p o col f ≠ .panic := by
  cases f with
  | number n => exact bind_safe (put_safe _ _ _) (by simp)
  | text n => exact bind_safe (put_safe _ _ _) (by simp)
  | checked s =>
    unfold writeField checkWrite
    simp only
    split
    · simp
    · unfold writeOverflow
      split
      · refine bind_safe (put_safe _ _ _) fun o1 => bind_safe (putChunks_safe _ _ _) fun o2 =>
          bind_safe ?_ fun p1 => bind_safe (put_safe _ _ _) (by simp)
        unfold Sheet.link
        split <;> simp
      · exact bind_safe (put_safe _ _ _) (by simp)

theorem writeFields_safe : ∀ (fs : List (Nat × XField)) (p o : Sheet), writeFields p o fs ≠ .panic := by
  intro fs
  induction fs with
  | nil => intro p o; simp [writeFields]
  | cons f fs ih =>
    intro p o
    obtain ⟨col, f⟩ := f
    exact bind_safe (writeField_safe _ _ _ _) fun x => ih x.1 x.2

theorem xlsxEach_safe {α : Type} (f : α → Sheet × Sheet → Res (Sheet × Sheet)) (l : List α)
    (hf : ∀ a ∈ l, ∀ s, f a s ≠ .panic) : ∀ s, xlsxEach f l s ≠ .panic := by
  induction l with
  | nil => intro s; simp [xlsxEach]
  | cons a as ih =>
    intro s
    rw [xlsxEach]
    cases hx : f a s with
    | ok s' => exact ih (fun a ha => hf a (List.mem_cons_of_mem _ ha)) s'
    | err => simp
    | panic => exact absurd hx (hf a List.mem_cons_self s)

mutual
theorem xlsxVersion_safe (t : XlsxTexts) (ro : Bool) : ∀ (n : Node) (s : Sheet × Sheet), xlsxVersion t ro n s ≠ .panic
  | .mk k vs ds, s => by
    rw [xlsxVersion]
    split
    · have : xlsxRow (xlsxKeyFields t k) s ≠ .panic := writeFields_safe _ _ _
      cases hx : xlsxRow (xlsxKeyFields t k) s with
      | ok s' => exact xlsxVersions_safe t ro vs s'
      | err => simp
      | panic => exact absurd hx this
    · simp

theorem xlsxVersions_safe (t : XlsxTexts) (ro : Bool) : ∀ (vs : List Node) (s : Sheet × Sheet),
    xlsxVersion.versions t ro vs s ≠ .panic
  | [], s => by simp [xlsxVersion.versions]
  | v :: vs, s => by
    rw [xlsxVersion.versions]
    cases hx : xlsxVersion t ro v s with
    | ok s' => exact xlsxVersions_safe t ro vs s'
    | err => simp
    | panic => exact absurd hx (xlsxVersion_safe t ro v s)
end

theorem writeXlsx_safe (t : XlsxTexts) (ro : Bool) (logs : List (Str × Str)) (ns : List Node) :
    writeXlsx t ro logs ns ≠ .panic := by
  unfold writeXlsx
  refine bind_safe (writeFields_safe _ _ _) fun s => bind_safe (xlsxEach_safe _ _ ?_ _) fun x => bind_safe ?_ (by simp)
  · intro n _ s
    unfold xlsxKey
    cases hx : xlsxVersion t ro n s with
    | ok s' =>
      refine xlsxEach_safe _ _ ?_ s'
      intro v _ s
      refine xlsxEach_safe _ _ ?_ s
      intro v _ s
      unfold xlsxValue
      split
      · simp
      · exact writeFields_safe _ _ _
    | err => simp
    | panic => exact absurd hx (xlsxVersion_safe t ro n s)
  · generalize (({}, x.2) : Sheet × Sheet) = s
    induction logs generalizing s with
    | nil => simp [xlsxLogs]
    | cons l ls ih =>
      obtain ⟨code, text⟩ := l
      exact bind_safe (writeFields_safe _ _ _) fun x => ih _

theorem writeJson_safe (t : JsonTexts) (full : Bool) (ns : List Node) : ∃ rs, writeJson t full ns = .ok rs := by
  induction ns with
  | nil => exact ⟨[], rfl⟩
  | cons n ns ih =>
    obtain ⟨j, hj, _⟩ := keyJson_ok t full n
    obtain ⟨rs, hr⟩ := ih
    exact ⟨_, by rw [writeJson, hj, Res.bind_ok, hr, Res.bind_ok]⟩

theorem writeDump_safe (u : Prints) (o : DumpOptions) (hc : o.type ≠ .Common) (logs : List (Str × Str)) (ns : List Node) :
    writeDump u o logs ns ≠ .panic := by
  unfold writeDump
  split
  · cases hx : writeXlsx u.xlsx o.recoveredOnly logs ns with
    | ok x => obtain ⟨a, b, c⟩ := x; simp
    | err => simp
    | panic => exact absurd hx (writeXlsx_safe _ _ _ _)
  · simp
  · rename_i h; exact absurd h hc
  · obtain ⟨rs, hr⟩ := writeJson_safe u.json o.full ns
    rw [hr]; simp

theorem openLogs_mem {disk : Disk} : ∀ {ps : List (List Str)} {bs : List Bytes}, openLogs disk ps = some bs →
    ∀ b ∈ bs, ∃ q ∈ ps, disk q = some b := by
  intro ps
  induction ps with
  | nil => intro bs h; cases h; intro b hb; cases hb
  | cons p ps ih =>
    intro bs h
    rw [openLogs] at h
    cases hd : disk p with
    | none => rw [hd] at h; cases h
    | some x =>
      rw [hd] at h
      simp only at h
      cases ho : openLogs disk ps with
      | none => rw [ho] at h; cases h
      | some xs =>
        rw [ho] at h
        cases h
        intro b hb
        rcases List.mem_cons.1 hb with rfl | hb
        · exact ⟨p, List.mem_cons_self, hd⟩
        · obtain ⟨q, h1, h2⟩ := ih ho b hb
          exact ⟨q, List.mem_cons_of_mem _ h1, h2⟩

/-- `reg_dump` without recovery ends, if the listings it gets can be written. -/
theorem dump_ends (w : World) (hd : 0 < w.depth) (u : Prints) (disk : Disk) (o : DumpOptions)
    (dir : List Str) (name : Str) (hrec : o.recover = false)
    (hl : ∀ q ∈ (getLogFiles disk.files o.skipLogs name (dir ++ [name])).getD [], ∀ f, disk q = some f → SaneLog f)
    (hs : ∀ p, buildFromPath w disk (dir ++ [name])
        ((getLogFiles disk.files o.skipLogs name (dir ++ [name])).getD []) false o.full = some (.ok p) →
      SaneLists p.env.fi.buffer w.depth)
    (hw : ∀ p steps filter ns, buildFromPath w disk (dir ++ [name])
        ((getLogFiles disk.files o.skipLogs name (dir ++ [name])).getD []) false o.full = some (.ok p) →
      dumpFilter o.filter = .ok filter → p.iterate steps (filter.getD {}) = some (.ok ns) →
      writeDump u o (p.parseLogs u) ns ≠ .panic) :
    ∃ steps, dumpFile w steps u disk o (dir ++ [name]) = some .err ∨
      ∃ out, dumpFile w steps u disk o (dir ++ [name]) = some (.ok out) := by
  obtain ⟨filter, hf⟩ : ∃ filter, dumpFilter o.filter = .ok filter ∨ dumpFilter o.filter = .err := by
    unfold dumpFilter
    cases o.filter with
    | none => exact ⟨_, .inl rfl⟩
    | some f =>
      simp only
      unfold FilterBuilder.build
      split
      · exact ⟨_, .inl rfl⟩
      · rename_i h; exact ⟨none, .inr rfl⟩
      · rename_i h; split at h <;> cases h
  rcases hf with hf | hf
  case inr => exact ⟨0, .inl (by unfold dumpFile; rw [hf])⟩
  have hlast : (dir ++ [name]).getLast? = some name := by simp
  have hdump : ∀ steps, dumpFile w steps u disk o (dir ++ [name]) =
      regDump w steps u disk o filter (dir ++ [name]) (getLogFiles disk.files o.skipLogs name (dir ++ [name])) := by
    intro steps
    unfold dumpFile processFile
    rw [hf, hlast]
  simp only [hdump]
  unfold regDump
  rw [hrec]
  generalize (getLogFiles disk.files o.skipLogs name (dir ++ [name])).getD [] = paths at hl hs hw
  have hbuild : ∃ r, buildFromPath w disk (dir ++ [name]) paths false o.full = some r ∧ r ≠ .panic ∧
      ∀ p, r = .ok p → PlainOpen w p := by
    unfold buildFromPath
    cases ho : openLogs disk paths with
    | none => exact ⟨_, rfl, by simp, by intro p h; cases h⟩
    | some bs =>
      simp only
      cases disk (dir ++ [name]) with
      | none => exact ⟨_, rfl, by simp, by intro p h; cases h⟩
      | some b =>
        refine build_safe w hd _ rfl ?_
        intro f hfm
        obtain ⟨q, h1, h2⟩ := openLogs_mem ho f hfm
        exact hl q h1 f h2
  obtain ⟨r, h1, h2, h3⟩ := hbuild
  rw [h1]
  rcases r with p | _ | _
  · obtain ⟨steps, ns, hi, _⟩ := iterate_safe w hd p (h3 p rfl) (hs p h1) (filter.getD {}) true false
    refine ⟨steps, ?_⟩
    simp only
    rw [hi]
    simp only
    have := hw p _ _ _ h1 hf hi
    cases hx : writeDump u o (p.parseLogs u) ns with
    | ok out => exact .inr ⟨out, rfl⟩
    | err => exact .inl rfl
    | panic => exact absurd hx this
  · exact ⟨0, .inl rfl⟩
  · exact absurd rfl h2

/-- C83, `reg_dump` (partial: `dump_self_list_violated`, and the common format panics on a file that is no hive,
`dump_common_violated`).  Whatever the bytes of the file and the filter, without recovery and in all formats but the
common one: the tool ends, and not by a panic.  (Every file found as a log of it is sane, and so are the sub-key lists
of the hive as opened.) -/
theorem dump_safe_partial (w : World) (hd : 0 < w.depth) (u : Prints) (disk : Disk) (o : DumpOptions)
    (dir : List Str) (name : Str) (hrec : o.recover = false) (hc : o.type ≠ .Common)
    (hl : ∀ q ∈ (getLogFiles disk.files o.skipLogs name (dir ++ [name])).getD [], ∀ f, disk q = some f → SaneLog f)
    (hs : ∀ p, buildFromPath w disk (dir ++ [name])
        ((getLogFiles disk.files o.skipLogs name (dir ++ [name])).getD []) false o.full = some (.ok p) →
      SaneLists p.env.fi.buffer w.depth) :
    ∃ steps, dumpFile w steps u disk o (dir ++ [name]) = some .err ∨
      ∃ out, dumpFile w steps u disk o (dir ++ [name]) = some (.ok out) :=
  dump_ends w hd u disk o dir name hrec hl hs fun _ _ _ _ _ _ _ => writeDump_safe u o hc _ _

/-! ### Violations and examples -/

/-- A hive with the root key `RT`, of which the sub-key list is an index root that lists itself. -/
def selfBin : Bytes :=
  hbinBytes 0 126 0 0 0 0 ++ (exampleCell 0x24 1 114 [0x52, 0x54]).encode ++ riCell (-12) [114]

def selfHive : Bytes := sampleHeader 5 5 4096 ++ List.replicate 3584 0 ++ selfBin

theorem selfHive_list (depth : Nat) : parseSubKeyList ⟨4096, selfHive⟩ depth 114 = .panic := by
  induction depth with
  | zero => rfl
  | succ d ih =>
    rw [parseSubKeyList]
    have h1 : getFrom selfHive (114 + 4096) = some (riCell (-12) [114]) := by decide +kernel
    have h2 : SubKeyList.fromBytes [0x72, 0x69] leU32 (riCell (-12) [114])
        = some ({ size := 12, count := 1, items := [114] }, []) := by decide +kernel
    simp only
    rw [h1]
    simp only
    rw [h2]
    simp only [riLoop, ih]

theorem selfHive_parts : ∃ pre, pre.length = 4096 ∧
    selfHive = pre ++ (hbinBytes 0 126 0 0 0 0 ++ ((exampleCell 0x24 1 114 [0x52, 0x54]).encode ++ riCell (-12) [114])) := by
  refine ⟨sampleHeader 5 5 4096 ++ List.replicate 3584 0, ?_, ?_⟩
  · rw [List.length_append, List.length_replicate]
    simp only [sampleHeader, List.length_append, length_encLE, List.length_replicate]
    rfl
  · rw [selfHive, selfBin]
    simp only [List.append_assoc]

theorem selfHive_open (w : World) (hd : 0 < w.depth) : ∃ p root, ({ primary := selfHive } : Builder).build w = some (.ok p) ∧
    p.env = w.env selfHive ∧ p.header.base.rootCellOffset = 32 ∧ p.state.Plain ∧ p.root = some root ∧ root.key.nSubKeys = 1 ∧ root.key.subKeysListOffset = 114 ∧
    root.key.fileOffset = 4128 ∧ root.key.subKeyOffsets = [] ∧ root.key.cellState = .Allocated := by
  obtain ⟨pre, hlen, hpre⟩ := selfHive_parts
  have hh : (match BaseBlock.fromBytes selfHive with
      | .ok (bb, _) => decide (bb.base.fileType ≠ .unknown ∧ bb.base.primarySeq = bb.base.secondarySeq ∧
          calculateChecksum (selfHive.take 512) = .ok bb.base.checksum ∧ bb.base.rootCellOffset = 32)
      | _ => false) = true := by decide +kernel
  cases hb : BaseBlock.fromBytes selfHive with
  | err => rw [hb] at hh; cases hh
  | panic => rw [hb] at hh; cases hh
  | ok x =>
    obtain ⟨bb, rest⟩ := x
    rw [hb] at hh
    obtain ⟨g1, g2, g3, g4⟩ := of_decide_eq_true hh
    have hlogs : TransactionLog.parse [] = .ok ([], none) := by decide +kernel
    obtain ⟨info, ho⟩ := open_clean (w.analyze false) (w.initItems false) (w.scan false) selfHive
      (some (.ok ({}, []))) (some (.ok ({}, []))) [] bb rest hb g1 g2 g3 (by rw [scan_false])
    obtain ⟨info2, hbo⟩ := build_opened w { primary := selfHive } [] none _ {} [] hlogs ho rfl rfl
    obtain ⟨root, hr, hreads⟩ := initRoot_reads (w.env selfHive) { info := info2 }
      (.mk 4128 (exampleCell 0x24 1 114 [0x52, 0x54]) ['R', 'T'] [])
      ⟨0, 126, 0, 0, 0, 0, by decide, by decide, by decide, by decide, by decide, by decide,
        pre, _, hpre, hlen⟩
      ⟨exampleCell_fits _ _ _ _ (by decide) (by decide) (by decide) (by decide),
        ⟨pre ++ hbinBytes 0 126 0 0 0 0, riCell (-12) [114], hpre.trans (by simp [Tree.cell]), by
          rw [List.length_append, hlen]; rfl⟩,
        .inl ⟨by decide, by decide⟩⟩ rfl (attachOk_empty _ _ hd fun _ => rfl)
    obtain ⟨k, vs, lg, hk, hf, he⟩ := hreads.key
    refine ⟨_, root, hbo root hr, rfl, g4, ⟨fun _ => rfl, fun _ => rfl, fun _ => rfl, fun _ => rfl⟩, rfl, ?_⟩
    rw [he]
    unfold KeyMatches at hk
    unfold Fresh at hf
    simp only [exampleCell, Tree.cell, Tree.off] at hk
    grind

/-- C83, violated: a hive of 4222 bytes is opened without a complaint, and the first step of listing it, with any
filter, exhausts the stack, however large it is. -/
theorem self_list_violated (w : World) (hd : 0 < w.depth) :
    ∃ p, ({ primary := selfHive } : Builder).build w = some (.ok p) ∧
      ∀ steps filter gm anc, p.iterate (steps + 1) filter false gm anc = some .panic := by
  obtain ⟨p, root, hb, henv, _, _, hr, h1, h2, _, _, h5⟩ := selfHive_open w hd
  refine ⟨p, hb, ?_⟩
  intro steps filter gm anc
  unfold HiveParser.iterate
  simp only [Bool.false_eq_true, if_false]
  have hread : ∀ st, readSubKeysInternal p.env st root filter none gm = .panic := by
    intro st
    unfold readSubKeysInternal
    simp only
    rw [if_pos h5, h1, if_neg (by decide), if_pos (by decide), h2, henv]
    have : parseSubKeyList (w.env selfHive).fi (w.env selfHive).depth 114 = .panic := selfHive_list _
    rw [this]
  rw [collect, nextPre]
  simp only [IterCtx.start, hr, Option.getD_some, preStep, pushKids]
  rw [if_pos (by rw [h1]; decide), hread]

theorem build_full (w : World) (b : Builder) (full : Bool) : { b with fullInfo := full }.build w = b.build w := rfl

/-- The disk with nothing but that hive. -/
def selfDisk : Disk := fun q => if q = [['H']] then some selfHive else none

/-- C83, violated by `reg_dump` in every format: the tool crashes on that file. -/
theorem dump_self_list_violated (w : World) (hd : 0 < w.depth) (steps : Nat) (u : Prints) (o : DumpOptions)
    (hrec : o.recover = false) (hf : o.filter = none) :
    dumpFile w (steps + 1) u selfDisk o [['H']] = some .panic := by
  obtain ⟨p, hb, hi⟩ := self_list_violated w hd
  unfold dumpFile processFile
  rw [hf]
  simp only [dumpFilter, List.getLast?_singleton]
  unfold regDump
  have hl : (getLogFiles selfDisk.files o.skipLogs ['H'] [['H']]).getD [] = [] := by
    cases o.skipLogs <;> decide +kernel
  have hbf : buildFromPath w selfDisk [['H']] [] o.recover o.full = some (.ok p) := by
    have : selfDisk [['H']] = some selfHive := if_pos rfl
    unfold buildFromPath
    rw [hrec, this]
    simp only [openLogs]
    exact (build_full w { primary := selfHive } o.full).trans hb
  rw [hl, hbf]
  simp only
  have := hi steps {} true false
  simp only [Option.getD_none]
  rw [this]

/-- C83, violated: with a log of 552 bytes whose only entry tells a size of 32, no hive can be opened. -/
theorem tiny_entry_violated (w : World) (b : Builder) (h : b.logs = [demoTinyLog]) : b.build w = some .panic := by
  unfold Builder.build
  rw [h, unreadable_log_violated]

/-- An entry like `sampleEntry` with another number. -/
def numberedEntry (n : Nat) : RawEntry :=
  let e0 : RawEntry := ⟨0, n, 4096, 0, 0, [(218, [0x63])], []⟩
  let e1 := { e0 with hash1 := (marvin32 defaultSeed (e0.encode.drop 40)).toNat }
  { e1 with hash2 := (marvin32 defaultSeed (e1.encode.take 32)).toNat }

/-- A log with two entries, of which the first has the last number of 32 bits. -/
def lastLog : RawLog := ⟨sampleHeader 4 4 4096, [numberedEntry 4294967295, numberedEntry 4294967295], []⟩

theorem lastLog_fits : lastLog.Fits := by
  refine ⟨by decide +kernel, ?_, by decide⟩
  intro e he
  have : e = numberedEntry 4294967295 := by
    simp only [lastLog, List.mem_cons, List.not_mem_nil, or_false, or_self] at he
    exact he
  subst this
  unfold RawEntry.Fits
  decide +kernel

/-- C83, violated (where arithmetic is checked, as in a debug build): behind an entry with the last number of 32 bits
the next number cannot be computed. -/
theorem last_number_violated :
    ({ primary := sampleHive 5 4 4477 0x61 [], logs := [lastLog.encode] } : Builder).build sampleWorld = some .panic := by
  have hp := parse_single lastLog.encode _ _ (by decide +kernel)
    (log_file_roundtrip lastLog.hdr toldBase toldBase_read lastLog.entries lastLog_fits.2.1 lastLog.tail
      (not_entry lastLog.tail lastLog_fits.2.2))
  have key : (match ({ primary := sampleHive 5 4 4477 0x61 [], logs := [lastLog.encode] } : Builder).build sampleWorld with
      | some .panic => true
      | _ => false) = true := by
    unfold Builder.build
    rw [hp]
    decide +kernel
  cases hb : ({ primary := sampleHive 5 4 4477 0x61 [], logs := [lastLog.encode] } : Builder).build sampleWorld with
  | none => rw [hb] at key; cases key
  | some r =>
    rw [hb] at key
    cases r with
    | err => cases key
    | panic => rfl
    | ok p => cases key

/-- A header like `sampleHeader` that tells a file type unknown to the reader. -/
def strangeHeader : Bytes :=
  let front : Bytes := regf ++ encLE 4 5 ++ encLE 4 5 ++ encLE 8 0 ++ encLE 4 1 ++ encLE 4 5 ++ encLE 4 7 ++
    encLE 4 1 ++ encLE 4 32 ++ encLE 4 4096 ++ encLE 4 1 ++ List.replicate 460 0
  front ++ encLE 4 (xorDwords front)

def strangeDisk : Disk := fun q => if q = [['H']] then some (strangeHeader ++ List.replicate 3584 0) else none

/-- C83, violated in the common format: the tool crashes on a header with an unknown file type.  (In the other formats
it exports one made-up key.) -/
theorem dump_common_violated :
    (match dumpFile sampleWorld 20 someTexts strangeDisk { type := .Common } [['H']] with | some .panic => true | _ => false) = true ∧
    (theText (dumpFile sampleWorld 20 someTexts strangeDisk { type := .Tsv } [['H']])).isSome = true := by
  decide +kernel

/-- Where two bytes follow each other. -/
def marks (a b : UInt8) : Nat → Bytes → List Nat
  | _, [] => []
  | i, x :: r => if x = a ∧ r.head? = some b then i :: marks a b (i + 1) r else marks a b (i + 1) r

theorem marks_mem (a b : UInt8) : ∀ (buf : Bytes) (i o : Nat), slice buf o 2 = [a, b] → i + o ∈ marks a b i buf := by
  intro buf
  induction buf with
  | nil => intro i o h; simp [slice] at h
  | cons x r ih =>
    intro i o h
    rw [marks]
    cases o with
    | zero =>
      rw [if_pos]
      · exact List.mem_cons_self
      · cases r with
        | nil => simp [slice] at h
        | cons y r => simp [slice] at h; simp [h]
    | succ o =>
      have : slice r o 2 = [a, b] := by simpa [slice] using h
      have := ih (i + 1) o this
      rw [show i + (o + 1) = i + 1 + o by omega]
      split
      · exact List.mem_cons_of_mem _ this
      · exact this

/-- The hypothesis of `open_safe_partial`: a log as Windows writes it. -/
theorem toldLog_sane : SaneLog toldLog.encode := by
  have hm : marks 0x48 0x76 0 toldLog.encode = [512] := by decide +kernel
  intro i _ h
  have h2 : slice toldLog.encode i 2 = [0x48, 0x76] := by
    have : slice toldLog.encode i 2 = (slice toldLog.encode i 4).take 2 := by
      unfold slice; rw [List.take_take]; rfl
    rw [this, h]; rfl
  have := marks_mem _ _ _ 0 i h2
  rw [hm, List.mem_singleton] at this
  have : i = 512 := by omega
  subst this
  decide +kernel

/-- The hypothesis of `list_safe_partial`: the sub-key lists of a hive with three keys, two of them below the root. -/
theorem sampleHive_sane (levels : Nat) : SaneLists (sampleHive 5 5 4477 0x61 []) (levels + 1) := by
  have hm : marks 0x6E 0x6B 0 (sampleHive 5 5 4477 0x61 []) = [4132, 4238, 4319, 4400] := by decide +kernel
  intro o h1 h2 _
  have := marks_mem _ _ _ 0 (o + 4) h1
  rw [hm] at this
  have hne : ∀ off ∈ [4234, 4315, 4396], u32At (sampleHive 5 5 4477 0x61 []) (off + 24) = 0 := by decide +kernel
  have hor : o = 4128 ∨ o ∈ [4234, 4315, 4396] := by simp at this ⊢; omega
  rcases hor with rfl | ho
  · have : u32At (sampleHive 5 5 4477 0x61 []) (4128 + 32) = 114 := by decide +kernel
    rw [this, ListEnds]
    have hs : slice (sampleHive 5 5 4477 0x61 []) (114 + 4100) 2 = [0x6C, 0x66] := by decide +kernel
    rw [hs]
    refine ⟨nofun, ?_, nofun⟩
    intro _ _
    decide +kernel
  · rw [hne o ho] at h2
    cases h2

/-- Opening with that log, and listing the keys `b` and their sub-keys. -/
example : ∃ p, ({ primary := sampleHive 5 5 4477 0x61 [], logs := [toldLog.encode] } : Builder).build sampleWorld = some (.ok p) ∧
    ∃ steps ns, p.iterate steps { query := some { keyPath := [.lit ['b']], hasRoot := false, children := true } } = some (.ok ns) := by
  obtain ⟨bb, rest, h1, h2, h3, h4, _, h5⟩ := sampleHive_header 5 5 4477 0x61 [] (by decide +kernel)
  obtain ⟨ls, warn, hp, _⟩ := logs_safe (files := [toldLog.encode]) (by
    intro f hf; cases List.mem_singleton.1 hf; exact toldLog_sane)
  obtain ⟨p, hb, hfi, _⟩ := open_clean_lists sampleWorld { primary := sampleHive 5 5 4477 0x61 [], logs := [toldLog.encode] } bb rest _
    (by decide) rfl ⟨_, hp⟩ h1 h2 (h3.trans h4.symm) h5 (sampleHive_stored 5 5 4477 0x61 [] (.inl rfl))
  obtain ⟨steps, ns, h, _⟩ := list_safe_partial sampleWorld (by decide) _ rfl
    (by intro f hf; cases List.mem_singleton.1 hf; exact toldLog_sane) p hb (by rw [hfi]; exact sampleHive_sane 7) _ true false
  exact ⟨p, hb, steps, ns, h⟩

/-- The hypotheses of `dump_safe_partial`: the clean hive of `uncleanDisk` has no logs. -/
example (u : Prints) : ∃ steps, dumpFile sampleWorld steps u uncleanDisk { type := .Xlsx } [['A']] = some .err ∨
    ∃ out, dumpFile sampleWorld steps u uncleanDisk { type := .Xlsx } [['A']] = some (.ok out) := by
  have hl : (getLogFiles uncleanDisk.files false ['A'] ([] ++ [['A']])).getD [] = [] := by decide +kernel
  refine dump_safe_partial sampleWorld (by decide) u uncleanDisk { type := .Xlsx } [] ['A'] rfl (by decide) ?_ ?_
  · rw [hl]; intro q hq; cases hq
  · intro p hp
    rw [hl] at hp
    obtain ⟨bb, rest, h1, h2, h3, h4, _, h5⟩ := sampleHive_header 5 5 4477 0x61 [] (by decide +kernel)
    obtain ⟨p', hb, hfi, _⟩ := open_clean_lists sampleWorld { primary := sampleHive 5 5 4477 0x61 [] } bb rest _
      (by decide) rfl ⟨([], none), by decide +kernel⟩ h1 h2 (h3.trans h4.symm) h5 (sampleHive_stored 5 5 4477 0x61 [] (.inl rfl))
    have hd : uncleanDisk ([] ++ [['A']]) = some (sampleHive 5 5 4477 0x61 []) := if_pos rfl
    unfold buildFromPath at hp
    rw [hd] at hp
    simp only [openLogs] at hp
    rw [hb] at hp
    cases hp
    rw [hfi]
    exact sampleHive_sane 7

end Notatin
