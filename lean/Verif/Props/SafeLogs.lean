import Verif.Lemmas.Ends
import Verif.Props.History
import Verif.Props.SafeCommon
/-
C86 with logs: opening a hive with recovery while the entries of its logs are applied, compared and recorded.
-/
namespace Notatin
open Spec

/-- Opening with recovery and logs: it does not crash, and what it records can be listed. -/
theorem build_logs_safe (w : World) (hord : ∀ m, (w.order m).Perm m) (b : Builder) (hrec : b.recover = true)
    (hs : b.primary.length < w.steps) (hl : ∀ f ∈ b.logs, SaneLog f)
    (hc : ∀ logs warn, TransactionLog.parse b.logs = .ok (logs, warn) → CalmStages b.primary logs w.depth) :
    b.build w ≠ some .panic ∧ ∀ p, b.build w = some (.ok p) → SafeOpen w p := by
  obtain ⟨ls, warn, hp, hsl⟩ := logs_safe hl
  have hcalm := hc ls warn hp
  obtain ⟨o1, _, o3⟩ := hcalm [] b.primary (List.nil_sublist _) .start
  have hC : Calm w (w.depth - 3) b.primary (ls.map (·.baseBlockBytes)) (ls.flatMap (·.entries)) := by
    intro es buf h1 h2
    obtain ⟨a1, a2, a3⟩ := hcalm es buf h1 h2
    exact ⟨a1, a2, by omega⟩
  have hd3 : w.depth - 3 + 3 ≤ w.depth := by omega
  unfold Builder.build
  rw [hp, hrec]
  simp only
  unfold openHive
  cases hb : BaseBlock.fromBytes b.primary with
  | panic => exact absurd hb (baseBlock_no_panic _)
  | err =>
    unfold initBaseBlock
    rw [hb]
    exact ⟨by simp [bind, Res.bind], by intro p h; simp [bind, Res.bind] at h⟩
  | ok x =>
    obtain ⟨bb, rest⟩ := x
    obtain ⟨f1, f2, _⟩ := baseBlock_frame _ _ _ hb
    obtain ⟨sup, bad, info, hi, _⟩ := initBaseBlock_ok b.primary {} bb rest hb
    rw [hi]
    simp only [Res.bind_ok]
    cases sup with
    | false =>
      simp only [Bool.false_eq_true, if_false]
      refine ⟨by simp, ?_⟩
      intro p h
      cases h
      exact ⟨rfl, ⟨attachOk_empty _ _ (show 0 < w.depth by omega) (fun _ => rfl), fun _ _ h => by cases h⟩, rfl, by intro r h; cases h⟩
    | true =>
      simp only [if_true]
      have hscan : ∀ s, w.scan true b.primary bb (some (.ok ({}, []))) = .ok s → RecOk (w.depth - 3) s := by
        intro s hsc
        unfold World.scan at hsc
        simp only [if_true] at hsc
        split at hsc
        · cases hsc; exact ⟨by simp, by intro x hx; cases hx⟩
        · cases hsc
        · cases hsc
        · rename_i st hst
          cases hsc
          refine ⟨by simp, ?_⟩
          intro x hx
          cases hx
          exact ⟨scan_fine (w := w) o1 (by omega) (by omega) hs _ hst, by intro x hx; cases hx⟩
      have hscp : w.scan true b.primary bb (some (.ok ({}, []))) ≠ .panic := by
        rcases scan_safe w b.primary (by omega) hs bb f2 with h | ⟨st, h, _⟩ <;> rw [h] <;> simp
      cases hsc : w.scan true b.primary bb (some (.ok ({}, []))) with
      | err => exact ⟨by simp [bind, Res.bind], by intro p h; simp [bind, Res.bind] at h⟩
      | panic => exact absurd hsc hscp
      | ok s =>
        simp only [Res.bind_ok]
        have hrs := hscan s hsc
        obtain ⟨t1, t2⟩ := applyTransactionLogs_fine w hord hd3
          (h := { buffer := b.primary, hbinOffset := 4096, baseBlock := bb, info := info, recovery := s })
          ⟨by rw [← f1]; exact hb, rfl, f2⟩ hrs bad ls hsl hC
        cases ha : applyTransactionLogs (w.analyze true) (w.initItems true)
            ({ buffer := b.primary, hbinOffset := 4096, baseBlock := bb, info := info, recovery := s } : Hive Recovery) bad ls with
        | err => exact ⟨by simp [bind, Res.bind], by intro p h; simp [bind, Res.bind] at h⟩
        | panic => exact absurd ha t1
        | ok h' =>
          obtain ⟨r1, r2⟩ := t2 h' ha
          simp only [Res.bind_ok]
          rw [r2]
          cases hr : h'.recovery with
          | none => exact ⟨by simp, by intro p h; cases h⟩
          | some r =>
            rcases r with ⟨st, items⟩ | _ | _
            · simp only [if_true]
              obtain ⟨⟨g1, g2⟩, _⟩ := r1.2 _ hr
              have hfine : StFine (w.depth - 3) { st with info := (h'.info.extend st.info).extend (warn.getD {}) } :=
                ⟨g1.keys, g1.values⟩
              have hsafe := hfine.safe (w.env h'.buffer) hd3
              obtain ⟨i1, i2⟩ := initRoot_safe_of _ _ hsafe
              unfold World.env at i1 i2
              split
              · exact ⟨by simp, by intro p h; cases h⟩
              · rename_i hpan; exact absurd hpan i1
              · rename_i root ro hir
                refine ⟨by simp, ?_⟩
                intro p h
                cases h
                obtain ⟨j1, j2⟩ := i2 _ _ hir
                exact ⟨rfl, hsafe.at ro, j1.trans g2, j2⟩
            · exact ⟨by simp, by intro p h; cases h⟩
            · exact absurd hr r1.1

/-- From some number of rounds on, opening with recovery and logs has ended. -/
theorem build_logs_settles (w : World) (hord : ∀ m, (w.order m).Perm m) (b : Builder) (hrec : b.recover = true)
    (hl : ∀ f ∈ b.logs, SaneLog f)
    (hc : ∀ logs warn, TransactionLog.parse b.logs = .ok (logs, warn) → CalmStages b.primary logs w.depth) :
    ∃ r, Settles (fun s => b.build { w with steps := s }) (some r) := by
  obtain ⟨ls, warn, hp, hsl⟩ := logs_safe hl
  have hcalm := hc ls warn hp
  obtain ⟨o1, _, o3⟩ := hcalm [] b.primary (List.nil_sublist _) .start
  have hC : Calm w (w.depth - 3) b.primary (ls.map (·.baseBlockBytes)) (ls.flatMap (·.entries)) := by
    intro es buf h1 h2
    obtain ⟨a1, a2, a3⟩ := hcalm es buf h1 h2
    exact ⟨a1, a2, by omega⟩
  have hd3 : w.depth - 3 + 3 ≤ w.depth := by omega
  have hopen : ∃ y, (∀ z, y = Res.ok z → z.2.recovery ≠ none) ∧
      Settles (fun s => openHive (World.analyze { w with steps := s } true) (World.initItems { w with steps := s } true)
        (World.scan { w with steps := s } true) b.primary (some (.ok ({}, []))) ls) y := by
    unfold openHive
    cases hb : BaseBlock.fromBytes b.primary with
    | panic => exact absurd hb (baseBlock_no_panic _)
    | err =>
      unfold initBaseBlock
      rw [hb]
      exact ⟨.err, (by intro z hz; cases hz), 0, fun _ _ => rfl⟩
    | ok x =>
      obtain ⟨bb, rest⟩ := x
      obtain ⟨f1, f2, _⟩ := baseBlock_frame _ _ _ hb
      obtain ⟨sup, bad, info, hi, _⟩ := initBaseBlock_ok b.primary {} bb rest hb
      rw [hi]
      simp only [Res.bind_ok]
      cases sup with
      | false =>
        exact ⟨.ok (false, ⟨b.primary, 4096, bb, info, some (.ok ({}, []))⟩), (by intro z hz; cases hz; simp), 0, fun _ _ => rfl⟩
      | true =>
        simp only [if_true]
        obtain ⟨y, hy, N, hN⟩ := scan_settles w b.primary (by omega) bb
        dsimp only at hN
        rcases y with r | _ | _
        · have hsc := hN (Nat.max N (b.primary.length + 1)) (Nat.le_max_left _ _)
          have hrok : RecOk (w.depth - 3) r := by
            unfold World.scan at hsc
            simp only [if_true] at hsc
            split at hsc
            · cases hsc; exact absurd rfl hy
            · cases hsc
            · cases hsc
            · rename_i st hst
              cases hsc
              refine ⟨by simp, ?_⟩
              intro x hx
              cases hx
              exact ⟨scan_fine (w := { w with steps := Nat.max N (b.primary.length + 1) }) o1 (by omega) (show _ < 24 * w.depth by omega)
                (Nat.lt_of_lt_of_le (Nat.lt_succ_self _) (Nat.le_max_right _ _)) _ hst, by intro x hx; cases hx⟩
          obtain ⟨y', hy', M, hM⟩ := applyTransactionLogs_settles w hord hd3
            (h := { buffer := b.primary, hbinOffset := 4096, baseBlock := bb, info := info, recovery := r })
            ⟨by rw [← f1]; exact hb, rfl, f2⟩ hrok (by rintro rfl; exact hy rfl) bad ls hC
          dsimp only at hM
          have both : ∀ s, Nat.max N M ≤ s → _ ∧ _ := fun s hs =>
            And.intro (hN s (Nat.le_trans (Nat.le_max_left N M) hs)) (hM s (Nat.le_trans (Nat.le_max_right N M) hs))
          rcases y' with h' | _ | _
          · refine ⟨.ok (true, h'), (by intro z hz; cases hz; exact hy' _ rfl), Nat.max N M, fun s hs => ?_⟩
            dsimp only
            rw [(both s hs).1, Res.bind_ok, (both s hs).2]
            rfl
          · refine ⟨.err, (by intro z hz; cases hz), Nat.max N M, fun s hs => ?_⟩
            dsimp only
            rw [(both s hs).1, Res.bind_ok, (both s hs).2]
            rfl
          · refine ⟨.panic, (by intro z hz; cases hz), Nat.max N M, fun s hs => ?_⟩
            dsimp only
            rw [(both s hs).1, Res.bind_ok, (both s hs).2]
            rfl
        · refine ⟨.err, (by intro z hz; cases hz), N, fun s hs => ?_⟩
          dsimp only
          rw [hN s hs]
          rfl
        · refine ⟨.panic, (by intro z hz; cases hz), N, fun s hs => ?_⟩
          dsimp only
          rw [hN s hs]
          rfl
  obtain ⟨y, hy, N, hN⟩ := hopen
  dsimp only at hN
  unfold Builder.build
  rw [hp, hrec]
  simp only
  rcases y with ⟨sup, h'⟩ | _ | _
  · have hnone := hy _ rfl
    cases hr : h'.recovery with
    | none => exact absurd hr hnone
    | some r =>
      rcases r with ⟨st, items⟩ | _ | _
      · cases sup with
        | false => exact ⟨_, N, fun s hs => by dsimp only; rw [hN s hs]; simp only [hr]; rfl⟩
        | true =>
          cases hi : initRoot ⟨⟨h'.hbinOffset, h'.buffer⟩, w.hashFn, w.depth⟩
              { st with info := (h'.info.extend st.info).extend (warn.getD {}) } with
          | ok z => exact ⟨_, N, fun s hs => by dsimp only; rw [hN s hs]; simp only [hr, if_true, hi]; rfl⟩
          | err => exact ⟨.err, N, fun s hs => by dsimp only; rw [hN s hs]; simp only [hr, if_true, hi]⟩
          | panic => exact ⟨.panic, N, fun s hs => by dsimp only; rw [hN s hs]; simp only [hr, if_true, hi]⟩
      · exact ⟨.err, N, fun s hs => by dsimp only; rw [hN s hs]; simp only [hr]⟩
      · exact ⟨.panic, N, fun s hs => by dsimp only; rw [hN s hs]; simp only [hr]⟩
  · exact ⟨.err, N, fun s hs => by dsimp only; rw [hN s hs]⟩
  · exact ⟨.panic, N, fun s hs => by dsimp only; rw [hN s hs]⟩

/-- C86, opening (partial: `open_two_roots_violated` shows what happens when two keys have the mark of a root).  With
recovery and with logs, whatever entries of theirs get applied: as long as what looks like a key stays orderly, opening
comes to an end, with a hive or an error; it does not crash. -/
theorem logs_open_partial (w : World) (hord : ∀ m, (w.order m).Perm m) (b : Builder) (hrec : b.recover = true)
    (hl : ∀ f ∈ b.logs, SaneLog f)
    (hc : ∀ logs warn, TransactionLog.parse b.logs = .ok (logs, warn) → CalmStages b.primary logs w.depth) :
    ∃ N r, r ≠ .panic ∧ ∀ steps, N ≤ steps → b.build { w with steps } = some r := by
  obtain ⟨r, N, hN⟩ := build_logs_settles w hord b hrec hl hc
  have h1 := hN _ (Nat.le_max_left N (b.primary.length + 1))
  have h2 := (build_logs_safe { w with steps := max N (b.primary.length + 1) } hord b hrec
    (Nat.lt_of_lt_of_le (Nat.lt_succ_self _) (Nat.le_max_right _ _)) hl hc).1
  exact ⟨N, r, by rintro rfl; exact h2 h1, hN⟩

/-- C86, listing (partial: same hypotheses).  A hive opened with recovery and logs can be listed, with any filter, with
or without what was modified; no key in use is listed twice. -/
theorem logs_list_partial (w : World) (hord : ∀ m, (w.order m).Perm m) (b : Builder) (hrec : b.recover = true)
    (hs : b.primary.length < w.steps) (hl : ∀ f ∈ b.logs, SaneLog f)
    (hc : ∀ logs warn, TransactionLog.parse b.logs = .ok (logs, warn) → CalmStages b.primary logs w.depth)
    (p : HiveParser) (hp : b.build w = some (.ok p)) (hlists : SaneLists p.env.fi.buffer w.depth)
    (filter : Filter) (gm anc : Bool) :
    ∃ steps ns, p.iterate steps filter false gm anc = some (.ok ns) ∧ (liveOffs ns).Nodup :=
  iterate_safe_of w p ((build_logs_safe w hord b hrec hs hl hc).2 p hp) hlists filter gm anc

/-- `reg_dump` with recovery and logs ends, if opening does and the listings it gets can be written. -/
theorem logs_dump_ends (w : World) (hord : ∀ m, (w.order m).Perm m) (u : Prints) (disk : Disk) (o : DumpOptions)
    (dir : List Str) (name : Str) (f : Bytes) (hf : disk (dir ++ [name]) = some f) (hrec : o.recover = true)
    (hs : f.length < w.steps)
    (hl : ∀ q ∈ (getLogFiles disk.files o.skipLogs name (dir ++ [name])).getD [], ∀ f, disk q = some f → SaneLog f)
    (hc : ∀ bs logs warn, openLogs disk ((getLogFiles disk.files o.skipLogs name (dir ++ [name])).getD []) = some bs →
      TransactionLog.parse bs = .ok (logs, warn) → CalmStages f logs w.depth)
    (hb : buildFromPath w disk (dir ++ [name])
      ((getLogFiles disk.files o.skipLogs name (dir ++ [name])).getD []) true o.full ≠ none)
    (hls : ∀ p, buildFromPath w disk (dir ++ [name])
        ((getLogFiles disk.files o.skipLogs name (dir ++ [name])).getD []) true o.full = some (.ok p) →
      SaneLists p.env.fi.buffer w.depth)
    (hw : ∀ p steps filter ns, buildFromPath w disk (dir ++ [name])
        ((getLogFiles disk.files o.skipLogs name (dir ++ [name])).getD []) true o.full = some (.ok p) →
      dumpFilter o.filter = .ok filter → p.iterate steps (filter.getD {}) = some (.ok ns) →
      writeDump u o (p.parseLogs u) ns ≠ .panic) :
    ∃ steps, dumpFile w steps u disk o (dir ++ [name]) = some .err ∨
      ∃ out, dumpFile w steps u disk o (dir ++ [name]) = some (.ok out) := by
  obtain ⟨filter, hfl⟩ : ∃ filter, dumpFilter o.filter = .ok filter ∨ dumpFilter o.filter = .err := by
    unfold dumpFilter
    cases o.filter with
    | none => exact ⟨_, .inl rfl⟩
    | some f =>
      simp only
      unfold FilterBuilder.build
      split
      · exact ⟨_, .inl rfl⟩
      · rename_i h; exact ⟨none, .inr rfl⟩
      · rename_i h; split at h <;> cases h
  rcases hfl with hfl | hfl
  case inr => exact ⟨0, .inl (by unfold dumpFile; rw [hfl])⟩
  have hlast : (dir ++ [name]).getLast? = some name := by simp
  have hdump : ∀ steps, dumpFile w steps u disk o (dir ++ [name]) =
      regDump w steps u disk o filter (dir ++ [name]) (getLogFiles disk.files o.skipLogs name (dir ++ [name])) := by
    intro steps
    unfold dumpFile processFile
    rw [hfl, hlast]
  simp only [hdump]
  unfold regDump
  rw [hrec]
  generalize (getLogFiles disk.files o.skipLogs name (dir ++ [name])).getD [] = paths at hl hc hb hls hw
  have hbuild : buildFromPath w disk (dir ++ [name]) paths true o.full ≠ some .panic ∧
      ∀ p, buildFromPath w disk (dir ++ [name]) paths true o.full = some (.ok p) → SafeOpen w p := by
    unfold buildFromPath
    cases ho : openLogs disk paths with
    | none => exact ⟨by simp, by intro p h; cases h⟩
    | some bs =>
      simp only [hf]
      refine build_logs_safe w hord _ rfl hs ?_ (fun logs warn => hc bs logs warn ho)
      intro f hfm
      obtain ⟨q, h1, h2⟩ := openLogs_mem ho f hfm
      exact hl q h1 f h2
  cases h1 : buildFromPath w disk (dir ++ [name]) paths true o.full with
  | none => exact absurd h1 hb
  | some r =>
    rcases r with p | _ | _
    · obtain ⟨steps, ns, hi, _⟩ := iterate_safe_of w p (hbuild.2 p h1) (hls p h1) (filter.getD {}) true false
      refine ⟨steps, ?_⟩
      simp only
      rw [hi]
      simp only
      have := hw p _ _ _ h1 hfl hi
      cases hx : writeDump u o (p.parseLogs u) ns with
      | ok out => exact .inr ⟨out, rfl⟩
      | err => exact .inl rfl
      | panic => exact absurd hx this
    · exact ⟨0, .inl rfl⟩
    · exact absurd h1 hbuild.1

/-- C86, `reg_dump` with recovery and logs (partial: same hypotheses; that opening ends is what `logs_open_partial`
says).  In all formats but the common one, with any filter: the tool ends, and not by a panic. -/
theorem logs_dump_partial (w : World) (hord : ∀ m, (w.order m).Perm m) (u : Prints) (disk : Disk) (o : DumpOptions)
    (dir : List Str) (name : Str) (f : Bytes) (hf : disk (dir ++ [name]) = some f) (hrec : o.recover = true)
    (ht : o.type ≠ .Common) (hs : f.length < w.steps)
    (hl : ∀ q ∈ (getLogFiles disk.files o.skipLogs name (dir ++ [name])).getD [], ∀ f, disk q = some f → SaneLog f)
    (hc : ∀ bs logs warn, openLogs disk ((getLogFiles disk.files o.skipLogs name (dir ++ [name])).getD []) = some bs →
      TransactionLog.parse bs = .ok (logs, warn) → CalmStages f logs w.depth)
    (hb : buildFromPath w disk (dir ++ [name])
      ((getLogFiles disk.files o.skipLogs name (dir ++ [name])).getD []) true o.full ≠ none)
    (hls : ∀ p, buildFromPath w disk (dir ++ [name])
        ((getLogFiles disk.files o.skipLogs name (dir ++ [name])).getD []) true o.full = some (.ok p) →
      SaneLists p.env.fi.buffer w.depth) :
    ∃ steps, dumpFile w steps u disk o (dir ++ [name]) = some .err ∨
      ∃ out, dumpFile w steps u disk o (dir ++ [name]) = some (.ok out) :=
  logs_dump_ends w hord u disk o dir name f hf hrec hs hl hc hb hls fun _ _ _ _ _ _ _ => writeDump_safe u o ht _ _

/-- C86, the same in the common format, if the header tells a known file type and fewer than 2^32 items are listed. -/
theorem logs_dump_common_partial (w : World) (hord : ∀ m, (w.order m).Perm m) (u : Prints) (disk : Disk) (o : DumpOptions)
    (dir : List Str) (name : Str) (f : Bytes) (hf : disk (dir ++ [name]) = some f) (hrec : o.recover = true)
    (ht : o.type = .Common) (hk : KnownType f) (hs : f.length < w.steps)
    (hl : ∀ q ∈ (getLogFiles disk.files o.skipLogs name (dir ++ [name])).getD [], ∀ f, disk q = some f → SaneLog f)
    (hc : ∀ bs logs warn, openLogs disk ((getLogFiles disk.files o.skipLogs name (dir ++ [name])).getD []) = some bs →
      TransactionLog.parse bs = .ok (logs, warn) → CalmStages f logs w.depth)
    (hb : buildFromPath w disk (dir ++ [name])
      ((getLogFiles disk.files o.skipLogs name (dir ++ [name])).getD []) true o.full ≠ none)
    (hls : ∀ p, buildFromPath w disk (dir ++ [name])
        ((getLogFiles disk.files o.skipLogs name (dir ++ [name])).getD []) true o.full = some (.ok p) →
      SaneLists p.env.fi.buffer w.depth)
    (hcount : ∀ p steps filter ns, buildFromPath w disk (dir ++ [name])
        ((getLogFiles disk.files o.skipLogs name (dir ++ [name])).getD []) true o.full = some (.ok p) →
      dumpFilter o.filter = .ok filter → p.iterate steps (filter.getD {}) = some (.ok ns) →
      (keyItems ns).length + (valueItems ns).length < 4294967296) :
    ∃ steps, dumpFile w steps u disk o (dir ++ [name]) = some .err ∨
      ∃ out, dumpFile w steps u disk o (dir ++ [name]) = some (.ok out) :=
  logs_dump_ends w hord u disk o dir name f hf hrec hs hl hc hb hls fun p steps filter ns hp hfl hns =>
    writeDump_common w hord u disk o _ _ true ht (fun g hg => by rw [hf] at hg; cases hg; exact hk) p hp steps
      (filter.getD {}) ns hns (hcount p steps filter ns hp hfl hns)

/-! ### Examples -/

theorem slice_of_bytes {buf : Bytes} {o : Nat} {a b : UInt8} (ha : byteAt buf o = a.toNat) (hb : byteAt buf (o + 1) = b.toNat)
    (ha0 : a ≠ 0) (hb0 : b ≠ 0) : slice buf o 2 = [a, b] := by
  have hget : ∀ i (c : UInt8), byteAt buf i = c.toNat → c ≠ 0 → buf[i]? = some c := by
    intro i c h h0
    unfold byteAt at h
    cases hx : buf[i]? with
    | none => rw [hx] at h; exact absurd (UInt8.toNat_inj.1 h.symm) h0
    | some y => rw [hx] at h; exact congrArg some (UInt8.toNat_inj.1 h)
  have h1 := hget _ _ ha ha0
  have h2 := hget _ _ hb hb0
  apply List.ext_getElem?
  intro i
  unfold slice
  rw [List.getElem?_take, List.getElem?_drop]
  match i with
  | 0 => simpa using h1
  | 1 => simpa using h2
  | i + 2 => simp; omega

/-- A file with three keys at these places. -/
theorem calm_of (buf : Bytes) (levels : Nat) (hm : marks 0x6E 0x6B 0 buf = [4132, 4230, 4327])
    (hf : ∀ o ∈ [4128, 4226, 4323], ((byteAt buf (o + 6)).testBit 2 = true → o = 4128) ∧
      (byteAt buf (o + 6)).testBit 5 = true ∧
      ∀ i, i < byteAt buf (o + 76) + 256 * byteAt buf (o + 77) → byteAt buf (o + 80 + i) ≠ 0x5C)
    (hl : ∀ o ∈ [4128, 4226, 4323], 0 < u32At buf (o + 24) →
      slice buf (u32At buf (o + 32) + 4100) 2 = [0x6C, 0x66] ∧
      ∀ i, i < leNat (slice buf (u32At buf (o + 32) + 4102) 2) → u32At buf (u32At buf (o + 32) + 4104 + 8 * i) + 4096 < 4294967296) :
    OrderlyKeys buf ∧ SaneLists buf (levels + 1) := by
  have hat : ∀ o, slice buf (o + 4) 2 = [0x6E, 0x6B] → o ∈ [4128, 4226, 4323] := by
    intro o h
    have := marks_mem _ _ _ 0 (o + 4) h
    rw [hm] at this
    simp at this ⊢
    omega
  refine ⟨?_, ?_⟩
  · intro o h1 h2
    obtain ⟨a, b, c⟩ := hf o (hat o (slice_of_bytes (a := 0x6E) (b := 0x6B) h1 h2 (by decide) (by decide)))
    refine ⟨a, ?_⟩
    rw [if_pos b]
    exact c
  · intro o h1 h2 _
    obtain ⟨a, b⟩ := hl o (hat o h1) h2
    rw [ListEnds, a]
    exact ⟨nofun, fun _ _ => b, nofun⟩

theorem stage_nil {old : Bytes} {heads : List Bytes} {b : Bytes} (h : Stage old heads [] b) :
    b = old ∨ ∃ x ∈ heads, b = x ++ old.drop 512 := by
  generalize hes : ([] : List LogEntry) = es at h
  cases h with
  | start => exact .inl rfl
  | head x hx => exact .inr ⟨x, hx, rfl⟩
  | write es b b' e => simp at hes

theorem stage_one {old : Bytes} {heads : List Bytes} {b' : Bytes} {e : LogEntry} (h : Stage old heads [e] b') :
    ∃ b, Stage old heads [] b ∧ b'.length = b.length + (e.hiveBinsDataSize - u32At b 40) ∧
      ∀ i, i < b'.length → PageByte 4096 e.dirtyPages i (some (b[i]?.getD 0)) b'[i]? := by
  generalize hes : [e] = es at h
  cases h with
  | start => cases hes
  | head x hx => cases hes
  | write es b b' e' hs h1 h2 =>
    have : es = [] ∧ e' = e := by
      cases es with
      | nil => simp at hes; exact ⟨rfl, hes.symm⟩
      | cons a es => simp at hes
    obtain ⟨rfl, rfl⟩ := this
    exact ⟨b, hs, h1, h2⟩

/-- One byte written, and nothing else. -/
theorem page_set {b b' : Bytes} {off : Nat} {v : UInt8} (hlen : b'.length = b.length)
    (h : ∀ i, i < b'.length → PageByte 4096 [⟨off, [v]⟩] i (some (b[i]?.getD 0)) b'[i]?) : b' = b.set (4096 + off) v := by
  apply List.ext_getElem?
  intro i
  by_cases hi : i < b'.length
  · rw [List.getElem?_set]
    rcases h i hi with ⟨pre, q, post, hq, hcov, _, hb⟩ | ⟨hno, hb⟩
    · cases pre with
      | cons a pre => simp at hq
      | nil =>
        simp at hq
        obtain ⟨rfl, rfl⟩ := hq
        obtain ⟨c1, c2⟩ := hcov
        simp at c1 c2
        have : i = 4096 + off := by omega
        subst this
        rw [hb, if_pos rfl, if_pos (by omega)]
        simp
    · have hne : 4096 + off ≠ i := by
        rintro rfl
        exact hno _ List.mem_cons_self ⟨Nat.le_refl _, by simp⟩
      rw [if_neg hne, hb, List.getElem?_eq_getElem (by omega)]
      rfl
  · rw [List.getElem?_eq_none (by omega), List.getElem?_eq_none (by rw [List.length_set]; omega)]

/-- The four files met while that log is applied. -/
theorem hist_files (levels : Nat) : ∀ b ∈ [histBuf 1 1 1, sampleHeader 4 4 4096 ++ (histBuf 1 1 1).drop 512],
    (OrderlyKeys b ∧ SaneLists b (levels + 1)) ∧ (OrderlyKeys (b.set 4250 0) ∧ SaneLists (b.set 4250 0) (levels + 1)) ∧
      b.length = 4404 ∧ u32At b 40 = 4096 := by
  intro b hb
  have h1 : ∀ b ∈ [histBuf 1 1 1, sampleHeader 4 4 4096 ++ (histBuf 1 1 1).drop 512], ∀ c ∈ [b, b.set 4250 0],
      marks 0x6E 0x6B 0 c = [4132, 4230, 4327] := by decide +kernel
  have h2 : ∀ b ∈ [histBuf 1 1 1, sampleHeader 4 4 4096 ++ (histBuf 1 1 1).drop 512], ∀ c ∈ [b, b.set 4250 0],
      ∀ o ∈ [4128, 4226, 4323], ((byteAt c (o + 6)).testBit 2 = true → o = 4128) ∧
      (byteAt c (o + 6)).testBit 5 = true ∧
      ∀ i, i < byteAt c (o + 76) + 256 * byteAt c (o + 77) → byteAt c (o + 80 + i) ≠ 0x5C := by decide +kernel
  have h3 : ∀ b ∈ [histBuf 1 1 1, sampleHeader 4 4 4096 ++ (histBuf 1 1 1).drop 512], ∀ c ∈ [b, b.set 4250 0],
      ∀ o ∈ [4128, 4226, 4323], 0 < u32At c (o + 24) →
      slice c (u32At c (o + 32) + 4100) 2 = [0x6C, 0x66] ∧
      ∀ i, i < leNat (slice c (u32At c (o + 32) + 4102) 2) → u32At c (u32At c (o + 32) + 4104 + 8 * i) + 4096 < 4294967296 := by
    decide +kernel
  have h4 : ∀ b ∈ [histBuf 1 1 1, sampleHeader 4 4 4096 ++ (histBuf 1 1 1).drop 512], b.length = 4404 ∧ u32At b 40 = 4096 := by
    decide +kernel
  have key := fun c hc => calm_of c levels (h1 b hb c hc) (h2 b hb c hc) (h3 b hb c hc)
  exact ⟨key b (by simp), key (b.set 4250 0) (by simp), h4 b hb⟩

/-- The hypothesis of `logs_open_partial`: a log that takes the key `b` away from below `a`. -/
theorem hist_calm (depth : Nat) (hd : 4408 ≤ depth) : ∀ logs warn,
    TransactionLog.parse [histLog [histEntry 4 154 0]] = .ok (logs, warn) → CalmStages (histBuf 1 1 1) logs depth := by
  have hpages : (expectedEntries 512 [histEntry 4 154 0]).map (fun e => (e.hiveBinsDataSize, e.dirtyPages)) =
      [(4096, [⟨154, [0]⟩])] := by decide +kernel
  have hfit : ∀ e ∈ [histEntry 4 154 0], e.Fits := by unfold RawEntry.Fits; decide +kernel
  have hne : (histLog [histEntry 4 154 0]).isEmpty = false := by decide +kernel
  intro logs warn hp
  have hparsed : ∃ base, TransactionLog.parse [histLog [histEntry 4 154 0]] =
      .ok ([⟨base, sampleHeader 4 4 4096, expectedEntries 512 [histEntry 4 154 0]⟩], none) := by
    have hh : (match BaseBlockBase.fromBytes (sampleHeader 4 4 4096) with | .ok (_, []) => true | _ => false) = true := by
      decide +kernel
    cases hb : BaseBlockBase.fromBytes (sampleHeader 4 4 4096) with
    | err => rw [hb] at hh; cases hh
    | panic => rw [hb] at hh; cases hh
    | ok x =>
      obtain ⟨base, r⟩ := x
      rw [hb] at hh
      cases r with
      | cons a r => cases hh
      | nil =>
        exact ⟨base, parse_single _ _ _ hne
          (log_file_roundtrip _ base hb _ hfit [] (by intro pos; rw [LogEntry.fromBytes.eq_def]; rfl))⟩
  obtain ⟨base, hpar⟩ := hparsed
  rw [hpar] at hp
  cases hp
  clear hpar
  obtain ⟨levels, rfl⟩ : ∃ levels, depth = levels + 1 := ⟨depth - 1, by omega⟩
  have hfiles := hist_files levels
  generalize expectedEntries 512 [histEntry 4 154 0] = es at hpages
  match es, hpages, congrArg List.length hpages with
  | [e], hpages, _ =>
    simp only [List.map_cons, List.map_nil, List.cons.injEq, Prod.mk.injEq, and_true] at hpages
    obtain ⟨a1, a2⟩ := hpages
    intro es buf hsub hst
    have hnil : ∀ b, Stage (histBuf 1 1 1) [sampleHeader 4 4 4096] [] b →
        b ∈ [histBuf 1 1 1, sampleHeader 4 4 4096 ++ (histBuf 1 1 1).drop 512] := by
      intro b hb
      rcases stage_nil hb with rfl | ⟨x, hx, rfl⟩
      · exact List.mem_cons_self
      · cases List.mem_singleton.1 hx
        exact List.mem_cons_of_mem _ List.mem_cons_self
    have hes : es = [] ∨ es = [e] := by
      have : es.Sublist [e] := hsub
      cases this with
      | cons _ h => left; exact List.sublist_nil.1 h
      | cons_cons _ h => right; rw [List.sublist_nil.1 h]
    rcases hes with rfl | rfl
    · obtain ⟨⟨k1, k2⟩, _, k3, _⟩ := hfiles buf (hnil buf hst)
      exact ⟨k1, k2, by omega⟩
    · obtain ⟨b, hb, hlen, hpg⟩ := stage_one hst
      obtain ⟨_, ⟨k1, k2⟩, k3, k4⟩ := hfiles b (hnil b hb)
      have hl : buf.length = b.length := by omega
      rw [a2] at hpg
      have hset := page_set hl hpg
      subst hset
      exact ⟨k1, k2, by omega⟩

theorem histLog_sane : SaneLog (histLog [histEntry 4 154 0]) := by
  have hm : marks 0x48 0x76 0 (histLog [histEntry 4 154 0]) = [512] := by decide +kernel
  intro i _ h
  have h2 : slice (histLog [histEntry 4 154 0]) i 2 = [0x48, 0x76] := by
    have : slice (histLog [histEntry 4 154 0]) i 2 = (slice (histLog [histEntry 4 154 0]) i 4).take 2 := by
      unfold slice; rw [List.take_take]; rfl
    rw [this, h]; rfl
  have := marks_mem _ _ _ 0 i h2
  rw [hm, List.mem_singleton] at this
  have : i = 512 := by omega
  subst this
  decide +kernel

/-- The hypotheses of `logs_open_partial` are met by that hive and that log. -/
example (hash : Bytes → Bytes) : ∃ N r, r ≠ .panic ∧ ∀ steps, N ≤ steps →
    ({ primary := histBuf 1 1 1, logs := [histLog [histEntry 4 154 0]], recover := true } : Builder).build
      ⟨hash, 5000, id, steps⟩ = some r :=
  logs_open_partial ⟨hash, 5000, id, 0⟩ (fun m => List.Perm.refl m) _ rfl
    (by intro f hf; cases List.mem_singleton.1 hf; exact histLog_sane) (hist_calm 5000 (by decide))

/-- The hive `H` and its log. -/
def histDisk : Disk := fun path =>
  if path = [['H']] then some (histBuf 1 1 1)
  else if path = ["H.LOG1".toList] then some (histLog [histEntry 4 154 0]) else none

def roomyWorld : World := ⟨fun _ => [], 5000, id, 5000⟩

/-- What `calm_of` asks for. -/
def CalmCheck (buf : Bytes) : Prop :=
  marks 0x6E 0x6B 0 buf = [4132, 4230, 4327] ∧
  (∀ o ∈ [4128, 4226, 4323], ((byteAt buf (o + 6)).testBit 2 = true → o = 4128) ∧
    (byteAt buf (o + 6)).testBit 5 = true ∧
    ∀ i, i < byteAt buf (o + 76) + 256 * byteAt buf (o + 77) → byteAt buf (o + 80 + i) ≠ 0x5C) ∧
  (∀ o ∈ [4128, 4226, 4323], 0 < u32At buf (o + 24) →
    slice buf (u32At buf (o + 32) + 4100) 2 = [0x6C, 0x66] ∧
    ∀ i, i < leNat (slice buf (u32At buf (o + 32) + 4102) 2) → u32At buf (u32At buf (o + 32) + 4104 + 8 * i) + 4096 < 4294967296)

instance (buf : Bytes) : Decidable (CalmCheck buf) := by unfold CalmCheck; infer_instance

theorem calm_of_check {buf : Bytes} (h : CalmCheck buf) (levels : Nat) : OrderlyKeys buf ∧ SaneLists buf (levels + 1) :=
  calm_of buf levels h.1 h.2.1 h.2.2

/-- What opening it gives. -/
theorem hist_opened : (match buildFromPath roomyWorld histDisk [['H']] [["H.LOG1".toList]] true false with
    | some (.ok p) => decide (CalmCheck p.env.fi.buffer)
    | _ => false) = true := by
  decide +kernel

/-- The hypotheses of `logs_dump_partial`: the log takes the key `b` away. -/
example (u : Prints) (filter : Option Str) :
    ∃ steps, dumpFile roomyWorld steps u histDisk { type := .Jsonl, recover := true, filter } [['H']] = some .err ∨
      ∃ out, dumpFile roomyWorld steps u histDisk { type := .Jsonl, recover := true, filter } [['H']] = some (.ok out) := by
  have hg : (getLogFiles histDisk.files false ['H'] ([] ++ [['H']])).getD [] = [["H.LOG1".toList]] := by decide +kernel
  have hlog : histDisk ["H.LOG1".toList] = some (histLog [histEntry 4 154 0]) := rfl
  have hlogs : openLogs histDisk [["H.LOG1".toList]] = some [histLog [histEntry 4 154 0]] := rfl
  have ho := hist_opened
  refine logs_dump_partial roomyWorld (fun m => List.Perm.refl m) u histDisk { type := .Jsonl, recover := true, filter } [] ['H']
    (histBuf 1 1 1) (if_pos rfl) rfl nofun
    (by rw [show (histBuf 1 1 1).length = 4404 by decide +kernel]; decide) ?_ ?_ ?_ ?_
  · rw [hg]
    intro q hq f hf
    cases List.mem_singleton.1 hq
    cases hlog.symm.trans hf
    exact histLog_sane
  · rw [hg, hlogs]
    intro bs logs warn hbs
    cases hbs
    exact hist_calm 5000 (by decide) logs warn
  · rw [hg]
    intro hn
    rw [show buildFromPath roomyWorld histDisk [['H']] [["H.LOG1".toList]] true false = none from hn] at ho
    cases ho
  · rw [hg]
    intro p hp
    rw [show buildFromPath roomyWorld histDisk [['H']] [["H.LOG1".toList]] true false = some (.ok p) from hp] at ho
    exact (calm_of_check (of_decide_eq_true ho) 4999).2

end Notatin
