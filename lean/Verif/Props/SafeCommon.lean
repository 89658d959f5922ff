import Verif.Props.SafeRecover
import Verif.Props.Overwritten
import Verif.Lemmas.Slashed
/-
C32, C83, C86: the export in the common format does not crash on any hive that tells a known file type, opened with or
without recovery and whatever logs were replayed, as long as fewer than 2³² items are listed.
-/
namespace Notatin
open Spec

/-- The header tells that the file is a hive, or a log of either format: the numbers 0, 1 and 6 at byte 28. -/
def Spec.KnownType (f : Bytes) : Prop := u32At f 28 = 0 ∨ u32At f 28 = 1 ∨ u32At f 28 = 6

theorem initRoot_some {env : Env} {st : State} {x : Option Node} {ro : Nat} (hi : initRoot env st = .ok (x, ro)) :
    x ≠ none := by
  rintro rfl
  unfold initRoot at hi
  split at hi
  · cases hi
  · split at hi
    · cases hi
    · unfold readKey at hi
      split at hi
      · cases hi
      · unfold readFromSlice at hi
        split at hi
        · cases hi
        · cases hi
        · simp only [filterStep] at hi
          rw [if_neg (by simp)] at hi
          split at hi
          · cases hi
          · cases hi
          · split at hi <;> cases hi

theorem supported_known {σ : Type} {A : Bytes → Nat → Bytes → σ → σ} {I : Bytes → σ → Res σ}
    {S : Bytes → BaseBlock → σ → Res σ} {buf : Bytes} {s0 : σ} {logs : List TransactionLog} {sup : Bool} {h : Hive σ}
    (hk : KnownType buf) (he : openHive A I S buf s0 logs = .ok (sup, h)) : sup = true := by
  unfold openHive at he
  cases hi : initBaseBlock buf {} with
  | err => rw [hi] at he; cases he
  | panic => rw [hi] at he; cases he
  | ok x =>
    obtain ⟨bb, off, supported, bad, info⟩ := x
    have hsup : supported = true := by
      unfold initBaseBlock at hi
      cases hb : BaseBlock.fromBytes buf with
      | err => rw [hb] at hi; cases hi
      | panic => rw [hb] at hi; cases hi
      | ok y =>
        obtain ⟨bb', rest⟩ := y
        have hft : bb'.base.fileType ≠ .unknown := by
          unfold BaseBlock.fromBytes at hb
          rcases baseBlockBase_cases buf with ⟨_, _, fn, lg, hbb⟩ | ⟨_, hbb⟩
          · rw [hbb] at hb
            simp only [Res.bind_ok] at hb
            cases hext : BaseBlockExtended.fromBytes (buf.drop 512) with
            | none => rw [hext] at hb; cases hb
            | some ext =>
              rw [hext] at hb
              simp only [Res.ofOption_some, Res.bind_ok, Res.ok.injEq, Prod.mk.injEq] at hb
              rw [← hb.1]
              simp only [baseOfSlices]
              rcases hk with h | h | h <;> rw [h] <;> decide
          · rw [hbb] at hb; cases hb
        rw [hb] at hi
        simp only [Res.bind_ok] at hi
        rw [if_pos hft] at hi
        split at hi
        · cases hi
        · rename_i head _
          cases hc : calculateChecksum head with
          | err => rw [hc] at hi; cases hi
          | panic => rw [hc] at hi; cases hi
          | ok c =>
            rw [hc] at hi
            simp only [Res.bind_ok] at hi
            split at hi <;> cases hi <;> rfl
    rw [hi] at he
    simp only [Res.bind_ok, hsup, if_true] at he
    cases hs : S buf bb s0 with
    | err => rw [hs] at he; cases he
    | panic => rw [hs] at he; cases he
    | ok s =>
      rw [hs] at he
      simp only [Res.bind_ok] at he
      generalize applyTransactionLogs A I { buffer := buf, hbinOffset := off, baseBlock := bb, info := info, recovery := s } bad logs = r at he
      cases r with
      | err => cases he
      | panic => cases he
      | ok g => cases he; rfl

/-- A hive of a known type that is opened has a root key. -/
theorem build_root {w : World} {b : Builder} {p : HiveParser} (hk : KnownType b.primary)
    (hb : b.build w = some (.ok p)) : p.root ≠ none := by
  unfold Builder.build at hb
  split at hb
  · cases hb
  · cases hb
  · split at hb
    · cases hb
    · cases hb
    · rename_i sup h ho
      have := supported_known hk ho
      subst this
      split at hb
      · cases hb
      · cases hb
      · cases hb
      · simp only [if_true] at hb
        split at hb
        · cases hb
        · cases hb
        · rename_i root ro hi
          cases hb
          exact initRoot_some hi

/-- C32: whatever the bytes of the hive (of a known type) and of its logs, opened with or without recovery, and
whatever the filter: the export in the common format of what is listed finishes, if these are fewer than 2³² items.

Partial: of a file of an unknown type one key without a path is listed, and the export panics
(`dump_common_violated`). -/
theorem common_hive_partial (w : World) (hord : ∀ m, (w.order m).Perm m) (b : Builder) (p : HiveParser)
    (hk : KnownType b.primary) (hb : b.build w = some (.ok p)) (steps : Nat) (filter : Filter) (gm anc : Bool)
    (ns : List Node) (hns : p.iterate steps filter false gm anc = some (.ok ns))
    (hcount : (keyItems ns).length + (valueItems ns).length < 4294967296) (time : KeyNode → Str) :
    ∃ records, writeCommon time ns = .ok records := by
  have hall := listing_slashy w hord b p hb (build_root hk hb) steps filter gm anc ns hns
  refine common_finishes_partial time ns ?_ hcount
  intro m hm _
  obtain ⟨n, hn, hmn⟩ := List.mem_flatMap.1 hm
  obtain ⟨h1, h2, _⟩ := (slashy_iff n).1 (hall n hn)
  rcases List.mem_cons.1 hmn with rfl | hmn
  · exact h1
  · exact h2 m hmn

/-- The listing can be written in the common format. -/
theorem writeDump_common (w : World) (hord : ∀ m, (w.order m).Perm m) (u : Prints) (disk : Disk) (o : DumpOptions)
    (input : List Str) (logs : List (List Str)) (recover : Bool) (hc : o.type = .Common)
    (hk : ∀ f, disk input = some f → KnownType f) (p : HiveParser)
    (hp : buildFromPath w disk input logs recover o.full = some (.ok p)) (steps : Nat) (filter : Filter) (ns : List Node)
    (hns : p.iterate steps filter = some (.ok ns))
    (hcount : (keyItems ns).length + (valueItems ns).length < 4294967296) :
    writeDump u o (p.parseLogs u) ns ≠ .panic := by
  unfold buildFromPath at hp
  split at hp
  · cases hp
  · split at hp
    · cases hp
    · rename_i f hf
      obtain ⟨rs, hr⟩ := common_hive_partial w hord _ p (hk f hf) hp steps filter true false ns hns hcount keyTime
      unfold writeDump
      rw [hc]
      simp only
      rw [hr]
      simp

/-- C83, `reg_dump` in the common format (partial: `dump_self_list_violated`, `dump_common_violated`).  Whatever the
bytes of the file, of a known type, and the filter, without recovery: the tool ends, and not by a panic.  (As in
`dump_safe_partial`; and fewer than 2³² items are listed.) -/
theorem dump_common_safe_partial (w : World) (hd : 0 < w.depth) (hord : ∀ m, (w.order m).Perm m) (u : Prints) (disk : Disk)
    (o : DumpOptions) (dir : List Str) (name : Str) (hrec : o.recover = false) (hc : o.type = .Common)
    (hk : ∀ f, disk (dir ++ [name]) = some f → KnownType f)
    (hl : ∀ q ∈ (getLogFiles disk.files o.skipLogs name (dir ++ [name])).getD [], ∀ f, disk q = some f → SaneLog f)
    (hs : ∀ p, buildFromPath w disk (dir ++ [name])
        ((getLogFiles disk.files o.skipLogs name (dir ++ [name])).getD []) false o.full = some (.ok p) →
      SaneLists p.env.fi.buffer w.depth)
    (hcount : ∀ p steps filter ns, buildFromPath w disk (dir ++ [name])
        ((getLogFiles disk.files o.skipLogs name (dir ++ [name])).getD []) false o.full = some (.ok p) →
      dumpFilter o.filter = .ok filter → p.iterate steps (filter.getD {}) = some (.ok ns) →
      (keyItems ns).length + (valueItems ns).length < 4294967296) :
    ∃ steps, dumpFile w steps u disk o (dir ++ [name]) = some .err ∨
      ∃ out, dumpFile w steps u disk o (dir ++ [name]) = some (.ok out) :=
  dump_ends w hd u disk o dir name hrec hl hs fun p steps filter ns hp hfl hns =>
    writeDump_common w hord u disk o _ _ false hc hk p hp steps (filter.getD {}) ns hns
      (hcount p steps filter ns hp hfl hns)

/-- C86, `reg_dump` with recovery in the common format.  Whatever the bytes of the file, of a known type, and the
filter, no log entry being applied and fewer than 2³² items listed: the tool ends, and not by a panic. -/
theorem recover_dump_common_partial (w : World) (hord : ∀ m, (w.order m).Perm m) (u : Prints) (disk : Disk)
    (o : DumpOptions) (dir : List Str) (name : Str) (f : Bytes) (hf : disk (dir ++ [name]) = some f)
    (hrec : o.recover = true) (hc : o.type = .Common) (hk : KnownType f)
    (hd : f.length < 24 * w.depth) (hs : f.length < w.steps)
    (hl : ∀ q ∈ (getLogFiles disk.files o.skipLogs name (dir ++ [name])).getD [], ∀ f, disk q = some f → SaneLog f)
    (hn : (getLogFiles disk.files o.skipLogs name (dir ++ [name])).getD [] = [] ∨ CleanHeader f)
    (hls : SaneLists f w.depth)
    (hcount : ∀ p steps filter ns, buildFromPath w disk (dir ++ [name])
        ((getLogFiles disk.files o.skipLogs name (dir ++ [name])).getD []) true o.full = some (.ok p) →
      dumpFilter o.filter = .ok filter → p.iterate steps (filter.getD {}) = some (.ok ns) →
      (keyItems ns).length + (valueItems ns).length < 4294967296) :
    ∃ steps, dumpFile w steps u disk o (dir ++ [name]) = some .err ∨
      ∃ out, dumpFile w steps u disk o (dir ++ [name]) = some (.ok out) :=
  recover_dump_ends w u disk o dir name f hf hrec hd hs hl hn hls fun p steps filter ns hp hfl hns =>
    writeDump_common w hord u disk o _ _ true hc (fun g hg => by rw [hf] at hg; cases hg; exact hk) p hp steps
      (filter.getD {}) ns hns (hcount p steps filter ns hp hfl hns)

/-! ### Examples -/

/-- The hypotheses of `common_hive_partial`: a hive of which a log is replayed that loses the key `b` and changes `a`,
opened with recovery.  The two keys left are listed, the lost one, and an older version of `a`. -/
example : KnownType (histBuf 1 1 1) ∧
    (match ({ primary := histBuf 1 1 1, logs := [histLog [histEntry 4 154 0, histEntry 5 138 2]], recover := true } : Builder).build pastWorld with
    | some (.ok p) =>
      match p.iterate 50 with
      | some (.ok ns) => decide (((keyItems ns).map fun n : Node => flagOf n.key.cellState) = ['A', 'A', 'M', 'D'])
      | _ => false
    | _ => false) = true := by
  unfold KnownType
  constructor <;> decide +kernel

/-- What a listing counts does not depend on the number of rounds it is given. -/
theorem listing_count (w : World) (b : Builder) (c n : Nat) (filter : Filter)
    (h : (match b.build w with
      | some (.ok p) =>
        match p.iterate n filter with
        | some (.ok ns) => decide ((keyItems ns).length + (valueItems ns).length < c)
        | _ => false
      | _ => false) = true) (p : HiveParser) (hp : b.build w = some (.ok p)) (steps : Nat) (ns : List Node)
    (hns : p.iterate steps filter = some (.ok ns)) : (keyItems ns).length + (valueItems ns).length < c := by
  rw [hp] at h
  simp only at h
  split at h
  · rename_i ms hms
    unfold HiveParser.iterate at hns hms
    simp only [Bool.false_eq_true, if_false] at hns hms
    have h1 := collect_mono (fuelMono_pre p.env) _ (steps + n) _ _ hns (by omega)
    have h2 := collect_mono (fuelMono_pre p.env) _ (steps + n) _ _ hms (by omega)
    rw [h1] at h2
    cases h2
    exact of_decide_eq_true h
  · cases h

/-- The hypotheses of `recover_dump_common_partial`: the clean hive of `uncleanDisk`. -/
example (u : Prints) : ∃ steps, dumpFile smallWorld steps u uncleanDisk { type := .Common, recover := true } [['A']] = some .err ∨
    ∃ out, dumpFile smallWorld steps u uncleanDisk { type := .Common, recover := true } [['A']] = some (.ok out) := by
  have hl : (sampleHive 5 5 4477 0x61 []).length = 4477 := by decide +kernel
  have hg : (getLogFiles uncleanDisk.files false ['A'] ([] ++ [['A']])).getD [] = [] := by decide +kernel
  refine recover_dump_common_partial smallWorld (fun _ => .rfl) u uncleanDisk { type := .Common, recover := true } [] ['A']
    (sampleHive 5 5 4477 0x61 []) (if_pos rfl) rfl rfl (.inl (by decide +kernel)) (by rw [hl]; decide) (by rw [hl]; decide) ?_ (.inl hg)
    (sampleHive_sane 199) ?_
  · rw [hg]
    intro q hq
    cases hq
  · rw [hg]
    intro p steps filter ns hp hfl hns
    cases hfl
    exact listing_count smallWorld { primary := sampleHive 5 5 4477 0x61 [], recover := true } _ 50 {} (by decide +kernel) p hp
      steps ns hns

/-- The hypotheses of `dump_common_safe_partial`: the same hive without recovery. -/
example (u : Prints) : ∃ steps, dumpFile sampleWorld steps u uncleanDisk { type := .Common } [['A']] = some .err ∨
    ∃ out, dumpFile sampleWorld steps u uncleanDisk { type := .Common } [['A']] = some (.ok out) := by
  have hg : (getLogFiles uncleanDisk.files false ['A'] ([] ++ [['A']])).getD [] = [] := by decide +kernel
  refine dump_common_safe_partial sampleWorld (by decide) (fun _ => .rfl) u uncleanDisk { type := .Common } [] ['A']
    rfl rfl ?_ ?_ ?_ ?_
  · intro f hf
    cases (if_pos rfl : uncleanDisk [['A']] = some (sampleHive 5 5 4477 0x61 [])).symm.trans hf
    exact .inl (by decide +kernel)
  · rw [hg]
    intro q hq
    cases hq
  · rw [hg]
    intro p hp
    obtain ⟨bb, rest, h1, h2, h3, h4, _, h5⟩ := sampleHive_header 5 5 4477 0x61 [] (by decide +kernel)
    obtain ⟨p', hb, hfi, _⟩ := open_clean_lists sampleWorld { primary := sampleHive 5 5 4477 0x61 [] } bb rest _
      (by decide) rfl ⟨([], none), by decide +kernel⟩ h1 h2 (h3.trans h4.symm) h5 (sampleHive_stored 5 5 4477 0x61 [] (.inl rfl))
    have hd : uncleanDisk ([] ++ [['A']]) = some (sampleHive 5 5 4477 0x61 []) := if_pos rfl
    unfold buildFromPath at hp
    rw [hd] at hp
    simp only [openLogs] at hp
    rw [hb] at hp
    cases hp
    rw [hfi]
    exact sampleHive_sane 7
  · rw [hg]
    intro p steps filter ns hp hfl hns
    cases hfl
    exact listing_count sampleWorld { primary := sampleHive 5 5 4477 0x61 [] } _ 50 {} (by decide +kernel) p hp
      steps ns hns

end Notatin
