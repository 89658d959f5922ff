import Verif.Props.OpenTold
import Verif.Props.SameTables
/-
C82: what opening a hive says is in the tables `reg_dump` writes.
-/
namespace Notatin
open Spec

theorem logPairs_codes (text : Nat → Str) : ∀ (cs : List LogCode) (i : Nat),
    (logPairs text i cs).map (·.1) = cs.map (·.name.toList) := by
  intro cs
  induction cs with
  | nil => intro i; rfl
  | cons c cs ih => intro i; rw [logPairs, List.map_cons, List.map_cons, ih]

theorem parseLogs_codes (u : Prints) (p : HiveParser) :
    (p.parseLogs u).map (·.1) = p.state.info.codes.map (·.name.toList) := by
  unfold HiveParser.parseLogs Logs.codes
  cases p.state.info.logs with
  | none => rfl
  | some cs => exact logPairs_codes _ cs 0

/-- C82, in the tables (TSV and XLSX): the log of the export has an entry for everything said when the file was opened,
in that order; so a hive that is dirty, damaged in its header or of an unknown kind has a warning about its header.

Not so in the other formats (`dump_silent_violated`). -/
theorem dump_log_told (w : World) (u : Prints) (hpr : ∀ c, u.printed c = true → XmlChar c) (disk : Disk)
    (o : DumpOptions) (hty : o.type = .Tsv ∨ o.type = .Xlsx) (input : List Str) (steps : Nat) (d : Dumped)
    (file : Bytes) (hfile : disk input = some file) (bb : BaseBlock) (rest : Bytes)
    (hp : BaseBlock.fromBytes file = .ok (bb, rest))
    (h : dumpFile w steps u disk o input = some (.ok d)) :
    ∃ logFiles p rows logs, buildFromPath w disk input logFiles o.recover o.full = some (.ok p) ∧
      HasRows o.type d rows ∧ HasLogs o.type d rows logs ∧
      logs.map (·.1) = p.state.info.codes.map (·.name.toList) ∧
      (¬ (bb.base.fileType ≠ .unknown ∧ bb.base.primarySeq = bb.base.secondarySeq ∧
          calculateChecksum (file.take 512) = .ok bb.base.checksum) →
        ∃ text, ("WarningBaseBlock".toList, text) ∈ logs) := by
  unfold dumpFile at h
  cases hf : dumpFilter o.filter with
  | err => rw [hf] at h; cases h
  | panic => rw [hf] at h; cases h
  | ok filter =>
    rw [hf] at h
    simp only at h
    unfold processFile at h
    cases hl : input.getLast? with
    | none => rw [hl] at h; cases h
    | some name =>
      rw [hl] at h
      obtain ⟨p, ns, a, _, c⟩ := dump_parts h
      refine ⟨_, p, _, p.parseLogs u, a, table_rows u hpr o hty _ _ _ c, table_logs u hpr o hty _ _ _ c,
        parseLogs_codes u p, fun hn => ?_⟩
      unfold buildFromPath at a
      split at a
      · cases a
      · rename_i bs _
        rw [hfile] at a
        simp only at a
        have hm := unclean_told w _ p bb rest a hp hn
        have : "WarningBaseBlock".toList ∈ (p.parseLogs u).map (·.1) := by
          rw [parseLogs_codes]
          exact List.mem_map.2 ⟨_, hm, rfl⟩
        obtain ⟨⟨c', text⟩, hx, rfl⟩ := List.mem_map.1 this
        exact ⟨text, hx⟩

/-- A clean hive and the same hive, dirty. -/
def uncleanDisk : Disk := fun path =>
  if path = [['A']] then some (sampleHive 5 5 4477 0x61 [])
  else if path = [['B']] then some (sampleHive 6 5 4477 0x61 []) else none

/-- The hypotheses of `dump_log_told`. -/
example : (theText (dumpFile sampleWorld 20 someTexts uncleanDisk { type := .Tsv } [['B']])).isSome = true ∧
    (match BaseBlock.fromBytes (sampleHive 6 5 4477 0x61 []) with
      | .ok (bb, _) => decide (bb.base.primarySeq ≠ bb.base.secondarySeq) | _ => false) = true := by
  decide +kernel

/-- C82, violated in JSONL and in the common format: the export of a dirty hive of which the logs are missing is that of the clean hive. -/
theorem dump_silent_violated :
    (theText (dumpFile sampleWorld 20 someTexts uncleanDisk { type := .Jsonl } [['A']])).isSome = true ∧
    theText (dumpFile sampleWorld 20 someTexts uncleanDisk { type := .Jsonl } [['A']]) =
      theText (dumpFile sampleWorld 20 someTexts uncleanDisk { type := .Jsonl } [['B']]) ∧
    (theText (dumpFile sampleWorld 20 someTexts uncleanDisk { type := .Common } [['A']])).isSome = true ∧
    theText (dumpFile sampleWorld 20 someTexts uncleanDisk { type := .Common } [['A']]) =
      theText (dumpFile sampleWorld 20 someTexts uncleanDisk { type := .Common } [['B']]) ∧
    theText (dumpFile sampleWorld 20 someTexts uncleanDisk { type := .Tsv } [['A']]) ≠
      theText (dumpFile sampleWorld 20 someTexts uncleanDisk { type := .Tsv } [['B']]) := by
  decide +kernel

end Notatin
