import Verif.Props.DumpPast
/-
Property theorems C80: the TSV and the XLSX export of a hive have the same data.
-/
namespace Notatin
open Spec

/-- The log of the run: in the text a line for each entry under a title, on the sheet a row for each. -/
def Spec.HasLogs (type : OutputType) (d : Dumped) (rows : List (List Str)) (logs : List (Str × Str)) : Prop :=
  match type, d with
  | .Tsv, .text s => ∃ cols, readRecords '\t' 12 (rows.length + 1) s = some (cols, fileText
      ("\nLogs\n-----------".toList :: logs.map fun x => x.1 ++ ' ' :: x.2))
  | .Xlsx, .book _ l overflow =>
    ∀ i code text, logs[i]? = some (code, text) → Shows l overflow i 0 code ∧ Shows l overflow i 1 text
  | _, _ => False

/-- What `reg_dump` writes of a hive it has opened. -/
theorem dump_parts {w : World} {steps : Nat} {u : Prints} {disk : Disk} {o : DumpOptions} {filter : Option Filter}
    {input : List Str} {logs : Option (List (List Str))} {d : Dumped}
    (h : regDump w steps u disk o filter input logs = some (.ok d)) :
    ∃ p ns, buildFromPath w disk input (logs.getD []) o.recover o.full = some (.ok p) ∧
      p.iterate steps (filter.getD {}) = some (.ok ns) ∧ writeDump u o (p.parseLogs u) ns = .ok d := by
  unfold regDump at h
  cases hb : buildFromPath w disk input (logs.getD []) o.recover o.full with
  | none => rw [hb] at h; cases h
  | some r =>
    rw [hb] at h
    cases r with
    | err => cases h
    | panic => cases h
    | ok p =>
      simp only at h
      cases hi : p.iterate steps (filter.getD {}) with
      | none => rw [hi] at h; cases h
      | some r =>
        rw [hi] at h
        cases r with
        | err => cases h
        | panic => cases h
        | ok ns => exact ⟨p, ns, rfl, hi, Option.some.inj h⟩

theorem table_logs (u : Prints) (hpr : ∀ c, u.printed c = true → XmlChar c) (o : DumpOptions)
    (hty : o.type = .Tsv ∨ o.type = .Xlsx) (logs : List (Str × Str)) (ns : List Node) (d : Dumped)
    (h : writeDump u o logs ns = .ok d) :
    HasLogs o.type d (itemRecords u.tsv 1 (exported o.recoveredOnly ns)) logs := by
  unfold writeDump at h
  rcases hty with hty | hty
  · rw [hty] at h ⊢
    simp only at h
    cases h
    unfold HasLogs
    rw [itemRecords_length]
    exact ⟨_, tsv_read_back u.tsv (tsv_plain u) o.recoveredOnly (logRecords logs) ns⟩
  · rw [hty] at h ⊢
    simp only at h
    cases hx : writeXlsx u.xlsx o.recoveredOnly logs ns with
    | err => rw [hx] at h; cases h
    | panic => rw [hx] at h; cases h
    | ok s =>
      rw [hx] at h
      simp only at h
      cases h
      exact (xlsx_rows u.xlsx (xlsx_plain u hpr) o.recoveredOnly logs ns
        (items := s.1) (l := s.2.1) (o := s.2.2) hx).2.2.2

/-- C80: whatever file is exported, with or without logs, filter, recovery and the other options: when both the TSV
and the XLSX export are finished, they have the same rows, and the same log.

Partial: in the cells of the sheet every character XML does not allow is a replacement character
(`tables_differ_violated`); an XLSX export need not finish (`xlsx_row_limit_violated`). -/
theorem tables_agree_partial (w : World) (u : Prints) (hpr : ∀ c, u.printed c = true → XmlChar c) (disk : Disk)
    (o : DumpOptions) (input : List Str) (steps1 steps2 : Nat) (d1 d2 : Dumped)
    (h1 : dumpFile w steps1 u disk { o with type := .Tsv } input = some (.ok d1))
    (h2 : dumpFile w steps2 u disk { o with type := .Xlsx } input = some (.ok d2)) :
    ∃ rows logs, HasRows .Tsv d1 rows ∧ HasRows .Xlsx d2 rows ∧
      HasLogs .Tsv d1 rows logs ∧ HasLogs .Xlsx d2 rows logs := by
  unfold dumpFile at h1 h2
  simp only at h1 h2
  cases hf : dumpFilter o.filter with
  | err => rw [hf] at h1; cases h1
  | panic => rw [hf] at h1; cases h1
  | ok filter =>
    rw [hf] at h1 h2
    simp only at h1 h2
    unfold processFile at h1 h2
    cases hl : input.getLast? with
    | none => rw [hl] at h1; cases h1
    | some name =>
      rw [hl] at h1 h2
      obtain ⟨p1, ns1, a1, b1, c1⟩ := dump_parts h1
      obtain ⟨p2, ns2, a2, b2, c2⟩ := dump_parts h2
      have hp : p1 = p2 := by
        have := a1.symm.trans a2
        simp only [Option.some.injEq, Res.ok.injEq] at this
        exact this
      subst hp
      have hns : ns1 = ns2 := by
        have := collect_unique (fuelMono_pre p1.env) _ _ _ _ _ b1 b2
        cases this
        rfl
      subst hns
      exact ⟨_, _, table_rows u hpr { o with type := .Tsv } (.inl rfl) _ _ _ c1,
        table_rows u hpr { o with type := .Xlsx } (.inr rfl) _ _ _ c2,
        table_logs u hpr { o with type := .Tsv } (.inl rfl) _ _ _ c1,
        table_logs u hpr { o with type := .Xlsx } (.inr rfl) _ _ _ c2⟩

/-! ### A case and a violation -/

/-- Two hives: the first key below the root is named by a control character, another one in each. -/
def controlDisk : Disk := fun path =>
  if path = [['A']] then some (sampleHive 5 5 4477 1 [])
  else if path = [['B']] then some (sampleHive 5 5 4477 2 []) else none

def theText : Option (Res Dumped) → Option Str
  | some (.ok (.text s)) => some s
  | _ => none

def theBook : Option (Res Dumped) → Option (Sheet × Sheet × Sheet)
  | some (.ok (.book a b c)) => some (a, b, c)
  | _ => none

/-- C80, violated: two hives whose TSV exports differ and whose XLSX exports are the same. -/
theorem tables_differ_violated :
    (theText (dumpFile sampleWorld 20 someTexts controlDisk { type := .Tsv } [['A']])).isSome = true ∧
    (theText (dumpFile sampleWorld 20 someTexts controlDisk { type := .Tsv } [['B']])).isSome = true ∧
    theText (dumpFile sampleWorld 20 someTexts controlDisk { type := .Tsv } [['A']]) ≠
      theText (dumpFile sampleWorld 20 someTexts controlDisk { type := .Tsv } [['B']]) ∧
    (theBook (dumpFile sampleWorld 20 someTexts controlDisk { type := .Xlsx } [['A']])).isSome = true ∧
    theBook (dumpFile sampleWorld 20 someTexts controlDisk { type := .Xlsx } [['A']]) =
      theBook (dumpFile sampleWorld 20 someTexts controlDisk { type := .Xlsx } [['B']]) := by
  decide +kernel

/-- The hypotheses of `tables_agree_partial`: both exports of the file `A` are finished. -/
example : ∃ d1 d2 rows logs, dumpFile sampleWorld 20 someTexts controlDisk { type := .Tsv } [['A']] = some (.ok d1) ∧
    dumpFile sampleWorld 20 someTexts controlDisk { type := .Xlsx } [['A']] = some (.ok d2) ∧
    HasRows .Tsv d1 rows ∧ HasRows .Xlsx d2 rows ∧ HasLogs .Tsv d1 rows logs ∧ HasLogs .Xlsx d2 rows logs := by
  obtain ⟨h1, _, _, h2, _⟩ := tables_differ_violated
  have e1 : ∃ d, dumpFile sampleWorld 20 someTexts controlDisk { type := .Tsv } [['A']] = some (.ok d) := by
    revert h1
    generalize dumpFile sampleWorld 20 someTexts controlDisk { type := .Tsv } [['A']] = r
    intro h
    rcases r with _ | d | _ | _
    · cases h
    · exact ⟨d, rfl⟩
    · cases h
    · cases h
  have e2 : ∃ d, dumpFile sampleWorld 20 someTexts controlDisk { type := .Xlsx } [['A']] = some (.ok d) := by
    revert h2
    generalize dumpFile sampleWorld 20 someTexts controlDisk { type := .Xlsx } [['A']] = r
    intro h
    rcases r with _ | d | _ | _
    · cases h
    · exact ⟨d, rfl⟩
    · cases h
    · cases h
  obtain ⟨d1, e1⟩ := e1
  obtain ⟨d2, e2⟩ := e2
  obtain ⟨rows, logs, h⟩ := tables_agree_partial sampleWorld someTexts someTexts_legal controlDisk {} [['A']] 20 20 d1 d2 e1 e2
  exact ⟨d1, d2, rows, logs, e1, e2, h⟩

end Notatin
