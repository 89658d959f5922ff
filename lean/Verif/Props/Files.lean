import Verif.Props.Dump
import Verif.Model.CompareRun
import Verif.Props.Cli
/-
C72: when success means that the output is complete.  C73: which files the programs leave as they are.
-/
namespace Notatin
open Spec

/-! ### C72: one file -/

theorem putFile_take (limit : Nat) (file b : Bytes) (h : file.length ≤ limit) :
    (putFile limit file b).1 = (file ++ b).take limit ∧
      ((putFile limit file b).2 = true ↔ (file ++ b).length ≤ limit) := by
  unfold putFile
  refine ⟨?_, ?_⟩
  · simp only
    rw [List.take_append, List.take_of_length_le h]
  · simp only [decide_eq_true_eq, List.length_append]
    omega

/-- What holds between the writes: the file and the buffer together are what was written, and fit. -/
structure BufInv (limit cap : Nat) (w : Buffered) (total : Bytes) : Prop where
  eq : w.file ++ w.buf = total
  fits : w.file.length ≤ limit
  room : w.buf.length ≤ cap

/-- What holds after a failed write: the file is full, and there was more to write. -/
def BufFull (limit : Nat) (w : Buffered) (total : Bytes) : Prop :=
  limit < total.length ∧ w.file = total.take limit

theorem writeAll_inv (limit cap : Nat) (w : Buffered) (total b : Bytes) (h : BufInv limit cap w total) :
    ((w.writeAll limit cap b).2 = true → BufInv limit cap (w.writeAll limit cap b).1 (total ++ b)) ∧
      ((w.writeAll limit cap b).2 = false → BufFull limit (w.writeAll limit cap b).1 (total ++ b)) := by
  obtain ⟨heq, hfit, hroom⟩ := h
  have happend : b.length ≤ cap - w.buf.length → BufInv limit cap ⟨w.file, w.buf ++ b⟩ (total ++ b) := by
    intro hb
    exact ⟨by rw [← heq, List.append_assoc], hfit, by simp only [List.length_append]; omega⟩
  unfold Buffered.writeAll
  by_cases h1 : b.length < cap - w.buf.length
  · rw [if_pos h1]
    exact ⟨fun _ => happend (by omega), nofun⟩
  rw [if_neg h1]
  by_cases h2 : cap - w.buf.length < b.length
  · rw [if_pos h2]
    have hp := putFile_take limit w.file w.buf hfit
    unfold Buffered.flushBuf
    simp only
    by_cases h3 : (putFile limit w.file w.buf).2 = false
    · rw [if_pos h3]
      refine ⟨nofun, fun _ => ?_⟩
      have : ¬ (w.file ++ w.buf).length ≤ limit := by rw [← hp.2, h3]; nofun
      refine ⟨?_, ?_⟩
      · rw [← heq]; simp only [List.length_append] at *; omega
      · simp only
        rw [hp.1, heq, List.take_append_of_le_length (by rw [← heq]; simp only [List.length_append] at *; omega)]
    · rw [if_neg h3]
      have h3' : (w.file ++ w.buf).length ≤ limit := hp.2.1 (by simpa using h3)
      have hd : w.buf.drop (limit - w.file.length) = [] := by
        rw [List.drop_eq_nil_iff]
        simp only [List.length_append] at h3'
        omega
      have hf : (putFile limit w.file w.buf).1 = total := by
        rw [hp.1, heq, List.take_of_length_le (by rw [← heq]; exact h3')]
      rw [hd, hf]
      have ht : total.length ≤ limit := by rw [← heq]; exact h3'
      by_cases h4 : cap ≤ b.length
      · rw [if_pos h4]
        have hq := putFile_take limit total b ht
        refine ⟨fun hk => ?_, fun hk => ?_⟩
        · have := hq.2.1 hk
          refine ⟨?_, ?_, Nat.zero_le _⟩
          · simp only
            rw [hq.1, List.append_nil, List.take_of_length_le this]
          · simp only
            rw [hq.1, List.length_take]
            omega
        · have : ¬ (total ++ b).length ≤ limit := by rw [← hq.2]; simp only at hk; rw [hk]; nofun
          exact ⟨by omega, hq.1⟩
      · rw [if_neg h4]
        refine ⟨fun _ => ⟨by rw [List.nil_append], ht, ?_⟩, nofun⟩
        simp only [List.nil_append]
        omega
  · rw [if_neg h2]
    simp only
    rw [if_neg (by decide)]
    by_cases h4 : cap ≤ b.length
    · rw [if_pos h4]
      have hb0 : w.buf = [] := by
        apply List.eq_nil_of_length_eq_zero
        omega
      have hw : w.file = total := by rw [← heq, hb0, List.append_nil]
      rw [hb0, hw]
      have ht : total.length ≤ limit := by rw [← hw]; exact hfit
      have hq := putFile_take limit total b ht
      refine ⟨fun hk => ?_, fun hk => ?_⟩
      · have := hq.2.1 hk
        refine ⟨?_, ?_, Nat.zero_le _⟩
        · simp only
          rw [hq.1, List.append_nil, List.take_of_length_le this]
        · simp only
          rw [hq.1, List.length_take]
          omega
      · have : ¬ (total ++ b).length ≤ limit := by rw [← hq.2]; simp only at hk; rw [hk]; nofun
        exact ⟨by omega, hq.1⟩
    · rw [if_neg h4]
      exact ⟨fun _ => happend (by omega), nofun⟩

theorem run_inv (limit cap : Nat) (bs : List Bytes) (w : Buffered) (total : Bytes) (h : BufInv limit cap w total) :
    ((Buffered.run limit cap bs w).2 = true →
        BufInv limit cap (Buffered.run limit cap bs w).1 (total ++ bs.flatten)) ∧
      ((Buffered.run limit cap bs w).2 = false → BufFull limit (Buffered.run limit cap bs w).1 (total ++ bs.flatten)) := by
  induction bs generalizing w total with
  | nil =>
    rw [Buffered.run, List.flatten_nil, List.append_nil]
    exact ⟨fun _ => h, nofun⟩
  | cons b bs ih =>
    rw [Buffered.run, List.flatten_cons, ← List.append_assoc]
    have hw := writeAll_inv limit cap w total b h
    cases hx : w.writeAll limit cap b with
    | mk w' ok =>
      rw [hx] at hw
      cases ok with
      | true => exact ih w' (total ++ b) (hw.1 rfl)
      | false =>
        refine ⟨nofun, fun _ => ?_⟩
        obtain ⟨h1, h2⟩ := hw.2 rfl
        refine ⟨by rw [List.length_append]; omega, ?_⟩
        rw [List.take_append_of_le_length (by omega)]
        exact h2

/-- C72, one file: whatever the writes are, the file holds the beginning of what was to be written, as far as
it fits.  A failure is reported only if it does not all fit.  If success is reported at most one buffer is
missing at the end. -/
theorem buffered_file (limit cap : Nat) (pieces : List Bytes) :
    (bufferedFile limit cap pieces).1 = pieces.flatten.take limit ∧
      ((bufferedFile limit cap pieces).2 = false → limit < pieces.flatten.length) ∧
      ((bufferedFile limit cap pieces).2 = true → pieces.flatten.length ≤ limit + cap) := by
  have h := run_inv limit cap pieces ⟨[], []⟩ [] ⟨rfl, Nat.zero_le _, Nat.zero_le _⟩
  rw [List.nil_append] at h
  unfold bufferedFile
  simp only
  cases hok : (Buffered.run limit cap pieces ⟨[], []⟩).2 with
  | true =>
    obtain ⟨h1, h2, h3⟩ := h.1 hok
    unfold Buffered.flushBuf
    simp only
    refine ⟨?_, nofun, fun _ => ?_⟩
    · rw [(putFile_take limit _ _ h2).1, h1]
    · rw [← h1, List.length_append]; omega
  | false =>
    obtain ⟨h1, h2⟩ := h.2 hok
    unfold Buffered.flushBuf
    simp only
    refine ⟨?_, fun _ => h1, nofun⟩
    rw [(putFile_take limit _ _ (by rw [h2, List.length_take]; omega)).1, h2]
    rw [List.take_append_of_le_length (by rw [List.length_take]; omega), List.take_take, Nat.min_self]

/-- C72, one file, as promised: if there is room, the file is complete and success is reported. -/
theorem buffered_complete (limit cap : Nat) (pieces : List Bytes) (h : pieces.flatten.length ≤ limit) :
    bufferedFile limit cap pieces = (pieces.flatten, true) := by
  obtain ⟨h1, h2, _⟩ := buffered_file limit cap pieces
  rw [List.take_of_length_le h] at h1
  cases hx : (bufferedFile limit cap pieces).2 with
  | true => exact Prod.ext h1 hx
  | false => have := h2 hx; omega

/-- C72 violated: on a full volume every text shorter than the buffer is reported as written, and the file is
empty. -/
theorem buffered_violated (pieces : List Bytes) (h : pieces.flatten.length < bufCapacity) :
    bufferedFile 0 bufCapacity pieces = ([], true) := by
  have go : ∀ (bs : List Bytes) (w : Buffered), w.file = [] → w.buf.length + bs.flatten.length < bufCapacity →
      (Buffered.run 0 bufCapacity bs w).2 = true := by
    intro bs
    induction bs with
    | nil => intro w _ _; rfl
    | cons b bs ih =>
      intro w hw hl
      rw [List.flatten_cons, List.length_append] at hl
      have e : w.writeAll 0 bufCapacity b = (⟨w.file, w.buf ++ b⟩, true) := by
        unfold Buffered.writeAll
        rw [if_pos (by omega)]
      rw [Buffered.run, e]
      exact ih ⟨w.file, w.buf ++ b⟩ hw (by simp only [List.length_append]; omega)
  obtain ⟨h1, _⟩ := buffered_file 0 bufCapacity pieces
  refine Prod.ext (by rw [h1]; rfl) ?_
  exact go pieces ⟨[], []⟩ rfl (by simpa using h)

example : bufferedFile 0 bufCapacity [[1, 2], [3]] = ([], true) :=
  buffered_violated _ (by decide)

example : bufferedFile 3 2 [[1], [2, 3, 4], [5]] = ([1, 2, 3], false) := by decide +kernel

example : bufferedFile 3 4 [[1], [2], [3, 4]] = ([1, 2, 3], true) := by decide +kernel

/-! ### C72: an export on the disk -/

/-- What a reader of UTF-8 finds in the bytes. -/
def Spec.readUtf8 (b : Bytes) : Option Str := b.toByteArray.utf8Decode?.map Array.toList

theorem readUtf8_bytes (s : Str) : readUtf8 (utf8Bytes s) = some s := by
  unfold readUtf8
  have : (utf8Bytes s).toByteArray = s.utf8Encode := by
    unfold utf8Bytes List.utf8Encode
    rfl
  rw [this, List.utf8Decode?_utf8Encode, Option.map_some]

/-- The cutting into writes loses nothing. -/
def Volume.Sound (v : Volume) : Prop := ∀ b, (v.pieces b).flatten = b

theorem dumpEffect_of (v : Volume) (junk : Bytes) (w : World) (steps : Nat) (u : Prints) (o : DumpOptions)
    (filter : Option Filter) (input : List Str) (logs : Option (List (List Str))) (disk : Disk) (s : Str)
    (h : regDump w steps u disk o filter input logs = some (.ok (.text s))) :
    dumpEffect v junk w steps u o filter input logs disk =
      some (if (v.save (.text s)).2 then .ok () else .err, some (v.save (.text s)).1) := by
  unfold regDump at h
  unfold dumpEffect
  cases h1 : buildFromPath w disk input (logs.getD []) o.recover o.full with
  | none => rw [h1] at h; cases h
  | some r =>
    cases r with
    | err => rw [h1] at h; cases h
    | panic => rw [h1] at h; cases h
    | ok p =>
      rw [h1] at h
      simp only at h ⊢
      cases h2 : p.iterate steps (filter.getD {}) with
      | none => rw [h2] at h; cases h
      | some r =>
        cases r with
        | err => rw [h2] at h; cases h
        | panic => rw [h2] at h; cases h
        | ok ns =>
          rw [h2] at h
          simp only at h ⊢
          rw [Option.some.inj h]

/-- C72, an export in one of the text formats: with room for it, the program succeeds and a reader of UTF-8 finds
the whole text in the output file; without, the file holds the beginning of the text, as far as there is room.

Partial: without room success may be reported all the same, see `dump_success_violated`. -/
theorem dump_complete_partial (v : Volume) (hv : v.Sound) (junk : Bytes) (w : World) (steps : Nat) (u : Prints)
    (o : DumpOptions) (filter : Option Filter) (input : List Str) (logs : Option (List (List Str))) (output : List Str)
    (disk : Disk) (s : Str) (h : regDump w steps u disk o filter input logs = some (.ok (.text s))) :
    ∃ r disk', dumpTo v junk w steps u o filter input logs output disk = some (r, disk') ∧
      (∃ b, disk' output = some b ∧ b <+: utf8Bytes s ∧ (b.length = v.limit ∨ readUtf8 b = some s)) ∧
      ((utf8Bytes s).length ≤ v.limit → r = .ok ()) ∧
      (r = .ok () → (utf8Bytes s).length ≤ v.limit + bufCapacity) := by
  have e := dumpEffect_of v junk w steps u o filter input logs disk s h
  unfold dumpTo
  rw [e]
  have hs : v.save (.text s) = bufferedFile v.limit bufCapacity (v.pieces (utf8Bytes s)) := rfl
  obtain ⟨h1, h2, h3⟩ := buffered_file v.limit bufCapacity (v.pieces (utf8Bytes s))
  rw [hv] at h1 h2 h3
  refine ⟨_, _, rfl, ⟨(v.save (.text s)).1, ?_, ?_, ?_⟩, ?_, ?_⟩
  · simp only [Disk.apply, Disk.write]
    rw [if_pos trivial]
  · rw [hs, h1]
    exact List.take_prefix _ _
  · rw [hs, h1]
    by_cases hl : (utf8Bytes s).length ≤ v.limit
    · right
      rw [List.take_of_length_le hl]
      exact readUtf8_bytes s
    · left
      rw [List.length_take]
      omega
  · intro hl
    rw [hs]
    cases hx : (bufferedFile v.limit bufCapacity (v.pieces (utf8Bytes s))).2 with
    | true => rfl
    | false => have := h2 hx; omega
  · intro hr
    apply h3
    rw [hs] at hr
    cases hx : (bufferedFile v.limit bufCapacity (v.pieces (utf8Bytes s))).2 with
    | true => rfl
    | false => rw [hx] at hr; cases hr

/-- C72 violated: on a full volume every export shorter than the buffer succeeds, and the output file is empty. -/
theorem dump_success_violated (v : Volume) (hv : v.Sound) (hfull : v.limit = 0) (junk : Bytes) (w : World) (steps : Nat)
    (u : Prints) (o : DumpOptions) (filter : Option Filter) (input : List Str) (logs : Option (List (List Str)))
    (output : List Str) (disk : Disk) (s : Str)
    (h : regDump w steps u disk o filter input logs = some (.ok (.text s)))
    (hs : (utf8Bytes s).length < bufCapacity) :
    ∃ disk', dumpTo v junk w steps u o filter input logs output disk = some (.ok (), disk') ∧
      disk' output = some [] := by
  have e := dumpEffect_of v junk w steps u o filter input logs disk s h
  have hw : v.save (.text s) = ([], true) := by
    show bufferedFile v.limit bufCapacity (v.pieces (utf8Bytes s)) = _
    rw [hfull]
    exact buffered_violated _ (by rw [hv]; exact hs)
  unfold dumpTo
  rw [e, hw]
  refine ⟨_, rfl, ?_⟩
  simp only [Disk.apply, Disk.write]
  rw [if_pos trivial]

/-! ### C73: the other files -/

/-- C73, one hive: no file but the output changes. -/
theorem dump_only_output (v : Volume) (junk : Bytes) (w : World) (steps : Nat) (u : Prints) (o : DumpOptions)
    (filter : Option Filter) (input : List Str) (logs : Option (List (List Str))) (output : List Str)
    (disk disk' : Disk) (r : Res Unit)
    (h : dumpTo v junk w steps u o filter input logs output disk = some (r, disk')) (q : List Str) (hq : q ≠ output) :
    disk' q = disk q := by
  unfold dumpTo at h
  split at h
  · cases h
  · rename_i r' b _
    simp only [Option.some.injEq, Prod.mk.injEq] at h
    rw [← h.2]
    cases b with
    | none => rfl
    | some b =>
      simp only [Disk.apply, Disk.write]
      rw [if_neg hq]

/-- The last two characters of a name. -/
def lastTwo (s : Str) : Str := s.reverse.take 2

theorem lastTwo_append (a b : Str) (h : 2 ≤ b.length) : lastTwo (a ++ b) = lastTwo b := by
  unfold lastTwo
  rw [List.reverse_append, List.take_append_of_le_length (by simpa using h)]

theorem lastTwo_outName (rel : List Str) (t : OutputType) :
    lastTwo (outName rel t) ∈ ["xs".toList, "vs".toList, "tx".toList, "ln".toList, "ff".toList] := by
  unfold outName setExtension
  rw [lastTwo_append _ _ (by cases t <;> decide)]
  cases t <;> decide

/-- The name of a hive the recursion takes, or of a log. -/
def Spec.InputName (n : Str) : Prop :=
  (∃ h ∈ regFiles, SameIgnoringCase n h) ∨ ∃ stem, n = stem ++ ".LOG1".toList ∨ n = stem ++ ".LOG2".toList

theorem lastTwo_lower (s : Str) : lastTwo (asciiLower s) = asciiLower (lastTwo s) := by
  unfold lastTwo
  rw [asciiLower_eq_map, asciiLower_eq_map, List.map_take, List.map_reverse]

theorem outName_not_input (rel : List Str) (t : OutputType) : ¬ InputName (outName rel t) := by
  have h := lastTwo_outName rel t
  rintro (⟨n, hn, hs⟩ | ⟨stem, hs | hs⟩)
  · rw [← asciiLower_eq_iff] at hs
    have e := congrArg lastTwo hs
    rw [lastTwo_lower, lastTwo_lower] at e
    have : ∀ x ∈ (["xs".toList, "vs".toList, "tx".toList, "ln".toList, "ff".toList] : List Str), ∀ n ∈ regFiles,
        asciiLower x ≠ asciiLower (lastTwo n) := by decide +kernel
    exact this _ h n hn e
  · rw [hs, lastTwo_append _ _ (by decide)] at h
    exact absurd h (by decide)
  · rw [hs, lastTwo_append _ _ (by decide)] at h
    exact absurd h (by decide)

/-- C73, a folder: whatever the folders are, every hive and every log is as it was when the program ends (and
the program never reports an error). -/
theorem folder_inputs_unchanged (v : Volume) (junk : Bytes) (w : World) (steps : Nat) (u : Prints) (o : DumpOptions)
    (filter : Option Filter) (outfolder base : List Str) (rels : List (List Str)) (disk disk' : Disk) (r : Res Unit)
    (h : dumpFolderTo v junk w steps u o filter outfolder base rels disk = some (r, disk')) :
    (∀ folder n, InputName n → disk' (folder ++ [n]) = disk (folder ++ [n])) ∧ r ≠ .err := by
  induction rels generalizing disk with
  | nil =>
    rw [dumpFolderTo] at h
    cases h
    exact ⟨fun _ _ _ => rfl, nofun⟩
  | cons rel rels ih =>
    rw [dumpFolderTo] at h
    split at h
    · split at h
      · cases h
      · rename_i d1 hd
        cases h
        refine ⟨fun folder n hn => dump_only_output _ _ _ _ _ _ _ _ _ _ _ _ _ hd _ fun e => ?_, nofun⟩
        have : n = outName rel o.type := List.singleton_inj.1 (List.append_inj' e rfl).2
        rw [this] at hn
        exact outName_not_input rel o.type hn
      · rename_i r1 d1 _ hd
        obtain ⟨h1, h2⟩ := ih d1 h
        refine ⟨fun folder n hn => ?_, h2⟩
        rw [h1 folder n hn]
        refine dump_only_output _ _ _ _ _ _ _ _ _ _ _ _ _ hd _ fun e => ?_
        have : n = outName rel o.type := List.singleton_inj.1 (List.append_inj' e rfl).2
        rw [this] at hn
        exact outName_not_input rel o.type hn
    · exact ih disk h

/-- Two disks with the same hives and logs. -/
def SameInputs (a b : Disk) : Prop := ∀ folder n, InputName n → a (folder ++ [n]) = b (folder ++ [n])

theorem logName_input (folder : List Str) (name ext : Str) (hext : ext = "LOG1".toList ∨ ext = "LOG2".toList) :
    ∃ n, getLogName folder name ext = folder ++ [n] ∧ InputName n := by
  obtain ⟨n, h, _⟩ := getLogName_spelling folder name ext
  refine ⟨_, h, .inr ⟨n, ?_⟩⟩
  rcases hext with rfl | rfl
  · exact .inl rfl
  · exact .inr rfl

theorem getLogFiles_same {a b : Disk} (h : SameInputs a b) (skip : Bool) (name : Str) (path : List Str) :
    getLogFiles a.files skip name path = getLogFiles b.files skip name path ∧
      ∀ l ∈ (getLogFiles a.files skip name path).getD [], a l = b l := by
  have hf : ∀ folder ext, ext = "LOG1".toList ∨ ext = "LOG2".toList →
      a (getLogName folder name ext) = b (getLogName folder name ext) := by
    intro folder ext hext
    obtain ⟨n, h1, h2⟩ := logName_input folder name ext hext
    rw [h1]
    exact h folder n h2
  have hadd : ∀ folder ext logs, ext = "LOG1".toList ∨ ext = "LOG2".toList →
      checkAddLog a.files folder name ext logs = checkAddLog b.files folder name ext logs ∧
        ((∀ l ∈ logs, a l = b l) → ∀ l ∈ checkAddLog a.files folder name ext logs, a l = b l) := by
    intro folder ext logs hext
    unfold checkAddLog Disk.files
    simp only
    rw [hf folder ext hext]
    refine ⟨rfl, fun hl l hm => ?_⟩
    split at hm
    · rcases List.mem_append.1 hm with hm | hm
      · exact hl l hm
      · rw [List.mem_singleton.1 hm]
        exact hf folder ext hext
    · exact hl l hm
  unfold getLogFiles
  split
  · exact ⟨rfl, fun l hl => absurd hl List.not_mem_nil⟩
  · split
    · exact ⟨rfl, fun l hl => absurd hl List.not_mem_nil⟩
    · rename_i folder _
      obtain ⟨h1, h2⟩ := hadd folder "LOG1".toList [] (.inl rfl)
      obtain ⟨h3, h4⟩ := hadd folder "LOG2".toList (checkAddLog a.files folder name "LOG1".toList []) (.inr rfl)
      refine ⟨by rw [h3, h1], ?_⟩
      exact h4 (h2 fun l hl => absurd hl List.not_mem_nil)

theorem openLogs_same {a b : Disk} (ps : List (List Str)) (h : ∀ p ∈ ps, a p = b p) : openLogs a ps = openLogs b ps := by
  induction ps with
  | nil => rfl
  | cons p ps ih =>
    rw [openLogs, openLogs, h p List.mem_cons_self, ih fun q hq => h q (List.mem_cons_of_mem _ hq)]

theorem dumpEffect_same {a b : Disk} (v : Volume) (junk : Bytes) (w : World) (steps : Nat) (u : Prints) (o : DumpOptions)
    (filter : Option Filter) (input : List Str) (logs : Option (List (List Str))) (hi : a input = b input)
    (hl : ∀ l ∈ logs.getD [], a l = b l) :
    dumpEffect v junk w steps u o filter input logs a = dumpEffect v junk w steps u o filter input logs b := by
  have e : buildFromPath w a input (logs.getD []) o.recover o.full = buildFromPath w b input (logs.getD []) o.recover o.full := by
    unfold buildFromPath
    rw [openLogs_same _ hl, hi]
  unfold dumpEffect
  rw [e]

theorem takesFile_name {fs : Files} {path : List Str} (h : takesFile fs path = true) :
    ∃ folder n, path = folder ++ [n] ∧ InputName n := by
  unfold takesFile at h
  cases hl : path.getLast? with
  | none => rw [hl] at h; cases h
  | some f =>
    rw [hl] at h
    simp only [Bool.and_eq_true, List.contains_iff_mem] at h
    obtain ⟨folder, rfl⟩ := List.getLast?_eq_some_iff.1 hl
    refine ⟨folder, f, rfl, .inl ⟨asciiLower f, h.1, ?_⟩⟩
    rw [← asciiLower_eq_iff, asciiLower_idem]

theorem takesFile_same {a b : Disk} (h : SameInputs a b) (path : List Str) :
    takesFile a.files path = takesFile b.files path := by
  have go : ∀ x y : Disk, SameInputs x y → takesFile x.files path = true → takesFile y.files path = true := by
    intro x y hxy ht
    obtain ⟨folder, n, hp, hn⟩ := takesFile_name ht
    have := hxy folder n hn
    rw [← hp] at this
    unfold takesFile at ht ⊢
    split at ht
    · cases ht
    · simp only [Bool.and_eq_true] at ht ⊢
      refine ⟨ht.1, ?_⟩
      have h2 := ht.2
      unfold fileHasSize Disk.files at h2 ⊢
      rw [← this]
      exact h2
  rw [Bool.eq_iff_iff]
  exact ⟨go a b h, go b a fun f n hn => (h f n hn).symm⟩

/-- The files a run over a folder exports, of those that are found. -/
def takenFiles (disk : Disk) (base : List Str) (rels : List (List Str)) : List (List Str) :=
  rels.filter fun rel => takesFile disk.files (base ++ rel)

/-- What exporting a file alone does, on the disk as it is. -/
def exportAlone (v : Volume) (junk : Bytes) (w : World) (steps : Nat) (u : Prints) (o : DumpOptions)
    (filter : Option Filter) (base : List Str) (disk : Disk) (rel : List Str) : Option (Res Unit × Option Bytes) :=
  dumpEffect v junk w steps u o filter (base ++ rel)
    (getLogFiles disk.files o.skipLogs (rel.getLast?.getD []) (base ++ rel)) disk

theorem exportAlone_same {cur disk : Disk} (hs : SameInputs cur disk) (v : Volume) (junk : Bytes) (w : World) (steps : Nat)
    (u : Prints) (o : DumpOptions) (filter : Option Filter) (base rel : List Str)
    (ht : takesFile disk.files (base ++ rel) = true) :
    dumpEffect v junk w steps u o filter (base ++ rel)
      (getLogFiles cur.files o.skipLogs (rel.getLast?.getD []) (base ++ rel)) cur =
      exportAlone v junk w steps u o filter base disk rel := by
  obtain ⟨folder, n, hp, hn⟩ := takesFile_name ht
  obtain ⟨hl1, hl2⟩ := getLogFiles_same hs o.skipLogs (rel.getLast?.getD []) (base ++ rel)
  unfold exportAlone
  rw [← hl1]
  exact dumpEffect_same _ _ _ _ _ _ _ _ _ (by rw [hp]; exact hs folder n hn) hl2

theorem apply_sameInputs {cur disk : Disk} (hs : SameInputs cur disk) (outfolder rel : List Str) (t : OutputType)
    (b : Option Bytes) : SameInputs (cur.apply (outfolder ++ [outName rel t]) b) disk := by
  intro f m hm
  rw [← hs f m hm]
  cases b with
  | none => rfl
  | some b =>
    simp only [Disk.apply, Disk.write]
    rw [if_neg fun e => ?_]
    have : m = outName rel t := List.singleton_inj.1 (List.append_inj' e rfl).2
    rw [this] at hm
    exact outName_not_input rel t hm

/-- The run over a folder ends if each export alone does. -/
theorem folder_ends (v : Volume) (junk : Bytes) (w : World) (steps : Nat) (u : Prints) (o : DumpOptions)
    (filter : Option Filter) (outfolder base : List Str) (disk : Disk) (rels : List (List Str)) (cur : Disk)
    (hs : SameInputs cur disk)
    (h : ∀ rel ∈ takenFiles disk base rels, ∃ r b, exportAlone v junk w steps u o filter base disk rel = some (r, b) ∧
      r ≠ .panic) :
    ∃ disk', dumpFolderTo v junk w steps u o filter outfolder base rels cur = some (.ok (), disk') := by
  induction rels generalizing cur with
  | nil => exact ⟨cur, rfl⟩
  | cons rel rels ih =>
    unfold takenFiles at h ih
    rw [List.filter_cons] at h
    rw [dumpFolderTo, takesFile_same hs]
    by_cases ht : takesFile disk.files (base ++ rel) = true
    · rw [if_pos ht] at h ⊢
      obtain ⟨r, b, h1, h2⟩ := h rel List.mem_cons_self
      obtain ⟨disk', h3⟩ := ih _ (apply_sameInputs hs outfolder rel o.type b)
        fun rel' hrel' => h rel' (List.mem_cons_of_mem _ hrel')
      refine ⟨disk', ?_⟩
      unfold dumpTo
      rw [exportAlone_same hs _ _ _ _ _ _ _ _ _ ht, h1]
      cases r with
      | panic => exact absurd rfl h2
      | err => exact h3
      | ok => exact h3
    · rw [if_neg ht] at h ⊢
      exact ih cur hs h

/-- C73, a folder: no export disturbs another.  If each export alone ends, so does the program, and every hive is
exported just as it would be alone, from the disk as it was at the beginning (if no two outputs have the same name,
see C50). -/
theorem folder_exports_partial (v : Volume) (junk : Bytes) (w : World) (steps : Nat) (u : Prints) (o : DumpOptions)
    (filter : Option Filter) (outfolder base : List Str) (rels : List (List Str)) (disk : Disk)
    (hends : ∀ rel ∈ takenFiles disk base rels,
      ∃ r b, exportAlone v junk w steps u o filter base disk rel = some (r, b) ∧ r ≠ .panic)
    (hnd : ((takenFiles disk base rels).map fun rel => outName rel o.type).Nodup) :
    ∃ disk', dumpFolderTo v junk w steps u o filter outfolder base rels disk = some (.ok (), disk') ∧
      ∀ rel ∈ takenFiles disk base rels, ∃ r b, exportAlone v junk w steps u o filter base disk rel = some (r, b) ∧
        disk' (outfolder ++ [outName rel o.type]) = disk.apply (outfolder ++ [outName rel o.type]) b
          (outfolder ++ [outName rel o.type]) := by
  obtain ⟨disk', h⟩ := folder_ends v junk w steps u o filter outfolder base disk rels disk (fun _ _ _ => rfl) hends
  refine ⟨disk', h, fun rel hrel => ?_⟩
  revert hrel rel
  have go : ∀ (rels : List (List Str)) (cur : Disk), SameInputs cur disk →
      dumpFolderTo v junk w steps u o filter outfolder base rels cur = some (.ok (), disk') →
      ((takenFiles disk base rels).map fun rel => outName rel o.type).Nodup →
      (∀ rel ∈ takenFiles disk base rels, ∃ r b, exportAlone v junk w steps u o filter base disk rel = some (r, b) ∧
        r ≠ .panic ∧ disk' (outfolder ++ [outName rel o.type]) = cur.apply (outfolder ++ [outName rel o.type]) b
          (outfolder ++ [outName rel o.type])) ∧
      ∀ q, (∀ rel ∈ takenFiles disk base rels, q ≠ outfolder ++ [outName rel o.type]) → disk' q = cur q := by
    intro rels
    induction rels with
    | nil =>
      intro cur _ h _
      rw [dumpFolderTo] at h
      cases h
      exact ⟨fun rel hrel => absurd hrel List.not_mem_nil, fun _ _ => rfl⟩
    | cons rel rels ih =>
      intro cur hs h hnd
      rw [dumpFolderTo, takesFile_same hs] at h
      by_cases ht : takesFile disk.files (base ++ rel) = true
      · have htk : takenFiles disk base (rel :: rels) = rel :: takenFiles disk base rels := by
          unfold takenFiles; rw [List.filter_cons, if_pos ht]
        rw [htk] at hnd ⊢
        rw [List.map_cons, List.nodup_cons] at hnd
        rw [if_pos ht] at h
        have heff := exportAlone_same hs v junk w steps u o filter base rel ht
        unfold dumpTo at h
        rw [heff] at h
        cases hx : exportAlone v junk w steps u o filter base disk rel with
        | none => rw [hx] at h; cases h
        | some rb =>
          obtain ⟨r, b⟩ := rb
          rw [hx] at h
          have hr : r ≠ .panic := by rintro rfl; cases h
          have h' : dumpFolderTo v junk w steps u o filter outfolder base rels
              (cur.apply (outfolder ++ [outName rel o.type]) b) = some (.ok (), disk') := by
            cases r with
            | panic => exact absurd rfl hr
            | err => exact h
            | ok => exact h
          have hother : ∀ q, q ≠ outfolder ++ [outName rel o.type] →
              cur.apply (outfolder ++ [outName rel o.type]) b q = cur q := by
            intro q hq
            cases b with
            | none => rfl
            | some b => simp only [Disk.apply, Disk.write]; rw [if_neg hq]
          have hs' := apply_sameInputs hs outfolder rel o.type b
          obtain ⟨h1, h2⟩ := ih _ hs' h' hnd.2
          have hne : ∀ rel' ∈ takenFiles disk base rels,
              outfolder ++ [outName rel o.type] ≠ outfolder ++ [outName rel' o.type] := by
            intro rel' hrel' e
            have : outName rel o.type = outName rel' o.type := List.singleton_inj.1 (List.append_inj' e rfl).2
            exact hnd.1 (List.mem_map.2 ⟨rel', hrel', this.symm⟩)
          refine ⟨fun rel' hrel' => ?_, fun q hq => ?_⟩
          · rcases List.mem_cons.1 hrel' with rfl | hrel'
            · exact ⟨r, b, hx, hr, h2 _ hne⟩
            · obtain ⟨r', b', h3, h4, h5⟩ := h1 rel' hrel'
              refine ⟨r', b', h3, h4, ?_⟩
              rw [h5]
              cases b' with
              | none => exact hother _ (hne rel' hrel').symm
              | some b' => simp only [Disk.apply, Disk.write]; rw [if_pos trivial, if_pos trivial]
          · rw [h2 q fun rel' hrel' => hq rel' (List.mem_cons_of_mem _ hrel')]
            exact hother q (hq rel List.mem_cons_self)
      · have htk : takenFiles disk base (rel :: rels) = takenFiles disk base rels := by
          unfold takenFiles; rw [List.filter_cons, if_neg ht]
        rw [htk] at hnd ⊢
        rw [if_neg ht] at h
        exact ih cur hs h hnd
  intro rel hrel
  obtain ⟨r, b, h1, _, h2⟩ := (go rels disk (fun _ _ _ => rfl) h hnd).1 rel hrel
  exact ⟨r, b, h1, h2⟩

/-- C72 violated, a folder: hives that cannot be exported are passed over without a word, and the run succeeds. -/
theorem folder_success_violated (v : Volume) (junk : Bytes) (w : World) (steps : Nat) (u : Prints) (o : DumpOptions)
    (filter : Option Filter) (outfolder base : List Str) (rels : List (List Str)) (disk : Disk)
    (h : ∀ rel ∈ takenFiles disk base rels, exportAlone v junk w steps u o filter base disk rel = some (.err, none)) :
    dumpFolderTo v junk w steps u o filter outfolder base rels disk = some (.ok (), disk) := by
  induction rels with
  | nil => rfl
  | cons rel rels ih =>
    unfold takenFiles at h ih
    rw [List.filter_cons] at h
    rw [dumpFolderTo]
    by_cases ht : takesFile disk.files (base ++ rel) = true
    · rw [if_pos ht] at h ⊢
      have h1 := h rel List.mem_cons_self
      unfold exportAlone at h1
      unfold dumpTo
      rw [h1]
      exact ih fun rel' hrel' => h rel' (List.mem_cons_of_mem _ hrel')
    · rw [if_neg ht] at h ⊢
      exact ih h

/-- A file without a header is not opened. -/
theorem unopened_headless (w : World) (primary : Bytes) (hp : BaseBlock.fromBytes primary = .err) (bs : List Bytes)
    (filter : Option Filter) (recover full : Bool) :
    ∃ r, Builder.build w ⟨primary, bs, filter, recover, full⟩ = some r ∧ (r = .err ∨ r = .panic) ∧
      ∀ x, TransactionLog.parse bs = .ok x → r = .err := by
  have e : ∀ l, openHive (w.analyze recover) (w.initItems recover) (w.scan recover) primary (some (.ok ({}, []))) l =
      .err := by
    intro l
    have h : initBaseBlock primary {} = .err := by
      unfold initBaseBlock
      rw [hp]
      rfl
    unfold openHive
    rw [h]
    rfl
  unfold Builder.build
  cases h : TransactionLog.parse bs with
  | err => exact ⟨_, rfl, .inl rfl, nofun⟩
  | panic => exact ⟨_, rfl, .inr rfl, nofun⟩
  | ok x =>
    simp only
    rw [e]
    exact ⟨_, rfl, .inl rfl, fun _ _ => rfl⟩

theorem unopened_path (w : World) (disk : Disk) (path : List Str) (logs : List (List Str)) (primary : Bytes)
    (hp : BaseBlock.fromBytes primary = .err) (h : disk path = some primary) (recover full : Bool) :
    ∃ r, buildFromPath w disk path logs recover full = some r ∧ (r = .err ∨ r = .panic) ∧
      ∀ x bs, openLogs disk logs = some bs → TransactionLog.parse bs = .ok x → r = .err := by
  unfold buildFromPath
  cases openLogs disk logs with
  | none => exact ⟨_, rfl, .inl rfl, nofun⟩
  | some bs =>
    simp only [h]
    obtain ⟨r, h1, h2, h3⟩ := unopened_headless w primary hp bs none recover full
    exact ⟨r, h1, h2, fun x _ e hx => h3 x (by cases e; exact hx)⟩

/-- A folder with a hive of one byte. -/
def brokenDisk : Disk := fun path => if path = [['d'], "SAM".toList] then some [0] else none

example (v : Volume) (junk : Bytes) (u : Prints) :
    takenFiles brokenDisk [['d']] [["SAM".toList]] = [["SAM".toList]] ∧
    dumpFolderTo v junk sampleWorld 0 u {} none [['o']] [['d']] [["SAM".toList]] brokenDisk = some (.ok (), brokenDisk) := by
  have ht : takenFiles brokenDisk [['d']] [["SAM".toList]] = [["SAM".toList]] := by decide +kernel
  refine ⟨ht, folder_success_violated _ _ _ _ _ _ _ _ _ _ _ fun rel hrel => ?_⟩
  rw [ht] at hrel
  rw [List.mem_singleton.1 hrel]
  have hl : getLogFiles brokenDisk.files false "SAM".toList ([['d']] ++ ["SAM".toList]) = some [] := by decide +kernel
  obtain ⟨r, h1, _, h2⟩ := unopened_path sampleWorld brokenDisk ([['d']] ++ ["SAM".toList]) [] [0]
    (by decide +kernel) (by decide +kernel) false false
  have hr := h2 ([], none) [] rfl (by decide +kernel)
  unfold exportAlone dumpEffect
  have : getLogFiles brokenDisk.files ({} : DumpOptions).skipLogs ((["SAM".toList] : List Str).getLast?.getD [])
      ([['d']] ++ ["SAM".toList]) = some [] := hl
  rw [this]
  simp only [Option.getD_some]
  rw [h1, hr]

/-! ### `reg_compare` -/

/-- C73 violated: if the report is written over the first hive, the hive is emptied before it is read, whatever
it is: nothing is compared and the hive is lost. -/
theorem compare_destroys_violated (v : Volume) (w : World) (order : HashIndex → HashIndex) (steps : Nat) (u : Prints)
    (shown : List Str → Str) (filter : Option Filter) (diff skip : Bool) (base comp : List Str) (disk : Disk)
    (hb : base ≠ []) (hc : comp ≠ []) :
    ∃ r disk', compareFilesTo v w order steps u shown filter diff skip base comp base disk = some (r, disk') ∧
      r ≠ .ok () ∧ disk' base = some [] := by
  obtain ⟨b, hb⟩ : ∃ b, base.getLast? = some b := ⟨_, List.getLast?_eq_some_getLast hb⟩
  obtain ⟨c, hc⟩ : ∃ c, comp.getLast? = some c := ⟨_, List.getLast?_eq_some_getLast hc⟩
  have hw : ∀ d : Disk, d.write base [] base = some [] := by
    intro d
    simp only [Disk.write]
    rw [if_pos trivial]
  unfold compareFilesTo
  rw [hb, hc]
  simp only
  unfold compareTo compareReport
  obtain ⟨r, h1, h2, _⟩ := unopened_path w (disk.write base []) base
    ((getLogFiles disk.files skip b base).getD []) [] (by decide +kernel) (hw disk) false false
  rw [h1]
  rcases h2 with rfl | rfl
  · exact ⟨_, _, rfl, nofun, hw disk⟩
  · exact ⟨_, _, rfl, nofun, hw disk⟩

/-- C73, `reg_compare`: no file but the output changes. -/
theorem compare_only_output (v : Volume) (report : Disk → Option (Res Str)) (output : List Str) (disk disk' : Disk)
    (r : Res Unit) (h : compareTo v report output disk = some (r, disk')) (q : List Str) (hq : q ≠ output) :
    disk' q = disk q := by
  have hw : ∀ b, disk.write output b q = disk q := by
    intro b
    simp only [Disk.write]
    rw [if_neg hq]
  unfold compareTo at h
  cases hr : report (disk.write output []) with
  | none => rw [hr] at h; cases h
  | some x =>
    rw [hr] at h
    cases x <;> cases h <;> exact hw _

/-- C73, two folders: the hives and the logs are as before, whatever is compared; no error is passed on. -/
theorem compare_inputs_unchanged (v : Volume) (w : World) (order : HashIndex → HashIndex) (steps : Nat) (u : Prints)
    (shown : List Str → Str) (filter : Option Filter) (diff skip : Bool) (outfolder base comp : List Str)
    (rels : List (List Str)) (disk disk' : Disk) (r : Res Unit)
    (h : compareFoldersTo v w order steps u shown filter diff skip outfolder base comp rels disk = some (r, disk')) :
    (∀ folder n, InputName n → disk' (folder ++ [n]) = disk (folder ++ [n])) ∧ r ≠ .err := by
  induction rels generalizing disk with
  | nil =>
    rw [compareFoldersTo] at h
    cases h
    exact ⟨fun _ _ _ => rfl, nofun⟩
  | cons rel rels ih =>
    rw [compareFoldersTo] at h
    split at h
    · generalize hx : compareTo v _ _ disk = x at h
      have hkeep : ∀ r d, x = some (r, d) → ∀ folder n, InputName n → d (folder ++ [n]) = disk (folder ++ [n]) := by
        intro r d hd folder n hn
        rw [hd] at hx
        refine compare_only_output _ _ _ _ _ _ hx _ fun e => ?_
        have : n = outName rel (if diff then .Diff else .Report) := List.singleton_inj.1 (List.append_inj' e rfl).2
        rw [this] at hn
        exact outName_not_input _ _ hn
      cases x with
      | none => cases h
      | some x =>
        obtain ⟨r1, d1⟩ := x
        cases r1 with
        | panic => cases h; exact ⟨hkeep _ _ rfl, nofun⟩
        | err =>
          obtain ⟨h1, h2⟩ := ih d1 h
          exact ⟨fun folder n hn => (h1 folder n hn).trans (hkeep _ _ rfl folder n hn), h2⟩
        | ok =>
          obtain ⟨h1, h2⟩ := ih d1 h
          exact ⟨fun folder n hn => (h1 folder n hn).trans (hkeep _ _ rfl folder n hn), h2⟩
    · exact ih disk h

/-- C73 violated: if the export is written over the hive, the hive is lost, although all of its tree is told. -/
theorem dump_replaces_violated (v : Volume) (hv : v.Sound) (junk : Bytes) (w : World) (steps : Nat) (u : Prints)
    (o : DumpOptions) (filter : Option Filter) (folder : List Str) (name : Str) (disk : Disk) (s : Str)
    (h : processFile w steps u disk o filter (folder ++ [name]) = some (.ok (.text s)))
    (hl : (utf8Bytes s).length ≤ v.limit) :
    ∃ disk', dumpFileTo v junk w steps u o filter (folder ++ [name]) (folder ++ [name]) disk = some (.ok (), disk') ∧
      ∃ b, disk' (folder ++ [name]) = some b ∧ readUtf8 b = some s := by
  unfold processFile at h
  unfold dumpFileTo
  rw [List.getLast?_concat] at h ⊢
  obtain ⟨r, disk', h1, ⟨b, h2, h3, h4⟩, h5, _⟩ := dump_complete_partial v hv junk w steps u o filter
    (folder ++ [name]) _ (folder ++ [name]) disk s h
  rw [h5 hl] at h1
  refine ⟨disk', h1, b, h2, ?_⟩
  rcases h4 with h4 | h4
  · rw [h3.eq_of_length_le (by omega)]
    exact readUtf8_bytes s
  · exact h4

/-- C72, `reg_compare`: the file holds the beginning of the report; if the program succeeds, at most a buffer of it is
missing.  (The report is the one of the disk with an empty file in place of the output.) -/
theorem compare_complete_partial (v : Volume) (hv : v.Sound) (report : Disk → Option (Res Str)) (output : List Str)
    (disk : Disk) (s : Str) (h : report (disk.write output []) = some (.ok s)) :
    ∃ r disk', compareTo v report output disk = some (r, disk') ∧
      (∃ b, disk' output = some b ∧ b <+: utf8Bytes s ∧ (b.length = v.limit ∨ readUtf8 b = some s)) ∧
      ((utf8Bytes s).length ≤ v.limit → r = .ok ()) ∧
      (r = .ok () → (utf8Bytes s).length ≤ v.limit + bufCapacity) := by
  unfold compareTo
  rw [h]
  have hs : v.save (.text s) = bufferedFile v.limit bufCapacity (v.pieces (utf8Bytes s)) := rfl
  obtain ⟨h1, h2, h3⟩ := buffered_file v.limit bufCapacity (v.pieces (utf8Bytes s))
  rw [hv] at h1 h2 h3
  refine ⟨_, _, rfl, ⟨(v.save (.text s)).1, ?_, ?_, ?_⟩, ?_, ?_⟩
  · simp only [Disk.write]
    rw [if_pos trivial]
  · rw [hs, h1]
    exact List.take_prefix _ _
  · rw [hs, h1]
    by_cases hl : (utf8Bytes s).length ≤ v.limit
    · right
      rw [List.take_of_length_le hl]
      exact readUtf8_bytes s
    · left
      rw [List.length_take]
      omega
  · intro hl
    rw [hs]
    cases hx : (bufferedFile v.limit bufCapacity (v.pieces (utf8Bytes s))).2 with
    | true => rfl
    | false => have := h2 hx; omega
  · intro hr
    apply h3
    rw [hs] at hr
    cases hx : (bufferedFile v.limit bufCapacity (v.pieces (utf8Bytes s))).2 with
    | true => rfl
    | false => rw [hx] at hr; cases hr

/-- C72 violated, two folders: a hive without a header is not compared, its report is an empty file (just as if there
were no differences to tell, but for the missing header of the report), and the run succeeds. -/
theorem compare_success_violated (v : Volume) (w : World) (order : HashIndex → HashIndex) (steps : Nat) (u : Prints)
    (shown : List Str → Str) (filter : Option Filter) (diff skip : Bool) (outfolder base comp : List Str) (rel : List Str)
    (disk : Disk) (primary : Bytes) (x : List TransactionLog × Option Logs) (bs : List Bytes)
    (ht : takesFile disk.files (base ++ rel) = true) (hc : fileHasSize disk.files (comp ++ rel) = true)
    (hp : BaseBlock.fromBytes primary = .err) (hd : disk (base ++ rel) = some primary)
    (hl : openLogs (disk.write (outfolder ++ [outName rel (if diff then .Diff else .Report)]) [])
      ((getLogFiles disk.files skip (rel.getLast?.getD []) (base ++ rel)).getD []) = some bs)
    (hx : TransactionLog.parse bs = .ok x) :
    ∃ disk', compareFoldersTo v w order steps u shown filter diff skip outfolder base comp [rel] disk =
        some (.ok (), disk') ∧
      disk' (outfolder ++ [outName rel (if diff then .Diff else .Report)]) = some [] := by
  obtain ⟨folder, n, hp1, hn⟩ := takesFile_name ht
  have hne : base ++ rel ≠ outfolder ++ [outName rel (if diff then .Diff else .Report)] := by
    intro e
    rw [hp1] at e
    have : n = outName rel (if diff then .Diff else .Report) := List.singleton_inj.1 (List.append_inj' e rfl).2
    rw [this] at hn
    exact outName_not_input _ _ hn
  obtain ⟨r, h1, _, h2⟩ := unopened_path w (disk.write (outfolder ++ [outName rel (if diff then .Diff else .Report)]) [])
    (base ++ rel) ((getLogFiles disk.files skip (rel.getLast?.getD []) (base ++ rel)).getD []) primary hp
    (by simp only [Disk.write]; rw [if_neg hne]; exact hd) false false
  have hr := h2 x bs hl hx
  rw [compareFoldersTo, ht, hc]
  simp only [Bool.and_self, if_true]
  unfold compareTo compareReport
  rw [h1, hr]
  refine ⟨_, rfl, ?_⟩
  simp only [Disk.write]
  rw [if_pos trivial]

/-- Two folders, each with a hive of one byte. -/
def brokenPair : Disk := fun path =>
  if path = [['d'], "SAM".toList] then some [0] else if path = [['e'], "SAM".toList] then some [0] else none

example (v : Volume) (w : World) (order : HashIndex → HashIndex) (u : Prints) (shown : List Str → Str) :
    ∃ disk', compareFoldersTo v w order 0 u shown none false false [['o']] [['d']] [['e']] [["SAM".toList]] brokenPair =
        some (.ok (), disk') ∧
      disk' [['o'], "SAM.txt".toList] = some [] :=
  compare_success_violated v w order 0 u shown none false false [['o']] [['d']] [['e']] ["SAM".toList] brokenPair [0]
    ([], none) [] (by decide +kernel) (by decide +kernel) (by decide +kernel) (by decide +kernel) (by decide +kernel)
    (by decide +kernel)

/-- A volume on which nothing fits, or all does, and pieces of one byte. -/
def someVolume (limit : Nat) : Volume := ⟨fun b => b.map fun x => [x], limit, fun _ => ([], true)⟩

theorem someVolume_sound (limit : Nat) : (someVolume limit).Sound := by
  intro b
  show (b.map fun x => [x]).flatten = b
  induction b with
  | nil => rfl
  | cons a b ih => rw [List.map_cons, List.flatten_cons, ih]; rfl

theorem text_exported {x : Option (Res Dumped)} (q : Str → Bool)
    (h : (match x with | some (.ok (.text s)) => q s | _ => false) = true) :
    ∃ s, x = some (.ok (.text s)) ∧ q s = true := by
  match x, h with
  | some (.ok (.text s)), h => exact ⟨s, rfl, h⟩

/-- The hypotheses of `dump_complete_partial` and `dump_success_violated`: with room for it the export is complete;
with no room at all the program succeeds as well. -/
example : ∃ s disk' disk'', s ≠ [] ∧ dumpTo (someVolume 10000) [] sampleWorld 3 someTexts {} none [['A']] none
      [['o']] valuedDisk = some (.ok (), disk') ∧ (∃ b, disk' [['o']] = some b ∧ readUtf8 b = some s) ∧
    dumpTo (someVolume 0) [] sampleWorld 3 someTexts {} none [['A']] none [['o']] valuedDisk =
      some (.ok (), disk'') ∧ disk'' [['o']] = some [] := by
  have hk : ∃ s, regDump sampleWorld 3 someTexts valuedDisk {} none [['A']] none = some (.ok (.text s)) ∧
      decide (s ≠ [] ∧ (utf8Bytes s).length < bufCapacity) = true :=
    text_exported (fun s => decide (s ≠ [] ∧ (utf8Bytes s).length < bufCapacity)) (by decide +kernel)
  match hk with
  | ⟨s, hr, hk⟩ =>
    obtain ⟨h1, h2⟩ := of_decide_eq_true hk
    have h2' : (utf8Bytes s).length < 8192 := h2
    have hlim : (someVolume 10000).limit = 10000 := rfl
    obtain ⟨r, disk', h3, ⟨b, h4, h5, h6⟩, h7, _⟩ := dump_complete_partial (someVolume 10000) (someVolume_sound _) []
      sampleWorld 3 someTexts {} none [['A']] none [['o']] valuedDisk s hr
    rw [h7 (by omega)] at h3
    obtain ⟨disk'', h8, h9⟩ := dump_success_violated (someVolume 0) (someVolume_sound _) rfl []
      sampleWorld 3 someTexts {} none [['A']] none [['o']] valuedDisk s hr h2
    refine ⟨s, disk', disk'', h1, h3, ⟨b, h4, ?_⟩, h8, h9⟩
    rcases h6 with h6 | h6
    · have := h5.length_le
      omega
    · exact h6

/-- The hypotheses of `dump_replaces_violated`: the hive is gone. -/
example : ∃ s disk', dumpFileTo (someVolume 10000) [] sampleWorld 3 someTexts {} none [['A']] [['A']] valuedDisk =
      some (.ok (), disk') ∧ ∃ b, disk' [['A']] = some b ∧ readUtf8 b = some s := by
  have hk : ∃ s, processFile sampleWorld 3 someTexts valuedDisk {} none [['A']] = some (.ok (.text s)) ∧
      decide ((utf8Bytes s).length ≤ 10000) = true :=
    text_exported (fun s => decide ((utf8Bytes s).length ≤ 10000)) (by decide +kernel)
  match hk with
  | ⟨s, hr, hk⟩ =>
    exact ⟨s, dump_replaces_violated (someVolume 10000) (someVolume_sound _) [] sampleWorld 3 someTexts {} none [] ['A']
      valuedDisk s hr (of_decide_eq_true hk)⟩

/-- A folder with two hives of the same content. -/
def twoDisk : Disk := fun path =>
  if path = [['d'], "SAM".toList] ∨ path = [['d'], ['x'], "system".toList] then some valuedHive else none

/-- The hypotheses of `folder_exports_partial`. -/
example : ∃ disk', dumpFolderTo (someVolume 10000) [] sampleWorld 3 someTexts {} none [['o']] [['d']]
      [["SAM".toList], ["notes.txt".toList], [['x'], "system".toList]] twoDisk = some (.ok (), disk') ∧
    (disk' [['o'], "SAM.jsonl".toList]).isSome ∧ (disk' [['o'], "x_system.jsonl".toList]).isSome := by
  have ht : takenFiles twoDisk [['d']] [["SAM".toList], ["notes.txt".toList], [['x'], "system".toList]] =
      [["SAM".toList], [['x'], "system".toList]] := by decide +kernel
  have h1 : ∃ s, regDump sampleWorld 3 someTexts twoDisk {} none ([['d']] ++ ["SAM".toList])
      (getLogFiles twoDisk.files false "SAM".toList ([['d']] ++ ["SAM".toList])) = some (.ok (.text s)) ∧ true = true :=
    text_exported (fun _ => true) (by decide +kernel)
  have h2 : ∃ s, regDump sampleWorld 3 someTexts twoDisk {} none ([['d']] ++ [['x'], "system".toList])
      (getLogFiles twoDisk.files false "system".toList ([['d']] ++ [['x'], "system".toList])) =
        some (.ok (.text s)) ∧ true = true :=
    text_exported (fun _ => true) (by decide +kernel)
  match h1, h2 with
  | ⟨s1, h1, _⟩, ⟨s2, h2, _⟩ =>
    have e1 := dumpEffect_of (someVolume 10000) [] sampleWorld 3 someTexts {} none _ _ twoDisk s1 h1
    have e2 := dumpEffect_of (someVolume 10000) [] sampleWorld 3 someTexts {} none _ _ twoDisk s2 h2
    have e1' : exportAlone (someVolume 10000) [] sampleWorld 3 someTexts {} none [['d']] twoDisk ["SAM".toList] = _ := e1
    have e2' : exportAlone (someVolume 10000) [] sampleWorld 3 someTexts {} none [['d']] twoDisk
      [['x'], "system".toList] = _ := e2
    obtain ⟨disk', h3, h4⟩ := folder_exports_partial (someVolume 10000) [] sampleWorld 3 someTexts {} none [['o']] [['d']]
      [["SAM".toList], ["notes.txt".toList], [['x'], "system".toList]] twoDisk
      (by
        rw [ht]
        intro rel hrel
        rcases List.mem_cons.1 hrel with rfl | hrel
        · exact ⟨_, _, e1', by split <;> nofun⟩
        · rw [List.mem_singleton.1 hrel]
          exact ⟨_, _, e2', by split <;> nofun⟩)
      (by rw [ht]; decide +kernel)
    rw [ht] at h4
    refine ⟨disk', h3, ?_, ?_⟩
    · obtain ⟨r, b, h5, h6⟩ := h4 ["SAM".toList] List.mem_cons_self
      rw [e1'] at h5
      have hb : _ = b := congrArg Prod.snd (Option.some.inj h5)
      have hn : outName ["SAM".toList] ({} : DumpOptions).type = "SAM.jsonl".toList := by decide +kernel
      rw [hn, ← hb] at h6
      rw [show ([['o'], "SAM.jsonl".toList] : List Str) = [['o']] ++ ["SAM.jsonl".toList] from rfl, h6]
      simp only [Disk.apply, Disk.write]
      rw [if_pos trivial]
      rfl
    · obtain ⟨r, b, h5, h6⟩ := h4 [['x'], "system".toList] (List.mem_cons_of_mem _ List.mem_cons_self)
      rw [e2'] at h5
      have hb : _ = b := congrArg Prod.snd (Option.some.inj h5)
      have hn : outName [['x'], "system".toList] ({} : DumpOptions).type = "x_system.jsonl".toList := by decide +kernel
      rw [hn, ← hb] at h6
      rw [show ([['o'], "x_system.jsonl".toList] : List Str) = [['o']] ++ ["x_system.jsonl".toList] from rfl, h6]
      simp only [Disk.apply, Disk.write]
      rw [if_pos trivial]
      rfl

end Notatin
