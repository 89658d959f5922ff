import Verif.Spec.Cli
import Verif.Lemmas.Case
/-
C38, C50, C51: the command line tools and names of files.
-/
namespace Notatin
open Spec

/-! ### C38: the logs of a primary file -/

theorem sameIgnoringCase_append {a b c d : Str} (h1 : SameIgnoringCase a b) (h2 : SameIgnoringCase c d) :
    SameIgnoringCase (a ++ c) (b ++ d) := by
  rw [← asciiLower_eq_iff] at *
  rw [asciiLower_eq_map, asciiLower_eq_map] at *
  rw [List.map_append, List.map_append, h1, h2]

/-- The spelling the tools use for the primary file in the names of logs. -/
theorem getLogName_spelling (folder : List Str) (name ext : Str) :
    ∃ n, getLogName folder name ext = folder ++ [n ++ '.' :: ext] ∧ SameIgnoringCase n name ∧
      n = windowsSpelling name := by
  refine ⟨windowsSpelling name, rfl, ?_, rfl⟩
  unfold windowsSpelling
  by_cases h1 : name = "NTUSER.DAT".toList
  · rw [if_pos h1, h1]; decide
  · by_cases h2 : name = "UsrClass.DAT".toList
    · rw [if_neg h1, if_pos h2, h2]; decide
    · rw [if_neg h1, if_neg h2]
      exact sameIgnoringCase_refl _

/-- One log is found if the folder shows it. -/
theorem checkAddLog_found (fs : Files) (d : Folder) (folder : List Str) (name ext : Str)
    (logs : List (List Str)) (hd : d.At fs folder)
    (hs : d.CaseInsensitive ∨ (d.CaseSensitive ∧
      ∀ e ∈ d.names, IsLog name ext e → e = windowsSpelling name ++ '.' :: ext)) :
    ∃ l, checkAddLog fs folder name ext logs = logs ++ l ∧ l.length ≤ 1 ∧
      (∀ x ∈ l, d.LogAt folder name ext x) ∧ (l = [] → ∀ e ∈ d.names, ¬ IsLog name ext e) := by
  obtain ⟨n, hn, hsame, hspell⟩ := getLogName_spelling folder name ext
  have hlog : IsLog name ext (n ++ '.' :: ext) :=
    sameIgnoringCase_append hsame (sameIgnoringCase_refl _)
  unfold checkAddLog
  rw [hn]
  by_cases hf : (fs (folder ++ [n ++ '.' :: ext])).isSome = true
  · refine ⟨[folder ++ [n ++ '.' :: ext]], by rw [if_pos hf], Nat.le_refl _, ?_, fun h => by cases h⟩
    intro x hx
    rw [List.mem_singleton] at hx
    subst hx
    obtain ⟨e, he, hen⟩ := (hd _).1 hf
    exact ⟨_, rfl, e, he, hen, _, hen, hlog⟩
  · refine ⟨[], by rw [if_neg hf, List.append_nil], Nat.zero_le _, fun x hx => absurd hx List.not_mem_nil, ?_⟩
    intro _ e he hl
    apply hf
    rw [hd]
    refine ⟨e, he, ?_⟩
    rcases hs with hs | ⟨hs, h3⟩
    · apply hs.2
      rw [IsLog, ← asciiLower_eq_iff] at hl hlog
      rw [← asciiLower_eq_iff, hl, hlog]
    · rw [hs, hspell]
      exact h3 e he hl

/-- C38: unless logs are skipped, the logs found are the files `.LOG1` and `.LOG2` of the primary in
its folder, in this order, where names that differ in case only mean the same file.

Partial: where case matters, this needs logs spelled like the primary, with `LOG1` and `LOG2` in
capitals, or as Windows spells those of `NTUSER.DAT` and `UsrClass.DAT` (`log_files_violated`). -/
theorem log_files_partial (fs : Files) (d : Folder) (folder : List Str) (name : Str)
    (hd : d.At fs folder)
    (hs : d.CaseInsensitive ∨ (d.CaseSensitive ∧ ∀ e ∈ d.names, ∀ ext ∈ ["LOG1".toList, "LOG2".toList],
      IsLog name ext e → e = windowsSpelling name ++ '.' :: ext)) :
    getLogFiles fs true name (folder ++ [name]) = none ∧
    ∃ logs, getLogFiles fs false name (folder ++ [name]) = some logs ∧ d.LogsFound folder name logs := by
  refine ⟨rfl, ?_⟩
  have hs' : ∀ ext ∈ ["LOG1".toList, "LOG2".toList], d.CaseInsensitive ∨ (d.CaseSensitive ∧
      ∀ e ∈ d.names, IsLog name ext e → e = windowsSpelling name ++ '.' :: ext) := by
    intro ext hx
    rcases hs with hs | ⟨h1, h4⟩
    · exact .inl hs
    · exact .inr ⟨h1, fun e he => h4 e he ext hx⟩
  obtain ⟨l1, e1, a1, b1, c1⟩ := checkAddLog_found fs d folder name "LOG1".toList [] hd
    (hs' _ List.mem_cons_self)
  obtain ⟨l2, e2, a2, b2, c2⟩ := checkAddLog_found fs d folder name "LOG2".toList l1 hd
    (hs' _ (List.mem_cons_of_mem _ List.mem_cons_self))
  refine ⟨l1 ++ l2, ?_, l1, l2, rfl, a1, a2, b1, b2, c1, c2⟩
  have hp : parentOf (folder ++ [name]) = some folder := by
    unfold parentOf
    rw [if_neg (by simp), List.dropLast_concat]
  unfold getLogFiles
  rw [hp]
  simp only [Bool.false_eq_true, if_false]
  rw [e1, List.nil_append, e2]

/-- A folder with these files and the file system that shows it at the top. -/
def oneFolder (names : List Str) : Folder := ⟨names, (· = ·)⟩
def oneFolderFiles (names : List Str) : Files := fun p =>
  match p with
  | [n] => if n ∈ names then some 1 else none
  | _ => none

theorem oneFolder_at (names : List Str) : (oneFolder names).At (oneFolderFiles names) [] := by
  intro n
  show ((if n ∈ names then some 1 else none : Option Nat)).isSome = true ↔ ∃ e ∈ names, e = n
  by_cases h : n ∈ names
  · rw [if_pos h]; exact ⟨fun _ => ⟨n, h, rfl⟩, fun _ => rfl⟩
  · rw [if_neg h]
    exact ⟨fun h' => (by cases h'), fun ⟨e, he, h'⟩ => absurd (h' ▸ he) h⟩

/-- A folder with a primary file and both of its logs. -/
example : ∃ logs, getLogFiles (oneFolderFiles (["SYSTEM", "SYSTEM.LOG1", "SYSTEM.LOG2"].map String.toList))
      false "SYSTEM".toList ["SYSTEM".toList] = some logs ∧
    (oneFolder (["SYSTEM", "SYSTEM.LOG1", "SYSTEM.LOG2"].map String.toList)).LogsFound [] "SYSTEM".toList logs :=
  (log_files_partial _ _ [] _ (oneFolder_at _) (.inr ⟨fun _ _ => Iff.rfl, by
    unfold IsLog oneFolder
    decide⟩)).2
example : ∃ logs, getLogFiles (oneFolderFiles (["NTUSER.DAT", "ntuser.dat.LOG1", "ntuser.dat.LOG2"].map String.toList))
      false "NTUSER.DAT".toList ["NTUSER.DAT".toList] = some logs ∧
    (oneFolder (["NTUSER.DAT", "ntuser.dat.LOG1", "ntuser.dat.LOG2"].map String.toList)).LogsFound []
      "NTUSER.DAT".toList logs :=
  (log_files_partial _ _ [] _ (oneFolder_at _) (.inr ⟨fun _ _ => Iff.rfl, by
    unfold IsLog oneFolder
    decide⟩)).2
example : getLogFiles (oneFolderFiles (["SYSTEM", "SYSTEM.LOG1", "SYSTEM.LOG2"].map String.toList))
    false "SYSTEM".toList ["SYSTEM".toList]
    = some [["SYSTEM.LOG1".toList], ["SYSTEM.LOG2".toList]] := by decide +kernel

/-- The full claim of C38, where case matters too. -/
def LogFilesOk : Prop :=
  ∀ (fs : Files) (d : Folder) (folder : List Str) (name : Str), d.At fs folder →
    (d.CaseInsensitive ∨ d.CaseSensitive) →
    ∃ logs, getLogFiles fs false name (folder ++ [name]) = some logs ∧ d.LogsFound folder name logs

/-- C38: the code violates the claim.  Where case matters, for `NTUSER.DAT` the log `NTUSER.DAT.LOG1`
beside it is not found, because it is looked for as `ntuser.dat.LOG1`. -/
theorem log_files_violated : ¬ LogFilesOk := by
  intro h
  obtain ⟨logs, h1, h2⟩ := h (oneFolderFiles (["NTUSER.DAT", "NTUSER.DAT.LOG1"].map String.toList))
    (oneFolder (["NTUSER.DAT", "NTUSER.DAT.LOG1"].map String.toList)) [] "NTUSER.DAT".toList
    (oneFolder_at _) (.inr fun _ _ => Iff.rfl)
  have e : getLogFiles (oneFolderFiles (["NTUSER.DAT", "NTUSER.DAT.LOG1"].map String.toList)) false
    "NTUSER.DAT".toList ([] ++ ["NTUSER.DAT".toList]) = some [] := by decide +kernel
  rw [e] at h1
  cases h1
  obtain ⟨l1, l2, h3, _, _, _, _, h4, _⟩ := h2
  have h3 := List.append_eq_nil_iff.1 h3.symm
  exact h4 h3.1 "NTUSER.DAT.LOG1".toList (by simp [oneFolder]) (by unfold IsLog; decide)

/-- The same for a log with a name in lower case. -/
theorem log_files_case_violated :
    getLogFiles (oneFolderFiles (["system", "system.log1"].map String.toList)) false "system".toList
      ["system".toList] = some [] ∧
    IsLog "system".toList "LOG1".toList "system.log1".toList := by
  exact ⟨by decide +kernel, by unfold IsLog; decide⟩

/-! ### C38: a list of files in one text -/

theorem splitComma_ne_nil (s : Str) : splitComma s ≠ [] := by
  cases s with
  | nil => simp [splitComma]
  | cons c s =>
    rw [splitComma]
    split
    · simp
    · split <;> simp

theorem splitComma_text (a s : Str) (h : ',' ∉ a) :
    ∃ x xs, splitComma s = x :: xs ∧ splitComma (a ++ s) = (a ++ x) :: xs := by
  induction a with
  | nil =>
    cases hs : splitComma s with
    | nil => exact absurd hs (splitComma_ne_nil s)
    | cons x xs => exact ⟨x, xs, rfl, hs⟩
  | cons c a ih =>
    obtain ⟨x, xs, h1, h2⟩ := ih fun hc => h (List.mem_cons_of_mem _ hc)
    refine ⟨x, xs, h1, ?_⟩
    rw [List.cons_append, splitComma, if_neg (fun hc => h (by rw [hc]; exact List.mem_cons_self)), h2]
    rfl

theorem splitComma_list (cs : List Str) (hne : cs ≠ []) (h : ∀ c ∈ cs, ',' ∉ c) :
    splitComma (commaList cs) = cs := by
  induction cs with
  | nil => exact absurd rfl hne
  | cons c cs ih =>
    cases cs with
    | nil =>
      obtain ⟨x, xs, h1, h2⟩ := splitComma_text c [] (h c List.mem_cons_self)
      rw [splitComma] at h1
      cases h1
      rw [List.append_nil] at h2
      rw [commaList]
      exact h2
    | cons c' cs =>
      rw [commaList]
      · obtain ⟨x, xs, h1, h2⟩ := splitComma_text c (',' :: commaList (c' :: cs)) (h c List.mem_cons_self)
        rw [splitComma, if_pos rfl] at h1
        cases h1
        rw [h2, List.append_nil, ih (by simp) fun c hc => h c (List.mem_cons_of_mem _ hc)]
      · simp

theorem dropWhile_prefix (p : Char → Bool) (w s : Str) (hw : ∀ c ∈ w, p c = true)
    (hs : ∀ c, s.head? = some c → p c = false) : (w ++ s).dropWhile p = s := by
  induction w with
  | nil =>
    cases s with
    | nil => rfl
    | cons c s =>
      rw [List.nil_append, List.dropWhile_cons, if_neg]
      rw [hs c rfl]; simp
  | cons c w ih =>
    rw [List.cons_append, List.dropWhile_cons, if_pos (hw c List.mem_cons_self)]
    exact ih fun c hc => hw c (List.mem_cons_of_mem _ hc)

theorem trimMatches_text (p : Char → Bool) (w1 s w2 : Str) (h1 : ∀ c ∈ w1, p c = true)
    (h2 : ∀ c ∈ w2, p c = true) (hh : ∀ c, s.head? = some c → p c = false)
    (hl : ∀ c, s.getLast? = some c → p c = false) : trimMatches p (w1 ++ s ++ w2) = s := by
  unfold trimMatches
  cases s with
  | nil =>
    have : ((w1 ++ [] ++ w2) ++ []).dropWhile p = [] :=
      dropWhile_prefix p _ [] (by
        intro c hc
        rw [List.append_nil] at hc
        rcases List.mem_append.1 hc with hc | hc
        · exact h1 c hc
        · exact h2 c hc) (by simp)
    rw [List.append_nil] at this
    rw [this]
    rfl
  | cons c s =>
    rw [List.append_assoc, dropWhile_prefix p w1 _ h1 (by
      intro c' hc
      exact hh c' (by simpa using hc))]
    rw [List.reverse_append, dropWhile_prefix p w2.reverse _ (by
      intro c hc; exact h2 c (List.mem_reverse.1 hc)) (by
      intro c' hc
      rw [List.head?_reverse] at hc
      exact hl c' hc), List.reverse_reverse]

theorem getLast?_append_ne {α : Type} (a : List α) {b : List α} (h : b ≠ []) :
    (a ++ b).getLast? = b.getLast? := by
  rw [List.getLast?_append]
  cases hb : b.getLast? with
  | none => exact absurd (List.getLast?_eq_none_iff.1 hb) h
  | some x => rfl

theorem white_not_quote {c : Char} (h : c = '\'') : isWhitespace c = false := by
  subst h; decide

/-- The name within the decoration. -/
theorem clean_decorated (text name : Str) (h : Decorated text name) (hp : Plain name) :
    cleanComponent text = name := by
  obtain ⟨w1, q1, q2, w2, e, hw, hq⟩ := h
  unfold cleanComponent
  have hq1 : ∀ c ∈ q1, c = '\'' := fun c hc => hq c (List.mem_append_left _ hc)
  have hq2 : ∀ c ∈ q2, c = '\'' := fun c hc => hq c (List.mem_append_right _ hc)
  have e1 : trimMatches isWhitespace text = q1 ++ name ++ q2 := by
    rw [e, show w1 ++ q1 ++ name ++ q2 ++ w2 = w1 ++ (q1 ++ name ++ q2) ++ w2 by simp [List.append_assoc]]
    apply trimMatches_text isWhitespace w1 _ w2 (fun c hc => hw c (List.mem_append_left _ hc))
      (fun c hc => hw c (List.mem_append_right _ hc))
    · intro c hc
      cases q1 with
      | cons a q1 => exact white_not_quote (hq1 c (by simp at hc; rw [hc]; exact List.mem_cons_self))
      | nil =>
        cases name with
        | cons a name => exact (hp c (.inl (by simpa using hc))).1
        | nil =>
          cases q2 with
          | cons a q2 => exact white_not_quote (hq2 c (by simp at hc; rw [hc]; exact List.mem_cons_self))
          | nil => simp at hc
    · intro c hc
      by_cases h2 : q2 = []
      · rw [h2, List.append_nil] at hc
        by_cases hn : name = []
        · rw [hn, List.append_nil] at hc
          exact white_not_quote (hq1 c (List.mem_of_getLast? hc))
        · rw [getLast?_append_ne _ hn] at hc
          exact (hp c (.inr hc)).1
      · rw [getLast?_append_ne _ h2] at hc
        exact white_not_quote (hq2 c (List.mem_of_getLast? hc))
  rw [e1]
  apply trimMatches_text
  · intro c hc; rw [hq1 c hc]; rfl
  · intro c hc; rw [hq2 c hc]; rfl
  · intro c hc; exact beq_false_of_ne (hp c (.inl hc)).2
  · intro c hc; exact beq_false_of_ne (hp c (.inr hc)).2

/-- The test of the code for the name of a log. -/
theorem namesLog_iff (name : Str) :
    (".log1".toList.isSuffixOf (asciiLower name) || ".log2".toList.isSuffixOf (asciiLower name)) = true ↔
      NamesLog name := by
  have key : ∀ x : Str, asciiLower x = x →
      (x.isSuffixOf (asciiLower name) = true ↔ ∃ stem ext, name = stem ++ ext ∧ SameIgnoringCase ext x) := by
    intro x hx
    rw [List.isSuffixOf_iff_suffix]
    constructor
    · rintro ⟨t, ht⟩
      rw [asciiLower_eq_map] at ht
      obtain ⟨a, b, h1, h2, h3⟩ := List.map_eq_append_iff.1 ht.symm
      refine ⟨a, b, h1, ?_⟩
      rw [← asciiLower_eq_iff, hx, asciiLower_eq_map, h3]
    · rintro ⟨a, b, h1, h2⟩
      rw [← asciiLower_eq_iff, hx] at h2
      refine ⟨asciiLower a, ?_⟩
      rw [h1, asciiLower_eq_map, asciiLower_eq_map, List.map_append, ← asciiLower_eq_map b, h2]
  rw [Bool.or_eq_true, key _ (by decide), key _ (by decide)]
  unfold NamesLog
  constructor
  · rintro (⟨a, b, h1, h2⟩ | ⟨a, b, h1, h2⟩)
    · exact ⟨a, b, h1, .inl h2⟩
    · exact ⟨a, b, h1, .inr h2⟩
  · rintro ⟨a, b, h1, h2 | h2⟩
    · exact .inl ⟨a, b, h1, h2⟩
    · exact .inr ⟨a, b, h1, h2⟩

theorem parsePathsLoop_logs (texts logs : List Str) (primary : Str) (acc : List Str)
    (h : Pairwise2 Decorated texts logs) (hp : ∀ l ∈ logs, Plain l ∧ NamesLog l) :
    parsePathsLoop texts primary acc = (primary, acc ++ logs) := by
  induction texts generalizing logs acc with
  | nil =>
    cases logs with
    | nil => rw [parsePathsLoop, List.append_nil]
    | cons _ _ => exact absurd h (by simp [Pairwise2])
  | cons t ts ih =>
    cases logs with
    | nil => exact absurd h (by simp [Pairwise2])
    | cons l ls =>
      obtain ⟨h1, h2⟩ := h
      rw [parsePathsLoop, clean_decorated t l h1 (hp l List.mem_cons_self).1]
      rw [if_pos ((namesLog_iff l).2 (hp l List.mem_cons_self).2),
        ih ls (acc ++ [l]) h2 fun m hm => hp m (List.mem_cons_of_mem _ hm)]
      simp

theorem parsePathsLoop_append (a b : List Str) (primary : Str) (acc : List Str) :
    parsePathsLoop (a ++ b) primary acc
      = parsePathsLoop b (parsePathsLoop a primary acc).1 (parsePathsLoop a primary acc).2 := by
  induction a generalizing primary acc with
  | nil => rfl
  | cons c a ih =>
    rw [List.cons_append, parsePathsLoop, parsePathsLoop]
    split
    · exact ih _ _
    · exact ih _ _

/-- C38: a list of one primary file and any logs, in any order, with white space and quotes around
the names, is taken apart into the primary file and the logs in their order. -/
theorem paths_taken_apart (before after logs1 logs2 : List Str) (text primary : Str)
    (hcomma : ∀ t ∈ before ++ text :: after, ',' ∉ t)
    (h1 : Pairwise2 Decorated before logs1) (h2 : Pairwise2 Decorated after logs2)
    (ht : Decorated text primary) (hp : Plain primary) (hn : ¬ NamesLog primary)
    (hl : ∀ l ∈ logs1 ++ logs2, Plain l ∧ NamesLog l) :
    parsePaths (commaList (before ++ text :: after))
      = (primary, if logs1 ++ logs2 = [] then none else some (logs1 ++ logs2)) := by
  unfold parsePaths
  rw [splitComma_list _ (by simp) hcomma, parsePathsLoop_append,
    parsePathsLoop_logs before logs1 [] [] h1 fun l hm => hl l (List.mem_append_left _ hm)]
  simp only [List.nil_append]
  rw [parsePathsLoop, clean_decorated text primary ht hp]
  rw [if_neg (fun hc => hn ((namesLog_iff primary).1 hc)),
    parsePathsLoop_logs after logs2 primary logs1 h2 fun l hm => hl l (List.mem_append_right _ hm)]
  simp only
  by_cases he : logs1 ++ logs2 = []
  · rw [if_pos (by rw [he]; rfl), if_pos he]
  · rw [if_neg (by rw [List.isEmpty_iff]; exact he), if_neg he]

/-- A quoted log, the primary file after white space, another log. -/
example : parsePaths (commaList ["'a.LOG1'".toList, " SYSTEM".toList, "b.log2 ".toList])
    = ("SYSTEM".toList, some ["a.LOG1".toList, "b.log2".toList]) :=
  paths_taken_apart ["'a.LOG1'".toList] ["b.log2 ".toList] ["a.LOG1".toList] ["b.log2".toList]
    " SYSTEM".toList "SYSTEM".toList (by decide)
    ⟨⟨[], ['\''], ['\''], [], rfl, by decide, by decide⟩, trivial⟩
    ⟨⟨[], [], [], [' '], rfl, by decide, by decide⟩, trivial⟩
    ⟨[' '], [], [], [], rfl, by decide, by decide⟩
    (by intro c hc; simp at hc; rcases hc with rfl | rfl <;> decide)
    (fun h => absurd ((namesLog_iff _).2 h) (by decide))
    (by
      intro l hl
      simp only [List.cons_append, List.nil_append, List.mem_cons, List.not_mem_nil, or_false] at hl
      rcases hl with rfl | rfl
      · exact ⟨by intro c hc; simp at hc; rcases hc with rfl | rfl <;> decide, (namesLog_iff _).1 (by decide)⟩
      · exact ⟨by intro c hc; simp at hc; rcases hc with rfl | rfl <;> decide, (namesLog_iff _).1 (by decide)⟩)

/-! ### C50: every export has its own file -/

theorem runJobs_other (dump : List Str → Option (List (List Str)) → Option Str) (jobs : List Job)
    (out : Str → Option Str) (name : Str) (h : ∀ j ∈ jobs, j.output ≠ name) :
    runJobs dump jobs out name = out name := by
  induction jobs generalizing out with
  | nil => rfl
  | cons j js ih =>
    rw [runJobs]
    have hj := h j List.mem_cons_self
    cases dump j.input j.logs with
    | none => exact ih _ fun k hk => h k (List.mem_cons_of_mem _ hk)
    | some text =>
      simp only
      rw [ih _ fun k hk => h k (List.mem_cons_of_mem _ hk), if_neg (Ne.symm hj)]

theorem runJobs_exported (dump : List Str → Option (List (List Str)) → Option Str) (jobs : List Job)
    (out : Str → Option Str) (h : jobs.Pairwise fun a b => a.output ≠ b.output) :
    AllExported dump jobs (runJobs dump jobs out) := by
  induction jobs generalizing out with
  | nil => intro j hj; cases hj
  | cons j js ih =>
    rw [List.pairwise_cons] at h
    intro k hk text htext
    rw [runJobs]
    rcases List.mem_cons.1 hk with rfl | hk
    · rw [htext]
      simp only
      rw [runJobs_other _ _ _ _ fun k' hk' => Ne.symm (h.1 k' hk'), if_pos rfl]
    · cases dump j.input j.logs with
      | none => exact ih _ h.2 k hk text htext
      | some t => exact ih _ h.2 k hk text htext

theorem fileStem_plain (s : Str) (h : '.' ∉ s) : fileStem s = s := by
  have : s.reverse.dropWhile (· != '.') = [] := by
    have := dropWhile_prefix (· != '.') s.reverse [] (by
      intro c hc
      have hc := List.mem_reverse.1 hc
      simp only [bne_iff_ne, ne_eq]
      intro e
      exact h (e ▸ hc)) (by simp)
    simpa using this
  unfold fileStem
  rw [this]

theorem fileStem_dot (a b : Str) (ha : a ≠ []) (hb : '.' ∉ b) : fileStem (a ++ '.' :: b) = a := by
  have : (a ++ '.' :: b).reverse.dropWhile (· != '.') = '.' :: a.reverse := by
    rw [show (a ++ '.' :: b).reverse = b.reverse ++ '.' :: a.reverse by simp]
    apply dropWhile_prefix
    · intro c hc
      have hc := List.mem_reverse.1 hc
      simp only [bne_iff_ne, ne_eq]
      intro e
      exact hb (e ▸ hc)
    · intro c hc
      simp at hc
      subst hc
      rfl
  unfold fileStem
  rw [this]
  simp only
  rw [if_neg (by simpa using ha), List.reverse_reverse]

/-- The first underscore splits a text in one way. -/
theorem underscore_split (a b r s : Str) (ha : '_' ∉ a) (hb : '_' ∉ b) (h : a ++ '_' :: r = b ++ '_' :: s) :
    a = b ∧ r = s := by
  induction a generalizing b with
  | nil =>
    cases b with
    | nil => simp at h; exact ⟨rfl, h⟩
    | cons c b =>
      simp only [List.nil_append, List.cons_append, List.cons.injEq] at h
      exact absurd (by rw [← h.1]; exact List.mem_cons_self) hb
  | cons c a ih =>
    cases b with
    | nil =>
      simp only [List.nil_append, List.cons_append, List.cons.injEq] at h
      exact absurd (by rw [h.1]; exact List.mem_cons_self) ha
    | cons d b =>
      simp only [List.cons_append, List.cons.injEq] at h
      obtain ⟨h1, h2⟩ := ih b (fun hc => ha (List.mem_cons_of_mem _ hc))
        (fun hc => hb (List.mem_cons_of_mem _ hc)) h.2
      exact ⟨by rw [h.1, h1], h2⟩

theorem joinUnderscore_cons (c : Str) (cs : List Str) (h : cs ≠ []) :
    joinUnderscore (c :: cs) = c ++ '_' :: joinUnderscore cs := by
  cases cs with
  | nil => exact absurd rfl h
  | cons d cs => rw [joinUnderscore]; simp

theorem joinUnderscore_inj (a b : List Str) (ha : a ≠ []) (hb : b ≠ []) (ha' : ∀ c ∈ a, '_' ∉ c)
    (hb' : ∀ c ∈ b, '_' ∉ c) (h : joinUnderscore a = joinUnderscore b) : a = b := by
  induction a generalizing b with
  | nil => exact absurd rfl ha
  | cons x xs ih =>
    cases b with
    | nil => exact absurd rfl hb
    | cons y ys =>
      have hx := ha' x List.mem_cons_self
      have hy := hb' y List.mem_cons_self
      by_cases h1 : xs = []
      · by_cases h2 : ys = []
        · subst h1; subst h2
          rw [joinUnderscore, joinUnderscore] at h
          rw [h]
        · subst h1
          rw [joinUnderscore, joinUnderscore_cons y ys h2] at h
          exact absurd (by rw [h]; simp) hx
      · by_cases h2 : ys = []
        · subst h2
          rw [joinUnderscore_cons x xs h1, joinUnderscore] at h
          exact absurd (by rw [← h]; simp) hy
        · rw [joinUnderscore_cons x xs h1, joinUnderscore_cons y ys h2] at h
          obtain ⟨e1, e2⟩ := underscore_split x y _ _ hx hy h
          rw [e1, ih ys h1 h2 (fun c hc => ha' c (List.mem_cons_of_mem _ hc))
            (fun c hc => hb' c (List.mem_cons_of_mem _ hc)) e2]

/-- Joining, and the last name at the end. -/
theorem joinUnderscore_last (a : List Str) (x y : Str) :
    joinUnderscore (a ++ [x ++ y]) = joinUnderscore (a ++ [x]) ++ y := by
  induction a with
  | nil => rfl
  | cons c a ih =>
    rw [List.cons_append, List.cons_append, joinUnderscore_cons _ _ (by simp),
      joinUnderscore_cons _ _ (by simp), ih]
    simp

theorem joinUnderscore_nodot (a : List Str) (h : ∀ c ∈ a, '.' ∉ c) : '.' ∉ joinUnderscore a := by
  induction a with
  | nil => simp [joinUnderscore]
  | cons c a ih =>
    by_cases ha : a = []
    · subst ha; exact h c List.mem_cons_self
    · rw [joinUnderscore_cons c a ha]
      intro hm
      rcases List.mem_append.1 hm with hm | hm
      · exact h c List.mem_cons_self hm
      · rcases List.mem_cons.1 hm with hm | hm
        · exact absurd hm (by decide)
        · exact ih (fun d hd => h d (List.mem_cons_of_mem _ hd)) hm

theorem mem_asciiLower {c : Char} (hc : lowerChar c = c) {s : Str} (h : c ∈ s) : c ∈ asciiLower s := by
  rw [asciiLower_eq_map]
  exact List.mem_map.2 ⟨c, h, hc⟩

/-- The part of a hive's name before its extension, and the extension. -/
theorem hive_name_parts (f : Str) (h : regFiles.contains (asciiLower f) = true) :
    ∃ st sx, f = st ++ sx ∧ st ≠ [] ∧ '.' ∉ st ∧ '_' ∉ st ∧
      ((sx = [] ∧ asciiLower st ∈ regFiles) ∨
       ((∃ b, sx = '.' :: b ∧ '.' ∉ b) ∧ asciiLower sx = ".dat".toList ∧ asciiLower st ++ ".dat".toList ∈ regFiles)) := by
  have hm : asciiLower f ∈ regFiles := by simpa using h
  have hdot : lowerChar '.' = '.' := by decide
  have hund : lowerChar '_' = '_' := by decide
  by_cases hd : '.' ∈ asciiLower f
  · have : ∃ x, asciiLower f = x ++ ".dat".toList ∧ x ≠ [] ∧ '.' ∉ x ∧ '_' ∉ x := by
      simp only [regFiles, List.map_cons, List.map_nil, List.mem_cons, List.not_mem_nil, or_false] at hm
      rcases hm with e | e | e | e | e | e | e | e
      · rw [e] at hd; exact absurd hd (by decide)
      · rw [e] at hd; exact absurd hd (by decide)
      · rw [e] at hd; exact absurd hd (by decide)
      · rw [e] at hd; exact absurd hd (by decide)
      · rw [e] at hd; exact absurd hd (by decide)
      · rw [e] at hd; exact absurd hd (by decide)
      · exact ⟨"ntuser".toList, e, by decide, by decide, by decide⟩
      · exact ⟨"usrclass".toList, e, by decide, by decide, by decide⟩
    obtain ⟨x, hx, hne, h1, h2⟩ := this
    have hx0 := hx
    rw [asciiLower_eq_map] at hx
    obtain ⟨st, sx, e1, e2, e3⟩ := List.map_eq_append_iff.1 hx
    rw [← asciiLower_eq_map] at e2 e3
    have hst : '.' ∉ st := fun hc => h1 (e2 ▸ mem_asciiLower hdot hc)
    have hst' : '_' ∉ st := fun hc => h2 (e2 ▸ mem_asciiLower hund hc)
    have hb : ∃ b, sx = '.' :: b ∧ '.' ∉ b := by
      cases sx with
      | nil => exact absurd e3 (by decide)
      | cons c b =>
        rw [asciiLower_eq_map, List.map_cons] at e3
        have e4 := List.cons.inj e3
        have hc : c = '.' := by
          have := (lowerChar_eq_iff c '.').1 (by rw [e4.1]; decide)
          rcases this with h | h | h
          · exact h
          · unfold UpperLower at h
            have : ('.' : Char).toNat = 46 := rfl
            omega
          · unfold UpperLower at h
            have : ('.' : Char).toNat = 46 := rfl
            omega
        refine ⟨b, by rw [hc], fun hm => ?_⟩
        have := mem_asciiLower hdot hm
        rw [asciiLower_eq_map, e4.2] at this
        exact absurd this (by decide)
    refine ⟨st, sx, e1, ?_, hst, hst', .inr ⟨hb, e3, ?_⟩⟩
    · intro hs
      rw [hs] at e2
      exact hne (by rw [← e2]; rfl)
    · rw [e2, ← hx0]
      exact hm
  · refine ⟨f, [], by rw [List.append_nil], ?_, fun hc => hd (mem_asciiLower hdot hc), ?_, .inl ⟨rfl, hm⟩⟩
    · intro he
      rw [he] at hm
      exact absurd hm (by decide)
    · intro hc
      have hc := mem_asciiLower hund hc
      have hall : ∀ x ∈ regFiles, '_' ∉ x := by decide
      exact hall _ hm hc

/-- The names of the output files tell apart the folders and, up to case, the hives. -/
theorem outName_inj (a b : List Str) (f g : Str) (t : OutputType)
    (ha : ∀ c ∈ a, '_' ∉ c ∧ '.' ∉ c) (hb : ∀ c ∈ b, '_' ∉ c ∧ '.' ∉ c)
    (hf : regFiles.contains (asciiLower f) = true) (hg : regFiles.contains (asciiLower g) = true)
    (h : outName (a ++ [f]) t = outName (b ++ [g]) t) : a = b ∧ SameIgnoringCase f g := by
  obtain ⟨s1, x1, e1, n1, d1, u1, c1⟩ := hive_name_parts f hf
  obtain ⟨s2, x2, e2, n2, d2, u2, c2⟩ := hive_name_parts g hg
  have stem : ∀ (a : List Str) (s x : Str), (∀ c ∈ a, '_' ∉ c ∧ '.' ∉ c) → s ≠ [] → '.' ∉ s →
      ((x = [] ∧ asciiLower s ∈ regFiles) ∨ ((∃ b, x = '.' :: b ∧ '.' ∉ b) ∧
        asciiLower x = ".dat".toList ∧ asciiLower s ++ ".dat".toList ∈ regFiles)) →
      fileStem (joinUnderscore (a ++ [s ++ x])) = joinUnderscore (a ++ [s]) := by
    intro a s x ha hs hd hc
    have hnd : '.' ∉ joinUnderscore (a ++ [s]) := by
      apply joinUnderscore_nodot
      intro c hc
      rcases List.mem_append.1 hc with hc | hc
      · exact (ha c hc).2
      · rw [List.mem_singleton.1 hc]; exact hd
    rcases hc with ⟨hx, _⟩ | ⟨⟨b, hx, hb⟩, _⟩
    · rw [hx, List.append_nil, fileStem_plain _ hnd]
    · rw [hx, joinUnderscore_last, fileStem_dot _ _ ?_ hb]
      intro he
      have := joinUnderscore_last a [] s
      rw [List.nil_append, he] at this
      exact hs (List.append_eq_nil_iff.1 this.symm).2
  unfold outName setExtension at h
  rw [e1, e2, stem a s1 x1 ha n1 d1 c1, stem b s2 x2 hb n2 d2 c2] at h
  have h := List.append_cancel_right h
  have hu : ∀ (a : List Str) (s : Str), (∀ c ∈ a, '_' ∉ c ∧ '.' ∉ c) → '_' ∉ s → ∀ c ∈ a ++ [s], '_' ∉ c := by
    intro a s ha hs c hc
    rcases List.mem_append.1 hc with hc | hc
    · exact (ha c hc).1
    · rw [List.mem_singleton.1 hc]; exact hs
  have h := joinUnderscore_inj _ _ (by simp) (by simp) (hu a s1 ha u1) (hu b s2 hb u2) h
  obtain ⟨h1, h2⟩ := List.append_inj' h rfl
  refine ⟨h1, ?_⟩
  have h2 : s1 = s2 := by simpa using h2
  subst h2
  rw [← asciiLower_eq_iff, e1, e2]
  have happ : ∀ a b : Str, asciiLower (a ++ b) = asciiLower a ++ asciiLower b := by
    intro a b; rw [asciiLower_eq_map, asciiLower_eq_map, asciiLower_eq_map, List.map_append]
  have hno : ∀ x : Str, x ∈ regFiles → x ++ ".dat".toList ∈ regFiles → False := by
    have : ∀ x ∈ regFiles, x ++ ".dat".toList ∉ regFiles := by decide
    intro x hx hx'
    exact this x hx hx'
  rw [happ, happ]
  rcases c1 with ⟨h1, h1'⟩ | ⟨_, h1, h1'⟩
  · rcases c2 with ⟨h2, _⟩ | ⟨_, h2, h2'⟩
    · rw [h1, h2]
    · exact absurd h2' (fun h => hno _ h1' h)
  · rcases c2 with ⟨h2, h2'⟩ | ⟨_, h2, h2'⟩
    · exact absurd h1' (fun h => hno _ h2' h)
    · rw [h1, h2]

/-- C50: recursing, every hive that can be exported has its export in the output folder.

Partial: the names of the folders have no underscores and no dots (`outputs_dot_violated`,
`outputs_underscore_violated`), and no folder has two hives whose names differ in case only. -/
theorem outputs_partial (fs : Files) (skip : Bool) (t : OutputType) (base : List Str)
    (entries : List (List Str)) (dump : List Str → Option (List (List Str)) → Option Str)
    (out : Str → Option Str) (hnd : entries.Nodup)
    (hne : ∀ rel ∈ entries, rel ≠ [])
    (hnames : ∀ rel ∈ entries, ∀ c ∈ rel.dropLast, '_' ∉ c ∧ '.' ∉ c)
    (hcase : ∀ folder f g, folder ++ [f] ∈ entries → folder ++ [g] ∈ entries → SameIgnoringCase f g → f = g) :
    AllExported dump (folderJobs fs skip t base entries)
      (runJobs dump (folderJobs fs skip t base entries) out) := by
  apply runJobs_exported
  unfold folderJobs
  rw [List.pairwise_map]
  have hsub : (entries.filter fun rel => takesFile fs (base ++ rel)).Nodup := hnd.filter _
  refine List.Pairwise.imp_of_mem ?_ hsub
  intro r1 r2 h1 h2 hdiff heq
  rw [List.mem_filter] at h1 h2
  apply hdiff
  have parts : ∀ r, r ∈ entries → takesFile fs (base ++ r) = true → ∃ a f, r = a ++ [f] ∧
      (∀ c ∈ a, '_' ∉ c ∧ '.' ∉ c) ∧ regFiles.contains (asciiLower f) = true := by
    intro r hr ht
    have hn := hne r hr
    refine ⟨r.dropLast, r.getLast hn, (List.dropLast_concat_getLast hn).symm, hnames r hr, ?_⟩
    unfold takesFile at ht
    rw [getLast?_append_ne _ hn, List.getLast?_eq_some_getLast hn] at ht
    simp only [Bool.and_eq_true] at ht
    exact ht.1
  obtain ⟨a, f, e1, ha, hf⟩ := parts r1 h1.1 h1.2
  obtain ⟨b, g, e2, hb, hg⟩ := parts r2 h2.1 h2.2
  subst e1; subst e2
  obtain ⟨h3, h4⟩ := outName_inj a b f g t ha hb hf hg heq
  subst h3
  rw [hcase a f g h1.1 h2.1 h4]

/-- Two users with a hive each, and a hive at the top. -/
example (dump : List Str → Option (List (List Str)) → Option Str) (out : Str → Option Str) :
    AllExported dump
      (folderJobs (fun _ => some 1) true .Tsv [] [["SAM".toList], ["Ann".toList, "NTUSER.DAT".toList],
        ["Bob".toList, "NTUSER.DAT".toList]])
      (runJobs dump (folderJobs (fun _ => some 1) true .Tsv [] [["SAM".toList],
        ["Ann".toList, "NTUSER.DAT".toList], ["Bob".toList, "NTUSER.DAT".toList]]) out) := by
  apply outputs_partial
  · decide
  · decide
  · decide
  · intro folder f g h1 h2 h
    simp only [List.mem_cons, List.not_mem_nil, or_false] at h1 h2
    have hs : ∀ (r : List Str) (x : Str), folder ++ [x] = r → folder = r.dropLast ∧ some x = r.getLast? := by
      intro r x e; subst e; simp
    rcases h1 with h1 | h1 | h1 <;> rcases h2 with h2 | h2 | h2 <;>
      (have a := hs _ _ h1; have b := hs _ _ h2
       rw [b.1] at a
       first
       | exact absurd a.1 (by decide)
       | exact Option.some.inj (a.2.trans b.2.symm))
example : folderJobs (fun _ => some 1) true .Tsv [] [["SAM".toList], ["Ann".toList, "NTUSER.DAT".toList]]
    = [⟨["SAM".toList], none, "SAM.tsv".toList⟩,
       ⟨["Ann".toList, "NTUSER.DAT".toList], none, "Ann_NTUSER.tsv".toList⟩] := by decide +kernel

/-- The full claim of C50. -/
def OutputsOk : Prop :=
  ∀ (fs : Files) (t : OutputType) (entries : List (List Str))
    (dump : List Str → Option (List (List Str)) → Option Str), entries.Nodup →
    (∀ rel ∈ entries, rel ≠ []) →
    AllExported dump (folderJobs fs true t [] entries)
      (runJobs dump (folderJobs fs true t [] entries) fun _ => none)

/-- C50: the code violates the claim.  The extension is what follows the last dot of the whole path:
the hives `SAM` and `SYSTEM` in the folder `jo.doe` both go to `jo.tsv`, and one export is lost. -/
theorem outputs_dot_violated : ¬ OutputsOk := by
  intro h
  have := h (fun _ => some 1) .Tsv [["jo.doe".toList, "SAM".toList], ["jo.doe".toList, "SYSTEM".toList]]
    (fun p _ => p.getLast?) (by decide) (by decide)
    ⟨["jo.doe".toList, "SAM".toList], none, "jo.tsv".toList⟩ (by decide +kernel) "SAM".toList rfl
  exact absurd this (by decide +kernel)

/-- C50: `a_b/SAM` and `a/b/SAM` both go to `a_b_SAM.tsv`. -/
theorem outputs_underscore_violated : ¬ OutputsOk := by
  intro h
  have := h (fun _ => some 1) .Tsv [["a".toList, "b".toList, "SAM".toList], ["a_b".toList, "SAM".toList]]
    (fun p _ => p.head?) (by decide) (by decide)
    ⟨["a".toList, "b".toList, "SAM".toList], none, "a_b_SAM.tsv".toList⟩ (by decide +kernel) "a".toList rfl
  exact absurd this (by decide +kernel)

/-! ### C51: the hives a walk takes -/

theorem takesFile_iff (fs : Files) (path : List Str) (n : Str) (hl : path.getLast? = some n)
    (h1 : ¬ SameIgnoringCase n "Amcache.hve".toList) (h2 : ¬ SameIgnoringCase n "amcache".toList) :
    takesFile fs path = true ↔ IsHive fs path := by
  unfold takesFile IsHive
  rw [hl]
  simp only [Bool.and_eq_true]
  have ha : regFiles.contains (asciiLower n) = true ↔
      ∃ f ∈ standardNames, ∃ m, some n = some m ∧ SameIgnoringCase m f := by
    have e : ∀ s : Str, SameIgnoringCase n s ↔ asciiLower n = asciiLower s := fun s => (asciiLower_eq_iff n s).symm
    rw [e] at h1 h2
    simp only [List.contains_iff_mem, regFiles, standardNames, List.map_cons, List.map_nil, List.mem_cons,
      List.not_mem_nil, or_false, Option.some.injEq, exists_eq_left', e, exists_eq_or_imp, exists_eq_left]
    have l1 : asciiLower "SAM".toList = "sam".toList := by decide
    have l2 : asciiLower "SECURITY".toList = "security".toList := by decide
    have l3 : asciiLower "SOFTWARE".toList = "software".toList := by decide
    have l4 : asciiLower "SYSTEM".toList = "system".toList := by decide
    have l5 : asciiLower "DEFAULT".toList = "default".toList := by decide
    have l7 : asciiLower "NTUSER.DAT".toList = "ntuser.dat".toList := by decide
    have l8 : asciiLower "UsrClass.dat".toList = "usrclass.dat".toList := by decide
    have l9 : asciiLower "amcache".toList = "amcache".toList := by decide
    rw [l9] at h2
    rw [l1, l2, l3, l4, l5, l7, l8]
    simp only [h1, h2, false_or]
  rw [ha]
  have hb : fileHasSize fs path = true ↔ ∃ k, fs path = some (k + 1) := by
    unfold fileHasSize
    cases fs path with
    | none => simp
    | some k =>
      cases k with
      | zero => simp
      | succ k => simp
  rw [hb]

/-- C51: recursing exports every file with the name of a standard hive that is not empty, once, with
the logs that belong to it.

Partial: `Amcache.hve` is not taken (`hives_taken_violated`), and a file `amcache` is. -/
theorem hives_taken_partial (fs : Files) (skip : Bool) (t : OutputType) (base : List Str)
    (entries : List (List Str)) (hne : ∀ rel ∈ entries, rel ≠ [])
    (ham : ∀ rel ∈ entries, ∀ n, rel.getLast? = some n →
      ¬ SameIgnoringCase n "Amcache.hve".toList ∧ ¬ SameIgnoringCase n "amcache".toList)
    (dirs : List Str → Folder) (hdirs : ∀ p, (dirs p).At fs p ∧ (dirs p).CaseInsensitive) :
    ∃ taken : List (List Str), taken.Sublist entries ∧
      (∀ rel ∈ entries, rel ∈ taken ↔ IsHive fs (base ++ rel)) ∧
      (folderJobs fs skip t base entries).map (·.input) = taken.map (base ++ ·) ∧
      ∀ j ∈ folderJobs fs skip t base entries,
        ∃ folder name, j.input = folder ++ [name] ∧
          (skip = true → j.logs = none) ∧
          (skip = false → ∃ logs, j.logs = some logs ∧ (dirs folder).LogsFound folder name logs) := by
  refine ⟨entries.filter fun rel => takesFile fs (base ++ rel), List.filter_sublist, ?_, ?_, ?_⟩
  · intro rel hrel
    have hn := hne rel hrel
    have hl : rel.getLast? = some (rel.getLast hn) := List.getLast?_eq_some_getLast hn
    obtain ⟨a1, a2⟩ := ham rel hrel _ hl
    rw [List.mem_filter, ← takesFile_iff fs (base ++ rel) _ (by rw [getLast?_append_ne _ hn, hl]) a1 a2]
    exact ⟨fun h => h.2, fun h => ⟨hrel, h⟩⟩
  · unfold folderJobs
    rw [List.map_map]
    rfl
  · intro j hj
    unfold folderJobs at hj
    obtain ⟨rel, hr, rfl⟩ := List.mem_map.1 hj
    have hn := hne rel (List.mem_filter.1 hr).1
    have hl : rel.getLast? = some (rel.getLast hn) := List.getLast?_eq_some_getLast hn
    have he : base ++ rel = (base ++ rel.dropLast) ++ [rel.getLast hn] := by
      rw [List.append_assoc, List.dropLast_concat_getLast]
    refine ⟨base ++ rel.dropLast, rel.getLast hn, he, ?_, ?_⟩
    · intro hs
      subst hs
      rfl
    · intro hs
      subst hs
      simp only [hl, Option.getD_some, he]
      exact (log_files_partial fs (dirs (base ++ rel.dropLast)) (base ++ rel.dropLast) (rel.getLast hn)
        (hdirs _).1 (.inl (hdirs _).2)).2

/-- A folder with a hive and its first log, where case does not matter. -/
def hiveFolder : List Str := ["SAM".toList, "sam.log1".toList]
def hiveFolderFiles : Files := fun p =>
  match p with
  | [n] => if (hiveFolder.map asciiLower).contains (asciiLower n) then some 1 else none
  | _ => none

theorem hiveFolder_at (p : List Str) :
    (Folder.mk (if p = [] then hiveFolder else []) SameIgnoringCase).At hiveFolderFiles p ∧
      (Folder.mk (if p = [] then hiveFolder else []) SameIgnoringCase).CaseInsensitive := by
  refine ⟨?_, ⟨sameIgnoringCase_refl, ?_, ?_⟩, fun _ _ h => h⟩
  · intro n
    by_cases hp : p = []
    · subst hp
      show (if (hiveFolder.map asciiLower).contains (asciiLower n) = true then some 1 else none : Option Nat).isSome
        = true ↔ ∃ e ∈ (if True then hiveFolder else []), SameIgnoringCase e n
      rw [if_pos trivial]
      have : (hiveFolder.map asciiLower).contains (asciiLower n) = true ↔ ∃ e ∈ hiveFolder, SameIgnoringCase e n := by
        rw [List.contains_iff_mem, List.mem_map]
        simp only [asciiLower_eq_iff]
      rw [← this]
      by_cases h : (hiveFolder.map asciiLower).contains (asciiLower n) = true
      · rw [if_pos h]; exact ⟨fun _ => h, fun _ => rfl⟩
      · rw [if_neg h]; exact ⟨fun h' => (by cases h'), fun h' => absurd h' h⟩
    · simp only [if_neg hp]
      cases p with
      | nil => exact absurd rfl hp
      | cons a p =>
        cases p with
        | nil => simp [hiveFolderFiles]
        | cons b p => simp [hiveFolderFiles]
  · intro a b h
    exact (asciiLower_eq_iff _ _).1 ((asciiLower_eq_iff _ _).2 h).symm
  · intro a b c h1 h2
    exact (asciiLower_eq_iff _ _).1 (((asciiLower_eq_iff _ _).2 h1).trans ((asciiLower_eq_iff _ _).2 h2))

example :=
  hives_taken_partial hiveFolderFiles false .Tsv [] [["SAM".toList], ["sam.log1".toList]] (by decide)
    (by
      intro rel hr n hn
      simp only [List.mem_cons, List.not_mem_nil, or_false] at hr
      rcases hr with rfl | rfl <;> (cases hn; decide))
    _ hiveFolder_at
example : folderJobs hiveFolderFiles false .Tsv [] [["SAM".toList], ["sam.log1".toList]]
    = [⟨["SAM".toList], some [["SAM.LOG1".toList]], "SAM.tsv".toList⟩] := by decide +kernel

/-- C51: the code violates the claim.  The hive `Amcache.hve` is passed over. -/
theorem hives_taken_violated :
    IsHive (fun _ => some 1) ["Amcache.hve".toList] ∧
    folderJobs (fun _ => some 1) true .Tsv [] [["Amcache.hve".toList]] = [] := by
  refine ⟨⟨⟨"Amcache.hve".toList, by decide, _, rfl, by decide⟩, 0, rfl⟩, by decide +kernel⟩

/-- C51, for the comparison of two folders: compared are the hives of the one that are there in the
other too. -/
theorem hives_compared_pairs (fs : Files) (skip : Bool) (t : OutputType) (base other : List Str)
    (entries : List (List Str)) :
    (compareJobs fs skip t base other entries).map (·.1) =
      folderJobs fs skip t base (entries.filter fun rel => fileHasSize fs (other ++ rel)) ∧
    ∀ p ∈ compareJobs fs skip t base other entries, ∃ rel ∈ entries, p.1.input = base ++ rel ∧
      p.2.input = other ++ rel ∧ ∃ k, fs (other ++ rel) = some (k + 1) := by
  constructor
  · unfold compareJobs folderJobs
    rw [List.map_map, List.filter_filter]
    rfl
  · intro p hp
    unfold compareJobs at hp
    obtain ⟨rel, hr, rfl⟩ := List.mem_map.1 hp
    rw [List.mem_filter, Bool.and_eq_true] at hr
    refine ⟨rel, hr.1, rfl, rfl, ?_⟩
    have := hr.2.2
    unfold fileHasSize at this
    cases h : fs (other ++ rel) with
    | none => rw [h] at this; cases this
    | some k =>
      rw [h] at this
      cases k with
      | zero => cases this
      | succ k => exact ⟨k, rfl⟩

end Notatin
