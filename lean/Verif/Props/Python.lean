import Verif.Model.Python
import Verif.Props.Time
import Verif.Props.Content
import Verif.Props.Open
/-
The Python bindings.  C66: dates.  C67: the parser object.  C68: building twice.  C69: contents.
-/
namespace Notatin
open Spec

/-! ### C66 -/

/-- The fields exist in the calendar and on the clock. -/
def PyDateTime.Valid (d : PyDateTime) : Prop :=
  1601 ≤ d.year ∧ 1 ≤ d.month ∧ d.month ≤ 12 ∧ 1 ≤ d.day ∧ d.day ≤ monthLength d.year d.month ∧
    d.hour < 24 ∧ d.minute < 60 ∧ d.second < 60 ∧ d.microsecond < 1000000

/-- Microseconds from 1601-01-01, read as UTC. -/
def PyDateTime.micros (d : PyDateTime) : Nat :=
  ((daysFrom 1601 (d.year - 1601) + monthStart d.year (d.month - 1) + (d.day - 1)) * 86400 +
    d.hour * 3600 + d.minute * 60 + d.second) * 1000000 + d.microsecond

/-- A number of microseconds nearest to one of 100 ns ticks, the even one of two. -/
def Spec.NearestEven (micros ticks : Nat) : Prop :=
  (micros * 10 ≤ ticks + 5 ∧ ticks ≤ micros * 10 + 5) ∧
    (micros * 10 = ticks + 5 ∨ ticks = micros * 10 + 5 → micros % 2 = 0)

/-- Python compares dates field by field. -/
def PyDateTime.fields (d : PyDateTime) : List Nat :=
  [d.year, d.month, d.day, d.hour, d.minute, d.second, d.microsecond]

/-- There is one such number, and it grows with the ticks. -/
theorem nearestEven_mono (a b m n : Nat) (ha : NearestEven m a) (hb : NearestEven n b) (h : a ≤ b) :
    m ≤ n := by
  obtain ⟨⟨a1, a2⟩, a3⟩ := ha
  obtain ⟨⟨b1, b2⟩, b3⟩ := hb
  omega

theorem roundToUsec_nearest (ticks : Nat) (h : FitsNanos ticks) :
    ∃ m, (roundToUsec (dateTimeFromFiletime ticks) + 11644473600 * 1000000000).toNat = m * 1000 ∧
      NearestEven m ticks := by
  have hd := (filetime_exact_iff_partial ticks).2 h
  unfold filetimeInstant at hd
  rw [daysFrom_val] at hd
  -- the seconds and the ticks in the second
  have hs : dateTimeFromFiletime ticks / 1000000000 = ((ticks / 10000000 : Nat) : Int) - 11644473600 := by
    rw [hd]; omega
  have hn : (dateTimeFromFiletime ticks % 1000000000).toNat = ticks % 10000000 * 100 := by
    rw [hd]; omega
  unfold roundToUsec dateSplitter
  simp only
  rw [hs, hn]
  generalize hS : ticks / 10000000 = S
  generalize hF : ticks % 10000000 = F
  have hFl : F < 10000000 := by omega
  have ht : ticks = S * 10000000 + F := by omega
  have key : ∃ m, nanosToMicros (F * 100) = m ∧ (m * 10 ≤ F + 5 ∧ F ≤ m * 10 + 5) ∧
      (m * 10 = F + 5 ∨ F = m * 10 + 5 → m % 2 = 0) := by
    refine ⟨_, rfl, ?_⟩
    unfold nanosToMicros
    simp only
    split
    · omega
    · split
      · omega
      · omega
  obtain ⟨m, hm, h1, h2⟩ := key
  rw [hm]
  refine ⟨S * 1000000 + m, ?_, ?_⟩
  · omega
  · unfold NearestEven
    omega

theorem pyDate_spec (ticks : Nat) (h : FitsNanos ticks) :
    (dateToPyobject (dateTimeFromFiletime ticks)).Valid ∧
      NearestEven (dateToPyobject (dateTimeFromFiletime ticks)).micros ticks := by
  obtain ⟨M, hM, hnear⟩ := roundToUsec_nearest ticks h
  unfold dateToPyobject
  simp only
  rw [hM]
  have e1 : M * 1000 / 1000000000 = M / 1000000 := by omega
  have e2 : M * 1000 % 1000000000 / 1000 = M % 1000000 := by omega
  rw [e1, e2]
  generalize hS : M / 1000000 = S
  obtain ⟨k, r, h1, _, h3, h4⟩ := yearOf_spec (S / 86400) 0 (S / 86400) (Nat.le_refl _)
  obtain ⟨m, d, g1, g2, g3, g4⟩ := monthOf_spec (1601 + k) r h3
  simp only [daysFrom, Nat.zero_add, Nat.add_zero] at h1 h4
  rw [h1]
  simp only
  rw [g1]
  simp only
  refine ⟨⟨by simp, by simp, by simp; omega, by simp, ?_, ?_, ?_, ?_, ?_⟩, ?_⟩
  · simp only; omega
  · simp only; omega
  · simp only; omega
  · simp only; omega
  · simp only; omega
  · unfold PyDateTime.micros
    simp only [Nat.add_sub_cancel, Nat.add_sub_cancel_left]
    rw [Nat.add_assoc (daysFrom 1601 k), g4, h4]
    have : (S / 86400 * 86400 + S % 86400 / 3600 * 3600 + S % 86400 / 60 % 60 * 60 + S % 86400 % 60) * 1000000 +
        M % 1000000 = M := by omega
    rw [this]
    exact hnear

/-- Dates that compare as Python does compare as the instants. -/
theorem fields_lt (s t : PyDateTime) (hs : s.Valid) (ht : t.Valid) (h : s.fields < t.fields) :
    s.micros < t.micros := by
  obtain ⟨s1, s2, s3, s4, s5, s6, s7⟩ := s
  obtain ⟨t1, t2, t3, t4, t5, t6, t7⟩ := t
  obtain ⟨a1, a2, a3, a4, a5, a6, a7, a8, a9⟩ := hs
  obtain ⟨b1, b2, b3, b4, b5, b6, b7, b8, b9⟩ := ht
  simp only at a1 a2 a3 a4 a5 a6 a7 a8 a9 b1 b2 b3 b4 b5 b6 b7 b8 b9
  unfold PyDateTime.fields at h
  simp only [List.cons_lt_cons_iff] at h
  have yearEnd : daysFrom 1601 (s1 - 1601) + monthStart s1 (s2 - 1) + (s3 - 1) <
      daysFrom 1601 (s1 + 1 - 1601) := by
    have e : s1 + 1 - 1601 = (s1 - 1601) + 1 := by omega
    rw [e, daysFrom_succ, show 1601 + (s1 - 1601) = s1 by omega, ← monthStart_12 s1]
    have := monthStart_mono s1 s2 12 a3
    have e2 : monthStart s1 s2 = monthStart s1 (s2 - 1) + monthLength s1 s2 := by
      obtain ⟨k, rfl⟩ := Nat.exists_eq_add_of_le' a2
      rfl
    omega
  unfold PyDateTime.micros
  simp only
  have dayLess : ∀ D E : Nat, D < E → ((D * 86400 + s4 * 3600 + s5 * 60 + s6) * 1000000 + s7) <
      ((E * 86400 + t4 * 3600 + t5 * 60 + t6) * 1000000 + t7) := by
    intro D E h
    omega
  rcases h with h | ⟨rfl, h⟩
  · have := daysFrom_mono 1601 (s1 + 1 - 1601) (t1 - 1601) (by omega)
    exact dayLess _ _ (by omega)
  rcases h with h | ⟨rfl, h⟩
  · have := monthStart_mono s1 s2 (t2 - 1) (by omega)
    have e2 : monthStart s1 s2 = monthStart s1 (s2 - 1) + monthLength s1 s2 := by
      obtain ⟨k, rfl⟩ := Nat.exists_eq_add_of_le' a2
      rfl
    exact dayLess _ _ (by omega)
  rcases h with h | ⟨rfl, h⟩
  · exact dayLess _ _ (by omega)
  rcases h with h | ⟨rfl, h⟩
  · omega
  rcases h with h | ⟨rfl, h⟩
  · omega
  rcases h with h | ⟨rfl, h⟩
  · omega
  rcases h with h | ⟨rfl, h⟩
  · omega
  · exact absurd h (by simp)

/-- The full claim of C66: the date of every FILETIME up to the year 9999 is the nearest Python has. -/
def Spec.DatesTold (date : Nat → PyDateTime) : Prop :=
  ∀ a, a < year10000 → (date a).Valid ∧ NearestEven (date a).micros a

/-- C66, partial: for a time between 1677 and 2262 the Python date exists and is, read as UTC, the stored
time rounded to the nearest microsecond, ties to the even one; so it is exact for whole microseconds,
and sorting keys by their Python dates never puts a later key first.  Missing: all other times
(`python_dates_violated`). -/
theorem python_dates_partial (a : Nat) (ha : FitsNanos a) :
    (dateToPyobject (dateTimeFromFiletime a)).Valid ∧
      NearestEven (dateToPyobject (dateTimeFromFiletime a)).micros a ∧
      (a % 10 = 0 → (dateToPyobject (dateTimeFromFiletime a)).micros = a / 10) ∧
      ∀ b, FitsNanos b → a ≤ b →
        ¬ (dateToPyobject (dateTimeFromFiletime b)).fields < (dateToPyobject (dateTimeFromFiletime a)).fields := by
  obtain ⟨h1, h2⟩ := pyDate_spec a ha
  refine ⟨h1, h2, fun h => ?_, fun b hb hab hlt => ?_⟩
  · obtain ⟨⟨h3, h4⟩, _⟩ := h2
    omega
  · obtain ⟨g1, g2⟩ := pyDate_spec b hb
    have := fields_lt _ _ g1 h1 hlt
    have := nearestEven_mono a b _ _ h2 g2 hab
    omega

/-- The tests of /repo/pynotatin/src/util.rs lines 205-210, as FILETIMEs: a tie, rounding up over
the end of a year. -/
example : FitsNanos 132539327999999995 ∧
    dateToPyobject (dateTimeFromFiletime 132539327999999995) = ⟨2021, 1, 1, 0, 0, 0, 0⟩ ∧
    dateToPyobject (dateTimeFromFiletime 129782011451468083) = ⟨2012, 4, 6, 15, 52, 25, 146808⟩ ∧
    dateToPyobject (dateTimeFromFiletime 129782011451468085) = ⟨2012, 4, 6, 15, 52, 25, 146808⟩ ∧
    dateToPyobject (dateTimeFromFiletime 129782011451468075) = ⟨2012, 4, 6, 15, 52, 25, 146808⟩ := by
  refine ⟨by unfold FitsNanos; decide +kernel, by decide +kernel, by decide +kernel, by decide +kernel,
    by decide +kernel⟩

/-- C66 is violated: the FILETIME 0 is shown to Python as a date in 2185. -/
theorem python_dates_violated :
    ¬ DatesTold (fun ft => dateToPyobject (dateTimeFromFiletime ft)) ∧
      dateToPyobject (dateTimeFromFiletime 0) = ⟨2185, 7, 21, 23, 34, 33, 709552⟩ := by
  have h0 : dateToPyobject (dateTimeFromFiletime 0) = ⟨2185, 7, 21, 23, 34, 33, 709552⟩ := by
    decide +kernel
  refine ⟨fun h => ?_, h0⟩
  have hy : 0 < year10000 := by
    have h1 := daysFrom_mono 1601 1 (10000 - 1601) (by omega)
    have h2 : daysFrom 1601 1 = 365 := by decide
    unfold year10000
    omega
  obtain ⟨_, ⟨h1, _⟩, _⟩ := h 0 hy
  simp only [h0, PyDateTime.micros] at h1
  omega

/-! ### C67 -/

/-- A `for` loop over the keys in Python sees the keys a Rust program sees with the plain iterator, in the same
order, with their dates. -/
theorem python_list_eq (q : HiveParser) (steps : Nat) :
    ∃ it, PyParser.regKeys ⟨some q⟩ = (.ok it, ⟨none⟩) ∧
      it.list steps = (q.iterate steps).map fun r =>
        match r with
        | .ok ns => .ok (ns.map PyKey.ofNode)
        | .err => .err
        | .panic => .panic := by
  refine ⟨_, rfl, ?_⟩
  unfold HiveParser.iterate
  simp only [Bool.false_eq_true, if_false]
  generalize IterCtx.start q.state q.root {} true false = ctx
  induction steps generalizing ctx with
  | zero => rfl
  | succ n ih =>
    rw [PyKeysIter.list, collect, PyKeysIter.next]
    simp only
    cases h : nextPre q.env (n + 1) ctx with
    | none => rfl
    | some r =>
      cases r with
      | err => rfl
      | panic => rfl
      | ok x =>
        obtain ⟨k, c⟩ := x
        cases k with
        | none => rfl
        | some k =>
          simp only [Option.map_some]
          rw [ih c]
          cases hc : collect (nextPre q.env) n c with
          | none => rfl
          | some r => cases r <;> rfl

/-- A hive in a Python object. -/
def wrapParser : Res HiveParser → Res PyParser
  | .ok q => .ok ⟨some q⟩
  | .err => .err
  | .panic => .panic

theorem pyBuild_eq (w : World) (b : PyBuilder) : (b.build w).1 =
    (Builder.build w ⟨b.primary.read.1, b.logs.map (fun x => x.read.1), none, b.recover, false⟩).map wrapParser := by
  have hf : ∀ (l : List PySource) (bd : Builder),
      l.foldl (fun bd log => bd.withTransactionLog log.read.1) bd =
        { bd with logs := bd.logs ++ l.map fun x => x.read.1 } := by
    intro l
    induction l with
    | nil => intro bd; simp
    | cons x l ih =>
      intro bd
      rw [List.foldl_cons, ih]
      simp [Builder.withTransactionLog]
  unfold PyBuilder.build
  simp only
  rw [hf]
  simp only [Builder.recoverDeleted, List.nil_append]
  congr 1

/-- What the Python object of a clean hive holds. -/
theorem python_build (w : World) (b : PyBuilder) (bb : BaseBlock) (rest : Bytes) (t : Tree)
    (hd : 0 < w.depth) (hrec : b.recover = false)
    (hlogs : ∃ x, TransactionLog.parse (b.logs.map fun l => l.read.1) = .ok x)
    (hp : BaseBlock.fromBytes b.primary.read.1 = .ok (bb, rest)) (hsup : bb.base.fileType ≠ .unknown)
    (hclean : bb.base.primarySeq = bb.base.secondarySeq)
    (hck : calculateChecksum (b.primary.read.1.take 512) = .ok bb.base.checksum)
    (ht : StoredTree w b.primary.read.1 t) :
    ∃ info root, (b.build w).1 = some (.ok ⟨some ⟨w.env b.primary.read.1, bb, { info }, some root⟩⟩) ∧
      Lists ⟨w.env b.primary.read.1, bb, { info }, some root⟩ t := by
  rw [pyBuild_eq]
  generalize hB : (⟨b.primary.read.1, b.logs.map (fun x => x.read.1), none, b.recover, false⟩ : Builder) = B
  have e1 : B.primary = b.primary.read.1 := by rw [← hB]
  have e2 : B.logs = b.logs.map fun x => x.read.1 := by rw [← hB]
  have e3 : B.recover = false := by rw [← hB]; exact hrec
  rw [← e1] at hp hck ht ⊢
  rw [← e2] at hlogs
  obtain ⟨⟨logs, warn⟩, hlogs⟩ := hlogs
  obtain ⟨info, ho⟩ := open_clean (w.analyze B.recover) (w.initItems B.recover) (w.scan B.recover) B.primary
    (some (.ok ({}, []))) (some (.ok ({}, []))) logs bb rest hp hsup hclean hck (by rw [e3, scan_false])
  obtain ⟨info2, hb⟩ := build_opened w B logs warn _ {} [] hlogs ho rfl rfl
  obtain ⟨root, hr, hl⟩ := plain_lists w B.primary bb { info := info2 } t hd (fun _ => rfl) ht
  refine ⟨info2, root, ?_, hl⟩
  rw [hb root hr]
  rfl

/-- What a Python program is to see of a key: where it is stored, its path, and its date. -/
def pyObs (k : PyKey) : (Nat × Str) × PyDateTime := (obs k.inner, k.lastWritten)

/-- The date of the key in a stored cell. -/
def Spec.shownDate (n : Node) : PyDateTime := dateToPyobject (dateTimeFromFiletime n.key.lastWritten)

/-- C67: a Python program which opens a clean hive and loops over `reg_keys()`, or over the parser itself,
is given exactly the keys stored in the hive, in pre-order, each with its path and its date. -/
theorem python_lists (w : World) (b : PyBuilder) (bb : BaseBlock) (rest : Bytes) (t : Tree)
    (hd : 0 < w.depth) (hrec : b.recover = false)
    (hlogs : ∃ x, TransactionLog.parse (b.logs.map fun l => l.read.1) = .ok x)
    (hp : BaseBlock.fromBytes b.primary.read.1 = .ok (bb, rest)) (hsup : bb.base.fileType ≠ .unknown)
    (hclean : bb.base.primarySeq = bb.base.secondarySeq)
    (hck : calculateChecksum (b.primary.read.1.take 512) = .ok bb.base.checksum)
    (ht : StoredTree w b.primary.read.1 t) :
    ∃ p it steps ks, (b.build w).1 = some (.ok p) ∧ p.regKeys.1 = .ok it ∧ it.list steps = some (.ok ks) ∧
      ks.map (fun k => obs k.inner) = t.pre [] ∧
      ∀ k ∈ ks, k.path = (obs k.inner).2 ∧ k.lastWritten = shownDate k.inner := by
  obtain ⟨info, root, hb, hl⟩ := python_build w b bb rest t hd hrec hlogs hp hsup hclean hck ht
  obtain ⟨steps, ns, hi, ho⟩ := hl true false
  obtain ⟨it, h1, h2⟩ := python_list_eq ⟨w.env b.primary.read.1, bb, { info }, some root⟩ steps
  refine ⟨_, it, steps, ns.map PyKey.ofNode, hb, by rw [h1], ?_, ?_, ?_⟩
  · rw [h2, hi]; rfl
  · rw [List.map_map, ← ho]; rfl
  · intro k hk
    obtain ⟨n, _, rfl⟩ := List.mem_map.1 hk
    exact ⟨rfl, rfl⟩

/-- Opening a list of paths, one after the other, with the same parser object. -/
def PyParser.openAll (p : PyParser) : List Str → Res (List (Option PyKey))
  | [] => .ok []
  | s :: ss =>
    match p.open s with
    | .ok (k, p) =>
      match openAll p ss with
      | .ok ks => .ok (k :: ks)
      | r => r
    | .err => .err
    | .panic => .panic

/-- A parser object in front of a hive. -/
def PyHolds (w : World) (buf : Bytes) (t : Tree) (p : PyParser) : Prop :=
  ∃ q, p.inner = some q ∧ q.env = w.env buf ∧ (∀ x, q.state.deletedKeys x = none) ∧
    0 ≤ q.header.base.rootCellOffset ∧ t.off = q.header.base.rootCellOffset.toNat + 4096 ∧
    (q.state.rootOffset = 0 ∨ q.state.rootOffset = utf8Len t.name + 2)

theorem open_holds (w : World) (buf : Bytes) (t : Tree) (p : PyParser) (hp : PyHolds w buf t p) (hd : 0 < w.depth)
    (ht : TreeAt buf 4096 w.depth t) (hnames : t.Every (fun u => '\\' ∉ u.name))
    (segs : List Str) (hsegs : ∀ s ∈ segs, '\\' ∉ s ∧ s ≠ []) (hdepth : segs.length ≤ w.depth) :
    ∃ r p', p.open (joined segs) = .ok (r, p') ∧ PyHolds w buf t p' ∧
      r.map (fun k => obs k.inner) = firstAt segs t := by
  obtain ⟨q, hq, he, hn, hr0, hoff, hro⟩ := hp
  obtain ⟨⟨r, ro, h1, h2, h3, _⟩, _⟩ := get_key_found q.env q.state t q.header.base.rootCellOffset hr0
    (by rw [he]; exact hoff) (by rw [he]; exact ht)
    (attachOk_empty _ _ (by rw [he]; exact hd) hn) hro hnames segs hsegs (by rw [he]; exact hdepth) 0 0 (fun _ => rfl)
    ['x'] (by decide)
  simp only [List.replicate_zero, List.nil_append, List.append_nil] at h1
  refine ⟨r.map PyKey.ofNode, .touched q ro, ?_, ⟨_, rfl, he, hn, hr0, hoff, h2⟩, ?_⟩
  · unfold PyParser.open PyParser.keyFor
    rw [hq]
    simp only
    rw [h1]
  · rw [Option.map_map, ← h3]; rfl

/-- C67: opening keys by path with a parser object, any number of times, answers each time with the first key
of that path in the hive, or `None` if there is none. -/
theorem python_opens (w : World) (buf : Bytes) (t : Tree) (p : PyParser) (hp : PyHolds w buf t p) (hd : 0 < w.depth)
    (ht : TreeAt buf 4096 w.depth t) (hnames : t.Every (fun u => '\\' ∉ u.name))
    (paths : List (List Str)) (hsegs : ∀ segs ∈ paths, (∀ s ∈ segs, '\\' ∉ s ∧ s ≠ []) ∧ segs.length ≤ w.depth) :
    ∃ ks, p.openAll (paths.map joined) = .ok ks ∧
      ks.map (Option.map fun k => obs k.inner) = paths.map (firstAt · t) := by
  induction paths generalizing p with
  | nil => exact ⟨[], rfl, rfl⟩
  | cons segs paths ih =>
    obtain ⟨h1, h2⟩ := hsegs segs List.mem_cons_self
    obtain ⟨r, p', ho, hp', hr⟩ := open_holds w buf t p hp hd ht hnames segs h1 h2
    obtain ⟨ks, hk, hks⟩ := ih p' hp' (fun s hs => hsegs s (List.mem_cons_of_mem _ hs))
    refine ⟨r :: ks, ?_, ?_⟩
    · rw [List.map_cons, PyParser.openAll, ho]
      simp only
      rw [hk]
    · rw [List.map_cons, List.map_cons, hr, hks]

/-- The answer of a call. -/
def answer {α β : Type} : Res (α × β) → Option α
  | .ok x => some x.1
  | _ => none

/-- The full claim of C67 on one object: after a loop over its keys has begun it answers what it answered
before, and a second loop can be begun. -/
def Spec.SurvivesIteration (p : PyParser) : Prop :=
  (∀ path, answer (p.regKeys.2.open path) = answer (p.open path)) ∧
    answer p.regKeys.2.root = answer p.root ∧
    ∀ k : PyKey, (∀ path, answer (k.findKey p.regKeys.2 path) = answer (k.findKey p path)) ∧
    ((∃ it, p.regKeys.1 = .ok it) → ∃ it, p.regKeys.2.regKeys.1 = .ok it)

/-- C67 is violated by every parser object: a key that was found by its path before is not found any more once a
loop over the keys has begun — the answer is `None`, which says that there is no such key — and neither is the
root, a parent or a sub-key; there are no sub-keys; a second loop raises an exception. -/
theorem python_iteration_violated (p : PyParser) (q : HiveParser) (hq : p.inner = some q) :
    (∀ path, answer (p.regKeys.2.open path) = some none) ∧ answer p.regKeys.2.root = some none ∧
      (∀ k, answer (p.regKeys.2.getParent k) = some none) ∧
      (∀ (k : PyKey) path, answer (k.findKey p.regKeys.2 path) = some none) ∧
      (∀ (k : PyKey) fuel, k.subkeys p.regKeys.2 (fuel + 1) = some (.ok [])) ∧
      p.regKeys.2.regKeys.1 = .err ∧ ¬ SurvivesIteration p := by
  have h : p.regKeys = (.ok ⟨q, .start q.state q.root {} true false⟩, ⟨none⟩) := by
    unfold PyParser.regKeys; rw [hq]
  rw [h]
  refine ⟨fun _ => rfl, rfl, fun _ => rfl, fun _ _ => rfl, fun _ _ => rfl, rfl, fun hs => ?_⟩
  obtain ⟨it, h2⟩ := (hs.2.2 (.ofNode (.mk defaultKey [] []))).2 (by rw [h]; exact ⟨_, rfl⟩)
  rw [h] at h2
  cases h2

/-! ### The sample hive in Python -/

def samplePy : PyBuilder := { primary := .path (sampleHive 5 5 4477 0x61 []) }

theorem header_root (x : Res (BaseBlock × Bytes)) (h : (match x with
    | .ok (bb, _) => decide (bb.base.rootCellOffset = 32)
    | _ => false) = true) : ∀ bb rest, x = .ok (bb, rest) → bb.base.rootCellOffset = 32 := by
  rintro bb rest rfl
  exact of_decide_eq_true h

/-- The hypotheses of `python_lists`, `python_opens` and `python_iteration_violated`. -/
theorem sample_python : ∃ p, (samplePy.build sampleWorld).1 = some (.ok p) ∧
    PyHolds sampleWorld (sampleHive 5 5 4477 0x61 []) (sampleTree 0x61) p := by
  obtain ⟨bb, rest, h1, h2, h3, h4, _, h5⟩ := sampleHive_header 5 5 4477 0x61 [] (by decide +kernel)
  obtain ⟨info, root, hb, _⟩ := python_build sampleWorld samplePy bb rest (sampleTree 0x61) (by decide) rfl
    ⟨([], none), by decide +kernel⟩ h1 h2 (h3.trans h4.symm) h5 (sampleHive_stored _ _ _ _ _ (.inl rfl))
  have hr := header_root _ (by decide +kernel) bb rest h1
  refine ⟨_, hb, _, rfl, rfl, fun _ => rfl, ?_, ?_, .inl rfl⟩
  · simp only [hr]; decide
  · simp only [hr]; decide

/-- Before the loop `open("B")` finds the key, twice; after it, it finds nothing. -/
example : ∃ p, (samplePy.build sampleWorld).1 = some (.ok p) ∧
    (∃ ks, p.openAll [['B'], ['x'], ['B']] = .ok ks ∧
      ks.map (Option.map fun k => obs k.inner) = [some (4315, "\\RT\\b".toList), none, some (4315, "\\RT\\b".toList)]) ∧
    answer (p.regKeys.2.open ['B']) = some none := by
  obtain ⟨p, h1, h2⟩ := sample_python
  refine ⟨p, h1, ?_, ?_⟩
  · obtain ⟨ks, hk, ho⟩ := python_opens sampleWorld _ (sampleTree 0x61) p h2 (by decide)
      (sampleHive_stored 5 5 4477 0x61 [] (.inl rfl)).tree
      (by simp only [sampleTree, Tree.Every, EveryAll, Tree.name]; decide)
      [[['B']], [['x']], [['B']]] (by decide)
    refine ⟨ks, hk, ho.trans ?_⟩
    decide +kernel
  · obtain ⟨q, hq, _⟩ := h2
    exact (python_iteration_violated p q hq).1 _

/-! ### C67: values, sub-keys and versions -/

theorem drain_list {α : Type} (items : List α) (i fuel : Nat) (h : items.length - i < fuel) :
    drain (listNext items) fuel i = some (items.drop i) := by
  induction fuel generalizing i with
  | zero => omega
  | succ fuel ih =>
    rw [drain, listNext]
    by_cases hi : i < items.length
    · rw [List.getElem?_eq_getElem hi]
      simp only
      rw [ih (i + 1) (by omega)]
      simp
    · rw [List.getElem?_eq_none (by omega)]
      simp only
      rw [List.drop_of_length_le (by omega)]

/-- C67: a loop over the values of a key, over the sub-keys of a key or over the versions of a value gives the
items of the Rust key or value, each once and in its order, and ends. -/
theorem python_loops (k : PyKey) (q : HiveParser) (v : Value) :
    (∃ fuel, k.values fuel = some k.inner.key.values) ∧
      (∃ fuel, pyVersions v fuel = some v.versions) ∧
      ∀ ns, readSubKeys q.env q.state (initSubKeyIter k.inner) = .ok ns →
        ∃ fuel ks, k.subkeys ⟨some q⟩ fuel = some (.ok ks) ∧ ks.map (·.inner) = ns := by
  refine ⟨⟨k.inner.key.values.length + 1, ?_⟩, ⟨v.versions.length + 1, ?_⟩, fun ns h => ?_⟩
  · have h : (fun i => k.inner.key.nextValue i) = listNext k.inner.key.values := by
      funext i
      unfold KeyNode.nextValue listNext
      cases k.inner.key.values[i]? <;> rfl
    unfold PyKey.values
    rw [h, drain_list _ _ _ (by omega)]
    rfl
  · unfold pyVersions
    rw [drain_list _ _ _ (by omega)]
    rfl
  · refine ⟨ns.length + 1, ns.map PyKey.ofNode, ?_, ?_⟩
    · unfold PyKey.subkeys
      simp only
      rw [h]
      simp only
      rw [drain_list _ _ _ (by omega)]
      rfl
    · rw [List.map_map]
      exact List.map_id _

/-! ### C68 -/

/-- The full claim of C68: building twice from one builder gives the same. -/
def Spec.BuildsAgain (w : World) (b : PyBuilder) : Prop := (b.build w).1 = ((b.build w).2.build w).1

def PySource.isPath : PySource → Bool
  | .path _ => true
  | .fileLike .. => false

/-- C68, partial: from files given by name. -/
theorem builds_again_partial (w : World) (b : PyBuilder) (h : b.primary.isPath = true)
    (hl : ∀ l ∈ b.logs, l.isPath = true) : BuildsAgain w b ∧ (b.build w).2 = b := by
  have hp : ∀ s : PySource, s.isPath = true → s.read.2 = s := by
    intro s hs
    cases s with
    | path c => rfl
    | fileLike c p => cases hs
  have h2 : (b.build w).2 = b := by
    unfold PyBuilder.build
    simp only
    rw [hp _ h, List.map_congr_left (g := id) (fun l hm => hp l (hl l hm)), List.map_id]
  exact ⟨by unfold BuildsAgain; rw [h2], h2⟩

example : samplePy.primary.isPath = true ∧ ∀ l ∈ samplePy.logs, l.isPath = true := by
  refine ⟨rfl, fun l h => absurd h List.not_mem_nil⟩

/-- The paths a Python program sees in a loop over the keys. -/
def pathsSeen (r : Option (Res PyParser)) (steps : Nat) : Option (List Str) :=
  match r with
  | some (.ok p) =>
    match p.regKeys.1 with
    | .ok it =>
      match it.list steps with
      | some (.ok ks) => some (ks.map PyKey.path)
      | _ => none
    | _ => none
  | _ => none

/-- The sequence number in the header. -/
def seqSeen (r : Option (Res PyParser)) : Option Nat :=
  match r with
  | some (.ok p) => p.inner.map (·.header.base.primarySeq)
  | _ => none

/-- The sample hive, marked dirty, given by its name, and its log, given as a file object. -/
def sampleDirtyPy : PyBuilder :=
  ({ primary := .path (sampleHive 5 4 4477 0x61 []) } : PyBuilder).withTransactionLog (.fileLike sampleLog 0)

/-- C68 is violated: with a log given as a file object, the first `build()` shows the hive with the log applied,
the second one shows it as it was before, without an exception; and a hive given as a file object cannot be
opened a second time. -/
theorem builds_again_violated :
    ¬ BuildsAgain sampleWorld sampleDirtyPy ∧
      (∃ steps, pathsSeen (sampleDirtyPy.build sampleWorld).1 steps =
        some ["\\RT".toList, "\\RT\\c".toList, "\\RT\\b".toList]) ∧
      pathsSeen ((sampleDirtyPy.build sampleWorld).2.build sampleWorld).1 100 =
        some ["\\RT".toList, "\\RT\\a".toList, "\\RT\\b".toList] ∧
      (∀ (w : World) (c : Bytes) n,
        ((({ primary := .fileLike c n } : PyBuilder).build w).2.build w).1 = some .err) := by
  obtain ⟨q, hb, hl, hq⟩ := sample_dirty
  have h1 : (sampleDirtyPy.build sampleWorld).1 = some (.ok ⟨some q⟩) := by
    rw [pyBuild_eq]
    unfold sampleDirtyPy PyBuilder.withTransactionLog
    simp only [List.nil_append, List.map_cons, List.map_nil, PySource.read, List.drop_zero]
    rw [hb]
    rfl
  have h2 : pathsSeen ((sampleDirtyPy.build sampleWorld).2.build sampleWorld).1 100 =
        some ["\\RT".toList, "\\RT\\a".toList, "\\RT\\b".toList] := by decide +kernel
  have h3 : ∃ steps, pathsSeen (some (.ok ⟨some q⟩)) steps =
        some ["\\RT".toList, "\\RT\\c".toList, "\\RT\\b".toList] := by
    obtain ⟨steps, ns, hi, ho⟩ := hl true false
    obtain ⟨it, g1, g2⟩ := python_list_eq q steps
    refine ⟨steps, ?_⟩
    unfold pathsSeen
    simp only
    rw [g1]
    simp only
    rw [g2, hi]
    simp only [Option.map_some, List.map_map]
    have h := congrArg (List.map (·.2)) ho
    rw [List.map_map] at h
    refine congrArg some (Eq.trans (b := ns.map ((·.2) ∘ obs)) rfl (h.trans ?_))
    decide +kernel
  have h4 : seqSeen ((sampleDirtyPy.build sampleWorld).2.build sampleWorld).1 = some 5 := by decide +kernel
  refine ⟨fun h => ?_, by rw [h1]; exact h3, h2, fun w c n => ?_⟩
  · unfold BuildsAgain at h
    rw [← h, h1] at h4
    have : some q.header.base.primarySeq = some 5 := h4
    rw [hq] at this
    cases this
  · rw [pyBuild_eq]
    have e : (({ primary := .fileLike c n } : PyBuilder).build w).2 =
        { primary := .fileLike c (max n c.length), recover := false, logs := [] } := rfl
    rw [e]
    simp only [PySource.read, List.map_nil]
    rw [List.drop_of_length_le (by omega)]
    have hempty : Builder.build w ⟨[], [], none, false, false⟩ = some .err := by
      have hp : TransactionLog.parse [] = .ok ([], none) := by decide +kernel
      have hb : initBaseBlock [] {} = .err := by
        unfold initBaseBlock
        rw [show BaseBlock.fromBytes [] = .err by decide +kernel]
        rfl
      unfold Builder.build
      rw [hp]
      simp only
      unfold openHive
      rw [hb]
      rfl
    rw [hempty]
    rfl

/-! ### C69 -/

theorem pyContent_eq (v : KeyValue) (c : CellValue) (logs : Option Logs)
    (h : getContent v.dataType v.valueBytes = .ok (c, logs)) : pyContent v = .ok (prepareContent c) := by
  unfold pyContent; rw [h]

/-- C69: the content a Python program is given is, by the type of the value: the number in its first bytes as an
`int` — the bytes themselves if there are too few —, the text as a `str`, the strings as a `list`, the bytes
unchanged for every other type; it is `None` exactly if no data could be read.  There is never an exception.
The raw bytes are given in any case. -/
theorem python_content (v : KeyValue) :
    (∀ w bs, v.valueBytes = some bs → (kindOf v.dataType).width = some w → w ≤ bs.length →
      ∃ n, (kindOf v.dataType).number bs = some n ∧ pyContent v = .ok (some (.int n))) ∧
    (∀ w bs, v.valueBytes = some bs → (kindOf v.dataType).width = some w → bs.length < w →
      pyContent v = .ok (some (.bytes bs))) ∧
    (∀ s tail, kindOf v.dataType = .text → '\x00' ∉ s → TextEnd tail → v.valueBytes = some (utf16le s ++ tail) →
      pyContent v = .ok (some (.str s))) ∧
    (∀ bs, kindOf v.dataType = .texts → v.valueBytes = some bs →
      ∃ strs, pyContent v = .ok (some (.list strs))) ∧
    (∀ bs, kindOf v.dataType = .raw → v.valueBytes = some bs → pyContent v = .ok (some (.bytes bs))) ∧
    (∃ c, pyContent v = .ok c ∧ (c = none ↔ v.valueBytes = none)) ∧
    ∀ bs, v.valueBytes = some bs → pyValue v = bs := by
  refine ⟨?_, ?_, ?_, ?_, ?_, ?_, ?_⟩
  · intro w bs hb hw hl
    obtain ⟨c, h1, h2⟩ := content_number v.dataType w hw bs hl
    rw [← hb] at h1
    have h3 := pyContent_eq v c _ h1
    have hn : ∃ n, (kindOf v.dataType).number bs = some n := by
      cases hk : kindOf v.dataType <;> rw [hk] at hw <;> first | exact ⟨_, rfl⟩ | cases hw
    obtain ⟨n, hn⟩ := hn
    refine ⟨n, hn, ?_⟩
    rw [h3]
    rw [hn] at h2
    cases c <;> simp only [numberOf, Option.some.injEq, reduceCtorEq] at h2 <;> subst h2 <;> rfl
  · intro w bs hb hw hl
    obtain ⟨l, h1, _⟩ := content_number_short v.dataType w hw bs hl
    rw [← hb] at h1
    exact pyContent_eq v _ _ h1
  · intro s tail hk hs ht hb
    have h1 := content_text v.dataType hk s hs tail ht
    rw [← hb] at h1
    exact pyContent_eq v _ _ h1
  · intro bs hk hb
    have : v.dataType = .REG_MULTI_SZ := by
      cases h : v.dataType <;> rw [h] at hk <;> first | rfl | cases hk
    obtain ⟨strs, logs, h1⟩ := content_texts_total bs
    rw [← this, ← hb] at h1
    exact ⟨strs, pyContent_eq v _ _ h1⟩
  · intro bs hk hb
    have h1 := content_raw v.dataType hk bs
    rw [← hb] at h1
    exact pyContent_eq v _ _ h1
  · obtain ⟨c, logs, h, hne⟩ := content_total v.dataType v.valueBytes
    refine ⟨_, pyContent_eq v _ _ h, ?_⟩
    constructor
    · intro hc
      cases hv : v.valueBytes with
      | none => rfl
      | some bs =>
        exfalso
        have hnn : c ≠ .None := by
          rintro rfl
          rw [hv] at h
          cases hk : kindOf v.dataType with
          | unsigned w | signed w | bigEndian w =>
            have hw : (kindOf v.dataType).width = some w := by rw [hk]; rfl
            rcases Nat.lt_or_ge bs.length w with hl | hl
            · obtain ⟨l, h1, _⟩ := content_number_short v.dataType w hw bs hl
              rw [h1] at h; cases h
            · obtain ⟨c, h1, h2⟩ := content_number v.dataType w hw bs hl
              rw [h1] at h
              cases h
              rw [hk] at h2
              cases h2
          | text =>
            obtain ⟨_, _, _, _, _, _, h1, _⟩ := content_text_total v.dataType hk bs
            rw [h1] at h; cases h
          | texts =>
            have ht : v.dataType = .REG_MULTI_SZ := by
              cases h : v.dataType <;> rw [h] at hk <;> first | rfl | cases hk
            obtain ⟨strs, logs, h1⟩ := content_texts_total bs
            rw [ht, h1] at h; cases h
          | raw =>
            rw [content_raw v.dataType hk bs] at h; cases h
        cases c <;> first | exact absurd rfl hnn | exact absurd rfl hne | cases hc
    · intro hv
      rw [hv, content_absent] at h
      cases h
      rfl
  · intro bs hb
    unfold pyValue
    rw [hb]
    rfl

/-- A value with this type and data. -/
def pyExample (t : DataType) (bs : Bytes) : KeyValue :=
  { fileOffset := 0, size := -24, nameSize := 0, dataSizeRaw := bs.length, dataOffset := 0, dataTypeRaw := 0,
    flagsRaw := 0, padding := 0, name := [], slack := [], valueBytes := some bs, dataType := t, flags := 0 }

example : pyContent (pyExample .REG_DWORD [1, 2, 0, 0]) = .ok (some (.int 513)) ∧
    pyContent (pyExample .REG_DWORD [1, 2]) = .ok (some (.bytes [1, 2])) ∧
    pyContent (pyExample .REG_SZ [0x61, 0, 0, 0]) = .ok (some (.str ['a'])) ∧
    pyContent (pyExample .REG_MULTI_SZ [0x61, 0, 0, 0, 0x62, 0, 0, 0, 0, 0]) = .ok (some (.list [['a'], ['b']])) ∧
    pyContent (pyExample .REG_BIN [0, 1]) = .ok (some (.bytes [0, 1])) := by decide +kernel

/-- The full claim of C69 also has: ill-formed data is not passed off as text. -/
def Spec.TextIsText (content : KeyValue → Res (Option PyObj)) : Prop :=
  ∀ v bs s, kindOf v.dataType = .text → v.valueBytes = some bs → content v = .ok (some (.str s)) →
    ∃ tail, TextEnd tail ∧ bs = utf16le s ++ tail

/-- C69 is violated in one respect: half a surrogate pair, which is no text, is given to Python as the text
`U+FFFD`, as is the well-formed `U+FFFD`; the warning that tells them apart is dropped. -/
theorem python_text_violated : ¬ TextIsText pyContent ∧
    pyContent (pyExample .REG_SZ [0, 0xD8]) = pyContent (pyExample .REG_SZ [0xFD, 0xFF]) := by
  have h1 : pyContent (pyExample .REG_SZ [0, 0xD8]) = .ok (some (.str [Char.ofNat 0xFFFD])) := by decide +kernel
  refine ⟨fun h => ?_, by decide +kernel⟩
  obtain ⟨tail, _, h2⟩ := h (pyExample .REG_SZ [0, 0xD8]) [0, 0xD8] [Char.ofNat 0xFFFD] rfl rfl h1
  have h3 : utf16le [Char.ofNat 0xFFFD] = [0xFD, 0xFF] := by decide +kernel
  rw [h3] at h2
  cases h2

end Notatin
