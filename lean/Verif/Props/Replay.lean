import Verif.Props.Header
import Verif.Spec.Replay
/- C03, C04, C07, C41: replaying transaction logs. -/
namespace Notatin
open Spec

/-! ### C03 -/

theorem applyPages_ok (off : Nat) (pages : List DirtyPage) : ∀ (buf : Bytes),
    pagesFit off pages buf.length →
    ∃ buf', applyPages off pages buf = .ok buf' ∧ buf'.length = buf.length ∧
      ∀ i, PageByte off pages i buf[i]? buf'[i]? := by
  induction pages with
  | nil => intro buf _; exact ⟨buf, rfl, rfl, fun i => .inr ⟨by simp, rfl⟩⟩
  | cons p ps ih =>
    intro buf hfit
    have hp : off + p.offset + p.bytes.length ≤ buf.length := hfit p (by simp)
    obtain ⟨b, hw, hl, hb⟩ := writeAt_eq buf (p.offset + off) p.bytes (by omega)
    obtain ⟨b', hok, hl', hb'⟩ := ih b (fun q hq => by rw [hl]; exact hfit q (by simp [hq]))
    refine ⟨b', by rw [applyPages, hw]; exact hok, by omega, fun i => ?_⟩
    rcases hb' i with ⟨bef, q, aft, heq, hc, hn, hv⟩ | ⟨hn, hv⟩
    · exact .inl ⟨p :: bef, q, aft, by rw [heq]; rfl, hc, hn, hv⟩
    · by_cases hc : covers off p i
      · left
        refine ⟨[], p, ps, rfl, hc, hn, ?_⟩
        unfold covers at hc
        rw [hv, hb, if_pos (by omega)]
        congr 1; omega
      · right
        refine ⟨fun q hq => ?_, ?_⟩
        · rcases List.mem_cons.1 hq with rfl | hq
          · exact hc
          · exact hn q hq
        · unfold covers at hc
          rw [hv, hb, if_neg (by omega)]

theorem applyPages_err (off : Nat) (pages : List DirtyPage) : ∀ (buf : Bytes),
    ¬ pagesFit off pages buf.length → applyPages off pages buf = .err := by
  induction pages with
  | nil => intro buf h; exact absurd (by simp [pagesFit]) h
  | cons p ps ih =>
    intro buf hfit
    rw [applyPages]
    by_cases hp : off + p.offset + p.bytes.length ≤ buf.length
    · obtain ⟨b, hw, hl, _⟩ := writeAt_eq buf (p.offset + off) p.bytes (by omega)
      rw [hw]
      refine ih b (fun h => hfit (fun q hq => ?_))
      rcases List.mem_cons.1 hq with rfl | hq
      · exact hp
      · rw [← hl]; exact h q hq
    · rw [writeAt_none _ _ _ (by omega)]

/-- Content of the zero-extended buffer. -/
theorem growBuffer_get (bins ebins : Nat) (buf : Bytes) :
    (growBuffer bins ebins buf).length = buf.length + (ebins - bins) ∧
    ∀ i, (growBuffer bins ebins buf)[i]? =
      if i < buf.length then buf[i]? else if i < buf.length + (ebins - bins) then some 0 else none := by
  unfold growBuffer
  split
  · refine ⟨by simp, fun i => ?_⟩
    split
    · rw [List.getElem?_append_left (by assumption)]
    · rw [List.getElem?_append_right (by omega), List.getElem?_replicate]
      split <;> split <;> first | rfl | omega
  · refine ⟨by omega, fun i => ?_⟩
    split
    · rfl
    · rw [if_neg (by omega), List.getElem?_eq_none_iff]; omega

/-- C03: applying an entry extends the buffer with zeros if the entry announces more bins, then
every position holds the byte of the last dirty page covering it, and otherwise its old byte;
if some page does not fit an error is returned.  Never a panic. -/
theorem entry_effect (off bins : Nat) (e : LogEntry) (buf : Bytes) :
    (pagesFit off e.dirtyPages (buf.length + (e.hiveBinsDataSize - bins)) →
      ∃ buf', applyEntry off bins e buf = .ok buf' ∧
        buf'.length = buf.length + (e.hiveBinsDataSize - bins) ∧
        ∀ i, i < buf'.length →
          PageByte off e.dirtyPages i (some (buf[i]?.getD 0)) buf'[i]?) ∧
    (¬ pagesFit off e.dirtyPages (buf.length + (e.hiveBinsDataSize - bins)) →
      applyEntry off bins e buf = .err) := by
  obtain ⟨hl, hg⟩ := growBuffer_get bins e.hiveBinsDataSize buf
  constructor
  · intro hfit
    obtain ⟨b, hok, hl', hb⟩ := applyPages_ok off e.dirtyPages
      (growBuffer bins e.hiveBinsDataSize buf) (by rw [hl]; exact hfit)
    refine ⟨b, hok, by omega, fun i hi => ?_⟩
    have := hb i
    rw [hg i] at this
    by_cases h : i < buf.length
    · rw [if_pos h] at this
      rwa [List.getElem?_eq_getElem h, Option.getD_some, ← List.getElem?_eq_getElem h]
    · rw [if_neg h, if_pos (by omega)] at this
      rwa [List.getElem?_eq_none (by omega), Option.getD_none]
  · intro hfit
    exact applyPages_err _ _ _ (by rw [hl]; exact hfit)

/-- Two overlapping pages on a small buffer with growth: the second page wins. -/
example : applyEntry 2 4 ⟨0, 0, 0, 0, 6, 2, 0, 0, [⟨0, [1, 2, 3]⟩, ⟨2, [9, 9]⟩], true⟩ [7, 7, 7, 7, 7, 7]
    = .ok [7, 7, 1, 2, 9, 9, 0, 0] := by decide

/-! ### C04 -/

/-- Applying a run of entries one after the other. -/
def applyAll (off bins : Nat) : List LogEntry → Bytes → Res Bytes
  | [], buf => .ok buf
  | e :: es, buf => (applyEntry off bins e buf) >>= applyAll off bins es

/-- What is recorded about a run of entries: each is looked at with the file before and after it. -/
def recordedOver {σ : Type} (analyze : Bytes → Nat → Bytes → σ → σ) (off bins : Nat) :
    List LogEntry → Bytes → σ → σ
  | [], _, s => s
  | e :: es, buf, s =>
    match applyEntry off bins e buf with
    | .ok new => recordedOver analyze off bins es new
        (analyze (growBuffer bins e.hiveBinsDataSize buf) e.seq new s)
    | _ => s

theorem recordedOver_append {σ : Type} (analyze : Bytes → Nat → Bytes → σ → σ) (off bins : Nat) :
    ∀ (A B : List LogEntry) (buf buf' : Bytes) (s : σ), applyAll off bins A buf = .ok buf' →
    recordedOver analyze off bins (A ++ B) buf s =
      recordedOver analyze off bins B buf' (recordedOver analyze off bins A buf s) := by
  intro A
  induction A with
  | nil => intro B buf buf' s h; cases h; rfl
  | cons a A ih =>
    intro B buf buf' s h
    rw [applyAll] at h
    rw [List.cons_append, recordedOver, recordedOver]
    cases hae : applyEntry off bins a buf with
    | ok b => rw [hae] at h; exact ih B b buf' _ h
    | err => rw [hae] at h; cases h
    | panic => rw [hae] at h; cases h

theorem appliedRun_unique {sec : Nat} {es A B : List LogEntry}
    (hA : AppliedRun sec es A) (hB : AppliedRun sec es B) : A = B := by
  obtain ⟨ra, ea, ba, ca, na⟩ := hA
  obtain ⟨rb, eb, bb, cb, nb⟩ := hB
  rw [ea] at eb
  clear ea
  have key : ∀ {A ra B rb : List LogEntry}, A ++ ra = B ++ rb →
      (∀ e ∈ B, e.hiveBinsDataSize % 4096 = 0) → Consecutive B →
      (∀ n, ra.head? = some n → n.hiveBinsDataSize % 4096 ≠ 0 ∨
        ∃ l, A.getLast? = some l ∧ n.seq ≠ l.seq + 1) → A.length < B.length → False := by
    intro A ra B rb heq hb hc hn hlt
    obtain ⟨C, hC⟩ : ∃ C, B = A ++ C := by
      refine ⟨B.drop A.length, ?_⟩
      have : B.take A.length = A := by
        have h1 := congrArg (List.take A.length) heq
        rw [List.take_left, List.take_append_of_le_length (by omega)] at h1
        exact h1.symm
      conv => lhs; rw [← List.take_append_drop A.length B, this]
    subst hC
    cases C with
    | nil => simp at hlt
    | cons c C =>
      have hra : ra = c :: C ++ rb := by
        rw [List.append_assoc] at heq
        exact List.append_cancel_left heq
      rcases hn c (by rw [hra]; rfl) with h | ⟨l, hl, h⟩
      · exact h (hb c (by simp))
      · apply h
        obtain ⟨A', rfl⟩ : ∃ A', A = A' ++ [l] := by
          rw [List.getLast?_eq_some_iff] at hl; exact hl
        clear hn heq hra hb hlt hl h
        induction A' with
        | nil => exact hc.1
        | cons a A' ih =>
          apply ih
          cases A' with
          | nil => exact hc.2
          | cons b A' => exact hc.2
  rcases Nat.lt_trichotomy A.length B.length with h | h | h
  · exact (key eb bb cb na h).elim
  · exact (List.append_inj eb h).1
  · exact (key eb.symm ba ca nb h).elim

/-- Continuation of a run: what `AppliedRun` says for the entries after `prev` was applied. -/
def ContRun (prev sec : Nat) (es A : List LogEntry) : Prop :=
  ∃ rest, (es.takeWhile (·.hasValidHashes)).filter (fun e => decide (sec ≤ e.seq)) = A ++ rest ∧
    (∀ e ∈ A, e.hiveBinsDataSize % 4096 = 0) ∧ Consecutive A ∧
    (∀ a, A.head? = some a → prev ≠ 0 → a.seq = prev + 1) ∧
    (∀ n, rest.head? = some n → n.hiveBinsDataSize % 4096 ≠ 0 ∨
      ((A ≠ [] ∨ prev ≠ 0) ∧ n.seq ≠ lastSeq prev A + 1))

theorem updateEntries_run {σ : Type} (analyze : Bytes → Nat → Bytes → σ → σ) (off sec bins : Nat)
    (hsec : 0 < sec) : ∀ (es : List LogEntry) (st : ReplayState σ),
    (∀ e ∈ es, e.seq + 1 < 4294967296) → st.newSeq + 1 < 4294967296 →
    ∃ A, ContRun st.newSeq sec es A ∧
      match applyAll off bins A st.buffer with
      | .ok buf => ∃ info, updateEntries analyze off sec bins es st =
          .ok ⟨lastSeq st.newSeq A, buf, info, recordedOver analyze off bins A st.buffer st.recovery⟩
      | .err => updateEntries analyze off sec bins es st = .err
      | .panic => False := by
  intro es
  induction es with
  | nil =>
    intro st _ _
    refine ⟨[], ⟨[], by simp, by simp, trivial, by simp, by simp⟩, ?_⟩
    simp only [applyAll, updateEntries, lastSeq]
    exact ⟨st.info, rfl⟩
  | cons e es ih =>
    intro st hes hst
    have hes' : ∀ e ∈ es, e.seq + 1 < 4294967296 := fun x hx => hes x (by simp [hx])
    rw [updateEntries]
    by_cases hv : e.hasValidHashes = true
    · rw [if_pos hv]
      by_cases ho : e.seq < sec
      · rw [if_pos ho]
        obtain ⟨A, ⟨rest, h1, h2, h3, h4, h5⟩, h6⟩ := ih { st with info := st.info.add .WarningTransactionLog } hes' hst
        refine ⟨A, ⟨rest, ?_, h2, h3, h4, h5⟩, h6⟩
        rw [List.takeWhile_cons_of_pos hv, List.filter_cons_of_neg (by simpa using ho)]
        exact h1
      · have hF : ((e :: es).takeWhile (·.hasValidHashes)).filter (fun e => decide (sec ≤ e.seq)) =
            e :: (es.takeWhile (·.hasValidHashes)).filter (fun e => decide (sec ≤ e.seq)) := by
          rw [List.takeWhile_cons_of_pos hv, List.filter_cons_of_pos (by simpa using ho)]
        rw [if_neg ho]
        by_cases hb : e.hiveBinsDataSize % 4096 ≠ 0
        · rw [if_pos hb]
          refine ⟨[], ⟨_, by rw [hF]; rfl, by simp, trivial, by simp, ?_⟩, ?_⟩
          · intro n hn; simp at hn; subst hn; exact .inl hb
          · simp only [applyAll, lastSeq]; exact ⟨_, rfl⟩
        · rw [if_neg hb, if_neg (by omega)]
          by_cases hs : st.newSeq ≠ 0 ∧ e.seq ≠ st.newSeq + 1
          · rw [if_pos hs]
            refine ⟨[], ⟨_, by rw [hF]; rfl, by simp, trivial, by simp, ?_⟩, ?_⟩
            · intro n hn; simp at hn; subst hn
              exact .inr ⟨.inr hs.1, by simpa [lastSeq] using hs.2⟩
            · simp only [applyAll, lastSeq]; exact ⟨_, rfl⟩
          · rw [if_neg hs]
            cases hae : applyEntry off bins e st.buffer with
            | panic =>
              rcases Classical.em (pagesFit off e.dirtyPages (st.buffer.length + (e.hiveBinsDataSize - bins))) with h | h
              · obtain ⟨b, hb', _⟩ := (entry_effect off bins e st.buffer).1 h
                rw [hb'] at hae; cases hae
              · rw [(entry_effect off bins e st.buffer).2 h] at hae; cases hae
            | ok buf =>
              simp only
              obtain ⟨A, ⟨rest, h1, h2, h3, h4, h5⟩, h6⟩ := ih
                { st with newSeq := e.seq, buffer := buf,
                          recovery := analyze (growBuffer bins e.hiveBinsDataSize st.buffer)
                            e.seq buf st.recovery } hes' (hes e (by simp))
              have hls : lastSeq st.newSeq (e :: A) = lastSeq e.seq A := by
                unfold lastSeq
                cases A with
                | nil => rfl
                | cons a A => simp [List.getLast?_cons]
              refine ⟨e :: A, ⟨rest, by rw [hF, h1]; rfl, ?_, ?_, ?_, ?_⟩, ?_⟩
              · intro x hx
                rcases List.mem_cons.1 hx with rfl | hx
                · omega
                · exact h2 x hx
              · cases A with
                | nil => trivial
                | cons a A => exact ⟨h4 a rfl (by simp only; omega), h3⟩
              · intro a ha hne; simp at ha; subst ha
                rcases Classical.em (e.seq = st.newSeq + 1) with h | h
                · exact h
                · exact absurd ⟨hne, h⟩ hs
              · intro n hn
                rw [hls]
                rcases h5 n hn with h | ⟨_, h⟩
                · exact .inl h
                · exact .inr ⟨.inl (by simp), h⟩
              · simp only [applyAll, hae, Res.bind_ok, hls, recordedOver]
                exact h6
            | err =>
              simp only
              -- whatever the rest of the run is, it fails at `e`
              obtain ⟨A, ⟨rest, h1, h2, h3, h4, h5⟩, _⟩ := ih { st with newSeq := e.seq } hes' (hes e (by simp))
              have hls : lastSeq st.newSeq (e :: A) = lastSeq e.seq A := by
                unfold lastSeq
                cases A with
                | nil => rfl
                | cons a A => simp [List.getLast?_cons]
              refine ⟨e :: A, ⟨rest, by rw [hF, h1]; rfl, ?_, ?_, ?_, ?_⟩, ?_⟩
              · intro x hx
                rcases List.mem_cons.1 hx with rfl | hx
                · omega
                · exact h2 x hx
              · cases A with
                | nil => trivial
                | cons a A => exact ⟨h4 a rfl (by simp only; omega), h3⟩
              · intro a ha hne; simp at ha; subst ha
                rcases Classical.em (e.seq = st.newSeq + 1) with h | h
                · exact h
                · exact absurd ⟨hne, h⟩ hs
              · intro n hn
                rw [hls]
                rcases h5 n hn with h | ⟨_, h⟩
                · exact .inl h
                · exact .inr ⟨.inl (by simp), h⟩
              · simp only [applyAll, hae, Res.bind_err]
    · rw [if_neg hv]
      refine ⟨[], ⟨[], by rw [List.takeWhile_cons_of_neg (by simpa using hv)]; rfl, by simp, trivial,
        by simp, by simp⟩, ?_⟩
      simp only [applyAll, lastSeq]
      exact ⟨_, rfl⟩

/-- C04 (partial: the hive's secondary sequence number must not be 0, and no entry may have the
number 2^32-1, after which a debug build overflows): for every log there is exactly one run of
entries that has to be applied, the code applies exactly this run, in order, and reports the
number of its last entry (0 if it is empty). -/
theorem applied_run_partial {σ : Type} (analyze : Bytes → Nat → Bytes → σ → σ) (h : Hive σ)
    (log : TransactionLog) (hsec : 0 < h.baseBlock.base.secondarySeq)
    (hseq : ∀ e ∈ log.entries, e.seq + 1 < 4294967296) :
    ∃ A, AppliedRun h.baseBlock.base.secondarySeq log.entries A ∧
      (∀ B, AppliedRun h.baseBlock.base.secondarySeq log.entries B → B = A) ∧
      match applyAll h.hbinOffset h.baseBlock.base.hiveBinsDataSize A h.buffer with
      | .ok buf => ∃ h', updateParser analyze h log = .ok (lastSeq 0 A, h') ∧ h'.buffer = buf ∧
          h'.baseBlock = h.baseBlock ∧ h'.hbinOffset = h.hbinOffset ∧
          h'.recovery = recordedOver analyze h.hbinOffset h.baseBlock.base.hiveBinsDataSize A h.buffer h.recovery
      | .err => updateParser analyze h log = .err
      | .panic => False := by
  obtain ⟨A, ⟨rest, h1, h2, h3, h4, h5⟩, h6⟩ := updateEntries_run analyze h.hbinOffset
    h.baseBlock.base.secondarySeq h.baseBlock.base.hiveBinsDataSize hsec log.entries
    { newSeq := 0, buffer := h.buffer, info := h.info, recovery := h.recovery } hseq (by simp)
  have hA : AppliedRun h.baseBlock.base.secondarySeq log.entries A := by
    refine ⟨rest, h1, h2, h3, fun n hn => ?_⟩
    rcases h5 n hn with hh | ⟨hne, hh⟩
    · exact .inl hh
    · right
      rcases hne with hne | hne
      · cases hl : A.getLast? with
        | none => rw [List.getLast?_eq_none_iff] at hl; exact absurd hl hne
        | some l => exact ⟨l, rfl, by simpa [lastSeq, hl] using hh⟩
      · exact absurd rfl hne
  refine ⟨A, hA, fun B hB => appliedRun_unique hB hA, ?_⟩
  split at h6
  · rename_i buf heq
    rw [heq]
    obtain ⟨info, h6⟩ := h6
    refine ⟨{ h with buffer := buf, info := info, recovery := _ }, ?_, rfl, rfl, rfl, rfl⟩
    unfold updateParser
    rw [h6]
  · rename_i heq
    rw [heq]
    simp only
    unfold updateParser
    rw [h6]
  · exact h6.elim

/-- An entry without pages, for examples. -/
def demoEntry (seq bins : Nat) (valid : Bool) : LogEntry :=
  ⟨0, 0, 0, seq, bins, 0, 0, 0, [], valid⟩

/-- A run that skips an old entry, applies three and stops at a gap. -/
example : AppliedRun 5 [demoEntry 3 4096 true, demoEntry 5 4096 true, demoEntry 6 8192 true,
      demoEntry 7 4096 true, demoEntry 9 4096 true, demoEntry 10 4096 true]
    [demoEntry 5 4096 true, demoEntry 6 8192 true, demoEntry 7 4096 true] :=
  ⟨[demoEntry 9 4096 true, demoEntry 10 4096 true], by decide, by decide, ⟨rfl, rfl, trivial⟩,
    fun n hn => .inr ⟨demoEntry 7 4096 true, rfl, by simp at hn; subst hn; decide⟩⟩

/-- C04 fails for a hive with secondary sequence number 0: after an entry numbered 0 the next
entry is applied whatever its number (here 5), although the run ends before it. -/
theorem applied_run_violated :
    AppliedRun 0 [demoEntry 0 0 true, demoEntry 5 0 true] [demoEntry 0 0 true] ∧
    ∃ st, updateEntries (fun _ _ _ (s : Unit) => s) 4096 0 0
      [demoEntry 0 0 true, demoEntry 5 0 true] ⟨0, [], {}, ()⟩ = .ok st ∧ st.newSeq = 5 := by
  refine ⟨⟨[demoEntry 5 0 true], by decide, by decide, trivial,
    fun n hn => .inr ⟨demoEntry 0 0 true, rfl, by simp at hn; subst hn; decide⟩⟩, _, rfl, rfl⟩

/-! ### C07 -/

/-- A log as Windows writes it: at least one entry, the first carrying the number in the log
header, all intact and consecutively numbered. -/
def SoundLog (log : TransactionLog) : Prop :=
  (∃ e, log.entries.head? = some e ∧ e.seq = log.base.primarySeq) ∧
  (∀ e ∈ log.entries, e.hasValidHashes = true ∧ e.hiveBinsDataSize % 4096 = 0 ∧
    e.seq + 1 < 4294967296) ∧
  Consecutive log.entries

theorem consecutive_ge : ∀ (es : List LogEntry) (e : LogEntry), es.head? = some e → Consecutive es →
    ∀ x ∈ es, e.seq ≤ x.seq := by
  intro es
  induction es with
  | nil => intro e h; cases h
  | cons a es ih =>
    intro e he hc x hx
    simp at he; subst he
    rcases List.mem_cons.1 hx with rfl | hx
    · exact Nat.le_refl _
    · cases es with
      | nil => cases hx
      | cons b es =>
        have := ih b rfl hc.2 x hx
        have := hc.1
        omega

theorem consecutive_append : ∀ (A B : List LogEntry), Consecutive A → Consecutive B →
    (∀ l b, A.getLast? = some l → B.head? = some b → b.seq = l.seq + 1) → Consecutive (A ++ B) := by
  intro A
  induction A with
  | nil => intro B _ hB _; exact hB
  | cons a A ih =>
    intro B hA hB h
    cases A with
    | nil =>
      cases B with
      | nil => trivial
      | cons b B => exact ⟨h a b rfl rfl, hB⟩
    | cons a' A =>
      exact ⟨hA.1, ih B hA.2 hB (fun l b hl hb => h l b (by simpa [List.getLast?_cons_cons] using hl) hb)⟩

theorem appliedRun_full {sec : Nat} {es : List LogEntry} {e : LogEntry} (he : es.head? = some e)
    (hsec : sec ≤ e.seq)
    (hall : ∀ e ∈ es, e.hasValidHashes = true ∧ e.hiveBinsDataSize % 4096 = 0 ∧ e.seq + 1 < 4294967296)
    (hc : Consecutive es) : AppliedRun sec es es := by
  refine ⟨[], ?_, fun e he => (hall e he).2.1, hc, by simp⟩
  rw [List.append_nil]
  have h1 : es.takeWhile (·.hasValidHashes) = es := by
    have : ∀ l : List LogEntry, (∀ x ∈ l, x.hasValidHashes = true) → l.takeWhile (·.hasValidHashes) = l := by
      intro l
      induction l with
      | nil => intro _; rfl
      | cons x l ih =>
        intro hx
        rw [List.takeWhile_cons_of_pos (hx x (by simp)), ih (fun y hy => hx y (by simp [hy]))]
    exact this es (fun x hx => (hall x hx).1)
  rw [h1, List.filter_eq_self]
  intro x hx
  have := consecutive_ge es e he hc x hx
  simp; omega

theorem applyAll_append (off bins : Nat) : ∀ (A B : List LogEntry) (buf : Bytes),
    applyAll off bins (A ++ B) buf = (applyAll off bins A buf) >>= applyAll off bins B := by
  intro A
  induction A with
  | nil => intro B buf; rfl
  | cons a A ih =>
    intro B buf
    simp only [List.cons_append, applyAll]
    cases applyEntry off bins a buf with
    | ok b => simp only [Res.bind_ok]; exact ih B b
    | err => rfl
    | panic => rfl

theorem lastSeq_append (d : Nat) (A B : List LogEntry) :
    lastSeq d (A ++ B) = lastSeq (lastSeq d A) B := by
  unfold lastSeq
  rw [List.getLast?_append]
  cases B.getLast? <;> simp

/-- Which logs are taken, for sound logs. -/
theorem takenLogs_sound (sec : Nat) (hsec : 0 < sec) : ∀ (logs : List TransactionLog) (n : Nat),
    (∀ l ∈ logs, SoundLog l) →
    (takenLogs sec n logs).Sublist logs ∧ Consecutive ((takenLogs sec n logs).flatMap (·.entries)) ∧
      (n = 0 → (takenLogs sec n logs).head? = logs.find? (fun l => decide (sec ≤ l.base.primarySeq))) ∧
      (∀ e, ((takenLogs sec n logs).flatMap (·.entries)).head? = some e → sec ≤ e.seq ∧ (n ≠ 0 → e.seq = n + 1)) := by
  intro logs
  induction logs with
  | nil => intro n _; exact ⟨List.Sublist.refl _, trivial, fun _ => rfl, by simp [takenLogs]⟩
  | cons l logs ih =>
    intro n hs
    have hs' : ∀ l ∈ logs, SoundLog l := fun x hx => hs x (by simp [hx])
    obtain ⟨⟨e, he, hep⟩, hall, hc⟩ := hs l (by simp)
    rw [takenLogs]
    by_cases hp : sec ≤ l.base.primarySeq
    · by_cases hcont : n = 0 ∨ l.base.primarySeq = n + 1
      · rw [if_pos ⟨hp, hcont⟩]
        obtain ⟨x, hx⟩ : ∃ x, l.entries.getLast? = some x := by
          cases hg : l.entries.getLast? with
          | some x => exact ⟨x, rfl⟩
          | none => rw [List.getLast?_eq_none_iff] at hg; rw [hg] at he; cases he
        have hls : lastSeq 0 l.entries = x.seq := by simp [lastSeq, hx]
        have hxs : x.seq ≠ 0 := by
          have := consecutive_ge _ e he hc x (List.mem_of_getLast? hx)
          omega
        rw [hls]
        obtain ⟨hsub, hcons, _, hhead⟩ := ih x.seq hs'
        refine ⟨hsub.cons_cons l, ?_, ?_, ?_⟩
        · rw [List.flatMap_cons]
          refine consecutive_append _ _ hc hcons (fun y b hy hb => ?_)
          rw [hx] at hy; cases hy
          exact (hhead b hb).2 hxs
        · intro _; rw [List.find?_cons_of_pos (by simpa using hp)]; rfl
        · intro e' he'
          rw [List.flatMap_cons, List.head?_append, he] at he'
          cases he'
          exact ⟨by omega, fun hne => by omega⟩
      · rw [if_neg (fun h => hcont h.2)]
        obtain ⟨hsub, hcons, _, hhead⟩ := ih n hs'
        exact ⟨hsub.cons _, hcons, fun h0 => by omega, hhead⟩
    · rw [if_neg (fun h => hp h.1)]
      obtain ⟨hsub, hcons, hz, hhead⟩ := ih n hs'
      refine ⟨hsub.cons _, hcons, fun h0 => ?_, hhead⟩
      rw [List.find?_cons_of_neg (by simpa using hp)]
      exact hz h0

/-- With what result the logs taken are used. -/
theorem applyLogs_sound {σ : Type} (analyze : Bytes → Nat → Bytes → σ → σ) (sec : Nat) (hsec : 0 < sec) :
    ∀ (logs : List TransactionLog) (n : Nat) (h : Hive σ), h.baseBlock.base.secondarySeq = sec →
    (∀ l ∈ logs, SoundLog l) → n + 1 < 4294967296 →
      match applyAll h.hbinOffset h.baseBlock.base.hiveBinsDataSize ((takenLogs sec n logs).flatMap (·.entries))
        h.buffer with
      | .ok buf => ∃ h', applyLogs analyze sec logs n h =
            .ok (lastSeq n ((takenLogs sec n logs).flatMap (·.entries)), h') ∧ h'.buffer = buf ∧
            h'.baseBlock = h.baseBlock ∧ h'.hbinOffset = h.hbinOffset ∧
            h'.recovery = recordedOver analyze h.hbinOffset h.baseBlock.base.hiveBinsDataSize
              ((takenLogs sec n logs).flatMap (·.entries)) h.buffer h.recovery
      | .err => applyLogs analyze sec logs n h = .err
      | .panic => False := by
  intro logs
  induction logs with
  | nil =>
    intro n h _ _ _
    exact ⟨h, rfl, rfl, rfl, rfl, rfl⟩
  | cons l logs ih =>
    intro n h hh hs hn
    have hs' : ∀ l ∈ logs, SoundLog l := fun x hx => hs x (by simp [hx])
    obtain ⟨⟨e, he, hep⟩, hall, hc⟩ := hs l (by simp)
    by_cases hp : l.base.primarySeq ≥ sec
    · by_cases hcont : n = 0 ∨ l.base.primarySeq = n + 1
      · rw [takenLogs, if_pos ⟨hp, hcont⟩, applyLogs, if_pos hp, if_neg (by omega), if_pos hcont]
        obtain ⟨A, hA, hu, hres⟩ := applied_run_partial analyze h l (by omega)
          (fun e he => (hall e he).2.2)
        have hfull := hu _ (appliedRun_full he (by omega) hall hc)
        subst hfull
        have hlast : ∃ x, l.entries.getLast? = some x := by
          cases hg : l.entries.getLast? with
          | some x => exact ⟨x, rfl⟩
          | none => rw [List.getLast?_eq_none_iff] at hg; rw [hg] at he; cases he
        obtain ⟨x, hx⟩ := hlast
        have hls : ∀ d, lastSeq d l.entries = x.seq := fun d => by simp [lastSeq, hx]
        have hxb : x.seq + 1 < 4294967296 := (hall x (List.mem_of_getLast? hx)).2.2
        rw [hls 0, List.flatMap_cons, applyAll_append]
        cases hap : applyAll h.hbinOffset h.baseBlock.base.hiveBinsDataSize l.entries h.buffer with
        | panic => rw [hap] at hres; exact hres.elim
        | err =>
          rw [hap] at hres
          simp only at hres
          rw [hres]
          rfl
        | ok buf =>
          rw [hap] at hres
          simp only at hres
          obtain ⟨h', hup, hb', hbb, hoff, hrc⟩ := hres
          rw [hup]
          simp only
          rw [hls 0]
          have hrest := ih x.seq h' (by rw [hbb]; exact hh) hs' hxb
          rw [Res.bind_ok, lastSeq_append, hls n, recordedOver_append _ _ _ _ _ _ _ _ hap]
          rw [hbb, hoff, hb', hrc] at hrest
          exact hrest
      · rw [takenLogs, if_neg (fun h => hcont h.2), applyLogs, if_pos hp, if_neg (by omega), if_neg hcont]
        exact ih n { h with info := h.info.add .WarningTransactionLog } hh hs' hn
    · rw [takenLogs, if_neg (fun h => hp h.1), applyLogs, if_neg hp]
      exact ih n { h with info := h.info.add .WarningTransactionLog } hh hs' hn

theorem applyEntry_low {off bins : Nat} {e : LogEntry} {buf buf' : Bytes}
    (h : applyEntry off bins e buf = .ok buf') :
    buf.length ≤ buf'.length ∧ ∀ i, i < off → i < buf.length → buf'[i]? = buf[i]? := by
  rcases Classical.em (pagesFit off e.dirtyPages (buf.length + (e.hiveBinsDataSize - bins))) with hf | hf
  · obtain ⟨b, hb, hl, hp⟩ := (entry_effect off bins e buf).1 hf
    rw [hb] at h; cases h
    refine ⟨by omega, fun i hi hlt => ?_⟩
    rcases hp i (by omega) with ⟨_, q, _, _, hc, _⟩ | ⟨_, hv⟩
    · unfold covers at hc; omega
    · rw [hv, List.getElem?_eq_getElem hlt]; rfl
  · rw [(entry_effect off bins e buf).2 hf] at h; cases h

theorem applyAll_low {off bins : Nat} : ∀ {A : List LogEntry} {buf buf' : Bytes},
    applyAll off bins A buf = .ok buf' →
    buf.length ≤ buf'.length ∧ ∀ i, i < off → i < buf.length → buf'[i]? = buf[i]? := by
  intro A
  induction A with
  | nil => intro buf buf' h; cases h; exact ⟨Nat.le_refl _, fun _ _ _ => rfl⟩
  | cons a A ih =>
    intro buf buf' h
    rw [applyAll] at h
    cases hae : applyEntry off bins a buf with
    | ok b =>
      rw [hae] at h
      obtain ⟨l1, p1⟩ := applyEntry_low hae
      obtain ⟨l2, p2⟩ := ih h
      exact ⟨by omega, fun i hi hlt => by rw [p2 i hi (by omega), p1 i hi hlt]⟩
    | err => rw [hae] at h; cases h
    | panic => rw [hae] at h; cases h

/-- The parser state agrees with its buffer. -/
def Hive.Wf {σ : Type} (h : Hive σ) : Prop :=
  BaseBlock.fromBytes h.buffer = .ok (h.baseBlock, h.buffer.drop 4096) ∧ h.hbinOffset = 4096 ∧
    4096 ≤ h.buffer.length

theorem initBaseBlock_ok (buf : Bytes) (info : Logs) (bb : BaseBlock) (rest : Bytes)
    (hp : BaseBlock.fromBytes buf = .ok (bb, rest)) :
    ∃ sup bad info', initBaseBlock buf info = .ok (bb, 4096, sup, bad, info') ∧
      sup = decide (bb.base.fileType ≠ .unknown) ∧
      (bad = true ↔ bb.base.fileType ≠ .unknown ∧
        calculateChecksum (buf.take 512) ≠ .ok bb.base.checksum) := by
  obtain ⟨hr, hl, _⟩ := baseBlock_frame buf bb rest hp
  have hoff : buf.length - rest.length = 4096 := by rw [hr, List.length_drop]; omega
  have hck : calculateChecksum (slice buf 0 512) = .ok (substSum (xorDwords (slice buf 0 512))) :=
    checksum_spec _ (by rw [length_slice _ _ _ (by omega)]; omega)
  unfold initBaseBlock
  rw [hp]
  simp only [Res.bind_ok, hoff]
  by_cases hk : bb.base.fileType ≠ .unknown
  · rw [if_pos hk, getRange_eq buf 0 0x200 (by omega) (by omega)]
    simp only [Nat.reduceSub, hck, Res.bind_ok]
    rw [← slice_zero_take, hck]
    by_cases hc : substSum (xorDwords (slice buf 0 512)) = bb.base.checksum
    · rw [if_neg (by simpa using hc)]
      exact ⟨_, _, _, rfl, by simp [hk], by simp [hc]⟩
    · rw [if_pos hc]
      exact ⟨_, _, _, rfl, by simp [hk], by simp [hk, hc]⟩
  · rw [if_neg hk]
    exact ⟨_, _, _, rfl, by simp [hk], by simp [hk]⟩

theorem updateHeader_ok {σ : Type} (h : Hive σ) (hw : h.Wf) (s : Nat) (hs : s < 2 ^ 32) :
    ∃ h', updateHeader h s = .ok h' ∧ h'.Wf ∧ h'.baseBlock.base.primarySeq = s ∧
      h'.baseBlock.base.secondarySeq = s ∧
      calculateChecksum (h'.buffer.take 512) = .ok h'.baseBlock.base.checksum ∧
      h'.buffer.length = h.buffer.length ∧
      (∀ i, ¬ (4 ≤ i ∧ i < 12) → ¬ (508 ≤ i ∧ i < 512) → h'.buffer[i]? = h.buffer[i]?) ∧
      h'.recovery = h.recovery := by
  obtain ⟨hp, ho, hl⟩ := hw
  obtain ⟨buf', c, hr, hl', hsame, hck, hpar⟩ := header_rewrite _ _ _ hp s hs
  obtain ⟨sup, bad, info', hi, _⟩ := initBaseBlock_ok buf' h.info _ _ hpar
  obtain ⟨hd, hl2, _⟩ := baseBlock_frame _ _ _ hpar
  have hu : ∃ h', updateHeader h s = .ok h' ∧ h'.buffer = buf' ∧ h'.hbinOffset = 4096 ∧
      h'.recovery = h.recovery ∧ h'.baseBlock = { h.baseBlock with
        base := { h.baseBlock.base with primarySeq := s, secondarySeq := s, checksum := c } } := by
    unfold updateHeader Hive.reinit
    rw [hr]
    simp only [Res.bind_ok, hi]
    exact ⟨_, rfl, rfl, rfl, rfl, rfl⟩
  obtain ⟨h', hu, e1, e2, e3, e4⟩ := hu
  refine ⟨h', hu, ⟨?_, e2, ?_⟩, by rw [e4], by rw [e4], by rw [e1, e4]; exact hck, by rw [e1]; exact hl',
    by rw [e1]; exact hsame, e3⟩
  · rw [e1, e4, ← hd]; exact hpar
  · rw [e1]; omega

/-- C07 (partial: logs must be as Windows writes them, see `SoundLog`, and the hive's secondary
number not 0; `header_seq_violated` shows what happens otherwise).  When logs are replayed on a
dirty hive, the entries applied over all logs form one consecutively numbered run taken from a
sublist of the logs starting with the first fresh one, and afterwards both header numbers are the
number of its last entry and the header checksum is right. -/
theorem header_seq_partial {σ : Type} (analyze : Bytes → Nat → Bytes → σ → σ)
    (initItems : Bytes → σ → Res σ) (h : Hive σ) (s : σ) (logs : List TransactionLog) (hw : h.Wf)
    (hinit : initItems h.buffer h.recovery = .ok s)
    (hdirty : h.baseBlock.base.primarySeq ≠ h.baseBlock.base.secondarySeq)
    (hsec : 0 < h.baseBlock.base.secondarySeq)
    (hsound : ∀ l ∈ logs, SoundLog l)
    (hfresh : ∃ l ∈ logs, h.baseBlock.base.secondarySeq ≤ l.base.primarySeq) :
    ∃ used : List TransactionLog, used = takenLogs h.baseBlock.base.secondarySeq 0 logs ∧ used.Sublist logs ∧ used ≠ [] ∧
      used.head? = logs.find? (fun l => decide (h.baseBlock.base.secondarySeq ≤ l.base.primarySeq)) ∧
      Consecutive (used.flatMap (·.entries)) ∧
      match applyAll 4096 h.baseBlock.base.hiveBinsDataSize (used.flatMap (·.entries)) h.buffer with
      | .ok buf => ∃ h' last, applyTransactionLogs analyze initItems h false logs = .ok h' ∧
          (used.flatMap (·.entries)).getLast? = some last ∧
          h'.baseBlock.base.primarySeq = last.seq ∧ h'.baseBlock.base.secondarySeq = last.seq ∧
          calculateChecksum (h'.buffer.take 512) = .ok h'.baseBlock.base.checksum ∧
          (∀ i, ¬ (4 ≤ i ∧ i < 12) → ¬ (508 ≤ i ∧ i < 512) → h'.buffer[i]? = buf[i]?) ∧
          h'.Wf ∧ h'.buffer.length = buf.length ∧
          h'.recovery = recordedOver analyze 4096 h.baseBlock.base.hiveBinsDataSize (used.flatMap (·.entries))
            h.buffer s
      | .err => applyTransactionLogs analyze initItems h false logs = .err
      | .panic => False := by
  have hrest := applyLogs_sound analyze
    h.baseBlock.base.secondarySeq hsec logs 0 { h with recovery := s } rfl hsound (by omega)
  obtain ⟨hsub, hcons, hz, hhead⟩ := takenLogs_sound h.baseBlock.base.secondarySeq hsec logs 0 hsound
  generalize hused : takenLogs h.baseBlock.base.secondarySeq 0 logs = used at *
  have hne : used ≠ [] := by
    intro hu
    have hz := (hz rfl).symm
    rw [hu, List.head?_nil, List.find?_eq_none] at hz
    obtain ⟨l, hl, hle⟩ := hfresh
    exact hz l hl (by simpa using hle)
  have hlne : logs.isEmpty = false := by
    obtain ⟨l, hl, _⟩ := hfresh
    cases logs with
    | nil => cases hl
    | cons => rfl
  refine ⟨used, rfl, hsub, hne, hz rfl, hcons, ?_⟩
  have happ : applyTransactionLogs analyze initItems h false logs =
      match applyLogs analyze h.baseBlock.base.secondarySeq logs 0 { h with recovery := s } with
        | .ok (newSeq, h) => updateHeader h newSeq
        | .err => .err
        | .panic => .panic := by
    unfold applyTransactionLogs prepareLogs
    rw [hlne]
    simp only [Bool.false_eq_true, if_false, Res.bind_ok, if_neg hdirty, hinit]
    rfl
  rw [happ]
  simp only at hrest
  cases hap : applyAll 4096 h.baseBlock.base.hiveBinsDataSize (used.flatMap (·.entries)) h.buffer with
  | panic => rw [← hw.2.1] at hap; rw [hap] at hrest; exact hrest.elim
  | err => rw [← hw.2.1] at hap; rw [hap] at hrest; simp only at hrest ⊢; rw [hrest]
  | ok buf =>
    rw [← hw.2.1] at hap
    rw [hap] at hrest
    obtain ⟨h', hok, hbuf, hbb, hoff, hrc⟩ := hrest
    rw [hw.2.1] at hap hrc
    simp only
    rw [hok]
    simp only
    obtain ⟨hlen, hlow⟩ := applyAll_low hap
    obtain ⟨last, hlast⟩ : ∃ last, (used.flatMap (·.entries)).getLast? = some last := by
      cases hg : (used.flatMap (·.entries)).getLast? with
      | some x => exact ⟨x, rfl⟩
      | none =>
        rw [List.getLast?_eq_none_iff] at hg
        cases used with
        | nil => exact absurd rfl hne
        | cons u used =>
          obtain ⟨⟨e, he, _⟩, _⟩ := hsound u (hsub.subset (by simp))
          rw [List.flatMap_cons, List.append_eq_nil_iff] at hg
          rw [hg.1] at he; cases he
    have hls : lastSeq 0 (used.flatMap (·.entries)) = last.seq := by simp [lastSeq, hlast]
    have hmem : last.seq < 2 ^ 32 := by
      have := List.mem_of_getLast? hlast
      rw [List.mem_flatMap] at this
      obtain ⟨l, hl, hel⟩ := this
      have := ((hsound l (hsub.subset hl)).2.1 last hel).2.2
      omega
    have hwf : h'.Wf := by
      obtain ⟨_, hl4, hfr⟩ := baseBlock_frame _ _ _ hw.1
      refine ⟨?_, by rw [hoff]; exact hw.2.1, by rw [hbuf]; omega⟩
      rw [hbuf, hbb]
      exact hfr buf (by omega) (fun i hi => hlow i hi (by omega))
    obtain ⟨h'', hok2, hw2, hp2, hs2, hc2, hlen2, hb2, hr2⟩ := updateHeader_ok h' hwf last.seq hmem
    rw [hls]
    refine ⟨h'', last, hok2, hlast, hp2, hs2, hc2, ?_⟩
    rw [← hbuf]
    exact ⟨hb2, hw2, hlen2, hr2.trans hrc⟩

/-- A hive header with the given sequence numbers and a right checksum, followed by one empty bin
of `n` bytes. -/
def demoHive (p s : UInt8) (n : Nat) : Bytes :=
  regf ++ [p, 0, 0, 0, s, 0, 0, 0] ++ List.replicate 496 0 ++
    [0x72 ^^^ p ^^^ s, 0x65, 0x67, 0x66] ++ List.replicate (3584 + n) 0

/-- A log header with the given primary number (other fields zero). -/
def demoLog (p : Nat) (entries : List LogEntry) : TransactionLog :=
  { base := { primarySeq := p, secondarySeq := p, lastModification := 0, majorVersion := 1,
              minorVersion := 5, fileType := .transactionLogNewFormat, format := .directMemoryLoad, rootCellOffset := 0,
              hiveBinsDataSize := 0, clusteringFactor := 1, filename := [], unk2 := [],
              checksum := 0, logs := {} },
    baseBlockBytes := (demoHive 9 8 0).take 512, entries }

/-- Open without recovery and read off `(primary, secondary, buffer[4096])`. -/
def demoOpen (buf : Bytes) (logs : List TransactionLog) : Option (Nat × Nat × Option UInt8) :=
  match openHive (σ := Unit) (fun _ _ _ s => s) (fun _ s => .ok s) (fun _ _ s => .ok s) buf () logs with
  | .ok (true, h) => some (h.baseBlock.base.primarySeq, h.baseBlock.base.secondarySeq, h.buffer[4096]?)
  | _ => none

/-- An entry writing one byte at the start of the first bin. -/
def demoWrite (seq : Nat) (b : UInt8) : LogEntry := ⟨0, 0, 0, seq, 0, 1, 0, 0, [⟨0, [b]⟩], true⟩

/-- Two sound logs: the hypotheses of `header_seq_partial` can be met and the result is as said. -/
example : demoOpen (demoHive 5 4 2) [demoLog 4 [demoWrite 4 1, demoWrite 5 2], demoLog 6 [demoWrite 6 3]]
    = some (6, 6, some 3) := by decide +kernel

example : SoundLog (demoLog 4 [demoWrite 4 1, demoWrite 5 2]) :=
  ⟨⟨_, rfl, rfl⟩, by decide, rfl, trivial⟩

/-- C07 fails in general.
(1) A second log whose header continues the sequence but whose entries are not usable makes the
    hive end with sequence numbers 0, although entry 4 was applied.
(2) A second log is applied although its first entry (9) does not continue the sequence (5 comes
    next), because only the number in the log header is compared.
(3) A log without any usable entry overwrites the header numbers with 0. -/
theorem header_seq_violated :
    demoOpen (demoHive 5 4 2) [demoLog 4 [demoWrite 4 1], demoLog 5 [demoEntry 5 0 false]]
      = some (0, 0, some 1) ∧
    demoOpen (demoHive 5 4 2) [demoLog 4 [demoWrite 4 1], demoLog 5 [demoWrite 9 7]]
      = some (9, 9, some 7) ∧
    demoOpen (demoHive 5 4 2) [demoLog 4 [demoEntry 4 0 false]] = some (0, 0, some 0) := by
  refine ⟨?_, ?_, ?_⟩ <;> decide +kernel

/-! ### C41 -/

/-- C41: a hive with agreeing sequence numbers and a right checksum is opened without touching its
buffer or its header, whatever logs are given; only warnings are added. -/
theorem open_clean {σ : Type} (analyze : Bytes → Nat → Bytes → σ → σ) (initItems : Bytes → σ → Res σ)
    (scan : Bytes → BaseBlock → σ → Res σ) (buf : Bytes) (s0 s : σ) (logs : List TransactionLog)
    (bb : BaseBlock) (rest : Bytes) (hp : BaseBlock.fromBytes buf = .ok (bb, rest))
    (hsup : bb.base.fileType ≠ .unknown)
    (hclean : bb.base.primarySeq = bb.base.secondarySeq)
    (hck : calculateChecksum (buf.take 512) = .ok bb.base.checksum)
    (hscan : scan buf bb s0 = .ok s) :
    ∃ info, openHive analyze initItems scan buf s0 logs =
      .ok (true, { buffer := buf, hbinOffset := 4096, baseBlock := bb, info := info, recovery := s }) := by
  obtain ⟨sup, bad, info', hi, hs, hb⟩ := initBaseBlock_ok buf {} bb rest hp
  have hbad : bad = false := by
    cases bad with
    | false => rfl
    | true => exact absurd hck (hb.1 rfl).2
  have hsup' : sup = true := by rw [hs]; simp [hsup]
  subst hbad hsup'
  unfold openHive
  rw [hi]
  simp only [Res.bind_ok, if_true, hscan]
  unfold applyTransactionLogs prepareLogs
  cases logs with
  | nil => exact ⟨info', rfl⟩
  | cons l logs => simp only [List.isEmpty_cons, Bool.false_eq_true, if_false, Res.bind_ok, if_pos hclean]; exact ⟨_, rfl⟩

/-- C41: a hive of an unknown file type is not read any further and no log is applied. -/
theorem open_unsupported {σ : Type} (analyze : Bytes → Nat → Bytes → σ → σ)
    (initItems : Bytes → σ → Res σ)
    (scan : Bytes → BaseBlock → σ → Res σ) (buf : Bytes) (s0 : σ) (logs : List TransactionLog)
    (bb : BaseBlock) (rest : Bytes) (hp : BaseBlock.fromBytes buf = .ok (bb, rest))
    (hsup : bb.base.fileType = .unknown) :
    ∃ info, openHive analyze initItems scan buf s0 logs =
      .ok (false, { buffer := buf, hbinOffset := 4096, baseBlock := bb, info := info, recovery := s0 }) := by
  obtain ⟨sup, bad, info', hi, hs, _⟩ := initBaseBlock_ok buf {} bb rest hp
  have hsup' : sup = false := by rw [hs]; simp [hsup]
  subst hsup'
  refine ⟨info', ?_⟩
  unfold openHive
  rw [hi]
  simp

/-- C41: without usable logs a hive is opened as it is, even with a wrong checksum. -/
theorem open_no_logs {σ : Type} (analyze : Bytes → Nat → Bytes → σ → σ) (initItems : Bytes → σ → Res σ)
    (scan : Bytes → BaseBlock → σ → Res σ) (buf : Bytes) (s0 s : σ)
    (bb : BaseBlock) (rest : Bytes) (hp : BaseBlock.fromBytes buf = .ok (bb, rest))
    (hsup : bb.base.fileType ≠ .unknown) (hscan : scan buf bb s0 = .ok s) :
    ∃ info, openHive analyze initItems scan buf s0 [] =
      .ok (true, { buffer := buf, hbinOffset := 4096, baseBlock := bb, info := info, recovery := s }) ∧
      (calculateChecksum (buf.take 512) ≠ .ok bb.base.checksum → LogCode.WarningBaseBlock ∈ info.codes) := by
  obtain ⟨hr, hl, _⟩ := baseBlock_frame buf bb rest hp
  have hoff : buf.length - rest.length = 4096 := by rw [hr, List.length_drop]; omega
  have hckv : calculateChecksum (slice buf 0 512) = .ok (substSum (xorDwords (slice buf 0 512))) :=
    checksum_spec _ (by rw [length_slice _ _ _ (by omega)]; omega)
  unfold openHive initBaseBlock applyTransactionLogs
  rw [hp]
  simp only [Res.bind_ok, hoff, if_pos hsup, getRange_eq buf 0 0x200 (by omega) (by omega),
    Nat.reduceSub, hckv]
  rw [← slice_zero_take, hckv]
  by_cases hc : substSum (xorDwords (slice buf 0 512)) = bb.base.checksum
  · simp only [hc, ne_eq, not_true_eq_false, if_false, Res.bind_ok, if_true, hscan, List.isEmpty_nil]
    exact ⟨_, rfl, fun h => by exact h.elim⟩
  · simp only [hc, ne_eq, not_false_eq_true, if_true, Res.bind_ok, hscan, List.isEmpty_nil]
    exact ⟨_, rfl, fun _ => by simp⟩

/-- C41: with a wrong checksum and at least one log the header (first 512 bytes) is taken from the
log with the highest number; the rest of the buffer is kept. -/
theorem bad_checksum_header {σ : Type} (h h' : Hive σ) (logs logs' : List TransactionLog)
    (newest : TransactionLog) (hn : logs.getLast? = some newest) (hl : 512 ≤ h.buffer.length)
    (hr : handleBadChecksum h logs = .ok (h', logs')) :
    h'.buffer = newest.baseBlockBytes ++ h.buffer.drop 512 ∧
    BaseBlock.fromBytes h'.buffer = .ok (h'.baseBlock, h'.buffer.drop 4096) ∧
    logs' = (if logs.length > 1 then logs.drop 1 else logs) ∧ newest ∈ logs' := by
  unfold handleBadChecksum at hr
  rw [hn, getRange_eq _ _ _ (by omega) hl] at hr
  simp only at hr
  split at hr
  · cases hr
  · split at hr
    · rename_i hre heq
      cases hr
      unfold Hive.reinit initBaseBlock at heq
      cases hb : BaseBlock.fromBytes (newest.baseBlockBytes ++ h.buffer.drop 512) with
      | err => rw [hb] at heq; cases heq
      | panic => rw [hb] at heq; cases heq
      | ok x =>
        obtain ⟨bb, rest⟩ := x
        obtain ⟨hd, _, _⟩ := baseBlock_frame _ _ _ hb
        obtain ⟨sup, bad, info', hi, _⟩ := initBaseBlock_ok _ (h.info.add .WarningBaseBlock) _ _ hb
        have heq' : Hive.reinit { h with buffer := newest.baseBlockBytes ++ h.buffer.drop 512, info := h.info.add .WarningBaseBlock } =
            .ok { h with buffer := newest.baseBlockBytes ++ h.buffer.drop 512, baseBlock := bb, hbinOffset := 4096, info := info' } := by
          unfold Hive.reinit
          simp only [hi, Res.bind_ok]
        unfold Hive.reinit initBaseBlock at heq'
        rw [heq'] at heq
        cases heq
        refine ⟨rfl, by rw [← hd]; exact hb, rfl, ?_⟩
        split
        · rename_i hlen
          have := List.mem_of_getLast? hn
          rw [List.getLast?_eq_some_iff] at hn
          obtain ⟨ys, rfl⟩ := hn
          cases ys with
          | nil => simp at hlen
          | cons y ys => simp
        · exact List.mem_of_getLast? hn
    · cases hr
    · cases hr

/-- A log header with a wrong checksum. -/
def demoBadHeader : Bytes := regf ++ [5, 0, 0, 0, 5, 0, 0, 0] ++ List.replicate 500 0

/-- C41 fails for damaged log headers: the header taken over from the newest log is itself not
checked, so a hive can end up (without any log applied) with a header whose checksum is wrong. -/
theorem recovered_header_violated :
    (match openHive (σ := Unit) (fun _ _ _ s => s) (fun _ s => .ok s) (fun _ _ s => .ok s)
        ((demoHive 5 4 2).set 100 1) ()
        [{ demoLog 5 [demoWrite 5 1] with baseBlockBytes := demoBadHeader }] with
    | .ok (true, h) => decide (h.buffer.take 512 = demoBadHeader ∧ h.baseBlock.base.checksum = 0 ∧
        calculateChecksum (h.buffer.take 512) = .ok 0x66676572 ∧ h.buffer[4096]? = some 0)
    | _ => false) = true := by decide +kernel

end Notatin
