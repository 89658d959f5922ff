import Verif.Spec.Safe
import Verif.Props.Termination
import Verif.Props.Order
import Verif.Props.Open
import Verif.Props.OpenTold
/-
Lemmas for C83: reading a hive and its logs does not panic.
-/
namespace Notatin
open Spec

/-! ### Logs -/

theorem logEntries_safe {f : Bytes} (h : SaneLog f) : ∀ (n : Nat) (bs : Bytes) (pos : Nat), bs.length ≤ n →
    (∃ k, k ≤ f.length ∧ bs = f.drop k) →
    logEntries pos bs ≠ .panic ∧ ∀ es r, logEntries pos bs = .ok (es, r) → ∀ e ∈ es, e.seq < 4294967295 := by
  intro n
  induction n with
  | zero =>
    intro bs pos hn _
    rw [List.length_eq_zero_iff.1 (by omega : bs.length = 0), logEntries.eq_def, not_entry [] (by decide)]
    refine ⟨by simp, ?_⟩
    intro es r h
    cases h
    intro e he; cases he
  | succ n ih =>
    intro bs pos hn ⟨k, hk, hbs⟩
    have hat : ∀ j, u32At bs j = u32At f (k + j) := by
      intro j; rw [hbs]; unfold u32At slice; rw [List.drop_drop]
    have hlen : bs.length = f.length - k := by rw [hbs, List.length_drop]
    rw [logEntries.eq_def]
    cases he : LogEntry.fromBytes pos bs with
    | err => exact ⟨by simp, by intro es r h; cases h; intro e he; cases he⟩
    | panic =>
      exfalso
      obtain ⟨t, l, u⟩ := logEntry_cases _ _ he
      have h1 := (h k (by omega) (by unfold slice; rw [← hbs]; exact t)).1
      rw [hat 4] at u
      omega
    | ok x =>
      obtain ⟨e, rest⟩ := x
      have hseq : e.seq < 4294967295 := by
        have hne : LogEntry.fromBytes pos bs ≠ .err := by rw [he]; simp
        obtain ⟨ht, hl, pages, rest', dp, _, _, _, heq⟩ := logEntry_steps pos bs hne
        have h1 := (h k (by omega) (by unfold slice; rw [← hbs]; exact ht)).2
        rw [heq] at he
        cases hc1 : calcHash1 bs (u32At bs 4) with
        | err => rw [hc1] at he; cases he
        | panic => rw [hc1] at he; cases he
        | ok a =>
          cases hc2 : calcHash2 bs with
          | err => rw [hc1, hc2] at he; cases he
          | panic => rw [hc1, hc2] at he; cases he
          | ok b =>
            rw [hc1, hc2] at he
            cases he
            show u32At bs 12 < _
            rw [hat 12]; exact h1
      obtain ⟨pre, hpre⟩ := logEntry_suffix _ _ _ _ he
      simp only
      by_cases hlt : rest.length < bs.length
      · rw [dif_pos hlt]
        obtain ⟨h1, h2⟩ := ih rest (pos + (bs.length - rest.length)) (by omega) (by
          refine ⟨k + pre.length, ?_, ?_⟩
          · have := congrArg List.length hpre
            rw [List.length_append] at this; omega
          · rw [← List.drop_drop, ← hbs, hpre, List.drop_left])
        cases hl : logEntries (pos + (bs.length - rest.length)) rest with
        | err => exact ⟨by simp, by intro es r h; cases h⟩
        | panic => exact absurd hl h1
        | ok y =>
          refine ⟨by simp, ?_⟩
          intro es r h
          cases h
          intro e' he'
          rcases List.mem_cons.1 he' with rfl | he'
          · exact hseq
          · exact h2 _ _ hl e' he'
      · rw [dif_neg hlt]
        exact ⟨by simp, by intro es r h; cases h⟩

/-- What is used of a log that can be read. -/
def SafeLog (l : TransactionLog) : Prop :=
  l.baseBlockBytes.length = 512 ∧ ∀ e ∈ l.entries, e.seq < 4294967295

theorem log_safe {f : Bytes} (h : SaneLog f) :
    TransactionLog.fromBytes f ≠ .panic ∧ ∀ l r, TransactionLog.fromBytes f = .ok (l, r) → SafeLog l := by
  unfold TransactionLog.fromBytes
  rcases baseBlockBase_cases f with ⟨hl, _, fn, logs, hb⟩ | ⟨_, hb⟩
  · rw [hb]
    simp only [Res.bind_ok]
    obtain ⟨h1, h2⟩ := logEntries_safe h _ (f.drop 512) (f.length - (f.drop 512).length) (Nat.le_refl _)
      ⟨512, hl, rfl⟩
    cases hle : logEntries (f.length - (f.drop 512).length) (f.drop 512) with
    | panic => exact absurd hle h1
    | err => exact ⟨by simp, by intro l r h; cases h⟩
    | ok x =>
      simp only [Res.bind_ok]
      rw [getRange_eq _ _ _ (by omega) hl]
      refine ⟨by simp, ?_⟩
      intro l r h
      cases h
      exact ⟨by rw [length_slice _ _ _ (by omega)], h2 _ _ hle⟩
  · rw [hb]
    exact ⟨by simp, by intro l r h; cases h⟩

theorem logs_safe {files : List Bytes} (h : ∀ f ∈ files, SaneLog f) :
    ∃ ls warn, TransactionLog.parse files = .ok (ls, warn) ∧ ∀ l ∈ ls, SafeLog l := by
  obtain ⟨logs', h1, _⟩ := readLogs_spec files {} (fun f hf => (log_safe (h f hf)).1)
  refine ⟨_, logs'.getOption, by rw [TransactionLog.parse, h1], ?_⟩
  intro l hl
  obtain ⟨f, hf, hu⟩ := List.mem_filterMap.1 (List.mem_mergeSort.1 hl)
  unfold usableLog at hu
  split at hu
  · cases hu
  · split at hu
    · rename_i l' r he
      cases hu
      exact (log_safe (h f hf)).2 _ _ he
    · cases hu

/-! ### Replay -/

theorem applyPages_safe (off : Nat) : ∀ (ps : List DirtyPage) (buf : Bytes),
    applyPages off ps buf ≠ .panic ∧ ∀ b, applyPages off ps buf = .ok b → b.length = buf.length := by
  intro ps
  induction ps with
  | nil => intro buf; exact ⟨by simp [applyPages], by intro b h; cases h; rfl⟩
  | cons p ps ih =>
    intro buf
    rw [applyPages]
    by_cases h : p.offset + off + p.bytes.length ≤ buf.length
    · obtain ⟨b, hb, hl, _⟩ := writeAt_eq buf (p.offset + off) p.bytes h
      rw [hb]
      refine ⟨(ih b).1, fun c hc => by rw [(ih b).2 c hc, hl]⟩
    · rw [writeAt_none _ _ _ (by omega)]
      exact ⟨by simp, by intro b h; cases h⟩

theorem updateEntries_safe {σ : Type} (A : Bytes → Nat → Bytes → σ → σ) (off sec bins : Nat) :
    ∀ (es : List LogEntry) (st : ReplayState σ), (∀ e ∈ es, e.seq < 4294967295) → st.newSeq < 4294967295 →
    updateEntries A off sec bins es st ≠ .panic ∧
      ∀ st', updateEntries A off sec bins es st = .ok st' →
        st'.newSeq < 4294967295 ∧ st.buffer.length ≤ st'.buffer.length := by
  intro es
  induction es with
  | nil =>
    intro st _ hs
    rw [updateEntries]
    exact ⟨by simp, by intro st' h; cases h; exact ⟨hs, Nat.le_refl _⟩⟩
  | cons e es ih =>
    intro st he hs
    have he' : ∀ x ∈ es, x.seq < 4294967295 := fun x hx => he x (List.mem_cons_of_mem _ hx)
    have hstop : (Res.ok { st with info := st.info.add .WarningTransactionLog } : Res (ReplayState σ)) ≠ .panic ∧
        ∀ st', (Res.ok { st with info := st.info.add .WarningTransactionLog } : Res (ReplayState σ)) = .ok st' →
          st'.newSeq < 4294967295 ∧ st.buffer.length ≤ st'.buffer.length :=
      ⟨by simp, by intro st' h; cases h; exact ⟨hs, Nat.le_refl _⟩⟩
    rw [updateEntries]
    by_cases h1 : e.hasValidHashes = true
    · rw [if_pos h1]
      by_cases h2 : e.seq < sec
      · rw [if_pos h2]
        exact ih { st with info := st.info.add .WarningTransactionLog } he' hs
      · rw [if_neg h2]
        by_cases h3 : e.hiveBinsDataSize % 4096 ≠ 0
        · rw [if_pos h3]; exact hstop
        · rw [if_neg h3, if_neg (by omega)]
          by_cases h5 : st.newSeq ≠ 0 ∧ e.seq ≠ st.newSeq + 1
          · rw [if_pos h5]; exact hstop
          · rw [if_neg h5]
            unfold applyEntry
            obtain ⟨ha, hb⟩ := applyPages_safe off e.dirtyPages (growBuffer bins e.hiveBinsDataSize st.buffer)
            cases hap : applyPages off e.dirtyPages (growBuffer bins e.hiveBinsDataSize st.buffer) with
            | err => exact ⟨by simp, by intro st' h; cases h⟩
            | panic => exact absurd hap ha
            | ok buf =>
              have hl := hb _ hap
              have hg := (growBuffer_get bins e.hiveBinsDataSize st.buffer).1
              obtain ⟨i1, i2⟩ := ih { st with newSeq := e.seq, buffer := buf, recovery := A (growBuffer bins e.hiveBinsDataSize st.buffer) e.seq buf st.recovery } he' (he e List.mem_cons_self)
              refine ⟨i1, ?_⟩
              intro st' h
              obtain ⟨j1, j2⟩ := i2 st' h
              refine ⟨j1, ?_⟩
              have j2 : buf.length ≤ st'.buffer.length := j2
              omega
    · rw [if_neg h1]; exact hstop

theorem applyLogs_safe {σ : Type} (A : Bytes → Nat → Bytes → σ → σ) (sec : Nat) :
    ∀ (ls : List TransactionLog) (n : Nat) (h : Hive σ), (∀ l ∈ ls, SafeLog l) → n < 4294967295 →
    applyLogs A sec ls n h ≠ .panic ∧
      ∀ n' h', applyLogs A sec ls n h = .ok (n', h') → h.buffer.length ≤ h'.buffer.length := by
  intro ls
  induction ls with
  | nil => intro n h _ hn; exact ⟨by simp [applyLogs], by intro n' h' he; cases he; exact Nat.le_refl _⟩
  | cons l ls ih =>
    intro n h hl hn
    have hl' : ∀ x ∈ ls, SafeLog x := fun x hx => hl x (List.mem_cons_of_mem _ hx)
    rw [applyLogs]
    by_cases h1 : l.base.primarySeq ≥ sec
    · rw [if_pos h1, if_neg (by omega)]
      by_cases h2 : n = 0 ∨ l.base.primarySeq = n + 1
      · rw [if_pos h2]
        unfold updateParser
        obtain ⟨u1, u2⟩ := updateEntries_safe A h.hbinOffset h.baseBlock.base.secondarySeq
          h.baseBlock.base.hiveBinsDataSize l.entries ⟨0, h.buffer, h.info, h.recovery⟩
          (hl l List.mem_cons_self).2 (by show 0 < _; omega)
        cases hu : updateEntries A h.hbinOffset h.baseBlock.base.secondarySeq
          h.baseBlock.base.hiveBinsDataSize l.entries ⟨0, h.buffer, h.info, h.recovery⟩ with
        | err => exact ⟨by simp, by intro n' h' he; cases he⟩
        | panic => exact absurd hu u1
        | ok st =>
          obtain ⟨v1, v2⟩ := u2 st hu
          obtain ⟨i1, i2⟩ := ih st.newSeq { h with buffer := st.buffer, info := st.info, recovery := st.recovery } hl' v1
          exact ⟨i1, fun n' h' he => Nat.le_trans v2 (i2 n' h' he)⟩
      · rw [if_neg h2]
        exact ih n { h with info := h.info.add .WarningTransactionLog } hl' hn
    · rw [if_neg h1]
      exact ih n { h with info := h.info.add .WarningTransactionLog } hl' hn

theorem initBaseBlock_safe (buf : Bytes) (info : Logs) : initBaseBlock buf info ≠ .panic ∧
    ∀ x, initBaseBlock buf info = .ok x → 4096 ≤ buf.length := by
  cases hp : BaseBlock.fromBytes buf with
  | err => unfold initBaseBlock; rw [hp]; exact ⟨by simp, by intro x h; cases h⟩
  | panic => exact absurd hp (baseBlock_no_panic buf)
  | ok x =>
    obtain ⟨bb, rest⟩ := x
    obtain ⟨_, _, _, hi, _⟩ := initBaseBlock_ok buf info bb rest hp
    rw [hi]
    exact ⟨by simp, fun _ _ => (baseBlock_frame buf bb rest hp).2.1⟩

theorem reinit_safe {σ : Type} (h : Hive σ) : h.reinit ≠ .panic ∧
    ∀ h', h.reinit = .ok h' → 4096 ≤ h'.buffer.length := by
  unfold Hive.reinit
  obtain ⟨h1, h2⟩ := initBaseBlock_safe h.buffer h.info
  cases hi : initBaseBlock h.buffer h.info with
  | err => exact ⟨by simp, by intro h' he; cases he⟩
  | panic => exact absurd hi h1
  | ok x =>
    refine ⟨by simp, ?_⟩
    intro h' he
    cases he
    exact h2 x hi

theorem rewriteHeader_safe (buf : Bytes) (n : Nat) (hb : 512 ≤ buf.length) : rewriteHeader buf n ≠ .panic := by
  unfold rewriteHeader
  have hlen : ∀ m, (u32ToLeBytes m).length = 4 := fun m => rfl
  obtain ⟨b1, e1, l1, _⟩ := writeAt_eq buf 4 (u32ToLeBytes n) (by rw [hlen]; omega)
  obtain ⟨b2, e2, l2, _⟩ := writeAt_eq b1 8 (u32ToLeBytes n) (by rw [hlen]; omega)
  rw [e1]; simp only
  rw [e2]; simp only
  rw [getRange_eq _ _ _ (by omega) (by omega)]
  simp only
  rw [checksum_spec _ (by rw [length_slice _ _ _ (by omega)]; omega)]
  simp only
  obtain ⟨b3, e3, _, _⟩ := writeAt_eq b2 508 (u32ToLeBytes (substSum (xorDwords (slice b2 0 (0x200 - 0))))) (by rw [hlen]; omega)
  rw [e3]
  simp

theorem updateHeader_safe {σ : Type} (h : Hive σ) (n : Nat) (hb : 512 ≤ h.buffer.length) :
    updateHeader h n ≠ .panic := by
  unfold updateHeader
  cases hr : rewriteHeader h.buffer n with
  | err => simp
  | panic => exact absurd hr (rewriteHeader_safe _ _ hb)
  | ok buf =>
    simp only [Res.bind_ok]
    cases hi : Hive.reinit { h with buffer := buf } with
    | err => simp
    | panic => exact absurd hi (reinit_safe _).1
    | ok h' => simp

theorem prepareLogs_safe {σ : Type} (h : Hive σ) (bad : Bool) (logs : List TransactionLog)
    (hb : 4096 ≤ h.buffer.length) (hl : ∀ l ∈ logs, SafeLog l) (hne : logs ≠ []) :
    prepareLogs h bad logs ≠ .panic ∧
      ∀ b h' logs', prepareLogs h bad logs = .ok (b, h', logs') →
        4096 ≤ h'.buffer.length ∧ ∀ l ∈ logs', SafeLog l := by
  have hdo : prepareLogs h bad logs =
      ((if bad = true then handleBadChecksum h logs else .ok (h, logs)) >>= fun y =>
        if y.1.baseBlock.base.primarySeq = y.1.baseBlock.base.secondarySeq then
          .ok (false, { y.1 with info := y.1.info.add .WarningTransactionLog }, y.2)
        else .ok (true, y.1, y.2)) := by
    unfold prepareLogs
    cases bad <;> rfl
  rw [hdo]
  have hinner : (if bad = true then handleBadChecksum h logs else .ok (h, logs)) ≠ .panic ∧
      ∀ y, (if bad = true then handleBadChecksum h logs else .ok (h, logs)) = .ok y →
        4096 ≤ y.1.buffer.length ∧ ∀ l ∈ y.2, SafeLog l := by
    by_cases hbad : bad = true
    · rw [if_pos hbad]
      unfold handleBadChecksum
      simp only
      cases hg : logs.getLast? with
      | none => exact absurd (List.getLast?_eq_none_iff.1 hg) hne
      | some newest =>
        simp only
        rw [getRange_eq _ _ _ (by omega) (by omega)]
        simp only
        rw [if_neg (by rw [(hl newest (List.mem_of_getLast? hg)).1]; simp)]
        obtain ⟨r1, r2⟩ := reinit_safe { h with buffer := newest.baseBlockBytes ++ h.buffer.drop 512, info := h.info.add .WarningBaseBlock }
        cases hr : Hive.reinit { h with buffer := newest.baseBlockBytes ++ h.buffer.drop 512, info := h.info.add .WarningBaseBlock } with
        | err => exact ⟨by simp, by intro y he; cases he⟩
        | panic => exact absurd hr r1
        | ok h' =>
          refine ⟨by simp, ?_⟩
          intro y he
          cases he
          refine ⟨r2 h' hr, ?_⟩
          intro l hm
          split at hm
          · exact hl l (List.mem_of_mem_drop hm)
          · exact hl l hm
    · rw [if_neg hbad]
      exact ⟨by simp, by intro y he; cases he; exact ⟨hb, hl⟩⟩
  cases hx : (if bad = true then handleBadChecksum h logs else .ok (h, logs)) with
  | err => exact ⟨by simp, by intro b h' l he; cases he⟩
  | panic => exact absurd hx hinner.1
  | ok y =>
    obtain ⟨g1, g2⟩ := hinner.2 y hx
    simp only [Res.bind_ok]
    split
    · exact ⟨by simp, by intro b h' l he; cases he; exact ⟨g1, g2⟩⟩
    · exact ⟨by simp, by intro b h' l he; cases he; exact ⟨g1, g2⟩⟩

theorem openHive_safe {σ : Type} (A : Bytes → Nat → Bytes → σ → σ) (I : Bytes → σ → Res σ)
    (S : Bytes → BaseBlock → σ → Res σ) (hI : ∀ b s, I b s ≠ .panic) (hS : ∀ b bb s, S b bb s ≠ .panic)
    (buf : Bytes) (s0 : σ) (logs : List TransactionLog) (hl : ∀ l ∈ logs, SafeLog l) :
    openHive A I S buf s0 logs ≠ .panic := by
  unfold openHive
  obtain ⟨h1, h2⟩ := initBaseBlock_safe buf {}
  cases hi : initBaseBlock buf {} with
  | err => simp
  | panic => exact absurd hi h1
  | ok x =>
    have hb := h2 x hi
    obtain ⟨bb, off, supported, bad, info⟩ := x
    simp only [Res.bind_ok]
    cases supported with
    | false => simp
    | true =>
      simp only [if_true]
      cases hs : S buf bb s0 with
      | err => simp
      | panic => exact absurd hs (hS _ _ _)
      | ok s =>
        simp only [Res.bind_ok]
        generalize hh0 : (Hive.mk buf off bb info s : Hive σ) = g0
        have hg : 4096 ≤ g0.buffer.length := by rw [← hh0]; exact hb
        suffices hap : applyTransactionLogs A I g0 bad logs ≠ .panic by
          cases ha : applyTransactionLogs A I g0 bad logs with
          | err => simp
          | panic => exact absurd ha hap
          | ok h' => simp
        unfold applyTransactionLogs
        cases logs with
        | nil => simp
        | cons l ls =>
          rw [if_neg (by simp)]
          obtain ⟨p1, p2⟩ := prepareLogs_safe g0 bad (l :: ls) hg hl (by simp)
          cases hp : prepareLogs g0 bad (l :: ls) with
          | err => simp
          | panic => exact absurd hp p1
          | ok y =>
            obtain ⟨b, h', logs'⟩ := y
            obtain ⟨q1, q2⟩ := p2 b h' logs' hp
            cases b with
            | false => simp
            | true =>
              simp only
              cases hit : I h'.buffer h'.recovery with
              | err => simp
              | panic => exact absurd hit (hI _ _)
              | ok s2 =>
                simp only
                obtain ⟨a1, a2⟩ := applyLogs_safe A h'.baseBlock.base.secondarySeq logs' 0 { h' with recovery := s2 } q2 (by omega)
                cases ha : applyLogs A h'.baseBlock.base.secondarySeq logs' 0 { h' with recovery := s2 } with
                | err => simp
                | panic => exact absurd ha a1
                | ok z =>
                  obtain ⟨n, h3⟩ := z
                  simp only
                  have : h'.buffer.length ≤ h3.buffer.length := a2 n h3 ha
                  exact updateHeader_safe h3 n (by omega)

end Notatin
