import Verif.Props.Open
/-
C82: the log of opening a hive tells whether the hive needs recovery and whether anything of the transaction logs is
left out.
-/
namespace Notatin
open Spec

/-! ### Entries and logs -/

/-- One more warning for each entry passed over and for stopping; none if and only if every entry is used. -/
theorem updateEntries_told {σ : Type} (analyze : Bytes → Nat → Bytes → σ → σ) (off sec bins : Nat) :
    ∀ (es : List LogEntry) (st st' : ReplayState σ), updateEntries analyze off sec bins es st = .ok st' →
    ∃ k, st'.info.codes = st.info.codes ++ List.replicate k .WarningTransactionLog ∧
      (k = 0 → applyAll off bins es st.buffer = .ok st'.buffer) := by
  intro es
  induction es with
  | nil =>
    intro st st' h
    rw [updateEntries] at h
    cases h
    exact ⟨0, by simp, fun _ => rfl⟩
  | cons e es ih =>
    intro st st' h
    rw [updateEntries] at h
    have hstop : (.ok { st with info := st.info.add .WarningTransactionLog } : Res (ReplayState σ)) = .ok st' →
        ∃ k, st'.info.codes = st.info.codes ++ List.replicate k .WarningTransactionLog ∧
          (k = 0 → applyAll off bins (e :: es) st.buffer = .ok st'.buffer) := by
      intro h
      cases h
      exact ⟨1, by simp, fun h => by cases h⟩
    by_cases hv : e.hasValidHashes = true
    · rw [if_pos hv] at h
      by_cases ho : e.seq < sec
      · rw [if_pos ho] at h
        obtain ⟨k, h1, _⟩ := ih _ _ h
        refine ⟨k + 1, ?_, fun h => by cases h⟩
        rw [h1, Logs.codes_add, List.replicate_succ]
        simp
      · rw [if_neg ho] at h
        by_cases hb : e.hiveBinsDataSize % 4096 ≠ 0
        · rw [if_pos hb] at h; exact hstop h
        · rw [if_neg hb] at h
          by_cases hp : st.newSeq ≠ 0 ∧ st.newSeq + 1 ≥ 4294967296
          · rw [if_pos hp] at h; cases h
          · rw [if_neg hp] at h
            by_cases hs : st.newSeq ≠ 0 ∧ e.seq ≠ st.newSeq + 1
            · rw [if_pos hs] at h; exact hstop h
            · rw [if_neg hs] at h
              cases ha : applyEntry off bins e st.buffer with
              | err => rw [ha] at h; cases h
              | panic => rw [ha] at h; cases h
              | ok buf =>
                rw [ha] at h
                simp only at h
                obtain ⟨k, h1, h2⟩ := ih _ _ h
                refine ⟨k, h1, fun hk => ?_⟩
                rw [applyAll, ha]
                exact h2 hk
    · rw [if_neg hv] at h
      exact hstop h

theorem applyLogs_told {σ : Type} (analyze : Bytes → Nat → Bytes → σ → σ) (sec : Nat) :
    ∀ (logs : List TransactionLog) (n : Nat) (h : Hive σ) (n' : Nat) (h' : Hive σ),
    applyLogs analyze sec logs n h = .ok (n', h') →
    h'.baseBlock = h.baseBlock ∧ h'.hbinOffset = h.hbinOffset ∧
    ∃ k, h'.info.codes = h.info.codes ++ List.replicate k .WarningTransactionLog ∧
      (k = 0 → applyAll h.hbinOffset h.baseBlock.base.hiveBinsDataSize (logs.flatMap (·.entries)) h.buffer =
        .ok h'.buffer) := by
  intro logs
  induction logs with
  | nil =>
    intro n h n' h' he
    rw [applyLogs] at he
    cases he
    exact ⟨rfl, rfl, 0, by simp, fun _ => rfl⟩
  | cons l logs ih =>
    intro n h n' h' he
    rw [applyLogs] at he
    have hskip : applyLogs analyze sec logs n { h with info := h.info.add .WarningTransactionLog } = .ok (n', h') →
        h'.baseBlock = h.baseBlock ∧ h'.hbinOffset = h.hbinOffset ∧
        ∃ k, h'.info.codes = h.info.codes ++ List.replicate k .WarningTransactionLog ∧
          (k = 0 → applyAll h.hbinOffset h.baseBlock.base.hiveBinsDataSize ((l :: logs).flatMap (·.entries)) h.buffer =
            .ok h'.buffer) := by
      intro he
      obtain ⟨a, b, k, h1, _⟩ := ih _ _ _ _ he
      refine ⟨a, b, k + 1, ?_, fun h => by cases h⟩
      rw [h1, Logs.codes_add, List.replicate_succ]
      simp
    by_cases hp : l.base.primarySeq ≥ sec
    · rw [if_pos hp] at he
      by_cases hov : n ≠ 0 ∧ n + 1 ≥ 4294967296
      · rw [if_pos hov] at he; cases he
      · rw [if_neg hov] at he
        by_cases hc : n = 0 ∨ l.base.primarySeq = n + 1
        · rw [if_pos hc] at he
          unfold updateParser at he
          cases hu : updateEntries analyze h.hbinOffset h.baseBlock.base.secondarySeq
              h.baseBlock.base.hiveBinsDataSize l.entries
              { newSeq := 0, buffer := h.buffer, info := h.info, recovery := h.recovery } with
          | err => rw [hu] at he; cases he
          | panic => rw [hu] at he; cases he
          | ok st =>
            rw [hu] at he
            simp only at he
            obtain ⟨k1, g1, g2⟩ := updateEntries_told analyze _ _ _ _ _ _ hu
            obtain ⟨a, b, k2, f1, f2⟩ := ih _ _ _ _ he
            refine ⟨a, b, k1 + k2, ?_, fun hk => ?_⟩
            · rw [f1]
              simp only
              rw [g1, List.append_assoc, List.replicate_append_replicate]
            · rw [List.flatMap_cons, applyAll_append, g2 (by omega)]
              exact f2 (by omega)
        · rw [if_neg hc] at he
          exact hskip he
    · rw [if_neg hp] at he
      exact hskip he

/-! ### The header -/

/-- What is said about the header. -/
theorem initBaseBlock_told {buf : Bytes} {info info' : Logs} {bb : BaseBlock} {off : Nat} {sup bad : Bool}
    (h : initBaseBlock buf info = .ok (bb, off, sup, bad, info')) :
    ∃ k, info'.codes = info.codes ++ List.replicate k .WarningBaseBlock ∧ (k = 0 ↔ sup = true ∧ bad = false ∧
      bb.base.primarySeq = bb.base.secondarySeq) := by
  unfold initBaseBlock at h
  cases hp : BaseBlock.fromBytes buf with
  | err => rw [hp] at h; cases h
  | panic => rw [hp] at h; cases h
  | ok x =>
    rw [hp] at h
    simp only [Res.bind_ok] at h
    by_cases hk : x.1.base.fileType ≠ .unknown
    · rw [if_pos hk] at h
      cases hg : getRange buf 0 0x200 with
      | none => rw [hg] at h; cases h
      | some head =>
        rw [hg] at h
        simp only at h
        cases hc : calculateChecksum head with
        | err => rw [hc] at h; cases h
        | panic => rw [hc] at h; cases h
        | ok sum =>
          rw [hc] at h
          simp only [Res.bind_ok] at h
          by_cases hck : sum ≠ x.1.base.checksum
          · rw [if_pos hck] at h
            cases h
            by_cases hs : x.1.base.primarySeq = x.1.base.secondarySeq
            · exact ⟨1, by simp [hs], by simp⟩
            · exact ⟨2, by simp [hs, List.replicate], by simp⟩
          · rw [if_neg hck] at h
            cases h
            by_cases hs : x.1.base.primarySeq = x.1.base.secondarySeq
            · exact ⟨0, by simp [hs], by simp [hs]⟩
            · exact ⟨1, by simp [hs], by simp [hs]⟩
    · rw [if_neg hk] at h
      cases h
      exact ⟨1, by simp, by simp⟩

theorem reinit_told {σ : Type} {h h' : Hive σ} (he : h.reinit = .ok h') : h.info.codes <+: h'.info.codes := by
  unfold Hive.reinit at he
  cases hi : initBaseBlock h.buffer h.info with
  | err => rw [hi] at he; cases he
  | panic => rw [hi] at he; cases he
  | ok x =>
    obtain ⟨bb, off, sup, bad, info⟩ := x
    rw [hi] at he
    cases he
    obtain ⟨k, h1, _⟩ := initBaseBlock_told hi
    exact ⟨_, h1.symm⟩

theorem updateHeader_told {σ : Type} {h h' : Hive σ} {n : Nat} (he : updateHeader h n = .ok h') :
    h.info.codes <+: h'.info.codes ∧ h'.info.codes ≠ [] := by
  unfold updateHeader at he
  cases hr : rewriteHeader h.buffer n with
  | err => rw [hr] at he; cases he
  | panic => rw [hr] at he; cases he
  | ok buf =>
    rw [hr] at he
    simp only [Res.bind_ok] at he
    cases hi : Hive.reinit { h with buffer := buf } with
    | err => rw [hi] at he; cases he
    | panic => rw [hi] at he; cases he
    | ok h2 =>
      rw [hi] at he
      cases he
      refine ⟨?_, by simp⟩
      rw [Logs.codes_add]
      exact (reinit_told hi).trans (List.prefix_append _ _)

/-- Writing the header leaves everything but the sequence numbers and the checksum as it is. -/
theorem rewriteHeader_same {buf buf' : Bytes} {n : Nat} (h : rewriteHeader buf n = .ok buf') :
    buf'.length = buf.length ∧ ∀ i, ¬ (4 ≤ i ∧ i < 12) → ¬ (508 ≤ i ∧ i < 512) → buf'[i]? = buf[i]? := by
  have hw : ∀ {a b : Bytes} {o m : Nat}, writeAt a o (u32ToLeBytes m) = some b →
      b.length = a.length ∧ ∀ i, ¬ (o ≤ i ∧ i < o + 4) → b[i]? = a[i]? := by
    intro a b o m he
    have hl4 : (u32ToLeBytes m).length = 4 := rfl
    by_cases hle : o + (u32ToLeBytes m).length ≤ a.length
    · obtain ⟨c, h1, h2, h3⟩ := writeAt_eq a o _ hle
      rw [h1] at he
      cases he
      refine ⟨h2, fun i hi => ?_⟩
      rw [h3, hl4, if_neg hi]
    · rw [writeAt_none _ _ _ (by omega)] at he
      cases he
  unfold rewriteHeader at h
  cases h1 : writeAt buf 4 (u32ToLeBytes n) with
  | none => rw [h1] at h; cases h
  | some b1 =>
    rw [h1] at h
    simp only at h
    cases h2 : writeAt b1 8 (u32ToLeBytes n) with
    | none => rw [h2] at h; cases h
    | some b2 =>
      rw [h2] at h
      simp only at h
      cases hg : getRange b2 0 0x200 with
      | none => rw [hg] at h; cases h
      | some head =>
        rw [hg] at h
        simp only at h
        cases hc : calculateChecksum head with
        | err => rw [hc] at h; cases h
        | panic => rw [hc] at h; cases h
        | ok sum =>
          rw [hc] at h
          simp only at h
          cases h3 : writeAt b2 508 (u32ToLeBytes sum) with
          | none => rw [h3] at h; cases h
          | some b3 =>
            rw [h3] at h
            cases h
            obtain ⟨a1, a2⟩ := hw h1
            obtain ⟨c1, c2⟩ := hw h2
            obtain ⟨d1, d2⟩ := hw h3
            refine ⟨by omega, fun i hi hj => ?_⟩
            rw [d2 i (by omega), c2 i (by omega), a2 i (by omega)]

theorem updateHeader_same {σ : Type} {h h' : Hive σ} {n : Nat} (he : updateHeader h n = .ok h') :
    h'.buffer.length = h.buffer.length ∧
      ∀ i, ¬ (4 ≤ i ∧ i < 12) → ¬ (508 ≤ i ∧ i < 512) → h'.buffer[i]? = h.buffer[i]? := by
  unfold updateHeader Hive.reinit at he
  cases hr : rewriteHeader h.buffer n with
  | err => rw [hr] at he; cases he
  | panic => rw [hr] at he; cases he
  | ok buf =>
    rw [hr] at he
    simp only [Res.bind_ok] at he
    cases hi : initBaseBlock buf h.info with
    | err => rw [hi] at he; cases he
    | panic => rw [hi] at he; cases he
    | ok x =>
      rw [hi] at he
      cases he
      exact rewriteHeader_same hr

/-- With logs that can be read something is always said. -/
theorem applyTransactionLogs_told {σ : Type} {analyze : Bytes → Nat → Bytes → σ → σ} {initItems : Bytes → σ → Res σ}
    {h h' : Hive σ} {bad : Bool} {logs : List TransactionLog}
    (he : applyTransactionLogs analyze initItems h bad logs = .ok h') :
    h.info.codes <+: h'.info.codes ∧ (logs ≠ [] → h'.info.codes ≠ []) := by
  unfold applyTransactionLogs at he
  cases logs with
  | nil => cases he; exact ⟨List.prefix_refl _, fun h => absurd rfl h⟩
  | cons l ls =>
    rw [if_neg (by simp)] at he
    have hprep : ∀ {x}, prepareLogs h bad (l :: ls) = .ok x → h.info.codes <+: x.2.1.info.codes ∧
        (x.1 = false → x.2.1.info.codes ≠ []) := by
      intro x hx
      have hdo : prepareLogs h bad (l :: ls) =
          ((if bad = true then handleBadChecksum h (l :: ls) else .ok (h, l :: ls)) >>= fun y =>
            if y.1.baseBlock.base.primarySeq = y.1.baseBlock.base.secondarySeq then
              .ok (false, { y.1 with info := y.1.info.add .WarningTransactionLog }, y.2)
            else .ok (true, y.1, y.2)) := by
        unfold prepareLogs
        cases bad <;> rfl
      rw [hdo] at hx
      have hinner : ∀ {y}, (if bad = true then handleBadChecksum h (l :: ls) else .ok (h, l :: ls)) = .ok y →
          h.info.codes <+: y.1.info.codes := by
        intro y hy
        by_cases hb : bad = true
        · rw [if_pos hb] at hy
          unfold handleBadChecksum at hy
          simp only at hy
          cases hg : (l :: ls).getLast? with
          | none => rw [hg] at hy; cases hy
          | some newest =>
            rw [hg] at hy
            simp only at hy
            cases hr : getRange h.buffer 0 512 with
            | none => rw [hr] at hy; cases hy
            | some _ =>
              rw [hr] at hy
              simp only at hy
              by_cases hl : newest.baseBlockBytes.length ≠ 512
              · rw [if_pos hl] at hy; cases hy
              · rw [if_neg hl] at hy
                cases hri : Hive.reinit
                    { h with buffer := newest.baseBlockBytes ++ h.buffer.drop 512, info := h.info.add .WarningBaseBlock } with
                | err => rw [hri] at hy; cases hy
                | panic => rw [hri] at hy; cases hy
                | ok h2 =>
                  rw [hri] at hy
                  cases hy
                  refine List.IsPrefix.trans ?_ (reinit_told hri)
                  rw [Logs.codes_add]
                  exact List.prefix_append _ _
        · rw [if_neg hb] at hy
          cases hy
          exact List.prefix_refl _
      cases hy : (if bad = true then handleBadChecksum h (l :: ls) else .ok (h, l :: ls)) with
      | err => rw [hy] at hx; cases hx
      | panic => rw [hy] at hx; cases hx
      | ok y =>
        have := hinner hy
        rw [hy] at hx
        simp only [Res.bind_ok] at hx
        by_cases hc : y.1.baseBlock.base.primarySeq = y.1.baseBlock.base.secondarySeq
        · rw [if_pos hc] at hx
          cases hx
          refine ⟨?_, by simp⟩
          simp only
          rw [Logs.codes_add]
          exact this.trans (List.prefix_append _ _)
        · rw [if_neg hc] at hx
          cases hx
          exact ⟨this, fun h => by cases h⟩
    cases hp : prepareLogs h bad (l :: ls) with
    | err => rw [hp] at he; cases he
    | panic => rw [hp] at he; cases he
    | ok x =>
      obtain ⟨go, h2, ls2⟩ := x
      obtain ⟨p1, p2⟩ := hprep hp
      rw [hp] at he
      cases go with
      | false =>
        cases he
        exact ⟨p1, fun _ => p2 rfl⟩
      | true =>
        simp only at he
        cases hi : initItems h2.buffer h2.recovery with
        | err => rw [hi] at he; cases he
        | panic => rw [hi] at he; cases he
        | ok s =>
          rw [hi] at he
          simp only at he
          cases ha : applyLogs analyze h2.baseBlock.base.secondarySeq ls2 0 { h2 with recovery := s } with
          | err => rw [ha] at he; cases he
          | panic => rw [ha] at he; cases he
          | ok y =>
            obtain ⟨n', h3⟩ := y
            rw [ha] at he
            simp only at he
            obtain ⟨_, _, k, f1, _⟩ := applyLogs_told _ _ _ _ _ _ _ ha
            obtain ⟨u1, u2⟩ := updateHeader_told he
            refine ⟨(p1.trans ?_).trans u1, fun _ => u2⟩
            rw [f1]
            exact List.prefix_append _ _

/-! ### Opening -/

/-- What a parser that was built is made of. -/
theorem build_made {w : World} {b : Builder} {p : HiveParser} (h : b.build w = some (.ok p)) :
    ∃ logs warn sup hv st items, TransactionLog.parse b.logs = .ok (logs, warn) ∧
      openHive (w.analyze b.recover) (w.initItems b.recover) (w.scan b.recover) b.primary
        (some (.ok ({}, []))) logs = .ok (sup, hv) ∧ hv.recovery = some (.ok (st, items)) ∧
      p.state.info.codes = hv.info.codes ++ st.info.codes ++ (warn.getD {}).codes ∧
      p.env.fi = ⟨hv.hbinOffset, hv.buffer⟩ ∧ p.header = hv.baseBlock := by
  unfold Builder.build at h
  cases hl : TransactionLog.parse b.logs with
  | err => rw [hl] at h; cases h
  | panic => rw [hl] at h; cases h
  | ok x =>
    obtain ⟨logs, warn⟩ := x
    rw [hl] at h
    simp only at h
    cases ho : openHive (w.analyze b.recover) (w.initItems b.recover) (w.scan b.recover) b.primary
        (some (.ok ({}, []))) logs with
    | err => rw [ho] at h; cases h
    | panic => rw [ho] at h; cases h
    | ok y =>
      obtain ⟨sup, hv⟩ := y
      rw [ho] at h
      simp only at h
      cases hr : hv.recovery with
      | none => rw [hr] at h; cases h
      | some r =>
        rw [hr] at h
        cases r with
        | err => cases h
        | panic => cases h
        | ok z =>
          obtain ⟨st, items⟩ := z
          simp only at h
          refine ⟨logs, warn, sup, hv, st, items, rfl, ho, hr, ?_⟩
          by_cases hs : sup = true
          · rw [if_pos hs] at h
            cases hroot : initRoot ⟨⟨hv.hbinOffset, hv.buffer⟩, w.hashFn, w.depth⟩
                { st with info := (hv.info.extend st.info).extend (warn.getD {}) } with
            | err => rw [hroot] at h; cases h
            | panic => rw [hroot] at h; cases h
            | ok v =>
              rw [hroot] at h
              cases h
              exact ⟨by simp, rfl, rfl⟩
          · rw [if_neg hs] at h
            cases h
            exact ⟨by simp, rfl, rfl⟩

/-- C82: opening is silent only for a hive of a known kind with agreeing sequence numbers and the right checksum which
is opened without logs; and (without recovery) for each such hive it is. -/
theorem opening_told (w : World) (b : Builder) (p : HiveParser) (bb : BaseBlock) (rest : Bytes)
    (h : b.build w = some (.ok p)) (hp : BaseBlock.fromBytes b.primary = .ok (bb, rest)) :
    (p.state.info.codes = [] → bb.base.fileType ≠ .unknown ∧ bb.base.primarySeq = bb.base.secondarySeq ∧
      calculateChecksum (b.primary.take 512) = .ok bb.base.checksum ∧ b.logs = []) ∧
    (b.recover = false → bb.base.fileType ≠ .unknown ∧ bb.base.primarySeq = bb.base.secondarySeq ∧
      calculateChecksum (b.primary.take 512) = .ok bb.base.checksum ∧ b.logs = [] → p.state.info.codes = []) := by
  obtain ⟨logs, warn, sup, hv, st, items, hl, ho, hr, hc, _, _⟩ := build_made h
  obtain ⟨sup', bad, info', hi, hs, hbad⟩ := initBaseBlock_ok b.primary {} bb rest hp
  obtain ⟨k, hk1, hk2⟩ := initBaseBlock_told hi
  have hlogs : b.logs ≠ [] → logs ≠ [] ∨ (warn.getD {}).codes ≠ [] := by
    intro hne
    obtain ⟨l1, _, _⟩ := log_order _ _ _ hl
    have hnp : ∀ f ∈ b.logs, TransactionLog.fromBytes f ≠ .panic := by
      intro f hf hp
      unfold TransactionLog.parse at hl
      rw [readLogs_panic b.logs {} ⟨f, hf, hp⟩] at hl
      cases hl
    obtain ⟨logs', r1, r2⟩ := readLogs_spec b.logs {} hnp
    unfold TransactionLog.parse at hl
    rw [r1] at hl
    simp only [Res.ok.injEq, Prod.mk.injEq] at hl
    by_cases hu : b.logs.filterMap usableLog = []
    · right
      rw [← hl.2]
      have : b.logs.countP (fun f => (usableLog f).isNone) = b.logs.length := by
        rw [List.countP_eq_length]
        intro f hf
        rw [List.filterMap_eq_nil_iff] at hu
        rw [hu f hf]
        rfl
      rw [this] at r2
      have hne2 : logs'.codes ≠ [] := by
        rw [r2]
        cases hb : b.logs with
        | nil => exact absurd hb hne
        | cons f fs => simp
      unfold Logs.getOption
      split
      · rename_i hn; exact absurd (by unfold Logs.codes; rw [hn]; rfl) hne2
      · exact hne2
    · left
      intro hn
      rw [hn] at l1
      exact hu l1.nil_eq.symm
  unfold openHive at ho
  rw [hi] at ho
  simp only [Res.bind_ok] at ho
  constructor
  · intro hsil
    rw [hc, List.append_eq_nil_iff, List.append_eq_nil_iff] at hsil
    obtain ⟨⟨s1, _⟩, s3⟩ := hsil
    have hpre : info'.codes = [] ∧ (sup' = true → logs = []) := by
      cases sup' with
      | false =>
        simp only [Bool.false_eq_true, if_false] at ho
        cases ho
        exact ⟨s1, nofun⟩
      | true =>
        simp only [if_true] at ho
        cases hsc : w.scan b.recover b.primary bb (some (.ok ({}, []))) with
        | err => rw [hsc] at ho; cases ho
        | panic => rw [hsc] at ho; cases ho
        | ok s =>
          rw [hsc] at ho
          simp only [Res.bind_ok] at ho
          cases ha : applyTransactionLogs (w.analyze b.recover) (w.initItems b.recover)
              ⟨b.primary, 4096, bb, info', s⟩ bad logs with
          | err => rw [ha] at ho; cases ho
          | panic => rw [ha] at ho; cases ho
          | ok h2 =>
            rw [ha] at ho
            cases ho
            obtain ⟨a1, a2⟩ := applyTransactionLogs_told ha
            rw [s1] at a1
            exact ⟨List.prefix_nil.1 a1, fun _ => Classical.byContradiction fun hn => a2 hn s1⟩
    have hk0 : k = 0 := by
      rw [hk1] at hpre
      cases k with
      | zero => rfl
      | succ k => simp [List.replicate_succ] at hpre
    obtain ⟨q1, q2, q3⟩ := hk2.1 hk0
    subst q1 q2
    have hkn : bb.base.fileType ≠ .unknown := of_decide_eq_true hs.symm
    refine ⟨hkn, q3, Classical.byContradiction fun hn => ?_, Classical.byContradiction fun hn => ?_⟩
    · exact absurd (hbad.2 ⟨hkn, hn⟩) (by simp)
    · rcases hlogs hn with hx | hx
      · exact hx (hpre.2 rfl)
      · exact hx s3
  · rintro hrec ⟨c1, c2, c3, c4⟩
    have hb0 : bad = false := by
      cases bad with
      | false => rfl
      | true => exact absurd c3 (hbad.1 rfl).2
    have hs0 : sup' = true := by rw [hs]; simp [c1]
    have hk0 := hk2.2 ⟨hs0, hb0, c2⟩
    subst hb0 hs0
    rw [hk0] at hk1
    rw [c4] at hl
    cases hl
    simp only [if_true] at ho
    rw [hrec, scan_false] at ho
    simp only [Res.bind_ok] at ho
    unfold applyTransactionLogs at ho
    rw [List.mergeSort_nil, if_pos (by rfl)] at ho
    cases ho
    cases hr
    rw [hc, hk1]
    rfl

/-- C82: a hive that is of an unknown kind, dirty or has a wrong checksum is opened with a warning about its header. -/
theorem unclean_told (w : World) (b : Builder) (p : HiveParser) (bb : BaseBlock) (rest : Bytes)
    (h : b.build w = some (.ok p)) (hp : BaseBlock.fromBytes b.primary = .ok (bb, rest))
    (hn : ¬ (bb.base.fileType ≠ .unknown ∧ bb.base.primarySeq = bb.base.secondarySeq ∧
      calculateChecksum (b.primary.take 512) = .ok bb.base.checksum)) :
    .WarningBaseBlock ∈ p.state.info.codes := by
  obtain ⟨logs, warn, sup, hv, st, items, hl, ho, hr, hc, _, _⟩ := build_made h
  obtain ⟨sup', bad, info', hi, hs, hbad⟩ := initBaseBlock_ok b.primary {} bb rest hp
  obtain ⟨k, hk1, hk2⟩ := initBaseBlock_told hi
  have hmem : .WarningBaseBlock ∈ info'.codes := by
    cases k with
    | succ k => rw [hk1]; simp [List.replicate_succ]
    | zero =>
      obtain ⟨q1, q2, q3⟩ := hk2.1 rfl
      subst q1 q2
      have hkn : bb.base.fileType ≠ .unknown := of_decide_eq_true hs.symm
      refine absurd ⟨hkn, q3, Classical.byContradiction fun hc => ?_⟩ hn
      exact absurd (hbad.2 ⟨hkn, hc⟩) (by simp)
  rw [hc]
  simp only [List.mem_append]
  left; left
  unfold openHive at ho
  rw [hi] at ho
  simp only [Res.bind_ok] at ho
  cases sup' with
  | false =>
    simp only [Bool.false_eq_true, if_false] at ho
    cases ho
    exact hmem
  | true =>
    simp only [if_true] at ho
    cases hsc : w.scan b.recover b.primary bb (some (.ok ({}, []))) with
    | err => rw [hsc] at ho; cases ho
    | panic => rw [hsc] at ho; cases ho
    | ok s =>
      rw [hsc] at ho
      simp only [Res.bind_ok] at ho
      cases ha : applyTransactionLogs (w.analyze b.recover) (w.initItems b.recover)
          ⟨b.primary, 4096, bb, info', s⟩ bad logs with
      | err => rw [ha] at ho; cases ho
      | panic => rw [ha] at ho; cases ho
      | ok h2 =>
        rw [ha] at ho
        cases ho
        exact (applyTransactionLogs_told ha).1.subset hmem

/-! ### What is left out of the logs -/

/-- A log file: a header, entries, and whatever follows them. -/
structure Spec.RawLog where
  hdr : Bytes
  entries : List RawEntry
  tail : Bytes

def Spec.RawLog.encode (l : RawLog) : Bytes := l.hdr ++ (l.entries.flatMap (·.encode) ++ l.tail)

/-- The header has its size, the fields of the entries fit, and what follows them does not begin like an entry. -/
def Spec.RawLog.Fits (l : RawLog) : Prop :=
  l.hdr.length = 512 ∧ (∀ e ∈ l.entries, e.Fits) ∧ l.tail.take 4 ≠ [0x48, 0x76, 0x4C, 0x45]

/-- The number in the header of a log. -/
def Spec.RawLog.seq (l : RawLog) : Nat := u32At l.hdr 4

/-- Reading such a file: it is refused, or the header and all entries are read. -/
theorem rawLog_read {l : RawLog} (hl : l.Fits) {f : TransactionLog} (h : usableLog l.encode = some f) :
    f.entries = expectedEntries 512 l.entries ∧ f.base.primarySeq = l.seq := by
  obtain ⟨h1, h2, h3⟩ := hl
  have hj := not_entry l.tail h3
  rcases baseBlockBase_cases l.hdr with ⟨c1, c2, fn, logs, hb⟩ | ⟨hn, _⟩
  · rw [List.drop_of_length_le (by omega)] at hb
    have hr := log_file_roundtrip l.hdr _ hb l.entries h2 l.tail hj
    unfold usableLog at h
    split at h
    · cases h
    · rw [show l.encode = _ from rfl, RawLog.encode, hr] at h
      cases h
      exact ⟨rfl, rfl⟩
  · exfalso
    have herr : BaseBlockBase.fromBytes l.encode = .err := by
      rcases baseBlockBase_cases l.encode with ⟨_, c2, _⟩ | ⟨_, he⟩
      · exfalso
        refine hn ⟨by omega, ?_⟩
        rw [RawLog.encode, List.take_append_of_le_length (by omega)] at c2
        exact c2
      · exact he
    unfold usableLog TransactionLog.fromBytes at h
    rw [herr] at h
    split at h
    · cases h
    · cases h

theorem perm_map_lift {α β : Type} (f : α → β) {l1 l2 : List β} (h : l1.Perm l2) :
    ∀ xs : List α, l2 = xs.map f → ∃ ys : List α, ys.Perm xs ∧ l1 = ys.map f := by
  induction h with
  | nil =>
    intro xs hx
    cases xs with
    | nil => exact ⟨[], List.Perm.refl _, rfl⟩
    | cons x xs => cases hx
  | cons a _ ih =>
    intro xs hx
    cases xs with
    | nil => cases hx
    | cons x xs =>
      simp only [List.map_cons, List.cons.injEq] at hx
      obtain ⟨rfl, hx⟩ := hx
      obtain ⟨ys, h1, rfl⟩ := ih xs hx
      exact ⟨x :: ys, h1.cons x, rfl⟩
  | swap a b l =>
    intro xs hx
    match xs, hx with
    | x :: y :: xs, hx =>
      simp only [List.map_cons, List.cons.injEq] at hx
      obtain ⟨rfl, rfl, rfl⟩ := hx
      exact ⟨y :: x :: xs, List.Perm.swap _ _ _, rfl⟩
  | trans _ _ ih1 ih2 =>
    intro xs hx
    obtain ⟨ys, h1, hy⟩ := ih2 xs hx
    obtain ⟨zs, h2, hz⟩ := ih1 ys hy
    exact ⟨zs, h2.trans h1, hz⟩

theorem filterMap_all {α β : Type} (f : α → Option β) : ∀ xs : List α, (∀ x ∈ xs, (f x).isSome = true) →
    (xs.filterMap f).map some = xs.map f := by
  intro xs
  induction xs with
  | nil => intro _; rfl
  | cons x xs ih =>
    intro h
    have hx := h x (by simp)
    cases hf : f x with
    | none => rw [hf] at hx; cases hx
    | some y =>
      rw [List.filterMap_cons_some hf, List.map_cons, List.map_cons, hf, ih fun z hz => h z (by simp [hz])]

theorem read_entries : ∀ (used : List RawLog) (logs : List TransactionLog), (∀ l ∈ used, l.Fits) →
    logs.map some = used.map (fun l => usableLog l.encode) →
    logs.flatMap (·.entries) = used.flatMap (fun l => expectedEntries 512 l.entries) ∧
      logs.map (·.base.primarySeq) = used.map (·.seq) := by
  intro used
  induction used with
  | nil =>
    intro logs _ h
    cases logs with
    | nil => exact ⟨rfl, rfl⟩
    | cons => cases h
  | cons u used ih =>
    intro logs hf h
    cases logs with
    | nil => cases h
    | cons f logs =>
      simp only [List.map_cons, List.cons.injEq] at h
      obtain ⟨e1, e2⟩ := rawLog_read (hf u (by simp)) h.1.symm
      obtain ⟨i1, i2⟩ := ih logs (fun l hl => hf l (by simp [hl])) h.2
      exact ⟨by rw [List.flatMap_cons, List.flatMap_cons, e1, i1], by rw [List.map_cons, List.map_cons, e2, i2]⟩

/-- C82: when a hive with an intact header is opened with logs and no warning about logs is given (neither
`WarningTransactionLog` nor `WarningParse`), then every entry of every log has been applied, log by log in the order
of the numbers in their headers.

Partial: entries behind one that does not begin like an entry are left out without a warning
(`damaged_entry_violated`); when the checksum of the header is wrong all but the newest log are left out, with the
warning `Applying recovered base block` only. -/
theorem left_out_told_partial (w : World) (b : Builder) (p : HiveParser) (bb : BaseBlock) (rest : Bytes)
    (h : b.build w = some (.ok p)) (hp : BaseBlock.fromBytes b.primary = .ok (bb, rest))
    (hsup : bb.base.fileType ≠ .unknown) (hck : calculateChecksum (b.primary.take 512) = .ok bb.base.checksum)
    (raws : List RawLog) (hne : raws ≠ []) (hlogs : b.logs = raws.map (·.encode)) (hfit : ∀ l ∈ raws, l.Fits)
    (hq1 : .WarningTransactionLog ∉ p.state.info.codes) (hq2 : .WarningParse ∉ p.state.info.codes) :
    ∃ used : List RawLog, used.Perm raws ∧ used.Pairwise (fun a b => a.seq ≤ b.seq) ∧
      Replayed b.primary (used.flatMap fun l => expectedEntries 512 l.entries) p.env.fi.buffer := by
  obtain ⟨logs, warn, sup, hv, st, items, hl, ho, hr, hc, hfi, _⟩ := build_made h
  rw [hc] at hq1 hq2
  simp only [List.mem_append, not_or] at hq1 hq2
  -- every file is read
  obtain ⟨l1, l2, _⟩ := log_order _ _ _ hl
  have hnp : ∀ f ∈ b.logs, TransactionLog.fromBytes f ≠ .panic := by
    intro f hf hp
    unfold TransactionLog.parse at hl
    rw [readLogs_panic b.logs {} ⟨f, hf, hp⟩] at hl
    cases hl
  have hall : ∀ f ∈ b.logs, (usableLog f).isSome = true := by
    obtain ⟨logs', r1, r2⟩ := readLogs_spec b.logs {} hnp
    unfold TransactionLog.parse at hl
    rw [r1] at hl
    simp only [Res.ok.injEq, Prod.mk.injEq] at hl
    have hw : (warn.getD {}).codes = logs'.codes := by
      rw [← hl.2]
      unfold Logs.getOption
      split
      · rename_i hn; unfold Logs.codes; rw [hn]; rfl
      · rfl
    have hz : b.logs.countP (fun f => (usableLog f).isNone) = 0 := by
      cases hk : b.logs.countP (fun f => (usableLog f).isNone) with
      | zero => rfl
      | succ k =>
        rw [hk] at r2
        exact absurd (by rw [hw, r2]; simp [List.replicate_succ]) hq2.2
    intro f hf
    rw [List.countP_eq_zero] at hz
    have := hz f hf
    cases hf' : usableLog f with
    | none => rw [hf'] at this; exact absurd rfl this
    | some _ => rfl
  have hperm : (logs.map some).Perm (raws.map fun l => usableLog l.encode) := by
    have := l1.map some
    rw [filterMap_all _ _ hall, hlogs, List.map_map] at this
    exact this
  obtain ⟨used, hu, hmap⟩ := perm_map_lift _ hperm raws rfl
  obtain ⟨e1, e2⟩ := read_entries used logs (fun l hl => hfit l (hu.subset hl)) hmap
  refine ⟨used, hu, ?_, ?_⟩
  · have := List.pairwise_map.2 l2
    rw [e2] at this
    exact List.pairwise_map.1 this
  rw [← e1, hfi]
  have hlne : logs.isEmpty = false := by
    cases hlg : logs with
    | cons => rfl
    | nil =>
      rw [hlg] at hperm
      exact absurd (List.map_eq_nil_iff.1 hperm.nil_eq.symm) hne
  -- the header is as it should be
  obtain ⟨sup', bad, info', hi, hs, hbad⟩ := initBaseBlock_ok b.primary {} bb rest hp
  have hb0 : bad = false := by
    cases bad with
    | false => rfl
    | true => exact absurd hck (hbad.1 rfl).2
  have hs0 : sup' = true := by rw [hs]; simp [hsup]
  subst hb0 hs0
  unfold openHive at ho
  rw [hi] at ho
  simp only [Res.bind_ok, if_true] at ho
  cases hsc : w.scan b.recover b.primary bb (some (.ok ({}, []))) with
  | err => rw [hsc] at ho; cases ho
  | panic => rw [hsc] at ho; cases ho
  | ok s =>
    rw [hsc] at ho
    simp only [Res.bind_ok] at ho
    cases ha : applyTransactionLogs (w.analyze b.recover) (w.initItems b.recover)
        ⟨b.primary, 4096, bb, info', s⟩ false logs with
    | err => rw [ha] at ho; cases ho
    | panic => rw [ha] at ho; cases ho
    | ok h2 =>
      rw [ha] at ho
      cases ho
      unfold applyTransactionLogs prepareLogs at ha
      rw [hlne] at ha
      simp only [Bool.false_eq_true, if_false, Res.bind_ok] at ha
      by_cases hd : bb.base.primarySeq = bb.base.secondarySeq
      · rw [if_pos hd] at ha
        cases ha
        exact absurd (by simp) hq1.1.1
      · rw [if_neg hd] at ha
        simp only at ha
        cases hin : w.initItems b.recover b.primary s with
        | err => rw [hin] at ha; cases ha
        | panic => rw [hin] at ha; cases ha
        | ok s' =>
          rw [hin] at ha
          simp only at ha
          cases hap : applyLogs (w.analyze b.recover) bb.base.secondarySeq logs 0 ⟨b.primary, 4096, bb, info', s'⟩ with
          | err => rw [hap] at ha; cases ha
          | panic => rw [hap] at ha; cases ha
          | ok y =>
            obtain ⟨n', h3⟩ := y
            rw [hap] at ha
            simp only at ha
            obtain ⟨f1, f2, k, f3, f4⟩ := applyLogs_told _ _ _ _ _ _ _ hap
            obtain ⟨u1, _⟩ := updateHeader_told ha
            have hk0 : k = 0 := by
              cases k with
              | zero => rfl
              | succ k =>
                refine absurd (u1.subset ?_) hq1.1.1
                rw [f3]
                simp [List.replicate_succ]
            have happ := f4 hk0
            simp only at happ
            obtain ⟨g1, g2⟩ := applyAll_effect 4096 bb.base.hiveBinsDataSize (logs.flatMap (·.entries)) b.primary
            by_cases hfits : EntriesFit 4096 bb.base.hiveBinsDataSize (logs.flatMap (·.entries)) b.primary.length
            · obtain ⟨buf', a1, a2, a3⟩ := g1 hfits
              rw [happ] at a1
              cases a1
              obtain ⟨s1, s2⟩ := updateHeader_same ha
              refine ⟨by show b.primary.length ≤ hv.buffer.length; omega, fun i hi1 hi2 hi3 => ?_⟩
              simp only at hi1 ⊢
              rw [s2 i hi2 hi3]
              exact a3 i (by omega)
            · rw [g2 hfits] at happ
              cases happ

/-! ### Entries behind damage, a case -/

theorem readLogs_same {f g : Bytes} {x : TransactionLog} {r r' : Bytes} (hf : f.isEmpty = false) (hg : g.isEmpty = false)
    (h1 : TransactionLog.fromBytes f = .ok (x, r)) (h2 : TransactionLog.fromBytes g = .ok (x, r')) (after : List Bytes) :
    ∀ (before : List Bytes) (logs : Logs), readLogs (before ++ f :: after) logs = readLogs (before ++ g :: after) logs := by
  intro before
  induction before with
  | nil =>
    intro logs
    rw [List.nil_append, List.nil_append, readLogs, readLogs, hf, hg, h1, h2]
  | cons a before ih =>
    intro logs
    rw [List.cons_append, List.cons_append, readLogs, readLogs]
    simp only [ih]

/-- C82, violated: whatever follows the last entry that can be read makes no difference, neither to the parser nor to
its warnings; so an entry with a damaged signature and all entries behind it are left out in silence. -/
theorem damaged_entry_violated (w : World) (b : Builder) (before after : List Bytes) (l : RawLog) (hl : l.Fits)
    (base : BaseBlockBase) (hb : BaseBlockBase.fromBytes l.hdr = .ok (base, [])) (sig : Bytes)
    (hs : sig.length = 4 ∧ sig ≠ [0x48, 0x76, 0x4C, 0x45]) (e : RawEntry) (es : List RawEntry) (rest : Bytes) :
    ({ b with logs := before ++ (l.hdr ++ (l.entries.flatMap (·.encode) ++
        (sig ++ e.encode.drop 4 ++ (es.flatMap (·.encode) ++ rest)))) :: after } : Builder).build w =
      ({ b with logs := before ++ l.encode :: after } : Builder).build w := by
  obtain ⟨h1, h2, h3⟩ := hl
  have ht : (sig ++ e.encode.drop 4 ++ (es.flatMap (·.encode) ++ rest)).take 4 ≠ hvle := by
    rw [List.append_assoc, List.take_append_of_le_length (by omega), List.take_of_length_le (by omega)]
    exact hs.2
  have e1 := log_file_roundtrip l.hdr base hb l.entries h2 _ (not_entry _ ht)
  have e2 := log_file_roundtrip l.hdr base hb l.entries h2 _ (not_entry l.tail h3)
  have hne : ∀ t : Bytes, (l.hdr ++ t).isEmpty = false := by
    intro t
    cases hh : l.hdr with
    | nil => rw [hh] at h1; cases h1
    | cons a as => rfl
  unfold Builder.build TransactionLog.parse
  simp only
  rw [readLogs_same (hne _) (hne _) e1 e2]
  rfl

/-- A log file with one entry. -/
def toldLog : RawLog := ⟨sampleHeader 4 4 4096, [sampleEntry], []⟩

theorem toldLog_fits : toldLog.Fits := by
  refine ⟨by decide +kernel, ?_, by decide⟩
  intro e he
  cases List.mem_singleton.1 he
  unfold RawEntry.Fits
  decide +kernel

def toldBase : BaseBlockBase :=
  match BaseBlockBase.fromBytes (sampleHeader 4 4 4096) with
  | .ok (b, _) => b
  | _ => (demoLog 0 []).base

theorem toldBase_read : BaseBlockBase.fromBytes toldLog.hdr = .ok (toldBase, []) := by
  have hh : (match BaseBlockBase.fromBytes (sampleHeader 4 4 4096) with
      | .ok (_, []) => true | _ => false) = true := by decide +kernel
  unfold toldBase
  show BaseBlockBase.fromBytes (sampleHeader 4 4 4096) = _
  cases hb : BaseBlockBase.fromBytes (sampleHeader 4 4 4096) with
  | err => rw [hb] at hh; cases hh
  | panic => rw [hb] at hh; cases hh
  | ok x =>
    obtain ⟨base, r⟩ := x
    rw [hb] at hh
    cases r with
    | cons a r => cases hh
    | nil => rfl

/-- A dirty hive opened with this log: nothing is said but that it was dirty and that the log was applied. -/
theorem told_sample : ∃ p, ({ primary := sampleHive 5 4 4477 0x61 [], logs := [toldLog.encode] } : Builder).build sampleWorld =
    some (.ok p) ∧ p.state.info.codes = [.WarningBaseBlock, .Info] := by
  have hp := parse_single toldLog.encode _ _ (by decide +kernel)
    (log_file_roundtrip toldLog.hdr toldBase toldBase_read toldLog.entries toldLog_fits.2.1 toldLog.tail
      (not_entry toldLog.tail toldLog_fits.2.2))
  have key : (match ({ primary := sampleHive 5 4 4477 0x61 [], logs := [toldLog.encode] } : Builder).build sampleWorld with
      | some (.ok p) => decide (p.state.info.codes = [.WarningBaseBlock, .Info])
      | _ => false) = true := by
    unfold Builder.build
    rw [hp]
    decide +kernel
  cases hb : ({ primary := sampleHive 5 4 4477 0x61 [], logs := [toldLog.encode] } : Builder).build sampleWorld with
  | none => rw [hb] at key; cases key
  | some r =>
    rw [hb] at key
    cases r with
    | err => cases key
    | panic => cases key
    | ok p => exact ⟨p, rfl, of_decide_eq_true key⟩

/-- The hypotheses of `left_out_told_partial`. -/
example : ∃ p : HiveParser, Replayed (sampleHive 5 4 4477 0x61 []) (expectedEntries 512 [sampleEntry]) p.env.fi.buffer := by
  obtain ⟨p, h1, h2⟩ := told_sample
  obtain ⟨bb, rest, g1, g2, _, _, _, g5⟩ := sampleHive_header 5 4 4477 0x61 [] (by decide +kernel)
  obtain ⟨used, u1, _, u3⟩ := left_out_told_partial sampleWorld _ p bb rest h1 g1 g2 g5 [toldLog] (by simp) rfl
    (fun l hl => by cases List.mem_singleton.1 hl; exact toldLog_fits) (by rw [h2]; decide) (by rw [h2]; decide)
  rw [List.perm_singleton.1 u1] at u3
  exact ⟨p, by simpa [toldLog] using u3⟩

/-- The damage of `damaged_entry_violated`: a second entry of which one byte is changed, with a third one behind it. -/
def damagedTail : Bytes :=
  [0x48, 0x76, 0x4C, 0x44] ++ (RawEntry.encode { sampleEntry with seq := 5 }).drop 4 ++
    ([{ sampleEntry with seq := 6 }].flatMap RawEntry.encode ++ [])

example : ∃ p, ({
      primary := sampleHive 5 4 4477 0x61 []
      logs := [toldLog.hdr ++ (toldLog.entries.flatMap (·.encode) ++ damagedTail)] } : Builder).build sampleWorld =
      some (.ok p) ∧
    p.state.info.codes = [.WarningBaseBlock, .Info] := by
  obtain ⟨p, h1, h2⟩ := told_sample
  refine ⟨p, ?_, h2⟩
  have := damaged_entry_violated sampleWorld { primary := sampleHive 5 4 4477 0x61 [] } [] [] toldLog toldLog_fits toldBase
    toldBase_read [0x48, 0x76, 0x4C, 0x44] ⟨rfl, by decide⟩ { sampleEntry with seq := 5 } [{ sampleEntry with seq := 6 }] []
  exact this.trans h1

/-- Both sides of `opening_told`: a clean hive is opened in silence, a dirty one is not. -/
example : (match ({ primary := sampleHive 5 5 4477 0x61 [] } : Builder).build sampleWorld with
      | some (.ok p) => p.state.info.codes | _ => [.Info]) = [] ∧
    (match ({ primary := sampleHive 5 4 4477 0x61 [] } : Builder).build sampleWorld with
      | some (.ok p) => p.state.info.codes | _ => []) = [.WarningBaseBlock] := by
  unfold Builder.build TransactionLog.parse
  simp only [readLogs, List.mergeSort_nil]
  constructor <;> decide +kernel

end Notatin
