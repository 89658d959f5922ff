import Verif.Props.Safe
/-
C91: giving a transaction log twice is like giving it once.
-/
namespace Notatin
open Spec

/-- The entries of a log are numbered from the number in its header on, 0 and the last number excluded. -/
def Spec.NumberedOn (l : TransactionLog) : Prop :=
  ∀ e ∈ l.entries, l.base.primarySeq ≤ e.seq ∧ 0 < e.seq ∧ e.seq + 1 < 4294967296

/-! ### Warnings have no influence -/

theorem updateEntries_info {σ : Type} (A : Bytes → Nat → Bytes → σ → σ) (off sec bins : Nat) (es : List LogEntry) :
    ∀ (st st1 : ReplayState σ) (i : Logs), updateEntries A off sec bins es st = .ok st1 →
      ∃ j, updateEntries A off sec bins es { st with info := i } = .ok { st1 with info := j } := by
  induction es with
  | nil => intro st st1 i h; cases h; exact ⟨i, rfl⟩
  | cons e es ih =>
    intro st st1 i h
    rw [updateEntries] at h ⊢
    by_cases h1 : e.hasValidHashes = true
    · rw [if_pos h1] at h ⊢
      by_cases h2 : e.seq < sec
      · rw [if_pos h2] at h ⊢
        exact ih { st with info := st.info.add .WarningTransactionLog } st1 _ h
      · rw [if_neg h2] at h ⊢
        by_cases h3 : e.hiveBinsDataSize % 4096 ≠ 0
        · rw [if_pos h3] at h ⊢
          cases h
          exact ⟨_, rfl⟩
        · rw [if_neg h3] at h ⊢
          by_cases h4 : st.newSeq ≠ 0 ∧ st.newSeq + 1 ≥ 4294967296
          · rw [if_pos h4] at h; cases h
          · rw [if_neg h4] at h
            rw [if_neg (show ¬ (st.newSeq ≠ 0 ∧ st.newSeq + 1 ≥ 4294967296) from h4)]
            by_cases h5 : st.newSeq ≠ 0 ∧ e.seq ≠ st.newSeq + 1
            · rw [if_pos h5] at h
              rw [if_pos (show st.newSeq ≠ 0 ∧ e.seq ≠ st.newSeq + 1 from h5)]
              cases h
              exact ⟨_, rfl⟩
            · rw [if_neg h5] at h
              rw [if_neg (show ¬ (st.newSeq ≠ 0 ∧ e.seq ≠ st.newSeq + 1) from h5)]
              simp only at h ⊢
              cases ha : applyEntry off bins e st.buffer with
              | err => rw [ha] at h; cases h
              | panic => rw [ha] at h; cases h
              | ok buf =>
                rw [ha] at h
                exact ih _ st1 i h
    · rw [if_neg h1] at h ⊢
      cases h
      exact ⟨_, rfl⟩

theorem updateParser_info {σ : Type} (A : Bytes → Nat → Bytes → σ → σ) (h h1 : Hive σ) (l : TransactionLog) (n : Nat)
    (i : Logs) (he : updateParser A h l = .ok (n, h1)) :
    ∃ j, updateParser A { h with info := i } l = .ok (n, { h1 with info := j }) := by
  unfold updateParser at he ⊢
  split at he
  · rename_i st hs
    cases he
    obtain ⟨j, hj⟩ := updateEntries_info A _ _ _ _ _ _ i hs
    simp only at hj ⊢
    rw [hj]
    exact ⟨j, rfl⟩
  · cases he
  · cases he

theorem applyLogs_info {σ : Type} (A : Bytes → Nat → Bytes → σ → σ) (sec : Nat) (ls : List TransactionLog) :
    ∀ (n m : Nat) (h h1 : Hive σ) (i : Logs), applyLogs A sec ls n h = .ok (m, h1) →
      ∃ j, applyLogs A sec ls n { h with info := i } = .ok (m, { h1 with info := j }) := by
  induction ls with
  | nil => intro n m h h1 i he; cases he; exact ⟨i, rfl⟩
  | cons l ls ih =>
    intro n m h h1 i he
    rw [applyLogs] at he ⊢
    by_cases c1 : l.base.primarySeq ≥ sec
    · rw [if_pos c1] at he ⊢
      by_cases c2 : n ≠ 0 ∧ n + 1 ≥ 4294967296
      · rw [if_pos c2] at he; cases he
      · rw [if_neg c2] at he ⊢
        by_cases c3 : n = 0 ∨ l.base.primarySeq = n + 1
        · rw [if_pos c3] at he ⊢
          cases hu : updateParser A h l with
          | err => rw [hu] at he; cases he
          | panic => rw [hu] at he; cases he
          | ok x =>
            obtain ⟨n', h'⟩ := x
            rw [hu] at he
            obtain ⟨j, hj⟩ := updateParser_info A h h' l n' i hu
            rw [hj]
            exact ih n' m h' h1 j he
        · rw [if_neg c3] at he ⊢
          exact ih n m { h with info := h.info.add .WarningTransactionLog } h1 _ he
    · rw [if_neg c1] at he ⊢
      exact ih n m { h with info := h.info.add .WarningTransactionLog } h1 _ he

/-! ### One log -/

/-- Either nothing was written, or the number is the one of an entry. -/
theorem updateEntries_last {σ : Type} (A : Bytes → Nat → Bytes → σ → σ) (off sec bins : Nat) (es : List LogEntry) :
    ∀ (st st1 : ReplayState σ), updateEntries A off sec bins es st = .ok st1 →
      (∃ i, st1 = { st with info := i }) ∨ ∃ e ∈ es, st1.newSeq = e.seq := by
  induction es with
  | nil => intro st st1 h; cases h; exact .inl ⟨_, rfl⟩
  | cons e es ih =>
    intro st st1 h
    rw [updateEntries] at h
    have lift : ∀ s : ReplayState σ, ((∃ i, st1 = { s with info := i }) ∨ ∃ e ∈ es, st1.newSeq = e.seq) →
        (∃ i, st1 = { s with info := i }) ∨ ∃ x ∈ e :: es, st1.newSeq = x.seq := by
      rintro s (h | ⟨x, hx, h⟩)
      · exact .inl h
      · exact .inr ⟨x, List.mem_cons_of_mem _ hx, h⟩
    by_cases h1 : e.hasValidHashes = true
    · rw [if_pos h1] at h
      by_cases h2 : e.seq < sec
      · rw [if_pos h2] at h
        exact lift st (ih { st with info := st.info.add .WarningTransactionLog } st1 h)
      · rw [if_neg h2] at h
        by_cases h3 : e.hiveBinsDataSize % 4096 ≠ 0
        · rw [if_pos h3] at h
          cases h
          exact .inl ⟨_, rfl⟩
        · rw [if_neg h3] at h
          by_cases h4 : st.newSeq ≠ 0 ∧ st.newSeq + 1 ≥ 4294967296
          · rw [if_pos h4] at h; cases h
          · rw [if_neg h4] at h
            by_cases h5 : st.newSeq ≠ 0 ∧ e.seq ≠ st.newSeq + 1
            · rw [if_pos h5] at h
              cases h
              exact .inl ⟨_, rfl⟩
            · rw [if_neg h5] at h
              cases ha : applyEntry off bins e st.buffer with
              | err => rw [ha] at h; cases h
              | panic => rw [ha] at h; cases h
              | ok buf =>
                rw [ha] at h
                rcases ih _ st1 h with ⟨i, hi⟩ | ⟨x, hx, hi⟩
                · exact .inr ⟨e, List.mem_cons_self, by rw [hi]⟩
                · exact .inr ⟨x, List.mem_cons_of_mem _ hx, hi⟩
    · rw [if_neg h1] at h
      cases h
      exact .inl ⟨_, rfl⟩

theorem updateParser_last {σ : Type} (A : Bytes → Nat → Bytes → σ → σ) (h h1 : Hive σ) (l : TransactionLog) (n : Nat)
    (hl : NumberedOn l) (he : updateParser A h l = .ok (n, h1)) :
    (n = 0 ∧ ∃ i, h1 = { h with info := i }) ∨ (n ≠ 0 ∧ l.base.primarySeq ≤ n ∧ n + 1 < 4294967296) := by
  unfold updateParser at he
  split at he
  · rename_i st hs
    cases he
    rcases updateEntries_last A _ _ _ _ _ _ hs with ⟨i, rfl⟩ | ⟨e, hm, hn⟩
    · exact .inl ⟨rfl, i, rfl⟩
    · obtain ⟨a, b, c⟩ := hl e hm
      right
      rw [hn]
      exact ⟨by omega, a, c⟩
  · cases he
  · cases he

/-- A log directly behind itself adds nothing but warnings. -/
theorem applyLogs_twice {σ : Type} (A : Bytes → Nat → Bytes → σ → σ) (sec : Nat) (l : TransactionLog) (hl : NumberedOn l)
    (pre ls : List TransactionLog) : ∀ (n m : Nat) (h h1 : Hive σ), applyLogs A sec (pre ++ l :: ls) n h = .ok (m, h1) →
      ∃ j, applyLogs A sec (pre ++ l :: l :: ls) n h = .ok (m, { h1 with info := j }) := by
  induction pre with
  | nil =>
    intro n m h h1 he
    rw [List.nil_append] at he ⊢
    rw [applyLogs] at he
    rw [applyLogs]
    by_cases c1 : l.base.primarySeq ≥ sec
    · rw [if_pos c1] at he ⊢
      by_cases c2 : n ≠ 0 ∧ n + 1 ≥ 4294967296
      · rw [if_pos c2] at he; cases he
      · rw [if_neg c2] at he ⊢
        by_cases c3 : n = 0 ∨ l.base.primarySeq = n + 1
        · rw [if_pos c3] at he ⊢
          cases hu : updateParser A h l with
          | err => rw [hu] at he; cases he
          | panic => rw [hu] at he; cases he
          | ok x =>
            obtain ⟨n', h'⟩ := x
            rw [hu] at he
            simp only at he ⊢
            rw [applyLogs, if_pos c1]
            rcases updateParser_last A h h' l n' hl hu with ⟨rfl, i, rfl⟩ | ⟨d1, d2, d3⟩
            · rw [if_neg (by omega), if_pos (.inl rfl)]
              obtain ⟨j, hj⟩ := updateParser_info A h _ l 0 i hu
              rw [hj]
              exact applyLogs_info A sec ls 0 m _ h1 j he
            · rw [if_neg (by omega), if_neg (by omega)]
              exact applyLogs_info A sec ls n' m h' h1 _ he
        · rw [if_neg c3] at he ⊢
          rw [applyLogs, if_pos c1, if_neg c2, if_neg c3]
          exact applyLogs_info A sec ls n m _ h1 _ he
    · rw [if_neg c1] at he ⊢
      rw [applyLogs, if_neg c1]
      exact applyLogs_info A sec ls n m _ h1 _ he
  | cons a pre ih =>
    intro n m h h1 he
    rw [List.cons_append] at he ⊢
    rw [applyLogs] at he ⊢
    by_cases c1 : a.base.primarySeq ≥ sec
    · rw [if_pos c1] at he ⊢
      by_cases c2 : n ≠ 0 ∧ n + 1 ≥ 4294967296
      · rw [if_pos c2] at he; cases he
      · rw [if_neg c2] at he ⊢
        by_cases c3 : n = 0 ∨ a.base.primarySeq = n + 1
        · rw [if_pos c3] at he ⊢
          cases hu : updateParser A h a with
          | err => rw [hu] at he; cases he
          | panic => rw [hu] at he; cases he
          | ok x =>
            rw [hu] at he
            exact ih _ m _ h1 he
        · rw [if_neg c3] at he ⊢
          exact ih n m _ h1 he
    · rw [if_neg c1] at he ⊢
      exact ih n m _ h1 he

/-! ### Opening -/

theorem initBaseBlock_info {buf : Bytes} {i : Logs} {bb : BaseBlock} {off : Nat} {sup bad : Bool} {i1 : Logs} (i' : Logs)
    (h : initBaseBlock buf i = .ok (bb, off, sup, bad, i1)) :
    ∃ j, initBaseBlock buf i' = .ok (bb, off, sup, bad, j) := by
  cases hp : BaseBlock.fromBytes buf with
  | err => unfold initBaseBlock at h; rw [hp] at h; cases h
  | panic => unfold initBaseBlock at h; rw [hp] at h; cases h
  | ok x =>
    obtain ⟨s1, b1, j1, e1, hs1, hb1⟩ := initBaseBlock_ok buf i x.1 x.2 hp
    obtain ⟨s2, b2, j2, e2, hs2, hb2⟩ := initBaseBlock_ok buf i' x.1 x.2 hp
    rw [e1] at h
    cases h
    refine ⟨j2, ?_⟩
    rw [e2, hs2, hs1]
    have : b2 = bad := by
      cases b2 <;> cases bad <;> simp_all
    rw [this]

theorem updateHeader_info {σ : Type} {h h1 : Hive σ} {n : Nat} (i : Logs) (he : updateHeader h n = .ok h1) :
    ∃ j, updateHeader { h with info := i } n = .ok { h1 with info := j } := by
  unfold updateHeader Hive.reinit at he ⊢
  simp only [bind, Res.bind] at he ⊢
  cases hr : rewriteHeader h.buffer n with
  | err => rw [hr] at he; cases he
  | panic => rw [hr] at he; cases he
  | ok buf =>
    rw [hr] at he
    simp only at he ⊢
    cases hi : initBaseBlock buf h.info with
    | err => rw [hi] at he; cases he
    | panic => rw [hi] at he; cases he
    | ok x =>
      obtain ⟨bb, off, sup, bad, i1⟩ := x
      rw [hi] at he
      obtain ⟨j, hj⟩ := initBaseBlock_info i hi
      rw [hj]
      cases he
      exact ⟨_, rfl⟩

/-- Two lists of logs, the second as the first or with one log directly behind itself. -/
def OnceMore (ls ls' : List TransactionLog) : Prop :=
  ls' = ls ∨ ∃ l pre post, NumberedOn l ∧ ls = pre ++ l :: post ∧ ls' = pre ++ l :: l :: post

theorem applyLogs_onceMore {σ : Type} (A : Bytes → Nat → Bytes → σ → σ) (sec : Nat) {ls ls' : List TransactionLog}
    (hl : OnceMore ls ls') (m : Nat) (h h1 : Hive σ) (he : applyLogs A sec ls 0 h = .ok (m, h1)) :
    ∃ j, applyLogs A sec ls' 0 h = .ok (m, { h1 with info := j }) := by
  rcases hl with rfl | ⟨l, pre, post, hl, rfl, rfl⟩
  · exact ⟨h1.info, he⟩
  · exact applyLogs_twice A sec l hl pre post 0 m h h1 he

/-- A header taken over from the newest log. -/
theorem handleBadChecksum_twice {σ : Type} (h h1 : Hive σ) (l : TransactionLog) (hl : NumberedOn l)
    (pre ls logs1 : List TransactionLog) (hb : pre ≠ [] ∨ ls = [])
    (he : handleBadChecksum h (pre ++ l :: ls) = .ok (h1, logs1)) :
    ∃ logs2, handleBadChecksum h (pre ++ l :: l :: ls) = .ok (h1, logs2) ∧ OnceMore logs1 logs2 := by
  have hlast : (pre ++ l :: l :: ls).getLast? = (pre ++ l :: ls).getLast? := by
    rw [List.getLast?_append, List.getLast?_append, List.getLast?_cons_cons]
  have hsplit : OnceMore (if (pre ++ l :: ls).length > 1 then (pre ++ l :: ls).drop 1 else pre ++ l :: ls)
      (if (pre ++ l :: l :: ls).length > 1 then (pre ++ l :: l :: ls).drop 1 else pre ++ l :: l :: ls) := by
    cases pre with
    | nil =>
      rcases hb with hb | rfl
      · exact absurd rfl hb
      · exact .inl rfl
    | cons a pre =>
      rw [if_pos (by simp; omega), if_pos (by simp; omega)]
      exact .inr ⟨l, pre, ls, hl, rfl, rfl⟩
  unfold handleBadChecksum at he ⊢
  simp only at he ⊢
  rw [hlast]
  cases hg : (pre ++ l :: ls).getLast? with
  | none => rw [hg] at he; cases he
  | some newest =>
    rw [hg] at he
    simp only at he ⊢
    cases hr : getRange h.buffer 0 512 with
    | none => rw [hr] at he; cases he
    | some y =>
      rw [hr] at he
      simp only at he ⊢
      by_cases hn : newest.baseBlockBytes.length ≠ 512
      · rw [if_pos hn] at he; cases he
      · rw [if_neg hn] at he ⊢
        split at he
        · rename_i h2 hh
          cases he
          exact ⟨_, rfl, hsplit⟩
        · cases he
        · cases he

theorem applyTransactionLogs_twice {σ : Type} (A : Bytes → Nat → Bytes → σ → σ) (I : Bytes → σ → Res σ) (h h1 : Hive σ)
    (bad : Bool) (l : TransactionLog) (hl : NumberedOn l) (pre ls : List TransactionLog)
    (hb : bad = true → pre ≠ [] ∨ ls = [])
    (he : applyTransactionLogs A I h bad (pre ++ l :: ls) = .ok h1) :
    ∃ j, applyTransactionLogs A I h bad (pre ++ l :: l :: ls) = .ok { h1 with info := j } := by
  have hprep : ∀ go h2 logs1, prepareLogs h bad (pre ++ l :: ls) = .ok (go, h2, logs1) →
      ∃ logs2, prepareLogs h bad (pre ++ l :: l :: ls) = .ok (go, h2, logs2) ∧ OnceMore logs1 logs2 := by
    intro go h2 logs1 hp
    unfold prepareLogs at hp ⊢
    simp only [bind, Res.bind] at hp ⊢
    cases bad with
    | false =>
      simp only [Bool.false_eq_true, if_false] at hp ⊢
      have hom : OnceMore (pre ++ l :: ls) (pre ++ l :: l :: ls) := .inr ⟨l, pre, ls, hl, rfl, rfl⟩
      split at hp
      · rename_i hs
        cases hp
        exact ⟨_, by rw [if_pos hs], hom⟩
      · rename_i hs
        cases hp
        exact ⟨_, by rw [if_neg hs], hom⟩
    | true =>
      simp only [if_true] at hp ⊢
      cases hc : handleBadChecksum h (pre ++ l :: ls) with
      | err => rw [hc] at hp; cases hp
      | panic => rw [hc] at hp; cases hp
      | ok x =>
        obtain ⟨logs2, e2, hom⟩ := handleBadChecksum_twice h x.1 l hl pre ls x.2 (hb rfl) hc
        rw [hc] at hp
        rw [e2]
        simp only at hp ⊢
        split at hp
        · rename_i hs
          cases hp
          exact ⟨_, by rw [if_pos hs], hom⟩
        · rename_i hs
          cases hp
          exact ⟨_, by rw [if_neg hs], hom⟩
  unfold applyTransactionLogs at he ⊢
  rw [if_neg (by simp)] at he ⊢
  cases hp : prepareLogs h bad (pre ++ l :: ls) with
  | err => rw [hp] at he; cases he
  | panic => rw [hp] at he; cases he
  | ok x =>
    obtain ⟨go, h2, logs1⟩ := x
    obtain ⟨logs2, e2, hom⟩ := hprep go h2 logs1 hp
    rw [hp] at he
    rw [e2]
    cases go with
    | false =>
      cases he
      exact ⟨_, rfl⟩
    | true =>
      simp only at he ⊢
      cases hi : I h2.buffer h2.recovery with
      | err => rw [hi] at he; cases he
      | panic => rw [hi] at he; cases he
      | ok s =>
        rw [hi] at he
        simp only at he ⊢
        cases ha : applyLogs A h2.baseBlock.base.secondarySeq logs1 0 { h2 with recovery := s } with
        | err => rw [ha] at he; cases he
        | panic => rw [ha] at he; cases he
        | ok x =>
          rw [ha] at he
          obtain ⟨j, hj⟩ := applyLogs_onceMore A _ hom x.1 _ x.2 ha
          rw [hj]
          exact updateHeader_info j he

theorem openHive_twice {σ : Type} (A : Bytes → Nat → Bytes → σ → σ) (I : Bytes → σ → Res σ)
    (S : Bytes → BaseBlock → σ → Res σ) (buf : Bytes) (s0 : σ) (sup : Bool) (h1 : Hive σ)
    (l : TransactionLog) (hl : NumberedOn l) (pre ls : List TransactionLog)
    (hck : (∀ bb rest, BaseBlock.fromBytes buf = .ok (bb, rest) →
      calculateChecksum (buf.take 512) = .ok bb.base.checksum) ∨ pre ≠ [] ∨ ls = [])
    (he : openHive A I S buf s0 (pre ++ l :: ls) = .ok (sup, h1)) :
    ∃ j, openHive A I S buf s0 (pre ++ l :: l :: ls) = .ok (sup, { h1 with info := j }) := by
  unfold openHive at he ⊢
  simp only [bind, Res.bind] at he ⊢
  cases hp : BaseBlock.fromBytes buf with
  | err =>
    have : initBaseBlock buf {} = .err := by unfold initBaseBlock; rw [hp]; rfl
    rw [this] at he; cases he
  | panic =>
    have : initBaseBlock buf {} = .panic := by unfold initBaseBlock; rw [hp]; rfl
    rw [this] at he; cases he
  | ok x =>
    obtain ⟨s1, b1, j1, e1, _, hb1⟩ := initBaseBlock_ok buf {} x.1 x.2 hp
    have hb : b1 = true → pre ≠ [] ∨ ls = [] := by
      rintro rfl
      rcases hck with hck | hck
      · exact absurd (hck x.1 x.2 hp) (hb1.1 rfl).2
      · exact hck
    rw [e1] at he
    rw [e1]
    simp only at he ⊢
    cases s1 with
    | false =>
      simp only [Bool.false_eq_true, if_false] at he ⊢
      cases he
      exact ⟨_, rfl⟩
    | true =>
      simp only [if_true] at he ⊢
      cases hS : S buf x.1 s0 with
      | err => rw [hS] at he; cases he
      | panic => rw [hS] at he; cases he
      | ok s =>
        rw [hS] at he
        simp only at he ⊢
        split at he
        · rename_i h2 ha
          cases he
          obtain ⟨j, hj⟩ := applyTransactionLogs_twice A I _ _ b1 l hl pre ls hb ha
          rw [hj]
          exact ⟨j, rfl⟩
        · cases he
        · cases he

/-! ### Reading the logs -/

theorem parse_twice (files files' : List Bytes) (f : Bytes) (hf : f ∈ files) (hperm : files'.Perm (f :: files))
    (hdist : (files.filterMap usableLog).Pairwise (fun a b => a.base.primarySeq ≠ b.base.primarySeq))
    (ls : List TransactionLog) (w : Option Logs) (h : TransactionLog.parse files = .ok (ls, w)) :
    (usableLog f = none ∧ ∃ w', TransactionLog.parse files' = .ok (ls, w')) ∨
    ∃ l pre post w', usableLog f = some l ∧ ls = pre ++ l :: post ∧
      TransactionLog.parse files' = .ok (pre ++ l :: l :: post, w') := by
  obtain ⟨l1, l2, _⟩ := log_order files ls w h
  have hnp : ∀ g ∈ files, TransactionLog.fromBytes g ≠ .panic := by
    intro g hg hp
    unfold TransactionLog.parse at h
    rw [readLogs_panic files {} ⟨g, hg, hp⟩] at h
    cases h
  obtain ⟨logs', h2, _⟩ := readLogs_spec files' {} (fun g hg => by
    rcases List.mem_cons.1 (hperm.mem_iff.1 hg) with rfl | hg
    · exact hnp _ hf
    · exact hnp _ hg)
  have hparse : TransactionLog.parse files' = .ok ((files'.filterMap usableLog).mergeSort TransactionLog.le, logs'.getOption) := by
    unfold TransactionLog.parse
    rw [h2]
  have hd : ls.Pairwise (fun a b => a.base.primarySeq ≠ b.base.primarySeq) := l1.symm.pairwise hdist (fun h => Ne.symm h)
  have hsort := List.pairwise_mergeSort (le := TransactionLog.le) le_trans_log le_total_log (files'.filterMap usableLog)
  have hsame : ∀ a b, a ∈ ls → b ∈ ls → a.base.primarySeq = b.base.primarySeq → a = b := by
    intro a b ha hb
    have hR : ls.Pairwise (fun a b => a.base.primarySeq = b.base.primarySeq → a = b) :=
      hd.imp (fun hne he => absurd he hne)
    have hR' : ls.Pairwise (flip (fun a b => a.base.primarySeq = b.base.primarySeq → a = b)) :=
      hd.imp (fun hne he => absurd he.symm hne)
    exact List.Pairwise.forall_of_forall_of_flip (fun x _ _ => rfl) hR hR' ha hb
  have hmain : ∀ target : List TransactionLog, target.Perm (files'.filterMap usableLog) → (∀ a ∈ target, a ∈ ls) →
      target.Pairwise (fun a b => a.base.primarySeq ≤ b.base.primarySeq) →
      TransactionLog.parse files' = .ok (target, logs'.getOption) := by
    intro target hp hm hs
    rw [hparse]
    have hp' := hp.trans (List.mergeSort_perm (files'.filterMap usableLog) TransactionLog.le).symm
    have : target = (files'.filterMap usableLog).mergeSort TransactionLog.le := by
      apply hp'.eq_of_pairwise (le := fun a b => TransactionLog.le a b = true) ?_
        (hs.imp (fun h => by unfold TransactionLog.le; simpa using h)) hsort
      intro a b ha hb c1 c2
      unfold TransactionLog.le at c1 c2
      simp only [decide_eq_true_eq] at c1 c2
      exact hsame a b (hm a ha) (hm b (hp'.mem_iff.2 hb)) (by omega)
    rw [← this]
  have hpf := hperm.filterMap usableLog
  cases hu : usableLog f with
  | none =>
    rw [List.filterMap_cons_none hu] at hpf
    exact .inl ⟨rfl, _, hmain ls (l1.trans hpf.symm) (fun _ h => h) l2⟩
  | some l =>
    rw [List.filterMap_cons_some hu] at hpf
    have hml : l ∈ ls := l1.mem_iff.2 (List.mem_filterMap.2 ⟨f, hf, hu⟩)
    obtain ⟨pre, post, rfl⟩ := List.append_of_mem hml
    refine .inr ⟨l, pre, post, _, rfl, rfl, hmain _ ?_ ?_ ?_⟩
    · refine List.Perm.trans ?_ ((l1.cons l).trans hpf.symm)
      exact List.perm_middle
    · intro a ha
      simp only [List.mem_append, List.mem_cons] at ha ⊢
      simpa using ha
    · rw [List.pairwise_append] at l2 ⊢
      obtain ⟨a1, a2, a3⟩ := l2
      refine ⟨a1, ?_, ?_⟩
      · refine List.pairwise_cons.2 ⟨fun b hb => ?_, a2⟩
        rcases List.mem_cons.1 hb with rfl | hb
        · exact Nat.le_refl _
        · exact (List.pairwise_cons.1 a2).1 b hb
      · intro a ha b hb
        rcases List.mem_cons.1 hb with rfl | hb
        · exact a3 a ha b List.mem_cons_self
        · exact a3 a ha b hb

/-- C91, partial: a log that is among the given ones is given once more, in any place: the hive is opened as before, with
and without recovery, but for the warnings.  The logs have different numbers.  When the checksum of the hive is
wrong, the log must not be the oldest of several: the code then removes one log, not the oldest one and its copies (and a
debug build stops at more than two logs, which is not modelled).  Missing: that case (`oldest_twice_violated`), and logs whose entries are numbered
below the number in the header, or up to the last number (`log_twice_violated`). -/
theorem log_twice_partial (w : World) (b : Builder) (f : Bytes) (hf : f ∈ b.logs) (files' : List Bytes)
    (hperm : files'.Perm (f :: b.logs))
    (hdist : (b.logs.filterMap usableLog).Pairwise (fun a b => a.base.primarySeq ≠ b.base.primarySeq))
    (hnum : ∀ l, usableLog f = some l → NumberedOn l)
    (hck : (∀ bb rest, BaseBlock.fromBytes b.primary = .ok (bb, rest) →
        calculateChecksum (b.primary.take 512) = .ok bb.base.checksum) ∨
      (∃ g l l', g ∈ b.logs ∧ usableLog g = some l' ∧ usableLog f = some l ∧ l'.base.primarySeq < l.base.primarySeq) ∨
      (b.logs.filterMap usableLog).length ≤ 1)
    (p : HiveParser) (h : b.build w = some (.ok p)) :
    ∃ info, { b with logs := files' }.build w = some (.ok { p with state := { p.state with info } }) := by
  unfold Builder.build at h
  split at h
  · cases h
  · cases h
  · rename_i logs warn hlogs
    have hopen : ∃ logs' warn', TransactionLog.parse files' = .ok (logs', warn') ∧ ∀ sup hv,
        openHive (w.analyze b.recover) (w.initItems b.recover) (w.scan b.recover) b.primary
          (some (.ok ({}, []))) logs = .ok (sup, hv) →
        ∃ j, openHive (w.analyze b.recover) (w.initItems b.recover) (w.scan b.recover) b.primary
          (some (.ok ({}, []))) logs' = .ok (sup, { hv with info := j }) := by
      rcases parse_twice b.logs files' f hf hperm hdist logs warn hlogs with ⟨_, w', hw'⟩ | ⟨l, pre, post, w', hu, rfl, hw'⟩
      · exact ⟨_, _, hw', fun sup hv ho => ⟨hv.info, ho⟩⟩
      · refine ⟨_, _, hw', fun sup hv ho => openHive_twice _ _ _ _ _ sup hv l (hnum l hu) pre post ?_ ho⟩
        obtain ⟨q1, q2, _⟩ := log_order _ _ _ hlogs
        rcases hck with hck | ⟨g, l1, l2, hg, hg2, hf1, hlt⟩ | hlen
        · exact .inl hck
        · right; left
          rintro rfl
          rw [hu] at hf1
          cases hf1
          rw [List.nil_append] at q1 q2
          rcases List.mem_cons.1 (q1.mem_iff.2 (List.mem_filterMap.2 ⟨g, hg, hg2⟩)) with rfl | hm
          · omega
          · have := (List.pairwise_cons.1 q2).1 l2 hm
            omega
        · rw [← q1.length_eq, List.length_append, List.length_cons] at hlen
          exact .inr (.inr (List.length_eq_zero_iff.1 (by omega)))
    obtain ⟨logs', warn', hw', hop⟩ := hopen
    unfold Builder.build
    simp only [hw']
    split at h
    · cases h
    · cases h
    · rename_i sup hv ho
      obtain ⟨j, hj⟩ := hop sup hv ho
      rw [hj]
      cases hrec : hv.recovery with
      | none => rw [hrec] at h; cases h
      | some r =>
        rw [hrec] at h
        cases r with
        | err => cases h
        | panic => cases h
        | ok x =>
          simp only at h ⊢
          rw [initRoot_info] at h ⊢
          by_cases hs : sup = true
          · rw [if_pos hs] at h ⊢
            cases hr : initRoot ⟨⟨hv.hbinOffset, hv.buffer⟩, w.hashFn, w.depth⟩ x.1 with
            | err => rw [hr] at h; cases h
            | panic => rw [hr] at h; cases h
            | ok y =>
              rw [hr] at h
              cases h
              exact ⟨_, rfl⟩
          · rw [if_neg hs] at h ⊢
            cases h
            exact ⟨_, rfl⟩

/-! ### Examples -/

/-- A log with one entry, which has the last number of 32 bits. -/
def finalLog : RawLog := ⟨sampleHeader 4 4 4096, [numberedEntry 4294967295], []⟩

theorem finalLog_fits : finalLog.Fits := by
  refine ⟨by decide +kernel, ?_, by decide⟩
  intro e he
  have : e = numberedEntry 4294967295 := List.mem_singleton.1 he
  subst this
  unfold RawEntry.Fits
  decide +kernel

theorem parse_pair (f : Bytes) (l : TransactionLog) (r : Bytes) (hne : f.isEmpty = false)
    (h : TransactionLog.fromBytes f = .ok (l, r)) : TransactionLog.parse [f, f] = .ok ([l, l], none) := by
  unfold TransactionLog.parse
  simp only [readLogs, hne, h]
  simp only [Bool.false_eq_true, if_false]
  rw [List.mergeSort_of_pairwise]
  · rfl
  · simp [TransactionLog.le]

/-- C91 is violated by a log with the last number: given once it is applied and the hive opens, given twice the opening
crashes (checked arithmetic). -/
theorem log_twice_violated : ∃ (w : World) (hive log : Bytes),
    (match ({ primary := hive, logs := [log] } : Builder).build w with | some (.ok _) => true | _ => false) = true ∧
    (match ({ primary := hive, logs := [log, log] } : Builder).build w with | some .panic => true | _ => false) = true := by
  have hl := log_file_roundtrip finalLog.hdr toldBase toldBase_read finalLog.entries finalLog_fits.2.1 finalLog.tail
      (not_entry finalLog.tail finalLog_fits.2.2)
  have hp := parse_single finalLog.encode _ _ (by decide +kernel) hl
  have hp2 := parse_pair finalLog.encode _ _ (by decide +kernel) hl
  refine ⟨sampleWorld, sampleHive 5 4 4477 0x61 [], finalLog.encode, ?_, ?_⟩
  · unfold Builder.build
    rw [hp]
    decide +kernel
  · unfold Builder.build
    rw [hp2]
    decide +kernel

/-- The sample hive with a wrong checksum, and a newer log without entries. -/
def wrongHive : Bytes := (sampleHive 5 4 4477 0x61 []).set 508 0xAA

def lateLog : RawLog := ⟨sampleHeader 5 4 4477, [], []⟩

def lateBase : BaseBlockBase :=
  match BaseBlockBase.fromBytes (sampleHeader 5 4 4477) with
  | .ok (b, _) => b
  | _ => toldBase

theorem lateBase_read : BaseBlockBase.fromBytes lateLog.hdr = .ok (lateBase, []) := by
  have hh : (match BaseBlockBase.fromBytes (sampleHeader 5 4 4477) with
      | .ok (_, []) => true | _ => false) = true := by decide +kernel
  unfold lateBase
  show BaseBlockBase.fromBytes (sampleHeader 5 4 4477) = _
  cases hb : BaseBlockBase.fromBytes (sampleHeader 5 4 4477) with
  | err => rw [hb] at hh; cases hh
  | panic => rw [hb] at hh; cases hh
  | ok x =>
    rw [hb] at hh
    obtain ⟨b, r⟩ := x
    cases r with
    | nil => rfl
    | cons => cases hh

/-- The paths a hive lists when opened. -/
def shownPaths (r : Option (Res HiveParser)) : Option (List Str) :=
  match r with
  | some (.ok p) => match p.iterate 20 with
    | some (.ok ns) => some (ns.map (·.key.path))
    | _ => none
  | _ => none

/-- C91 is violated by the oldest of two logs when the checksum of the hive is wrong: given once it is set aside, as it
should be; given twice, one copy is set aside and the other is applied, and another key is listed. -/
theorem oldest_twice_violated : ∃ (w : World) (hive old new : Bytes),
    shownPaths (({ primary := hive, logs := [old, new] } : Builder).build w)
      = some ["\\RT".toList, "\\RT\\a".toList, "\\RT\\b".toList] ∧
    shownPaths (({ primary := hive, logs := [old, old, new] } : Builder).build w)
      = some ["\\RT".toList, "\\RT\\c".toList, "\\RT\\b".toList] := by
  have h1 := log_file_roundtrip toldLog.hdr toldBase toldBase_read toldLog.entries toldLog_fits.2.1 toldLog.tail
      (not_entry toldLog.tail toldLog_fits.2.2)
  have h2 := log_file_roundtrip lateLog.hdr lateBase lateBase_read lateLog.entries nofun lateLog.tail
      (not_entry lateLog.tail (by decide))
  have e1 : toldLog.encode.isEmpty = false := by decide +kernel
  have e2 : lateLog.encode.isEmpty = false := by decide +kernel
  have hle : toldBase.primarySeq ≤ lateBase.primarySeq := by decide +kernel
  have p1 : TransactionLog.parse [toldLog.encode, lateLog.encode] = .ok ([⟨toldBase, toldLog.hdr, expectedEntries 512 toldLog.entries⟩,
      ⟨lateBase, lateLog.hdr, expectedEntries 512 lateLog.entries⟩], none) := by
    unfold TransactionLog.parse
    have h1 : TransactionLog.fromBytes toldLog.encode = _ := h1
    have h2 : TransactionLog.fromBytes lateLog.encode = _ := h2
    simp only [readLogs, e1, e2, h1, h2]
    simp only [Bool.false_eq_true, if_false]
    rw [List.mergeSort_of_pairwise]
    · rfl
    · simp [TransactionLog.le, hle]
  have p2 : TransactionLog.parse [toldLog.encode, toldLog.encode, lateLog.encode] = .ok
      ([⟨toldBase, toldLog.hdr, expectedEntries 512 toldLog.entries⟩, ⟨toldBase, toldLog.hdr, expectedEntries 512 toldLog.entries⟩,
      ⟨lateBase, lateLog.hdr, expectedEntries 512 lateLog.entries⟩], none) := by
    unfold TransactionLog.parse
    have h1 : TransactionLog.fromBytes toldLog.encode = _ := h1
    have h2 : TransactionLog.fromBytes lateLog.encode = _ := h2
    simp only [readLogs, e1, e2, h1, h2]
    simp only [Bool.false_eq_true, if_false]
    rw [List.mergeSort_of_pairwise]
    · rfl
    · simp [TransactionLog.le, hle]
  refine ⟨sampleWorld, wrongHive, toldLog.encode, lateLog.encode, ?_, ?_⟩
  · unfold Builder.build
    rw [p1]
    decide +kernel
  · unfold Builder.build
    rw [p2]
    decide +kernel

/-- The sample hive with its log given twice. -/
example : ∃ p info, ({ primary := sampleHive 5 4 4477 0x61 [], logs := [sampleLog] } : Builder).build sampleWorld = some (.ok p) ∧
    ({ primary := sampleHive 5 4 4477 0x61 [], logs := [sampleLog, sampleLog] } : Builder).build sampleWorld
      = some (.ok { p with state := { p.state with info } }) := by
  have hok : (match ({ primary := sampleHive 5 4 4477 0x61 [], logs := [sampleLog] } : Builder).build sampleWorld with
      | some (.ok _) => true | _ => false) = true := by decide +kernel
  cases hb : ({ primary := sampleHive 5 4 4477 0x61 [], logs := [sampleLog] } : Builder).build sampleWorld with
  | none => rw [hb] at hok; cases hok
  | some r =>
    cases r with
    | err => rw [hb] at hok; cases hok
    | panic => rw [hb] at hok; cases hok
    | ok p =>
      obtain ⟨l, h1, _, h3, _, _, h6⟩ := sampleLog_parse
      obtain ⟨q, _, _⟩ := log_order _ _ _ h1
      obtain ⟨bb, rest, g1, _, _, _, _, g5⟩ := sampleHive_header 5 4 4477 0x61 [] (by decide +kernel)
      have hu : usableLog sampleLog = some l := by
        have : l ∈ [sampleLog].filterMap usableLog := q.mem_iff.1 List.mem_cons_self
        obtain ⟨g, hg, hu⟩ := List.mem_filterMap.1 this
        rw [List.mem_singleton.1 hg] at hu
        exact hu
      obtain ⟨info, hi⟩ := log_twice_partial sampleWorld { primary := sampleHive 5 4 4477 0x61 [], logs := [sampleLog] }
        sampleLog List.mem_cons_self [sampleLog, sampleLog] (List.Perm.refl _)
        (by
          rw [List.filterMap_cons_some hu]
          exact List.pairwise_singleton _ _)
        (by
          intro l' hl' e he
          rw [hu] at hl'
          cases hl'
          have : e.seq ∈ l.entries.map (·.seq) := List.mem_map.2 ⟨e, he, rfl⟩
          rw [h6] at this
          have := List.mem_singleton.1 this
          omega)
        (.inl (by
          intro bb' rest' hb'
          rw [g1] at hb'
          cases hb'
          exact g5)) p hb
      exact ⟨p, info, rfl, hi⟩

end Notatin
