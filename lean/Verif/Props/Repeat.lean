import Verif.Lemmas.Deeper
import Verif.Props.SafePost
import Verif.Props.SameTables
/-
C90: asking twice gives the same answer.  What differs between two runs of a program on the same files is the room on the
stack, the time they take, and the order in which hash maps are walked (`World`).
-/
namespace Notatin
open Spec

/-- The same machine with room for `d` nested calls, waited for `n` steps. -/
def World.more (w : World) (d n : Nat) : World := { w with depth := d, steps := n }

/-- The parser of the same hive on a machine with room for `d` nested calls. -/
def HiveParser.deep (p : HiveParser) (d : Nat) : HiveParser := { p with env := p.env.deep d }

/-- Recovery has neither failed nor crashed nor is it still running. -/
def Alive (r : Recovery) : Prop := ∃ x, r = some (.ok x)

theorem RunLe.alive {r r' : Recovery} (h : RunLe r r') (ha : Alive r) : r' = r := by
  obtain ⟨x, rfl⟩ := ha
  rcases h with h | h | h
  · cases h
  · cases h
  · exact h.symm

theorem analyze_le (w : World) {d n : Nat} (hd : w.depth ≤ d) (hn : w.steps ≤ n) (rec : Bool) (a : Bytes) (k : Nat) (b : Bytes)
    {s s' : Recovery} (h : RunLe s s') : RunLe (w.analyze rec a k b s) ((w.more d n).analyze rec a k b s') := by
  rcases h with rfl | rfl | rfl
  · exact .inl rfl
  · exact .inr (.inl rfl)
  · unfold World.analyze
    split
    · split
      · exact analyzeEntry_le (w.env a) (w.env b) hd hd w.order hn k _
      · exact .refl _
    · exact .refl _

theorem analyze_dead (w : World) (rec : Bool) (a : Bytes) (k : Nat) (b : Bytes) (s : Recovery) (h : ¬ Alive s) :
    ¬ Alive (w.analyze rec a k b s) := by
  unfold World.analyze
  split
  · exact absurd ⟨_, rfl⟩ h
  · exact h

theorem initItems_keeps (w : World) {d n : Nat} (hd : w.depth ≤ d) (hn : w.steps ≤ n) (rec : Bool) (buf : Bytes)
    {s s1 : Recovery} (h : w.initItems rec buf s = .ok s1) (ha : Alive s1) :
    (w.more d n).initItems rec buf s = .ok s1 := by
  unfold World.initItems at h ⊢
  split at h
  · rename_i x
    split at h
    · rename_i hr
      simp only [hr, if_true]
      rcases getRegItems_le (w.env buf) (d := d) hd hn 0 x.1 with h1 | h1 | h1
      · rw [h1] at h; cases h; obtain ⟨y, hy⟩ := ha; cases hy
      · rw [h1] at h; cases h
      · rw [h1] at h; exact h
    · rename_i hr
      simp only [hr]; exact h
  · exact h

theorem initItems_dead (w : World) (rec : Bool) (buf : Bytes) {s s1 : Recovery} (h : w.initItems rec buf s = .ok s1)
    (ha : ¬ Alive s) : ¬ Alive s1 := by
  unfold World.initItems at h
  split at h
  · exact absurd ⟨_, rfl⟩ ha
  · cases h; exact ha

theorem scan_keeps (w : World) {d n : Nat} (hd : w.depth ≤ d) (hn : w.steps ≤ n) (rec : Bool) (buf : Bytes) (bb : BaseBlock)
    {s s1 : Recovery} (h : w.scan rec buf bb s = .ok s1) (ha : Alive s1) : (w.more d n).scan rec buf bb s = .ok s1 := by
  unfold World.scan at h ⊢
  split at h
  · rename_i x
    split at h
    · rename_i hr
      simp only [hr, if_true]
      rcases scanBins_le (w.env buf) (d := d) hd bb.base.hiveBinsDataSize hn (w.env buf).fi.hbin x.1 with h1 | h1 | h1
      · unfold initRecoverDeleted at h; rw [h1] at h; cases h; obtain ⟨y, hy⟩ := ha; cases hy
      · unfold initRecoverDeleted at h; rw [h1] at h; cases h
      · unfold initRecoverDeleted at h; rw [h1] at h; exact h
    · rename_i hr
      simp only [hr]; exact h
  · exact h

theorem updateEntries_le {A A' : Bytes → Nat → Bytes → Recovery → Recovery}
    (hA : ∀ a k b s s', RunLe s s' → RunLe (A a k b s) (A' a k b s')) (off sec bins : Nat) (es : List LogEntry) :
    ∀ (x y : ReplayState Recovery) (r : Recovery), RunLe x.recovery r → updateEntries A off sec bins es x = .ok y →
      ∃ r', updateEntries A' off sec bins es { x with recovery := r } = .ok { y with recovery := r' } ∧ RunLe y.recovery r' := by
  induction es with
  | nil => intro x y r hr h; cases h; exact ⟨r, rfl, hr⟩
  | cons e es ih =>
    intro x y r hr h
    rw [updateEntries] at h
    rw [updateEntries]
    split at h
    · rename_i c1
      rw [if_pos c1]
      split at h
      · rename_i c2
        rw [if_pos c2]
        exact ih { x with info := x.info.add .WarningTransactionLog } y r hr h
      · rename_i c2
        rw [if_neg c2]
        split at h
        · rename_i c3
          rw [if_pos c3]; cases h; exact ⟨r, rfl, hr⟩
        · rename_i c3
          rw [if_neg c3]
          split at h
          · cases h
          · rename_i c4
            split at h
            · rename_i c5
              refine ⟨r, ?_, ?_⟩
              · simp only
                rw [if_neg c4, if_pos c5]; cases h; rfl
              · cases h; exact hr
            · rename_i c5
              simp only
              rw [if_neg c4, if_neg c5]
              cases ha : applyEntry off bins e x.buffer with
              | err => rw [ha] at h; cases h
              | panic => rw [ha] at h; cases h
              | ok buf =>
                rw [ha] at h
                exact ih _ y _ (hA _ _ _ _ _ hr) h
    · rename_i c1
      rw [if_neg c1]; cases h; exact ⟨r, rfl, hr⟩

theorem applyLogs_le {A A' : Bytes → Nat → Bytes → Recovery → Recovery}
    (hA : ∀ a k b s s', RunLe s s' → RunLe (A a k b s) (A' a k b s')) (sec : Nat) (logs : List TransactionLog) :
    ∀ (k : Nat) (h : Hive Recovery) (y : Nat × Hive Recovery) (r : Recovery), RunLe h.recovery r → applyLogs A sec logs k h = .ok y →
      ∃ r', applyLogs A' sec logs k { h with recovery := r } = .ok (y.1, { y.2 with recovery := r' }) ∧ RunLe y.2.recovery r' := by
  induction logs with
  | nil => intro k h y r hr he; cases he; exact ⟨r, rfl, hr⟩
  | cons l logs ih =>
    intro k h y r hr he
    rw [applyLogs] at he
    rw [applyLogs]
    split at he
    · rename_i c1
      rw [if_pos c1]
      split at he
      · cases he
      · rename_i c2
        rw [if_neg c2]
        split at he
        · rename_i c3
          rw [if_pos c3]
          unfold updateParser at he ⊢
          cases hu : updateEntries A h.hbinOffset h.baseBlock.base.secondarySeq h.baseBlock.base.hiveBinsDataSize l.entries
              { newSeq := 0, buffer := h.buffer, info := h.info, recovery := h.recovery } with
          | err => rw [hu] at he; cases he
          | panic => rw [hu] at he; cases he
          | ok x =>
            rw [hu] at he
            obtain ⟨r1, h1, h2⟩ := updateEntries_le hA _ _ _ _ _ _ r hr hu
            simp only at h1 he ⊢
            rw [h1]
            simp only
            exact ih _ { h with buffer := x.buffer, info := x.info, recovery := x.recovery } y r1 h2 he
        · rename_i c3
          rw [if_neg c3]
          exact ih _ { h with info := h.info.add .WarningTransactionLog } y r hr he
    · rename_i c1
      rw [if_neg c1]
      exact ih _ { h with info := h.info.add .WarningTransactionLog } y r hr he

theorem logs_keep (w : World) {d n : Nat} (hd : w.depth ≤ d) (hn : w.steps ≤ n) (rec : Bool) (g0 h' : Hive Recovery)
    (bad : Bool) (logs : List TransactionLog) (hal : Alive h'.recovery)
    (hat : applyTransactionLogs (w.analyze rec) (w.initItems rec) g0 bad logs = .ok h') :
    Alive g0.recovery ∧
      applyTransactionLogs ((w.more d n).analyze rec) ((w.more d n).initItems rec) g0 bad logs = .ok h' := by
  unfold applyTransactionLogs at hat ⊢
  by_cases hl : logs.isEmpty = true
  · rw [if_pos hl] at hat ⊢
    cases hat; exact ⟨hal, rfl⟩
  · rw [if_neg hl] at hat ⊢
    cases hp : prepareLogs g0 bad logs with
    | err => rw [hp] at hat; cases hat
    | panic => rw [hp] at hat; cases hat
    | ok y =>
      obtain ⟨go, g, ls⟩ := y
      have hgg := prepareLogs_recovery hp
      simp only at hgg
      rw [hp] at hat
      cases go with
      | false => cases hat; rw [← hgg]; exact ⟨hal, rfl⟩
      | true =>
        simp only at hat ⊢
        cases hI : w.initItems rec g.buffer g.recovery with
        | err => rw [hI] at hat; cases hat
        | panic => rw [hI] at hat; cases hat
        | ok s2 =>
          rw [hI] at hat
          simp only at hat
          cases hlg : applyLogs (w.analyze rec) g.baseBlock.base.secondarySeq ls 0 { g with recovery := s2 } with
          | err => rw [hlg] at hat; cases hat
          | panic => rw [hlg] at hat; cases hat
          | ok z =>
            obtain ⟨k, z⟩ := z
            rw [hlg] at hat
            simp only at hat
            have hz : Alive z.recovery := by rw [← updateHeader_recovery hat]; exact hal
            have hs2 : Alive s2 := by
              by_cases hs2 : Alive s2
              · exact hs2
              · exact absurd hz (applyLogs_inv (w.analyze rec) (fun s => ¬ Alive s) (fun a n b s h => analyze_dead w rec a n b s h)
                  _ _ _ _ _ (by exact hs2) hlg)
            have hg1 : Alive g.recovery := by
              by_cases h1 : Alive g.recovery
              · exact h1
              · exact absurd hs2 (initItems_dead w rec _ hI h1)
            have hlg' : applyLogs ((w.more d n).analyze rec) g.baseBlock.base.secondarySeq ls 0 { g with recovery := s2 } = .ok (k, z) := by
              obtain ⟨r', e1, e2⟩ := applyLogs_le (A' := (w.more d n).analyze rec)
                (fun a k b s s' h => analyze_le w hd hn rec a k b h) g.baseBlock.base.secondarySeq ls 0 { g with recovery := s2 } (k, z)
                s2 (.refl _) hlg
              have e3 := e2.alive hz
              subst e3
              exact e1
            refine ⟨by rw [← hgg]; exact hg1, ?_⟩
            rw [initItems_keeps w hd hn rec _ hI hs2]
            simp only
            rw [hlg']
            simp only
            exact hat

theorem openHive_keeps (w : World) {d n : Nat} (hd : w.depth ≤ d) (hn : w.steps ≤ n) (rec : Bool) (buf : Bytes) (s0 : Recovery)
    (logs : List TransactionLog) (sup : Bool) (h : Hive Recovery)
    (he : openHive (w.analyze rec) (w.initItems rec) (w.scan rec) buf s0 logs = .ok (sup, h)) (ha : Alive h.recovery) :
    openHive ((w.more d n).analyze rec) ((w.more d n).initItems rec) ((w.more d n).scan rec) buf s0 logs = .ok (sup, h) := by
  unfold openHive at he ⊢
  cases hi : initBaseBlock buf {} with
  | err => rw [hi] at he; cases he
  | panic => rw [hi] at he; cases he
  | ok x =>
    obtain ⟨bb, off, supported, bad, info⟩ := x
    rw [hi] at he
    simp only [Res.bind_ok] at he ⊢
    cases supported with
    | false => simp only [Bool.false_eq_true, if_false] at he ⊢; exact he
    | true =>
      simp only [if_true] at he ⊢
      cases hs : w.scan rec buf bb s0 with
      | err => rw [hs] at he; cases he
      | panic => rw [hs] at he; cases he
      | ok s =>
        rw [hs] at he
        simp only [Res.bind_ok] at he
        generalize hg : (Hive.mk buf off bb info s : Hive Recovery) = g0 at he
        have hgr : g0.recovery = s := by rw [← hg]
        cases hat : applyTransactionLogs (w.analyze rec) (w.initItems rec) g0 bad logs with
        | err => rw [hat] at he; cases he
        | panic => rw [hat] at he; cases he
        | ok h' =>
          rw [hat] at he
          simp only [Res.bind_ok, Res.ok.injEq, Prod.mk.injEq] at he
          obtain ⟨rfl, rfl⟩ := he
          obtain ⟨k1, k2⟩ := logs_keep w hd hn rec g0 h' bad logs ha hat
          rw [hgr] at k1
          rw [scan_keeps w hd hn rec buf bb hs k1]
          simp only [Res.bind_ok]
          rw [hg, k2]
          simp only [Res.bind_ok]

/-- Opening on a machine with more room, waited for longer, opens the same hive. -/
theorem build_keeps (w : World) {d n : Nat} (hd : w.depth ≤ d) (hn : w.steps ≤ n) (b : Builder) (p : HiveParser)
    (hp : b.build w = some (.ok p)) : b.build (w.more d n) = some (.ok (p.deep d)) := by
  unfold Builder.build at hp ⊢
  cases ht : TransactionLog.parse b.logs with
  | err => rw [ht] at hp; cases hp
  | panic => rw [ht] at hp; cases hp
  | ok x =>
    obtain ⟨logs, warn⟩ := x
    rw [ht] at hp
    simp only at hp ⊢
    cases ho : openHive (w.analyze b.recover) (w.initItems b.recover) (w.scan b.recover) b.primary (some (.ok ({}, []))) logs with
    | err => rw [ho] at hp; cases hp
    | panic => rw [ho] at hp; cases hp
    | ok y =>
      obtain ⟨sup, h⟩ := y
      rw [ho] at hp
      simp only at hp
      cases hr : h.recovery with
      | none => rw [hr] at hp; cases hp
      | some z =>
        rw [hr] at hp
        cases z with
        | err => cases hp
        | panic => cases hp
        | ok z =>
          obtain ⟨st, items⟩ := z
          rw [openHive_keeps w hd hn b.recover b.primary _ logs sup h ho ⟨_, hr⟩]
          simp only [hr] at hp ⊢
          cases sup with
          | false => simp only [Bool.false_eq_true, if_false] at hp ⊢; cases hp; rfl
          | true =>
            simp only [if_true] at hp ⊢
            rcases initRoot_le ⟨⟨h.hbinOffset, h.buffer⟩, w.hashFn, w.depth⟩ (d := d) hd
              { st with info := (h.info.extend st.info).extend (warn.getD {}) } with h1 | h1
            · rw [h1] at hp; cases hp
            · rw [h1] at hp
              show (match initRoot (Env.deep ⟨⟨h.hbinOffset, h.buffer⟩, w.hashFn, w.depth⟩ d)
                { st with info := (h.info.extend st.info).extend (warn.getD {}) } with
                | .err => _
                | .panic => _
                | .ok (root, ro) => _) = _
              cases hq : initRoot (Env.deep ⟨⟨h.hbinOffset, h.buffer⟩, w.hashFn, w.depth⟩ d)
                  { st with info := (h.info.extend st.info).extend (warn.getD {}) } with
              | err => rw [hq] at hp; cases hp
              | panic => rw [hq] at hp; cases hp
              | ok v => rw [hq] at hp; cases hp; rfl

/-- Listing with more room gives the same keys. -/
theorem iterate_keeps (p : HiveParser) {d n m : Nat} (hd : p.env.depth ≤ d) (hn : n ≤ m) (f : Filter) (post gm anc : Bool) :
    RunLe (p.iterate n f post gm anc) ((p.deep d).iterate m f post gm anc) := by
  unfold HiveParser.iterate
  simp only
  split
  · exact collect_le (fun h c => nextPost_le p.env hd h c) hn _
  · exact collect_le (fun h c => nextPre_le p.env hd h c) hn _

/-- The two parsers are of the same hive and have recovered the same. -/
def SameHive (p q : HiveParser) : Prop :=
  q.env.fi = p.env.fi ∧ q.header = p.header ∧ q.state = p.state ∧ q.root = p.root

/-- Whatever is asked of the two parsers, they answer the same, as far as they do not crash. -/
def SameAnswers (p q : HiveParser) : Prop :=
  (∀ f post gm anc s t a b, p.iterate s f post gm anc = some a → q.iterate t f post gm anc = some b → a ≠ .panic → b ≠ .panic →
    a = b) ∧
  (∀ path hasRoot a b, getKey p.env p.state p.header.base.rootCellOffset path hasRoot = a →
    getKey q.env q.state q.header.base.rootCellOffset path hasRoot = b → a ≠ .panic → b ≠ .panic → a = b) ∧
  ∀ n a b, getParentKey p.env p.state n = a → getParentKey q.env q.state n = b → a ≠ .panic → b ≠ .panic → a = b

theorem RunLe.done {α : Type} {x y : Option (Res α)} (h : RunLe x y) {a : Res α} (hx : x = some a) (ha : a ≠ .panic) : y = some a := by
  rcases h with h | h | h
  · rw [h] at hx; cases hx
  · rw [h] at hx; cases hx; exact absurd rfl ha
  · rw [← h, hx]

theorem Res.Le.done {α : Type} {x y : Res α} (h : x.Le y) (ha : x ≠ .panic) : y = x := by
  rcases h with h | h
  · exact absurd h ha
  · exact h.symm

theorem same_answers {p q : HiveParser} (d : Nat) (hp : p.env.depth ≤ d) (hq : q.env.depth ≤ d) (h : p.deep d = q.deep d) :
    SameAnswers p q := by
  have he : p.env.deep d = q.env.deep d := congrArg HiveParser.env h
  have hst : p.state = q.state := by
    have : (p.deep d).state = (q.deep d).state := by rw [h]
    exact this
  have hh : p.header = q.header := by
    have : (p.deep d).header = (q.deep d).header := by rw [h]
    exact this
  refine ⟨fun f post gm anc s t a b h1 h2 ha hb => ?_, fun path hr a b h1 h2 ha hb => ?_, fun n a b h1 h2 ha hb => ?_⟩
  · have e1 := (iterate_keeps p hp (Nat.le_max_left s t) f post gm anc).done h1 ha
    have e2 := (iterate_keeps q hq (Nat.le_max_right s t) f post gm anc).done h2 hb
    rw [h, e2] at e1
    exact (Option.some.inj e1).symm
  · subst h1; subst h2
    have e1 := (getKey_le p.env hp p.state p.header.base.rootCellOffset path hr).done ha
    have e2 := (getKey_le q.env hq q.state q.header.base.rootCellOffset path hr).done hb
    rw [← e1, ← e2, he, hst, hh]
  · subst h1; subst h2
    have e1 := (getParentKey_le p.env hp p.state n).done ha
    have e2 := (getParentKey_le q.env hq q.state n).done hb
    rw [← e1, ← e2, he, hst]

theorem built_depth {w : World} {b : Builder} {p : HiveParser} (hp : b.build w = some (.ok p)) : p.env.depth = w.depth := by
  have := build_keeps w (Nat.le_refl _) (Nat.le_refl _) b p hp
  have e : w.more w.depth w.steps = w := rfl
  rw [e, hp] at this
  have := Res.ok.inj (Option.some.inj this)
  exact congrArg (fun x : HiveParser => x.env.depth) this

theorem same_built {w w' : World} (ho : w.order = w'.order) (hh : w.hashFn = w'.hashFn) {b : Builder} {p q : HiveParser}
    (hp : b.build w = some (.ok p)) (hq : b.build w' = some (.ok q)) :
    p.deep (max w.depth w'.depth) = q.deep (max w.depth w'.depth) := by
  have h1 := build_keeps w (Nat.le_max_left w.depth w'.depth) (Nat.le_max_left w.steps w'.steps) b p hp
  have h2 := build_keeps w' (Nat.le_max_right w.depth w'.depth) (Nat.le_max_right w.steps w'.steps) b q hq
  have e : w.more (max w.depth w'.depth) (max w.steps w'.steps) = w'.more (max w.depth w'.depth) (max w.steps w'.steps) := by
    unfold World.more
    rw [ho, hh]
  rw [e, h2] at h1
  exact (Res.ok.inj (Option.some.inj h1)).symm

/-- C90, partial: two openings of the same files, with or without recovery and logs, that both succeed open the same hive
with the same items recovered, and the two parsers answer every question the same, as far as they do not crash; whatever
room there is on the stacks and however long it takes.  Missing: the order of hash maps, which is the same here in both
runs although it is not in the code (`hash_order_violated`). -/
theorem open_again_partial (w w' : World) (ho : w.order = w'.order) (hh : w.hashFn = w'.hashFn) (b : Builder) (p q : HiveParser)
    (hp : b.build w = some (.ok p)) (hq : b.build w' = some (.ok q)) : SameHive p q ∧ SameAnswers p q := by
  have h := same_built ho hh hp hq
  have h1 := congrArg (fun x : HiveParser => x.env.fi) h
  have h2 := congrArg (fun x : HiveParser => x.header) h
  have h3 := congrArg (fun x : HiveParser => x.state) h
  have h4 := congrArg (fun x : HiveParser => x.root) h
  exact ⟨⟨h1.symm, h2.symm, h3.symm, h4.symm⟩,
    same_answers _ (by rw [built_depth hp]; exact Nat.le_max_left _ _) (by rw [built_depth hq]; exact Nat.le_max_right _ _) h⟩

theorem plain_order {w : World} {b : Builder} (hrec : b.recover = false) (order : RegItemMap → RegItemMap) :
    b.build { w with order } = b.build w := by
  unfold Builder.build
  rw [hrec]
  simp only [analyze_false, initItems_false, scan_false]

/-- C90: without recovery the order of hash maps does not matter either. -/
theorem open_again_plain (w w' : World) (hh : w.hashFn = w'.hashFn) (b : Builder) (hrec : b.recover = false) (p q : HiveParser)
    (hp : b.build w = some (.ok p)) (hq : b.build w' = some (.ok q)) : SameHive p q ∧ SameAnswers p q :=
  open_again_partial { w with order := w'.order } w' rfl hh b p q ((plain_order hrec w'.order).trans hp) hq

/-- C90: without recovery, a file that one run rejects as broken is not opened by another. -/
theorem reject_again_plain (w w' : World) (hh : w.hashFn = w'.hashFn) (b : Builder) (hrec : b.recover = false)
    (p : HiveParser) (hp : b.build w = some (.ok p)) : b.build w' ≠ some .err := by
  intro hq
  unfold Builder.build at hp hq
  rw [hrec] at hp hq
  simp only [analyze_false, initItems_false, scan_false] at hp hq
  cases ht : TransactionLog.parse b.logs with
  | err => rw [ht] at hp; cases hp
  | panic => rw [ht] at hp; cases hp
  | ok x =>
    obtain ⟨logs, warn⟩ := x
    rw [ht] at hp hq
    simp only at hp hq
    generalize openHive noAnalysis (fun _ s => Res.ok s) (fun _ _ s => Res.ok s) b.primary
      (some (Res.ok (({} : State), ([] : RegItemMap)))) logs = o at hp hq
    cases o with
    | err => cases hp
    | panic => cases hp
    | ok y =>
      obtain ⟨sup, h⟩ := y
      simp only at hp hq
      cases hr : h.recovery with
      | none => rw [hr] at hp; cases hp
      | some z =>
        rw [hr] at hp hq
        cases z with
        | err => cases hp
        | panic => cases hp
        | ok z =>
          obtain ⟨st, items⟩ := z
          simp only at hp hq
          cases sup with
          | false => simp only [Bool.false_eq_true, if_false] at hq; cases hq
          | true =>
            simp only [if_true] at hp hq
            have h1 := initRoot_le ⟨⟨h.hbinOffset, h.buffer⟩, w.hashFn, w.depth⟩ (Nat.le_max_left w.depth w'.depth)
              { st with info := (h.info.extend st.info).extend (warn.getD {}) }
            have h2 := initRoot_le ⟨⟨h.hbinOffset, h.buffer⟩, w'.hashFn, w'.depth⟩ (Nat.le_max_right w.depth w'.depth)
              { st with info := (h.info.extend st.info).extend (warn.getD {}) }
            rw [hh] at h1 hp
            have e : (Env.deep ⟨⟨h.hbinOffset, h.buffer⟩, w'.hashFn, w.depth⟩ (max w.depth w'.depth)) =
              Env.deep ⟨⟨h.hbinOffset, h.buffer⟩, w'.hashFn, w'.depth⟩ (max w.depth w'.depth) := rfl
            rw [e] at h1
            rcases h2 with h2 | h2
            · rw [h2] at hq; cases hq
            · rcases h1 with h1 | h1
              · rw [h1] at hp; cases hp
              · rw [h1] at hp
                rw [h2] at hq
                split at hp
                · cases hp
                · cases hp
                · rename_i hx
                  rw [hx] at hq
                  cases hq

/-- What `reg_dump` writes is the same with more room and more time. -/
theorem dump_keeps (w : World) {d n : Nat} (hd : w.depth ≤ d) (hn : w.steps ≤ n) {s t : Nat} (hs : s ≤ t) (u : Prints) (disk : Disk)
    (o : DumpOptions) (input : List Str) (out : Dumped) (h : dumpFile w s u disk o input = some (.ok out)) :
    dumpFile (w.more d n) t u disk o input = some (.ok out) := by
  unfold dumpFile at h ⊢
  cases hf : dumpFilter o.filter with
  | err => rw [hf] at h; cases h
  | panic => rw [hf] at h; cases h
  | ok f =>
    rw [hf] at h
    simp only at h ⊢
    unfold processFile at h ⊢
    cases hl : input.getLast? with
    | none => rw [hl] at h; cases h
    | some name =>
      rw [hl] at h
      simp only at h ⊢
      unfold regDump buildFromPath at h ⊢
      cases hg : openLogs disk ((getLogFiles disk.files o.skipLogs name input).getD []) with
      | none => rw [hg] at h; cases h
      | some bs =>
        rw [hg] at h
        simp only at h ⊢
        cases hi : disk input with
        | none => rw [hi] at h; cases h
        | some b =>
          rw [hi] at h
          simp only at h ⊢
          cases hb : ({ primary := b, logs := bs, recover := o.recover, fullInfo := o.full } : Builder).build w with
          | none => rw [hb] at h; cases h
          | some r =>
            rw [hb] at h
            cases r with
            | err => cases h
            | panic => cases h
            | ok p =>
              rw [build_keeps w hd hn _ p hb]
              simp only at h ⊢
              cases hit : p.iterate s (f.getD {}) with
              | none => rw [hit] at h; cases h
              | some v =>
                rw [hit] at h
                cases v with
                | err => cases h
                | panic => cases h
                | ok ns =>
                  rw [(iterate_keeps p (by rw [built_depth hb]; exact hd) hs (f.getD {}) false true false).ok hit]
                  exact h

/-- C90, partial: two runs of `reg_dump` with the same options on the same files that both succeed write the same.
Missing: as in `open_again_partial`. -/
theorem dump_again_partial (w w' : World) (ho : w.order = w'.order) (hh : w.hashFn = w'.hashFn) (s t : Nat) (u : Prints) (disk : Disk)
    (o : DumpOptions) (input : List Str) (out out' : Dumped) (h : dumpFile w s u disk o input = some (.ok out))
    (h' : dumpFile w' t u disk o input = some (.ok out')) : out = out' := by
  have h1 := dump_keeps w (Nat.le_max_left w.depth w'.depth) (Nat.le_max_left w.steps w'.steps) (Nat.le_max_left s t) u disk o input out h
  have h2 := dump_keeps w' (Nat.le_max_right w.depth w'.depth) (Nat.le_max_right w.steps w'.steps) (Nat.le_max_right s t) u disk o input
    out' h'
  have e : w.more (max w.depth w'.depth) (max w.steps w'.steps) = w'.more (max w.depth w'.depth) (max w.steps w'.steps) := by
    unfold World.more
    rw [ho, hh]
  rw [e, h2] at h1
  exact (Res.ok.inj (Option.some.inj h1)).symm

/-- C90: without recovery `reg_dump` writes the same, whatever the order of hash maps. -/
theorem dump_again_plain (w w' : World) (hh : w.hashFn = w'.hashFn) (s t : Nat) (u : Prints) (disk : Disk)
    (o : DumpOptions) (hrec : o.recover = false) (input : List Str) (out out' : Dumped)
    (h : dumpFile w s u disk o input = some (.ok out)) (h' : dumpFile w' t u disk o input = some (.ok out')) : out = out' := by
  refine dump_again_partial { w with order := w'.order } w' rfl hh s t u disk o input out out' ?_ h'
  rw [← h]
  unfold dumpFile processFile regDump buildFromPath
  rw [hrec]
  have e : ∀ b bs, ({ primary := b, logs := bs, recover := false, fullInfo := o.full } : Builder).build { w with order := w'.order } =
      ({ primary := b, logs := bs, recover := false, fullInfo := o.full } : Builder).build w := fun b bs => plain_order rfl _
  simp only [e]

/-! ### The order of hash maps -/

/-- `RT\\a` with the sub-keys `b` and `c`. -/
def twinBin : Bytes :=
  hbinBytes 0 397 0 0 0 0 ++ (histRoot 1).encode ++ leafCell .lf (-16) [(130, [0, 0, 0, 0])] ++ (histA 2 1).encode ++
    leafCell .lf (-24) [(235, [0, 0, 0, 0]), (316, [0, 0, 0, 0])] ++ histB.encode ++ (exampleCell 0x20 0 0 [0x63]).encode

/-- Its log takes both sub-keys away. -/
def twinBuilder : Builder := { primary := histPre ++ twinBin, logs := [histLog [histEntry 4 154 0]], recover := true }

/-- `roomyWorld` with hash maps walked backwards. -/
def backWorld : World := { roomyWorld with order := List.reverse }

/-- The paths listed. -/
def pathsListed (w : World) (b : Builder) : Option (List Str) :=
  match b.build w with
  | some (.ok p) =>
    match p.iterate 100 with
    | some (.ok ns) => some (ns.map (·.key.path))
    | _ => none
  | _ => none

/-- The full claim of C90. -/
def SameEveryTime : Prop :=
  ∀ (w w' : World) (b : Builder) (x y : List Str), (∀ m, (w.order m).Perm m) → (∀ m, (w'.order m).Perm m) →
    w.hashFn = w'.hashFn → pathsListed w b = some x → pathsListed w' b = some y → x = y

/-- C90: violated.  Two keys that one log entry takes away are listed in the order in which a hash map happens to be walked;
the maps of the code are seeded at random, so it changes from run to run. -/
theorem hash_order_violated : ¬ SameEveryTime := by
  intro h
  have h1 : pathsListed roomyWorld twinBuilder = some ["\\RT".toList, "\\RT\\a".toList, "\\RT\\a\\c".toList, "\\RT\\a\\b".toList] := by
    decide +kernel
  have h2 : pathsListed backWorld twinBuilder = some ["\\RT".toList, "\\RT\\a".toList, "\\RT\\a\\b".toList, "\\RT\\a\\c".toList] := by
    decide +kernel
  have := h roomyWorld backWorld twinBuilder _ _ (fun m => List.Perm.refl m) (fun m => List.reverse_perm m) rfl h1 h2
  exact absurd this (by decide)

/-- The hive and its log as files. -/
def twinDisk : Disk := fun path =>
  if path = [['A']] then some twinBuilder.primary
  else if path = ["A.LOG1".toList] then some (histLog [histEntry 4 154 0]) else none

/-- C90: violated by `reg_dump` as well: two runs with `--recover` on the same two files write different text. -/
theorem dump_order_violated :
    (theText (dumpFile roomyWorld 100 someTexts twinDisk { type := .Tsv, recover := true } [['A']])).isSome = true ∧
    (theText (dumpFile backWorld 100 someTexts twinDisk { type := .Tsv, recover := true } [['A']])).isSome = true ∧
    theText (dumpFile roomyWorld 100 someTexts twinDisk { type := .Tsv, recover := true } [['A']]) ≠
      theText (dumpFile backWorld 100 someTexts twinDisk { type := .Tsv, recover := true } [['A']]) := by
  decide +kernel

/-! ### Examples -/

/-- A machine with less room, waited for longer. -/
def tightWorld : World := ⟨fun _ => [], 300, id, 6000⟩

/-- The hypotheses of `open_again_partial`: a machine with less room, waited for longer. -/
example : ∃ p q, histBuilder.build roomyWorld = some (.ok p) ∧ histBuilder.build tightWorld = some (.ok q) ∧
    SameHive p q ∧ SameAnswers p q := by
  have h1 : (match histBuilder.build roomyWorld with
    | some (.ok _) => true
    | _ => false) = true := by decide +kernel
  have h2 : (match histBuilder.build tightWorld with
    | some (.ok _) => true
    | _ => false) = true := by decide +kernel
  split at h1
  · rename_i p hp
    split at h2
    · rename_i q hq
      exact ⟨p, q, hp, hq, open_again_partial roomyWorld tightWorld rfl rfl histBuilder p q hp hq⟩
    · cases h2
  · cases h1

/-- The hypotheses of `open_again_plain` and `reject_again_plain`: the tangled file, hash maps walked backwards. -/
example : ∃ p q, tangledBuilder.build roomyWorld = some (.ok p) ∧ tangledBuilder.build backWorld = some (.ok q) ∧
    SameHive p q ∧ SameAnswers p q ∧ tangledBuilder.build tightWorld ≠ some .err := by
  have h := tangled_opens
  split at h
  · rename_i p hp
    have hq : tangledBuilder.build backWorld = some (.ok p) := (plain_order (w := roomyWorld) (b := tangledBuilder) rfl List.reverse).trans hp
    have := open_again_plain roomyWorld backWorld rfl tangledBuilder rfl p p hp hq
    exact ⟨p, p, hp, hq, this.1, this.2, reject_again_plain roomyWorld tightWorld rfl tangledBuilder rfl p hp⟩
  · cases h

theorem theText_done {r : Option (Res Dumped)} (h : (theText r).isSome = true) : ∃ d, r = some (.ok d) := by
  rcases r with _ | d | _ | _
  · cases h
  · exact ⟨d, rfl⟩
  · cases h
  · cases h

/-- The hypotheses of `dump_again_partial` and `dump_again_plain`: a run with more room, hash maps walked backwards. -/
example : ∃ d d', dumpFile sampleWorld 20 someTexts controlDisk { type := .Tsv } [['A']] = some (.ok d) ∧
    dumpFile backWorld 30 someTexts controlDisk { type := .Tsv } [['A']] = some (.ok d') ∧ d = d' := by
  have h : (theText (dumpFile backWorld 30 someTexts controlDisk { type := .Tsv } [['A']])).isSome = true := by decide +kernel
  obtain ⟨d, h1⟩ := theText_done tables_differ_violated.1
  obtain ⟨d', h2⟩ := theText_done h
  exact ⟨d, d', h1, h2, dump_again_plain sampleWorld backWorld rfl 20 30 someTexts controlDisk { type := .Tsv } rfl [['A']] d d' h1 h2⟩

end Notatin
