import Verif.Lemmas.Overwritten
import Verif.Props.History
/-
C76: what the transaction logs have overwritten is told by recovery, from the bytes of the hive and its logs.
-/
namespace Notatin
open Spec

theorem PastRecords.withInfo {w : World} {past : List FullState} {st : State} (h : PastRecords w past st) (info : Logs) :
    PastRecords w past { st with info } := ⟨h.keys, h.values, h.goneSound, h.goneAll, h.goneOrder⟩

/-- The numbers of the states grow. -/
theorem replays_newest : ∀ (entries : List LogEntry) (size : Nat) (a : FullState) (later : List FullState),
    Replays size entries a.plain (later.map FullState.plain) → Consecutive entries →
    (∀ e, entries.head? = some e → a.seq < e.seq) → Newest (a :: later).reverse := by
  intro entries
  unfold Newest
  simp only [List.pairwise_reverse]
  induction entries with
  | nil =>
    intro size a later h _ _
    cases later with
    | nil => exact List.pairwise_singleton _ _
    | cons => exact absurd h (by simp [Replays])
  | cons e es ih =>
    intro size a later h hc hlt
    cases later with
    | nil => exact absurd h (by simp [Replays])
    | cons b later =>
      obtain ⟨h1, _, h4⟩ := h
      have h1 : b.seq = e.seq := h1
      have hlt := hlt e rfl
      have hb := ih _ b later h4 (by
        cases es with
        | nil => trivial
        | cons e' es => exact hc.2) (by
        intro e' he'
        cases es with
        | nil => cases he'
        | cons e2 es =>
          cases Option.some.inj he'
          have := hc.1
          omega)
      refine List.pairwise_cons.2 ⟨?_, hb⟩
      intro s hs
      rcases List.mem_cons.1 hs with rfl | hs
      · omega
      · have := (List.pairwise_cons.1 hb).1 s hs
        omega

/-- What the listing of an opened hive says about what the logs have overwritten: every key but the root tells
all of it, the root nothing. -/
def Spec.ListsPast (p : HiveParser) (a : FullState) (later : List FullState) (last : FullState) : Prop :=
  ∀ anc, ∃ N ns, p.iterate N {} false true anc = some (.ok ns) ∧ liveKeys ns = last.plain.keys ∧
    (∀ n ∈ ns, n.key.cellState = .Allocated → ∃ u ∈ last.tree.nodes, KeyShown u n) ∧
    ∀ n ∈ ns, if n.key.path = '\\' :: last.tree.name then TellsPresent last n
      else TellsPast last (events (a :: later).reverse) n

/-- C76 (partial: the hive as given holds no deleted items, keys that are
lost do not come back, the hash tells different contents apart; the root key is excluded, see
`root_tells_past_violated`, and of a value that is removed in the end only its last contents are told, see
`removed_values_versions_violated`).  Whatever history a dirty hive has: it is opened, and every listed key but
the root tells all that the logs have overwritten of it and of its values. -/
theorem overwritten_told_partial (w : World) (b : Builder) (a : FullState) (later : List FullState)
    (hd : 1 < w.depth) (hord : ∀ m, (w.order m).Perm m) (hist : FullHistory w b a later) :
    ∃ N, ∀ steps, N ≤ steps → ∃ p, b.build { w with steps } = some (.ok p) ∧
      ListsPast p a later ((a :: later).getLast (by simp)) := by
  obtain ⟨⟨hrec, ha, ⟨bb, logs, ⟨⟨warn, hlogs⟩, ⟨rest, hp⟩, hsup, hck, hdirty, hsec, hsound, hfresh⟩,
    ⟨N0, st0, hplain, hscan⟩, hrep⟩, hstates, hno, hap⟩, hfirst, hflags, hhash⟩ := hist
  have ha : a.buf = b.primary := ha
  have hall : ∀ s ∈ a :: later, Sound w s := fun s hs =>
    ⟨(hstates s.plain (by rw [← List.map_cons]; exact List.mem_map.2 ⟨s, hs, rfl⟩)).1, hflags s hs⟩
  have hnames : ∀ s ∈ later, s.tree.name = a.tree.name := fun s hs =>
    (hstates s.plain (List.mem_cons_of_mem _ (List.mem_map.2 ⟨s, hs, rfl⟩))).2
  obtain ⟨_, hcons, _, hhd⟩ := takenLogs_sound bb.base.secondarySeq hsec logs 0 hsound
  have hnew : Newest (a :: later).reverse := replays_newest _ _ a later hrep hcons (fun e he => by
    have := (hhd e he).1
    omega)
  obtain ⟨sup, bad, info', hi, hs, hbad⟩ := initBaseBlock_ok b.primary {} bb rest hp
  have hb0 : bad = false := by
    cases bad with
    | false => rfl
    | true => exact absurd hck (hbad.1 rfl).2
  have hs0 : sup = true := by rw [hs]; simp [hsup]
  subst hb0 hs0
  obtain ⟨hrest, hl4, _⟩ := baseBlock_frame _ _ _ hp
  have hao := hall a List.mem_cons_self
  obtain ⟨N1, items, hstart, hdesc⟩ := records_start w (by omega) a.plain hao.ordinary bb st0 hplain
  obtain ⟨hkept, hpast0⟩ := kept_start w bb (by omega) a hao hfirst st0 hplain N1 items hstart
  obtain ⟨N2, k, st, items', hrun, hrecs, hpast, happ⟩ := kept_run w hd hord bb.base.hiveBinsDataSize (a :: later)
    hall hhash ((takenLogs bb.base.secondarySeq 0 logs).flatMap (·.entries)) bb.base.hiveBinsDataSize 0 a later [] []
    st0 items (Nat.le_refl _) rfl hrep hnames
    (lostRecords_start w st0 hplain) hdesc hkept hpast0 hnew nofun hno
  rw [List.nil_append] at hrecs
  simp only [List.replicate_zero, List.append_nil] at hrun happ
  refine ⟨max N0 (max N1 N2), fun steps hsteps => ?_⟩
  let w' : World := { w with steps }
  let h : Hive Recovery := ⟨b.primary, 4096, bb, info', some (.ok (st0, []))⟩
  have hwf : h.Wf := ⟨by show BaseBlock.fromBytes b.primary = _; rw [hp, hrest], rfl, hl4⟩
  obtain ⟨used, hused, h1, hne, h2, h3, h4⟩ := header_seq_partial (w'.analyze true) (w'.initItems true) h
    (some (.ok (st0, items))) logs hwf (by
      show World.initItems w' true b.primary (some (.ok (st0, []))) = _
      unfold World.initItems
      simp only [if_true]
      rw [show getRegItems (w'.env b.primary) w'.steps 0 st0 = some (.ok (items, st0)) by
        rw [← ha]; exact hstart steps (by omega)]) hdirty hsec hsound hfresh
  have hlast : (applyAll 4096 h.baseBlock.base.hiveBinsDataSize (used.flatMap (·.entries)) h.buffer) =
      .ok (((a :: later).getLast (by simp)).buf ++ List.replicate k 0) := by
    rw [hused]
    show applyAll 4096 bb.base.hiveBinsDataSize _ b.primary = _
    rw [← ha]
    exact happ
  rw [hlast] at h4
  obtain ⟨h', last, ha', _, _, _, _, hsame, hw', hl', hr'⟩ := h4
  have hopen : openHive (w'.analyze b.recover) (w'.initItems b.recover) (w'.scan b.recover) b.primary
      (some (.ok ({}, []))) logs = .ok (true, h') := by
    unfold openHive
    rw [hi, hrec]
    simp only [Res.bind_ok, if_true]
    rw [show w'.scan true b.primary bb (some (.ok ({}, []))) = .ok (some (.ok (st0, []))) by
      unfold World.scan
      simp only [if_true]
      rw [show initRecoverDeleted (w'.env b.primary) w'.steps bb.base.hiveBinsDataSize {} = some (.ok st0) from
        hscan steps (by omega)]]
    rw [Res.bind_ok]
    rw [show applyTransactionLogs (w'.analyze true) (w'.initItems true)
      { buffer := b.primary, hbinOffset := 4096, baseBlock := bb, info := info', recovery := some (.ok (st0, [])) }
      false logs = .ok h' from ha']
    rfl
  have hr'' : h'.recovery = some (.ok (st, items')) := by
    rw [hr', hused]
    show recordedOver (w'.analyze true) 4096 bb.base.hiveBinsDataSize _ b.primary _ = _
    rw [← ha]
    exact hrun steps (by omega)
  obtain ⟨info2, hbd⟩ := build_opened w' b logs warn h' st items' hlogs hopen hw'.2.1 hr''
  have hlo := hall _ (List.getLast_mem (l := a :: later) (by simp))
  have hsf : SameFrom 4096 ((a :: later).getLast (by simp)).buf h'.buffer := by
    have hlen := hw'.2.2
    obtain ⟨h0, h1, more, h2⟩ := sameFrom_stored hlo.ordinary.stored (List.replicate k 0)
    refine ⟨h0, by omega, more, ?_⟩
    rw [show ((a :: later).getLast (by simp)).buf.drop 4096 ++ more = _ from h2.symm]
    apply List.ext_getElem?
    intro i
    rw [List.getElem?_drop, List.getElem?_drop]
    exact hsame _ (by omega) (by omega)
  have hst : StoredHive w h'.buffer ((a :: later).getLast (by simp)).tree ((a :: later).getLast (by simp)).plain.vals :=
    storedHive_same hsf hlo.ordinary.stored
  have hshow := fun anc => past_shown w hd a later { st with info := info2 } (hrecs.withInfo info2)
    (hpast.withInfo info2) hnew hap hno _ rfl hlo h'.buffer hst
    (every_imp (fun u hu => flaggedValuesAt_same hsf hu) _ hlo.flags) anc
  obtain ⟨root, hroot, _⟩ := hshow false
  refine ⟨_, hbd root hroot, fun anc => ?_⟩
  obtain ⟨root', hroot', N, ns, g1, g2⟩ := hshow anc
  have : root' = root := by
    have := hroot'.symm.trans hroot
    cases this; rfl
  subst this
  exact ⟨N, ns, g1, g2⟩

/-- The full claim of C76, for the root too. -/
def RootTellsPast : Prop :=
  ∀ (w : World) (b : Builder) (a : FullState) (later : List FullState), 1 < w.depth → (∀ m, (w.order m).Perm m) →
    FullHistory w b a later → ∃ N, ∀ steps, N ≤ steps → ∃ p, b.build { w with steps } = some (.ok p) ∧
      ∀ anc, ∃ M ns, p.iterate M {} false true anc = some (.ok ns) ∧
        ∀ n ∈ ns, TellsPast ((a :: later).getLast (by simp)) (events (a :: later).reverse) n

/-- The full claim of C76, for the former contents of removed values. -/
def RemovedValuesTellVersions : Prop :=
  ∀ (w : World) (b : Builder) (a : FullState) (later : List FullState), 1 < w.depth → (∀ m, (w.order m).Perm m) →
    FullHistory w b a later → ∃ N, ∀ steps, N ≤ steps → ∃ p, b.build { w with steps } = some (.ok p) ∧
      ∀ anc, ∃ M ns, p.iterate M {} false true anc = some (.ok ns) ∧
        ∀ n ∈ ns, ∀ v ∈ n.key.values, v.val.cellState = .DeletedTransactionLog →
          Pairwise2 (TellsOldValue n.key.path v.val.name .ModifiedTransactionLog)
            ((events (a :: later).reverse).filter (Event.changes (n.key.path, some v.val.name))) v.versions

/-! ### Examples -/

/-- The root key `RT`, last written at `x`. -/
def pastRoot (x : Nat) : NkCell := { exampleCell 0x24 1 114 [0x52, 0x54] with lastWritten := x }

/-- Its sub-key `a` with `n` values. -/
def pastA (n : Nat) : NkCell := { exampleCell 0x20 0 0 [0x61] with nValues := n, valuesList := 211 }

/-- The value `a`, the number `d`. -/
def pastV (d : Nat) : VkCell := ⟨-28, 0x80000004, d, 4, 1, 0, [0x61], [0, 0, 0]⟩

def pastBin (x n d : Nat) : Bytes :=
  hbinBytes 0 247 0 0 0 0 ++ (pastRoot x).encode ++ leafCell .lf (-16) [(130, [0, 0, 0, 0])] ++ (pastA n).encode ++
    (encLE 4 0xFFFFFFF8 ++ [219].flatMap (encLE 4)) ++ (pastV d).encode

/-- A world in which the hash tells everything apart. -/
def pastWorld : World := ⟨id, 20, id, 1000⟩

/-- The hive with the root written at `x`, and with `n` values, of which the first is the number `d`. -/
def pastState (seq x n d : Nat) : FullState :=
  ⟨seq, histPre ++ pastBin x n d, .mk 4128 (pastRoot x) ['R', 'T'] [.mk 4226 (pastA n) ['a'] []],
    fun off => if off = 4226 ∧ n = 1 then [⟨⟨['a'], 4, encLE 4 d⟩, 1⟩] else []⟩

/-- The states of the example. -/
def PastCase (x n d : Nat) : Prop := (x, n, d) ∈ [(1, 1, 5), (1, 1, 6), (2, 1, 6), (2, 0, 6), (1, 0, 5)]

theorem past_case {p : Nat → Nat → Nat → Prop} (h1 : p 1 1 5) (h2 : p 1 1 6) (h3 : p 2 1 6) (h4 : p 2 0 6) (h5 : p 1 0 5)
    {x n d : Nat} (h : PastCase x n d) : p x n d := by
  unfold PastCase at h
  simp only [List.mem_cons, Prod.mk.injEq, List.not_mem_nil, or_false] at h
  rcases h with ⟨rfl, rfl, rfl⟩ | ⟨rfl, rfl, rfl⟩ | ⟨rfl, rfl, rfl⟩ | ⟨rfl, rfl, rfl⟩ | ⟨rfl, rfl, rfl⟩
  · exact h1
  · exact h2
  · exact h3
  · exact h4
  · exact h5

theorem pastValues (seq x n d : Nat) (h : PastCase x n d) :
    (pastState seq x n d).tree.Every fun u =>
      FlaggedValuesAt (pastState seq x n d).buf 4096 u.cell ((pastState seq x n d).vals u.off) := by
  have h1 : ∀ i, (1 : Nat).testBit i = true → valueFlagBit i = true := by
    intro i hi
    cases i with
    | zero => rfl
    | succ i => simp [Nat.testBit_succ] at hi
  have hl : (pastBin x n d).length = 247 := by
    refine past_case (p := fun x n d => (pastBin x n d).length = 247) ?_ ?_ ?_ ?_ ?_ h <;> decide +kernel
  have hlist : n = 1 → At (histPre ++ pastBin x n d) (4096 + 211) (encLE 4 0xFFFFFFF8 ++ [219].flatMap (encLE 4)) :=
    fun _ => hist_at _ 211 _ (by
      refine past_case (p := fun x n d => pastBin x n d = (pastBin x n d).take 211 ++
        ((encLE 4 0xFFFFFFF8 ++ [219].flatMap (encLE 4)) ++ (pastBin x n d).drop _)) ?_ ?_ ?_ ?_ ?_ h <;> decide +kernel)
      (by rw [hl]; decide)
  have hcell : At (histPre ++ pastBin x n d) (4096 + 219) (pastV d).encode :=
    hist_at _ 219 _ (by
      refine past_case (p := fun x n d => pastBin x n d = (pastBin x n d).take 219 ++
        ((pastV d).encode ++ (pastBin x n d).drop (219 + (pastV d).encode.length))) ?_ ?_ ?_ ?_ ?_ h <;> decide +kernel)
      (by rw [hl]; decide)
  have hflag : At (histPre ++ pastBin x n d) (4096 + 239) (encLE 2 1) :=
    hist_at _ 239 _ (by
      refine past_case (p := fun x n d => pastBin x n d = (pastBin x n d).take 239 ++
        (encLE 2 1 ++ (pastBin x n d).drop (239 + (encLE 2 1).length))) ?_ ?_ ?_ ?_ ?_ h <;> decide +kernel)
      (by rw [hl]; decide)
  have hd : (pastV d).Fits ∧ Stored (histPre ++ pastBin x n d) 4096 (219 + 4096) 0x80000004 d (encLE 4 d)
      [219 + 4096 + 12] := by
    refine past_case (p := fun x n d => (pastV d).Fits ∧ Stored (histPre ++ pastBin x n d) 4096 (219 + 4096)
      0x80000004 d (encLE 4 d) [219 + 4096 + 12]) ?_ ?_ ?_ ?_ ?_ h
    · exact ⟨by unfold VkCell.Fits isI32; decide, .resident [5, 0, 0, 0] [] rfl⟩
    · exact ⟨by unfold VkCell.Fits isI32; decide, .resident [6, 0, 0, 0] [] rfl⟩
    · exact ⟨by unfold VkCell.Fits isI32; decide, .resident [6, 0, 0, 0] [] rfl⟩
    · exact ⟨by unfold VkCell.Fits isI32; decide, .resident [6, 0, 0, 0] [] rfl⟩
    · exact ⟨by unfold VkCell.Fits isI32; decide, .resident [5, 0, 0, 0] [] rfl⟩
  simp only [pastState, Tree.Every, EveryAll, Tree.cell, Tree.off]
  rw [if_neg (by omega)]
  refine ⟨⟨rfl, by decide, .inl rfl⟩, ⟨?_, trivial⟩, trivial⟩
  have hn : n = 0 ∨ n = 1 := by
    refine past_case (p := fun x n d => n = 0 ∨ n = 1) ?_ ?_ ?_ ?_ ?_ h <;> decide
  rcases hn with rfl | rfl
  · rw [if_neg (by omega)]
    exact ⟨rfl, by decide, .inl rfl⟩
  · rw [if_pos ⟨trivial, rfl⟩]
    exact ⟨rfl, by simp, .inr ⟨[219], 211, 0xFFFFFFF8, rfl, by decide, by decide, by decide, hlist rfl,
      ⟨⟨pastV d, [219 + 4096 + 12], hd.1, hcell, .inl ⟨(by decide : (1 : Nat).testBit 0 = true), h1, (by decide : ['a'] = latin1 [0x61])⟩, rfl, hd.2,
        .inr ⟨4, by show (DataType.ofRaw 4).len = some 4; decide, by simp⟩, .inl (by simp)⟩, (by decide : (1 : Nat) < 65536), hflag⟩, trivial⟩⟩

theorem past_ordinary (seq x n d : Nat) (h : PastCase x n d) : Ordinary pastWorld (pastState seq x n d).plain := by
  have hl : (pastBin x n d).length = 247 := by
    refine past_case (p := fun x n d => (pastBin x n d).length = 247) ?_ ?_ ?_ ?_ ?_ h <;> decide +kernel
  refine ⟨⟨⟨⟨0, 247, 0, 0, 0, 0, by decide, by decide, by decide, by decide, by decide, by decide,
    hist_at _ 0 _ ?_ (by rw [hl]; decide)⟩, rfl, ?_, (by decide : ([4128, 4226] : List Nat).Nodup)⟩, ?_⟩,
    (by decide : (["\\RT".toList, "\\RT\\a".toList] : List Str).Nodup), ?_, ?_,
    (by decide : (0x24 : Nat).testBit 2 = true), ?_,
    (by decide : ∀ e ∈ [(4128, "\\RT".toList), (4226, "\\RT\\a".toList)], e.2.length + 1 < 20)⟩
  · refine past_case (p := fun x n d => pastBin x n d = (pastBin x n d).take 0 ++
      (hbinBytes 0 247 0 0 0 0 ++ (pastBin x n d).drop (0 + (hbinBytes 0 247 0 0 0 0).length))) ?_ ?_ ?_ ?_ ?_ h <;>
      decide +kernel
  · show TreeAt (histPre ++ pastBin x n d) 4096 _ (.mk 4128 (pastRoot x) ['R', 'T'] [.mk 4226 (pastA n) ['a'] []])
    rw [TreeAt.eq_def]
    simp only
    rw [ForestAt, ForestAt, TreeAt, ForestAt]
    refine ⟨⟨?_, hist_at _ 32 _ ?_ (by rw [hl]; decide), .inl ⟨(by decide : (0x24 : Nat).testBit 5 = true), rfl⟩⟩,
      .inr ⟨(by decide : 0 < 1), (by decide : 1 ≤ 1048576), .inl ⟨.lf, -16, [(130, [0, 0, 0, 0])], by decide, by decide, by decide,
        hist_at _ 114 _ ?_ (by rw [hl]; decide), rfl⟩⟩,
      by simp only [Tree.off]; decide,
      ⟨⟨?_, hist_at _ 130 _ ?_ (by rw [hl]; decide),
        .inl ⟨(by decide : (0x20 : Nat).testBit 5 = true), rfl⟩⟩, .inl ⟨rfl, rfl⟩, trivial⟩, trivial⟩
    · refine past_case (p := fun x n d => (pastRoot x).Fits) ?_ ?_ ?_ ?_ ?_ h <;> (unfold NkCell.Fits isI32; decide)
    · refine past_case (p := fun x n d => pastBin x n d = (pastBin x n d).take 32 ++
        ((pastRoot x).encode ++ (pastBin x n d).drop (32 + (pastRoot x).encode.length))) ?_ ?_ ?_ ?_ ?_ h <;> decide +kernel
    · refine past_case (p := fun x n d => pastBin x n d = (pastBin x n d).take 114 ++
        (leafCell .lf (-16) [(130, [0, 0, 0, 0])] ++ (pastBin x n d).drop (114 + (leafCell .lf (-16) [(130, [0, 0, 0, 0])]).length)))
        ?_ ?_ ?_ ?_ ?_ h <;> decide +kernel
    · refine past_case (p := fun x n d => (pastA n).Fits) ?_ ?_ ?_ ?_ ?_ h <;> (unfold NkCell.Fits isI32; decide)
    · refine past_case (p := fun x n d => pastBin x n d = (pastBin x n d).take 130 ++
        ((pastA n).encode ++ (pastBin x n d).drop (130 + (pastA n).encode.length))) ?_ ?_ ?_ ?_ ?_ h <;> decide +kernel
  · exact every_imp (fun u hu => flagged_values hu) _ (pastValues seq x n d h)
  · simp only [FullState.plain, pastState, Tree.Every, EveryAll, Tree.name]; decide
  · simp only [FullState.plain, pastState, Tree.Every, EveryAll, Tree.off]
    rw [if_neg (by omega)]
    refine ⟨by simp, ⟨?_, trivial⟩, trivial⟩
    by_cases hn : n = 1
    · rw [if_pos ⟨trivial, hn⟩]; exact List.pairwise_singleton _ _
    · rw [if_neg (by simp [hn])]; exact List.Pairwise.nil
  · simp only [FullState.plain, pastState, EveryAll, Tree.Every, Tree.kids, Tree.cell]
    exact ⟨⟨(by decide : (0x20 : Nat).testBit 2 = false), trivial⟩, trivial⟩

/-- The entries of the log: the value is changed, the time of the root is changed, the value is removed. -/
def pastEntries : List RawEntry := [histEntry 4 231 6, histEntry 5 40 2, histEntry 6 170 0]

def pastBuilder : Builder := { primary := histPre ++ pastBin 1 1 5, logs := [histLog pastEntries], recover := true }

def pastFirst : FullState := pastState 0 1 1 5

def pastLater : List FullState := [pastState 4 1 1 6, pastState 5 2 1 6, pastState 6 2 0 6]

theorem past_keys (seq x n d : Nat) : (pastState seq x n d).plain.keys = [(4128, "\\RT".toList), (4226, "\\RT\\a".toList)] :=
  rfl

theorem past_not_lost (seq x n d seq' x' n' d' : Nat) {key : Nat × Str} :
    ¬ Lost (pastState seq x n d).plain (pastState seq' x' n' d').plain key := by
  rintro ⟨h1, h2⟩
  unfold FileState.paths at h2
  rw [past_keys] at h1 h2
  exact h2 (List.mem_map.2 ⟨key, h1, rfl⟩)

theorem past_history : History pastWorld pastBuilder pastFirst.plain (pastLater.map FullState.plain) := by
  have hpages : (expectedEntries 512 pastEntries).map
      (fun e => (e.seq, e.hiveBinsDataSize, e.dirtyPages, e.hasValidHashes)) =
      [(4, 4096, [⟨231, [6]⟩], true), (5, 4096, [⟨40, [2]⟩], true), (6, 4096, [⟨170, [0]⟩], true)] := by decide +kernel
  have hf : ∀ e ∈ pastEntries, e.Fits := by unfold RawEntry.Fits; decide +kernel
  have hne : (histLog pastEntries).isEmpty = false := by decide +kernel
  have hd := dirty_history pastWorld (pastBin 1 1 5) pastFirst.plain rfl (past_ordinary _ _ _ _ (by unfold PastCase; decide))
    (by decide +kernel) (fun _ => rfl) _ hf hne
  generalize expectedEntries 512 pastEntries = es at hpages hd
  match es, hpages, congrArg List.length hpages with
  | [e1, e2, e3], hpages, _ =>
    simp only [List.map_cons, List.map_nil, List.cons.injEq, Prod.mk.injEq, and_true] at hpages
    obtain ⟨⟨a1, a2, a3, a4⟩, ⟨c1, c2, c3, c4⟩, d1, d2, d3, d4⟩ := hpages
    refine hd (by simp [a1]) ?_ ⟨by omega, by omega, trivial⟩ _
      ⟨a1.symm, ?_, c1.symm, ?_, d1.symm, ?_, trivial⟩ ?_ ?_ ?_
    · intro e he
      simp only [List.mem_cons, List.not_mem_nil, or_false] at he
      rcases he with rfl | rfl | rfl
      · exact ⟨a4, by omega, by omega⟩
      · exact ⟨c4, by omega, by omega⟩
      · exact ⟨d4, by omega, by omega⟩
    · exact written_same (by omega) (written_byte e1 (pastBin 1 1 5) (pastBin 1 1 6) 231 6 a3 (by decide +kernel) (by decide +kernel))
    · exact written_same (by omega) (written_byte e2 (pastBin 1 1 6) (pastBin 2 1 6) 40 2 c3 (by decide +kernel) (by decide +kernel))
    · exact written_same (by omega) (written_byte e3 (pastBin 2 1 6) (pastBin 2 0 6) 170 0 d3 (by decide +kernel) (by decide +kernel))
    · intro s hs
      simp only [pastLater, List.map_cons, List.map_nil, List.mem_cons, List.not_mem_nil, or_false] at hs
      rcases hs with rfl | rfl | rfl <;> exact ⟨past_ordinary _ _ _ _ (by unfold PastCase; decide), rfl⟩
    · exact ⟨fun key hk => absurd hk (past_not_lost _ _ _ _ _ _ _ _), fun key hk => absurd hk (past_not_lost _ _ _ _ _ _ _ _),
        fun key hk => absurd hk (past_not_lost _ _ _ _ _ _ _ _), trivial⟩
    · refine hist_apart _ fun s hs e he => ?_
      have : s.keys = [(4128, "\\RT".toList), (4226, "\\RT\\a".toList)] := by
        simp only [pastLater, List.map_cons, List.map_nil, List.mem_cons, List.not_mem_nil, or_false] at hs
        rcases hs with rfl | rfl | rfl | rfl <;> rfl
      rw [this] at he
      exact (by decide +kernel : ∀ e ∈ [(4128, "\\RT".toList), (4226, "\\RT\\a".toList)], e ∈ histFull.keys) e he

/-- The history of the example. -/
theorem past_full : FullHistory pastWorld pastBuilder pastFirst pastLater := by
  refine ⟨past_history, rfl, ?_, fun _ _ _ _ => ⟨fun _ _ _ _ h => h, fun _ _ _ _ _ _ _ _ h => h⟩⟩
  intro s hs
  simp only [pastFirst, pastLater, List.mem_cons, List.not_mem_nil, or_false] at hs
  rcases hs with rfl | rfl | rfl | rfl <;> exact pastValues _ _ _ _ (by unfold PastCase; decide)

/-- The hypotheses of `overwritten_told_partial`; the key `a` is told with the value removed by the last entry, its
data as the entry before the last left it. -/
example : Event.changes ("\\RT\\a".toList, some ['a']) ([pastFirst], pastState 4 1 1 6) = true ∧
    ∃ N, ∀ steps, N ≤ steps → ∃ p, pastBuilder.build { pastWorld with steps } = some (.ok p) ∧
      ListsPast p pastFirst pastLater (pastState 6 2 0 6) :=
  ⟨by decide +kernel, overwritten_told_partial pastWorld _ _ _ (by decide) (fun m => List.Perm.refl m) past_full⟩

/-- The two full claims and what is listed. -/
theorem past_compare {q : HiveParser → List Node → Prop}
    (h : ∃ N, ∀ steps, N ≤ steps → ∃ p, pastBuilder.build { pastWorld with steps } = some (.ok p) ∧
      ∀ anc, ∃ M ns, p.iterate M {} false true anc = some (.ok ns) ∧ q p ns) :
    ∃ p ns, q p ns ∧ liveKeys ns = (pastState 6 2 0 6).plain.keys ∧
      ∀ n ∈ ns, if n.key.path = "\\RT".toList then TellsPresent (pastState 6 2 0 6) n
        else TellsPast (pastState 6 2 0 6) (events (pastFirst :: pastLater).reverse) n := by
  obtain ⟨N1, h1⟩ := h
  obtain ⟨N2, h2⟩ := overwritten_told_partial pastWorld _ _ _ (by decide) (fun m => List.Perm.refl m) past_full
  obtain ⟨p, e1, h1⟩ := h1 (max N1 N2) (by omega)
  obtain ⟨p', e2, h2⟩ := h2 (max N1 N2) (by omega)
  have : p = p' := by
    have := e1.symm.trans e2
    cases this; rfl
  subst this
  obtain ⟨M1, ns, i1, h1⟩ := h1 false
  obtain ⟨M2, ns', i2, h2, _, h3⟩ := h2 false
  have hns : ns = ns' := by
    have := collect_unique (fuelMono_pre p.env) _ _ _ _ _ i1 i2
    cases this; rfl
  subst hns
  exact ⟨p, ns, h1, h2, h3⟩

theorem pairwise2_ne_nil {α β : Type} {R : α → β → Prop} {as : List α} {a : α} (ha : a ∈ as)
    (h : Pairwise2 R as []) : False := by
  cases as with
  | nil => cases ha
  | cons => exact absurd h (by simp [Pairwise2])

/-- C76 is violated: the logs change the time of the root, and its listing does not tell the former one. -/
theorem root_tells_past_violated : ¬ RootTellsPast := by
  intro h
  obtain ⟨p, ns, h1, h2, h3⟩ := past_compare (h pastWorld _ _ _ (by decide) (fun m => List.Perm.refl m) past_full)
  have hr : (4128, "\\RT".toList) ∈ liveKeys ns := by rw [h2]; decide +kernel
  obtain ⟨n, hn, e⟩ := List.mem_map.1 hr
  have hn := (List.mem_filter.1 hn).1
  have hp : n.key.path = "\\RT".toList := congrArg Prod.snd e
  have h3 := h3 n hn
  rw [if_pos hp] at h3
  have hv := (h1 n hn).versions
  rw [hp, h3.versions] at hv
  exact pairwise2_ne_nil (a := ([pastState 4 1 1 6, pastFirst], pastState 5 2 1 6))
    (List.mem_filter.2 ⟨List.mem_cons_of_mem _ List.mem_cons_self, by decide +kernel⟩) hv

/-- C76 is violated: the logs change a value and then remove it, and its listing does not tell the former data. -/
theorem removed_values_versions_violated : ¬ RemovedValuesTellVersions := by
  intro h
  obtain ⟨p, ns, h1, h2, h3⟩ := past_compare (h pastWorld _ _ _ (by decide) (fun m => List.Perm.refl m) past_full)
  have hr : (4226, "\\RT\\a".toList) ∈ liveKeys ns := by rw [h2]; decide +kernel
  obtain ⟨n, hn, e⟩ := List.mem_map.1 hr
  have hn := (List.mem_filter.1 hn).1
  have hp : n.key.path = "\\RT\\a".toList := congrArg Prod.snd e
  have h3 := h3 n hn
  rw [if_neg (by rw [hp]; decide)] at h3
  obtain ⟨live, gone, g1, _, g3, g4, _⟩ := h3.values
  rw [hp] at g3 g4
  obtain ⟨v, hv, ⟨y, hy, hname, _⟩, hcs, _⟩ := g4
    ([pastState 5 2 1 6, pastState 4 1 1 6, pastFirst], pastState 6 2 0 6) List.mem_cons_self ['a']
    ⟨by intro e; exact absurd (congrArg Option.isSome e) (by decide +kernel), by
      apply Option.isNone_iff_eq_none.1; decide +kernel⟩
    (by
      intro e he hlt
      simp only [pastFirst, pastLater, List.reverse_cons, List.reverse_nil, List.nil_append, List.cons_append, events,
        List.mem_cons, List.not_mem_nil, or_false] at he
      rcases he with rfl | rfl | rfl <;> exact absurd hlt (by decide))
  have hy' : y.val.name = ['a'] := by
    have : (Event.was ([pastState 5 2 1 6, pastState 4 1 1 6, pastFirst], pastState 6 2 0 6)
        ("\\RT\\a".toList, some ['a'])).map (fun x => match x with | .inl _ => [] | .inr y => y.val.name) =
        some ['a'] := by decide +kernel
    rw [hy] at this
    exact Option.some.inj this
  have hv' := h1 n hn v (by rw [g1]; exact List.mem_append_right _ hv) hcs
  rw [(g3 v hv).1, hp, hname, hy'] at hv'
  exact pairwise2_ne_nil (a := ([pastFirst], pastState 4 1 1 6))
    (List.mem_filter.2 ⟨List.mem_cons_of_mem _ (List.mem_cons_of_mem _ List.mem_cons_self), by decide +kernel⟩) hv'

/-! ### A value that comes back -/

/-- The entries of the log: the value is removed, it is put there again, its data are changed. -/
def backEntries : List RawEntry := [histEntry 4 170 0, histEntry 5 170 1, histEntry 6 231 6]

def backBuilder : Builder := { primary := histPre ++ pastBin 1 1 5, logs := [histLog backEntries], recover := true }

def backLater : List FullState := [pastState 4 1 0 5, pastState 5 1 1 5, pastState 6 1 1 6]

theorem back_history : History pastWorld backBuilder pastFirst.plain (backLater.map FullState.plain) := by
  have hpages : (expectedEntries 512 backEntries).map
      (fun e => (e.seq, e.hiveBinsDataSize, e.dirtyPages, e.hasValidHashes)) =
      [(4, 4096, [⟨170, [0]⟩], true), (5, 4096, [⟨170, [1]⟩], true), (6, 4096, [⟨231, [6]⟩], true)] := by decide +kernel
  have hf : ∀ e ∈ backEntries, e.Fits := by unfold RawEntry.Fits; decide +kernel
  have hne : (histLog backEntries).isEmpty = false := by decide +kernel
  have hd := dirty_history pastWorld (pastBin 1 1 5) pastFirst.plain rfl (past_ordinary _ _ _ _ (by unfold PastCase; decide))
    (by decide +kernel) (fun _ => rfl) _ hf hne
  generalize expectedEntries 512 backEntries = es at hpages hd
  match es, hpages, congrArg List.length hpages with
  | [e1, e2, e3], hpages, _ =>
    simp only [List.map_cons, List.map_nil, List.cons.injEq, Prod.mk.injEq, and_true] at hpages
    obtain ⟨⟨a1, a2, a3, a4⟩, ⟨c1, c2, c3, c4⟩, d1, d2, d3, d4⟩ := hpages
    refine hd (by simp [a1]) ?_ ⟨by omega, by omega, trivial⟩ _
      ⟨a1.symm, ?_, c1.symm, ?_, d1.symm, ?_, trivial⟩ ?_ ?_ ?_
    · intro e he
      simp only [List.mem_cons, List.not_mem_nil, or_false] at he
      rcases he with rfl | rfl | rfl
      · exact ⟨a4, by omega, by omega⟩
      · exact ⟨c4, by omega, by omega⟩
      · exact ⟨d4, by omega, by omega⟩
    · exact written_same (by omega) (written_byte e1 (pastBin 1 1 5) (pastBin 1 0 5) 170 0 a3 (by decide +kernel) (by decide +kernel))
    · exact written_same (by omega) (written_byte e2 (pastBin 1 0 5) (pastBin 1 1 5) 170 1 c3 (by decide +kernel) (by decide +kernel))
    · exact written_same (by omega) (written_byte e3 (pastBin 1 1 5) (pastBin 1 1 6) 231 6 d3 (by decide +kernel) (by decide +kernel))
    · intro s hs
      simp only [backLater, List.map_cons, List.map_nil, List.mem_cons, List.not_mem_nil, or_false] at hs
      rcases hs with rfl | rfl | rfl <;> exact ⟨past_ordinary _ _ _ _ (by unfold PastCase; decide), rfl⟩
    · exact ⟨fun key hk => absurd hk (past_not_lost _ _ _ _ _ _ _ _), fun key hk => absurd hk (past_not_lost _ _ _ _ _ _ _ _),
        fun key hk => absurd hk (past_not_lost _ _ _ _ _ _ _ _), trivial⟩
    · refine hist_apart _ fun s hs e he => ?_
      have : s.keys = [(4128, "\\RT".toList), (4226, "\\RT\\a".toList)] := by
        simp only [backLater, List.map_cons, List.map_nil, List.mem_cons, List.not_mem_nil, or_false] at hs
        rcases hs with rfl | rfl | rfl | rfl <;> rfl
      rw [this] at he
      exact (by decide +kernel : ∀ e ∈ [(4128, "\\RT".toList), (4226, "\\RT\\a".toList)], e ∈ histFull.keys) e he

theorem back_full : FullHistory pastWorld backBuilder pastFirst backLater := by
  refine ⟨back_history, rfl, ?_, fun _ _ _ _ => ⟨fun _ _ _ _ h => h, fun _ _ _ _ _ _ _ _ h => h⟩⟩
  intro s hs
  simp only [pastFirst, backLater, List.mem_cons, List.not_mem_nil, or_false] at hs
  rcases hs with rfl | rfl | rfl | rfl <;> exact pastValues _ _ _ _ (by unfold PastCase; decide)

/-- The hypotheses of `overwritten_told_partial` with a value that is removed and put there again: this removal is
not among those that are told. -/
example : (events (pastFirst :: backLater).reverse).any (fun e => (e.was ("\\RT\\a".toList, some ['a'])).isSome &&
      (e.2.item ("\\RT\\a".toList, some ['a'])).isNone) = true ∧
    (∀ e, ¬ Removal (events (pastFirst :: backLater).reverse) ("\\RT\\a".toList, some ['a']) e) ∧
    ∃ N, ∀ steps, N ≤ steps → ∃ p, backBuilder.build { pastWorld with steps } = some (.ok p) ∧
      ListsPast p pastFirst backLater (pastState 6 1 1 6) := by
  refine ⟨by decide +kernel, ?_,
    overwritten_told_partial pastWorld _ _ _ (by decide) (fun m => List.Perm.refl m) back_full⟩
  have hev : events (pastFirst :: backLater).reverse =
    [([pastState 5 1 1 5, pastState 4 1 0 5, pastFirst], pastState 6 1 1 6),
      ([pastState 4 1 0 5, pastFirst], pastState 5 1 1 5), ([pastFirst], pastState 4 1 0 5)] := rfl
  have hno : ∀ e ∈ events (pastFirst :: backLater).reverse, e.removes ("\\RT\\a".toList, some ['a']) →
      e = ([pastFirst], pastState 4 1 0 5) := by
    intro e he hr
    rw [hev] at he
    simp only [List.mem_cons, List.not_mem_nil, or_false] at he
    rcases he with rfl | rfl | rfl
    · exact absurd (congrArg Option.isSome hr.2) (by decide +kernel)
    · exact absurd (congrArg Option.isSome hr.2) (by decide +kernel)
    · rfl
  rintro e ⟨he, hr, haway | ⟨e', he', hne, hr', _⟩⟩
  · cases hno e he hr
    refine haway ([pastState 4 1 0 5, pastFirst], pastState 5 1 1 5) ?_ (by decide) ?_
    · rw [hev]; exact List.mem_cons_of_mem _ List.mem_cons_self
    · decide +kernel
  · rw [hno e he hr, hno e' he' hr'] at hne
    exact hne rfl

end Notatin
