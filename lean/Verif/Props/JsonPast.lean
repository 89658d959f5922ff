import Verif.Props.DumpPast
/-
C78 for JSONL: what `reg_dump --recover` writes by default tells of the past.
-/
namespace Notatin
open Spec

theorem showsValues_pairwise {full : Bool} : ∀ {js : List Json} {vs : List Value}, ShowsValues full js vs →
    Pairwise2 (ShowsValue full) js vs := by
  intro js vs
  induction vs generalizing js with
  | nil => intro h; rw [ShowsValues] at h; rw [h]; trivial
  | cons v vs ih =>
    intro h
    rw [ShowsValues] at h
    obtain ⟨j, js', rfl, h1, h2⟩ := h
    exact ⟨h1, ih h2⟩

/-- The JSON of a value says what is stored. -/
theorem shows_val {full : Bool} {j : Json} {v : Value} {y : FlaggedVal} (h : ShowsValue full j v)
    (h1 : v.val.name = y.val.name) (h2 : v.val.dataTypeRaw = y.val.type) (h3 : v.val.valueBytes = some y.val.data)
    (h4 : v.val.flagsRaw = y.flags) (h5 : v.val.dataType = DataType.ofRaw y.val.type) :
    JsonVal full y (stateName v.val.cellState) j ∧ IsOptional (j.field "sequence_num") v.val.seq ∧
      IsOptional (j.field "updated_by_sequence_num") v.val.updatedBySeq ∧
      ∃ js, j.field "versions" = some (.arr js) ∧ Pairwise2 (ShowsValue full) js v.versions := by
  have hc := content_of v (by rw [h3]; simp) (by rw [h5, h2])
  cases v with
  | mk k vs =>
    rw [ShowsValue] at h
    obtain ⟨_, b, n, _, _, f, _, s1, s2, _, st, ⟨c, w, hcon, hj, _⟩, js, hver, hjs⟩ := h
    have h1 : k.name = y.val.name := h1
    have h2' : k.dataTypeRaw = y.val.type := h2
    have h4 : k.flagsRaw = y.flags := h4
    have b5 := b _ (List.mem_of_getElem? (i := 4) rfl)
    have b6 := b _ (List.mem_of_getElem? (i := 5) rfl)
    rw [h2'] at b5
    rw [h4] at b6
    rw [h1] at f n
    refine ⟨⟨f, n, b5, b6, st, c, ?_, hj⟩, s1, s2, js, hver, showsValues_pairwise hjs⟩
    have := hc c w hcon
    unfold obsVal at this
    rw [h2, h3] at this
    exact this

/-- The JSON of an old value. -/
theorem shows_oldValue {full : Bool} {j : Json} {v : Value} {path name : Str} {cs : CellState} {e : Event}
    (h : ShowsValue full j v) (ht : TellsOldValue path name cs e v) :
    JsonOldValue full path name (stateName cs) e j ∧ (v.versions = [] → j.field "versions" = some (.arr [])) := by
  obtain ⟨⟨y, hy, h1, h2, h3, h4, h5⟩, h6, h7, h8⟩ := ht
  obtain ⟨k1, k2, k3, js, k4, k5⟩ := shows_val h h1 h2 h3 h4 h5
  rw [h6] at k1
  rw [h7] at k2
  rw [h8] at k3
  refine ⟨⟨⟨y, hy, was_value hy, k1⟩, k2, k3⟩, fun hv => ?_⟩
  rw [hv] at k5
  rw [k4, pairwise2_nil_left (pairwise2_flip (S := fun _ _ => True) (fun _ _ _ => trivial) k5)]

/-- The JSON of a value that is there with its old versions. -/
theorem shows_now {full : Bool} {j : Json} {v : Value} {y : FlaggedVal} {path : Str} {evs : List Event}
    (h : ShowsValue full j v) (hn : NowShows v y)
    (hv : Pairwise2 (TellsOldValue path v.val.name .ModifiedTransactionLog) evs v.versions) :
    JsonVal full y "Allocated" j ∧ ∃ js, j.field "versions" = some (.arr js) ∧
      Pairwise2 (JsonOldValue full path y.val.name "ModifiedTransactionLog") evs js := by
  obtain ⟨h1, h2, h3, h4, h5, h6⟩ := hn
  obtain ⟨k1, _, _, js, k4, k5⟩ := shows_val h h1 h2 h3 h4 h6
  rw [h5] at k1
  rw [h1] at hv
  refine ⟨k1, js, k4, ?_⟩
  have k6 : Pairwise2 (fun v j => ShowsValue full j v) v.versions js := pairwise2_flip (fun _ _ hx => hx) k5
  refine pairwise2_trans ?_ hv k6
  exact fun e v j ht hj => (shows_oldValue (cs := .ModifiedTransactionLog) hj ht).1

theorem pairwise2_split_right {α β : Type} {R : α → β → Prop} {as : List α} {bs cs : List β}
    (h : Pairwise2 R as (bs ++ cs)) : ∃ as1 as2, as = as1 ++ as2 ∧ Pairwise2 R as1 bs ∧ Pairwise2 R as2 cs := by
  obtain ⟨o1, o2, e, h1, h2⟩ := pairwise2_split bs cs as
    (pairwise2_flip (S := fun b a => R a b) (fun _ _ hx => hx) h)
  exact ⟨o1, o2, e, pairwise2_flip (fun _ _ hx => hx) h1, pairwise2_flip (fun _ _ hx => hx) h2⟩

/-- The JSON of a listed key tells its values. -/
theorem ListsHistory.json {w : World} {a : FullState} {later : List FullState} {last : FullState}
    {ns : List Node} (h : ListsHistory w a later last ns) {full : Bool} {j : Json} {n : Node} (hn : n ∈ ns)
    (hj : ShowsKey full j n) :
    JsonValues full last (if n.key.path = '\\' :: last.tree.name then [] else events (a :: later).reverse)
      n.key.path j := by
  obtain ⟨_, _, _, _, _, _, _, _, _, js, hs, hjs⟩ := hj
  have hjs := showsValues_pairwise hjs
  have ht := h.tells n hn
  by_cases hp : n.key.path = '\\' :: last.tree.name
  · rw [if_pos hp] at ht ⊢
    refine ⟨js, [], by rw [List.append_nil]; exact hs, ?_, fun _ hx => absurd hx List.not_mem_nil,
      fun _ hx => absurd hx List.not_mem_nil⟩
    refine pairwise2_trans ?_ hjs ht.values
    exact fun j v y hjv hvy => shows_now (evs := []) hjv hvy.1 (by rw [hvy.2]; trivial)
  · rw [if_neg hp] at ht ⊢
    obtain ⟨own, gone, e, h1, h2, h3, _⟩ := ht.values
    rw [e] at hjs
    obtain ⟨js1, js2, rfl, k1, k2⟩ := pairwise2_split_right hjs
    refine ⟨js1, js2, hs, ?_, fun j hj => ?_, fun ev he name hr haway => ?_⟩
    · refine pairwise2_trans (fun j v y hjv hvy => ?_) k1 h1
      have hname : v.val.name = y.val.name := hvy.1.1
      have hv := hvy.2
      rw [hname] at hv
      refine shows_now hjv hvy.1 ?_
      rw [hname]
      exact hv
    · obtain ⟨v, hv, hjv⟩ := pairwise2_mem_left k2 j hj
      obtain ⟨g1, ev, g3, g4⟩ := h2 v hv
      have := shows_oldValue hjv g4
      exact ⟨this.2 g1, ev, _, g3, this.1⟩
    · obtain ⟨v, hv, g⟩ := h3 ev he name hr haway
      obtain ⟨j, hj, hjv⟩ := pairwise2_mem_right k2 v hv
      exact ⟨j, hj, (shows_oldValue hjv g).1⟩

theorem shows_allocated {full : Bool} {j : Json} {n : Node} (h : ShowsKey full j n) :
    isAllocated j = decide (n.key.cellState = .Allocated) := by
  obtain ⟨_, _, _, _, _, hs, _⟩ := h
  unfold isAllocated
  rw [hs]
  have := status_allocated n.key.cellState
  by_cases hc : n.key.cellState = .Allocated
  · rw [hc]; rfl
  · rw [decide_eq_false hc]
    exact beq_eq_false_iff_ne.2 fun e => hc (this.1 e)

/-- The JSON of a key. -/
theorem shows_key {full : Bool} {j : Json} {n : Node} {u : Tree} (h : ShowsKey full j n)
    (h1 : n.key.fileOffset = u.off) (h2 : n.key.name = u.name) (h3 : n.key.lastWritten = u.cell.lastWritten)
    (h4 : n.key.flagBits = u.cell.flags) (h5 : n.key.accessBits = u.cell.access) :
    JsonKey full u n.key.path (stateName n.key.cellState) j ∧
      IsOptional (j.field "updated_by_sequence_num") n.key.updatedBySeq := by
  obtain ⟨a, b, _, d, e, f, _, g, _⟩ := h
  rw [h1] at a
  rw [h2] at d
  have b3 := b _ (List.mem_of_getElem? (i := 2) rfl)
  have b2 := b _ (List.mem_of_getElem? (i := 1) rfl)
  have b4 := b _ (List.mem_of_getElem? (i := 3) rfl)
  rw [h3] at b3
  rw [h4] at b2
  rw [h5] at b4
  exact ⟨⟨a, d, e, f, b3, b2, b4⟩, g⟩

/-- What the lines of a listing tell. -/
theorem ListsHistory.lines {w : World} {a : FullState} {later : List FullState} {last : FullState}
    {ns : List Node} (h : ListsHistory w a later last ns) {full : Bool} {js : List Json}
    (hj : Pairwise2 (ShowsKey full) js ns) : LinesTellPast full a later last js := by
  have lostSays : ∀ {q : FileState × FileState} {key : Nat × Str} {j : Json} {n : Node}, ShowsKey full j n →
      TellsLost q.1 q.2 key n → JsonLost full q.1 q.2 key j := by
    intro q key j n hjn ht
    obtain ⟨⟨u, hu, h1, h2, h3, h4, h5⟩, h6, h7, h8, h9⟩ := ht
    have := shows_key hjn (h6.trans h1.symm) h2 h3 h4 h5
    rw [h7, h8, h9] at this
    exact ⟨⟨u, hu, h1, this.1⟩, this.2⟩
  constructor
  · have hf := pairwise2_filter isAllocated (fun n : Node => decide (n.key.cellState = .Allocated))
      (fun j _ n _ hjn => shows_allocated hjn) hj
    have hk : Pairwise2 (fun n (x : Str × Tree) => obs n = (x.2.off, x.1))
        (ns.filter fun n => decide (n.key.cellState = .Allocated)) (last.tree.keys []) := by
      have e := h.live
      unfold liveKeys at e
      rw [← keys_plain] at e
      generalize ns.filter (fun n => decide (n.key.cellState = .Allocated)) = ms at e
      generalize last.tree.keys [] = xs at e
      induction ms generalizing xs with
      | nil => cases xs with
        | nil => trivial
        | cons => cases e
      | cons m ms ih => cases xs with
        | nil => cases e
        | cons x xs =>
          rw [List.map_cons, List.map_cons] at e
          injection e with e1 e2
          exact ⟨e1, ih xs e2⟩
    have hk2 : Pairwise2 (fun n (x : Str × Tree) => n.key.path = x.1 ∧ KeyShown x.2 n)
        (ns.filter fun n => decide (n.key.cellState = .Allocated)) (last.tree.keys []) := by
      refine pairwise2_imp (fun n hn x hx e => ?_) hk
      obtain ⟨hn, hs⟩ := List.mem_filter.1 hn
      obtain ⟨u, hu, hsh⟩ := h.stored hn (of_decide_eq_true hs)
      have ep : n.key.path = x.1 := congrArg Prod.snd e
      have eo : n.key.fileOffset = x.2.off := congrArg Prod.fst e
      have eu : x.2 = u := map_inj_of_nodup Tree.off last.tree.nodes
        (by rw [nodes_offs]; exact h.sound.ordinary.stored.once) _
        (by rw [← keys_nodes last.tree []]; exact List.mem_map.2 ⟨x, hx, rfl⟩) _
        (by rw [← keys_nodes last.tree []]; exact List.mem_map.2 ⟨_, hu, rfl⟩) (by rw [← eo, hsh.off])
      exact ⟨ep, by rw [eu]; exact hsh⟩
    refine pairwise2_trans (fun j n x hjn hnx => ?_) hf hk2
    have := (shows_key hjn hnx.2.off hnx.2.name hnx.2.written hnx.2.flags hnx.2.access).1
    rw [hnx.1, hnx.2.state] at this
    exact this
  · intro j hjm hs
    obtain ⟨n, hn, hjn⟩ := pairwise2_mem_left hj j hjm
    rw [shows_allocated hjn] at hs
    obtain ⟨q, hq, key, h1, h2, h3⟩ := h.gone n hn (of_decide_eq_false hs)
    exact ⟨q, hq, key, h1, h2, lostSays hjn h3⟩
  · intro q hq key h1 h2
    obtain ⟨n, hn, h3⟩ := h.lost q hq key h1 h2
    obtain ⟨j, hjm, hjn⟩ := pairwise2_mem_right hj n hn
    exact ⟨j, hjm, lostSays hjn h3⟩
  · intro j hjm
    obtain ⟨n, hn, hjn⟩ := pairwise2_mem_left hj j hjm
    exact ⟨n.key.path, hjn.2.2.2.2.1, h.json hn hjn⟩
  · have honce := h.once
    rw [List.Nodup, List.pairwise_map] at honce
    rw [List.pairwise_map]
    have hj' : Pairwise2 (fun n j => ShowsKey full j n) ns js := pairwise2_flip (fun _ _ hx => hx) hj
    refine pairwise2_pairwise (fun n j n' j' h1 h2 hne s hs hs' => hne ?_) hj' honce
    have e1 := Option.some.inj (hs.symm.trans h1.2.2.2.2.1)
    have e2 := Option.some.inj (hs'.symm.trans h2.2.2.2.2.1)
    injection e1 with e1
    injection e2 with e2
    rw [← e1, ← e2]

/-- C78, JSONL: `reg_dump` with recovery, for a dirty hive with whatever history: the lines are the keys stored after
the logs were applied and the keys that were lost, each with its values, their former contents, and the values
that were removed.

Partial: the conditions of `dump_tells_past_partial`; former contents of keys are not written in this format
(`jsonl_versions_violated`). -/
theorem dump_json_past_partial (w : World) (u : Prints) (disk : Disk)
    (o : DumpOptions) (hf : o.filter = none) (hty : o.type = .Jsonl) (folder : List Str) (name : Str)
    (primary : Bytes) (hin : disk (folder ++ [name]) = some primary)
    (bs : List Bytes) (hbs : openLogs disk (logsOf disk o name (folder ++ [name])) = some bs)
    (a : FullState) (later : List FullState) (hd : 1 < w.depth) (hord : ∀ m, (w.order m).Perm m)
    (hist : FullHistory w ⟨primary, bs, none, o.recover, o.full⟩ a later) :
    ∃ N, ∀ steps, N ≤ steps →
      (∃ M s, dumpFile { w with steps } M u disk o (folder ++ [name]) = some (.ok (.text s))) ∧
      ∀ M d, dumpFile { w with steps } M u disk o (folder ++ [name]) = some (.ok d) →
        ∃ s js, d = .text s ∧ (lines s).map readJson = js.map some ∧
          LinesTellPast o.full a later ((a :: later).getLast (by simp)) js := by
  obtain ⟨N, h⟩ := history_listed w _ a later hd hord hist
  refine ⟨N, fun steps hs => ?_⟩
  obtain ⟨p, h1, h2⟩ := h steps hs
  obtain ⟨M, ns, h3, h4⟩ := h2 false
  obtain ⟨records, js, k1, k2, k3⟩ := jsonl_read_back_partial u.json o.full ns
  have e : ∀ M, dumpFile { w with steps } M u disk o (folder ++ [name]) =
      regDump { w with steps } M u disk o none (folder ++ [name])
        (getLogFiles disk.files o.skipLogs name (folder ++ [name])) := by
    intro M
    unfold dumpFile
    rw [hf]
    simp only [dumpFilter]
    unfold processFile
    rw [List.getLast?_concat]
  have hb : buildFromPath { w with steps } disk (folder ++ [name])
      ((getLogFiles disk.files o.skipLogs name (folder ++ [name])).getD []) o.recover o.full = some (.ok p) := by
    unfold buildFromPath; unfold logsOf at hbs; rw [hbs]; simp only; rw [hin]; exact h1
  have hw : ∀ logs, writeDump u o logs ns = .ok (.text (fileText records)) := by
    intro logs
    unfold writeDump; rw [hty]; simp only; rw [k1]
  refine ⟨⟨M, fileText records, ?_⟩, fun M' d hdump => ?_⟩
  · rw [e, regDump_of _ M u disk o none _ _ p ns hb h3, hw]
  · rw [e] at hdump
    unfold regDump at hdump
    rw [hb] at hdump
    simp only at hdump
    cases hi : p.iterate M' ((none : Option Filter).getD {}) with
    | none => rw [hi] at hdump; cases hdump
    | some r =>
      have := collect_unique (fuelMono_pre p.env) _ _ _ _ _ hi h3
      subst this
      rw [hi] at hdump
      simp only at hdump
      rw [hw] at hdump
      cases hdump
      exact ⟨_, js, rfl, k2, h4.lines k3⟩

/-- The hypotheses of `dump_json_past_partial`, with the hive of Props/Overwritten. -/
example : ∃ N, ∀ steps, N ≤ steps → ∃ M s js, dumpFile { pastWorld with steps } M someTexts pastDisk
      { recover := true } [['A']] = some (.ok (.text s)) ∧ (lines s).map readJson = js.map some ∧
        LinesTellPast false pastFirst pastLater (pastState 6 2 0 6) js := by
  obtain ⟨N, h⟩ := dump_json_past_partial pastWorld someTexts pastDisk
    { recover := true } rfl rfl [] ['A'] pastBuilder.primary rfl _ past_logs pastFirst pastLater
    (by decide) (fun m => List.Perm.refl m) past_full
  refine ⟨N, fun steps hs => ?_⟩
  obtain ⟨M, s, hd⟩ := (h steps hs).1
  obtain ⟨s', js, e, h1, h2⟩ := (h steps hs).2 M _ hd
  cases e
  exact ⟨M, s, js, hd, h1, h2⟩

end Notatin
