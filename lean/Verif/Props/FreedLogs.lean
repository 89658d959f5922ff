import Verif.Props.SafeRecover
/-
C75 and C86, violated: what becomes of keys found in free space when log entries are applied after the search.
-/
namespace Notatin
open Spec

/-- A log entry that changes nothing: it has no dirty pages. -/
def emptyEntry (seq : Nat) : RawEntry :=
  let e0 : RawEntry := ⟨0, seq, 4096, 0, 0, [], []⟩
  let e1 := { e0 with hash1 := (marvin32 defaultSeed (e0.encode.drop 40)).toNat }
  { e1 with hash2 := (marvin32 defaultSeed (e1.encode.take 32)).toNat }

/-- A log of `n` such entries, numbered from 4. -/
def emptyLog (n : Nat) : Bytes := sampleHeader 4 4 4096 ++ ((List.range n).map fun i => emptyEntry (4 + i)).flatMap (·.encode)

/-- A dirty hive with the root key `RT` and the free cells of two keys, `d` and `e`, with the given flags. -/
def freedKeysHive (flags : Nat) : Bytes :=
  sampleHeader 5 4 4372 ++ List.replicate 3584 0 ++
    (hbinBytes 0 276 0 0 0 0 ++ ((exampleCell 0x24 0 0 [0x52, 0x54]).encode ++
      ({ exampleCell flags 0 0 [0x64] with size := 81 }.encode ++ { exampleCell flags 0 0 [0x65] with size := 81 }.encode)))

/-- Logs of which no entry has a dirty page delete nothing: no key is listed as deleted by a log entry. -/
def NothingDeleted : Prop :=
  ∀ (w : World) (b : Builder) (p : HiveParser) (ns : List Node) (N : Nat),
    (∀ f ∈ b.logs, ∃ (header : Bytes) (es : List RawEntry), f = header ++ es.flatMap (·.encode) ∧ ∀ e ∈ es, e.pages = []) →
    b.build w = some (.ok p) → p.iterate N {} false true false = some (.ok ns) →
    ∀ y ∈ ns, y.key.cellState ≠ .DeletedTransactionLog

/-- C75, violated: keys found in free space are taken for keys of the hive by the first log entry, and are missed and
reported as deleted by the second one.  (With a third entry they are gone again.) -/
theorem deleted_by_log_violated : ¬ NothingDeleted := by
  intro h
  obtain ⟨p, ns, hp, hi, hns⟩ := listedStates_of
    (show listedStates (({ primary := freedKeysHive 0x20, logs := [emptyLog 2], recover := true } : Builder).build apartWorld) =
      some [(4128, .Allocated), (4210, .DeletedTransactionLog), (4291, .DeletedTransactionLog)] by decide +kernel)
  obtain ⟨y, hy, hyo⟩ : ∃ y ∈ ns, (y.key.fileOffset, y.key.cellState) = (4210, .DeletedTransactionLog) :=
    List.mem_map.1 (by rw [hns]; exact List.mem_cons_of_mem _ List.mem_cons_self)
  refine h apartWorld _ p ns 100 ?_ hp hi y hy (congrArg Prod.snd hyo)
  intro f hf
  rw [List.mem_singleton.1 hf]
  refine ⟨_, _, rfl, ?_⟩
  intro e he
  obtain ⟨i, _, rfl⟩ := List.mem_map.1 he
  rfl

/-- What is listed with one and with three such entries, and without any. -/
example :
    listedStates (({ primary := freedKeysHive 0x20, recover := true } : Builder).build apartWorld) =
      some [(4128, .Allocated), (4291, .DeletedPrimaryFile), (4210, .DeletedPrimaryFile)] ∧
    listedStates (({ primary := freedKeysHive 0x20, logs := [emptyLog 1], recover := true } : Builder).build apartWorld) =
      some [(4128, .Allocated)] ∧
    listedStates (({ primary := freedKeysHive 0x20, logs := [emptyLog 3], recover := true } : Builder).build apartWorld) =
      some [(4128, .Allocated)] := by
  refine ⟨?_, ?_, ?_⟩ <;> decide +kernel

/-! ### Two freed root keys -/

/-- With two log-deleted root keys on record under the empty path, attaching never ends. -/
theorem attach_roots_loop (st : State) (x y : Node) (hst : st.deletedKeys [] = some [x, y])
    (hx : x.key.flagBits.testBit 2 = true) (hy : y.key.flagBits.testBit 2 = true)
    (hx' : x.key.cellState.isDeletedPrimaryFile = false) (hy' : y.key.cellState.isDeletedPrimaryFile = false)
    (hne : x.key.fileOffset ≠ y.key.fileOffset) (fuel : Nat) : ∀ n : Node, n.key.flagBits.testBit 2 = true →
      n.key.cellState.isDeletedPrimaryFile = false → updateModifiedLists st fuel n = .panic := by
  induction fuel with
  | zero => intro n _ _; rfl
  | succ fuel ih =>
    intro n hn hd
    rw [updateModifiedLists]
    simp only
    rw [isKeyRoot_iff, hn, if_pos rfl, if_neg (by simp [hd])]
    have hA := ih x hx hx'
    have hB := ih y hy hy'
    have : updateModifiedLists.attachDeleted (updateModifiedLists st fuel) n.key.fileOffset n.deletedKeys
        (st.deletedKeys []) = .panic := by
      rw [hst, updateModifiedLists.attachDeleted, updateModifiedLists.attachLoop, updateModifiedLists.attachLoop, hA, hB]
      by_cases h : x.key.fileOffset ≠ n.key.fileOffset
      · rw [if_pos h]
      · rw [if_neg h, if_pos (by intro h'; exact h (fun h'' => hne (h''.trans h'.symm)))]
    rw [this]

/-- A stack with room for more than a million calls. -/
def deepWorld : World := ⟨id, 1048584, id, 100⟩

/-- Reading a root key does not end when attaching to it does not. -/
theorem readKey_loops (env : Env) (st : State) (o : ReadOptions) (hf : o.filter = none) (hm : o.getModified = true)
    (hl : ∀ n : Node, n.key.flagBits.testBit 2 = true → n.key.cellState.isDeletedPrimaryFile = false →
      updateModifiedLists st env.depth n = .panic)
    (n : Node) (ro : Nat) (h : readKey env {} o = .ok (some n, ro)) (hn : n.key.flagBits.testBit 2 = true)
    (hs : n.key.cellState.isDeletedPrimaryFile = false) : readKey env st o = .panic := by
  unfold readKey at h ⊢
  cases hg : getFrom env.fi.buffer o.offset with
  | none => rw [hg] at h; cases h
  | some slc =>
    rw [hg] at h
    simp only at h ⊢
    unfold readFromSlice filterStep at h ⊢
    rw [hf] at h ⊢
    cases hk : KeyNode.fromBytes env.hashFn slc o.offset o.curPath o.seq with
    | err => rw [hk] at h; cases h
    | panic => rfl
    | ok x =>
      obtain ⟨k, r⟩ := x
      rw [hk] at h
      simp only at h ⊢
      rw [if_neg nofun] at h ⊢
      cases hv : valuesStep env o .iterate k with
      | err => rw [hv] at h; cases h
      | panic => rfl
      | ok k1 =>
        rw [hv] at h
        simp only at h ⊢
        unfold finishStep at h ⊢
        simp only [hm, if_true] at h ⊢
        rw [if_neg nofun] at h ⊢
        cases hu : updateModifiedLists {} env.depth (.mk k1 [] []) with
        | err => rw [hu] at h; cases h
        | panic => rw [hu] at h; cases h
        | ok m =>
          rw [hu] at h
          cases h
          have hkey := updateModifiedLists_key _ _ _ _ hu
          rw [hkey] at hn hs
          rw [hl (.mk k1 [] []) hn hs]

/-- A check of what opening comes to before the root is read for good: two root keys in different places on record as
deleted by log entries, and a root key in the file. -/
def rootsRecorded (w : World) (b : Builder) : Bool :=
  match TransactionLog.parse b.logs with
  | .ok (logs, _) =>
    match openHive (w.analyze b.recover) (w.initItems b.recover) (w.scan b.recover) b.primary (some (.ok ({}, []))) logs with
    | .ok (true, ⟨buffer, hbin, _, _, some (.ok (st, _))⟩) =>
      match st.deletedKeys [], initRoot ⟨⟨hbin, buffer⟩, w.hashFn, w.depth⟩ {} with
      | some [x, y], .ok (some n, _) =>
        [x, y, n].all (fun n => n.key.flagBits.testBit 2 && !n.key.cellState.isDeletedPrimaryFile) &&
          x.key.fileOffset != y.key.fileOffset
      | _, _ => false
    | _ => false
  | _ => false

theorem build_roots_loop (w : World) (b : Builder) (h : rootsRecorded w b = true) : b.build w = some .panic := by
  unfold rootsRecorded at h
  unfold Builder.build
  cases hp : TransactionLog.parse b.logs with
  | err => rw [hp] at h; cases h
  | panic => rfl
  | ok x =>
    obtain ⟨logs, warn⟩ := x
    rw [hp] at h
    simp only at h ⊢
    cases ho : openHive (w.analyze b.recover) (w.initItems b.recover) (w.scan b.recover) b.primary (some (.ok ({}, []))) logs with
    | err => rw [ho] at h; cases h
    | panic => rfl
    | ok x =>
      obtain ⟨sup, buffer, hbin, bb, info, rec⟩ := x
      rw [ho] at h
      cases sup with
      | false => cases h
      | true =>
        rcases rec with _ | ⟨st, items⟩ | _ | _
        · cases h
        · simp only [if_true] at h ⊢
          split at h
          case h_2 => cases h
          rename_i x y n ro hdel hinit
          simp only [List.all_cons, List.all_nil, Bool.and_true, Bool.and_eq_true, Bool.not_eq_true', bne_iff_ne] at h
          obtain ⟨⟨⟨x1, x2⟩, ⟨y1, y2⟩, n1, n2⟩, hne⟩ := h
          have hloop : ∀ i : Logs, initRoot ⟨⟨hbin, buffer⟩, w.hashFn, w.depth⟩ { st with info := i } = .panic := by
            intro i
            unfold initRoot at hinit ⊢
            simp only at hinit ⊢
            cases hg : getFrom buffer hbin with
            | none => rw [hg] at hinit; cases hinit
            | some input =>
              rw [hg] at hinit
              simp only at hinit ⊢
              cases hb : HiveBinHeader.fromBytes hbin input with
              | none => rw [hb] at hinit; cases hinit
              | some z =>
                obtain ⟨_, rest⟩ := z
                rw [hb] at hinit
                exact readKey_loops _ { st with info := i } _ rfl rfl
                  (attach_roots_loop { st with info := i } x y hdel x1 y1 x2 y2 hne _) n ro hinit n1 n2
          rw [hloop]
        · cases h
        · cases h

/-- C86, violated when log entries are applied: a dirty hive in whose free space are two former root keys, and a log
with two entries that change nothing.  With recovery, opening it exhausts a stack with room for a million calls; each
of the two without the other is opened, and so is the hive with the log without recovery. -/
theorem open_two_roots_violated :
    ({ primary := freedKeysHive 0x24, logs := [emptyLog 2], recover := true } : Builder).build deepWorld = some .panic ∧
    listedStates (({ primary := freedKeysHive 0x24, recover := true } : Builder).build deepWorld) =
      some [(4128, .Allocated), (4291, .DeletedPrimaryFile), (4210, .DeletedPrimaryFile)] ∧
    listedStates (({ primary := freedKeysHive 0x24, logs := [emptyLog 2] } : Builder).build deepWorld) = some [(4128, .Allocated)] ∧
    SaneLog (emptyLog 2) ∧ ∀ depth, SaneKeyLists (freedKeysHive 0x24) depth := by
  refine ⟨build_roots_loop _ _ (by decide +kernel), by decide +kernel, by decide +kernel, ?_, ?_⟩
  · have hm : marks 0x48 0x76 0 (emptyLog 2) = [512, 552] := by decide +kernel
    have hs : ∀ i ∈ [512, 552], 40 ≤ u32At (emptyLog 2) (i + 4) ∧ u32At (emptyLog 2) (i + 12) < 4294967295 := by decide +kernel
    intro i _ h
    have h2 : slice (emptyLog 2) i 2 = [0x48, 0x76] := by
      have : slice (emptyLog 2) i 2 = (slice (emptyLog 2) i 4).take 2 := by
        unfold slice; rw [List.take_take]; rfl
      rw [this, h]; rfl
    have := marks_mem _ _ _ 0 i h2
    rw [hm] at this
    exact hs i (by simpa using this)
  · have hm : marks 0x6E 0x6B 0 (freedKeysHive 0x24) = [4132, 4214, 4295] := by decide +kernel
    have hs : ∀ o ∈ [4128, 4210, 4291], u32At (freedKeysHive 0x24) (o + 24) = 0 := by decide +kernel
    intro depth o h1 h2
    have := marks_mem _ _ _ 0 (o + 4) h1
    rw [hm] at this
    rw [hs o (by simp at this ⊢; omega)] at h2
    cases h2

end Notatin
