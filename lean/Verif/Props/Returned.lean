import Verif.Props.History
import Verif.Props.Recovered
/-
C75, violated: what becomes of lost keys below a key that comes back.
-/
namespace Notatin
open Spec

/-- The history of a dirty hive as in `History`, but keys that are lost may come back, and keys may be where sub-keys
were. -/
structure Spec.AnyHistory (w : World) (b : Builder) (a : FileState) (later : List FileState) : Prop where
  recover : b.recover = true
  given : a.buf = b.primary
  replay : ∃ bb logs, DirtyHive b bb logs ∧ NothingDeleted w b.primary bb.base.hiveBinsDataSize ∧
    Replays bb.base.hiveBinsDataSize ((takenLogs bb.base.secondarySeq 0 logs).flatMap (·.entries)) a later
  states : ∀ s ∈ a :: later, Ordinary w s ∧ s.tree.name = a.tree.name

/-- The claim of C75 for keys that are lost for good, whatever happens to other keys: if such a key is below a
survivor, it is listed as deleted by a log entry. -/
def LostForGoodListed : Prop :=
  ∀ (w : World) (b : Builder) (a : FileState) (later : List FileState), 1 < w.depth → (∀ m, (w.order m).Perm m) →
    Function.Injective w.hashFn → AnyHistory w b a later → Apart (a :: later) → ∀ p, b.build w = some (.ok p) →
      ∀ M ns, p.iterate M {} false true false = some (.ok ns) →
        ∀ q ∈ steps (a :: later), ∀ key, Lost q.1 q.2 key → (∀ s ∈ later, key.2 ∉ s.paths) →
          BelowSurvivor ((a :: later).getLast (by simp)) key.2 →
          ∃ y ∈ ns, y.key.fileOffset = key.1 ∧ y.key.cellState = .DeletedTransactionLog

/-- A hive with this header is dirty, and with a log of these entries it can be replayed. -/
theorem any_history (w : World) (B : Bytes) (a : FileState) (ha : a.buf = histPre ++ B) (hao : Ordinary w a)
    (hhead : (match BaseBlock.fromBytes (histPre ++ B) with
      | .ok (bb, _) => decide (bb.base.fileType ≠ .unknown ∧ bb.base.primarySeq = 5 ∧ bb.base.secondarySeq = 4 ∧
          bb.base.hiveBinsDataSize = 4096 ∧
          calculateChecksum ((histPre ++ B).take 512) = .ok bb.base.checksum)
      | _ => false) = true)
    (hscan : ∀ s, initRecoverDeleted (w.env (histPre ++ B)) (s + 1) 4096 {} = some (.ok {}))
    (es : List RawEntry) (hf : ∀ e ∈ es, e.Fits) (hne : (histLog es).isEmpty = false)
    (h1 : (expectedEntries 512 es).head?.map (·.seq) = some 4)
    (h2 : ∀ e ∈ expectedEntries 512 es, e.hasValidHashes = true ∧ e.hiveBinsDataSize % 4096 = 0 ∧
      e.seq + 1 < 4294967296)
    (h3 : Consecutive (expectedEntries 512 es)) (later : List FileState)
    (h4 : Replays 4096 (expectedEntries 512 es) a later)
    (h5 : ∀ s ∈ later, Ordinary w s ∧ s.tree.name = a.tree.name) :
    AnyHistory w { primary := histPre ++ B, logs := [histLog es], recover := true } a later := by
  obtain ⟨bb, rest, b1, b2, b3, b4, b5, b6⟩ := hist_header B hhead
  obtain ⟨l, l1, l2, l3⟩ := histLog_parse es hf hne
  have hs : SoundLog l := by
    refine ⟨?_, by rw [l3]; exact h2, by rw [l3]; exact h3⟩
    rw [l3]
    cases hh : (expectedEntries 512 es).head? with
    | none => rw [hh] at h1; cases h1
    | some e =>
      rw [hh] at h1
      exact ⟨e, rfl, by rw [l2]; exact Option.some.inj h1⟩
  refine ⟨rfl, ha, ⟨bb, [l], ⟨⟨none, l1⟩, ⟨rest, b1⟩, b2, b6, by omega, by omega, ?_, ⟨l, by simp, by omega⟩⟩,
    ⟨1, {}, ⟨fun _ => rfl, fun _ => rfl, fun _ => rfl, fun _ => rfl⟩, ?_⟩, ?_⟩, ?_⟩
  · intro x hx
    cases List.mem_singleton.1 hx
    exact hs
  · intro steps hst
    obtain ⟨s, rfl⟩ : ∃ s, steps = s + 1 := ⟨steps - 1, by omega⟩
    rw [b5]
    exact hscan s
  · rw [b5, takenLogs, if_pos ⟨by omega, .inl rfl⟩, takenLogs, List.flatMap_cons, List.flatMap_nil, List.append_nil, l3]
    exact h4
  · intro s hs
    rcases List.mem_cons.1 hs with rfl | hs
    · exact ⟨hao, rfl⟩
    · exact h5 s hs

/-! ### The witness -/

/-- The sub-key `b` of `a` with `k` sub-keys. -/
def returnB (k : Nat) : NkCell := exampleCell 0x20 k 308 [0x62]

/-- The sub-key `c` of `b`. -/
def returnC : NkCell := exampleCell 0x20 0 0 [0x63]

/-- The keys `RT`, `a`, `b`, `c` of a hive, where `a` has `m` sub-keys and `b` has `k`. -/
def returnBin (m k : Nat) : Bytes :=
  hbinBytes 0 405 0 0 0 0 ++ (histRoot 1).encode ++ leafCell .lf (-16) [(130, [0, 0, 0, 0])] ++ (histA m 1).encode ++
    leafCell .lf (-16) [(227, [0, 0, 0, 0])] ++ (returnB k).encode ++ leafCell .lf (-16) [(324, [0, 0, 0, 0])] ++
    returnC.encode

def returnWorld : World := { histWorld with hashFn := id }

/-- All four keys. -/
def returnFull : FileState :=
  ⟨0, histPre ++ returnBin 1 1, .mk 4128 (histRoot 1) ['R', 'T'] [.mk 4226 (histA 1 1) ['a'] [.mk 4323 (returnB 1) ['b']
    [.mk 4420 returnC ['c'] []]]], fun _ => []⟩

/-- Without `b` and `c`. -/
def returnBare (seq k : Nat) : FileState :=
  ⟨seq, histPre ++ returnBin 0 k, .mk 4128 (histRoot 1) ['R', 'T'] [.mk 4226 (histA 0 1) ['a'] []], fun _ => []⟩

/-- With `b`, but without `c`. -/
def returnHalf : FileState :=
  ⟨6, histPre ++ returnBin 1 0, .mk 4128 (histRoot 1) ['R', 'T'] [.mk 4226 (histA 1 1) ['a'] [.mk 4323 (returnB 0) ['b'] []]],
    fun _ => []⟩

theorem returnFull_ordinary : Ordinary returnWorld returnFull := by
  have hl : (returnBin 1 1).length = 405 := by decide +kernel
  refine ⟨⟨⟨⟨0, 405, 0, 0, 0, 0, by decide, by decide, by decide, by decide, by decide, by decide,
    hist_at _ 0 _ (by decide +kernel) (Nat.zero_le _)⟩, rfl, ?_, by decide +kernel⟩, ?_⟩, by decide +kernel, ?_, ?_,
    by decide +kernel, ?_, by decide +kernel⟩
  · unfold returnFull
    simp only
    rw [TreeAt.eq_def]
    simp only
    rw [ForestAt, ForestAt, TreeAt.eq_def]
    simp only
    rw [ForestAt, ForestAt, TreeAt.eq_def]
    simp only
    rw [ForestAt, ForestAt, TreeAt, ForestAt]
    refine ⟨⟨by unfold NkCell.Fits isI32; decide, hist_at _ 32 _ (by decide +kernel) (by rw [hl]; decide), .inl ⟨by decide, by decide⟩⟩,
      .inr ⟨by decide, by decide, .inl ⟨.lf, -16, [(130, [0, 0, 0, 0])], by decide, by decide, by decide,
        hist_at _ 114 _ (by decide +kernel) (by rw [hl]; decide), rfl⟩⟩, by simp only [Tree.off]; decide,
      ⟨⟨by unfold NkCell.Fits isI32; decide, hist_at _ 130 _ (by decide +kernel) (by rw [hl]; decide), .inl ⟨by decide, by decide⟩⟩,
      .inr ⟨by decide, by decide, .inl ⟨.lf, -16, [(227, [0, 0, 0, 0])], by decide, by decide, by decide,
        hist_at _ 211 _ (by decide +kernel) (by rw [hl]; decide), rfl⟩⟩, by simp only [Tree.off]; decide,
      ⟨⟨by unfold NkCell.Fits isI32; decide, hist_at _ 227 _ (by decide +kernel) (by rw [hl]; decide), .inl ⟨by decide, by decide⟩⟩,
      .inr ⟨by decide, by decide, .inl ⟨.lf, -16, [(324, [0, 0, 0, 0])], by decide, by decide, by decide,
        hist_at _ 308 _ (by decide +kernel) (by rw [hl]; decide), rfl⟩⟩, by simp only [Tree.off]; decide,
      ⟨⟨by unfold NkCell.Fits isI32; decide, hist_at _ 324 _ (by decide +kernel) (by rw [hl]; decide), .inl ⟨by decide, by decide⟩⟩,
        .inl ⟨rfl, rfl⟩, trivial⟩, trivial⟩, trivial⟩, trivial⟩
  · simp only [returnFull, Tree.Every, EveryAll]
    exact ⟨noValues _ _ _ rfl, ⟨noValues _ _ _ rfl, ⟨noValues _ _ _ rfl, ⟨noValues _ _ _ rfl, trivial⟩, trivial⟩,
      trivial⟩, trivial⟩
  · simp only [returnFull, Tree.Every, EveryAll, Tree.name]; decide
  · simp only [returnFull, Tree.Every, EveryAll]; decide
  · simp only [returnFull, EveryAll, Tree.Every, Tree.kids, Tree.cell]; decide

theorem returnHalf_ordinary : Ordinary returnWorld returnHalf := by
  have hl : (returnBin 1 0).length = 405 := by decide +kernel
  refine ⟨⟨⟨⟨0, 405, 0, 0, 0, 0, by decide, by decide, by decide, by decide, by decide, by decide,
    hist_at _ 0 _ (by decide +kernel) (Nat.zero_le _)⟩, rfl, ?_, by decide +kernel⟩, ?_⟩, by decide +kernel, ?_, ?_,
    by decide +kernel, ?_, by decide +kernel⟩
  · unfold returnHalf
    simp only
    rw [TreeAt.eq_def]
    simp only
    rw [ForestAt, ForestAt, TreeAt.eq_def]
    simp only
    rw [ForestAt, ForestAt, TreeAt, ForestAt]
    refine ⟨⟨by unfold NkCell.Fits isI32; decide, hist_at _ 32 _ (by decide +kernel) (by rw [hl]; decide), .inl ⟨by decide, by decide⟩⟩,
      .inr ⟨by decide, by decide, .inl ⟨.lf, -16, [(130, [0, 0, 0, 0])], by decide, by decide, by decide,
        hist_at _ 114 _ (by decide +kernel) (by rw [hl]; decide), rfl⟩⟩, by simp only [Tree.off]; decide,
      ⟨⟨by unfold NkCell.Fits isI32; decide, hist_at _ 130 _ (by decide +kernel) (by rw [hl]; decide), .inl ⟨by decide, by decide⟩⟩,
      .inr ⟨by decide, by decide, .inl ⟨.lf, -16, [(227, [0, 0, 0, 0])], by decide, by decide, by decide,
        hist_at _ 211 _ (by decide +kernel) (by rw [hl]; decide), rfl⟩⟩, by simp only [Tree.off]; decide,
      ⟨⟨by unfold NkCell.Fits isI32; decide, hist_at _ 227 _ (by decide +kernel) (by rw [hl]; decide), .inl ⟨by decide, by decide⟩⟩,
        .inl ⟨rfl, rfl⟩, trivial⟩, trivial⟩, trivial⟩
  · simp only [returnHalf, Tree.Every, EveryAll]
    exact ⟨noValues _ _ _ rfl, ⟨noValues _ _ _ rfl, ⟨noValues _ _ _ rfl, trivial⟩, trivial⟩, trivial⟩
  · simp only [returnHalf, Tree.Every, EveryAll, Tree.name]; decide
  · simp only [returnHalf, Tree.Every, EveryAll]; decide
  · simp only [returnHalf, EveryAll, Tree.Every, Tree.kids, Tree.cell]; decide

theorem returnBare_ordinary (seq k : Nat) (hk : k = 0 ∨ k = 1) : Ordinary returnWorld (returnBare seq k) := by
  have hl : (returnBin 0 k).length = 405 := by rcases hk with rfl | rfl <;> decide +kernel
  refine ⟨⟨⟨⟨0, 405, 0, 0, 0, 0, by decide, by decide, by decide, by decide, by decide, by decide,
    hist_at _ 0 _ (by rcases hk with rfl | rfl <;> decide +kernel) (by rw [hl]; decide)⟩, rfl, ?_,
    (by decide : ([4128, 4226] : List Nat).Nodup)⟩, ?_⟩,
    (by decide : (["\\RT".toList, "\\RT\\a".toList] : List Str).Nodup), ?_, ?_,
    (by decide : (0x24 : Nat).testBit 2 = true), ?_,
    (by decide : ∀ e ∈ [(4128, "\\RT".toList), (4226, "\\RT\\a".toList)], e.2.length + 1 < 20)⟩
  · unfold returnBare
    simp only
    rw [TreeAt.eq_def]
    simp only
    rw [ForestAt, ForestAt, TreeAt, ForestAt]
    refine ⟨⟨by unfold NkCell.Fits isI32; decide, hist_at _ 32 _ (by rcases hk with rfl | rfl <;> decide +kernel) (by rw [hl]; decide),
        .inl ⟨by decide, by decide⟩⟩,
      .inr ⟨by decide, by decide, .inl ⟨.lf, -16, [(130, [0, 0, 0, 0])], by decide, by decide, by decide,
        hist_at _ 114 _ (by rcases hk with rfl | rfl <;> decide +kernel) (by rw [hl]; decide), rfl⟩⟩,
      by simp only [Tree.off]; decide,
      ⟨⟨by unfold NkCell.Fits isI32; decide,
        hist_at _ 130 _ (by rcases hk with rfl | rfl <;> decide +kernel) (by rw [hl]; decide),
        .inl ⟨(by decide : (0x20 : Nat).testBit 5 = true), rfl⟩⟩, .inl ⟨rfl, rfl⟩, trivial⟩, trivial⟩
  · simp only [returnBare, Tree.Every, EveryAll]
    exact ⟨noValues _ _ _ rfl, ⟨noValues _ _ _ rfl, trivial⟩, trivial⟩
  · simp only [returnBare, Tree.Every, EveryAll, Tree.name]; decide
  · simp only [returnBare, Tree.Every, EveryAll]; decide
  · simp only [returnBare, EveryAll, Tree.Every, Tree.kids, Tree.cell]
    exact ⟨⟨(by decide : (0x20 : Nat).testBit 2 = false), trivial⟩, trivial⟩

/-- Entry 4 takes `b` away, with `c` below it; entry 5 takes away the sub-keys of what was `b`; entry 6 puts `b`
back. -/
def returnEntries : List RawEntry := [histEntry 4 154 0, histEntry 5 251 0, histEntry 6 154 1]

theorem return_history : AnyHistory returnWorld
    { primary := histPre ++ returnBin 1 1, logs := [histLog returnEntries], recover := true }
    returnFull [returnBare 4 1, returnBare 5 0, returnHalf] := by
  have hpages : (expectedEntries 512 returnEntries).map
      (fun e => (e.seq, e.hiveBinsDataSize, e.dirtyPages, e.hasValidHashes)) =
      [(4, 4096, [⟨154, [0]⟩], true), (5, 4096, [⟨251, [0]⟩], true), (6, 4096, [⟨154, [1]⟩], true)] := by decide +kernel
  have hf : ∀ e ∈ returnEntries, e.Fits := by unfold RawEntry.Fits; decide +kernel
  have hne : (histLog returnEntries).isEmpty = false := by decide +kernel
  have hd := any_history returnWorld (returnBin 1 1) returnFull rfl returnFull_ordinary (by decide +kernel) (fun _ => rfl) _
    hf hne
  generalize expectedEntries 512 returnEntries = es at hpages hd
  match es, hpages, congrArg List.length hpages with
  | [e1, e2, e3], hpages, _ =>
    simp only [List.map_cons, List.map_nil, List.cons.injEq, Prod.mk.injEq, and_true] at hpages
    obtain ⟨⟨a1, a2, a3, a4⟩, ⟨c1, c2, c3, c4⟩, d1, d2, d3, d4⟩ := hpages
    refine hd (by simp [a1]) ?_ ⟨by omega, by omega, trivial⟩ _ ⟨a1.symm, ?_, c1.symm, ?_, d1.symm, ?_, trivial⟩ ?_
    · intro e he
      rcases List.mem_cons.1 he with rfl | he
      · exact ⟨a4, by omega, by omega⟩
      rcases List.mem_cons.1 he with rfl | he
      · exact ⟨c4, by omega, by omega⟩
      cases List.mem_singleton.1 he
      exact ⟨d4, by omega, by omega⟩
    · exact written_same (by omega)
        (written_byte e1 (returnBin 1 1) (returnBin 0 1) 154 0 a3 (by decide +kernel) (by decide +kernel))
    · exact written_same (by omega)
        (written_byte e2 (returnBin 0 1) (returnBin 0 0) 251 0 c3 (by decide +kernel) (by decide +kernel))
    · exact written_same (by omega)
        (written_byte e3 (returnBin 0 0) (returnBin 1 0) 154 1 d3 (by decide +kernel) (by decide +kernel))
    · intro s hs
      rcases List.mem_cons.1 hs with rfl | hs
      · exact ⟨returnBare_ordinary 4 1 (.inr rfl), rfl⟩
      rcases List.mem_cons.1 hs with rfl | hs
      · exact ⟨returnBare_ordinary 5 0 (.inl rfl), rfl⟩
      cases List.mem_singleton.1 hs
      exact ⟨returnHalf_ordinary, rfl⟩

theorem return_apart : Apart [returnFull, returnBare 4 1, returnBare 5 0, returnHalf] := by
  intro s hs t ht key hk sub hsub name hn _ heq
  have hall : ∀ s ∈ [returnFull, returnBare 4 1, returnBare 5 0, returnHalf], ∀ e ∈ s.keys, e ∈ returnFull.keys := by
    decide +kernel
  have hinj : ∀ x ∈ returnFull.keys, ∀ y ∈ returnFull.keys, x.1 = y.1 → x = y := by decide +kernel
  have := hinj key (hall s hs key hk) sub (hall t ht sub hsub) heq
  rw [← this] at hn
  have := congrArg List.length hn
  simp at this

/-- C75, violated: `b` is lost with its sub-key `c` and comes back without it.  That `c` was deleted is forgotten with
the record that `b` was. -/
theorem lost_for_good_violated : ¬ LostForGoodListed := by
  intro h
  obtain ⟨p, ns, hp, hi, hns⟩ := listedStates_of
    (show listedStates (({ primary := histPre ++ returnBin 1 1, logs := [histLog returnEntries], recover := true } :
        Builder).build returnWorld) =
      some [(4128, .Allocated), (4226, .Allocated), (4323, .Allocated)] by decide +kernel)
  obtain ⟨y, hy, hyo, _⟩ := h returnWorld _ _ _ (by decide) (fun m => List.Perm.refl m) (fun _ _ h => h) return_history return_apart
    p hp 100 ns hi (returnFull, returnBare 4 1) List.mem_cons_self (4420, "\\RT\\a\\b\\c".toList)
    ⟨by decide +kernel, by decide +kernel⟩ (by decide +kernel)
    ⟨(4226, "\\RT\\a".toList), by decide +kernel, by decide, "b\\c".toList, by decide⟩
  have : (y.key.fileOffset, y.key.cellState) ∈ [(4128, CellState.Allocated), (4226, .Allocated), (4323, .Allocated)] := by
    rw [← hns]
    exact List.mem_map.2 ⟨y, hy, rfl⟩
  simp [hyo] at this

/-- As long as `b` has not come back, `c` is listed. -/
example : listedStates (({ primary := histPre ++ returnBin 1 1, logs := [histLog (returnEntries.take 2)], recover := true } :
      Builder).build returnWorld) =
    some [(4128, .Allocated), (4226, .Allocated), (4323, .DeletedTransactionLog), (4420, .DeletedTransactionLog)] := by
  decide +kernel

/-! ### A key where its sub-key was -/

/-- The claim of C75 for histories in which no lost key comes back, wherever the keys are. -/
def LostAnywhereListed : Prop :=
  ∀ (w : World) (b : Builder) (a : FileState) (later : List FileState), 1 < w.depth → (∀ m, (w.order m).Perm m) →
    Function.Injective w.hashFn → AnyHistory w b a later → NoReturn (a :: later) → ∀ p, b.build w = some (.ok p) →
      ∀ M ns, p.iterate M {} false true false = some (.ok ns) →
        ∀ q ∈ steps (a :: later), ∀ key, Lost q.1 q.2 key →
          BelowSurvivor ((a :: later).getLast (by simp)) key.2 →
          ∃ y ∈ ns, y.key.fileOffset = key.1 ∧ y.key.cellState = .DeletedTransactionLog

/-- The sub-key of `a`, with this name. -/
def movedB (name : UInt8) : NkCell := exampleCell 0x20 1 308 [name]

/-- The root with the sub-key at `off`, `a`, its sub-key with this name, and the sub-key `c` of that. -/
def movedBin (off : Nat) (name : UInt8) : Bytes :=
  hbinBytes 0 405 0 0 0 0 ++ (histRoot 1).encode ++ leafCell .lf (-16) [(off, [0, 0, 0, 0])] ++ (histA 1 1).encode ++
    leafCell .lf (-16) [(227, [0, 0, 0, 0])] ++ (movedB name).encode ++ leafCell .lf (-16) [(324, [0, 0, 0, 0])] ++
    returnC.encode

/-- `a` with a sub-key and `c` below that. -/
def movedBoth (seq : Nat) (name : UInt8) (c : Char) : FileState :=
  ⟨seq, histPre ++ movedBin 130 name, .mk 4128 (histRoot 1) ['R', 'T'] [.mk 4226 (histA 1 1) ['a'] [.mk 4323 (movedB name) [c]
    [.mk 4420 returnC ['c'] []]]], fun _ => []⟩

/-- `a` where its sub-key was. -/
def movedA : FileState :=
  ⟨5, histPre ++ movedBin 227 0x61, .mk 4128 (histRoot 1) ['R', 'T'] [.mk 4323 (movedB 0x61) ['a']
    [.mk 4420 returnC ['c'] []]], fun _ => []⟩

theorem movedBoth_ordinary (seq : Nat) (name : UInt8) (c : Char) (h : (name, c) = (0x62, 'b') ∨ (name, c) = (0x61, 'a')) :
    Ordinary returnWorld (movedBoth seq name c) := by
  have hl : (movedBin 130 name).length = 405 := by
    rcases h with h | h <;> cases h <;> decide +kernel
  refine ⟨⟨⟨⟨0, 405, 0, 0, 0, 0, by decide, by decide, by decide, by decide, by decide, by decide,
    hist_at _ 0 _ (by rcases h with h | h <;> cases h <;> decide +kernel) (Nat.zero_le _)⟩, rfl, ?_,
    (by decide : ([4128, 4226, 4323, 4420] : List Nat).Nodup)⟩, ?_⟩,
    (by show (movedBoth 0 name c).paths.Nodup; rcases h with h | h <;> cases h <;> decide +kernel), ?_, ?_, (by decide : (0x24 : Nat).testBit 2 = true), ?_,
    (by show ∀ e ∈ (movedBoth 0 name c).keys, e.2.length + 1 < 20; rcases h with h | h <;> cases h <;> decide +kernel)⟩
  · unfold movedBoth
    simp only
    rw [TreeAt.eq_def]
    simp only
    rw [ForestAt, ForestAt, TreeAt.eq_def]
    simp only
    rw [ForestAt, ForestAt, TreeAt.eq_def]
    simp only
    rw [ForestAt, ForestAt, TreeAt, ForestAt]
    refine ⟨⟨by unfold NkCell.Fits isI32; decide,
        hist_at _ 32 _ (by rcases h with h | h <;> cases h <;> decide +kernel) (by rw [hl]; decide), .inl ⟨by decide, by decide⟩⟩,
      .inr ⟨by decide, by decide, .inl ⟨.lf, -16, [(130, [0, 0, 0, 0])], by decide, by decide, by decide,
        hist_at _ 114 _ (by rcases h with h | h <;> cases h <;> decide +kernel) (by rw [hl]; decide), rfl⟩⟩,
      by simp only [Tree.off]; decide,
      ⟨⟨by unfold NkCell.Fits isI32; decide,
        hist_at _ 130 _ (by rcases h with h | h <;> cases h <;> decide +kernel) (by rw [hl]; decide), .inl ⟨by decide, by decide⟩⟩,
      .inr ⟨by decide, by decide, .inl ⟨.lf, -16, [(227, [0, 0, 0, 0])], by decide, by decide, by decide,
        hist_at _ 211 _ (by rcases h with h | h <;> cases h <;> decide +kernel) (by rw [hl]; decide), rfl⟩⟩,
      by simp only [Tree.off]; decide,
      ⟨⟨by rcases h with h | h <;> cases h <;> (unfold NkCell.Fits isI32; decide),
        hist_at _ 227 _ (by rcases h with h | h <;> cases h <;> decide +kernel) (by rw [hl]; decide),
        .inl (by rcases h with h | h <;> cases h <;> exact ⟨by decide, by decide⟩)⟩,
      .inr ⟨(by decide : 0 < 1), (by decide : 1 ≤ 1048576), .inl ⟨.lf, -16, [(324, [0, 0, 0, 0])], by decide, by decide, by decide,
        hist_at _ 308 _ (by rcases h with h | h <;> cases h <;> decide +kernel) (by rw [hl]; decide), rfl⟩⟩,
      by simp only [Tree.off]; decide,
      ⟨⟨by unfold NkCell.Fits isI32; decide,
        hist_at _ 324 _ (by rcases h with h | h <;> cases h <;> decide +kernel) (by rw [hl]; decide), .inl ⟨by decide, by decide⟩⟩,
        .inl ⟨rfl, rfl⟩, trivial⟩, trivial⟩, trivial⟩, trivial⟩
  · simp only [movedBoth, Tree.Every, EveryAll]
    exact ⟨noValues _ _ _ rfl, ⟨noValues _ _ _ rfl, ⟨noValues _ _ _ rfl, ⟨noValues _ _ _ rfl, trivial⟩, trivial⟩, trivial⟩, trivial⟩
  · rcases h with h | h <;> cases h <;> (simp only [movedBoth, Tree.Every, EveryAll, Tree.name]; decide)
  · rcases h with h | h <;> cases h <;> (simp only [movedBoth, Tree.Every, EveryAll]; decide)
  · rcases h with h | h <;> cases h <;> (simp only [movedBoth, EveryAll, Tree.Every, Tree.kids, Tree.cell]; decide)

theorem movedA_ordinary : Ordinary returnWorld movedA := by
  have hl : (movedBin 227 0x61).length = 405 := by decide +kernel
  refine ⟨⟨⟨⟨0, 405, 0, 0, 0, 0, by decide, by decide, by decide, by decide, by decide, by decide,
    hist_at _ 0 _ (by decide +kernel) (Nat.zero_le _)⟩, rfl, ?_, by decide +kernel⟩, ?_⟩, by decide +kernel, ?_, ?_,
    by decide +kernel, ?_, by decide +kernel⟩
  · unfold movedA
    simp only
    rw [TreeAt.eq_def]
    simp only
    rw [ForestAt, ForestAt, TreeAt.eq_def]
    simp only
    rw [ForestAt, ForestAt, TreeAt, ForestAt]
    refine ⟨⟨by unfold NkCell.Fits isI32; decide, hist_at _ 32 _ (by decide +kernel) (by rw [hl]; decide), .inl ⟨by decide, by decide⟩⟩,
      .inr ⟨by decide, by decide, .inl ⟨.lf, -16, [(227, [0, 0, 0, 0])], by decide, by decide, by decide,
        hist_at _ 114 _ (by decide +kernel) (by rw [hl]; decide), rfl⟩⟩, by simp only [Tree.off]; decide,
      ⟨⟨by unfold NkCell.Fits isI32; decide, hist_at _ 227 _ (by decide +kernel) (by rw [hl]; decide), .inl ⟨by decide, by decide⟩⟩,
      .inr ⟨by decide, by decide, .inl ⟨.lf, -16, [(324, [0, 0, 0, 0])], by decide, by decide, by decide,
        hist_at _ 308 _ (by decide +kernel) (by rw [hl]; decide), rfl⟩⟩, by simp only [Tree.off]; decide,
      ⟨⟨by unfold NkCell.Fits isI32; decide, hist_at _ 324 _ (by decide +kernel) (by rw [hl]; decide), .inl ⟨by decide, by decide⟩⟩,
        .inl ⟨rfl, rfl⟩, trivial⟩, trivial⟩, trivial⟩
  · simp only [movedA, Tree.Every, EveryAll]
    exact ⟨noValues _ _ _ rfl, ⟨noValues _ _ _ rfl, ⟨noValues _ _ _ rfl, trivial⟩, trivial⟩, trivial⟩
  · simp only [movedA, Tree.Every, EveryAll, Tree.name]; decide
  · simp only [movedA, Tree.Every, EveryAll]; decide
  · simp only [movedA, EveryAll, Tree.Every, Tree.kids, Tree.cell]; decide

/-- Entry 4 renames `b` to `a`; entry 5 makes it the sub-key of the root in place of the other `a`. -/
def movedEntries : List RawEntry := [histEntry 4 307 0x61, histEntry 5 122 227]

theorem moved_history : AnyHistory returnWorld
    { primary := histPre ++ movedBin 130 0x62, logs := [histLog movedEntries], recover := true }
    (movedBoth 0 0x62 'b') [movedBoth 4 0x61 'a', movedA] := by
  have hpages : (expectedEntries 512 movedEntries).map
      (fun e => (e.seq, e.hiveBinsDataSize, e.dirtyPages, e.hasValidHashes)) =
      [(4, 4096, [⟨307, [0x61]⟩], true), (5, 4096, [⟨122, [227]⟩], true)] := by decide +kernel
  have hf : ∀ e ∈ movedEntries, e.Fits := by unfold RawEntry.Fits; decide +kernel
  have hne : (histLog movedEntries).isEmpty = false := by decide +kernel
  have hd := any_history returnWorld (movedBin 130 0x62) (movedBoth 0 0x62 'b') rfl
    (movedBoth_ordinary 0 _ _ (.inl rfl)) (by decide +kernel) (fun _ => rfl) _ hf hne
  generalize expectedEntries 512 movedEntries = es at hpages hd
  match es, hpages, congrArg List.length hpages with
  | [e1, e2], hpages, _ =>
    simp only [List.map_cons, List.map_nil, List.cons.injEq, Prod.mk.injEq, and_true] at hpages
    obtain ⟨⟨a1, a2, a3, a4⟩, c1, c2, c3, c4⟩ := hpages
    refine hd (by simp [a1]) ?_ ⟨by omega, trivial⟩ _ ⟨a1.symm, ?_, c1.symm, ?_, trivial⟩ ?_
    · intro e he
      rcases List.mem_cons.1 he with rfl | he
      · exact ⟨a4, by omega, by omega⟩
      cases List.mem_singleton.1 he
      exact ⟨c4, by omega, by omega⟩
    · exact written_same (by omega)
        (written_byte e1 (movedBin 130 0x62) (movedBin 130 0x61) 307 0x61 a3 (by decide +kernel) (by decide +kernel))
    · exact written_same (by omega)
        (written_byte e2 (movedBin 130 0x61) (movedBin 227 0x61) 122 227 c3 (by decide +kernel) (by decide +kernel))
    · intro s hs
      rcases List.mem_cons.1 hs with rfl | hs
      · exact ⟨movedBoth_ordinary 4 _ _ (.inr rfl), rfl⟩
      cases List.mem_singleton.1 hs
      exact ⟨movedA_ordinary, rfl⟩

/-- C75, violated: what was lost below a lost key is not listed when the key above has moved to where the lost key
was (`update_modified_lists` takes the two for the same key). -/
theorem lost_anywhere_violated : ¬ LostAnywhereListed := by
  intro h
  have hno : NoReturn [movedBoth 0 0x62 'b', movedBoth 4 0x61 'a', movedA] := by
    refine ⟨fun key hk s hs => ?_, fun _ _ s hs => absurd hs List.not_mem_nil, trivial⟩
    cases List.mem_singleton.1 hs
    have hin : ∀ k ∈ (movedBoth 0 0x62 'b').keys, k.2 ∈ movedA.paths → k.2 ∈ (movedBoth 4 0x61 'a').paths := by
      decide +kernel
    exact fun hm => hk.2 (hin key hk.1 hm)
  obtain ⟨p, ns, hp, hi, hns⟩ := listedStates_of
    (show listedStates (({ primary := histPre ++ movedBin 130 0x62, logs := [histLog movedEntries], recover := true } :
        Builder).build returnWorld) = some [(4128, .Allocated), (4323, .Allocated), (4323, .DeletedTransactionLog),
          (4323, .DeletedTransactionLog), (4420, .Allocated)] by decide +kernel)
  obtain ⟨y, hy, hyo, hys⟩ := h returnWorld _ _ _ (by decide) (fun m => List.Perm.refl m) (fun _ _ h => h) moved_history hno
    p hp 100 ns hi (movedBoth 0 0x62 'b', movedBoth 4 0x61 'a') List.mem_cons_self (4420, "\\RT\\a\\b\\c".toList)
    ⟨by decide +kernel, by decide +kernel⟩
    ⟨(4323, "\\RT\\a".toList), by decide +kernel, by decide, "b\\c".toList, by decide⟩
  have : (y.key.fileOffset, y.key.cellState) ∈ [(4128, CellState.Allocated), (4323, .Allocated),
      (4323, .DeletedTransactionLog), (4323, .DeletedTransactionLog), (4420, .Allocated)] := by
    rw [← hns]
    exact List.mem_map.2 ⟨y, hy, rfl⟩
  simp [hyo, hys] at this

end Notatin
