import Verif.Model.Recover
import Verif.Spec.Recover
import Verif.Lemmas.Iterate
/-
Parsing a cell from a longer slice, and the effect of the scan for deleted cells on the state.
-/
namespace Notatin
open Spec

theorem slice_append (bs ext : Bytes) (o k : Nat) (h : o + k ≤ bs.length) :
    slice (bs ++ ext) o k = slice bs o k := by
  unfold slice
  rw [List.drop_append_of_le_length (by omega), List.take_append_of_le_length (by
    rw [List.length_drop]; omega)]

theorem u32At_append (bs ext : Bytes) (o : Nat) (h : o + 4 ≤ bs.length) :
    u32At (bs ++ ext) o = u32At bs o := by
  unfold u32At
  rw [slice_append _ _ _ _ h]

/-- Bytes after the cell do not matter to the value parser. -/
theorem keyValue_extend (bs ext : Bytes) (off : Nat) (seq : Option Nat) (kv : KeyValue) (r : Bytes)
    (h : KeyValue.fromBytes bs off seq = .ok (kv, r)) :
    ∃ r', KeyValue.fromBytes (bs ++ ext) off seq = .ok (kv, r') := by
  obtain ⟨h1, h2, h3, h4⟩ := keyValue_ok _ _ _ _ h
  have hlen : 24 ≤ bs.length := by omega
  have e0 : u32At (bs ++ ext) 0 = u32At bs 0 := u32At_append _ _ _ (by omega)
  have ec : cellSizeAt (bs ++ ext) = cellSizeAt bs := by unfold cellSizeAt; rw [e0]
  have en : vkNameSize (bs ++ ext) = vkNameSize bs := by
    unfold vkNameSize; rw [slice_append _ _ _ _ (by omega)]
  obtain ⟨name, logs, hn, hc⟩ := keyValue_closed bs off seq h1 h2 h3 h4
  obtain ⟨name', logs', hn', hc'⟩ := keyValue_closed (bs ++ ext) off seq (by rw [ec]; exact h1)
    (by rw [ec, List.length_append]; omega) (by rw [slice_append _ _ _ _ (by omega)]; exact h3)
    (by rw [en, List.length_append]; omega)
  rw [en, slice_append _ _ 20 2 (by omega), slice_append _ _ 24 _ h4, hn] at hn'
  cases hn'
  rw [hc] at h
  cases h
  suffices he : valueOfSlices (bs ++ ext) off seq name logs = valueOfSlices bs off seq name logs from
    ⟨_, by rw [hc', he]⟩
  unfold valueOfSlices
  rw [en, ec, e0, u32At_append _ _ 8 (by omega), u32At_append _ _ 12 (by omega),
    u32At_append _ _ 16 (by omega), slice_append _ _ 20 2 (by omega),
    slice_append _ _ 22 2 (by omega)]
  by_cases hs : 24 + vkNameSize bs ≤ cellSizeAt bs
  · rw [slice_append _ _ (24 + vkNameSize bs) _ (by omega)]
  · rw [show cellSizeAt bs - (24 + vkNameSize bs) = 0 by omega]
    simp [slice]

/-- Bytes after the cell do not matter to the key parser. -/
theorem keyNode_extend (hashFn : Bytes → Bytes) (bs ext : Bytes) (off : Nat) (path : Str)
    (seq : Option Nat) (k : KeyNode) (r : Bytes)
    (h : KeyNode.fromBytes hashFn bs off path seq = .ok (k, r)) :
    ∃ r', KeyNode.fromBytes hashFn (bs ++ ext) off path seq = .ok (k, r') := by
  obtain ⟨h1, h2, h3, h4⟩ := keyNode_ok _ _ _ _ _ _ h
  have hlen : 80 ≤ bs.length := by omega
  have e0 : u32At (bs ++ ext) 0 = u32At bs 0 := u32At_append _ _ _ (by omega)
  have ec : cellSizeAt (bs ++ ext) = cellSizeAt bs := by unfold cellSizeAt; rw [e0]
  have en : nkNameSize (bs ++ ext) = nkNameSize bs := by
    unfold nkNameSize; rw [slice_append _ _ _ _ (by omega)]
  obtain ⟨name, logs, hn, hc⟩ := keyNode_closed hashFn bs off path seq h1 h2 h3 h4
  obtain ⟨name', logs', hn', hc'⟩ := keyNode_closed hashFn (bs ++ ext) off path seq
    (by rw [ec]; exact h1)
    (by rw [ec, List.length_append]; omega) (by rw [slice_append _ _ _ _ (by omega)]; exact h3)
    (by rw [en, List.length_append]; omega)
  rw [en, slice_append _ _ 6 2 (by omega), slice_append _ _ 80 _ h4, hn] at hn'
  cases hn'
  rw [hc] at h
  cases h
  suffices he : keyOfSlices hashFn (bs ++ ext) off path seq name logs =
      keyOfSlices hashFn bs off path seq name logs from ⟨_, by rw [hc', he]⟩
  unfold keyOfSlices
  rw [en, ec, e0]
  simp only [u32At_append bs ext _ (show 16 + 4 ≤ bs.length by omega),
    u32At_append bs ext _ (show 20 + 4 ≤ bs.length by omega),
    u32At_append bs ext _ (show 24 + 4 ≤ bs.length by omega),
    u32At_append bs ext _ (show 28 + 4 ≤ bs.length by omega),
    u32At_append bs ext _ (show 32 + 4 ≤ bs.length by omega),
    u32At_append bs ext _ (show 36 + 4 ≤ bs.length by omega),
    u32At_append bs ext _ (show 40 + 4 ≤ bs.length by omega),
    u32At_append bs ext _ (show 44 + 4 ≤ bs.length by omega),
    u32At_append bs ext _ (show 48 + 4 ≤ bs.length by omega),
    u32At_append bs ext _ (show 52 + 4 ≤ bs.length by omega),
    u32At_append bs ext _ (show 56 + 4 ≤ bs.length by omega),
    u32At_append bs ext _ (show 60 + 4 ≤ bs.length by omega),
    u32At_append bs ext _ (show 64 + 4 ≤ bs.length by omega),
    u32At_append bs ext _ (show 68 + 4 ≤ bs.length by omega),
    u32At_append bs ext _ (show 72 + 4 ≤ bs.length by omega),
    slice_append bs ext _ _ (show 6 + 2 ≤ bs.length by omega),
    slice_append bs ext _ _ (show 8 + 8 ≤ bs.length by omega),
    slice_append bs ext _ _ (show 78 + 2 ≤ bs.length by omega)]
  by_cases hs : 80 + nkNameSize bs ≤ cellSizeAt bs
  · rw [slice_append _ _ (80 + nkNameSize bs) _ (by omega)]
  · rw [show cellSizeAt bs - (80 + nkNameSize bs) = 0 by omega]
    simp [slice]

/-! ### Items found -/

/-- An item the scan reports. -/
inductive Found where
  | value (v : Value)
  | key (n : Node)

/-- Its file offset. -/
def Found.off : Found → Nat
  | .value v => v.val.fileOffset
  | .key n => n.key.fileOffset

/-- The size of its cell. -/
def Found.size : Found → Nat
  | .value v => v.val.cellSize
  | .key n => n.key.cellSize

/-- How it is put on record. -/
def Found.record (st : State) : Found → State
  | .value v => { st with deletedValues := mapAdd st.deletedValues [] v }
  | .key n => { st with deletedKeys := mapAdd st.deletedKeys [] n }

/-- The options used to read a deleted key. -/
def deletedAt (off : Nat) : ReadOptions :=
  { offset := off, curPath := [], filter := none, selfMatch := true, seq := none,
    getModified := false }

/-- It is what reading the file at its offset gives, marked as deleted, for a reason. -/
def Found.Genuine (env : Env) : Found → Prop
  | .value v => DeletedAs env.fi.buffer v.val.fileOffset v.val.cellState ∧ ∃ kv r,
      KeyValue.fromBytes (env.fi.buffer.drop v.val.fileOffset) v.val.fileOffset none = .ok (kv, r) ∧
      v = .mk { kv.readValueBytes env.hashFn env.fi with cellState := v.val.cellState } []
  | .key n => DeletedAs env.fi.buffer n.key.fileOffset n.key.cellState ∧ ∃ m,
      readKey env {} (deletedAt n.key.fileOffset) = .ok (some m, 0) ∧
      n = m.setKey { m.key with cellState := n.key.cellState }

/-- Recording several items. -/
def recordAll (st : State) (its : List Found) : State := its.foldl Found.record st

theorem recordAll_append (st : State) (a b : List Found) :
    recordAll st (a ++ b) = recordAll (recordAll st a) b := List.foldl_append

theorem recordAll_info (its : List Found) (st : State) (i : Logs) :
    recordAll { st with info := i } its = { recordAll st its with info := i } := by
  induction its generalizing st with
  | nil => rfl
  | cons x its ih =>
    cases x with
    | value v => exact ih { st with deletedValues := mapAdd st.deletedValues [] v }
    | key n => exact ih { st with deletedKeys := mapAdd st.deletedKeys [] n }

/-- The scan of the bytes from `a` to `b` took `st` to `st'`: it put on record genuine items lying
in that range, none of them twice, and otherwise only added warnings. -/
def Grows (env : Env) (a b : Nat) (st st' : State) : Prop :=
  ∃ (its : List Found) (info : Logs), st' = { recordAll st its with info := info } ∧
    (∀ it ∈ its, it.Genuine env ∧ a ≤ it.off ∧ it.off < b) ∧ (its.map Found.off).Nodup

theorem grows_refl (env : Env) (a b : Nat) (st : State) : Grows env a b st st :=
  ⟨[], st.info, rfl, by simp, List.nodup_nil⟩

theorem grows_warn (env : Env) (a b : Nat) (st : State) (i : Logs) :
    Grows env a b st { st with info := i } := ⟨[], i, rfl, by simp, List.nodup_nil⟩

theorem grows_mono {env : Env} {a b a' b' : Nat} {st st' : State} (h : Grows env a b st st')
    (ha : a' ≤ a) (hb : b ≤ b') : Grows env a' b' st st' := by
  obtain ⟨its, info, h1, h2, h3⟩ := h
  exact ⟨its, info, h1, fun it hit => ⟨(h2 it hit).1, by have := (h2 it hit).2; omega⟩, h3⟩

theorem grows_trans {env : Env} {a b c : Nat} {s1 s2 s3 : State} (h1 : Grows env a b s1 s2)
    (h2 : Grows env b c s2 s3) (hab : a ≤ b) (hbc : b ≤ c) : Grows env a c s1 s3 := by
  obtain ⟨i1, g1, e1, p1, n1⟩ := h1
  obtain ⟨i2, g2, e2, p2, n2⟩ := h2
  refine ⟨i1 ++ i2, g2, ?_, ?_, ?_⟩
  · rw [e2, e1, recordAll_info, recordAll_append]
  · intro it hit
    rcases List.mem_append.1 hit with h | h
    · have := p1 it h; exact ⟨this.1, by omega⟩
    · have := p2 it h; exact ⟨this.1, by omega⟩
  · rw [List.map_append, List.nodup_append]
    refine ⟨n1, n2, ?_⟩
    intro x hx y hy
    obtain ⟨it, hit, rfl⟩ := List.mem_map.1 hx
    obtain ⟨jt, hjt, rfl⟩ := List.mem_map.1 hy
    have := p1 it hit; have := p2 jt hjt
    omega

/-- Recording one item after the scan of bytes behind its offset. -/
theorem grows_item {env : Env} {a b lo : Nat} {s1 s2 : State} (it : Found) (h : Grows env lo b s1 s2)
    (hg : it.Genuine env) (ha : a ≤ it.off) (hlo : it.off < lo) (hb : it.off < b) :
    Grows env a b s1 (it.record s2) := by
  obtain ⟨i1, g1, e1, p1, n1⟩ := h
  refine ⟨i1 ++ [it], g1, ?_, ?_, ?_⟩
  · rw [e1, recordAll_append]
    cases it <;> rfl
  · intro jt hjt
    rcases List.mem_append.1 hjt with h | h
    · have := p1 jt h; exact ⟨this.1, by omega⟩
    · cases List.mem_singleton.1 h
      exact ⟨hg, ha, hb⟩
  · rw [List.map_append, List.nodup_append]
    refine ⟨n1, by simp, ?_⟩
    intro x hx y hy
    obtain ⟨jt, hjt, rfl⟩ := List.mem_map.1 hx
    have := p1 jt hjt
    simp only [List.map_cons, List.map_nil, List.mem_singleton] at hy
    omega

/-- Reading a deleted key from a slice. -/
theorem readFromSlice_deleted (env : Env) (st : State) (input : Bytes) (off : Nat) :
    (∃ k r vs lg, KeyNode.fromBytes env.hashFn input off [] none = .ok (k, r) ∧
      readFromSlice env st input (deletedAt off) =
        .ok (some (.mk { k with values := vs, logs := lg } [] []), st.rootOffset) ∧
      ∀ st2, readFromSlice env st2 input (deletedAt off) =
        .ok (some (.mk { k with values := vs, logs := lg } [] []), st2.rootOffset)) ∨
    (KeyNode.fromBytes env.hashFn input off [] none = .err ∧
      readFromSlice env st input (deletedAt off) = .err) := by
  cases hk : KeyNode.fromBytes env.hashFn input off [] none with
  | panic => exact absurd hk (keyNode_no_panic _ _ _ _ _)
  | err =>
    right
    refine ⟨rfl, ?_⟩
    unfold readFromSlice deletedAt
    simp only [hk]
  | ok x =>
    left
    obtain ⟨k, r⟩ := x
    obtain ⟨vs, lg, hv⟩ := valuesStep_ok env (deletedAt off) .iterate k
    have key : ∀ st2, readFromSlice env st2 input (deletedAt off) =
        .ok (some (.mk { k with values := vs, logs := lg } [] []), st2.rootOffset) := by
      intro st2
      unfold readFromSlice
      have e : KeyNode.fromBytes env.hashFn input (deletedAt off).offset (deletedAt off).curPath
          (deletedAt off).seq = .ok (k, r) := hk
      rw [e]
      simp only [filterStep, deletedAt, reduceCtorEq, if_false]
      have hv' := hv
      unfold deletedAt at hv'
      rw [hv']
      rfl
    exact ⟨k, r, vs, lg, rfl, key st, key⟩

/-! ### The scan of one cell -/

/-- What is assumed of the scan of a slack shorter than `L`. -/
def SlackOk (env : Env) (L : Nat) (slack : Bytes → Nat → State → Option (Res State)) : Prop :=
  ∀ input start st, input.length < L → IsAt env.fi.buffer start input →
    ∃ st', slack input start st = some (.ok st') ∧ Grows env start (start + input.length) st st'

theorem isAt_slice {buf : Bytes} {off : Nat} {input : Bytes} (h : IsAt buf off input) (o k : Nat)
    (hk : o + k ≤ input.length) : IsAt buf (off + o) (slice input o k) := by
  obtain ⟨ext, he⟩ := h
  refine ⟨input.drop (o + k) ++ ext, ?_⟩
  rw [← List.drop_drop, he, List.drop_append_of_le_length (by omega), ← List.append_assoc]
  congr 1
  unfold slice
  rw [← List.drop_drop, List.take_append_drop]

theorem isAt_nil (buf : Bytes) (off : Nat) : IsAt buf off [] := ⟨buf.drop off, rfl⟩

theorem isAt_drop {buf : Bytes} {off : Nat} {input : Bytes} (h : IsAt buf off input) (o : Nat) :
    IsAt buf (off + o) (input.drop o) := by
  by_cases ho : o ≤ input.length
  · have := isAt_slice h o (input.length - o) (by omega)
    unfold slice at this
    rwa [List.take_of_length_le (by rw [List.length_drop]; omega)] at this
  · rw [List.drop_of_length_le (by omega)]
    exact isAt_nil _ _

theorem sizeAt_eq {buf : Bytes} {off : Nat} {input : Bytes} (h : IsAt buf off input)
    (hl : 4 ≤ input.length) : sizeAt buf off = toI32 (u32At input 0) := by
  obtain ⟨ext, he⟩ := h
  unfold sizeAt
  rw [he, u32At_append _ _ _ (by omega)]

/-- The marks the scan uses: inside slack everything is taken, elsewhere only free cells. -/
def MarkOk (cs : CellState) (force : Bool) : Prop :=
  (force = true ∧ cs = .DeletedPrimaryFileSlack) ∨ (force = false ∧ cs = .DeletedPrimaryFile)

theorem deletedAs_mark {buf : Bytes} {off : Nat} {cs : CellState} {force : Bool}
    (hm : MarkOk cs force) (h : (force || decide (sizeAt buf off > 0)) = true) :
    DeletedAs buf off cs := by
  rcases hm with ⟨hf, hc⟩ | ⟨hf, hc⟩
  · exact .inr hc
  · left
    rw [hf, Bool.false_or, decide_eq_true_eq] at h
    exact ⟨hc, h⟩

/-- The slack of a value cell and where it is. -/
theorem value_slack {buf : Bytes} {off : Nat} {input : Bytes} (h : IsAt buf off input)
    (h1 : 24 ≤ cellSizeAt input) (h2 : cellSizeAt input ≤ input.length)
    (h4 : 24 + vkNameSize input ≤ input.length) (kv : KeyValue)
    (hoff : kv.fileOffset = off) (hsz : kv.cellSize = cellSizeAt input)
    (hsl : kv.slack = slice input (24 + vkNameSize input) (cellSizeAt input - (24 + vkNameSize input))) :
    IsAt buf kv.slackOffset kv.slack ∧ off < kv.slackOffset ∧
      kv.slackOffset + kv.slack.length = off + cellSizeAt input ∧ kv.slack.length + 24 ≤ input.length := by
  unfold KeyValue.slackOffset
  rw [hoff, hsz, hsl]
  by_cases hle : 24 + vkNameSize input ≤ cellSizeAt input
  · rw [length_slice _ _ _ (by omega)]
    refine ⟨?_, by omega, by omega, by omega⟩
    rw [show off + cellSizeAt input - (cellSizeAt input - (24 + vkNameSize input))
      = off + (24 + vkNameSize input) by omega]
    exact isAt_slice h _ _ (by omega)
  · rw [show cellSizeAt input - (24 + vkNameSize input) = 0 by omega]
    have : slice input (24 + vkNameSize input) 0 = [] := by simp [slice]
    rw [this]
    exact ⟨isAt_nil _ _, by simp; omega, by simp, by simp; omega⟩

theorem readCellKeyValue_ok (env : Env) (L : Nat)
    (slack : Bytes → Nat → State → Option (Res State)) (hs : SlackOk env L slack) (input : Bytes)
    (off : Nat) (hat : IsAt env.fi.buffer off input) (hL : input.length < L + 24) (cs : CellState)
    (force : Bool) (hm : MarkOk cs force) (st : State) :
    ∃ n st', readCellKeyValue env slack input off cs force st = some (.ok (n, st')) ∧ 1 ≤ n ∧
      (n = 1 ∨ n ≤ input.length) ∧
      (∀ b, off + cellSizeAt input ≤ b → off < b → Grows env off b st st') ∧
      (force = true → Grows env off (off + n) st st') ∧
      ((force || decide (sizeAt env.fi.buffer off > 0)) = true → ValueReadable input →
        ∃ v vs, (st'.deletedValues []) = some (vs ++ [v]) ∧ v.val.fileOffset = off ∧
          (Found.value v).Genuine env) := by
  unfold readCellKeyValue
  rcases keyValue_cases input off none with ⟨⟨h1, h2, h3, h4⟩, name, logs, hn, hp⟩ | ⟨hno, hp⟩
  · rw [hp]
    simp only
    generalize hkv : valueOfSlices input off none name logs = kv at hp
    have hoff : kv.fileOffset = off := by rw [← hkv]; rfl
    have hsz : kv.cellSize = cellSizeAt input := by rw [← hkv]; rfl
    have hsl : kv.slack = slice input (24 + vkNameSize input)
        (cellSizeAt input - (24 + vkNameSize input)) := by rw [← hkv]; rfl
    have hfree : kv.isFree = decide (sizeAt env.fi.buffer off > 0) := by
      rw [sizeAt_eq hat (by omega), ← hkv]; rfl
    obtain ⟨s1, s2, s3, s4⟩ := value_slack hat h1 h2 h4 kv hoff hsz hsl
    obtain ⟨st1, hrun, hgrow⟩ := hs kv.slack kv.slackOffset st (by omega) s1
    unfold keepValue
    rw [hrun]
    simp only
    rw [s3] at hgrow
    by_cases hk : (force || kv.isFree) = true
    · rw [if_pos hk]
      rw [hfree] at hk
      have hgen : (Found.value (.mk { kv.readValueBytes env.hashFn env.fi with cellState := cs } [])
          ).Genuine env := by
        obtain ⟨ext, he⟩ := id hat
        obtain ⟨r', hr'⟩ := keyValue_extend input ext off none kv _ hp
        refine ⟨?_, kv, r', ?_, rfl⟩
        · show DeletedAs env.fi.buffer kv.fileOffset cs
          rw [hoff]; exact deletedAs_mark hm hk
        · show KeyValue.fromBytes (env.fi.buffer.drop kv.fileOffset) kv.fileOffset none = _
          rw [hoff, he]; exact hr'
      have hfo : (Found.value (.mk { kv.readValueBytes env.hashFn env.fi with cellState := cs } [])
          ).off = off := hoff
      have hG : ∀ b, off + cellSizeAt input ≤ b → off < b → Grows env off b st
          { st1 with
            deletedValues := mapAdd st1.deletedValues []
              (.mk { kv.readValueBytes env.hashFn env.fi with cellState := cs } []) } := by
        intro b hb hb2
        exact grows_item (.value _) (grows_mono hgrow (Nat.le_refl _) hb) hgen (by omega)
          (by omega) (by omega)
      refine ⟨_, _, rfl, by omega, by omega, hG, fun _ => hG _ (by omega) (by omega), ?_⟩
      intro _ _
      refine ⟨.mk { kv.readValueBytes env.hashFn env.fi with cellState := cs } [],
        (st1.deletedValues []).getD [], ?_, hoff, hgen⟩
      show mapAdd st1.deletedValues [] _ [] = _
      unfold mapAdd
      rw [if_pos rfl]
      cases st1.deletedValues [] <;> rfl
    · rw [if_neg hk]
      refine ⟨_, _, rfl, Nat.le_refl _, .inl rfl, ?_, ?_, ?_⟩
      · intro b hb hb2
        exact grows_mono hgrow (by omega) hb
      · intro hf
        rw [hf] at hk; exact absurd rfl hk
      · intro hf
        rw [hfree] at hk; exact absurd hf hk
  · rw [hp]
    refine ⟨_, _, rfl, Nat.le_refl _, .inl rfl, fun b _ _ => grows_warn _ _ _ _ _,
      fun _ => grows_warn _ _ _ _ _, fun _ hr => absurd hr hno⟩

/-- The slack of a key cell and where it is. -/
theorem key_slack {buf : Bytes} {off : Nat} {input : Bytes} (h : IsAt buf off input)
    (h1 : 72 ≤ cellSizeAt input) (h2 : cellSizeAt input ≤ input.length)
    (h4 : 80 + nkNameSize input ≤ input.length) (k : KeyNode)
    (hoff : k.fileOffset = off) (hsz : k.cellSize = cellSizeAt input)
    (hsl : k.slack = slice input (80 + nkNameSize input) (cellSizeAt input - (80 + nkNameSize input))) :
    IsAt buf k.slackOffset k.slack ∧ off < k.slackOffset ∧
      k.slackOffset + k.slack.length = off + cellSizeAt input ∧ k.slack.length + 24 ≤ input.length := by
  unfold KeyNode.slackOffset
  rw [hoff, hsz, hsl]
  by_cases hle : 80 + nkNameSize input ≤ cellSizeAt input
  · rw [length_slice _ _ _ (by omega)]
    refine ⟨?_, by omega, by omega, by omega⟩
    rw [show off + cellSizeAt input - (cellSizeAt input - (80 + nkNameSize input))
      = off + (80 + nkNameSize input) by omega]
    exact isAt_slice h _ _ (by omega)
  · rw [show cellSizeAt input - (80 + nkNameSize input) = 0 by omega]
    have : slice input (80 + nkNameSize input) 0 = [] := by simp [slice]
    rw [this]
    exact ⟨isAt_nil _ _, by simp; omega, by simp, by simp; omega⟩

theorem readCellKeyNode_ok (env : Env) (L : Nat)
    (slack : Bytes → Nat → State → Option (Res State)) (hs : SlackOk env L slack) (input : Bytes)
    (off : Nat) (hat : IsAt env.fi.buffer off input) (hoffle : off ≤ env.fi.buffer.length)
    (hL : input.length < L + 24) (cs : CellState)
    (force : Bool) (hm : MarkOk cs force) (st : State) :
    ∃ n st', readCellKeyNode env slack input off cs force st = some (.ok (n, st')) ∧ 1 ≤ n ∧
      (n = 1 ∨ n ≤ input.length) ∧
      (∀ b, off + cellSizeAt input ≤ b → off < b → Grows env off b st st') ∧
      (force = true → Grows env off (off + n) st st') ∧
      ((force || decide (sizeAt env.fi.buffer off > 0)) = true → KeyReadable input →
        ∃ v vs, (st'.deletedKeys []) = some (vs ++ [v]) ∧ v.key.fileOffset = off ∧
          (Found.key v).Genuine env) := by
  unfold readCellKeyNode
  have hopt : (⟨off, [], none, true, none, false⟩ : ReadOptions) = deletedAt off := rfl
  rw [hopt]
  rcases readFromSlice_deleted env st input off with ⟨k, r, vals, lg, hk, hr, hall⟩ | ⟨hk, hr⟩
  · rw [hr]
    simp only
    rcases keyNode_cases env.hashFn input off [] none with
      ⟨⟨h1, h2, h3, h4⟩, name, logs, hn, hp⟩ | ⟨_, hp⟩
    rotate_left
    · rw [hk] at hp; cases hp
    rw [hk] at hp
    have hp' : k = keyOfSlices env.hashFn input off [] none name logs := by cases hp; rfl
    have hoff : k.fileOffset = off := by rw [hp']; rfl
    have hsz : k.cellSize = cellSizeAt input := by rw [hp']; rfl
    have hsl : k.slack = slice input (80 + nkNameSize input)
        (cellSizeAt input - (80 + nkNameSize input)) := by rw [hp']; rfl
    have hfree : k.isFree = decide (sizeAt env.fi.buffer off > 0) := by
      rw [sizeAt_eq hat (by omega), hp']; rfl
    obtain ⟨s1, s2, s3, s4⟩ := key_slack hat h1 h2 h4 k hoff hsz hsl
    obtain ⟨st1, hrun, hgrow⟩ := hs k.slack k.slackOffset st (by omega) s1
    unfold keepKey
    have hrun' : slack (Node.mk { k with values := vals, logs := lg } [] []).key.slack
        (Node.mk { k with values := vals, logs := lg } [] []).key.slackOffset
        { st with rootOffset := st.rootOffset } = some (.ok st1) := hrun
    rw [hrun']
    simp only
    rw [s3] at hgrow
    have hfree' : (Node.mk { k with values := vals, logs := lg } [] []).key.isFree
      = decide (sizeAt env.fi.buffer off > 0) := hfree
    have hsz' : (Node.mk { k with values := vals, logs := lg } [] []).key.cellSize
      = cellSizeAt input := hsz
    rw [hfree', hsz']
    by_cases hk : (force || decide (sizeAt env.fi.buffer off > 0)) = true
    · rw [if_pos hk]
      have hgen : (Found.key ((Node.mk { k with values := vals, logs := lg } [] []).setKey
          { (Node.mk { k with values := vals, logs := lg } [] []).key with cellState := cs })
          ).Genuine env := by
        obtain ⟨ext, he⟩ := id hat
        refine ⟨?_, .mk { k with values := vals, logs := lg } [] [], ?_, rfl⟩
        · show DeletedAs env.fi.buffer k.fileOffset cs
          rw [hoff]; exact deletedAs_mark hm hk
        · have hd : deletedAt k.fileOffset = deletedAt off := by rw [hoff]
          show readKey env {} (deletedAt k.fileOffset) = _
          rw [hd]
          unfold readKey
          have hg : getFrom env.fi.buffer (deletedAt off).offset = some (input ++ ext) := by
            show getFrom env.fi.buffer off = _
            unfold getFrom
            rw [if_pos hoffle, he]
          rw [hg]
          simp only
          obtain ⟨r', hr'⟩ := keyNode_extend env.hashFn input ext off [] none k _ (by assumption)
          have e1 := hall {}
          unfold readFromSlice at e1 ⊢
          have f1 : KeyNode.fromBytes env.hashFn input (deletedAt off).offset
            (deletedAt off).curPath (deletedAt off).seq = .ok (k, r) := by assumption
          have f2 : KeyNode.fromBytes env.hashFn (input ++ ext) (deletedAt off).offset
            (deletedAt off).curPath (deletedAt off).seq = .ok (k, r') := hr'
          rw [f1] at e1
          rw [f2]
          exact e1
      have hG : ∀ b, off + cellSizeAt input ≤ b → off < b → Grows env off b st
          { st1 with
            deletedKeys := mapAdd st1.deletedKeys []
              ((Node.mk { k with values := vals, logs := lg } [] []).setKey
              { (Node.mk { k with values := vals, logs := lg } [] []).key with cellState := cs }) } := by
        intro b hb hb2
        have hfo : (Found.key ((Node.mk { k with values := vals, logs := lg } [] []).setKey
          { (Node.mk { k with values := vals, logs := lg } [] []).key with cellState := cs })).off
            = off := hoff
        exact grows_item (.key _) (grows_mono hgrow (Nat.le_refl _) hb) hgen (by omega)
          (by omega) (by omega)
      refine ⟨_, _, rfl, by omega, by omega, hG, fun _ => hG _ (by omega) (by omega), ?_⟩
      intro _ _
      refine ⟨(Node.mk { k with values := vals, logs := lg } [] []).setKey
        { (Node.mk { k with values := vals, logs := lg } [] []).key with cellState := cs },
        (st1.deletedKeys []).getD [], ?_, hoff, hgen⟩
      show mapAdd st1.deletedKeys [] _ [] = _
      unfold mapAdd
      rw [if_pos rfl]
      cases st1.deletedKeys [] <;> rfl
    · rw [if_neg hk]
      refine ⟨_, _, rfl, Nat.le_refl _, .inl rfl, ?_, ?_, ?_⟩
      · intro b hb hb2
        exact grows_mono hgrow (by omega) hb
      · intro hf
        rw [hf] at hk; exact absurd rfl hk
      · intro hf
        exact absurd hf hk
  · rw [hr]
    refine ⟨_, _, rfl, Nat.le_refl _, .inl rfl, fun b _ _ => grows_warn _ _ _ _ _,
      fun _ => grows_warn _ _ _ _ _, fun _ hrd => ?_⟩
    rcases keyNode_cases env.hashFn input off [] none with ⟨_, _, _, _, hp⟩ | ⟨hno, _⟩
    · rw [hk] at hp; cases hp
    · exact absurd hrd hno

/-! ### The scan of slack -/

theorem isAt_off {buf : Bytes} {off : Nat} {input : Bytes} (h : IsAt buf off input)
    (hn : 0 < input.length) : off + input.length ≤ buf.length := by
  obtain ⟨ext, he⟩ := h
  have := congrArg List.length he
  rw [List.length_drop, List.length_append] at this
  omega

theorem slackCell_ok (env : Env) (L : Nat) (slack : Bytes → Nat → State → Option (Res State))
    (hs : SlackOk env L slack) (input rest : Bytes) (off : Nat)
    (hat : IsAt env.fi.buffer off input) (hpos : 0 < input.length) (hL : input.length < L + 24)
    (st : State) :
    ∃ n st', slackCell env slack input rest off st = some (.ok (n, st')) ∧ 1 ≤ n ∧
      n ≤ input.length ∧ Grows env off (off + n) st st' := by
  have hoff := isAt_off hat hpos
  unfold slackCell
  by_cases h1 : (tag [0x6E, 0x6B] rest).isSome
  · rw [if_pos h1]
    obtain ⟨n, st', e, a, b, _, c, _⟩ := readCellKeyNode_ok env L slack hs input off hat (by omega)
      hL .DeletedPrimaryFileSlack true (.inl ⟨rfl, rfl⟩) st
    exact ⟨n, st', e, a, by omega, c rfl⟩
  · rw [if_neg h1]
    by_cases h2 : (tag [0x76, 0x6B] rest).isSome
    · rw [if_pos h2]
      obtain ⟨n, st', e, a, b, _, c, _⟩ := readCellKeyValue_ok env L slack hs input off hat
        hL .DeletedPrimaryFileSlack true (.inl ⟨rfl, rfl⟩) st
      exact ⟨n, st', e, a, by omega, c rfl⟩
    · rw [if_neg h2]
      exact ⟨1, st, rfl, Nat.le_refl _, by omega, grows_refl _ _ _ _⟩

theorem slackLoop_ok (env : Env) (L : Nat) (slack : Bytes → Nat → State → Option (Res State))
    (hs : SlackOk env L slack) (inputOrig : Bytes) (start : Nat)
    (hat : IsAt env.fi.buffer start inputOrig) (hL : inputOrig.length < L + 24) :
    ∀ (steps offset : Nat) (st : State), inputOrig.length < steps + offset →
      offset ≤ inputOrig.length →
      ∃ st', slackLoop env slack inputOrig start steps offset st = some (.ok st') ∧
        Grows env (start + offset) (start + inputOrig.length) st st' := by
  intro steps
  induction steps with
  | zero => intro offset st h1 h2; omega
  | succ steps ih =>
    intro offset st h1 h2
    unfold slackLoop
    by_cases ho : offset < inputOrig.length
    · rw [if_pos ho]
      cases hle : leI32 (inputOrig.drop offset) with
      | none => exact ⟨st, rfl, grows_refl _ _ _ _⟩
      | some x =>
        obtain ⟨i, rest⟩ := x
        simp only
        obtain ⟨n, st1, e, a, b, g⟩ := slackCell_ok env L slack hs (inputOrig.drop offset) rest
          (start + offset) (isAt_drop hat offset) (by rw [List.length_drop]; omega)
          (by rw [List.length_drop]; omega) st
        rw [List.length_drop] at b
        rw [e]
        simp only
        obtain ⟨st2, e2, g2⟩ := ih (offset + n) st1 (by omega) (by omega)
        refine ⟨st2, e2, grows_trans g ?_ (by omega) (by omega)⟩
        rwa [Nat.add_assoc]
    · rw [if_neg ho]
      exact ⟨st, rfl, grows_refl _ _ _ _⟩

/-- With room on the stack for a call per 24 bytes of the slack, and loops longer than the slack, the scan of slack
ends normally. -/
theorem findCellsInSlack_ok (env : Env) (steps : Nat) : ∀ (depth L : Nat), L ≤ 24 * depth → L ≤ steps →
    SlackOk env L (findCellsInSlack env steps depth) := by
  intro depth
  induction depth with
  | zero => intro L h1 h2 input start st hl; omega
  | succ depth ih =>
    intro L h1 h2 input start st hl hat
    exact slackLoop_ok env (L - 24) _ (ih (L - 24) (by omega) (by omega)) input start hat (by omega)
      steps 0 st (by omega) (by omega)

/-! ### The scan of the bins -/

theorem leI32_some {i r : Bytes} {n : Int} (h : leI32 i = some (n, r)) :
    4 ≤ i.length ∧ n = toI32 (u32At i 0) ∧ r = i.drop 4 := by
  have hl := leI32_length h
  refine ⟨by omega, ?_⟩
  rw [leI32_zero i (by omega)] at h
  cases h
  exact ⟨rfl, rfl⟩

theorem isAt_self (buf : Bytes) (off : Nat) : IsAt buf off (buf.drop off) :=
  ⟨[], (List.append_nil _).symm⟩

theorem isAt_take (buf : Bytes) (off n : Nat) : IsAt buf off ((buf.drop off).take n) :=
  ⟨(buf.drop off).drop n, (List.take_append_drop _ _).symm⟩

/-- A value of the cell at `off` is on record. -/
def ValueRecorded (env : Env) (st : State) (off : Nat) : Prop :=
  ∃ v ∈ (st.deletedValues []).getD [], v.val.fileOffset = off ∧ (Found.value v).Genuine env

/-- A key of the cell at `off` is on record. -/
def KeyRecorded (env : Env) (st : State) (off : Nat) : Prop :=
  ∃ n ∈ (st.deletedKeys []).getD [], n.key.fileOffset = off ∧ (Found.key n).Genuine env

theorem mapAdd_getD {α : Type} (m : Str → Option (List α)) (p q : Str) (x : α) :
    (mapAdd m p x q).getD [] = (m q).getD [] ++ (if q = p then [x] else []) := by
  unfold mapAdd
  by_cases h : q = p
  · subst h
    rw [if_pos rfl, if_pos rfl]
    cases m q <;> rfl
  · rw [if_neg h, if_neg h, List.append_nil]

theorem record_values (st : State) (it : Found) (q : Str) :
    ∃ vs, ((it.record st).deletedValues q).getD [] = (st.deletedValues q).getD [] ++ vs := by
  cases it with
  | value v => exact ⟨_, mapAdd_getD _ _ _ _⟩
  | key n => exact ⟨[], (List.append_nil _).symm⟩

theorem record_keys (st : State) (it : Found) (q : Str) :
    ∃ vs, ((it.record st).deletedKeys q).getD [] = (st.deletedKeys q).getD [] ++ vs := by
  cases it with
  | value v => exact ⟨[], (List.append_nil _).symm⟩
  | key n => exact ⟨_, mapAdd_getD _ _ _ _⟩

theorem recordAll_values (its : List Found) (st : State) (q : Str) :
    ∃ vs, ((recordAll st its).deletedValues q).getD [] = (st.deletedValues q).getD [] ++ vs := by
  induction its generalizing st with
  | nil => exact ⟨[], (List.append_nil _).symm⟩
  | cons x its ih =>
    obtain ⟨a, ha⟩ := ih (x.record st)
    obtain ⟨b, hb⟩ := record_values st x q
    exact ⟨b ++ a, by rw [← List.append_assoc, ← hb]; exact ha⟩

theorem recordAll_keys (its : List Found) (st : State) (q : Str) :
    ∃ vs, ((recordAll st its).deletedKeys q).getD [] = (st.deletedKeys q).getD [] ++ vs := by
  induction its generalizing st with
  | nil => exact ⟨[], (List.append_nil _).symm⟩
  | cons x its ih =>
    obtain ⟨a, ha⟩ := ih (x.record st)
    obtain ⟨b, hb⟩ := record_keys st x q
    exact ⟨b ++ a, by rw [← List.append_assoc, ← hb]; exact ha⟩

theorem valueRecorded_grows {env : Env} {a b : Nat} {st st' : State} (h : Grows env a b st st')
    {off : Nat} (hr : ValueRecorded env st off) : ValueRecorded env st' off := by
  obtain ⟨its, info, e, _, _⟩ := h
  obtain ⟨v, hv, h1⟩ := hr
  obtain ⟨vs, hvs⟩ := recordAll_values its st []
  refine ⟨v, ?_, h1⟩
  rw [e]
  show v ∈ ((recordAll st its).deletedValues []).getD []
  rw [hvs]
  exact List.mem_append_left _ hv

theorem keyRecorded_grows {env : Env} {a b : Nat} {st st' : State} (h : Grows env a b st st')
    {off : Nat} (hr : KeyRecorded env st off) : KeyRecorded env st' off := by
  obtain ⟨its, info, e, _, _⟩ := h
  obtain ⟨v, hv, h1⟩ := hr
  obtain ⟨vs, hvs⟩ := recordAll_keys its st []
  refine ⟨v, ?_, h1⟩
  rw [e]
  show v ∈ ((recordAll st its).deletedKeys []).getD []
  rw [hvs]
  exact List.mem_append_left _ hv

/-- What the scan does with one cell of a bin. -/
theorem visitCell_ok (env : Env) (hd : env.fi.buffer.length < 24 * env.depth) (steps off sizeAbs : Nat)
    (hst : env.fi.buffer.length < steps + off) (ct : CellType)
    (hsz : sizeAbs = cellSizeAt (env.fi.buffer.drop off)) (hpos : 0 < sizeAbs)
    (ho : off < env.fi.buffer.length) (st : State) :
    ∃ st', visitCell env steps ct off sizeAbs st = some (.ok st') ∧
      Grows env off (off + sizeAbs) st st' ∧
      (0 < sizeAt env.fi.buffer off →
        (ct = .CellValue → ValueReadable (env.fi.buffer.drop off) → ValueRecorded env st' off) ∧
        (ct = .CellKey → KeyReadable (env.fi.buffer.drop off) → KeyRecorded env st' off)) := by
  have hs : SlackOk env (env.fi.buffer.length - off + 1) (findCellsInSlack env steps env.depth) :=
    findCellsInSlack_ok env steps env.depth _ (by omega) (by omega)
  unfold visitCell readChecked readRangeChecked
  simp only [if_pos ho]
  have hother : ∃ st', findCellsInSlack env steps env.depth
      ((env.fi.buffer.drop off).take (min (off + sizeAbs) env.fi.buffer.length - off)) off st
        = some (.ok st') ∧ Grows env off (off + sizeAbs) st st' := by
    obtain ⟨st', e, g⟩ := hs ((env.fi.buffer.drop off).take
      (min (off + sizeAbs) env.fi.buffer.length - off)) off st
      (by rw [List.length_take, List.length_drop]; omega) (isAt_take _ _ _)
    exact ⟨st', e, grows_mono g (Nat.le_refl _) (by rw [List.length_take]; omega)⟩
  cases ct
  case CellValue =>
    obtain ⟨n, st', e, _, _, g, _, hr⟩ := readCellKeyValue_ok env _ _ hs (env.fi.buffer.drop off)
      off (isAt_self _ _) (by rw [List.length_drop]; omega) .DeletedPrimaryFile false
      (.inr ⟨rfl, rfl⟩) st
    simp only [e]
    refine ⟨st', rfl, g _ (by omega) (by omega), fun hf => ⟨fun _ hread => ?_, (by intro h; cases h)⟩⟩
    obtain ⟨v, vs, h1, h2, h3⟩ := hr (by rw [Bool.false_or, decide_eq_true_eq]; exact hf) hread
    exact ⟨v, by rw [h1]; simp, h2, h3⟩
  case CellKey =>
    obtain ⟨n, st', e, _, _, g, _, hr⟩ := readCellKeyNode_ok env _ _ hs (env.fi.buffer.drop off)
      off (isAt_self _ _) (by omega) (by rw [List.length_drop]; omega) .DeletedPrimaryFile false
      (.inr ⟨rfl, rfl⟩) st
    simp only [e]
    refine ⟨st', rfl, g _ (by omega) (by omega), fun hf => ⟨(by intro h; cases h), fun _ hread => ?_⟩⟩
    obtain ⟨v, vs, h1, h2, h3⟩ := hr (by rw [Bool.false_or, decide_eq_true_eq]; exact hf) hread
    exact ⟨v, by rw [h1]; simp, h2, h3⟩
  all_goals
    obtain ⟨st', e, g⟩ := hother
    exact ⟨st', e, g, fun _ => ⟨(by intro h; cases h), (by intro h; cases h)⟩⟩

theorem cellSizeAt_isAt {buf : Bytes} {off : Nat} {input : Bytes} (hat : IsAt buf off input)
    (hl : 4 ≤ input.length) : cellSizeAt (buf.drop off) = cellSizeAt input := by
  obtain ⟨ext, he⟩ := hat
  unfold cellSizeAt
  rw [he, u32At_append _ _ _ (by omega)]

theorem unsignedAbs_pos {i : Int} (h : i ≠ 0) : 0 < unsignedAbs i := by
  unfold unsignedAbs; omega

/-- The loop over the cells of a bin ends, without a panic, and puts on record only genuine items of
the bytes it went through. -/
theorem binLoop_ok (env : Env) (hd : env.fi.buffer.length < 24 * env.depth) (hbinMax : Nat) :
    ∀ (steps : Nat) (input : Bytes) (off : Nat) (st : State), IsAt env.fi.buffer off input →
      off < env.fi.buffer.length → env.fi.buffer.length < steps + off →
      ∃ r, binLoop env hbinMax steps input off st = some r ∧
        (r = .err ∨ ∃ off' st', r = .ok (off', st') ∧ off ≤ off' ∧ Grows env off off' st st') := by
  intro steps
  induction steps with
  | zero => intro input off st _ h1 h2; omega
  | succ steps ih =>
    intro input off st hat h1 h2
    unfold binLoop
    by_cases ho : off < hbinMax
    · rw [if_pos ho]
      cases hle : leI32 input with
      | none => exact ⟨_, rfl, .inl rfl⟩
      | some x =>
        obtain ⟨size, rest⟩ := x
        obtain ⟨hl, hsize, _⟩ := leI32_some hle
        simp only
        by_cases hz : size = 0
        · rw [if_pos hz]
          exact ⟨_, rfl, .inr ⟨_, _, rfl, Nat.le_refl _, grows_refl _ _ _ _⟩⟩
        · rw [if_neg hz]
          have hpos := unsignedAbs_pos hz
          obtain ⟨st1, e, g, _⟩ := visitCell_ok env hd (steps + 1) off (unsignedAbs size) h2
            (CellType.readCellType rest)
            (by rw [cellSizeAt_isAt hat hl, hsize]; rfl) hpos h1 st
          rw [e]
          simp only
          unfold readRangeChecked
          by_cases hn : off + unsignedAbs size < env.fi.buffer.length
          · rw [if_pos hn]
            simp only
            obtain ⟨r, e2, h⟩ := ih _ (off + unsignedAbs size) st1 (isAt_take _ _ _) hn (by omega)
            refine ⟨r, e2, ?_⟩
            rcases h with h | ⟨off', st', h, hle', g2⟩
            · exact .inl h
            · exact .inr ⟨off', st', h, by omega, grows_trans g g2 (by omega) hle'⟩
          · rw [if_neg hn]
            exact ⟨_, rfl, .inr ⟨_, _, rfl, by omega, g⟩⟩
    · rw [if_neg ho]
      exact ⟨_, rfl, .inr ⟨_, _, rfl, Nat.le_refl _, grows_refl _ _ _ _⟩⟩

theorem hiveBinHeader_length {off : Nat} {i : Bytes} {h : HiveBinHeader} {r : Bytes}
    (hh : HiveBinHeader.fromBytes off i = some (h, r)) : i.length = 32 + r.length := by
  unfold HiveBinHeader.fromBytes at hh
  simp only [bind, Option.bind_eq_some_iff, Option.some.injEq, Prod.mk.injEq] at hh
  obtain ⟨⟨_, i1⟩, a1, ⟨_, i2⟩, a2, ⟨_, i3⟩, a3, ⟨_, i4⟩, a4, ⟨_, i5⟩, a5, ⟨_, i6⟩, a6, ⟨_, i7⟩, a7, _, rfl⟩ := hh
  have := tag_length a1
  have := leUint_length a2
  have := leUint_length a3
  have := leUint_length a4
  have := leUint_length a5
  have := leUint_length a6
  have := leUint_length a7
  simp only [List.length_cons, List.length_nil] at *
  omega

theorem scanBin_ok (env : Env) (hd : env.fi.buffer.length < 24 * env.depth) (steps off : Nat)
    (hst : env.fi.buffer.length < steps + off) (st : State) :
    ∃ r, scanBin env steps off st = some r ∧
      (r = .err ∨ ∃ off' st', r = .ok (off', st') ∧ off + 32 ≤ off' ∧ off + 32 < env.fi.buffer.length ∧
        Grows env off off' st st') := by
  unfold scanBin readChecked
  by_cases ho : off < env.fi.buffer.length
  · rw [if_pos ho]
    simp only
    cases hh : HiveBinHeader.fromBytes off (env.fi.buffer.drop off) with
    | none => exact ⟨_, rfl, .inl rfl⟩
    | some x =>
      obtain ⟨h, rest⟩ := x
      have hl := hiveBinHeader_length hh
      rw [List.length_drop] at hl
      simp only
      by_cases hf : env.fi.buffer.length - rest.length < env.fi.buffer.length
      · rw [if_pos hf]
        simp only
        obtain ⟨r, e, hr⟩ := binLoop_ok env hd (off + h.size) steps _
          (env.fi.buffer.length - rest.length) st (isAt_self _ _) hf (by omega)
        refine ⟨r, e, ?_⟩
        rcases hr with hr | ⟨off', st', hr, hle, g⟩
        · exact .inl hr
        · exact .inr ⟨off', st', hr, by omega, by omega, grows_mono g (by omega) (Nat.le_refl _)⟩
      · rw [if_neg hf]
        exact ⟨_, rfl, .inl rfl⟩
  · rw [if_neg ho]
    exact ⟨_, rfl, .inl rfl⟩

theorem scanBins_ok (env : Env) (hd : env.fi.buffer.length < 24 * env.depth) (size : Nat) :
    ∀ (steps off : Nat) (st : State), env.fi.buffer.length < steps + off → 0 < steps →
      ∃ r, scanBins env size steps off st = some r ∧
        (r = .err ∨ ∃ b st', r = .ok st' ∧ off ≤ b ∧ Grows env off b st st') := by
  intro steps
  induction steps with
  | zero => intro off st h1 h2; omega
  | succ steps ih =>
    intro off st h1 h2
    unfold scanBins
    by_cases ho : off < size
    · rw [if_pos ho]
      obtain ⟨r, e, hr⟩ := scanBin_ok env hd (steps + 1) off h1 st
      rw [e]
      rcases hr with rfl | ⟨off', st', rfl, hle, hlt, g⟩
      · exact ⟨_, rfl, .inl rfl⟩
      · simp only
        obtain ⟨r, e2, hr⟩ := ih off' st' (by omega) (by omega)
        refine ⟨r, e2, ?_⟩
        rcases hr with hr | ⟨b, st2, hr, hb, g2⟩
        · exact .inl hr
        · exact .inr ⟨b, st2, hr, by omega, grows_trans g g2 (by omega) hb⟩
    · rw [if_neg ho]
      exact ⟨_, rfl, .inr ⟨off, st, rfl, Nat.le_refl _, grows_refl _ _ _ _⟩⟩

end Notatin
