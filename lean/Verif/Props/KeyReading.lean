import Verif.Lemmas.Tree
import Verif.Lemmas.Case
import Verif.Spec.KeyReading
/-
C36 (value lookup), C39 (reading the values of a key), C44 (sub-keys by index).
-/
namespace Notatin
open Spec

/-! ### C36 -/

theorem find?_first {α : Type} (p : α → Bool) (l : List α) (a : α) :
    l.find? p = some a ↔ ∃ pre post, l = pre ++ a :: post ∧ p a = true ∧ ∀ b ∈ pre, p b = false := by
  rw [List.find?_eq_some_iff_append]
  constructor
  · rintro ⟨h, as, bs, h1, h2⟩
    exact ⟨as, bs, h1, h, fun b hb => by simpa using h2 b hb⟩
  · rintro ⟨as, bs, h1, h, h2⟩
    exact ⟨h, as, bs, h1, fun b hb => by simp [h2 b hb]⟩

/-- C36: looking up a value by name gives the first value of the key whose name is the same up to
the case of ASCII letters. -/
theorem get_value_first (k : KeyNode) (name : Str) (v : Value) :
    k.getValue name = some v ↔
      ∃ pre post, k.values = pre ++ v :: post ∧ SameIgnoringCase v.val.name name ∧
        ∀ u ∈ pre, ¬ SameIgnoringCase u.val.name name := by
  unfold KeyNode.getValue
  rw [find?_first]
  simp only [beq_iff_eq, beq_eq_false_iff_ne, ne_eq, asciiLower_eq_iff]

/-- C36: nothing is found iff no value of the key has that name. -/
theorem get_value_none (k : KeyNode) (name : Str) :
    k.getValue name = none ↔ ∀ u ∈ k.values, ¬ SameIgnoringCase u.val.name name := by
  unfold KeyNode.getValue
  rw [List.find?_eq_none]
  simp only [beq_iff_eq, asciiLower_eq_iff]

/-- C36: the empty name finds the first value without a name, the default value. -/
theorem get_value_default (k : KeyNode) (v : Value) :
    k.getValue [] = some v ↔
      ∃ pre post, k.values = pre ++ v :: post ∧ v.val.name = [] ∧ ∀ u ∈ pre, u.val.name ≠ [] := by
  rw [get_value_first]
  have h : ∀ s : Str, SameIgnoringCase s [] ↔ s = [] := by
    intro s; cases s <;> simp [SameIgnoringCase, Pairwise2]
  simp only [h]

example : SameIgnoringCase "ImagePath".toList "IMAGEpath".toList := by decide
example : ¬ SameIgnoringCase "straße".toList "STRASSE".toList := by decide

/-! ### C39 -/

/-- The value `v` is what is stored in the value cell at the relative offset `off`, read on its
own. -/
def IsValueAt (env : Env) (seq : Option Nat) (off : Nat) (v : Value) : Prop :=
  ∃ kv r, KeyValue.fromBytes (env.fi.buffer.drop (off + env.fi.hbin)) (off + env.fi.hbin) seq
      = .ok (kv, r) ∧
    v = .mk (kv.readValueBytes env.hashFn env.fi) []

/-- The value cell at the relative offset can be read. -/
def valueOk (fi : FileInfo) (off : Nat) : Bool :=
  decide (ValueReadable (fi.buffer.drop (off + fi.hbin)))

theorem valueOk_lt {fi : FileInfo} {off : Nat} (h : valueOk fi off = true) :
    off + fi.hbin < fi.buffer.length := by
  unfold valueOk at h
  rw [decide_eq_true_iff] at h
  have h1 := h.1
  have h2 := h.2.1
  rw [List.length_drop] at h2
  omega

theorem pairwise2_append {α β : Type} {R : α → β → Prop} {a a' : List α} {b b' : List β}
    (h : Pairwise2 R a b) (h' : Pairwise2 R a' b') : Pairwise2 R (a ++ a') (b ++ b') := by
  induction a generalizing b with
  | nil => cases b with
    | nil => exact h'
    | cons => exact absurd h (by simp [Pairwise2])
  | cons x a ih => cases b with
    | nil => exact absurd h (by simp [Pairwise2])
    | cons y b => exact ⟨h.1, ih h.2⟩

theorem readValuesLoop_spec (env : Env) (seq : Option Nat) (offs : List Nat) (acc : List Value)
    (logs : Logs) :
    ∃ vs, Pairwise2 (IsValueAt env seq) (offs.takeWhile (valueOk env.fi)) vs ∧
      ((offs.all (valueOk env.fi) = true ∧
          readValuesLoop env seq offs acc logs = .ok (acc ++ vs, logs, true)) ∨
       (offs.all (valueOk env.fi) = false ∧
        (readValuesLoop env seq offs acc logs = .ok (acc ++ vs, logs.add .WarningParse, true) ∨
         readValuesLoop env seq offs acc logs = .ok (acc ++ vs, logs, false)))) := by
  induction offs generalizing acc with
  | nil => exact ⟨[], trivial, .inl ⟨rfl, by rw [List.append_nil]; rfl⟩⟩
  | cons o os ih =>
    have hacc := (vk_accepts_iff (env.fi.buffer.drop (o + env.fi.hbin)) (o + env.fi.hbin) seq)
    by_cases hr : valueOk env.fi o = true
    · obtain ⟨⟨kv, r⟩, hk⟩ := hacc.1 (by unfold valueOk at hr; rwa [decide_eq_true_iff] at hr)
      obtain ⟨vs, hp, h⟩ := ih (acc ++ [.mk (kv.readValueBytes env.hashFn env.fi) []])
      refine ⟨.mk (kv.readValueBytes env.hashFn env.fi) [] :: vs, ?_, ?_⟩
      · rw [List.takeWhile_cons, if_pos hr]
        exact ⟨⟨kv, r, hk, rfl⟩, hp⟩
      · have e : readValuesLoop env seq (o :: os) acc logs
            = readValuesLoop env seq os (acc ++ [.mk (kv.readValueBytes env.hashFn env.fi) []]) logs := by
          rw [readValuesLoop, if_pos (valueOk_lt hr), hk]
        rw [e, List.all_cons, hr, Bool.true_and]
        simpa using h
    · refine ⟨[], ?_, .inr ⟨?_, ?_⟩⟩
      · rw [List.takeWhile_cons, if_neg hr]; trivial
      · rw [List.all_cons, Bool.eq_false_iff.2 hr, Bool.false_and]
      · rw [readValuesLoop, List.append_nil]
        split
        · right
          rw [hacc.2 (by unfold valueOk at hr; rwa [decide_eq_true_iff] at hr)]
        · left; rfl

/-- C39, the full claim: reading a key that has values reports all of them, or a warning. -/
def ValuesReported : Prop :=
  ∀ (env : Env) (o : ReadOptions) (flags : FilterFlags) (k : KeyNode), 0 < k.nValues →
    shouldReadValues o.filter flags o.selfMatch = true →
    ∃ k', valuesStep env o flags k = .ok k' ∧
      (k'.values.length = k.nValues ∨ k'.logs.codes = k.logs.codes ++ [.WarningParse])

/-- C39, partial: with a complete value list the reported values are the values at its offsets, in
order, up to the first one that cannot be read; nothing else about the key changes; one warning
is added iff some value could not be read.  Missing: value lists that are themselves out of range
(`read_values_violated`). -/
theorem read_values_partial (env : Env) (o : ReadOptions) (flags : FilterFlags) (k : KeyNode)
    (offs : List Nat) (listOff size : Nat)
    (hread : shouldReadValues o.filter flags o.selfMatch = true)
    (hn : k.nValues = offs.length) (hpos : 0 < offs.length) (hmax : offs.length ≤ 1048576)
    (hoff : k.valuesListOffset = (listOff : Int)) (hlp : 0 < listOff) (hsize : size < 4294967296)
    (hos : ∀ x ∈ offs, x < 4294967296)
    (hat : At env.fi.buffer (env.fi.hbin + listOff) (encLE 4 size ++ offs.flatMap (encLE 4))) :
    ∃ vs lg, valuesStep env o flags k = .ok { k with values := vs, logs := lg } ∧
      Pairwise2 (IsValueAt env o.seq) (offs.takeWhile (valueOk env.fi)) vs ∧
      lg = if offs.all (valueOk env.fi) then k.logs else k.logs.add .WarningParse := by
  obtain ⟨post, hg, hlen⟩ := at_getFrom hat
  have hp : parseKeyValues env.fi k.nValues k.valuesListOffset.toNat = some offs := by
    unfold parseKeyValues
    rw [hoff, Int.toNat_natCast, Nat.add_comm listOff, hg]
    simp only [Option.bind_eq_bind, Option.bind_some, List.append_assoc]
    rw [leU32_enc hsize]
    simp only [Option.bind_some]
    rw [hn, count_leU32 offs post hos]
    rfl
  obtain ⟨vs, hvs, h⟩ := readValuesLoop_spec env o.seq offs [] k.logs
  have hrange : 0 < k.valuesListOffset ∧ k.valuesListOffset.toNat < env.fi.buffer.length := by
    rw [hoff, Int.toNat_natCast]
    rw [List.length_append, length_encLE] at hlen
    omega
  unfold valuesStep
  rw [if_pos ⟨by omega, hread⟩]
  unfold KeyNode.readValues
  rw [if_pos hrange, if_neg (by omega), hp]
  simp only
  rw [List.nil_append] at h
  rcases h with ⟨ha, h⟩ | ⟨ha, h | h⟩
  · refine ⟨vs, k.logs, ?_, hvs, by rw [ha]; rfl⟩
    rw [h]
  · refine ⟨vs, k.logs.add .WarningParse, ?_, hvs, by rw [ha]; rfl⟩
    rw [h]
  · refine ⟨vs, k.logs.add .WarningParse, ?_, hvs, by rw [ha]; rfl⟩
    rw [h]

/-- A file with a value list of two entries, the first a value cell named `a`, the second past the
end of the file: the hypotheses of `read_values_partial` hold, one value is readable. -/
def twoValues : FileInfo :=
  ⟨0, [0, 0, 0, 0] ++ (encLE 4 0xFFFFFFF0 ++ [16, 99].flatMap (encLE 4)) ++
    VkCell.encode ⟨-28, 0x80000004, 5, 4, 1, 0, [0x61], [0, 0, 0]⟩⟩

example : At twoValues.buffer (twoValues.hbin + 4)
    (encLE 4 0xFFFFFFF0 ++ ([16, 99] : List Nat).flatMap (encLE 4)) :=
  ⟨[0, 0, 0, 0], VkCell.encode ⟨-28, 0x80000004, 5, 4, 1, 0, [0x61], [0, 0, 0]⟩, by decide, rfl⟩
example : ([16, 99] : List Nat).takeWhile (valueOk twoValues) = [16] := by decide +kernel

/-- A key whose value list lies outside the file. -/
def lostList : KeyNode :=
  { fileOffset := 0, size := -80, flagBits := 0x20, lastWritten := 0, accessBits := 0,
    parentOffset := 0, nSubKeys := 0, nVolatileSubKeys := 0, subKeysListOffset := 0,
    volatileListOffset := 0, nValues := 3, valuesListOffset := 1000, securityOffset := 0,
    classNameOffset := 0, largestSubKeyName := 0, largestSubKeyClassName := 0,
    largestValueName := 0, largestValueData := 0, workVar := 0, nameSize := 0,
    classNameSize := 0, slack := [], name := [], path := [] }

/-- C39: a key with three values whose value list lies outside the file is reported without
values and without a warning. -/
theorem read_values_violated : ¬ ValuesReported := by
  intro h
  obtain ⟨k', h1, h2⟩ := h ⟨⟨0, [1, 2, 3]⟩, fun b => b, 10⟩ ⟨0, [], none, false, none, false⟩
    .iterate lostList (by decide) rfl
  have e : valuesStep ⟨⟨0, [1, 2, 3]⟩, fun b => b, 10⟩ ⟨0, [], none, false, none, false⟩
    .iterate lostList = .ok lostList := rfl
  rw [e] at h1
  cases h1
  revert h2; decide

/-! ### C44 -/

/-- Attaching recovered items never runs out of stack in this state. -/
def AttachOk (env : Env) (st : State) : Prop :=
  ∀ k : KeyNode, updateModifiedLists st env.depth (.mk k [] []) ≠ .panic

theorem attachLoop_no_err (f : Node → Res Node) (hf : ∀ n, f n ≠ .err) (off : Nat) (l : List Node) :
    updateModifiedLists.attachLoop f off l ≠ .err := by
  induction l with
  | nil => simp [updateModifiedLists.attachLoop]
  | cons d ds ih =>
    rw [updateModifiedLists.attachLoop]
    by_cases hd : d.key.fileOffset ≠ off
    · rw [if_pos hd]
      cases hd' : f d with
      | err => exact absurd hd' (hf d)
      | panic => simp
      | ok x =>
        simp only
        cases hl : updateModifiedLists.attachLoop f off ds with
        | err => exact absurd hl ih
        | panic => simp
        | ok x => simp
    · rw [if_neg hd]
      simp only
      cases hl : updateModifiedLists.attachLoop f off ds with
      | err => exact absurd hl ih
      | panic => simp
      | ok x => simp

theorem updateModifiedLists_no_err (st : State) (fuel : Nat) (n : Node) :
    updateModifiedLists st fuel n ≠ .err := by
  induction fuel generalizing n with
  | zero => simp [updateModifiedLists]
  | succ fuel ih =>
    rw [updateModifiedLists]
    simp only
    split
    · simp
    · have : ∀ old o, updateModifiedLists.attachDeleted (updateModifiedLists st fuel)
          n.key.fileOffset old o ≠ .err := by
        intro old o
        cases o with
        | none => simp [updateModifiedLists.attachDeleted]
        | some ds => exact attachLoop_no_err _ ih _ _
      split
      · rename_i h; exact absurd h (this _ _)
      · simp
      · simp

/-- Attaching recovered items changes nothing about the key itself but its values. -/
theorem updateModifiedLists_key (st : State) (fuel : Nat) (n m : Node)
    (h : updateModifiedLists st fuel n = .ok m) :
    m.key = { n.key with values := m.key.values } := by
  cases fuel with
  | zero => simp [updateModifiedLists] at h
  | succ fuel =>
    rw [updateModifiedLists] at h
    simp only at h
    split at h
    · cases h; rfl
    · split at h
      · cases h
      · cases h
      · cases h; rfl

/-- The same key up to values and messages. -/
def SameKey (a b : KeyNode) : Prop := a = { b with values := a.values, logs := a.logs }

/-- Reading a key cell without a filter: it succeeds exactly when the cell is readable. -/
theorem readKey_plain (env : Env) (st : State) (off : Nat) (path : Str) (sm : Bool)
    (seq : Option Nat) (hatt : AttachOk env st) :
    (KeyReadable (env.fi.buffer.drop off) →
      ∃ n k r, readKey env st ⟨off, path, none, sm, seq, true⟩ = .ok (some n, st.rootOffset) ∧
        KeyNode.fromBytes env.hashFn (env.fi.buffer.drop off) off path seq = .ok (k, r) ∧
        SameKey n.key k) ∧
    (¬ KeyReadable (env.fi.buffer.drop off) →
      readKey env st ⟨off, path, none, sm, seq, true⟩ = .err) := by
  have hacc := nk_accepts_iff env.hashFn (env.fi.buffer.drop off) off path seq
  constructor
  · intro hr
    obtain ⟨⟨k, r⟩, hk⟩ := hacc.1 hr
    have hle : off ≤ env.fi.buffer.length := by
      have h1 := hr.1
      have h2 := hr.2.1
      rw [List.length_drop] at h2
      omega
    obtain ⟨vs, lg, hv⟩ := valuesStep_ok env ⟨off, path, none, sm, seq, true⟩ .iterate k
    unfold readKey getFrom
    rw [if_pos hle]
    simp only
    unfold readFromSlice
    rw [hk]
    simp only [filterStep]
    rw [if_neg (by decide), hv]
    simp only [finishStep_iterate, if_true]
    cases hu : updateModifiedLists st env.depth (.mk { k with values := vs, logs := lg } [] []) with
    | panic => exact absurd hu (hatt _)
    | err => exact absurd hu (updateModifiedLists_no_err _ _ _)
    | ok n =>
      refine ⟨n, k, r, rfl, rfl, ?_⟩
      have := updateModifiedLists_key _ _ _ _ hu
      unfold SameKey
      rw [this]
      rfl
  · intro hr
    unfold readKey getFrom
    split
    · rfl
    · rename_i h
      split at h
      · cases h
        unfold readFromSlice
        rw [hacc.2 hr]
      · cases h

/-- The `i`-th entry `off` of the list of `self` is read as the key `n`. -/
def IsSubKeyAt (env : Env) (self : Node) (off : Nat) (n : Node) : Prop :=
  ∃ k r, KeyNode.fromBytes env.hashFn (env.fi.buffer.drop off) off self.key.path none = .ok (k, r) ∧
    SameKey n.key k

/-- C44, partial: sub-key access by index on a well-formed list of any form and nesting: past the
end nothing, otherwise the key at the listed offset, or nothing and a warning when its cell is
unreadable.  Missing: lists whose reader does not return (C16) and recovery states whose
attachment does not end (C42). -/
theorem sub_key_by_index_partial (env : Env) (st : State) (self : Node) (keys : List Nat) (i : Nat)
    (hn : 0 < self.key.nSubKeys) (hatt : AttachOk env st)
    (hl : ListAt env.fi.buffer env.fi.hbin env.depth self.key.subKeysListOffset keys)
    (hb : ∀ k ∈ keys, k < 4294967296) :
    (keys[i]? = none → getSubKeyByIndex env st self i = .ok (none, self)) ∧
    (∀ off, keys[i]? = some off → KeyReadable (env.fi.buffer.drop off) →
      ∃ n, getSubKeyByIndex env st self i = .ok (some n, self) ∧ IsSubKeyAt env self off n) ∧
    (∀ off, keys[i]? = some off → ¬ KeyReadable (env.fi.buffer.drop off) →
      getSubKeyByIndex env st self i =
        .ok (none, self.setKey { self.key with logs := self.key.logs.add .WarningParse })) := by
  unfold getSubKeyByIndex
  rw [if_pos hn, sub_key_list_partial _ _ _ _ hl hb]
  simp only
  refine ⟨fun h => by rw [h], fun off h hr => ?_, fun off h hr => ?_⟩
  · rw [h]
    obtain ⟨n, k, r, h1, h2, h3⟩ := (readKey_plain env st off self.key.path
      self.key.isFilterMatchOrDescendent none hatt).1 hr
    simp only [h1]
    exact ⟨n, rfl, k, r, h2, h3⟩
  · rw [h]
    simp only [(readKey_plain env st off self.key.path
      self.key.isFilterMatchOrDescendent none hatt).2 hr]

/-- C44: a key without sub-keys has none at any index, and an unreadable list gives nothing but a
warning. -/
theorem sub_key_by_index_none (env : Env) (st : State) (self : Node) (i : Nat) :
    (self.key.nSubKeys = 0 → getSubKeyByIndex env st self i = .ok (none, self)) ∧
    (0 < self.key.nSubKeys → parseSubKeyList env.fi env.depth self.key.subKeysListOffset = .err →
      getSubKeyByIndex env st self i =
        .ok (none, self.setKey { self.key with logs := self.key.logs.add .WarningParse })) := by
  unfold getSubKeyByIndex
  refine ⟨fun h => by rw [if_neg (by omega)], fun h hp => ?_⟩
  rw [if_pos h, hp]

/-- Calls `next_sub_key` until it returns nothing, at most `n` times. -/
def collectSubKeys (env : Env) (st : State) : Nat → Node → Res (List Node)
  | 0, _ => .ok []
  | n + 1, self =>
    match nextSubKey env st self with
    | .ok (none, _) => .ok []
    | .ok (some c, self) =>
      match collectSubKeys env st n self with
      | .ok cs => .ok (c :: cs)
      | .err => .err
      | .panic => .panic
    | .err => .err
    | .panic => .panic

theorem collect_from (env : Env) (st : State) (self : Node) (keys : List Nat) (m : Nat)
    (hn : 0 < self.key.nSubKeys) (hatt : AttachOk env st)
    (hl : ListAt env.fi.buffer env.fi.hbin env.depth self.key.subKeysListOffset keys)
    (hb : ∀ k ∈ keys, k < 4294967296) (rest : List Nat)
    (hrest : keys.drop self.key.iterIndex = rest) (hm : rest.length < m) :
    ∃ ns, collectSubKeys env st m self = .ok ns ∧
      Pairwise2 (IsSubKeyAt env self)
        (rest.takeWhile fun off => decide (KeyReadable (env.fi.buffer.drop off))) ns := by
  induction rest generalizing self m with
  | nil =>
    obtain ⟨m, rfl⟩ : ∃ m', m = m' + 1 := ⟨m - 1, by simp at hm; omega⟩
    have hnone : keys[self.key.iterIndex]? = none := by
      rw [List.getElem?_eq_none]
      exact List.drop_eq_nil_iff.1 hrest
    refine ⟨[], ?_, trivial⟩
    rw [collectSubKeys, nextSubKey,
      (sub_key_by_index_partial env st self keys _ hn hatt hl hb).1 hnone]
  | cons off rest ih =>
    obtain ⟨m, rfl⟩ : ∃ m', m = m' + 1 := ⟨m - 1, by simp at hm; omega⟩
    have hsome : keys[self.key.iterIndex]? = some off := by
      have := congrArg (fun l => l[0]?) hrest
      simpa using this
    obtain ⟨_, h2, h3⟩ := sub_key_by_index_partial env st self keys self.key.iterIndex hn hatt hl hb
    by_cases hr : KeyReadable (env.fi.buffer.drop off)
    · obtain ⟨n, hg, hs⟩ := h2 off hsome hr
      rw [collectSubKeys, nextSubKey, hg]
      simp only
      obtain ⟨ns, hc, hp⟩ := ih (self.setKey { self.key with iterIndex := self.key.iterIndex + 1 }) m
        hn hl (by
          show keys.drop (self.key.iterIndex + 1) = rest
          rw [← List.drop_drop, hrest]; rfl) (by simp at hm; omega)
      rw [hc]
      refine ⟨_, rfl, ?_⟩
      rw [List.takeWhile_cons, if_pos (by simpa using hr)]
      exact ⟨hs, hp⟩
    · rw [collectSubKeys, nextSubKey, h3 off hsome hr]
      refine ⟨[], rfl, ?_⟩
      rw [List.takeWhile_cons, if_neg (by simpa using hr)]
      trivial

/-- C44, partial: after resetting, calling `next_sub_key` until it returns nothing yields the keys
at the listed offsets, in order, up to the first unreadable one.  Missing: as above. -/
theorem next_sub_key_partial (env : Env) (st : State) (self : Node) (keys : List Nat) (m : Nat)
    (hn : 0 < self.key.nSubKeys) (hatt : AttachOk env st)
    (hl : ListAt env.fi.buffer env.fi.hbin env.depth self.key.subKeysListOffset keys)
    (hb : ∀ k ∈ keys, k < 4294967296) (hm : keys.length < m) :
    ∃ ns, collectSubKeys env st m (initSubKeyIter self) = .ok ns ∧
      Pairwise2 (IsSubKeyAt env self)
        (keys.takeWhile fun off => decide (KeyReadable (env.fi.buffer.drop off))) ns :=
  collect_from env st (initSubKeyIter self) keys m hn hatt hl hb keys rfl hm

/-- A file with a one-entry list pointing to a key cell: the hypotheses of
`sub_key_by_index_partial` hold and the key is readable. -/
def oneSubKey : FileInfo :=
  ⟨0, leafCell .lf (-16) [(16, [0, 0, 0, 0])] ++ NkCell.encode
    { size := -82, flags := 0x20, lastWritten := 1, access := 0, parent := 0, nSubKeys := 0,
      nVolatile := 0, subKeysList := 0, volatileList := -1, nValues := 0, valuesList := -1,
      security := 0, className := -1, largestSubKeyName := 0, largestSubKeyClass := 0,
      largestValueName := 0, largestValueData := 0, workVar := 0, classNameSize := 0,
      nameBytes := [0x61, 0x62], slack := [] }⟩

example : ListAt oneSubKey.buffer oneSubKey.hbin 1 0 [16] :=
  .inl ⟨.lf, -16, [(16, [0, 0, 0, 0])], by decide, by decide, by decide,
    ⟨[], _, rfl, rfl⟩, rfl⟩
example : KeyReadable (oneSubKey.buffer.drop 16) := by decide +kernel

/-- Without recovered items attaching always ends. -/
theorem attachOk_empty (env : Env) (st : State) (hd : 0 < env.depth)
    (h : ∀ p, st.deletedKeys p = none) : AttachOk env st := by
  intro k
  obtain ⟨d, hd'⟩ : ∃ d, env.depth = d + 1 := ⟨env.depth - 1, by omega⟩
  rw [hd', updateModifiedLists]
  simp only
  split
  · simp
  · rw [h]
    simp [updateModifiedLists.attachDeleted]

end Notatin
