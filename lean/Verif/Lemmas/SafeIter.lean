import Verif.Lemmas.Safe
/-
Lemmas for C83: listing the keys of a hive does not panic.
-/
namespace Notatin
open Spec

/-! ### Sub-key lists -/

/-- An item parser that takes `k` bytes and keeps the first four as a number. -/
def ItemAt (item : Bytes → Option (Nat × Bytes)) (k : Nat) : Prop :=
  ∀ bs o x r, item (bs.drop o) = some (x, r) → o + k ≤ bs.length ∧ x = u32At bs o ∧ r = bs.drop (o + k)

theorem leU32_at : ItemAt leU32 4 := by
  intro bs o x r h
  by_cases hl : o + 4 ≤ bs.length
  · rw [leU32, leUint_drop 4 bs o hl] at h
    cases h
    exact ⟨hl, rfl, rfl⟩
  · rcases leUint_drop_none 4 bs o (by omega) with h' | h'
    · rw [leU32, h'] at h; cases h
    · omega

theorem lfItem_at : ItemAt lfItem 8 := by
  intro bs o x r h
  unfold lfItem at h
  cases h1 : leU32 (bs.drop o) with
  | none => rw [h1] at h; cases h
  | some p =>
    obtain ⟨v, r1⟩ := p
    obtain ⟨hl, hv, hr⟩ := leU32_at bs o v r1 h1
    rw [h1] at h
    simp only [Option.bind_eq_bind, Option.bind_some] at h
    by_cases hl2 : o + 4 + 4 ≤ bs.length
    · rw [hr, take_drop _ _ _ hl2] at h
      simp only [Option.bind_some] at h
      cases h
      exact ⟨by omega, hv, by rw [show o + 8 = o + 4 + 4 by omega]⟩
    · exfalso
      rw [hr] at h
      unfold Notatin.take at h
      rw [if_neg (by rw [List.length_drop]; omega)] at h
      cases h

theorem count_at {item : Bytes → Option (Nat × Bytes)} {k : Nat} (hi : ItemAt item k) :
    ∀ (n : Nat) (bs : Bytes) (o : Nat) (l : List Nat) (r : Bytes), o ≤ bs.length →
      Notatin.count item n (bs.drop o) = some (l, r) →
      o + k * n ≤ bs.length ∧ ∀ x ∈ l, ∃ i, i < n ∧ x = u32At bs (o + k * i) := by
  intro n
  induction n with
  | zero =>
    intro bs o l r ho h
    rw [Notatin.count] at h
    cases h
    exact ⟨by omega, by intro x hx; cases hx⟩
  | succ n ih =>
    intro bs o l r ho h
    rw [Notatin.count] at h
    cases h1 : item (bs.drop o) with
    | none => rw [h1] at h; cases h
    | some p =>
      obtain ⟨x, r1⟩ := p
      obtain ⟨hl, hx, hr⟩ := hi bs o x r1 h1
      rw [h1] at h
      simp only at h
      cases h2 : Notatin.count item n r1 with
      | none => rw [h2] at h; cases h
      | some q =>
        obtain ⟨xs, r2⟩ := q
        rw [h2] at h
        cases h
        rw [hr] at h2
        obtain ⟨i1, i2⟩ := ih bs (o + k) xs _ hl h2
        refine ⟨by rw [Nat.mul_succ]; omega, ?_⟩
        intro y hy
        rcases List.mem_cons.1 hy with rfl | hy
        · exact ⟨0, by omega, by rw [hx]; rfl⟩
        · obtain ⟨i, hi, he⟩ := i2 y hy
          exact ⟨i + 1, by omega, by rw [he, Nat.mul_succ]; congr 1; omega⟩

/-- A list as it is read, in terms of the bytes. -/
theorem list_at {sig : Bytes} (hsig : sig.length = 2) {item : Bytes → Option (Nat × Bytes)} {k : Nat}
    (hi : ItemAt item k) (bs : Bytes) (o : Nat) (l : SubKeyList) (r : Bytes)
    (h : SubKeyList.fromBytes sig item (bs.drop o) = some (l, r)) :
    slice bs (o + 4) 2 = sig ∧ o + 8 + k * leNat (slice bs (o + 6) 2) ≤ bs.length ∧
      ∀ x ∈ l.items, ∃ i, i < leNat (slice bs (o + 6) 2) ∧ x = u32At bs (o + 8 + k * i) := by
  unfold SubKeyList.fromBytes leI32 at h
  by_cases h4 : o + 4 ≤ bs.length
  · rw [leUint_drop 4 bs o h4] at h
    simp only [Option.bind_eq_bind, Option.bind_some] at h
    by_cases ht : (bs.drop (o + 4)).take sig.length = sig
    · have htag : tag sig (bs.drop (o + 4)) = some ((), bs.drop (o + 6)) := by
        unfold tag
        rw [if_pos ht, List.drop_drop, hsig]
      rw [htag] at h
      simp only [Option.bind_some] at h
      by_cases h8 : o + 6 + 2 ≤ bs.length
      · rw [leU16, leUint_drop 2 bs (o + 6) h8] at h
        simp only [Option.bind_some] at h
        cases hc : Notatin.count item (leNat (slice bs (o + 6) 2)) (bs.drop (o + 6 + 2)) with
        | none => rw [hc] at h; cases h
        | some q =>
          obtain ⟨xs, r2⟩ := q
          rw [hc] at h
          cases h
          obtain ⟨c1, c2⟩ := count_at hi _ bs (o + 6 + 2) xs _ h8 hc
          exact ⟨by unfold slice; rw [← hsig]; exact ht, c1, c2⟩
      · exfalso
        rcases leUint_drop_none 2 bs (o + 6) (by omega) with h' | h'
        · rw [leU16, h'] at h; cases h
        · omega
    · exfalso
      unfold tag at h
      rw [if_neg ht] at h
      cases h
  · exfalso
    rcases leUint_drop_none 4 bs o (by omega) with h' | h'
    · rw [h'] at h; cases h
    · omega

theorem offsetListAdd_safe (hbin : Nat) (xs : List Nat) (h : ∀ x ∈ xs, x + hbin < 4294967296) :
    offsetListAdd hbin xs ≠ .panic := by
  induction xs with
  | nil => simp [offsetListAdd]
  | cons x xs ih =>
    rw [offsetListAdd, if_pos (h x List.mem_cons_self)]
    have := ih (fun y hy => h y (List.mem_cons_of_mem _ hy))
    cases ho : offsetListAdd hbin xs with
    | panic => exact absurd ho this
    | err => simp
    | ok => simp

theorem riLoop_safe (f : Nat → Res (List Nat)) (xs : List Nat) (h : ∀ x ∈ xs, f x ≠ .panic) :
    riLoop f xs ≠ .panic := by
  induction xs with
  | nil => simp [riLoop]
  | cons x xs ih =>
    rw [riLoop]
    cases hx : f x with
    | panic => exact absurd hx (h x List.mem_cons_self)
    | err => simp
    | ok ys =>
      simp only
      have := ih (fun y hy => h y (List.mem_cons_of_mem _ hy))
      cases hr : riLoop f xs with
      | panic => exact absurd hr this
      | err => simp
      | ok => simp

/-- A list that ends is read without a panic. -/
theorem parseSubKeyList_safe (buf : Bytes) : ∀ (depth off : Nat), ListEnds buf depth off →
    parseSubKeyList ⟨4096, buf⟩ depth off ≠ .panic := by
  intro depth
  induction depth with
  | zero => intro off h; cases h
  | succ depth ih =>
    intro off h
    obtain ⟨hri, hlf, hli⟩ := h
    rw [parseSubKeyList]
    simp only
    unfold getFrom
    by_cases hle : off + 4096 ≤ buf.length
    · rw [if_pos hle]
      simp only
      cases hr : SubKeyList.fromBytes [0x72, 0x69] leU32 (buf.drop (off + 4096)) with
      | some p =>
        obtain ⟨l, r⟩ := p
        obtain ⟨e1, e2, e3⟩ := list_at rfl leU32_at buf _ l r hr
        simp only
        refine riLoop_safe _ _ ?_
        intro x hx
        obtain ⟨i, hi, rfl⟩ := e3 x hx
        exact ih _ (hri e1 e2 i hi)
      | none =>
        simp only
        unfold parseLeafList
        cases h1 : SubKeyList.fromBytes [0x6C, 0x66] lfItem (buf.drop (off + 4096)) with
        | some p =>
          obtain ⟨l, r⟩ := p
          obtain ⟨e1, e2, e3⟩ := list_at rfl lfItem_at buf _ l r h1
          simp only
          refine offsetListAdd_safe _ _ ?_
          intro x hx
          obtain ⟨i, hi, rfl⟩ := e3 x hx
          exact hlf e1 e2 i hi
        | none =>
          simp only
          cases h2 : SubKeyList.fromBytes [0x6C, 0x68] lhItem (buf.drop (off + 4096)) with
          | some p => simp
          | none =>
            simp only
            cases h3 : SubKeyList.fromBytes [0x6C, 0x69] leU32 (buf.drop (off + 4096)) with
            | some p =>
              obtain ⟨l, r⟩ := p
              obtain ⟨e1, e2, e3⟩ := list_at rfl leU32_at buf _ l r h3
              simp only
              refine offsetListAdd_safe _ _ ?_
              intro x hx
              obtain ⟨i, hi, rfl⟩ := e3 x hx
              exact hli e1 e2 i hi
            | none => simp
    · rw [if_neg hle]
      simp

/-! ### Reading keys -/

/-- A key that has been read from the file: its numbers are those of a key cell, and its path goes on from the
path it was read under. -/
theorem readKey_cell_of (env : Env) (st : State) (o : ReadOptions) (n : Node) (ro : Nat) (D : Node → Prop)
    (hD : ∀ k, D (.mk k [] []) ∧ ∀ m, updateModifiedLists st env.depth (.mk k [] []) = .ok m → D m) (h : readKey env st o = .ok (some n, ro)) :
    D n ∧ slice env.fi.buffer (o.offset + 4) 2 = [0x6E, 0x6B] ∧
      n.key.nSubKeys = u32At env.fi.buffer (o.offset + 24) ∧
      n.key.subKeysListOffset = u32At env.fi.buffer (o.offset + 32) ∧
      ∃ name, n.key.path = o.curPath ++ '\\' :: name := by
  unfold readKey getFrom at h
  split at h
  · cases h
  · rename_i slc hg
    split at hg
    case isFalse => cases hg
    case isTrue hle =>
    cases hg
    unfold readFromSlice at h
    rcases keyNode_cases env.hashFn (env.fi.buffer.drop o.offset) o.offset o.curPath o.seq with
      ⟨⟨_, _, hsig, _⟩, name, logs, _, hk⟩ | ⟨_, hk⟩
    · rw [hk] at h
      simp only at h
      generalize hk0 : keyOfSlices env.hashFn (env.fi.buffer.drop o.offset) o.offset o.curPath o.seq name logs = k at h
      have e0 : slice env.fi.buffer (o.offset + 4) 2 = [0x6E, 0x6B] := by
        unfold slice at hsig ⊢
        rw [List.drop_drop] at hsig
        exact hsig
      have e1 : k.nSubKeys = u32At env.fi.buffer (o.offset + 24) := by
        rw [← hk0]
        show u32At (env.fi.buffer.drop o.offset) 24 = _
        unfold u32At slice; rw [List.drop_drop]
      have e2 : k.subKeysListOffset = u32At env.fi.buffer (o.offset + 32) := by
        rw [← hk0]
        show u32At (env.fi.buffer.drop o.offset) 32 = _
        unfold u32At slice; rw [List.drop_drop]
      have e3 : k.path = o.curPath ++ '\\' :: name := by rw [← hk0]; rfl
      cases hf : filterStep st o.filter k with
      | err => rw [hf] at h; cases h
      | panic => rw [hf] at h; cases h
      | ok x =>
        obtain ⟨flags, ro'⟩ := x
        rw [hf] at h
        simp only at h
        by_cases hno : flags = .noMatch
        · rw [if_pos hno] at h; cases h
        · rw [if_neg hno] at h
          obtain ⟨vs, lg, hv⟩ := valuesStep_ok env o flags k
          rw [hv] at h
          simp only at h
          cases hfi : finishStep env st o flags { k with values := vs, logs := lg } with
          | err => rw [hfi] at h; cases h
          | panic => rw [hfi] at h; cases h
          | ok m =>
            rw [hfi] at h
            cases h
            have hk1 : ∀ k1 : KeyNode, k1.nSubKeys = k.nSubKeys → k1.subKeysListOffset = k.subKeysListOffset →
                k1.path = k.path →
                (if o.getModified = true then updateModifiedLists st env.depth (.mk k1 [] [])
                  else .ok (.mk k1 [] [])) = .ok n →
                D n ∧ slice env.fi.buffer (o.offset + 4) 2 = [0x6E, 0x6B] ∧
                n.key.nSubKeys = u32At env.fi.buffer (o.offset + 24) ∧
                n.key.subKeysListOffset = u32At env.fi.buffer (o.offset + 32) ∧
                ∃ name, n.key.path = o.curPath ++ '\\' :: name := by
              intro k1 h1 h2 h3 h4
              by_cases hg : o.getModified = true
              · rw [if_pos hg] at h4
                have hkey := updateModifiedLists_key _ _ _ _ h4
                have hdel := (hD _).2 _ h4
                refine ⟨hdel, e0, ?_, ?_, name, ?_⟩
                · rw [hkey]; exact h1.trans e1
                · rw [hkey]; exact h2.trans e2
                · rw [hkey]; exact h3.trans e3
              · rw [if_neg hg] at h4
                cases h4
                exact ⟨(hD _).1, e0, h1.trans e1, h2.trans e2, name, h3.trans e3⟩
            unfold finishStep at hfi
            simp only at hfi
            by_cases hm : flags = .keyMatch
            · rw [if_pos hm] at hfi
              exact hk1 { k with values := vs, logs := lg, filterState := some .Exact } rfl rfl rfl hfi
            · rw [if_neg hm] at hfi
              exact hk1 { k with values := vs, logs := lg } rfl rfl rfl hfi
    · rw [hk] at h
      cases h

theorem readKey_cell (env : Env) (st : State) (o : ReadOptions) (n : Node) (ro : Nat)
    (hst : ∀ p, st.deletedKeys p = none) (h : readKey env st o = .ok (some n, ro)) :
    n.deletedKeys = [] ∧ slice env.fi.buffer (o.offset + 4) 2 = [0x6E, 0x6B] ∧
      n.key.nSubKeys = u32At env.fi.buffer (o.offset + 24) ∧
      n.key.subKeysListOffset = u32At env.fi.buffer (o.offset + 32) ∧
      ∃ name, n.key.path = o.curPath ++ '\\' :: name :=
  readKey_cell_of env st o n ro (·.deletedKeys = [])
    (fun _ => ⟨rfl, fun _ hm => updateModifiedLists_none st hst _ _ _ rfl hm⟩) h

/-- The same with recovered keys on record. -/
theorem readKey_cell_del (env : Env) (st : State) (o : ReadOptions) (n : Node) (ro : Nat)
    (hst : StateDel st) (h : readKey env st o = .ok (some n, ro)) :
    DelOk n ∧ slice env.fi.buffer (o.offset + 4) 2 = [0x6E, 0x6B] ∧
      n.key.nSubKeys = u32At env.fi.buffer (o.offset + 24) ∧
      n.key.subKeysListOffset = u32At env.fi.buffer (o.offset + 32) ∧
      ∃ name, n.key.path = o.curPath ++ '\\' :: name :=
  readKey_cell_of env st o n ro DelOk
    (fun k => ⟨(by intro d hd; cases hd), fun _ hm =>
      updateModifiedLists_delOk st hst _ (.mk k [] []) _ (by intro d hd; cases hd) hm⟩) h

/-! ### Paths -/

/-- Splitting at the first backslash. -/
theorem first_backslash (s : Str) (h : '\\' ∈ s) : ∃ a b, s = a ++ '\\' :: b ∧ '\\' ∉ a := by
  induction s with
  | nil => cases h
  | cons c s ih =>
    by_cases hc : c = '\\'
    · exact ⟨[], s, by rw [hc]; rfl, by simp⟩
    · have : '\\' ∈ s := by
        rcases List.mem_cons.1 h with h | h
        · exact absurd h.symm hc
        · exact h
      obtain ⟨a, b, he, ha⟩ := ih this
      refine ⟨c :: a, b, by rw [he]; rfl, ?_⟩
      intro hm
      rcases List.mem_cons.1 hm with hm | hm
      · exact hc hm.symm
      · exact ha hm

/-- Below one root all paths have the same root part, and it can be cut off. -/
theorem root_part (rn : Str) : ∃ c, ∀ rest, getRootPathOffset (asciiLower ('\\' :: rn ++ '\\' :: rest)) = c ∧
    c ≠ 0 ∧ dropBytes c (asciiLower ('\\' :: rn ++ '\\' :: rest)) ≠ none := by
  obtain ⟨a, b, he, ha⟩ := first_backslash (asciiLower rn ++ ['\\']) (by simp)
  refine ⟨utf8Len a + 2, fun rest => ?_⟩
  have hs : asciiLower ('\\' :: rn ++ '\\' :: rest) = '\\' :: a ++ '\\' :: (b ++ asciiLower rest) := by
    have h1 : asciiLower ('\\' :: rn ++ '\\' :: rest) = '\\' :: (asciiLower rn ++ ['\\'] ++ asciiLower rest) := by
      simp [asciiLower]
    rw [h1, he]
    simp
  have hg : getRootPathOffset ('\\' :: a ++ '\\' :: (b ++ asciiLower rest)) = utf8Len a + 2 :=
    getRootPathOffset_eq a _ ha
  rw [hs]
  refine ⟨hg, by omega, ?_⟩
  obtain ⟨_, r, hr⟩ := root_prefix_in_bounds ('\\' :: a ++ '\\' :: (b ++ asciiLower rest))
  rw [hg] at hr
  rw [hr]; simp

/-- The path is that of the root or goes on below it. -/
def Below (rn path : Str) : Prop := ∃ rest, path = '\\' :: rn ++ rest ∧ (rest = [] ∨ ∃ r, rest = '\\' :: r)

theorem Below.child {rn path : Str} (h : Below rn path) (name : Str) :
    ∃ rest, path ++ '\\' :: name = '\\' :: rn ++ '\\' :: rest := by
  obtain ⟨rest, rfl, hr⟩ := h
  rcases hr with rfl | ⟨r, rfl⟩
  · exact ⟨name, by simp⟩
  · exact ⟨r ++ '\\' :: name, by simp⟩

/-- The filter step below a root: no panic, and the root part found is the one of the root. -/
theorem filterStep_safe {rn : Str} {c : Nat}
    (hc : ∀ rest, getRootPathOffset (asciiLower ('\\' :: rn ++ '\\' :: rest)) = c ∧
      c ≠ 0 ∧ dropBytes c (asciiLower ('\\' :: rn ++ '\\' :: rest)) ≠ none)
    (st : State) (hro : st.rootOffset = 0 ∨ st.rootOffset = c) (f : Option Filter) (k : KeyNode) (rest : Str)
    (hk : k.path = '\\' :: rn ++ '\\' :: rest) :
    filterStep st f k ≠ .panic ∧ ∀ fl ro, filterStep st f k = .ok (fl, ro) → ro = 0 ∨ ro = c := by
  unfold filterStep
  cases f with
  | none => exact ⟨by simp, by intro fl ro h; cases h; exact hro⟩
  | some f =>
    simp only
    unfold Filter.checkCell
    cases hq : f.query with
    | none => exact ⟨by simp, by intro fl ro h; cases h; exact hro⟩
    | some q =>
      simp only
      split
      · exact ⟨by simp, by intro fl ro h; cases h; exact hro⟩
      · obtain ⟨h1, h2, h3⟩ := hc rest
        have hcache : cachedRootOffset st.rootOffset (asciiLower k.path) = c := by
          unfold cachedRootOffset
          rcases hro with h | h
          · rw [if_pos h, hk]; exact h1
          · rw [if_neg (by omega)]; exact h
        rw [hcache]
        unfold RegQuery.checkKeyMatch
        rw [hk]
        cases hd : dropBytes (if q.hasRoot = true then 0 else c) (asciiLower ('\\' :: rn ++ '\\' :: rest)) with
        | none =>
          exfalso
          by_cases hr : q.hasRoot = true
          · rw [if_pos hr] at hd
            unfold dropBytes at hd
            cases hd
          · rw [if_neg hr] at hd
            exact h3 hd
        | some r => exact ⟨by simp, by intro fl ro h; cases h; exact .inr rfl⟩

theorem readKey_safe (env : Env) (st : State) (o : ReadOptions) (C : Nat → Prop) (hatt : AttachOk env st)
    (hf : ∀ k : KeyNode, (∃ name, k.path = o.curPath ++ '\\' :: name) → filterStep st o.filter k ≠ .panic ∧
      ∀ fl ro, filterStep st o.filter k = .ok (fl, ro) → C ro) :
    readKey env st o ≠ .panic ∧ ∀ x ro, readKey env st o = .ok (x, ro) → C ro := by
  unfold readKey
  cases hg : getFrom env.fi.buffer o.offset with
  | none => exact ⟨by simp, by intro x ro h; cases h⟩
  | some slc =>
    simp only
    unfold readFromSlice
    cases hk : KeyNode.fromBytes env.hashFn slc o.offset o.curPath o.seq with
    | err => exact ⟨by simp, by intro x ro h; cases h⟩
    | panic => exact absurd hk (fromBytes_no_panic _ _ _ _ _)
    | ok x =>
      obtain ⟨k, r⟩ := x
      obtain ⟨_, _, name, _, hp⟩ := fromBytes_fresh _ _ _ _ _ _ _ hk
      obtain ⟨f1, f2⟩ := hf k ⟨name, hp⟩
      simp only
      cases hfs : filterStep st o.filter k with
      | err => exact ⟨by simp, by intro x ro h; cases h⟩
      | panic => exact absurd hfs f1
      | ok x =>
        obtain ⟨flags, ro⟩ := x
        have hC := f2 _ _ hfs
        simp only
        split
        · exact ⟨by simp, by intro x ro h; cases h; exact hC⟩
        · obtain ⟨vs, lg, hv⟩ := valuesStep_ok env o flags k
          rw [hv]
          simp only
          have : finishStep env st o flags { k with values := vs, logs := lg } ≠ .panic := by
            unfold finishStep
            simp only
            split
            · exact hatt _
            · simp
          cases hfi : finishStep env st o flags { k with values := vs, logs := lg } with
          | err => exact ⟨by simp, by intro x ro h; cases h⟩
          | panic => exact absurd hfi this
          | ok => exact ⟨by simp, by intro x ro h; cases h; exact hC⟩

/-! ### The iteration -/

/-- What holds of every key the iteration handles. -/
structure NodeSafe (env : Env) (rn : Str) (n : Node) : Prop where
  plain : DelOk n
  list : n.key.cellState = .Allocated → 0 < n.key.nSubKeys → n.key.nSubKeys ≤ 1048576 →
    parseSubKeyList env.fi env.depth n.key.subKeysListOffset ≠ .panic
  path : n.key.cellState = .Allocated → 0 < n.key.nSubKeys → Below rn n.key.path

/-- What is on record as deleted can be attached, and is deleted. -/
structure StateSafe (env : Env) (st : State) : Prop where
  attach : AttachOk env st
  del : StateDel st

theorem StateSafe.at {env : Env} {st : State} (h : StateSafe env st) (ro : Nat) :
    StateSafe env { st with rootOffset := ro } :=
  ⟨fun k => by rw [updateModifiedLists_rootOffset]; exact h.attach k, h.del⟩

theorem inheritFilterState_allDel (s : Option FilterMatchState) (d : Node) (h : AllDel d) : AllDel (inheritFilterState s d) := by
  obtain ⟨h1, h2⟩ := (allDel_iff d).1 h
  cases d
  exact (allDel_iff _).2 ⟨h1, h2⟩

theorem recovered_safe {env : Env} {rn : Str} {d : Node} (h : AllDel d) : NodeSafe env rn d :=
  ⟨((allDel_iff d).1 h).2, fun ha => absurd ha ((allDel_iff d).1 h).1, fun ha => absurd ha ((allDel_iff d).1 h).1⟩

theorem readSubKeysLoop_safe (env : Env) (st : State) (rn path : Str) (c : Nat)
    (hc : ∀ rest, getRootPathOffset (asciiLower ('\\' :: rn ++ '\\' :: rest)) = c ∧
      c ≠ 0 ∧ dropBytes c (asciiLower ('\\' :: rn ++ '\\' :: rest)) ≠ none)
    (hlists : ∀ o, slice env.fi.buffer (o + 4) 2 = [0x6E, 0x6B] → 0 < u32At env.fi.buffer (o + 24) →
      u32At env.fi.buffer (o + 24) ≤ 1048576 →
      parseSubKeyList env.fi env.depth (u32At env.fi.buffer (o + 32)) ≠ .panic)
    (hst : StateSafe env st) (hp : Below rn path) (f : Filter)
    (sf : Option Filter) (sm : Bool) (seq : Option Nat) (gm : Bool) : ∀ (offs : List Nat) (ro : Nat) (logs : Logs),
    (ro = 0 ∨ ro = c) →
    readSubKeysLoop env st path f sf sm seq gm offs ro logs ≠ .panic ∧
      ∀ ns fd lg ro', readSubKeysLoop env st path f sf sm seq gm offs ro logs = .ok (ns, fd, lg, ro') →
        (ro' = 0 ∨ ro' = c) ∧ ∀ n ∈ ns, NodeSafe env rn n := by
  intro offs
  induction offs with
  | nil =>
    intro ro logs hro
    rw [readSubKeysLoop]
    exact ⟨by simp, by intro ns fd lg ro' h; cases h; exact ⟨hro, by intro n hn; cases hn⟩⟩
  | cons o os ih =>
    intro ro logs hro
    have hst' := hst.at ro
    obtain ⟨k1, k2⟩ := readKey_safe env { st with rootOffset := ro } ⟨o, path, sf, sm, seq, gm⟩
      (fun r => r = 0 ∨ r = c) hst'.attach (by
        rintro k ⟨name, hk⟩
        obtain ⟨rest, he⟩ := hp.child name
        exact filterStep_safe hc _ hro sf k rest (hk.trans he))
    rw [readSubKeysLoop]
    cases hr : readKey env { st with rootOffset := ro } ⟨o, path, sf, sm, seq, gm⟩ with
    | panic => exact absurd hr k1
    | err => exact ih ro _ hro
    | ok x =>
      obtain ⟨on, ro1⟩ := x
      have hro1 := k2 _ _ hr
      cases on with
      | none => exact ih ro1 _ hro1
      | some n =>
        simp only
        obtain ⟨i1, i2⟩ := ih ro1 logs hro1
        cases hl : readSubKeysLoop env st path f sf sm seq gm os ro1 logs with
        | err => exact ⟨by simp, by intro ns fd lg ro' h; cases h⟩
        | panic => exact absurd hl i1
        | ok y =>
          obtain ⟨ns', fd', lg', r'⟩ := y
          obtain ⟨j1, j2⟩ := i2 _ _ _ _ hl
          refine ⟨by simp, ?_⟩
          intro ns fd lg ro' h
          cases h
          refine ⟨j1, ?_⟩
          intro m hm
          rcases List.mem_cons.1 hm with rfl | hm
          · obtain ⟨d1, d2, d3, d4, name, d5⟩ := readKey_cell_del env _ _ n ro1 hst'.del hr
            refine ⟨d1, ?_, ?_⟩
            · intro _ h1 h2
              have h1 : 0 < n.key.nSubKeys := h1
              have h2 : n.key.nSubKeys ≤ 1048576 := h2
              show parseSubKeyList env.fi env.depth n.key.subKeysListOffset ≠ .panic
              rw [d4]
              rw [d3] at h1 h2
              exact hlists o d2 h1 h2
            · intro _ _
              obtain ⟨rest, he⟩ := hp.child name
              exact ⟨'\\' :: rest, d5.trans he, .inr ⟨rest, rfl⟩⟩
          · exact j2 m hm

theorem readSubKeysInternal_safe (env : Env) (st : State) (rn : Str) (c : Nat)
    (hc : ∀ rest, getRootPathOffset (asciiLower ('\\' :: rn ++ '\\' :: rest)) = c ∧
      c ≠ 0 ∧ dropBytes c (asciiLower ('\\' :: rn ++ '\\' :: rest)) ≠ none)
    (hlists : ∀ o, slice env.fi.buffer (o + 4) 2 = [0x6E, 0x6B] → 0 < u32At env.fi.buffer (o + 24) →
      u32At env.fi.buffer (o + 24) ≤ 1048576 →
      parseSubKeyList env.fi env.depth (u32At env.fi.buffer (o + 32)) ≠ .panic)
    (hst : StateSafe env st) (hro : st.rootOffset = 0 ∨ st.rootOffset = c)
    (n : Node) (hn : NodeSafe env rn n) (f : Filter) (gm : Bool) :
    readSubKeysInternal env st n f none gm ≠ .panic ∧
      ∀ r, readSubKeysInternal env st n f none gm = .ok r →
        (r.rootOffset = 0 ∨ r.rootOffset = c) ∧ (∀ m ∈ r.children, NodeSafe env rn m) ∧
          DelOk r.self := by
  have hset : ∀ k, DelOk (n.setKey k) := by
    intro k
    have := hn.plain
    cases n
    exact this
  unfold readSubKeysInternal
  simp only
  split
  · rename_i hal
    split
    · refine ⟨by simp, ?_⟩
      intro r h; cases h
      exact ⟨hro, (by intro m hm; cases hm), hset _⟩
    · split
      · rename_i h1 h2
        have hl := hn.list hal h2 (by omega)
        cases hp : parseSubKeyList env.fi env.depth n.key.subKeysListOffset with
        | panic => exact absurd hp hl
        | err =>
          refine ⟨by simp, ?_⟩
          intro r h; cases h
          exact ⟨hro, (by intro m hm; cases hm), hset _⟩
        | ok offs =>
          simp only
          obtain ⟨s1, s2⟩ := readSubKeysLoop_safe env st rn n.key.path c hc hlists hst (hn.path hal h2) f
            (if (n.key.isFilterMatchOrDescendent && f.returnSubKeys) = true then none else some f)
            n.key.isFilterMatchOrDescendent none gm offs st.rootOffset n.key.logs hro
          cases hr : readSubKeysLoop env st n.key.path f
            (if (n.key.isFilterMatchOrDescendent && f.returnSubKeys) = true then none else some f)
            n.key.isFilterMatchOrDescendent none gm offs st.rootOffset n.key.logs with
          | err => exact ⟨by simp, by intro r h; cases h⟩
          | panic => exact absurd hr s1
          | ok y =>
            obtain ⟨ns, fd, lg, ro'⟩ := y
            obtain ⟨t1, t2⟩ := s2 _ _ _ _ hr
            refine ⟨by simp, ?_⟩
            intro r h
            cases h
            exact ⟨t1, t2, hset _⟩
      · refine ⟨by simp, ?_⟩
        intro r h; cases h
        exact ⟨hro, (by intro m hm; cases hm), hn.plain⟩
  · refine ⟨by simp, ?_⟩
    intro r h; cases h
    exact ⟨hro, (by intro m hm; cases hm), hn.plain⟩

/-- What holds of the iterator between two rounds. -/
structure CtxSafe (env : Env) (rn : Str) (c : Nat) (ctx : IterCtx) : Prop where
  state : StateSafe env ctx.state
  ro : ctx.state.rootOffset = 0 ∨ ctx.state.rootOffset = c
  stack : ∀ n ∈ ctx.stack, NodeSafe env rn n

theorem foldl_pushCheck_safe (env : Env) (rn : Str) (c : Nat) : ∀ (l : List Node) (ctx : IterCtx),
    CtxSafe env rn c ctx → (∀ n ∈ l, NodeSafe env rn n) → CtxSafe env rn c (l.foldl IterCtx.pushCheck ctx) := by
  intro l
  induction l with
  | nil => intro ctx h _; exact h
  | cons a as ih =>
    intro ctx h hl
    rw [List.foldl_cons]
    refine ih _ ?_ (fun n hn => hl n (List.mem_cons_of_mem _ hn))
    unfold IterCtx.pushCheck
    split
    · exact h
    · refine ⟨h.state, h.ro, ?_⟩
      intro n hn
      rcases List.mem_cons.1 hn with rfl | hn
      · exact hl n List.mem_cons_self
      · exact h.stack n hn

theorem nextPre_safe (env : Env) (rn : Str) (c : Nat)
    (hc : ∀ rest, getRootPathOffset (asciiLower ('\\' :: rn ++ '\\' :: rest)) = c ∧
      c ≠ 0 ∧ dropBytes c (asciiLower ('\\' :: rn ++ '\\' :: rest)) ≠ none)
    (hlists : ∀ o, slice env.fi.buffer (o + 4) 2 = [0x6E, 0x6B] → 0 < u32At env.fi.buffer (o + 24) →
      u32At env.fi.buffer (o + 24) ≤ 1048576 →
      parseSubKeyList env.fi env.depth (u32At env.fi.buffer (o + 32)) ≠ .panic)
    : ∀ (steps : Nat) (ctx : IterCtx), CtxSafe env rn c ctx →
    nextPre env steps ctx ≠ some .panic ∧
      ∀ x ctx', nextPre env steps ctx = some (.ok (x, ctx')) → CtxSafe env rn c ctx' := by
  intro steps
  induction steps with
  | zero => intro ctx _; exact ⟨by simp [nextPre], by intro x ctx' h; cases h⟩
  | succ steps ih =>
    intro ctx h
    rw [nextPre]
    cases hs : ctx.stack with
    | nil => exact ⟨by simp, by intro x ctx' he; cases he; exact h⟩
    | cons node rest =>
      have hn : NodeSafe env rn node := h.stack node (by rw [hs]; exact List.mem_cons_self)
      have h0 : CtxSafe env rn c { ctx with stack := rest } :=
        ⟨h.state, h.ro, fun m hm => h.stack m (by rw [hs]; exact List.mem_cons_of_mem _ hm)⟩
      have hkids : pushKids env { ctx with stack := rest } node ≠ .panic ∧
          ∀ n' ctx', pushKids env { ctx with stack := rest } node = .ok (n', ctx') →
            CtxSafe env rn c ctx' ∧ DelOk n' := by
        unfold pushKids
        by_cases hk : 0 < node.key.nSubKeys
        · rw [if_pos hk]
          obtain ⟨r1, r2⟩ := readSubKeysInternal_safe env ctx.state rn c hc hlists h.state h.ro node hn
            ctx.filter ctx.getModified
          simp only
          cases hr : readSubKeysInternal env ctx.state node ctx.filter none ctx.getModified with
          | err => exact ⟨by simp, by intro n' ctx' he; cases he⟩
          | panic => exact absurd hr r1
          | ok r =>
            obtain ⟨q1, q2, q3⟩ := r2 r hr
            refine ⟨by simp, ?_⟩
            intro n' ctx' he
            cases he
            refine ⟨foldl_pushCheck_safe env rn c _ _ ⟨h.state.at _, q1, h0.stack⟩
              (fun m hm => q2 m (List.mem_reverse.1 hm)), ?_⟩
            cases hself : r.self with
            | mk k vs ds => rw [hself] at q3; exact q3
        · rw [if_neg hk]
          exact ⟨by simp, by intro n' ctx' he; cases he; exact ⟨h0, hn.plain⟩⟩
      simp only
      unfold preStep
      cases hp : pushKids env { ctx with stack := rest } node with
      | err => exact ⟨by simp, by intro x ctx' he; cases he⟩
      | panic => exact absurd hp hkids.1
      | ok y =>
        obtain ⟨n', ctx1⟩ := y
        obtain ⟨g1, g2⟩ := hkids.2 n' ctx1 hp
        have hdel : CtxSafe env rn c (pushDeleted n' ctx1).2 := by
          refine ⟨g1.state, g1.ro, ?_⟩
          intro m hm
          rcases List.mem_append.1 hm with hm | hm
          · obtain ⟨d, hd, rfl⟩ := List.mem_map.1 (List.mem_reverse.1 hm)
            exact recovered_safe (inheritFilterState_allDel _ d (g2 d hd))
          · exact g1.stack m hm
        generalize hpd : pushDeleted n' ctx1 = pd at hdel
        obtain ⟨n2, ctx2⟩ := pd
        simp only
        rw [hpd]
        simp only
        by_cases hshow : (ctx2.includeAncestors || !ctx2.filter.isValid || n2.key.isFilterMatchOrDescendent) = true
        · rw [if_pos hshow]
          exact ⟨by simp, by intro x ctx' he; cases he; exact hdel⟩
        · rw [if_neg hshow]
          exact ih ctx2 hdel

theorem collect_safe (env : Env) (rn : Str) (c : Nat)
    (hc : ∀ rest, getRootPathOffset (asciiLower ('\\' :: rn ++ '\\' :: rest)) = c ∧
      c ≠ 0 ∧ dropBytes c (asciiLower ('\\' :: rn ++ '\\' :: rest)) ≠ none)
    (hlists : ∀ o, slice env.fi.buffer (o + 4) 2 = [0x6E, 0x6B] → 0 < u32At env.fi.buffer (o + 24) →
      u32At env.fi.buffer (o + 24) ≤ 1048576 →
      parseSubKeyList env.fi env.depth (u32At env.fi.buffer (o + 32)) ≠ .panic)
    : ∀ (steps : Nat) (ctx : IterCtx), CtxSafe env rn c ctx →
    collect (nextPre env) steps ctx ≠ some .panic := by
  intro steps
  induction steps with
  | zero => intro ctx _; simp [collect]
  | succ steps ih =>
    intro ctx h
    obtain ⟨n1, n2⟩ := nextPre_safe env rn c hc hlists (steps + 1) ctx h
    rw [collect]
    cases hx : nextPre env (steps + 1) ctx with
    | none => simp
    | some r =>
      rcases r with ⟨x, ctx'⟩ | _ | _
      · cases x with
        | none => simp
        | some n =>
          simp only
          have := ih ctx' (n2 _ _ hx)
          split
          · simp
          · exact this
      · simp
      · exact absurd hx n1

end Notatin
