import Verif.Props.LookupLogs
/-
C88: however the sub-keys of a key are asked for — all at once, by index, or one after the other — the same keys come.
-/
namespace Notatin
open Spec

/-- A key without the mark that tells whether it was found by a filter. -/
def unmarked (n : Node) : Node := n.setKey { n.key with filterState := none }

/-- What asking by index gives, for all indices at once: an entry for each one, nothing where none can be read, and
nothing behind the end. -/
def ByIndex (env : Env) (st : State) (n : Node) (xs : List (Option Node)) : Prop :=
  ∀ i, ∃ n', getSubKeyByIndex env st n i = .ok (xs[i]?.getD none, n')

/-- The full claim of C88, of one key: what all at once gives is what is given by index, and so is what is given one
after the other. -/
def WaysAgree (env : Env) (st : State) (n : Node) : Prop :=
  ∀ ms, readSubKeys env st n = .ok ms → ∃ xs, ByIndex env st n xs ∧
    ms.map unmarked = (xs.filterMap id).map unmarked ∧
    ∃ N, ∀ m, N ≤ m → ∃ cs, collectSubKeys env st m (initSubKeyIter n) = .ok cs ∧ cs.map unmarked = ms.map unmarked

theorem readKey_open_filter (env : Env) (st : State) (off : Nat) (path : Str) (sf : Option Filter)
    (hf : sf = none ∨ sf = some {}) (sm : Bool) (seq : Option Nat) (gm : Bool) :
    readKey env st ⟨off, path, sf, sm, seq, gm⟩ = readKey env st ⟨off, path, none, sm, seq, gm⟩ ∧
      ∀ on ro, readKey env st ⟨off, path, none, sm, seq, gm⟩ = .ok (on, ro) → ro = st.rootOffset := by
  refine ⟨?_, ?_⟩
  · obtain rfl | rfl := hf
    · rfl
    · rfl
  · intro on ro h
    unfold readKey at h
    split at h
    · cases h
    · unfold readFromSlice at h
      split at h
      · cases h
      · cases h
      · simp only [filterStep] at h
        rw [if_neg (by decide)] at h
        split at h
        · cases h
        · cases h
        · split at h
          · cases h
          · cases h
          · cases h; rfl

/-- The key at a place, if it can be read. -/
def keyThere (env : Env) (st : State) (n : Node) (off : Nat) : Option Node :=
  match readKey env st ⟨off, n.key.path, none, n.key.isFilterMatchOrDescendent, none, true⟩ with
  | .ok (on, _) => on
  | _ => none

theorem readSubKeysLoop_ways (env : Env) (st : State) (n : Node) (sf : Option Filter) (hf : sf = none ∨ sf = some {}) :
    ∀ (offs : List Nat) (lg : Logs) (ms : List Node) (fd : Bool) (lg' : Logs) (ro : Nat),
    readSubKeysLoop env st n.key.path {} sf n.key.isFilterMatchOrDescendent none true offs st.rootOffset lg
      = .ok (ms, fd, lg', ro) →
    (∀ o ∈ offs, readKey env st ⟨o, n.key.path, none, n.key.isFilterMatchOrDescendent, none, true⟩ ≠ .panic) ∧
      ms.map unmarked = (offs.filterMap (keyThere env st n)).map unmarked := by
  intro offs
  induction offs with
  | nil =>
    intro lg ms fd lg' ro h
    rw [readSubKeysLoop] at h
    cases h
    exact ⟨nofun, rfl⟩
  | cons o os ih =>
    intro lg ms fd lg' ro h
    obtain ⟨e1, e2⟩ := readKey_open_filter env st o n.key.path sf hf n.key.isFilterMatchOrDescendent none true
    rw [readSubKeysLoop] at h
    rw [e1] at h
    cases hr : readKey env st ⟨o, n.key.path, none, n.key.isFilterMatchOrDescendent, none, true⟩ with
    | panic => rw [hr] at h; cases h
    | err =>
      rw [hr] at h
      obtain ⟨g1, g2⟩ := ih _ _ _ _ _ h
      refine ⟨?_, ?_⟩
      · intro x hx
        rcases List.mem_cons.1 hx with rfl | hx
        · rw [hr]; simp
        · exact g1 x hx
      · rw [List.filterMap_cons_none (by unfold keyThere; rw [hr])]
        exact g2
    | ok x =>
      obtain ⟨on, ro1⟩ := x
      obtain rfl := e2 on ro1 hr
      rw [hr] at h
      have hkeep : ∀ x ∈ o :: os, (∀ y ∈ os, readKey env st ⟨y, n.key.path, none, n.key.isFilterMatchOrDescendent, none, true⟩ ≠ .panic) →
          readKey env st ⟨x, n.key.path, none, n.key.isFilterMatchOrDescendent, none, true⟩ ≠ .panic := by
        intro x hx hy
        rcases List.mem_cons.1 hx with rfl | hx
        · rw [hr]; simp
        · exact hy x hx
      cases on with
      | none =>
        obtain ⟨g1, g2⟩ := ih _ _ _ _ _ h
        refine ⟨fun x hx => hkeep x hx g1, ?_⟩
        rw [List.filterMap_cons_none (by unfold keyThere; rw [hr])]
        exact g2
      | some c =>
        simp only at h
        cases hl : readSubKeysLoop env st n.key.path {} sf n.key.isFilterMatchOrDescendent none true os st.rootOffset lg with
        | err => rw [hl] at h; cases h
        | panic => rw [hl] at h; cases h
        | ok y =>
          obtain ⟨ns, fd1, lg1, ro2⟩ := y
          obtain ⟨g1, g2⟩ := ih _ _ _ _ _ hl
          rw [hl] at h
          cases h
          refine ⟨fun x hx => hkeep x hx g1, ?_⟩
          rw [List.filterMap_cons_some (b := c) (by unfold keyThere; rw [hr]), List.map_cons, List.map_cons, g2]
          cases c
          rfl

theorem getSubKeyByIndex_there (env : Env) (st : State) (n : Node) (hn : 0 < n.key.nSubKeys) (offs : List Nat)
    (hp : parseSubKeyList env.fi env.depth n.key.subKeysListOffset = .ok offs)
    (hs : ∀ o ∈ offs, readKey env st ⟨o, n.key.path, none, n.key.isFilterMatchOrDescendent, none, true⟩ ≠ .panic) :
    ByIndex env st n (offs.map (keyThere env st n)) ∧
      ∀ i c, (offs.map (keyThere env st n))[i]? = some (some c) → getSubKeyByIndex env st n i = .ok (some c, n) := by
  have hone : ∀ i off, offs[i]? = some off →
      (∃ n', getSubKeyByIndex env st n i = .ok (keyThere env st n off, n')) ∧
      ∀ c, keyThere env st n off = some c → getSubKeyByIndex env st n i = .ok (some c, n) := by
    intro i off hi
    have hs := hs off (List.mem_of_getElem? hi)
    unfold getSubKeyByIndex keyThere
    simp only
    rw [if_pos hn, hp]
    simp only [hi]
    cases hr : readKey env st ⟨off, n.key.path, none, n.key.isFilterMatchOrDescendent, none, true⟩ with
    | panic => exact absurd hr hs
    | err => exact ⟨⟨_, rfl⟩, nofun⟩
    | ok x =>
      obtain ⟨on, ro⟩ := x
      cases on with
      | none => exact ⟨⟨_, rfl⟩, nofun⟩
      | some c => exact ⟨⟨_, rfl⟩, by intro c' hc; cases hc; rfl⟩
  refine ⟨fun i => ?_, fun i c hc => ?_⟩
  · rw [List.getElem?_map]
    cases hi : offs[i]? with
    | none =>
      unfold getSubKeyByIndex
      simp only
      rw [if_pos hn, hp]
      simp only [hi]
      exact ⟨_, rfl⟩
    | some off =>
      exact (hone i off hi).1
  · rw [List.getElem?_map] at hc
    cases hi : offs[i]? with
    | none => rw [hi] at hc; cases hc
    | some off =>
      rw [hi] at hc
      exact (hone i off hi).2 c (Option.some.inj hc)

/-- Asking for one after the other, from an index on: what is read up to the first that cannot be read. -/
theorem collect_ways (env : Env) (st : State) (offs : List Nat) : ∀ (rest : List Nat) (n : Node) (m : Nat),
    0 < n.key.nSubKeys → parseSubKeyList env.fi env.depth n.key.subKeysListOffset = .ok offs →
    (∀ o ∈ offs, readKey env st ⟨o, n.key.path, none, n.key.isFilterMatchOrDescendent, none, true⟩ ≠ .panic) →
    offs.drop n.key.iterIndex = rest → rest.length < m →
    collectSubKeys env st m n = .ok (((rest.map (keyThere env st n)).takeWhile (·.isSome)).filterMap id) := by
  intro rest
  induction rest with
  | nil =>
    intro n m hn hp hs hr hm
    obtain ⟨m, rfl⟩ : ∃ m', m = m' + 1 := ⟨m - 1, by simp at hm; omega⟩
    obtain ⟨n', h⟩ := (getSubKeyByIndex_there env st n hn offs hp hs).1 n.key.iterIndex
    have : offs[n.key.iterIndex]? = none := by
      rw [List.getElem?_eq_none]
      exact List.drop_eq_nil_iff.1 hr
    rw [List.getElem?_map, this] at h
    rw [collectSubKeys, nextSubKey, h]
    rfl
  | cons off rest ih =>
    intro n m hn hp hs hr hm
    obtain ⟨m, rfl⟩ : ∃ m', m = m' + 1 := ⟨m - 1, by simp at hm; omega⟩
    have hsome : offs[n.key.iterIndex]? = some off := by
      have := congrArg (fun l => l[0]?) hr
      simpa using this
    obtain ⟨h1, h2⟩ := getSubKeyByIndex_there env st n hn offs hp hs
    obtain ⟨n', h⟩ := h1 n.key.iterIndex
    cases hk : keyThere env st n off with
    | none =>
      rw [List.getElem?_map, hsome] at h
      replace h : getSubKeyByIndex env st n n.key.iterIndex = .ok (none, n') := by rw [h]; show Res.ok (keyThere env st n off, _) = _; rw [hk]
      rw [collectSubKeys, nextSubKey, h, List.map_cons, hk]
      rfl
    | some c =>
      have h := h2 n.key.iterIndex c (by rw [List.getElem?_map, hsome, Option.map_some, hk])
      rw [collectSubKeys, nextSubKey, h]
      simp only
      have := ih (n.setKey { n.key with iterIndex := n.key.iterIndex + 1 }) m (by cases n; exact hn) (by cases n; exact hp)
        (by cases n; exact hs) (by cases n; show offs.drop (_ + 1) = rest; rw [← List.drop_drop, hr]; rfl)
        (by simp at hm; omega)
      rw [this, List.map_cons, hk]
      cases n
      rfl

/-- C88 (partial: `deleted_ways_violated` shows what deleted keys do, `many_ways_violated` keys that are said to have
more than 1048576 sub-keys, and `damaged_ways_violated` why asking for one after the other is claimed up to the first
sub-key that cannot be read only).  Whatever the file and whatever is on record, of a key in use with at most so many
sub-keys: what is given all at once is, but for the mark of the filter, what is given by index, in the same order, and
asking for one after the other gives the same as far as all can be read. -/
theorem ways_agree_partial (env : Env) (st : State) (n : Node) (ha : n.key.cellState = .Allocated)
    (hm : n.key.nSubKeys ≤ 1048576) (ms : List Node) (hr : readSubKeys env st n = .ok ms) :
    ∃ xs, ByIndex env st n xs ∧ ms.map unmarked = (xs.filterMap id).map unmarked ∧
      ∃ N, ∀ m, N ≤ m →
        collectSubKeys env st m (initSubKeyIter n) = .ok ((xs.takeWhile (·.isSome)).filterMap id) := by
  unfold readSubKeys at hr
  cases hi : readSubKeysInternal env st n {} none true with
  | err => rw [hi] at hr; cases hr
  | panic => rw [hi] at hr; cases hr
  | ok r =>
    rw [hi] at hr
    cases hr
    unfold readSubKeysInternal at hi
    simp only at hi
    rw [if_pos ha, if_neg (by omega)] at hi
    by_cases h0 : 0 < n.key.nSubKeys
    · rw [if_pos h0] at hi
      cases hp : parseSubKeyList env.fi env.depth n.key.subKeysListOffset with
      | panic => rw [hp] at hi; cases hi
      | err =>
        rw [hp] at hi
        cases hi
        have hx : ∀ n' : Node, n'.key.nSubKeys = n.key.nSubKeys → n'.key.subKeysListOffset = n.key.subKeysListOffset →
            ∀ i, ∃ n'', getSubKeyByIndex env st n' i = .ok (none, n'') := by
          intro n' e1 e2 i
          unfold getSubKeyByIndex
          simp only
          rw [e1, if_pos h0, e2, hp]
          exact ⟨_, rfl⟩
        refine ⟨[], fun i => hx n rfl rfl i, rfl, 1, fun m hm => ?_⟩
        obtain ⟨m, rfl⟩ : ∃ m', m = m' + 1 := ⟨m - 1, by omega⟩
        obtain ⟨n'', e⟩ := hx (initSubKeyIter n) (by cases n; rfl) (by cases n; rfl) (initSubKeyIter n).key.iterIndex
        rw [collectSubKeys, nextSubKey, e]
        rfl
      | ok offs =>
        rw [hp] at hi
        simp only at hi
        cases hl : readSubKeysLoop env st n.key.path {}
            (if (n.key.isFilterMatchOrDescendent && ({} : Filter).returnSubKeys) = true then none else some {})
            n.key.isFilterMatchOrDescendent none true offs st.rootOffset n.key.logs with
        | err => rw [hl] at hi; cases hi
        | panic => rw [hl] at hi; cases hi
        | ok y =>
          obtain ⟨ns, fd, lg, ro⟩ := y
          rw [hl] at hi
          cases hi
          obtain ⟨g1, g2⟩ := readSubKeysLoop_ways env st n _ (by split <;> simp) offs _ _ _ _ _ hl
          refine ⟨offs.map (keyThere env st n), (getSubKeyByIndex_there env st n h0 offs hp g1).1, ?_, offs.length + 1, ?_⟩
          · rw [g2, List.filterMap_map]
            rfl
          · intro m hm
            have := collect_ways env st offs offs (initSubKeyIter n) m (by cases n; exact h0) (by cases n; exact hp)
              (by cases n; exact g1) (by cases n; rfl) (by omega)
            rw [this]
            cases n
            rfl
    · rw [if_neg h0] at hi
      cases hi
      have hx : ∀ n' : Node, n'.key.nSubKeys = n.key.nSubKeys → ∀ i, getSubKeyByIndex env st n' i = .ok (none, n') := by
        intro n' e1 i
        unfold getSubKeyByIndex
        simp only
        rw [e1, if_neg h0]
      refine ⟨[], fun i => ⟨_, hx n rfl i⟩, rfl, 1, fun m hm => ?_⟩
      obtain ⟨m, rfl⟩ : ∃ m', m = m' + 1 := ⟨m - 1, by omega⟩
      rw [collectSubKeys, nextSubKey, hx (initSubKeyIter n) (by cases n; rfl)]
      rfl

theorem no_gap {α : Type} : ∀ (xs : List (Option α)),
    (∀ (i j : Nat) c, i < j → xs[j]? = some (some c) → ∃ c', xs[i]? = some (some c')) →
    (xs.takeWhile (·.isSome)).filterMap id = xs.filterMap id := by
  intro xs
  induction xs with
  | nil => intro _; rfl
  | cons x xs ih =>
    intro h
    cases x with
    | some a =>
      rw [List.takeWhile_cons_of_pos rfl]
      show a :: _ = a :: _
      rw [ih]
      intro i j c hij hj
      exact h (i + 1) (j + 1) c (by omega) hj
    | none =>
      rw [List.takeWhile_cons_of_neg (by simp), List.filterMap_cons_none rfl]
      symm
      rw [List.filterMap_nil, List.filterMap_eq_nil_iff]
      intro y hy
      cases y with
      | none => rfl
      | some c =>
        obtain ⟨k, hk⟩ := List.mem_iff_getElem?.1 hy
        obtain ⟨c', hc⟩ := h 0 (k + 1) c (by omega) hk
        simp at hc

/-- C88, all three ways (partial: the same, and there is no sub-key that cannot be read before one that can). -/
theorem ways_agree_whole_partial (env : Env) (st : State) (n : Node) (ha : n.key.cellState = .Allocated)
    (hm : n.key.nSubKeys ≤ 1048576)
    (hgap : ∀ i j c n', i < j → getSubKeyByIndex env st n j = .ok (some c, n') →
      ∃ c' n'', getSubKeyByIndex env st n i = .ok (some c', n'')) : WaysAgree env st n := by
  intro ms hr
  obtain ⟨xs, h1, h2, N, h3⟩ := ways_agree_partial env st n ha hm ms hr
  refine ⟨xs, h1, h2, N, fun m hm => ⟨_, h3 m hm, ?_⟩⟩
  rw [h2, no_gap]
  intro i j c hij hj
  obtain ⟨n', e⟩ := h1 j
  rw [hj] at e
  obtain ⟨c', n'', e'⟩ := hgap i j c n' hij e
  obtain ⟨n3, e3⟩ := h1 i
  rw [e'] at e3
  refine ⟨c', ?_⟩
  cases hx : xs[i]? with
  | none => rw [hx] at e3; cases e3
  | some y => rw [hx] at e3; cases e3; rfl

/-! ### Violations and an example -/

theorem ways_differ {env : Env} {st : State} {n c n' : Node} {i : Nat} (h1 : readSubKeys env st n = .ok [])
    (h2 : getSubKeyByIndex env st n i = .ok (some c, n')) : ¬ WaysAgree env st n := by
  intro h
  obtain ⟨xs, g1, g2, _⟩ := h [] h1
  obtain ⟨n'', e⟩ := g1 i
  rw [h2] at e
  have hm : some c ∈ xs := by
    cases hx : xs[i]? with
    | none => rw [hx] at e; cases e
    | some y => rw [hx] at e; cases e; exact List.mem_of_getElem? hx
  have : c ∈ xs.filterMap id := List.mem_filterMap.2 ⟨_, hm, rfl⟩
  rw [List.map_eq_nil_iff.1 g2.symm] at this
  cases this

/-- The keys `RT`, `a`, `b` and `c`, one below the other. -/
def deepBin : Bytes :=
  hbinBytes 0 405 0 0 0 0 ++ (histRoot 1).encode ++ leafCell .lf (-16) [(130, [0, 0, 0, 0])] ++ (histA 1 1).encode ++
    leafCell .lf (-16) [(227, [0, 0, 0, 0])] ++ (exampleCell 0x20 1 308 [0x62]).encode ++
    leafCell .lf (-16) [(324, [0, 0, 0, 0])] ++ (exampleCell 0x20 0 0 [0x63]).encode

/-- The log takes `b` and `c` away. -/
def deepBuilder : Builder := { primary := histPre ++ deepBin, logs := [histLog [histEntry 4 154 0]], recover := true }

theorem deep_ways : (match deepBuilder.build roomyWorld with
    | some (.ok p) => match p.iterate 1000 {} false true false with
      | some (.ok ns) => match ns[2]? with
        | some n => decide (n.key.cellState = .DeletedTransactionLog ∧ n.key.path = "\\RT\\a\\b".toList) &&
          (match readSubKeys p.env (p.after 0) n with | .ok [] => true | _ => false) &&
          (match getSubKeyByIndex p.env (p.after 0) n 0 with
            | .ok (some c, _) => decide (c.key.cellState = .Allocated ∧ c.key.path = "\\RT\\a\\b\\c".toList)
            | _ => false)
        | none => false
      | _ => false
    | _ => false) = true := by
  decide +kernel

/-- C88, violated: a key a log has taken away, listed as deleted.  All at once it has no sub-keys; by index it has one,
which the log has taken away, too, and which is told to be in use. -/
theorem deleted_ways_violated : ∃ p n c n', deepBuilder.build roomyWorld = some (.ok p) ∧ Obtained p n ∧
    n.key.cellState = .DeletedTransactionLog ∧ readSubKeys p.env (p.after 0) n = .ok [] ∧
    getSubKeyByIndex p.env (p.after 0) n 0 = .ok (some c, n') ∧ c.key.cellState = .Allocated ∧
    ¬ WaysAgree p.env (p.after 0) n := by
  have h := deep_ways
  split at h
  · rename_i p hp
    split at h
    · rename_i ns hi
      split at h
      · rename_i n hn
        rw [Bool.and_eq_true_iff, Bool.and_eq_true_iff] at h
        obtain ⟨⟨h1, h2⟩, h3⟩ := h
        split at h2
        · rename_i hr
          split at h3
          · rename_i c n' hc
            exact ⟨p, n, c, n', hp, .listed hi (List.mem_of_getElem? hn), (of_decide_eq_true h1).1, hr, hc,
              (of_decide_eq_true h3).1, ways_differ hr hc⟩
          · cases h3
        · cases h2
      · cases h
    · cases h
  · cases h

/-- The root is said to have 1048577 sub-keys; its list has one. -/
def manyBuilder : Builder := { primary := histBuf 1048577 1 1 }

theorem many_ways : (match manyBuilder.build roomyWorld with
    | some (.ok p) => match p.iterate 1000 {} false true false with
      | some (.ok ns) => match ns[0]? with
        | some n => decide (ns.length = 1 ∧ n.key.cellState = .Allocated) &&
          (match readSubKeys p.env (p.after 0) n with | .ok [] => true | _ => false) &&
          (match getSubKeyByIndex p.env (p.after 0) n 0 with
            | .ok (some c, _) => decide (c.key.cellState = .Allocated ∧ c.key.path = "\\RT\\a".toList)
            | _ => false)
        | none => false
      | _ => false
    | _ => false) = true := by
  decide +kernel

/-- C88, violated: a key that is said to have more than 1048576 sub-keys.  Neither all at once nor in a listing has it
any; by index it has the one of its list. -/
theorem many_ways_violated : ∃ p n ns c n', manyBuilder.build roomyWorld = some (.ok p) ∧
    p.iterate 1000 {} false true false = some (.ok ns) ∧ ns.length = 1 ∧ n ∈ ns ∧ n.key.cellState = .Allocated ∧
    readSubKeys p.env (p.after 0) n = .ok [] ∧ getSubKeyByIndex p.env (p.after 0) n 0 = .ok (some c, n') ∧
    c.key.path = "\\RT\\a".toList ∧ ¬ WaysAgree p.env (p.after 0) n := by
  have h := many_ways
  split at h
  · rename_i p hp
    split at h
    · rename_i ns hi
      split at h
      · rename_i n hn
        rw [Bool.and_eq_true_iff, Bool.and_eq_true_iff] at h
        obtain ⟨⟨h1, h2⟩, h3⟩ := h
        split at h2
        · rename_i hr
          split at h3
          · rename_i c n' hc
            exact ⟨p, n, ns, c, n', hp, hi, (of_decide_eq_true h1).1, List.mem_of_getElem? hn, (of_decide_eq_true h1).2,
              hr, hc, (of_decide_eq_true h3).2, ways_differ hr hc⟩
          · cases h3
        · cases h2
      · cases h
    · cases h
  · cases h

/-- The root has two sub-keys; the first cannot be read. -/
def gapBuilder : Builder :=
  { primary := histPre ++ (hbinBytes 0 219 0 0 0 0 ++ (histRoot 2).encode ++
      leafCell .lf (-24) [(61440, [0, 0, 0, 0]), (138, [0, 0, 0, 0])] ++ (histA 0 1).encode) }

theorem gap_ways : (match gapBuilder.build roomyWorld with
    | some (.ok p) => match p.iterate 1000 {} false true false with
      | some (.ok ns) => match ns[0]? with
        | some n => decide (n.key.cellState = .Allocated) &&
          (match readSubKeys p.env (p.after 0) n with | .ok [m] => decide (m.key.path = "\\RT\\a".toList) | _ => false) &&
          (match nextSubKey p.env (p.after 0) (initSubKeyIter n) with | .ok (none, _) => true | _ => false)
        | none => false
      | _ => false
    | _ => false) = true := by
  decide +kernel

/-- C88, violated: a sub-key that cannot be read.  Asking for one after the other ends before it, and the sub-keys
behind it are given all at once only. -/
theorem damaged_ways_violated : ∃ p n m, gapBuilder.build roomyWorld = some (.ok p) ∧ Obtained p n ∧
    n.key.cellState = .Allocated ∧ readSubKeys p.env (p.after 0) n = .ok [m] ∧ m.key.path = "\\RT\\a".toList ∧
    (∃ n', nextSubKey p.env (p.after 0) (initSubKeyIter n) = .ok (none, n')) ∧ ¬ WaysAgree p.env (p.after 0) n := by
  have h := gap_ways
  split at h
  · rename_i p hp
    split at h
    · rename_i ns hi
      split at h
      · rename_i n hn
        rw [Bool.and_eq_true_iff, Bool.and_eq_true_iff] at h
        obtain ⟨⟨h1, h2⟩, h3⟩ := h
        split at h2
        · rename_i m hr
          split at h3
          · rename_i n' hc
            refine ⟨p, n, m, hp, .listed hi (List.mem_of_getElem? hn), of_decide_eq_true h1, hr, of_decide_eq_true h2,
              ⟨n', hc⟩, fun hw => ?_⟩
            obtain ⟨xs, _, _, N, g⟩ := hw [m] hr
            obtain ⟨cs, g1, g2⟩ := g (N + 1) (by omega)
            rw [collectSubKeys, hc] at g1
            cases g1
            cases g2
          · cases h3
        · cases h2
      · cases h
    · cases h
  · cases h

/-- The hypotheses of `ways_agree_partial` and of `ways_agree_whole_partial`: the root of a hive with one sub-key. -/
example : ∃ p n, histBuilder.build roomyWorld = some (.ok p) ∧ p.root = some n ∧ n.key.nSubKeys = 1 ∧
    WaysAgree p.env p.state n := by
  have h : (match histBuilder.build roomyWorld with
    | some (.ok p) => match p.root with
      | some n => decide (n.key.cellState = .Allocated ∧ n.key.nSubKeys = 1) &&
          (match parseSubKeyList p.env.fi p.env.depth n.key.subKeysListOffset with
            | .ok offs => decide (offs.length = 1)
            | _ => false)
      | none => false
    | _ => false) = true := by
    decide +kernel
  split at h
  · rename_i p hp
    split at h
    · rename_i n hn
      rw [Bool.and_eq_true_iff] at h
      obtain ⟨h1, h2⟩ := h
      obtain ⟨h1, h3⟩ := of_decide_eq_true h1
      split at h2
      · rename_i offs ho
        have h2 := of_decide_eq_true h2
        refine ⟨p, n, hp, hn, h3, ways_agree_whole_partial _ _ _ h1 (by omega) ?_⟩
        intro i j c n' hij hj
        unfold getSubKeyByIndex at hj
        simp only at hj
        rw [if_pos (by omega), ho] at hj
        simp only at hj
        rw [List.getElem?_eq_none (by omega)] at hj
        cases hj
      · cases h2
    · cases h
  · cases h

end Notatin
