import Verif.Lemmas.SafeLookup
import Verif.Props.Safe
/-
C84: looking up keys by path, by index, one after the other or from a sub-key to its parent ends without a crash,
whatever the bytes of the hive and whatever the path.
-/
namespace Notatin
open Spec

/-- The state of the parser after some lookups: they change nothing but the remembered length of the root's name. -/
def HiveParser.after (p : HiveParser) (ro : Nat) : State := { p.state with rootOffset := ro }

/-- The keys a user of the library can get hold of: by a path, from a listing with any filter, by the index among
the sub-keys of such a key, as the next one, with all sub-keys, by a path from such a key, or as its parent. -/
inductive Obtained (p : HiveParser) : Node → Prop
  | byPath {ro path hasRoot n ro'} :
      getKey p.env (p.after ro) p.header.base.rootCellOffset path hasRoot = .ok (some n, ro') → Obtained p n
  | listed {steps filter gm anc ns n} : p.iterate steps filter false gm anc = some (.ok ns) → n ∈ ns → Obtained p n
  | byIndex {n ro i m n'} : Obtained p n → getSubKeyByIndex p.env (p.after ro) n i = .ok (some m, n') → Obtained p m
  | next {n ro m n'} : Obtained p n → nextSubKey p.env (p.after ro) n = .ok (some m, n') → Obtained p m
  | nextSelf {n ro x n'} : Obtained p n → nextSubKey p.env (p.after ro) n = .ok (x, n') → Obtained p n'
  | restart {n} : Obtained p n → Obtained p (initSubKeyIter n)
  | subKeys {n ro ms m} : Obtained p n → readSubKeys p.env (p.after ro) n = .ok ms → m ∈ ms → Obtained p m
  | under {n ro sub m ro'} : Obtained p n → getSubKeyByPath p.env (p.after ro) n sub = .ok (some m, ro') → Obtained p m
  | parent {n ro m ro'} : Obtained p n → getParentKey p.env (p.after ro) n = .ok (some m, ro') → Obtained p m

/-- What is kept with an opened hive of which keys may have been recovered. -/
structure CellOpen (w : World) (p : HiveParser) : Prop where
  env : p.env = w.env p.env.fi.buffer
  state : StateCell p.env p.state
  root : ∀ r, p.root = some r → CellKey p.env r

theorem PlainOpen.cell {w : World} {p : HiveParser} (h : PlainOpen w p) (hd : 0 < w.depth) : CellOpen w p := by
  have hdep : p.env.depth = w.depth := by rw [h.env]; rfl
  refine ⟨h.env, ⟨attachOk_empty _ _ (by rw [hdep]; exact hd) h.state, ?_⟩, ?_⟩
  · intro q ds hq
    rw [h.state q] at hq
    cases hq
  · intro r hr
    obtain ⟨h1, o, h2, h3, h4, _⟩ := h.root r hr
    exact ⟨.inr ⟨o, h2, h3, h4⟩, by rw [h1]; nofun⟩

/-! ### Paths -/

theorem get_key_cell (w : World) (hd : 0 < w.depth) (p : HiveParser) (ho : CellOpen w p)
    (hs : SaneLists p.env.fi.buffer w.depth) (hroot : 0 ≤ p.header.base.rootCellOffset) (ro : Nat) (path : Str)
    (hasRoot : Bool) (hlen : path.count '\\' + 2 ≤ w.depth) :
    ∃ x ro', getKey p.env (p.after ro) p.header.base.rootCellOffset path hasRoot = .ok (x, ro') ∧
      ∀ n, x = some n → CellKey p.env n := by
  have hdep : p.env.depth = w.depth := by rw [ho.env]; rfl
  have hfi : p.env.fi = ⟨4096, p.env.fi.buffer⟩ := by
    conv => lhs; rw [ho.env]
    rfl
  have hlists : ∀ o, slice p.env.fi.buffer (o + 4) 2 = [0x6E, 0x6B] → 0 < u32At p.env.fi.buffer (o + 24) →
      u32At p.env.fi.buffer (o + 24) ≤ 1048576 →
      parseSubKeyList p.env.fi p.env.depth (u32At p.env.fi.buffer (o + 32)) ≠ .panic := by
    intro o h1 h2 h3
    rw [hdep, hfi]
    exact parseSubKeyList_safe _ _ _ (hs o h1 h2 h3)
  have hst : StateCell p.env (p.after ro) := ho.state.at ro
  have hr : getRootKey p.env (p.after ro) p.header.base.rootCellOffset ≠ .panic := by
    unfold getRootKey
    rw [if_neg (by omega)]
    exact readKey_free_safe _ _ _ hst (fun st k => filterStep_free st none nofun k)
  unfold getKey
  cases hg : getRootKey p.env (p.after ro) p.header.base.rootCellOffset with
  | panic => exact absurd hg hr
  | err => exact ⟨_, _, rfl, nofun⟩
  | ok x =>
    obtain ⟨on, ro1⟩ := x
    cases on with
    | none => exact ⟨_, _, rfl, nofun⟩
    | some n =>
      simp only
      have hn : CellKey p.env n := by
        unfold getRootKey at hg
        rw [if_neg (by omega)] at hg
        exact readKey_cellKey hst hg
      have := lookupPath_count path hasRoot
      exact getSubKeyByPath_safe p.env (by rw [hdep]; exact hd) hlists (p.after ro1) (ho.state.at ro1) n hn (lookupPath path hasRoot) (by rw [hdep]; omega)

/-- C84, by path (partial: `root_cell_crash_violated` shows what a root offset below zero does, `get_key_self_violated`
what lists not sane can do).  Whatever hive has been opened without recovery, and whatever the path, if the stack has
room for as many calls as the path has segments: the key is found, or the answer is that there is none. -/
theorem get_key_safe_partial (w : World) (hd : 0 < w.depth) (b : Builder) (hrec : b.recover = false)
    (hl : ∀ f ∈ b.logs, SaneLog f) (p : HiveParser) (hp : b.build w = some (.ok p))
    (hs : SaneLists p.env.fi.buffer w.depth) (hroot : 0 ≤ p.header.base.rootCellOffset) (ro : Nat) (path : Str)
    (hasRoot : Bool) (hlen : path.count '\\' + 2 ≤ w.depth) :
    ∃ x ro', getKey p.env (p.after ro) p.header.base.rootCellOffset path hasRoot = .ok (x, ro') := by
  obtain ⟨r, h1, _, h3⟩ := build_safe w hd b hrec hl
  rw [hp] at h1
  obtain ⟨x, ro', h, _⟩ := get_key_cell w hd p ((h3 p (Option.some.inj h1).symm).cell hd) hs hroot ro path hasRoot hlen
  exact ⟨x, ro', h⟩

/-! ### Keys at hand -/

theorem getSubKeyByIndex_cell (env : Env)
    (hlists : ∀ o, slice env.fi.buffer (o + 4) 2 = [0x6E, 0x6B] → 0 < u32At env.fi.buffer (o + 24) →
      parseSubKeyList env.fi env.depth (u32At env.fi.buffer (o + 32)) ≠ .panic)
    (st : State) (hst : StateCell env st) (n : Node) (hn : CellKey env n) (i : Nat) :
    ∃ x n', getSubKeyByIndex env st n i = .ok (x, n') ∧ CellKey env n' ∧ ∀ m, x = some m → CellKey env m := by
  unfold getSubKeyByIndex
  simp only
  by_cases h0 : 0 < n.key.nSubKeys
  · rw [if_pos h0]
    have hl : parseSubKeyList env.fi env.depth n.key.subKeysListOffset ≠ .panic := by
      obtain ⟨c0 | ⟨o, c1, c2, c3⟩, _⟩ := hn
      · omega
      rw [c3]
      exact hlists o c1 (by omega)
    cases hp : parseSubKeyList env.fi env.depth n.key.subKeysListOffset with
    | panic => exact absurd hp hl
    | err => exact ⟨_, _, rfl, hn.congr _ rfl rfl, nofun⟩
    | ok offs =>
      simp only
      cases offs[i]? with
      | none => exact ⟨_, _, rfl, hn, nofun⟩
      | some off =>
        simp only
        have hr := readKey_free_safe env st ⟨off, n.key.path, none, n.key.isFilterMatchOrDescendent, none, true⟩ hst
          (fun st k => filterStep_free st none nofun k)
        cases hk : readKey env st ⟨off, n.key.path, none, n.key.isFilterMatchOrDescendent, none, true⟩ with
        | panic => exact absurd hk hr
        | err => exact ⟨_, _, rfl, hn.congr _ rfl rfl, nofun⟩
        | ok x =>
          obtain ⟨on, ro⟩ := x
          cases on with
          | none => exact ⟨_, _, rfl, hn, nofun⟩
          | some m => exact ⟨_, _, rfl, hn, by intro m' hm; cases hm; exact readKey_cellKey hst hk⟩
  · rw [if_neg h0]
    exact ⟨_, _, rfl, hn, nofun⟩

theorem nextSubKey_cell (env : Env)
    (hlists : ∀ o, slice env.fi.buffer (o + 4) 2 = [0x6E, 0x6B] → 0 < u32At env.fi.buffer (o + 24) →
      parseSubKeyList env.fi env.depth (u32At env.fi.buffer (o + 32)) ≠ .panic)
    (st : State) (hst : StateCell env st) (n : Node) (hn : CellKey env n) :
    ∃ x n', nextSubKey env st n = .ok (x, n') ∧ CellKey env n' ∧ ∀ m, x = some m → CellKey env m := by
  obtain ⟨x, n', h1, h2, h3⟩ := getSubKeyByIndex_cell env hlists st hst n hn n.key.iterIndex
  unfold nextSubKey
  rw [h1]
  cases x with
  | none => exact ⟨_, _, rfl, h2, nofun⟩
  | some m => exact ⟨_, _, rfl, h2.congr _ rfl rfl, h3⟩

theorem readSubKeys_cell (env : Env)
    (hlists : ∀ o, slice env.fi.buffer (o + 4) 2 = [0x6E, 0x6B] → 0 < u32At env.fi.buffer (o + 24) →
      parseSubKeyList env.fi env.depth (u32At env.fi.buffer (o + 32)) ≠ .panic)
    (st : State) (hst : StateCell env st) (n : Node) (hn : CellKey env n) :
    ∃ ms, readSubKeys env st n = .ok ms ∧ ∀ m ∈ ms, CellKey env m := by
  obtain ⟨r, h1, _, h2⟩ := readSubKeysInternal_free env st hst n hn
    (by
      intro h0 _
      obtain ⟨c0 | ⟨o, c1, c2, c3⟩, _⟩ := hn
      · omega
      rw [c3]
      exact hlists o c1 (by omega))
    {} (by
      rintro sf (rfl | ⟨rfl, _⟩) st k
      · exact filterStep_free st _ (by intro g hg; cases hg; rfl) k
      · exact filterStep_free st none nofun k) none true
  unfold readSubKeys
  rw [h1]
  exact ⟨_, rfl, fun m hm => (h2 m hm).1⟩

theorem getParentKey_cell (env : Env) (st : State) (hst : StateCell env st) (n : Node) :
    (0 ≤ n.key.parentOffset → getParentKey env st n ≠ .panic) ∧
      ∀ m ro, getParentKey env st n = .ok (some m, ro) → CellKey env m := by
  unfold getParentKey
  by_cases h : n.key.parentOffset < 0
  · rw [if_pos h]
    exact ⟨by intro h'; omega, nofun⟩
  · rw [if_neg h]
    exact ⟨fun _ => readKey_free_safe _ _ _ hst (fun st k => filterStep_free st none nofun k),
      fun m ro hm => readKey_cellKey hst hm⟩

/-- The keys of a listing. -/
theorem iterate_cell (w : World) (p : HiveParser) (ho : CellOpen w p) (steps : Nat) (filter : Filter) (gm anc : Bool)
    (ns : List Node) (h : p.iterate steps filter false gm anc = some (.ok ns)) : ∀ n ∈ ns, CellKey p.env n := by
  unfold HiveParser.iterate at h
  simp only [Bool.false_eq_true, if_false] at h
  refine collect_all p.env (CellKey p.env) (fun st => StateCell p.env st) gm (fun _ _ => True) (fun _ => True)
    (fun _ ro h => h.at ro) ?_ ?_ ?_ ?_ filter ⟨trivial, trivial⟩ (fun _ _ => trivial) steps _ ns rfl rfl ho.state ?_ h
  · intro st o n ro hst _ _ _ hr
    exact readKey_cellKey hst hr
  · intro n sm v hn; exact hn.congr _ rfl rfl
  · intro n lg so tr hn; exact hn.congr _ rfl rfl
  · intro n hn
    have hinh : ∀ fs d, (inheritFilterState fs d).deletedKeys = d.deletedKeys ∧ (CellNums p.env d → CellNums p.env (inheritFilterState fs d)) := by
      intro fs d
      cases d
      exact ⟨rfl, fun h => h⟩
    have hdel : ∀ fs, ∀ d ∈ n.deletedKeys, CellNums p.env (inheritFilterState fs d) ∧ (inheritFilterState fs d).deletedKeys = [] := by
      intro fs d hd
      obtain ⟨h1, h2⟩ := hn.2 d hd
      exact ⟨(hinh fs d).2 h1, (hinh fs d).1.trans h2⟩
    refine ⟨fun d hd => ⟨(hdel _ d hd).1, ?_⟩, hn.1, ?_⟩
    · rw [(hdel _ d hd).2]
      nofun
    · intro d hd
      obtain ⟨d', hd', rfl⟩ := List.mem_map.1 hd
      exact hdel _ d' hd'
  · intro n hn
    cases List.mem_singleton.1 hn
    cases hr : p.root with
    | none => exact ⟨.inl rfl, nofun⟩
    | some r => exact ho.root r hr

theorem SaneKeyLists.lists {buf : Bytes} {levels : Nat} (h : SaneKeyLists buf levels) : SaneLists buf levels :=
  fun o h1 h2 _ => h o h1 h2

/-- Whatever way a key was obtained, it is one of the file. -/
theorem obtained_cell (w : World) (hd : 0 < w.depth) (p : HiveParser) (ho : CellOpen w p)
    (hs : SaneKeyLists p.env.fi.buffer w.depth) (n : Node) (h : Obtained p n) : CellKey p.env n := by
  have hdep : p.env.depth = w.depth := by rw [ho.env]; rfl
  have hfi : p.env.fi = ⟨4096, p.env.fi.buffer⟩ := by
    conv => lhs; rw [ho.env]
    rfl
  have hd' : 0 < p.env.depth := by rw [hdep]; exact hd
  have hlists : ∀ o, slice p.env.fi.buffer (o + 4) 2 = [0x6E, 0x6B] → 0 < u32At p.env.fi.buffer (o + 24) →
      parseSubKeyList p.env.fi p.env.depth (u32At p.env.fi.buffer (o + 32)) ≠ .panic := by
    intro o h1 h2
    rw [hdep, hfi]
    exact parseSubKeyList_safe _ _ _ (hs o h1 h2)
  have hst : ∀ ro, StateCell p.env (p.after ro) := ho.state.at
  have hpath : ∀ (st : State), StateCell p.env st → ∀ n sub m ro, CellKey p.env n →
      getSubKeyByPath p.env st n sub = .ok (some m, ro) → CellKey p.env m := by
    intro st hst n sub m ro hn h
    unfold getSubKeyByPath at h
    by_cases hs : sub = []
    · rw [if_pos hs] at h
      cases h
      exact hn
    · rw [if_neg hs] at h
      refine found_cell p.env _ _ st n m ro hst h
  induction h with
  | @byPath ro path hasRoot n ro' h =>
    unfold getKey at h
    cases hg : getRootKey p.env (p.after ro) p.header.base.rootCellOffset with
    | panic => rw [hg] at h; cases h
    | err => rw [hg] at h; cases h
    | ok x =>
      obtain ⟨on, ro1⟩ := x
      rw [hg] at h
      cases on with
      | none => cases h
      | some r =>
        refine hpath _ (hst ro1) r _ n ro' ?_ h
        unfold getRootKey at hg
        split at hg
        · cases hg
        · exact readKey_cellKey (hst ro) hg
  | listed h hn => exact iterate_cell w p ho _ _ _ _ _ h _ hn
  | @byIndex n ro i m n' _ h ih =>
    obtain ⟨x, n2, h1, _, h3⟩ := getSubKeyByIndex_cell p.env hlists _ (hst ro) n ih i
    rw [h] at h1
    cases h1
    exact h3 m rfl
  | @next n ro m n' _ h ih =>
    obtain ⟨x, n2, h1, _, h3⟩ := nextSubKey_cell p.env hlists _ (hst ro) n ih
    rw [h] at h1
    cases h1
    exact h3 m rfl
  | @nextSelf n ro x n' _ h ih =>
    obtain ⟨x, n2, h1, h2, _⟩ := nextSubKey_cell p.env hlists _ (hst ro) n ih
    rw [h] at h1
    cases h1
    exact h2
  | restart _ ih => exact ih.congr _ rfl rfl
  | @subKeys n ro ms m _ h hm ih =>
    obtain ⟨ms', h1, h2⟩ := readSubKeys_cell p.env hlists _ (hst ro) n ih
    rw [h] at h1
    cases h1
    exact h2 m hm
  | @under n ro sub m ro' _ h ih => exact hpath _ (hst ro) n sub m ro' ih h
  | @parent n ro m ro' _ h ih => exact (getParentKey_cell p.env _ (hst ro) n).2 m ro' h

/-- What can be done with a key at hand. -/
theorem obtained_safe (w : World) (hd : 0 < w.depth) (p : HiveParser) (ho : CellOpen w p)
    (hs : SaneKeyLists p.env.fi.buffer w.depth) (n : Node) (hn : Obtained p n) (ro : Nat) :
    (∀ i, ∃ x n', getSubKeyByIndex p.env (p.after ro) n i = .ok (x, n')) ∧
    (∃ x n', nextSubKey p.env (p.after ro) n = .ok (x, n')) ∧
    (∃ ms, readSubKeys p.env (p.after ro) n = .ok ms) ∧
    (∀ sub, sub.count '\\' + 2 ≤ w.depth → ∃ x ro', getSubKeyByPath p.env (p.after ro) n sub = .ok (x, ro')) ∧
    (0 ≤ n.key.parentOffset → getParentKey p.env (p.after ro) n ≠ .panic) := by
  have hcell := obtained_cell w hd p ho hs n hn
  have hdep : p.env.depth = w.depth := by rw [ho.env]; rfl
  have hfi : p.env.fi = ⟨4096, p.env.fi.buffer⟩ := by
    conv => lhs; rw [ho.env]
    rfl
  have hd' : 0 < p.env.depth := by rw [hdep]; exact hd
  have hlists : ∀ o, slice p.env.fi.buffer (o + 4) 2 = [0x6E, 0x6B] → 0 < u32At p.env.fi.buffer (o + 24) →
      parseSubKeyList p.env.fi p.env.depth (u32At p.env.fi.buffer (o + 32)) ≠ .panic := by
    intro o h1 h2
    rw [hdep, hfi]
    exact parseSubKeyList_safe _ _ _ (hs o h1 h2)
  have hst : StateCell p.env (p.after ro) := ho.state.at ro
  refine ⟨fun i => ?_, ?_, ?_, fun sub hsub => ?_, (getParentKey_cell p.env _ hst n).1⟩
  · obtain ⟨x, n', h, _⟩ := getSubKeyByIndex_cell p.env hlists _ hst n hcell i
    exact ⟨x, n', h⟩
  · obtain ⟨x, n', h, _⟩ := nextSubKey_cell p.env hlists _ hst n hcell
    exact ⟨x, n', h⟩
  · obtain ⟨ms, h, _⟩ := readSubKeys_cell p.env hlists _ hst n hcell
    exact ⟨ms, h⟩
  · obtain ⟨x, ro', h, _⟩ := getSubKeyByPath_safe p.env hd' (fun o a b _ => hlists o a b) _ hst n hcell sub
      (by rw [hdep]; exact hsub)
    exact ⟨x, ro', h⟩

/-- C84, from a key at hand (partial: `parent_crash_violated` shows what a parent offset below zero does, and C43 what
`get_sub_key` does).  Whatever hive has been opened without recovery, and however a key has been obtained from it:
its sub-keys can be read by index, one after the other, all at once or by a path, and its parent can be read, without a
crash. -/
theorem key_safe_partial (w : World) (hd : 0 < w.depth) (b : Builder) (hrec : b.recover = false)
    (hl : ∀ f ∈ b.logs, SaneLog f) (p : HiveParser) (hp : b.build w = some (.ok p))
    (hs : SaneKeyLists p.env.fi.buffer w.depth) (n : Node) (hn : Obtained p n) (ro : Nat) :
    (∀ i, ∃ x n', getSubKeyByIndex p.env (p.after ro) n i = .ok (x, n')) ∧
    (∃ x n', nextSubKey p.env (p.after ro) n = .ok (x, n')) ∧
    (∃ ms, readSubKeys p.env (p.after ro) n = .ok ms) ∧
    (∀ sub, sub.count '\\' + 2 ≤ w.depth → ∃ x ro', getSubKeyByPath p.env (p.after ro) n sub = .ok (x, ro')) ∧
    (0 ≤ n.key.parentOffset → getParentKey p.env (p.after ro) n ≠ .panic) := by
  obtain ⟨r, h1, _, h3⟩ := build_safe w hd b hrec hl
  rw [hp] at h1
  exact obtained_safe w hd p ((h3 p (Option.some.inj h1).symm).cell hd) hs n hn ro

/-! ### Violations and examples -/

/-- A hive header as `sampleHeader`, with the root key said to be at `root`. -/
def rootedHeader (p s bins root : Nat) : Bytes :=
  let front : Bytes := regf ++ encLE 4 p ++ encLE 4 s ++ encLE 8 0 ++ encLE 4 1 ++ encLE 4 5 ++ encLE 4 0 ++
    encLE 4 1 ++ encLE 4 root ++ encLE 4 bins ++ encLE 4 1 ++ List.replicate 460 0
  front ++ encLE 4 (xorDwords front)

/-- A clean hive with such a header, and any bin. -/
def rootedHive (root : Nat) (bin : Bytes) : Bytes := rootedHeader 5 5 4096 root ++ List.replicate 3584 0 ++ bin

theorem rootedHive_front (root : Nat) : (rootedHeader 5 5 4096 root ++ List.replicate 3584 0).length = 4096 := by
  rw [List.length_append, List.length_replicate]
  simp only [rootedHeader, List.length_append, length_encLE, List.length_replicate]
  rfl

/-- What is checked of the header of a clean hive. -/
def headerSays (buf : Bytes) (root : Int) : Bool :=
  match BaseBlock.fromBytes buf with
  | .ok (bb, _) => decide (bb.base.fileType ≠ .unknown ∧ bb.base.primarySeq = bb.base.secondarySeq ∧
      bb.base.rootCellOffset = root ∧ calculateChecksum (buf.take 512) = .ok bb.base.checksum)
  | _ => false

/-- The root key `RT` without sub-keys, its parent said to be at -1. -/
def orphan : NkCell := { exampleCell 0x24 0 0 [0x52, 0x54] with parent := -1 }

/-- A hive with nothing but that key; its header says the root is at `root`. -/
def orphanHive (root : Nat) : Bytes := rootedHive root (hbinBytes 0 114 0 0 0 0 ++ orphan.encode)

/-- A hive with the key `a` in the first cell and the root key `RT` in the second; so says its header, too. -/
def movedHive : Bytes :=
  rootedHive 113 (hbinBytes 0 195 0 0 0 0 ++ ((exampleCell 0x20 0 0 [0x61]).encode ++ (exampleCell 0x24 0 0 [0x52, 0x54]).encode))

theorem rooted_open (w : World) (hd : 0 < w.depth) (buf : Bytes) (root : Int) (t : Tree)
    (hh : headerSays buf root = true) (ht : StoredTree w buf t) :
    ∃ p, ({ primary := buf } : Builder).build w = some (.ok p) ∧ p.env.fi = ⟨4096, buf⟩ ∧
      p.header.base.rootCellOffset = root ∧ p.root ≠ none ∧ Lists p t := by
  have hlogs : TransactionLog.parse [] = .ok ([], none) := by decide +kernel
  unfold headerSays at hh
  cases hb : BaseBlock.fromBytes buf with
  | err => rw [hb] at hh; cases hh
  | panic => rw [hb] at hh; cases hh
  | ok x =>
    obtain ⟨bb, rest⟩ := x
    rw [hb] at hh
    obtain ⟨g1, g2, g3, g4⟩ := of_decide_eq_true hh
    obtain ⟨p, h1, h2, h3, h4, h5⟩ := open_clean_lists w { primary := buf } bb rest t hd rfl
      ⟨([], none), hlogs⟩ hb g1 g2 g4 ht
    exact ⟨p, h1, h2, by rw [h3]; exact g3, h4, h5⟩

theorem orphan_fits : orphan.Fits := by
  have := exampleCell_fits 0x24 0 0 [0x52, 0x54] (by decide) (by decide) (by decide) (by decide)
  unfold NkCell.Fits orphan isI32 at *
  simp only at this ⊢
  grind

/-- A hive of which the first cell is a key without sub-keys. -/
theorem single_stored (w : World) (hd : 0 < w.depth) (pre : Bytes) (hl : pre.length = 4096) (size : Nat)
    (hsize : size < 4294967296) (c : NkCell) (hc : c.Fits) (h5 : c.flags.testBit 5 = true) (hn : c.nSubKeys = 0) (post : Bytes) :
    StoredTree w (pre ++ (hbinBytes 0 size 0 0 0 0 ++ (c.encode ++ post))) (.mk 4128 c (latin1 c.nameBytes) []) := by
  have h32 : (hbinBytes 0 size 0 0 0 0).length = 32 := by
    unfold hbinBytes
    simp only [List.length_append, length_encLE, List.length_cons, List.length_nil]
  refine ⟨⟨0, size, 0, 0, 0, 0, by decide, hsize, by decide, by decide, by decide, by decide, pre, _, rfl, hl⟩, rfl, ?_,
    by show ([4128] : List Nat).Nodup; decide⟩
  obtain ⟨depth, hdep⟩ : ∃ depth, w.depth = depth + 1 := ⟨w.depth - 1, by omega⟩
  rw [hdep, TreeAt, ForestAt]
  refine ⟨⟨hc, ⟨pre ++ hbinBytes 0 size 0 0 0 0, post, ?_, ?_⟩, .inl ⟨h5, rfl⟩⟩, .inl ⟨hn, rfl⟩, trivial⟩
  · show _ = _
    simp only [List.append_assoc]
  · rw [List.length_append, hl, h32]

theorem orphan_stored (w : World) (hd : 0 < w.depth) (root : Nat) :
    StoredTree w (orphanHive root) (.mk 4128 orphan ['R', 'T'] []) := by
  have := single_stored w hd _ (rootedHive_front root) 114 (by decide) orphan orphan_fits (by decide) rfl []
  rw [List.append_nil] at this
  exact this

/-- C84, violated: a header that says the root is at -1.  The hive is opened and listed, but looking up any path
crashes. -/
theorem root_cell_crash_violated (w : World) (hd : 0 < w.depth) :
    ∃ p, ({ primary := orphanHive 4294967295 } : Builder).build w = some (.ok p) ∧
      Lists p (.mk 4128 orphan ['R', 'T'] []) ∧
      ∀ ro path hasRoot, getKey p.env (p.after ro) p.header.base.rootCellOffset path hasRoot = .panic := by
  obtain ⟨p, h1, _, h3, _, h5⟩ := rooted_open w hd (orphanHive 4294967295) (-1) _ (by decide +kernel) (orphan_stored w hd _)
  refine ⟨p, h1, h5, fun ro path hasRoot => ?_⟩
  unfold getKey getRootKey
  rw [h3, if_pos (by decide)]

/-- Looking up the empty path reads the cell the header names. -/
theorem root_lookup (w : World) (hd : 0 < w.depth) (b : Builder) (hrec : b.recover = false) (p : HiveParser)
    (hb : b.build w = some (.ok p)) (hroot : p.root ≠ none) (t : Tree)
    (hat : KeyAt p.env.fi.buffer t.off t.cell t.name) (h0 : 0 ≤ p.header.base.rootCellOffset)
    (ho : p.header.base.rootCellOffset.toNat + 4096 = t.off) (hasRoot : Bool) :
    ∃ n, getKey p.env (p.after 0) p.header.base.rootCellOffset [] hasRoot = .ok (some n, 0) ∧ n.key.path = '\\' :: t.name ∧
      n.key.parentOffset = t.cell.parent := by
  obtain ⟨h1, h2, _, _⟩ := built_plain w b p hrec hb hroot
  have hd' : 0 < p.env.depth := by rw [h1]; exact hd
  have hst : ∀ q, (p.after 0).deletedKeys q = none := h2.1
  have hbin : p.env.fi.hbin = 4096 := by rw [h1]; rfl
  obtain ⟨n, hn, hr⟩ := readKey_unfiltered p.env (p.after 0)
    { offset := p.header.base.rootCellOffset.toNat + p.env.fi.hbin, curPath := [], filter := none, selfMatch := true, seq := none, getModified := true }
    t hat (by rw [hbin]; exact ho) (fun _ => attachOk_empty _ _ hd' hst) rfl
  refine ⟨n, ?_, ?_⟩
  · unfold getKey getRootKey
    rw [if_neg (by omega), hn]
    simp only
    have : lookupPath [] hasRoot = [] := by cases hasRoot <;> rfl
    rw [this]
    rfl
  · obtain ⟨k, vs, lg, hk, _, he⟩ := hr.key
    unfold KeyMatches at hk
    rw [he]
    exact ⟨hk.2.2.2.2.2.2.2.2.2.2.2.2.2.2.2.2.2.2.2.2.2.2.1, hk.2.2.2.2.1⟩

/-- C84, violated: the parent of a key is said to be at -1.  The key is found, but asking for its parent crashes. -/
theorem parent_crash_violated (w : World) (hd : 0 < w.depth) :
    ∃ p n, ({ primary := orphanHive 32 } : Builder).build w = some (.ok p) ∧
      getKey p.env (p.after 0) p.header.base.rootCellOffset [] false = .ok (some n, 0) ∧ n.key.path = "\\RT".toList ∧
      ∀ ro, getParentKey p.env (p.after ro) n = .panic := by
  have ht := orphan_stored w hd 32
  obtain ⟨p, h1, h2, h3, h4, _⟩ := rooted_open w hd (orphanHive 32) 32 _ (by decide +kernel) ht
  obtain ⟨_, _, ht, _⟩ := ht
  obtain ⟨depth, hdep⟩ : ∃ depth, w.depth = depth + 1 := ⟨w.depth - 1, by omega⟩
  rw [hdep, TreeAt] at ht
  obtain ⟨n, g1, g2, g3⟩ := root_lookup w hd _ rfl p h1 h4 (.mk 4128 orphan ['R', 'T'] []) (by rw [h2]; exact ht.1)
    (by rw [h3]; decide) (by rw [h3]; rfl) false
  refine ⟨p, n, h1, g1, g2, fun ro => ?_⟩
  unfold getParentKey
  rw [g3, if_pos (by decide)]

/-- C84, violated: a hive of which the sub-key list of the root lists itself.  The hive is opened, but looking up any
sub-key exhausts the stack, however large it is. -/
theorem get_key_self_violated (w : World) (hd : 0 < w.depth) :
    ∃ p, ({ primary := selfHive } : Builder).build w = some (.ok p) ∧
      ∀ ro name, name ≠ [] → '\\' ∉ name →
        getKey p.env (p.after ro) p.header.base.rootCellOffset name false = .panic := by
  obtain ⟨p, root, hb, henv, h32, hpl, _⟩ := selfHive_open w hd
  refine ⟨p, hb, fun ro name hne hbs => ?_⟩
  obtain ⟨pre, hlen, hpre⟩ := selfHive_parts
  have hst : ∀ q, (p.after ro).deletedKeys q = none := hpl.1
  have hd' : 0 < p.env.depth := by rw [henv]; exact hd
  have hat : KeyAt p.env.fi.buffer 4128 (exampleCell 0x24 1 114 [0x52, 0x54]) ['R', 'T'] := by
    rw [henv]
    exact ⟨exampleCell_fits _ _ _ _ (by decide) (by decide) (by decide) (by decide),
        ⟨pre ++ hbinBytes 0 126 0 0 0 0, riCell (-12) [114], hpre.trans (by simp), by
          rw [List.length_append, hlen]; rfl⟩,
        .inl ⟨by decide, by decide⟩⟩
  obtain ⟨n, hn, hr⟩ := readKey_unfiltered p.env (p.after ro)
    { offset := (32 : Int).toNat + p.env.fi.hbin, curPath := [], filter := none, selfMatch := true, seq := none, getModified := true }
    (.mk 4128 (exampleCell 0x24 1 114 [0x52, 0x54]) ['R', 'T'] []) hat (by rw [henv]; rfl)
    (fun _ => attachOk_empty _ _ hd' hst) rfl
  obtain ⟨k, vs, lg, hk, hf, he⟩ := hr.key
  have h1 : n.key.nSubKeys = 1 ∧ n.key.subKeysListOffset = 114 ∧ n.key.cellState = .Allocated := by
    rw [he]
    unfold KeyMatches at hk
    unfold Fresh at hf
    simp only [exampleCell, Tree.cell, Tree.off] at hk
    grind
  have hlook : lookupPath name false = name := by
    unfold lookupPath trimStartBackslash
    simp only [Bool.false_eq_true, if_false]
    cases name with
    | nil => rfl
    | cons c cs =>
      rw [List.dropWhile_cons_of_neg]
      intro h
      exact hbs (by rw [eq_of_beq h]; exact List.mem_cons_self)
  unfold getKey getRootKey
  rw [h32, if_neg (by decide), hn]
  simp only
  rw [hlook]
  unfold getSubKeyByPath
  rw [if_neg hne]
  obtain ⟨d, hdd⟩ : ∃ d, p.env.depth = d + 1 := ⟨p.env.depth - 1, by omega⟩
  rw [hdd]
  simp only
  rw [getSubKeyInternal]
  unfold readSubKeysInternal
  simp only
  rw [if_pos h1.2.2, h1.1, if_neg (by decide), if_pos (by decide), h1.2.1, henv]
  have : parseSubKeyList (w.env selfHive).fi (w.env selfHive).depth 114 = .panic := selfHive_list _
  rw [this]

/-- C62, violated: the root of the listing is the first cell of the file, not the key the header names.  The hive has
the root key `RT` where its header says, and looking up finds it; but the listing shows the key in the first cell and
nothing else. -/
theorem root_cell_violated (w : World) (hd : 0 < w.depth) :
    ∃ p n, ({ primary := movedHive } : Builder).build w = some (.ok p) ∧
      Lists p (.mk 4128 (exampleCell 0x20 0 0 [0x61]) ['a'] []) ∧
      getKey p.env (p.after 0) p.header.base.rootCellOffset [] false = .ok (some n, 0) ∧ n.key.path = "\\RT".toList := by
  have hf := exampleCell_fits 0x24 0 0 [0x52, 0x54] (by decide) (by decide) (by decide) (by decide)
  have ht := single_stored w hd _ (rootedHive_front 113) 195 (by decide) (exampleCell 0x20 0 0 [0x61])
    (exampleCell_fits 0x20 0 0 [0x61] (by decide) (by decide) (by decide) (by decide)) (by decide) rfl
    (exampleCell 0x24 0 0 [0x52, 0x54]).encode
  obtain ⟨p, h1, h2, h3, h4, h5⟩ := rooted_open w hd movedHive 113 _ (by decide +kernel) ht
  obtain ⟨n, g1, g2, _⟩ := root_lookup w hd _ rfl p h1 h4 (.mk 4209 (exampleCell 0x24 0 0 [0x52, 0x54]) ['R', 'T'] [])
    ⟨hf, ⟨(rootedHeader 5 5 4096 113 ++ List.replicate 3584 0) ++ (hbinBytes 0 195 0 0 0 0 ++ (exampleCell 0x20 0 0 [0x61]).encode), [],
      by rw [h2, List.append_nil]; unfold movedHive rootedHive; simp only [List.append_assoc]; rfl,
      by rw [List.length_append, rootedHive_front]; rfl⟩, .inl ⟨by decide, by decide⟩⟩
    (by rw [h3]; decide) (by rw [h3]; rfl) false
  exact ⟨p, n, h1, h5, g1, g2⟩

theorem sampleHive_key_lists (levels : Nat) : SaneKeyLists (sampleHive 5 5 4477 0x61 []) (levels + 1) := by
  have hm : marks 0x6E 0x6B 0 (sampleHive 5 5 4477 0x61 []) = [4132, 4238, 4319, 4400] := by decide +kernel
  intro o h1 h2
  refine sampleHive_sane levels o h1 h2 ?_
  have := marks_mem _ _ _ 0 (o + 4) h1
  rw [hm] at this
  have hne : ∀ off ∈ [4128, 4234, 4315, 4396], u32At (sampleHive 5 5 4477 0x61 []) (off + 24) ≤ 2 := by decide +kernel
  have := hne o (by simp at this ⊢; omega)
  omega

/-- The hypotheses of `get_key_safe_partial` and `key_safe_partial`: in a hive with three keys, any path with up to
six backslashes can be looked up; so can the sub-keys of every key found. -/
example : ∃ p, ({ primary := sampleHive 5 5 4477 0x61 [] } : Builder).build sampleWorld = some (.ok p) ∧
    ∀ path : Str, path.count '\\' ≤ 6 →
      ∃ x ro, getKey p.env (p.after 0) p.header.base.rootCellOffset path false = .ok (x, ro) ∧
        ∀ n, x = some n → ∃ y n', nextSubKey p.env (p.after ro) n = .ok (y, n') := by
  obtain ⟨bb, rest, h1, h2, h3, h4, _, h5⟩ := sampleHive_header 5 5 4477 0x61 [] (by decide +kernel)
  obtain ⟨p, hb, hfi, hh, _⟩ := open_clean_lists sampleWorld { primary := sampleHive 5 5 4477 0x61 [] } bb rest _
    (by decide) rfl ⟨([], none), by decide +kernel⟩ h1 h2 (h3.trans h4.symm) h5 (sampleHive_stored 5 5 4477 0x61 [] (.inl rfl))
  have h32 : (match BaseBlock.fromBytes (sampleHive 5 5 4477 0x61 []) with
    | .ok (bb, _) => decide (0 ≤ bb.base.rootCellOffset)
    | _ => false) = true := by decide +kernel
  rw [h1] at h32
  refine ⟨p, hb, fun path hc => ?_⟩
  obtain ⟨x, ro, hg⟩ := get_key_safe_partial sampleWorld (by decide) _ rfl (by intro f hf; cases hf) p hb (by rw [hfi]; exact sampleHive_sane 7)
    (by rw [hh]; exact of_decide_eq_true h32) 0 path false (by show _ ≤ 8; omega)
  refine ⟨x, ro, hg, fun n hn => ?_⟩
  rw [hn] at hg
  exact (key_safe_partial sampleWorld (by decide) _ rfl (by intro f hf; cases hf) p hb (by rw [hfi]; exact sampleHive_key_lists 7) n
    (.byPath hg) ro).2.1

end Notatin
