import Verif.Lemmas.WalkPost
/-
C09 (pre-order) and C10 (post-order) on hives whose key cells form a tree.
-/
namespace Notatin
open Spec

/-! ### The root of the iteration -/

/-- A bin header. -/
def Spec.hbinBytes (offset size u1 u2 time spare : Nat) : Bytes :=
  [0x68, 0x62, 0x69, 0x6E] ++ (encLE 4 offset ++ (encLE 4 size ++ (encLE 4 u1 ++ (encLE 4 u2 ++
    (encLE 8 time ++ encLE 4 spare)))))

/-- The first bin of the file has a header. -/
def Spec.FirstBin (fi : FileInfo) : Prop :=
  ∃ offset size u1 u2 time spare, offset < 4294967296 ∧ size < 4294967296 ∧ u1 < 4294967296 ∧
    u2 < 4294967296 ∧ time < 18446744073709551616 ∧ spare < 4294967296 ∧
    At fi.buffer fi.hbin (hbinBytes offset size u1 u2 time spare)

theorem hbin_parse (off o s u1 u2 t sp : Nat) (ho : o < 4294967296) (hs : s < 4294967296)
    (h1 : u1 < 4294967296) (h2 : u2 < 4294967296) (ht : t < 18446744073709551616)
    (hsp : sp < 4294967296) (post : Bytes) :
    HiveBinHeader.fromBytes off (hbinBytes o s u1 u2 t sp ++ post) =
      some (⟨off, o, s, u1, u2, dateTimeFromFiletime t, sp⟩, post) := by
  unfold HiveBinHeader.fromBytes hbinBytes
  simp only [List.append_assoc]
  rw [tag_append]
  simp only [Option.bind_eq_bind, Option.bind_some]
  rw [leU32_enc ho]
  simp only [Option.bind_some]
  rw [leU32_enc hs]
  simp only [Option.bind_some]
  rw [leU32_enc h1]
  simp only [Option.bind_some]
  rw [leU32_enc h2]
  simp only [Option.bind_some]
  rw [leU64_enc ht]
  simp only [Option.bind_some]
  rw [leU32_enc hsp]
  rfl

/-- The root of the iteration is the key cell right after the first bin header. -/
theorem initRoot_reads (env : Env) (st : State) (t : Tree) (hbin : FirstBin env.fi)
    (hat : KeyAt env.fi.buffer t.off t.cell t.name) (hoff : t.off = env.fi.hbin + 32)
    (hatt : AttachOk env st) :
    ∃ root, initRoot env st = .ok (some root, st.rootOffset) ∧
      Reads env st true none [] t none root := by
  obtain ⟨o, s, u1, u2, tm, sp, ho, hs, h1, h2, ht, hsp, hb⟩ := hbin
  obtain ⟨post, hg, hlen⟩ := at_getFrom hb
  have hl32 : (hbinBytes o s u1 u2 tm sp).length = 32 := by
    unfold hbinBytes
    simp only [List.length_append, length_encLE, List.length_cons, List.length_nil]
  unfold initRoot
  rw [hg]
  simp only
  rw [hbin_parse _ _ _ _ _ _ _ ho hs h1 h2 ht hsp]
  simp only
  have e : env.fi.buffer.length - post.length = t.off := by rw [hoff]; omega
  rw [e]
  exact readKey_unfiltered env st ⟨t.off, [], none, true, none, true⟩ t hat rfl (fun _ => hatt) rfl

/-! ### C09 -/

mutual
theorem walk_plain : ∀ (t : Tree) (path : Str),
    walk false (fun s => b || !false || matchedState s) (fun _ _ _ => .iterate) none path t = t.pre path
  | .mk off c name kids, path => by
    rw [walk, Tree.pre, walkAll_plain kids]
    simp
theorem walkAll_plain : ∀ (ts : List Tree) (path : Str),
    walkAll false (fun s => b || !false || matchedState s) (fun _ _ _ => .iterate) none path ts = preAll path ts
  | [], path => by rw [walkAll, preAll]
  | t :: ts, path => by
    rw [walkAll, preAll, if_neg (by decide), walkAll_plain ts]
    have : kidState (matchedState none) false FilterFlags.iterate = none := rfl
    rw [this, walk_plain t]
end

/-- The iteration without a filter from a root that was read: how the keys of the tree and the recovered ones
are yielded. -/
theorem iteration_from (env : Env) (st : State) (t : Tree) (gm anc gm0 hi : Bool) (root : Node)
    (hreads : Reads env st gm0 none [] t none root)
    (ht : TreeAt env.fi.buffer env.fi.hbin env.depth t) (hnd : t.offs.Nodup)
    (hdel : StateDel st) (hatt : gm = true → AttachOk env st)
    (hgmhi : gm = true → hi = true) (hgm0 : gm = true → gm0 = true) (hgm0hi : gm0 = true → hi = true) :
    ∃ (steps : Nat) (ns live : List Node),
      collect (nextPre env) steps (.start st (some root) {} gm anc) = some (.ok ns) ∧
      live.map obs = t.pre [] ∧ ns.map obs = live.flatMap withRecovered ∧
      (∀ n ∈ live, IsRead env st n) ∧ liveKeys ns = t.pre [] ∧
      (∀ n ∈ ns, n.key.cellState = .Allocated → ∃ u ∈ t.nodes, IsShown env st true u n) ∧
      (∀ n ∈ live, IsReadFor env st gm hi true t.nodes n) ∧ Pairwise2 Yielded (live.flatMap belowTree) ns := by
  have hnd' : (offsAll t.kids).Nodup ∧ t.off ∉ offsAll t.kids := by
    cases t; rw [Tree.offs, List.nodup_cons] at hnd; exact ⟨hnd.2, hnd.1⟩
  obtain ⟨live, out, seen', ro', _, he, _, ho, hl, hread, hlk, hsho, hrf, hyl⟩ := emits_tree env st hdel {} gm anc
    hatt (fun _ => True) (fun _ _ => True) hereditary_true (fun _ _ _ => .iterate)
    (filterSays_plain st) hi hgmhi gm0 hgm0 hgm0hi t [] none root (.start st (some root) {} gm anc) [] st.rootOffset rfl
    trivial rfl rfl rfl (fun _ _ => trivial) ht hreads (fun _ => by simp) hnd'.1
    (by
      intro x hx hmem
      have hmem : x ∈ [root.key.fileOffset] := hmem
      rw [List.mem_singleton, hreads.facts.1] at hmem
      exact hnd'.2 (hmem ▸ hx)) rfl
  obtain ⟨steps, hs⟩ := he _ (runs_pre_nil env _ rfl)
  rw [foldr_consRes] at hs
  have hall : (!(IterCtx.start st (some root) {} gm anc).includeAncestors ||
    !(IterCtx.start st (some root) {} gm anc).filter.isValid) = true := by cases anc <;> rfl
  rw [hall] at hrf hsho
  exact ⟨steps, out, live, hs, hl.trans (walk_plain t []), ho, hread,
    hlk.trans (walk_plain t []), hsho, hrf, hyl⟩

/-- The iteration without a filter, in full: also, how the keys of the tree and the recovered ones are yielded. -/
theorem iteration_yields (env : Env) (st : State) (t : Tree) (gm anc : Bool)
    (hbin : FirstBin env.fi) (hoff : t.off = env.fi.hbin + 32)
    (ht : TreeAt env.fi.buffer env.fi.hbin env.depth t) (hnd : t.offs.Nodup)
    (hdel : StateDel st) (hatt : AttachOk env st) :
    ∃ (root : Node) (steps : Nat) (ns live : List Node), initRoot env st = .ok (some root, st.rootOffset) ∧
      collect (nextPre env) steps (.start st (some root) {} gm anc) = some (.ok ns) ∧
      live.map obs = t.pre [] ∧ ns.map obs = live.flatMap withRecovered ∧
      (∀ n ∈ live, IsRead env st n) ∧ liveKeys ns = t.pre [] ∧
      (∀ n ∈ ns, n.key.cellState = .Allocated → ∃ u ∈ t.nodes, IsShown env st true u n) ∧
      (∀ n ∈ live, IsReadFor env st gm true true t.nodes n) ∧
      Pairwise2 Yielded (live.flatMap belowTree) ns := by
  obtain ⟨root, hr, hreads⟩ := initRoot_reads env st t hbin (treeAt_keyAt ht) hoff hatt
  obtain ⟨steps, ns, live, h⟩ := iteration_from env st t gm anc true true root hreads ht hnd hdel (fun _ => hatt)
    (fun _ => rfl) (fun _ => rfl) (fun _ => rfl)
  exact ⟨root, steps, ns, live, hr, h⟩

theorem iteration_shown (env : Env) (st : State) (t : Tree) (gm anc : Bool)
    (hbin : FirstBin env.fi) (hoff : t.off = env.fi.hbin + 32)
    (ht : TreeAt env.fi.buffer env.fi.hbin env.depth t) (hnd : t.offs.Nodup)
    (hdel : StateDel st) (hatt : AttachOk env st) :
    ∃ (root : Node) (steps : Nat) (ns live : List Node), initRoot env st = .ok (some root, st.rootOffset) ∧
      collect (nextPre env) steps (.start st (some root) {} gm anc) = some (.ok ns) ∧
      live.map obs = t.pre [] ∧ ns.map obs = live.flatMap withRecovered ∧
      (∀ n ∈ live, IsRead env st n) ∧ liveKeys ns = t.pre [] ∧
      ∀ n ∈ ns, n.key.cellState = .Allocated → ∃ u ∈ t.nodes, IsShown env st true u n := by
  obtain ⟨root, steps, ns, live, h1, h2, h3, h4, h5, h6, h7, _⟩ :=
    iteration_yields env st t gm anc hbin hoff ht hnd hdel hatt
  exact ⟨root, steps, ns, live, h1, h2, h3, h4, h5, h6, h7⟩

/-- C09: on a hive whose key cells form a tree (no cell used twice), in any recovery state, the
iteration without a filter yields the keys of the tree in depth-first pre-order, siblings in the
order of the sub-key lists; every key is directly followed by the keys recovered below it.  The keys of the tree are the ones not marked
as recovered. -/
theorem iteration_preorder (env : Env) (st : State) (t : Tree) (gm anc : Bool)
    (hbin : FirstBin env.fi) (hoff : t.off = env.fi.hbin + 32)
    (ht : TreeAt env.fi.buffer env.fi.hbin env.depth t) (hnd : t.offs.Nodup)
    (hdel : StateDel st) (hatt : AttachOk env st) :
    ∃ (root : Node) (steps : Nat) (ns live : List Node), initRoot env st = .ok (some root, st.rootOffset) ∧
      collect (nextPre env) steps (.start st (some root) {} gm anc) = some (.ok ns) ∧
      live.map obs = t.pre [] ∧ ns.map obs = live.flatMap withRecovered ∧
      (∀ n ∈ live, IsRead env st n) ∧ liveKeys ns = t.pre [] := by
  obtain ⟨root, steps, ns, live, h1, h2, h3, h4, h5, h6, _⟩ :=
    iteration_shown env st t gm anc hbin hoff ht hnd hdel hatt
  exact ⟨root, steps, ns, live, h1, h2, h3, h4, h5, h6⟩

/-! ### C10 -/

/-- Without recovered keys nothing is attached. -/
theorem updateModifiedLists_none (st : State) (h : ∀ p, st.deletedKeys p = none) (fuel : Nat)
    (n m : Node) (hn : n.deletedKeys = []) (hm : updateModifiedLists st fuel n = .ok m) :
    m.deletedKeys = [] := by
  cases fuel with
  | zero => simp [updateModifiedLists] at hm
  | succ fuel =>
    rw [updateModifiedLists] at hm
    simp only [h, updateModifiedLists.attachDeleted] at hm
    split at hm
    · cases hm; exact hn
    · cases hm; exact hn

theorem reads_none (env : Env) (st : State) (h : ∀ p, st.deletedKeys p = none) (gm : Bool)
    (p : Str) (t : Tree) (s : Option FilterMatchState) (n : Node)
    (hr : Reads env st gm none p t s n) : n.deletedKeys = [] := by
  obtain ⟨k, vs, lg, s0, m, _, _, hm, rfl, _⟩ := hr
  show m.deletedKeys = []
  by_cases hg : gm = true
  · rw [if_pos hg] at hm
    exact updateModifiedLists_none st h _ _ m rfl hm
  · rw [if_neg hg] at hm
    rw [hm]; rfl

mutual
/-- Post-order lists the same keys as pre-order, each as often. -/
theorem post_perm_pre : ∀ (t : Tree) (path : Str), (t.post path).Perm (t.pre path)
  | .mk off c name kids, path => by
    rw [Tree.post, Tree.pre]
    exact (List.perm_append_singleton _ _).trans ((postAll_perm_preAll kids _).cons _)
theorem postAll_perm_preAll : ∀ (ts : List Tree) (path : Str), (postAll path ts).Perm (preAll path ts)
  | [], path => by rw [postAll, preAll]
  | t :: ts, path => by
    rw [postAll, preAll]
    exact (post_perm_pre t path).append (postAll_perm_preAll ts path)
end

/-- C10, the full claim: in any recovery state the live keys come in post-order and every
recovered key comes before the key it was recovered below. -/
def PostorderOk : Prop :=
  ∀ (env : Env) (st : State) (t : Tree) (root : Node) (gm anc : Bool),
    FirstBin env.fi → t.off = env.fi.hbin + 32 → TreeAt env.fi.buffer env.fi.hbin env.depth t →
    t.offs.Nodup → StateDel st → AttachOk env st → initRoot env st = .ok (some root, st.rootOffset) →
    ∃ steps ns, collect (nextPost env) steps (.start st (some root) {} gm anc) = some (.ok ns) ∧
      (ns.filter (fun n => decide (n.key.cellState = .Allocated))).map obs = t.post [] ∧
      ∀ pre n post, ns = pre ++ n :: post → ∀ d ∈ n.deletedKeys, obs d ∈ pre.map obs

/-- C10, partial: on a hive whose key cells form a tree and without recovered keys the post-order
iteration yields the keys of the tree in post-order (`post_perm_pre`: the same keys as the
pre-order).  Missing: recovered keys (`postorder_violated`). -/
theorem iteration_postorder_partial (env : Env) (st : State) (t : Tree) (gm anc : Bool)
    (hbin : FirstBin env.fi) (hoff : t.off = env.fi.hbin + 32)
    (ht : TreeAt env.fi.buffer env.fi.hbin env.depth t) (hnd : t.offs.Nodup)
    (hdel : ∀ p, st.deletedKeys p = none) (hdepth : 0 < env.depth) :
    ∃ root steps ns, initRoot env st = .ok (some root, st.rootOffset) ∧
      collect (nextPost env) steps (.start st (some root) {} gm anc) = some (.ok ns) ∧
      ns.map obs = t.post [] := by
  have hatt := attachOk_empty env st hdepth hdel
  obtain ⟨root, hr, hreads⟩ := initRoot_reads env st t hbin (treeAt_keyAt ht) hoff hatt
  have hnd' : (offsAll t.kids).Nodup ∧ t.off ∉ offsAll t.kids := by
    cases t; rw [Tree.offs, List.nodup_cons] at hnd; exact ⟨hnd.2, hnd.1⟩
  obtain ⟨out, seen', ro', _, he, _, ho⟩ := post_tree env st {} gm anc (.inr rfl) (fun _ => hatt)
    (fun p t s n h => reads_none env st hdel gm p t s n h) (fun _ => True) (fun _ _ => True) hereditary_true
    (fun _ _ _ => .iterate) (filterSays_plain st) t [] none root true
    (.start st (some root) {} gm anc) [] st.rootOffset rfl trivial rfl rfl rfl (.inr (by simp))
    (fun _ _ => trivial) ht hreads
    (reads_none env st hdel true [] t none root hreads) hnd'.1
    (by
      intro x hx hmem
      have hmem : x ∈ [root.key.fileOffset] := hmem
      rw [List.mem_singleton, hreads.facts.1] at hmem
      exact hnd'.2 (hmem ▸ hx)) rfl rfl
  have hend : Runs (nextPost env) { (IterCtx.start st (some root) {} gm anc) with
      stack := [], seen := seen', state := { st with rootOffset := ro' }, ret := bumpTop [] } (.ok []) := by
    refine ⟨1, ?_⟩
    rw [collect, nextPost]
    simp only [bumpTop]
  obtain ⟨steps, hs⟩ := he _ hend
  rw [foldr_consRes] at hs
  exact ⟨root, steps, out, hr, hs, ho.trans (postWalk_plain t [])⟩

/-! ### A small hive -/

/-- A key cell with an ASCII name. -/
def exampleCell (flags nSub list : Nat) (name : Bytes) : NkCell :=
  { size := -(80 + name.length : Nat), flags, lastWritten := 1, access := 0, parent := 0,
    nSubKeys := nSub, nVolatile := 0, subKeysList := list, volatileList := -1, nValues := 0,
    valuesList := -1, security := 0, className := -1, largestSubKeyName := 0,
    largestSubKeyClass := 0, largestValueName := 0, largestValueData := 0, workVar := 0,
    classNameSize := 0, nameBytes := name, slack := [] }

/-- A bin with the root key `RT` (flags: root, ASCII name) and its sub-keys `a` and `b`. -/
def exampleHive : FileInfo :=
  ⟨0, hbinBytes 0 300 0 0 0 0 ++ (exampleCell 0x24 2 114 [0x52, 0x54]).encode ++
    leafCell .lf (-24) [(138, [0, 0, 0, 0]), (219, [0, 0, 0, 0])] ++
    (exampleCell 0x20 0 0 [0x61]).encode ++ (exampleCell 0x20 0 0 [0x62]).encode⟩

/-- The tree of `exampleHive`. -/
def exampleTree : Tree :=
  .mk 32 (exampleCell 0x24 2 114 [0x52, 0x54]) ['R', 'T']
    [.mk 138 (exampleCell 0x20 0 0 [0x61]) ['a'] [], .mk 219 (exampleCell 0x20 0 0 [0x62]) ['b'] []]

theorem exampleCell_fits (flags nSub list : Nat) (name : Bytes) (h1 : flags < 65536)
    (h2 : nSub < 4294967296) (h3 : list < 4294967296) (h4 : name.length < 65536) :
    (exampleCell flags nSub list name).Fits := by
  unfold NkCell.Fits exampleCell isI32
  simp only [List.length_nil]
  omega

theorem exampleHive_bin : FirstBin exampleHive :=
  ⟨0, 300, 0, 0, 0, 0, by decide, by decide, by decide, by decide, by decide, by decide,
    [], exampleHive.buffer.drop 32, by decide +kernel, rfl⟩

theorem exampleHive_tree (depth : Nat) : TreeAt exampleHive.buffer exampleHive.hbin (depth + 1) exampleTree := by
  have hk : ∀ off c name, c.Fits → c.flags.testBit 5 = true →
      name = latin1 c.nameBytes →
      exampleHive.buffer = exampleHive.buffer.take off ++ (c.encode ++ exampleHive.buffer.drop (off + c.encode.length)) →
      (exampleHive.buffer.take off).length = off → KeyAt exampleHive.buffer off c name := by
    intro off c name h1 h2 h3 h4 h5
    exact ⟨h1, ⟨_, _, h4, h5⟩, .inl ⟨h2, h3⟩⟩
  unfold exampleTree
  rw [TreeAt]
  refine ⟨hk _ _ _ (exampleCell_fits _ _ _ _ (by decide) (by decide) (by decide) (by decide)) (by decide)
    (by decide) (by decide +kernel) (by decide +kernel), .inr ⟨by decide, by decide, ?_⟩, ?_⟩
  · left
    exact ⟨.lf, -24, [(138, [0, 0, 0, 0]), (219, [0, 0, 0, 0])], by decide, by decide, by decide,
      ⟨exampleHive.buffer.take 114, exampleHive.buffer.drop 138, by decide +kernel, by decide +kernel⟩, rfl⟩
  · rw [ForestAt, ForestAt, ForestAt]
    refine ⟨by decide, ?_, by decide, ?_, trivial⟩
    · rw [TreeAt, ForestAt]
      exact ⟨hk _ _ _ (exampleCell_fits _ _ _ _ (by decide) (by decide) (by decide) (by decide)) (by decide)
        (by decide) (by decide +kernel) (by decide +kernel), .inl ⟨rfl, rfl⟩, trivial⟩
    · rw [TreeAt, ForestAt]
      exact ⟨hk _ _ _ (exampleCell_fits _ _ _ _ (by decide) (by decide) (by decide) (by decide)) (by decide)
        (by decide) (by decide +kernel) (by decide +kernel), .inl ⟨rfl, rfl⟩, trivial⟩

example : exampleTree.offs.Nodup := by decide
example : (exampleTree.pre []).map (·.1) = [32, 138, 219] := by decide
example : (exampleTree.post []).map (·.1) = [138, 219, 32] := by decide

/-- A deleted key `d` recorded below `\RT\a`. -/
def exampleDeleted : Node :=
  .mk { defaultKey with fileOffset := 1000, name := ['d'], path := "\\RT\\a\\d".toList,
                        cellState := .DeletedTransactionLog } [] []

/-- The recovery state with that key. -/
def exampleState : State :=
  { deletedKeys := fun p => if p = "\\RT\\a".toList then some [exampleDeleted] else none }

theorem exampleState_del : StateDel exampleState := by
  intro p ds h d hd
  simp only [exampleState] at h
  split at h
  · cases h
    rw [List.mem_singleton.1 hd]
    exact .mk _ (by decide) (by intro e he; cases he)
  · cases h

/-- The environment of the example. -/
def exampleEnv : Env := ⟨exampleHive, fun _ => [], 2⟩

theorem exampleState_attach : AttachOk exampleEnv exampleState := by
  have hd : updateModifiedLists exampleState 1 exampleDeleted = .ok exampleDeleted := rfl
  intro k
  show updateModifiedLists exampleState 2 (.mk k [] []) ≠ .panic
  rw [updateModifiedLists]
  simp only
  split
  · simp
  · have : updateModifiedLists.attachDeleted (updateModifiedLists exampleState 1)
        (Node.mk k [] []).key.fileOffset (Node.mk k [] []).deletedKeys
        (exampleState.deletedKeys (if (Node.mk k [] []).key.isKeyRoot = true then [] else (Node.mk k [] []).key.path)) ≠ .panic := by
      generalize (if (Node.mk k [] []).key.isKeyRoot = true then [] else (Node.mk k [] []).key.path) = p
      simp only [exampleState]
      split
      · rw [updateModifiedLists.attachDeleted, updateModifiedLists.attachLoop]
        show (match (if exampleDeleted.key.fileOffset ≠ (Node.mk k [] []).key.fileOffset then updateModifiedLists exampleState 1 exampleDeleted else .ok exampleDeleted) with
          | .err => _ | .panic => _ | .ok d => _) ≠ _
        rw [hd]
        have : (if exampleDeleted.key.fileOffset ≠ (Node.mk k [] []).key.fileOffset then Res.ok exampleDeleted else .ok exampleDeleted) = .ok exampleDeleted := by
          split <;> rfl
        rw [this]
        simp [updateModifiedLists.attachLoop]
      · simp [updateModifiedLists.attachDeleted]
    split
    · simp
    · rename_i h; exact absurd h this
    · simp

/-- The hypotheses of `iteration_preorder` hold in the example, which lists the deleted key after
its parent. -/
example : ∃ root steps ns, initRoot exampleEnv exampleState = .ok (some root, 0) ∧
    collect (nextPre exampleEnv) steps (.start exampleState (some root) {} true false) = some (.ok ns) ∧
    ns.map (·.key.fileOffset) = [32, 138, 1000, 219] := by
  obtain ⟨root, steps, ns, live, h1, h2, h3, h4, _⟩ := iteration_preorder exampleEnv exampleState exampleTree
    true false exampleHive_bin rfl (exampleHive_tree 1) (by decide) exampleState_del exampleState_attach
  have hc : (match initRoot exampleEnv exampleState with
    | .ok (some root, _) => (collect (nextPre exampleEnv) 9 (.start exampleState (some root) {} true false)).map
        fun r => match r with | .ok ns => ns.map (·.key.fileOffset) | _ => []
    | _ => none) = some [32, 138, 1000, 219] := by decide +kernel
  rw [h1] at hc
  simp only at hc
  cases hx : collect (nextPre exampleEnv) 9 (.start exampleState (some root) {} true false) with
  | none => rw [hx] at hc; cases hc
  | some r =>
    rw [hx] at hc
    have := collect_unique (fuelMono_pre _) _ _ _ _ _ hx h2
    subst this
    exact ⟨root, steps, ns, h1, h2, by simpa using hc⟩

/-- C10: with the deleted key `d` recorded below `\RT\a`, post-order yields `\RT\a`, then `d`, then
the root, then `\RT\b`: the root comes before one of its sub-keys, and `\RT\a` before `d`. -/
theorem postorder_example : (match initRoot exampleEnv exampleState with
    | .ok (some root, _) => (collect (nextPost exampleEnv) 9 (.start exampleState (some root) {} true false)).map
        fun r => match r with | .ok ns => ns.map (·.key.fileOffset) | _ => []
    | _ => none) = some [138, 1000, 32, 219] := by decide +kernel

/-- C10: the code violates the claim. -/
theorem postorder_violated : ¬ PostorderOk := by
  intro h
  obtain ⟨root, hr, _⟩ := initRoot_reads exampleEnv exampleState exampleTree exampleHive_bin
    (treeAt_keyAt (exampleHive_tree 1)) rfl exampleState_attach
  obtain ⟨steps, ns, h1, h2, h3⟩ := h exampleEnv exampleState exampleTree root true false exampleHive_bin rfl
    (exampleHive_tree 1) (by decide) exampleState_del exampleState_attach hr
  have hc := postorder_example
  rw [hr] at hc
  simp only at hc
  cases hx : collect (nextPost exampleEnv) 9 (.start exampleState (some root) {} true false) with
  | none => rw [hx] at hc; cases hc
  | some r =>
    rw [hx] at hc
    have := collect_unique (fuelMono_post _) _ _ _ _ _ hx h1
    subst this
    have hc : ns.map (·.key.fileOffset) = [138, 1000, 32, 219] := by simpa using hc
    -- the live keys must end with the root
    have h4 : ((ns.filter (fun n => decide (n.key.cellState = .Allocated))).map obs).map (·.1)
        = [138, 219, 32] := by rw [h2]; decide
    rw [List.map_map] at h4
    have h5 : [138, 219, 32].Sublist (ns.map (·.key.fileOffset)) := by
      rw [← h4]
      exact List.filter_sublist.map _
    rw [hc] at h5
    revert h5; decide

end Notatin
