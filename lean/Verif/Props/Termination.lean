import Verif.Lemmas.Termination
/-
C08: the default (pre-order) iteration ends on every file and yields no live cell twice.
-/
namespace Notatin
open Spec

/-- The offsets of the live keys in a list. -/
def liveOffs (ns : List Node) : List Nat :=
  (ns.filter fun n => decide (n.key.cellState = .Allocated)).map (·.key.fileOffset)

theorem liveOffs_cons (n : Node) (ns : List Node) :
    liveOffs (n :: ns) =
      if n.key.cellState = .Allocated then n.key.fileOffset :: liveOffs ns else liveOffs ns := by
  unfold liveOffs
  rw [List.filter_cons]
  by_cases h : n.key.cellState = .Allocated
  · rw [if_pos h, if_pos (decide_eq_true h)]; rfl
  · rw [if_neg h, if_neg (by simpa using h)]

theorem liveOffs_append (a b : List Node) : liveOffs (a ++ b) = liveOffs a ++ liveOffs b := by
  unfold liveOffs
  rw [List.filter_append, List.map_append]

theorem liveOffs_none (a : List Node) (h : ∀ n ∈ a, n.key.cellState ≠ .Allocated) :
    liveOffs a = [] := by
  unfold liveOffs
  rw [List.filter_eq_nil_iff.2 (fun n hn => by simpa using h n hn)]
  rfl

theorem liveOffs_all (a : List Node) (h : ∀ n ∈ a, n.key.cellState = .Allocated) :
    liveOffs a = a.map (·.key.fileOffset) := by
  unfold liveOffs
  rw [List.filter_eq_self.2 (fun n hn => by simpa using h n hn)]

/-- What holds of the iterator between two rounds. -/
structure IterInv (ctx : IterCtx) : Prop where
  state : StateDel ctx.state
  stackDel : ∀ n ∈ ctx.stack, DelOk n
  nodup : (liveOffs ctx.stack).Nodup
  marked : ∀ x ∈ liveOffs ctx.stack, x ∈ ctx.seen

/-- One round of the traversal: the invariant is kept, the measure decreases, the popped live
offset does not come back. -/
theorem expand_inv (env : Env) (ctx : IterCtx) (node node' : Node) (rest : List Node)
    (ctx' : IterCtx) (hinv : IterInv ctx) (hs : ctx.stack = node :: rest)
    (h : pushKids env { ctx with stack := rest } node = .ok (node', ctx')) :
    let p := pushDeleted node' ctx'
    IterInv p.2 ∧ p.1.key.fileOffset = node.key.fileOffset ∧
    p.1.key.cellState = node.key.cellState ∧
    p.2.filter = ctx.filter ∧ p.2.getModified = ctx.getModified ∧
    p.2.includeAncestors = ctx.includeAncestors ∧ p.2.ret = ctx.ret ∧
    (∃ ro, p.2.state = { ctx.state with rootOffset := ro }) ∧
    (∀ x ∈ ctx.seen, x ∈ p.2.seen) ∧
    (∀ x ∈ liveOffs p.2.stack, x ∉ ctx.seen ∨ x ∈ liveOffs rest) ∧
    (unseen env.fi.buffer.length p.2.seen < unseen env.fi.buffer.length ctx.seen ∨
      (unseen env.fi.buffer.length p.2.seen = unseen env.fi.buffer.length ctx.seen ∧
        weightAll p.2.stack < weightAll ctx.stack)) := by
  obtain ⟨_, _, hf⟩ := pushKids_facts env { ctx with stack := rest } node
  obtain ⟨⟨lg, so, tr, rfl⟩, ro, news, rfl, hch, hnd, hns⟩ := hf node' ctx' h
  simp only [pushDeleted]
  have hdel : ∀ n ∈ (node.deletedKeys.map (inheritFilterState node.key.filterState)).reverse,
      AllDel n := by
    intro n hn
    obtain ⟨d, hd, rfl⟩ := List.mem_map.1 (List.mem_reverse.1 hn)
    have := hinv.stackDel node (by rw [hs]; exact List.mem_cons_self) d hd
    rw [allDel_iff] at this ⊢
    exact this
  have hlive : liveOffs ((node.deletedKeys.map (inheritFilterState node.key.filterState)).reverse
      ++ (news ++ rest)) = news.map (·.key.fileOffset) ++ liveOffs rest := by
    rw [liveOffs_append, liveOffs_none _ (fun n hn => ((allDel_iff n).1 (hdel n hn)).1),
      liveOffs_append, liveOffs_all news (fun n hn => (hch n hn).2.1)]
    rfl
  have hmark : ∀ x ∈ liveOffs rest, x ∈ ctx.seen := by
    intro x hx
    refine hinv.marked x ?_
    rw [hs, liveOffs_cons]
    split
    · exact List.mem_cons_of_mem _ hx
    · exact hx
  refine ⟨⟨hinv.state, ?_, ?_, ?_⟩, rfl, rfl, trivial, trivial, trivial, trivial, ⟨ro, rfl⟩, ?_, ?_, ?_⟩
  · intro n hn
    rcases List.mem_append.1 hn with hn | hn
    · exact ((allDel_iff n).1 (hdel n hn)).2
    · rcases List.mem_append.1 hn with hn | hn
      · exact isReadChild_delOk env ctx.state hinv.state _ n (hch n hn)
      · exact hinv.stackDel n (by rw [hs]; exact List.mem_cons_of_mem _ hn)
  · show (liveOffs (_ ++ (news ++ rest))).Nodup
    refine Eq.mpr (congrArg List.Nodup hlive) ?_
    rw [List.nodup_append]
    refine ⟨hnd, ?_, ?_⟩
    · have := hinv.nodup
      rw [hs, liveOffs_cons] at this
      split at this
      · exact (List.nodup_cons.1 this).2
      · exact this
    · intro x hx y hy he
      obtain ⟨n, hn, rfl⟩ := List.mem_map.1 hx
      exact hns n hn (he ▸ hmark y hy)
  · intro x hx
    have hx : x ∈ liveOffs (_ ++ (news ++ rest)) := hx
    have hx : x ∈ news.map (·.key.fileOffset) ++ liveOffs rest := hlive ▸ hx
    rcases List.mem_append.1 hx with hx | hx
    · exact List.mem_append_left _ hx
    · exact List.mem_append_right _ (hmark x hx)
  · intro x hx
    exact List.mem_append_right _ hx
  · intro x hx
    have hx : x ∈ liveOffs (_ ++ (news ++ rest)) := hx
    have hx : x ∈ news.map (·.key.fileOffset) ++ liveOffs rest := hlive ▸ hx
    rcases List.mem_append.1 hx with hx | hx
    · obtain ⟨n, hn, rfl⟩ := List.mem_map.1 hx
      exact .inl (hns n hn)
    · exact .inr hx
  · by_cases hne : news = []
    · right
      subst hne
      refine ⟨rfl, ?_⟩
      show weightAll (_ ++ ([] ++ rest)) < _
      rw [weightAll_append, weightAll_reverse, hs]
      have : weightAll (List.map (inheritFilterState node.key.filterState) node.deletedKeys)
          = weightAll node.deletedKeys := weightAll_inherit _ _
      show weightAll (List.map (inheritFilterState node.key.filterState) node.deletedKeys) + _ < _
      rw [this, weightAll, Node.weight_eq]
      simp only [List.nil_append]
      omega
    · left
      refine unseen_lt _ _ _ (by simpa using hne) ?_ ?_
      · intro x hx
        obtain ⟨n, hn, rfl⟩ := List.mem_map.1 hx
        exact (hch n hn).1
      · intro x hx
        obtain ⟨n, hn, rfl⟩ := List.mem_map.1 hx
        exact hns n hn

/-- Reading sub-keys never panics in this state, whatever the node. -/
def KidsSafe (env : Env) (st : State) (filter : Filter) (gm : Bool) : Prop :=
  ∀ ro node, readSubKeysInternal env { st with rootOffset := ro } node filter none gm ≠ .panic

theorem pre_ends (env : Env) (u : Nat) : ∀ (w : Nat) (ctx : IterCtx),
    unseen env.fi.buffer.length ctx.seen = u → weightAll ctx.stack = w → IterInv ctx →
    ∃ res, Runs (nextPre env) ctx res ∧ res ≠ .err ∧
      (KidsSafe env ctx.state ctx.filter ctx.getModified → res ≠ .panic) ∧
      ∀ ns, res = .ok ns → (liveOffs ns).Nodup ∧
        ∀ x ∈ liveOffs ns, x ∈ liveOffs ctx.stack ∨ x ∉ ctx.seen := by
  induction u using Nat.strongRecOn with
  | ind u ihu =>
    intro w
    induction w using Nat.strongRecOn with
    | ind w ihw =>
      intro ctx hu hw hinv
      cases hs : ctx.stack with
      | nil =>
        refine ⟨.ok [], runs_pre_nil env ctx hs, by simp, by simp, ?_⟩
        intro ns h; cases h
        exact ⟨List.nodup_nil, by intro x hx; cases hx⟩
      | cons node rest =>
        obtain ⟨hne, hpan, _⟩ := pushKids_facts env { ctx with stack := rest } node
        cases hp : pushKids env { ctx with stack := rest } node with
        | err => exact absurd hp hne
        | panic =>
          refine ⟨.panic, runs_pre_panic env ctx node rest hs (by rw [preStep, hp]), by simp, ?_, by simp⟩
          intro hk
          exact absurd (hpan hp) (hk ctx.state.rootOffset node)
        | ok x =>
          obtain ⟨node', ctx'⟩ := x
          have hinv' := expand_inv env ctx node node' rest ctx' hinv hs hp
          have hstep : preStep env { ctx with stack := rest } node =
              let p := pushDeleted node' ctx'
              if p.2.includeAncestors || !p.2.filter.isValid || p.1.key.isFilterMatchOrDescendent then
                .ok (some p.1, p.2) else .ok (none, p.2) := by rw [preStep, hp]
          generalize pushDeleted node' ctx' = p at hinv' hstep
          simp only at hinv' hstep
          obtain ⟨n2, ctx2⟩ := p
          simp only at hinv' hstep
          obtain ⟨hi, hoff, hcs, hfl, hgm, hanc, _, ⟨ro, hst⟩, hseen, hlive, hmeas⟩ := hinv'
          have hrec : ∃ res, Runs (nextPre env) ctx2 res ∧ res ≠ .err ∧
              (KidsSafe env ctx2.state ctx2.filter ctx2.getModified → res ≠ .panic) ∧
              ∀ ns, res = .ok ns → (liveOffs ns).Nodup ∧
                ∀ x ∈ liveOffs ns, x ∈ liveOffs ctx2.stack ∨ x ∉ ctx2.seen := by
            rcases hmeas with hm | ⟨hm, hm2⟩
            · exact ihu _ (hu ▸ hm) _ ctx2 rfl rfl hi
            · exact ihw _ (hw ▸ hm2) ctx2 (by omega) rfl hi
          obtain ⟨res, hruns, hre, hsafe, hres⟩ := hrec
          have hsafe' : KidsSafe env ctx.state ctx.filter ctx.getModified → res ≠ .panic := by
            intro hk
            refine hsafe ?_
            intro r nd
            rw [hst, hfl, hgm]
            exact hk r nd
          have hrest : ∀ x ∈ liveOffs rest, x ∈ liveOffs (node :: rest) := by
            intro x hx
            rw [liveOffs_cons]
            split
            · exact List.mem_cons_of_mem _ hx
            · exact hx
          have hback : ∀ x, (x ∈ liveOffs ctx2.stack ∨ x ∉ ctx2.seen) →
              x ∈ liveOffs rest ∨ x ∉ ctx.seen := by
            rintro x (hx | hx)
            · rcases hlive x hx with h | h
              · exact .inr h
              · exact .inl h
            · exact .inr (fun h => hx (hseen x h))
          by_cases hc : (ctx2.includeAncestors || !ctx2.filter.isValid || n2.key.isFilterMatchOrDescendent) = true
          · rw [if_pos hc] at hstep
            refine ⟨_, runs_pre_some env ctx ctx2 node n2 rest res hs hstep hruns, ?_, ?_, ?_⟩
            · cases res <;> simp [consRes] at hre ⊢
            · intro hk
              have := hsafe' hk
              cases res <;> simp [consRes] at this ⊢
            · intro ns h
              cases res with
              | err => cases h
              | panic => cases h
              | ok ns' =>
                cases h
                obtain ⟨h1, h2⟩ := hres ns' rfl
                rw [liveOffs_cons, hoff, hcs]
                by_cases hal : node.key.cellState = .Allocated
                · rw [if_pos hal]
                  have hmem : node.key.fileOffset ∈ liveOffs ctx.stack := by
                    rw [hs, liveOffs_cons, if_pos hal]; exact List.mem_cons_self
                  refine ⟨List.nodup_cons.2 ⟨?_, h1⟩, ?_⟩
                  · intro hmem'
                    rcases hback _ (h2 _ hmem') with h | h
                    · have := hinv.nodup
                      rw [hs, liveOffs_cons, if_pos hal] at this
                      exact (List.nodup_cons.1 this).1 h
                    · exact h (hinv.marked _ hmem)
                  · intro x hx
                    rcases List.mem_cons.1 hx with rfl | hx
                    · left; rw [← hs]; exact hmem
                    · rcases hback x (h2 x hx) with h | h
                      · exact .inl (hrest x h)
                      · exact .inr h
                · rw [if_neg hal]
                  refine ⟨h1, fun x hx => ?_⟩
                  rcases hback x (h2 x hx) with h | h
                  · exact .inl (hrest x h)
                  · exact .inr h
          · rw [if_neg hc] at hstep
            refine ⟨_, runs_pre_none env ctx ctx2 node rest res hs hstep hruns, hre, hsafe', ?_⟩
            intro ns h
            obtain ⟨h1, h2⟩ := hres ns h
            refine ⟨h1, fun x hx => ?_⟩
            rcases hback x (h2 x hx) with h | h
            · exact .inl (hrest x h)
            · exact .inr h

/-- C08, the full claim: whatever the bytes, the root key and the recovery state, the iteration
ends normally and no two live keys it yields have the same offset. -/
def IterationEnds : Prop :=
  ∀ (env : Env) (st : State) (root : Option Node) (filter : Filter) (gm anc : Bool),
    StateDel st → (∀ r, root = some r → DelOk r) →
    ∃ steps ns, collect (nextPre env) steps (.start st root filter gm anc) = some (.ok ns) ∧
      (liveOffs ns).Nodup

theorem start_inv (st : State) (root : Option Node) (filter : Filter) (gm anc : Bool)
    (hst : StateDel st) (hroot : ∀ r, root = some r → DelOk r) :
    IterInv (.start st root filter gm anc) := by
  have hlive : liveOffs [root.getD (.mk defaultKey [] [])] = [] ∨
      liveOffs [root.getD (.mk defaultKey [] [])]
        = [(root.getD (.mk defaultKey [] [])).key.fileOffset] := by
    rw [liveOffs_cons]
    split
    · right; rfl
    · left; rfl
  refine ⟨hst, ?_, ?_, ?_⟩
  · intro n hn
    rw [List.mem_singleton.1 hn]
    cases root with
    | none => intro d hd; cases hd
    | some r => exact hroot r rfl
  · show (liveOffs [_]).Nodup
    rcases hlive with h | h <;> rw [h] <;> simp
  · intro x hx
    have hx : x ∈ liveOffs [root.getD (.mk defaultKey [] [])] := hx
    rcases hlive with h | h <;> rw [h] at hx
    · cases hx
    · exact hx

/-- C08, partial: for every file, root key, filter and recovery state (whose deleted keys are not
live), sub-key references arbitrary, the iteration ends after finitely many calls, no call fails,
and no two live keys it yields have the same offset.  Missing: "ends" includes the abort by a
panic (`iteration_violated`); `iteration_total_partial` says when there is none. -/
theorem iteration_ends_partial (env : Env) (st : State) (root : Option Node) (filter : Filter)
    (gm anc : Bool) (hst : StateDel st) (hroot : ∀ r, root = some r → DelOk r) :
    ∃ steps res, collect (nextPre env) steps (.start st root filter gm anc) = some res ∧
      res ≠ .err ∧ ∀ ns, res = .ok ns → (liveOffs ns).Nodup := by
  obtain ⟨res, ⟨steps, h1⟩, h2, _, h3⟩ := pre_ends env _ _ _ rfl rfl
    (start_inv st root filter gm anc hst hroot)
  exact ⟨steps, res, h1, h2, fun ns h => (h3 ns h).1⟩

theorem updateModifiedLists_rootOffset (st : State) (ro : Nat) (fuel : Nat) (n : Node) :
    updateModifiedLists { st with rootOffset := ro } fuel n = updateModifiedLists st fuel n := by
  induction fuel generalizing n with
  | zero => rfl
  | succ fuel ih =>
    have : updateModifiedLists { st with rootOffset := ro } fuel = updateModifiedLists st fuel :=
      funext ih
    simp only [updateModifiedLists, this]
    rfl

theorem fromBytes_no_panic (hashFn : Bytes → Bytes) (bs : Bytes) (off : Nat) (path : Str)
    (seq : Option Nat) : KeyNode.fromBytes hashFn bs off path seq ≠ .panic := by
  rcases keyNode_cases hashFn bs off path seq with ⟨_, n, l, _, hp⟩ | ⟨_, hp⟩ <;> rw [hp] <;> simp

/-- Reading a key without a filter panics only while attaching recovered items. -/
theorem readKey_no_panic (env : Env) (st : State) (o : ReadOptions) (hatt : AttachOk env st)
    (hf : ∀ k : KeyNode, filterStep st o.filter k ≠ .panic) : readKey env st o ≠ .panic := by
  unfold readKey
  split
  · simp
  · rename_i slice _
    unfold readFromSlice
    cases hk : KeyNode.fromBytes env.hashFn slice o.offset o.curPath o.seq with
    | err => simp
    | panic => exact absurd hk (fromBytes_no_panic _ _ _ _ _)
    | ok x =>
      obtain ⟨k, r⟩ := x
      simp only
      cases hfs : filterStep st o.filter k with
      | err => simp
      | panic => exact absurd hfs (hf k)
      | ok x =>
        obtain ⟨flags, ro⟩ := x
        simp only
        split
        · simp
        · obtain ⟨vs, lg, hv⟩ := valuesStep_ok env o flags k
          rw [hv]
          simp only
          have : finishStep env st o flags { k with values := vs, logs := lg } ≠ .panic := by
            unfold finishStep
            simp only
            split
            · exact hatt _
            · simp
          cases hfi : finishStep env st o flags { k with values := vs, logs := lg } with
          | err => simp
          | panic => exact absurd hfi this
          | ok => simp

theorem readSubKeysLoop_no_panic (env : Env) (st : State) (path : Str) (f : Filter)
    (sf : Option Filter) (sm : Bool) (seq : Option Nat) (gm : Bool) (offs : List Nat) (ro : Nat)
    (logs : Logs) (hatt : AttachOk env st)
    (hf : ∀ ro (k : KeyNode), filterStep { st with rootOffset := ro } sf k ≠ .panic) :
    readSubKeysLoop env st path f sf sm seq gm offs ro logs ≠ .panic := by
  induction offs generalizing ro logs with
  | nil => rw [readSubKeysLoop]; simp
  | cons o os ih =>
    rw [readSubKeysLoop]
    have hatt' : AttachOk env { st with rootOffset := ro } := by
      intro k
      rw [updateModifiedLists_rootOffset]
      exact hatt k
    cases hr : readKey env { st with rootOffset := ro } ⟨o, path, sf, sm, seq, gm⟩ with
    | panic => exact absurd hr (readKey_no_panic _ _ _ hatt' (hf ro))
    | err => exact ih _ _
    | ok x =>
      obtain ⟨on, ro1⟩ := x
      cases on with
      | none => exact ih _ _
      | some n =>
        simp only
        cases hl : readSubKeysLoop env st path f sf sm seq gm os ro1 logs with
        | err => simp
        | panic => exact absurd hl (ih _ _)
        | ok y => simp

theorem kidsSafe_plain (env : Env) (st : State) (gm : Bool) (hatt : AttachOk env st)
    (hl : ∀ off, parseSubKeyList env.fi env.depth off ≠ .panic) : KidsSafe env st {} gm := by
  intro ro node
  have hatt' : AttachOk env { st with rootOffset := ro } := by
    intro k
    rw [updateModifiedLists_rootOffset]
    exact hatt k
  unfold readSubKeysInternal
  simp only
  split
  · split
    · simp
    · split
      · cases hp : parseSubKeyList env.fi env.depth node.key.subKeysListOffset with
        | panic => exact absurd hp (hl _)
        | err => simp
        | ok offs =>
          simp only
          have := readSubKeysLoop_no_panic env { st with rootOffset := ro } node.key.path {}
            (if (node.key.isFilterMatchOrDescendent && ({} : Filter).returnSubKeys) = true then none
              else some {}) node.key.isFilterMatchOrDescendent none gm offs ro node.key.logs hatt' (by
                intro ro' k
                split
                · simp [filterStep]
                · simp [filterStep, Filter.checkCell])
          split
          · simp
          · simp
          · rename_i h; exact absurd h this
      · simp
  · simp

/-- C08, partial: the iteration without a filter yields a list of keys, without repeated live
offsets, when no sub-key list of the file exhausts the stack or overflows an offset (C16) and
attaching recovered items ends (C42).  Missing: those files. -/
theorem iteration_total_partial (env : Env) (st : State) (root : Option Node) (gm anc : Bool)
    (hst : StateDel st) (hroot : ∀ r, root = some r → DelOk r) (hatt : AttachOk env st)
    (hl : ∀ off, parseSubKeyList env.fi env.depth off ≠ .panic) :
    ∃ steps ns, collect (nextPre env) steps (.start st root {} gm anc) = some (.ok ns) ∧
      (liveOffs ns).Nodup := by
  obtain ⟨res, ⟨steps, h1⟩, h2, h3, h4⟩ := pre_ends env _ _ _ rfl rfl
    (start_inv st root {} gm anc hst hroot)
  have hp := h3 (kidsSafe_plain env st gm hatt hl)
  cases res with
  | err => exact absurd rfl h2
  | panic => exact absurd rfl hp
  | ok ns => exact ⟨steps, ns, h1, (h4 ns rfl).1⟩

/-- A key with one sub-key whose list is the index root at offset 0. -/
def ridKey : KeyNode := { defaultKey with nSubKeys := 1 }

/-- C08: on a file whose sub-key list lists itself the very first call aborts, however large the
stack. -/
theorem iteration_aborts (hashFn : Bytes → Bytes) (depth : Nat) (gm anc : Bool) :
    collect (nextPre ⟨selfRi, hashFn, depth⟩) 1 (.start {} (some (.mk ridKey [] [])) {} gm anc)
      = some .panic := by
  rw [collect, nextPre]
  simp only [IterCtx.start, Option.getD_some, preStep, pushKids]
  rw [if_pos (by decide)]
  have : readSubKeysInternal ⟨selfRi, hashFn, depth⟩ {} (.mk ridKey [] []) {} none gm = .panic := by
    unfold readSubKeysInternal
    simp only
    rw [if_pos (by decide), if_neg (by decide), if_pos (by decide)]
    have : parseSubKeyList selfRi depth (Node.mk ridKey [] []).key.subKeysListOffset = .panic :=
      sub_key_list_cycle_violated depth
    rw [this]
  rw [this]

/-- C08: the code violates the claim. -/
theorem iteration_violated : ¬ IterationEnds := by
  intro h
  obtain ⟨steps, ns, h1, _⟩ := h ⟨selfRi, fun b => b, 10⟩ {} (some (.mk ridKey [] [])) {} true false
    (by intro p ds hp; cases hp) (by intro r hr; cases hr; intro d hd; cases hd)
  have := collect_unique (fuelMono_pre _) _ _ _ _ _ h1 (iteration_aborts (fun b => b) 10 true false)
  cases this

/-- The hypotheses of `iteration_ends_partial` hold for a cyclic file: the list of the key at
offset 16 of `loopFile` lists the key itself. -/
def loopFile : FileInfo :=
  ⟨0, leafCell .lf (-16) [(16, [0, 0, 0, 0])] ++ NkCell.encode
    { size := -82, flags := 0x20, lastWritten := 1, access := 0, parent := 0, nSubKeys := 1,
      nVolatile := 0, subKeysList := 0, volatileList := -1, nValues := 0, valuesList := -1,
      security := 0, className := -1, largestSubKeyName := 0, largestSubKeyClass := 0,
      largestValueName := 0, largestValueData := 0, workVar := 0, classNameSize := 0,
      nameBytes := [0x61, 0x62], slack := [] }⟩

/-- A key elsewhere with `loopFile`'s list. -/
def loopRoot : Node := .mk { defaultKey with nSubKeys := 1, fileOffset := 7 } [] []

example : (collect (nextPre ⟨loopFile, fun _ => [], 3⟩) 3
    (.start {} (some loopRoot) {} true false)).map (fun r => match r with
      | .ok ns => ns.map (·.key.fileOffset)
      | _ => []) = some [7, 16] := by decide +kernel

end Notatin
