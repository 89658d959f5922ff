import Verif.Model.Iterator
import Verif.Lemmas.Tree
import Verif.Props.KeyReading
/-
Running the iterators: fuel, single steps, and what one step does to the stacks.
-/
namespace Notatin
open Spec

/-- Puts a key before the rest of a result. -/
def consRes (n : Node) : Res (List Node) → Res (List Node)
  | .ok ns => .ok (n :: ns)
  | .err => .err
  | .panic => .panic

theorem nextPre_mono (env : Env) (n m : Nat) (ctx : IterCtx) (r : Res (Option Node × IterCtx))
    (h : nextPre env n ctx = some r) (hnm : n ≤ m) : nextPre env m ctx = some r := by
  induction n generalizing m ctx with
  | zero => simp [nextPre] at h
  | succ n ih =>
    obtain ⟨m, rfl⟩ : ∃ m', m = m' + 1 := ⟨m - 1, by omega⟩
    rw [nextPre] at h ⊢
    cases hs : ctx.stack with
    | nil => rw [hs] at h; exact h
    | cons node rest =>
      rw [hs] at h
      simp only at h ⊢
      cases hp : preStep env { ctx with stack := rest } node with
      | err => rw [hp] at h; exact h
      | panic => rw [hp] at h; exact h
      | ok x =>
        obtain ⟨o, c⟩ := x
        rw [hp] at h
        cases o with
        | some => exact h
        | none => exact ih m c h (by omega)

theorem nextPost_mono (env : Env) (n m : Nat) (ctx : IterCtx) (r : Res (Option Node × IterCtx))
    (h : nextPost env n ctx = some r) (hnm : n ≤ m) : nextPost env m ctx = some r := by
  induction n generalizing m ctx with
  | zero => simp [nextPost] at h
  | succ n ih =>
    obtain ⟨m, rfl⟩ : ∃ m', m = m' + 1 := ⟨m - 1, by omega⟩
    rw [nextPost] at h ⊢
    cases hs : ctx.stack with
    | nil => rw [hs] at h; exact h
    | cons node rest =>
      rw [hs] at h
      simp only at h ⊢
      cases hf : popFinished ctx.ret with
      | some x => rw [hf] at h; exact h
      | none =>
        rw [hf] at h
        simp only at h ⊢
        cases hp : pushKids env { ctx with stack := rest } node with
        | err => rw [hp] at h; exact h
        | panic => rw [hp] at h; exact h
        | ok x =>
          rw [hp] at h
          exact ih m _ h (by omega)

/-- More fuel does not change the result of `next`. -/
def FuelMono (next : Nat → IterCtx → Option (Res (Option Node × IterCtx))) : Prop :=
  ∀ n m ctx r, next n ctx = some r → n ≤ m → next m ctx = some r

theorem collect_mono {next} (hnext : FuelMono next) (n m : Nat) (ctx : IterCtx)
    (r : Res (List Node)) (h : collect next n ctx = some r) (hnm : n ≤ m) :
    collect next m ctx = some r := by
  induction n generalizing m ctx r with
  | zero => simp [collect] at h
  | succ n ih =>
    obtain ⟨m, rfl⟩ : ∃ m', m = m' + 1 := ⟨m - 1, by omega⟩
    rw [collect] at h ⊢
    cases hs : next (n + 1) ctx with
    | none => rw [hs] at h; cases h
    | some x =>
      rw [hs] at h
      rw [hnext _ _ _ _ hs hnm]
      cases x with
      | err => exact h
      | panic => exact h
      | ok x =>
        obtain ⟨o, c⟩ := x
        cases o with
        | none => exact h
        | some k =>
          simp only at h ⊢
          cases hc : collect next n c with
          | none => rw [hc] at h; cases h
          | some y =>
            rw [hc] at h
            rw [ih m c y hc (by omega)]
            exact h

/-- Two different amounts of fuel that both suffice give the same keys. -/
theorem collect_unique {next} (hnext : FuelMono next) (n m : Nat) (ctx : IterCtx)
    (r s : Res (List Node)) (h : collect next n ctx = some r) (h' : collect next m ctx = some s) :
    r = s := by
  have h1 := collect_mono hnext n (max n m) ctx r h (Nat.le_max_left _ _)
  have h2 := collect_mono hnext m (max n m) ctx s h' (Nat.le_max_right _ _)
  rw [h1] at h2
  exact Option.some.inj h2

/-- The whole iteration ends with the result `r`. -/
def Runs (next : Nat → IterCtx → Option (Res (Option Node × IterCtx))) (ctx : IterCtx)
    (r : Res (List Node)) : Prop :=
  ∃ steps, collect next steps ctx = some r

theorem runs_emit {next} (hnext : FuelMono next) {ctx ctx' : IterCtx} {n : Node}
    {r : Res (List Node)} (k : Nat) (h : next k ctx = some (.ok (some n, ctx')))
    (hr : Runs next ctx' r) : Runs next ctx (consRes n r) := by
  obtain ⟨s, hs⟩ := hr
  refine ⟨max k s + 1, ?_⟩
  rw [collect, hnext _ _ _ _ h (by omega)]
  simp only
  rw [collect_mono hnext s _ _ _ hs (Nat.le_max_right _ _)]
  cases r <;> rfl

/-- When every run of `next` from `ctx'` is one from `ctx` with one more round. -/
theorem runs_skip {next} (hnext : FuelMono next) {ctx ctx' : IterCtx}
    {r : Res (List Node)} (h : ∀ k, next (k + 1) ctx = next k ctx')
    (hr : Runs next ctx' r) : Runs next ctx r := by
  obtain ⟨s, hs⟩ := hr
  cases s with
  | zero => simp [collect] at hs
  | succ s =>
    refine ⟨s + 1 + 1, ?_⟩
    rw [collect] at hs ⊢
    rw [h]
    cases hn : next (s + 1) ctx' with
    | none => rw [hn] at hs; cases hs
    | some x =>
      rw [hn] at hs
      cases x with
      | err => exact hs
      | panic => exact hs
      | ok x =>
        obtain ⟨o, c⟩ := x
        cases o with
        | none => exact hs
        | some k =>
          simp only at hs ⊢
          cases hc : collect next s c with
          | none => rw [hc] at hs; cases hs
          | some y =>
            rw [hc] at hs
            rw [collect_mono hnext s (s + 1) c y hc (by omega)]
            exact hs

theorem fuelMono_pre (env : Env) : FuelMono (nextPre env) := fun n m ctx r => nextPre_mono env n m ctx r
theorem fuelMono_post (env : Env) : FuelMono (nextPost env) :=
  fun n m ctx r => nextPost_mono env n m ctx r

theorem runs_pre_nil (env : Env) (ctx : IterCtx) (h : ctx.stack = []) :
    Runs (nextPre env) ctx (.ok []) := by
  refine ⟨1, ?_⟩
  rw [collect, nextPre, h]

theorem runs_pre_panic (env : Env) (ctx : IterCtx) (node : Node) (rest : List Node)
    (h : ctx.stack = node :: rest) (hp : preStep env { ctx with stack := rest } node = .panic) :
    Runs (nextPre env) ctx .panic := by
  refine ⟨1, ?_⟩
  rw [collect, nextPre, h]
  simp only [hp]

theorem runs_pre_some (env : Env) (ctx ctx' : IterCtx) (node n : Node) (rest : List Node)
    (r : Res (List Node)) (h : ctx.stack = node :: rest)
    (hp : preStep env { ctx with stack := rest } node = .ok (some n, ctx'))
    (hr : Runs (nextPre env) ctx' r) : Runs (nextPre env) ctx (consRes n r) := by
  refine runs_emit (fuelMono_pre env) 1 ?_ hr
  rw [nextPre, h]
  simp only [hp]

theorem runs_pre_none (env : Env) (ctx ctx' : IterCtx) (node : Node) (rest : List Node)
    (r : Res (List Node)) (h : ctx.stack = node :: rest)
    (hp : preStep env { ctx with stack := rest } node = .ok (none, ctx'))
    (hr : Runs (nextPre env) ctx' r) : Runs (nextPre env) ctx r := by
  refine runs_skip (fuelMono_pre env) (fun k => ?_) hr
  rw [nextPre, h]
  simp only [hp]

/-! ### What reading gives, without assumptions on the file -/

/-- Whatever is read at an offset is inside the file, carries that offset and is a live key. -/
theorem readKey_some (env : Env) (st : State) (o : ReadOptions) (n : Node) (ro : Nat)
    (h : readKey env st o = .ok (some n, ro)) :
    o.offset ≤ env.fi.buffer.length ∧ n.key.fileOffset = o.offset ∧ n.key.cellState = .Allocated ∧
    ∃ k0 : KeyNode, if o.getModified then updateModifiedLists st env.depth (.mk k0 [] []) = .ok n
      else n = .mk k0 [] [] := by
  unfold readKey getFrom at h
  split at h
  · cases h
  · rename_i slice hg
    split at hg
    case isFalse => cases hg
    case isTrue hle =>
    refine ⟨hle, ?_⟩
    unfold readFromSlice at h
    cases hk : KeyNode.fromBytes env.hashFn slice o.offset o.curPath o.seq with
    | err => rw [hk] at h; cases h
    | panic => rw [hk] at h; cases h
    | ok x =>
      obtain ⟨k, r⟩ := x
      obtain ⟨hfr, hoff, _⟩ := fromBytes_fresh _ _ _ _ _ _ _ hk
      rw [hk] at h
      simp only at h
      cases hf : filterStep st o.filter k with
      | err => rw [hf] at h; cases h
      | panic => rw [hf] at h; cases h
      | ok x =>
        obtain ⟨flags, ro'⟩ := x
        rw [hf] at h
        simp only at h
        by_cases hno : flags = .noMatch
        · rw [if_pos hno] at h; cases h
        · rw [if_neg hno] at h
          obtain ⟨vs, lg, hv⟩ := valuesStep_ok env o flags k
          rw [hv] at h
          simp only at h
          cases hfi : finishStep env st o flags { k with values := vs, logs := lg } with
          | err => rw [hfi] at h; cases h
          | panic => rw [hfi] at h; cases h
          | ok m =>
            rw [hfi] at h
            cases h
            unfold finishStep at hfi
            simp only at hfi
            have hk0 : ∀ k0 : KeyNode, k0.fileOffset = o.offset → k0.cellState = .Allocated →
                (if o.getModified = true then updateModifiedLists st env.depth (.mk k0 [] [])
                  else .ok (.mk k0 [] [])) = .ok n →
                n.key.fileOffset = o.offset ∧ n.key.cellState = .Allocated ∧
                ∃ k0 : KeyNode, if o.getModified then
                    updateModifiedLists st env.depth (.mk k0 [] []) = .ok n
                  else n = .mk k0 [] [] := by
              intro k0 h1 h2 h3
              by_cases hg : o.getModified = true
              · rw [if_pos hg] at h3
                have := updateModifiedLists_key _ _ _ _ h3
                refine ⟨by rw [this]; exact h1, by rw [this]; exact h2, k0, by rw [if_pos hg]; exact h3⟩
              · rw [if_neg hg] at h3
                cases h3
                exact ⟨h1, h2, k0, by rw [if_neg hg]⟩
            by_cases hm : flags = .keyMatch
            · rw [if_pos hm] at hfi
              exact hk0 { k with values := vs, logs := lg, filterState := some .Exact } hoff
                hfr.2.2.2.2.2.2.2 hfi
            · rw [if_neg hm] at hfi
              exact hk0 { k with values := vs, logs := lg } hoff hfr.2.2.2.2.2.2.2 hfi

/-- A child as produced by reading in a state. -/
def IsReadChild (env : Env) (st : State) (getModified : Bool) (n : Node) : Prop :=
  n.key.fileOffset ≤ env.fi.buffer.length ∧ n.key.cellState = .Allocated ∧
  ∃ (ro : Nat) (k0 : KeyNode) (m : Node), n.deletedKeys = m.deletedKeys ∧
    if getModified then
      updateModifiedLists { st with rootOffset := ro } env.depth (.mk k0 [] []) = .ok m
    else m = .mk k0 [] []

theorem readSubKeysLoop_children (env : Env) (st : State) (path : Str) (f : Filter)
    (sf : Option Filter) (sm : Bool) (seq : Option Nat) (gm : Bool) (offs : List Nat) (ro : Nat)
    (logs : Logs) (ns : List Node) (found : Bool) (lg : Logs) (ro' : Nat)
    (h : readSubKeysLoop env st path f sf sm seq gm offs ro logs = .ok (ns, found, lg, ro')) :
    ∀ n ∈ ns, IsReadChild env st gm n := by
  induction offs generalizing ro logs ns found lg ro' with
  | nil =>
    rw [readSubKeysLoop] at h
    cases h
    intro n hn; cases hn
  | cons o os ih =>
    rw [readSubKeysLoop] at h
    cases hr : readKey env { st with rootOffset := ro } ⟨o, path, sf, sm, seq, gm⟩ with
    | panic => rw [hr] at h; cases h
    | err => rw [hr] at h; exact ih _ _ _ _ _ _ h
    | ok x =>
      obtain ⟨on, ro1⟩ := x
      rw [hr] at h
      cases on with
      | none => exact ih _ _ _ _ _ _ h
      | some n =>
        simp only at h
        cases hl : readSubKeysLoop env st path f sf sm seq gm os ro1 logs with
        | err => rw [hl] at h; cases h
        | panic => rw [hl] at h; cases h
        | ok y =>
          obtain ⟨ns', f', l', r'⟩ := y
          rw [hl] at h
          cases h
          obtain ⟨h1, h2, h3, k0, h4⟩ := readKey_some _ _ _ _ _ hr
          intro m hm
          rcases List.mem_cons.1 hm with rfl | hm
          · exact ⟨by show n.key.fileOffset ≤ _; rw [h2]; exact h1, h3, ro, k0, n, rfl, h4⟩
          · exact ih _ _ _ _ _ _ hl m hm

theorem readSubKeysLoop_no_err (env : Env) (st : State) (path : Str) (f : Filter)
    (sf : Option Filter) (sm : Bool) (seq : Option Nat) (gm : Bool) (offs : List Nat) (ro : Nat)
    (logs : Logs) : readSubKeysLoop env st path f sf sm seq gm offs ro logs ≠ .err := by
  induction offs generalizing ro logs with
  | nil => rw [readSubKeysLoop]; simp
  | cons o os ih =>
    rw [readSubKeysLoop]
    cases hr : readKey env { st with rootOffset := ro } ⟨o, path, sf, sm, seq, gm⟩ with
    | panic => simp
    | err => exact ih _ _
    | ok x =>
      obtain ⟨on, ro1⟩ := x
      cases on with
      | none => exact ih _ _
      | some n =>
        simp only
        cases hl : readSubKeysLoop env st path f sf sm seq gm os ro1 logs with
        | err => exact absurd hl (ih _ _)
        | panic => simp
        | ok y => simp

/-- `read_sub_keys_internal` in any state: never an error, `self` keeps its recovered keys and
everything but its messages and offsets, the children were read from the file. -/
theorem readSubKeysInternal_facts (env : Env) (st : State) (self : Node) (f : Filter)
    (seq : Option Nat) (gm : Bool) :
    readSubKeysInternal env st self f seq gm ≠ .err ∧
    ∀ r, readSubKeysInternal env st self f seq gm = .ok r →
      (∃ lg so, r.self = self.setKey { self.key with logs := lg, subKeyOffsets := so }) ∧
      ∀ n ∈ r.children, IsReadChild env st gm n := by
  have hself : self = self.setKey { self.key with logs := self.key.logs, subKeyOffsets := self.key.subKeyOffsets } := by
    cases self; rfl
  unfold readSubKeysInternal
  simp only
  by_cases h1 : self.key.cellState = .Allocated
  · rw [if_pos h1]
    by_cases h2 : self.key.nSubKeys > 1024 * 1024
    · rw [if_pos h2]
      refine ⟨by simp, ?_⟩
      rintro r h; cases h
      exact ⟨⟨_, self.key.subKeyOffsets, rfl⟩, by simp⟩
    · rw [if_neg h2]
      by_cases h3 : 0 < self.key.nSubKeys
      · rw [if_pos h3]
        cases hp : parseSubKeyList env.fi env.depth self.key.subKeysListOffset with
        | panic => exact ⟨by simp, by simp⟩
        | err =>
          refine ⟨by simp, ?_⟩
          rintro r h; cases h
          exact ⟨⟨_, self.key.subKeyOffsets, rfl⟩, by simp⟩
        | ok offs =>
          simp only
          cases hl : readSubKeysLoop env st self.key.path f
              (if (self.key.isFilterMatchOrDescendent && f.returnSubKeys) = true then none else some f)
              self.key.isFilterMatchOrDescendent seq gm offs st.rootOffset self.key.logs with
          | err => exact absurd hl (readSubKeysLoop_no_err _ _ _ _ _ _ _ _ _ _ _)
          | panic => exact ⟨by simp, by simp⟩
          | ok x =>
            obtain ⟨c, fd, lg, ro⟩ := x
            refine ⟨by simp, ?_⟩
            rintro r h; cases h
            exact ⟨⟨lg, offs, rfl⟩, readSubKeysLoop_children _ _ _ _ _ _ _ _ _ _ _ _ _ _ _ hl⟩
      · rw [if_neg h3]
        refine ⟨by simp, ?_⟩
        rintro r h; cases h
        exact ⟨⟨self.key.logs, self.key.subKeyOffsets, hself⟩, by simp⟩
  · rw [if_neg h1]
    refine ⟨by simp, ?_⟩
    rintro r h; cases h
    exact ⟨⟨self.key.logs, self.key.subKeyOffsets, hself⟩, by simp⟩

end Notatin
