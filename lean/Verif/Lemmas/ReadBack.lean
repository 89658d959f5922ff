import Verif.Props.Termination
import Verif.Lemmas.Analyzer
/-
Every key an iteration yields was read from the file.
-/
namespace Notatin
open Spec

/-! ### What holds for everything read holds for everything iterated -/

theorem readSubKeysLoop_all (env : Env) (P : Node → Prop) (S : State → Prop) (gm : Bool)
    (O : Option Filter → Option Nat → Prop) (C : Str → Prop)
    (hS : ∀ st ro, S st → S { st with rootOffset := ro })
    (hread : ∀ st o n ro, S st → o.getModified = gm → O o.filter o.seq → C o.curPath →
      readKey env st o = .ok (some n, ro) → P n)
    (hfs : ∀ n sm v, P n →
      P (n.setKey { n.key with filterState := childFilterState sm v n.key.filterState }))
    (st : State) (path : Str) (f : Filter) (sf : Option Filter) (sm : Bool) (seq : Option Nat)
    (offs : List Nat) (ro : Nat) (logs : Logs) (ns : List Node) (found : Bool) (lg : Logs) (ro' : Nat)
    (hst : S st) (hO : O sf seq) (hC : C path)
    (h : readSubKeysLoop env st path f sf sm seq gm offs ro logs = .ok (ns, found, lg, ro')) :
    ∀ n ∈ ns, P n := by
  induction offs generalizing ro logs ns found lg ro' with
  | nil =>
    rw [readSubKeysLoop] at h
    cases h
    intro n hn; cases hn
  | cons o os ih =>
    rw [readSubKeysLoop] at h
    cases hr : readKey env { st with rootOffset := ro } ⟨o, path, sf, sm, seq, gm⟩ with
    | panic => rw [hr] at h; cases h
    | err => rw [hr] at h; exact ih _ _ _ _ _ _ h
    | ok x =>
      obtain ⟨on, ro1⟩ := x
      rw [hr] at h
      cases on with
      | none => exact ih _ _ _ _ _ _ h
      | some n =>
        simp only at h
        cases hl : readSubKeysLoop env st path f sf sm seq gm os ro1 logs with
        | err => rw [hl] at h; cases h
        | panic => rw [hl] at h; cases h
        | ok y =>
          obtain ⟨ns', f', l', r'⟩ := y
          rw [hl] at h
          cases h
          intro m hm
          rcases List.mem_cons.1 hm with rfl | hm
          · exact hfs n _ _ (hread _ _ _ _ (hS _ _ hst) rfl hO hC hr)
          · exact ih _ _ _ _ _ _ hl m hm

theorem readSubKeysInternal_all (env : Env) (P : Node → Prop) (S : State → Prop) (gm : Bool)
    (O : Option Filter → Option Nat → Prop) (C : Str → Prop)
    (hS : ∀ st ro, S st → S { st with rootOffset := ro })
    (hread : ∀ st o n ro, S st → o.getModified = gm → O o.filter o.seq → C o.curPath →
      readKey env st o = .ok (some n, ro) → P n)
    (hfs : ∀ n sm v, P n →
      P (n.setKey { n.key with filterState := childFilterState sm v n.key.filterState }))
    (st : State) (self : Node) (f : Filter) (seq : Option Nat) (r : SubKeysResult)
    (hst : S st) (hO : O none seq ∧ O (some f) seq) (hC : C self.key.path)
    (h : readSubKeysInternal env st self f seq gm = .ok r) : ∀ n ∈ r.children, P n := by
  unfold readSubKeysInternal at h
  simp only at h
  by_cases h1 : self.key.cellState = .Allocated
  · rw [if_pos h1] at h
    by_cases h2 : self.key.nSubKeys > 1024 * 1024
    · rw [if_pos h2] at h; cases h; simp
    · rw [if_neg h2] at h
      by_cases h3 : 0 < self.key.nSubKeys
      · rw [if_pos h3] at h
        cases hp : parseSubKeyList env.fi env.depth self.key.subKeysListOffset with
        | panic => rw [hp] at h; cases h
        | err => rw [hp] at h; cases h; simp
        | ok offs =>
          rw [hp] at h
          simp only at h
          cases hl : readSubKeysLoop env st self.key.path f
              (if (self.key.isFilterMatchOrDescendent && f.returnSubKeys) = true then none else some f)
              self.key.isFilterMatchOrDescendent seq gm offs st.rootOffset self.key.logs with
          | err => rw [hl] at h; cases h
          | panic => rw [hl] at h; cases h
          | ok x =>
            obtain ⟨c, fd, lg, ro⟩ := x
            rw [hl] at h
            cases h
            refine readSubKeysLoop_all env P S gm O C hS hread hfs _ _ _ _ _ _ _ _ _ _ _ _ _ hst ?_ hC hl
            split
            · exact hO.1
            · exact hO.2
      · rw [if_neg h3] at h; cases h; simp
  · rw [if_neg h1] at h; cases h; simp

theorem pushKids_all (env : Env) (P : Node → Prop) (S : State → Prop) (gm : Bool)
    (O : Option Filter → Option Nat → Prop) (C : Str → Prop)
    (hS : ∀ st ro, S st → S { st with rootOffset := ro })
    (hread : ∀ st o n ro, S st → o.getModified = gm → O o.filter o.seq → C o.curPath →
      readKey env st o = .ok (some n, ro) → P n)
    (hfs : ∀ n sm v, P n →
      P (n.setKey { n.key with filterState := childFilterState sm v n.key.filterState }))
    (hbk : ∀ n lg so tr, P n →
      P (n.setKey { n.key with logs := lg, subKeyOffsets := so, toReturn := tr }))
    (ctx ctx' : IterCtx) (node node' : Node) (f : Filter) (hfi : ctx.filter = f)
    (hO : O none none ∧ O (some f) none) (hC : ∀ n, P n → C n.key.path) (hgm : ctx.getModified = gm) (hn : P node)
    (hs : ∀ n ∈ ctx.stack, P n) (hst : S ctx.state)
    (h : pushKids env ctx node = .ok (node', ctx')) :
    P node' ∧ (∀ n ∈ ctx'.stack, P n) ∧ ctx'.getModified = gm ∧ S ctx'.state ∧ ctx'.filter = f := by
  obtain ⟨⟨lg, so, tr, e⟩, _⟩ := (pushKids_facts env ctx node).2.2 node' ctx' h
  refine ⟨by rw [e]; exact hbk _ _ _ _ hn, ?_⟩
  unfold pushKids at h
  by_cases h0 : 0 < node.key.nSubKeys
  · rw [if_pos h0] at h
    cases hr : readSubKeysInternal env ctx.state node ctx.filter none ctx.getModified with
    | err => rw [hr] at h; cases h
    | panic => rw [hr] at h; cases h
    | ok r =>
      rw [hr] at h
      cases h
      rw [hgm] at hr
      have hall := readSubKeysInternal_all env P S gm O C hS hread hfs _ _ _ _ _ hst (by rw [hfi]; exact hO)
        (hC _ hn) hr
      obtain ⟨news, e, hm, _, _⟩ := foldl_pushCheck r.children.reverse
        { ctx with state := { ctx.state with rootOffset := r.rootOffset } }
      rw [e]
      refine ⟨?_, hgm, hS _ _ hst, hfi⟩
      intro n hn
      rcases List.mem_append.1 hn with hn | hn
      · exact hall n (List.mem_reverse.1 (hm n hn))
      · exact hs n hn
  · rw [if_neg h0] at h
    cases h
    exact ⟨hs, hgm, hst, hfi⟩

/-- A property of every key that can be read, of the keys on the stack and of the recovered keys
attached to such keys is one of every key the iteration yields. -/
theorem collect_all (env : Env) (P : Node → Prop) (S : State → Prop) (gm : Bool)
    (O : Option Filter → Option Nat → Prop) (C : Str → Prop)
    (hS : ∀ st ro, S st → S { st with rootOffset := ro })
    (hread : ∀ st o n ro, S st → o.getModified = gm → O o.filter o.seq → C o.curPath →
      readKey env st o = .ok (some n, ro) → P n)
    (hfs : ∀ n sm v, P n →
      P (n.setKey { n.key with filterState := childFilterState sm v n.key.filterState }))
    (hbk : ∀ n lg so tr, P n →
      P (n.setKey { n.key with logs := lg, subKeyOffsets := so, toReturn := tr }))
    (hdel : ∀ n, P n → (∀ d ∈ n.deletedKeys, P (inheritFilterState n.key.filterState d)) ∧
      P (.mk n.key n.versions (n.deletedKeys.map (inheritFilterState n.key.filterState))))
    (f : Filter) (hO : O none none ∧ O (some f) none) (hC : ∀ n, P n → C n.key.path) :
    ∀ (steps : Nat) (ctx : IterCtx) (ns : List Node), ctx.filter = f → ctx.getModified = gm → S ctx.state →
      (∀ n ∈ ctx.stack, P n) → collect (nextPre env) steps ctx = some (.ok ns) → ∀ n ∈ ns, P n := by
  have hstep : ∀ (ctx : IterCtx) (node : Node) (on : Option Node) (ctx' : IterCtx),
      ctx.filter = f → ctx.getModified = gm → S ctx.state → (∀ n ∈ ctx.stack, P n) → P node →
      preStep env ctx node = .ok (on, ctx') →
      ctx'.filter = f ∧ ctx'.getModified = gm ∧ S ctx'.state ∧ (∀ n ∈ ctx'.stack, P n) ∧
        ∀ n, on = some n → P n := by
    intro ctx node on ctx' hfi hgm hst hs hn h
    unfold preStep at h
    cases hp : pushKids env ctx node with
    | err => rw [hp] at h; cases h
    | panic => rw [hp] at h; cases h
    | ok x =>
      obtain ⟨node', ctx1⟩ := x
      obtain ⟨h1, h2, h3, h4, h5⟩ :=
        pushKids_all env P S gm O C hS hread hfs hbk ctx ctx1 node node' f hfi hO hC hgm hn hs hst hp
      rw [hp] at h
      simp only at h
      obtain ⟨hd1, hd2⟩ := hdel node' h1
      have hstack : ∀ n ∈ (node'.deletedKeys.map (inheritFilterState node'.key.filterState)).reverse
          ++ ctx1.stack, P n := by
        intro n hn
        rcases List.mem_append.1 hn with hn | hn
        · obtain ⟨d, hd, rfl⟩ := List.mem_map.1 (List.mem_reverse.1 hn)
          exact hd1 d hd
        · exact h2 n hn
      by_cases hc : ((pushDeleted node' ctx1).2.includeAncestors ||
          !(pushDeleted node' ctx1).2.filter.isValid ||
          (pushDeleted node' ctx1).1.key.isFilterMatchOrDescendent) = true
      · rw [if_pos hc] at h
        cases h
        exact ⟨h5, h3, h4, hstack, fun n e => by cases e; exact hd2⟩
      · rw [if_neg hc] at h
        cases h
        exact ⟨h5, h3, h4, hstack, fun n e => by cases e⟩
  have hnext : ∀ (fuel : Nat) (ctx : IterCtx) (on : Option Node) (ctx' : IterCtx),
      ctx.filter = f → ctx.getModified = gm → S ctx.state → (∀ n ∈ ctx.stack, P n) →
      nextPre env fuel ctx = some (.ok (on, ctx')) →
      ctx'.filter = f ∧ ctx'.getModified = gm ∧ S ctx'.state ∧ (∀ n ∈ ctx'.stack, P n) ∧
        ∀ n, on = some n → P n := by
    intro fuel
    induction fuel with
    | zero => intro ctx on ctx' _ _ _ _ h; cases h
    | succ fuel ih =>
      intro ctx on ctx' hfi hgm hst' hs h
      rw [nextPre] at h
      cases hst : ctx.stack with
      | nil =>
        rw [hst] at h
        cases h
        exact ⟨hfi, hgm, hst', hs, fun n e => by cases e⟩
      | cons node rest =>
        rw [hst] at h hs
        simp only at h
        cases hp : preStep env { ctx with stack := rest } node with
        | err => rw [hp] at h; cases h
        | panic => rw [hp] at h; cases h
        | ok x =>
          obtain ⟨on1, ctx1⟩ := x
          obtain ⟨h0, h1, h4, h2, h3⟩ := hstep { ctx with stack := rest } node on1 ctx1 hfi hgm hst'
            (fun n hn => hs n (List.mem_cons_of_mem _ hn)) (hs node List.mem_cons_self) hp
          rw [hp] at h
          cases on1 with
          | none => exact ih ctx1 on ctx' h0 h1 h4 h2 h
          | some n => cases h; exact ⟨h0, h1, h4, h2, h3⟩
  intro steps
  induction steps with
  | zero => intro ctx ns _ _ _ _ h; cases h
  | succ steps ih =>
    intro ctx ns hfi hgm hst hs h
    rw [collect] at h
    cases hn : nextPre env (steps + 1) ctx with
    | none => rw [hn] at h; cases h
    | some x =>
      cases x with
      | err => rw [hn] at h; cases h
      | panic => rw [hn] at h; cases h
      | ok y =>
        obtain ⟨on, ctx1⟩ := y
        rw [hn] at h
        obtain ⟨h0, h1, h4, h2, h3⟩ := hnext _ _ _ _ hfi hgm hst hs hn
        cases on with
        | none => cases h; intro n hn; cases hn
        | some n =>
          simp only at h
          cases hc : collect (nextPre env) steps ctx1 with
          | none => rw [hc] at h; cases h
          | some z =>
            cases z with
            | err => rw [hc] at h; cases h
            | panic => rw [hc] at h; cases h
            | ok ns' =>
              rw [hc] at h
              cases h
              intro m hm
              rcases List.mem_cons.1 hm with rfl | hm
              · exact h3 _ rfl
              · exact ih ctx1 ns' h0 h1 h4 h2 hc m hm

/-! ### Keys as they are in the file -/

/-- The value is stored in the file at its offset. -/
def LiveValue (env : Env) (v : Value) : Prop :=
  ∃ kv r, KeyValue.fromBytes (env.fi.buffer.drop v.val.fileOffset) v.val.fileOffset none = .ok (kv, r) ∧
    v.val.name = kv.name ∧ v.val.hash = (kv.readValueBytes env.hashFn env.fi).hash

/-- The key is stored in the file at its offset, under some parent path, and so are its values. -/
def LiveKey (env : Env) (n : Node) : Prop :=
  (∃ path k r, KeyNode.fromBytes env.hashFn (env.fi.buffer.drop n.key.fileOffset) n.key.fileOffset path
      none = .ok (k, r) ∧ n.key.path = path ++ '\\' :: k.name ∧ n.key.name = k.name ∧
      n.key.hash = k.hash) ∧
  (∀ v ∈ n.key.values, LiveValue env v) ∧ n.deletedKeys = []

theorem keyNode_seq (hashFn : Bytes → Bytes) (bs : Bytes) (off : Nat) (path path' : Str)
    (seq seq' : Option Nat) (k : KeyNode) (r : Bytes)
    (h : KeyNode.fromBytes hashFn bs off path seq = .ok (k, r)) :
    KeyNode.fromBytes hashFn bs off path' seq' =
      .ok ({ k with path := path' ++ '\\' :: k.name, seq := seq' }, r) := by
  rcases keyNode_cases hashFn bs off path seq with ⟨hy, n, l, hs, hp⟩ | ⟨_, hp⟩
  · rcases keyNode_cases hashFn bs off path' seq' with ⟨_, n', l', hs', hp'⟩ | ⟨hn, _⟩
    · rw [hs] at hs'
      cases hs'
      rw [h] at hp
      cases hp
      rw [hp']
      rfl
    · exact absurd hy hn
  · rw [h] at hp; cases hp

theorem keyValue_seq (bs : Bytes) (off : Nat) (seq seq' : Option Nat) (kv : KeyValue) (r : Bytes)
    (h : KeyValue.fromBytes bs off seq = .ok (kv, r)) :
    KeyValue.fromBytes bs off seq' = .ok ({ kv with seq := seq' }, r) := by
  rcases keyValue_cases bs off seq with ⟨hy, n, l, hs, hp⟩ | ⟨_, hp⟩
  · rcases keyValue_cases bs off seq' with ⟨_, n', l', hs', hp'⟩ | ⟨hn, _⟩
    · rw [hs] at hs'
      cases hs'
      rw [h] at hp
      cases hp
      rw [hp']
      rfl
    · exact absurd hy hn
  · rw [h] at hp; cases hp

theorem keyValue_off (bs : Bytes) (off : Nat) (seq : Option Nat) (kv : KeyValue) (r : Bytes)
    (h : KeyValue.fromBytes bs off seq = .ok (kv, r)) : kv.fileOffset = off := by
  rcases keyValue_cases bs off seq with ⟨_, n, l, _, hp⟩ | ⟨_, hp⟩
  · rw [h] at hp; cases hp; rfl
  · rw [h] at hp; cases hp

theorem readValuesLoop_live (env : Env) (seq : Option Nat) (offs : List Nat) (acc : List Value)
    (logs : Logs) (vs : List Value) (lg : Logs) (b : Bool)
    (h : readValuesLoop env seq offs acc logs = .ok (vs, lg, b)) (ha : ∀ v ∈ acc, LiveValue env v) :
    ∀ v ∈ vs, LiveValue env v := by
  induction offs generalizing acc with
  | nil => rw [readValuesLoop] at h; cases h; exact ha
  | cons o os ih =>
    rw [readValuesLoop] at h
    split at h
    · cases hk : KeyValue.fromBytes (env.fi.buffer.drop (o + env.fi.hbin)) (o + env.fi.hbin) seq with
      | panic => rw [hk] at h; cases h
      | err => rw [hk] at h; cases h; exact ha
      | ok x =>
        obtain ⟨kv, r⟩ := x
        rw [hk] at h
        refine ih _ h ?_
        intro v hv
        rcases List.mem_append.1 hv with hv | hv
        · exact ha v hv
        · rw [List.mem_singleton.1 hv]
          have ho := keyValue_off _ _ _ _ _ hk
          have e := keyValue_seq _ _ _ none _ _ hk
          rw [← ho] at e
          exact ⟨{ kv with seq := none }, r, e, rfl, rfl⟩
    · cases h; exact ha

theorem readValues_live (env : Env) (k : KeyNode) (seq : Option Nat) (k' : KeyNode) (b : Bool)
    (hk : k.values = []) (h : k.readValues env seq = .ok (k', b)) :
    ∀ v ∈ k'.values, LiveValue env v := by
  unfold KeyNode.readValues at h
  split at h
  · split at h
    · cases h; intro v hv; simp only at hv; rw [hk] at hv; cases hv
    · split at h
      · cases h; intro v hv; cases hv
      · split at h
        · rename_i hl
          cases h
          exact readValuesLoop_live env seq _ [] _ _ _ _ hl (fun v hv => by cases hv)
        · cases h
        · cases h
  · cases h; intro v hv; rw [hk] at hv; cases hv

theorem valuesStep_live (env : Env) (o : ReadOptions) (flags : FilterFlags) (k k' : KeyNode)
    (hk : k.values = []) (h : valuesStep env o flags k = .ok k') :
    ∀ v ∈ k'.values, LiveValue env v := by
  unfold valuesStep at h
  split at h
  · cases hr : k.readValues env o.seq with
    | err => rw [hr] at h; cases h
    | panic => rw [hr] at h; cases h
    | ok x =>
      obtain ⟨k1, b⟩ := x
      have := readValues_live env k o.seq k1 b hk hr
      rw [hr] at h
      cases b with
      | true => cases h; exact this
      | false => cases h; exact this
  · cases h; intro v hv; rw [hk] at hv; cases hv

/-- Nothing is recorded under the path. -/
def NothingAt (st : State) (path : Str) : Prop :=
  (st.deletedKeys path).getD [] = [] ∧ (st.deletedValues path).getD [] = []

theorem updateModifiedLists_live (env : Env) (st : State) (fuel : Nat) (k : KeyNode) (n : Node)
    (h0 : NothingAt st (if k.isKeyRoot then [] else k.path)) (hk : LiveKey env (.mk k [] []))
    (h : updateModifiedLists st fuel (.mk k [] []) = .ok n) : LiveKey env n := by
  cases fuel with
  | zero => simp [updateModifiedLists] at h
  | succ fuel =>
    rw [updateModifiedLists] at h
    simp only at h
    split at h
    · cases h; exact hk
    · have hp : ∃ p, (if (Node.mk k [] []).key.isKeyRoot = true then [] else (Node.mk k [] []).key.path) = p ∧
          NothingAt st p := by
        exact ⟨_, rfl, h0⟩
      obtain ⟨p, hpe, hpn, hpv⟩ := hp
      rw [hpe] at h
      have hdel : updateModifiedLists.attachDeleted (updateModifiedLists st fuel)
          (Node.mk k [] []).key.fileOffset (Node.mk k [] []).deletedKeys (st.deletedKeys p) = .ok [] := by
        cases hd : st.deletedKeys p with
        | none => rfl
        | some l => rw [hd] at hpn; simp only [Option.getD_some] at hpn; rw [hpn]; rfl
      rw [hdel] at h
      simp only at h
      cases h
      refine ⟨hk.1, ?_, rfl⟩
      have hvals : ∀ v ∈ k.values.map (attachVersions st p), LiveValue env v := by
        intro v hv
        obtain ⟨w, hw, rfl⟩ := List.mem_map.1 hv
        have := hk.2.1 w hw
        unfold attachVersions
        split
        · exact this
        · exact this
      have hend : ∀ o : Option (List Value), o.getD [] = [] →
          ∀ v ∈ (match o with
            | some dv => k.values.map (attachVersions st p) ++
                dv.mergeSort fun a b => strLe a.val.name b.val.name
            | none => k.values.map (attachVersions st p)), LiveValue env v := by
        intro o ho
        cases o with
        | none => exact hvals
        | some l =>
          simp only [Option.getD_some] at ho
          subst ho
          intro v hv
          simp only [List.mergeSort_nil, List.append_nil] at hv
          exact hvals v hv
      exact hend _ hpv

/-- A key read without recorded items, or in a state with nothing recorded where it looks. -/
theorem readKey_live (env : Env) (st : State) (o : ReadOptions) (n : Node) (ro : Nat)
    (h : readKey env st o = .ok (some n, ro))
    (hgm : o.getModified = true →
      NothingAt st (if n.key.isKeyRoot then [] else n.key.path)) : LiveKey env n := by
  unfold readKey getFrom at h
  split at h
  · cases h
  · rename_i slice hg
    split at hg
    case isFalse => cases hg
    case isTrue hle =>
    cases hg
    unfold readFromSlice at h
    cases hk : KeyNode.fromBytes env.hashFn (env.fi.buffer.drop o.offset) o.offset o.curPath o.seq with
    | err => rw [hk] at h; cases h
    | panic => rw [hk] at h; cases h
    | ok x =>
      obtain ⟨k, r⟩ := x
      obtain ⟨hfr, hoff, nm, hnm, hpath⟩ := fromBytes_fresh _ _ _ _ _ _ _ hk
      rw [hk] at h
      simp only at h
      cases hf : filterStep st o.filter k with
      | err => rw [hf] at h; cases h
      | panic => rw [hf] at h; cases h
      | ok x =>
        obtain ⟨flags, ro'⟩ := x
        rw [hf] at h
        simp only at h
        by_cases hno : flags = .noMatch
        · rw [if_pos hno] at h; cases h
        · rw [if_neg hno] at h
          obtain ⟨vs, lg, hv⟩ := valuesStep_ok env o flags k
          have hlv := valuesStep_live env o flags k _ hfr.2.2.2.2.2.2.1 hv
          rw [hv] at h
          simp only at h
          cases hfi : finishStep env st o flags { k with values := vs, logs := lg } with
          | err => rw [hfi] at h; cases h
          | panic => rw [hfi] at h; cases h
          | ok m =>
            rw [hfi] at h
            cases h
            have hlive : ∀ fs, LiveKey env (.mk { k with values := vs, logs := lg, filterState := fs } [] []) := by
              intro fs
              refine ⟨⟨o.curPath, { k with path := o.curPath ++ '\\' :: k.name, seq := none }, r, ?_, ?_, rfl, rfl⟩, hlv, rfl⟩
              · have e := keyNode_seq _ _ _ _ o.curPath _ none _ _ hk
                rw [← hoff] at e
                exact e
              · show k.path = _
                rw [hpath, hnm]
            have hfin : ∀ k0 : KeyNode, LiveKey env (.mk k0 [] []) → k0.path = k.path →
                (if o.getModified = true then updateModifiedLists st env.depth (.mk k0 [] [])
                  else .ok (.mk k0 [] [])) = .ok n → LiveKey env n := by
              intro k0 hl hp0 h3
              by_cases hg : o.getModified = true
              · rw [if_pos hg] at h3
                have hkey := updateModifiedLists_key _ _ _ _ h3
                have hnp : n.key.path = k0.path := by rw [hkey]; rfl
                have hnr : n.key.isKeyRoot = k0.isKeyRoot := by rw [hkey]; rfl
                have hq := hgm hg
                rw [hnp, hnr] at hq
                exact updateModifiedLists_live env st _ k0 n hq hl h3
              · rw [if_neg hg] at h3
                cases h3
                exact hl
            unfold finishStep at hfi
            simp only at hfi
            by_cases hm : flags = .keyMatch
            · rw [if_pos hm] at hfi
              exact hfin _ (hlive (some .Exact)) rfl hfi
            · rw [if_neg hm] at hfi
              exact hfin _ (hlive k.filterState) rfl hfi

/-- Every key an iteration yields is in the file, if it leaves the recorded items out or there are
none. -/
theorem collect_live (env : Env) (steps : Nat) (ctx : IterCtx) (ns : List Node)
    (hgm : ctx.getModified = true → ∀ path, NothingAt ctx.state path)
    (hs : ∀ n ∈ ctx.stack, LiveKey env n)
    (h : collect (nextPre env) steps ctx = some (.ok ns)) : ∀ n ∈ ns, LiveKey env n := by
  refine collect_all env (LiveKey env)
    (fun st => ctx.getModified = true → ∀ path, NothingAt st path) ctx.getModified
    (fun _ _ => True) (fun _ => True) (fun st ro h => h) ?_ ?_ ?_ ?_ ctx.filter ⟨trivial, trivial⟩
    (fun _ _ => trivial) steps ctx ns rfl rfl hgm hs h
  · intro st o n ro hst ho _ _ hr
    exact readKey_live env st o n ro hr (fun hg => hst (ho ▸ hg) _)
  · intro n sm v hn; cases n; exact hn
  · intro n lg so tr hn; cases n; exact hn
  · intro n hn
    refine ⟨(by intro d hd; rw [hn.2.2] at hd; cases hd), hn.1, hn.2.1, ?_⟩
    show n.deletedKeys.map _ = []
    rw [hn.2.2]
    rfl

end Notatin
