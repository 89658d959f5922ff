import Verif.Props.Reach
/-
What is recorded as deleted or changed does not change which keys in use are listed, nor what they say.
-/
namespace Notatin
open Spec

/-- What a key in use says of itself: all its fields, and the values that are in use. -/
def Spec.inUse (n : Node) : KeyNode × List KeyValue :=
  ({ n.key with values := [] }, (n.key.values.map (·.val)).filter fun v => decide (v.cellState = .Allocated))

/-- A key with things recorded about it, and the same key without. -/
structure Like (a b : Node) : Prop where
  same : inUse a = inUse b
  live : a.key.cellState = .Allocated
  dels : DelOk a
  plain : b.deletedKeys = []

/-- Two lists of the same keys. -/
inductive Pairs : List Node → List Node → Prop where
  | nil : Pairs [] []
  | cons {a b as bs} : Like a b → Pairs as bs → Pairs (a :: as) (b :: bs)

theorem Pairs.length_eq {as bs : List Node} (h : Pairs as bs) : as.length = bs.length := by
  induction h with
  | nil => rfl
  | cons _ _ ih => rw [List.length_cons, List.length_cons, ih]

theorem inUse_key {a b : Node} (h : inUse a = inUse b) (g : KeyNode → KeyNode)
    (hg : ∀ k vs, { g k with values := vs } = g { k with values := vs }) (hv : ∀ k, (g k).values = k.values) :
    inUse (a.setKey (g a.key)) = inUse (b.setKey (g b.key)) := by
  obtain ⟨ka, va, da⟩ := a
  obtain ⟨kb, vb, db⟩ := b
  simp only [inUse, Node.setKey, Node.key, Prod.mk.injEq] at h ⊢
  rw [hg, hg, hv, hv]
  exact ⟨congrArg g h.1, h.2⟩

theorem like_field {a b : Node} (h : inUse a = inUse b) {β : Type} (g : KeyNode → β)
    (hg : ∀ k, g { k with values := [] } = g k) : g a.key = g b.key := by
  have := congrArg (fun x => g x.1) h
  simp only [inUse] at this
  rw [hg, hg] at this
  exact this

theorem setKey_key (n : Node) (k : KeyNode) : (n.setKey k).key = k := by cases n; rfl

theorem setKey_deletedKeys (n : Node) (k : KeyNode) : (n.setKey k).deletedKeys = n.deletedKeys := by cases n; rfl

theorem Like.set {a b : Node} (h : Like a b) (g : KeyNode → KeyNode)
    (hg : ∀ k vs, { g k with values := vs } = g { k with values := vs }) (hv : ∀ k, (g k).values = k.values)
    (hc : ∀ k, (g k).cellState = k.cellState) : Like (a.setKey (g a.key)) (b.setKey (g b.key)) := by
  refine ⟨inUse_key h.same g hg hv, ?_, ?_, ?_⟩
  · rw [setKey_key, hc]; exact h.live
  · intro d hd
    rw [setKey_deletedKeys] at hd
    exact h.dels d hd
  · rw [setKey_deletedKeys]; exact h.plain

/-- Attaching adds only things that are not in use. -/
theorem attach_inUse (st : State) (hst : RecordedDeleted st) (fuel : Nat) (n m : Node)
    (h : updateModifiedLists st fuel n = .ok m) : inUse m = inUse n := by
  cases fuel with
  | zero => simp [updateModifiedLists] at h
  | succ fuel =>
    rw [updateModifiedLists] at h
    simp only at h
    split at h
    · cases h; rfl
    · split at h
      · cases h
      · cases h
      · cases h
        have hmap : ∀ p, (n.key.values.map (attachVersions st p)).map (·.val) = n.key.values.map (·.val) := by
          intro p
          rw [List.map_map]
          refine List.map_congr_left fun v _ => ?_
          simp only [Function.comp]
          unfold attachVersions
          split <;> rfl
        have hend : ∀ (p : Str) (o : Option (List Value)), st.deletedValues p = o →
            (((match o with
              | some dv => n.key.values.map (attachVersions st p) ++
                  dv.mergeSort fun a b => strLe a.val.name b.val.name
              | none => n.key.values.map (attachVersions st p)) : List Value).map (·.val)).filter
                (fun v => decide (v.cellState = .Allocated)) =
              (n.key.values.map (·.val)).filter fun v => decide (v.cellState = .Allocated) := by
          intro p o hd
          cases o with
          | none => simp only [hmap]
          | some dv =>
            simp only
            rw [List.map_append, List.filter_append, hmap]
            have : ((dv.mergeSort fun a b => strLe a.val.name b.val.name).map (·.val)).filter
                (fun v => decide (v.cellState = .Allocated)) = [] := by
              rw [List.filter_eq_nil_iff]
              intro v hv
              obtain ⟨x, hx, rfl⟩ := List.mem_map.1 hv
              simpa using hst.2 _ _ hd x (List.mem_mergeSort.1 hx)
            rw [this, List.append_nil]
        simp only [inUse, Node.key, Prod.mk.injEq]
        exact ⟨trivial, hend _ _ rfl⟩

theorem plain_recorded {st : State} (h : st.Plain) : RecordedDeleted st := by
  constructor
  · intro p ds hp
    rw [h.1 p] at hp
    cases hp
  · intro p vs hp
    rw [h.2.2.1 p] at hp
    cases hp

theorem attach_plain (st : State) (h : st.Plain) (fuel : Nat) (n : Node) (hn : n.deletedKeys = []) (hf : fuel ≠ 0) :
    ∃ m, updateModifiedLists st fuel n = .ok m ∧ m.deletedKeys = [] := by
  cases fuel with
  | zero => exact absurd rfl hf
  | succ fuel =>
    rw [updateModifiedLists]
    simp only
    split
    · exact ⟨n, rfl, hn⟩
    · rw [h.1]
      simp only [updateModifiedLists.attachDeleted]
      exact ⟨_, rfl, hn⟩

/-- Two states, one with things on record and one without. -/
structure Beside (st st' : State) : Prop where
  onrec : RecordedDeleted st
  plain : st'.Plain
  ro : st.rootOffset = st'.rootOffset

theorem Beside.at {st st' : State} (h : Beside st st') (ro : Nat) :
    Beside { st with rootOffset := ro } { st' with rootOffset := ro } := ⟨h.onrec, h.plain, rfl⟩

theorem readKey_beside (env : Env) {st st' : State} (hs : Beside st st') (o : ReadOptions) :
    (readKey env st o = .err → readKey env st' o = .err) ∧
    (∀ ro, readKey env st o = .ok (none, ro) → readKey env st' o = .ok (none, ro)) ∧
    ∀ n ro, readKey env st o = .ok (some n, ro) → ∃ m, readKey env st' o = .ok (some m, ro) ∧ Like n m := by
  have hlive : ∀ n ro, readKey env st o = .ok (some n, ro) → n.key.cellState = .Allocated ∧ DelOk n := by
    intro n ro h
    exact ⟨(readKey_some env st o n ro h).2.2.1, (readKey_cell_del env st o n ro hs.onrec.1 h).1⟩
  unfold readKey at hlive ⊢
  cases hg : getFrom env.fi.buffer o.offset with
  | none => exact ⟨fun _ => rfl, nofun, nofun⟩
  | some slice =>
    rw [hg] at hlive
    simp only at hlive ⊢
    unfold readFromSlice at hlive ⊢
    cases hk : KeyNode.fromBytes env.hashFn slice o.offset o.curPath o.seq with
    | err => exact ⟨fun _ => rfl, nofun, nofun⟩
    | panic => exact ⟨nofun, nofun, nofun⟩
    | ok x =>
      obtain ⟨k, r⟩ := x
      rw [hk] at hlive
      simp only at hlive ⊢
      have hfs : filterStep st' o.filter k = filterStep st o.filter k := by
        unfold filterStep
        rw [hs.ro]
      rw [hfs]
      cases hf : filterStep st o.filter k with
      | err => exact ⟨fun _ => rfl, nofun, nofun⟩
      | panic => exact ⟨nofun, nofun, nofun⟩
      | ok y =>
        obtain ⟨flags, ro⟩ := y
        rw [hf] at hlive
        simp only at hlive ⊢
        by_cases hm : flags = .noMatch
        · rw [if_pos hm, if_pos hm]
          exact ⟨nofun, fun _ h => h, nofun⟩
        · rw [if_neg hm] at hlive
          rw [if_neg hm, if_neg hm]
          cases hv : valuesStep env o flags k with
          | err => exact ⟨fun _ => rfl, nofun, nofun⟩
          | panic => exact ⟨nofun, nofun, nofun⟩
          | ok k1 =>
            rw [hv] at hlive
            simp only at hlive ⊢
            cases hfin : finishStep env st o flags k1 with
            | panic => exact ⟨nofun, nofun, nofun⟩
            | err =>
              exfalso
              unfold finishStep at hfin
              simp only at hfin
              split at hfin
              · exact updateModifiedLists_no_err _ _ _ hfin
              · cases hfin
            | ok n =>
              rw [hfin] at hlive
              simp only at hlive ⊢
              refine ⟨nofun, nofun, ?_⟩
              intro n1 ro1 h
              cases h
              obtain ⟨l1, l2⟩ := hlive n ro rfl
              unfold finishStep at hfin ⊢
              simp only at hfin ⊢
              generalize (if flags = .keyMatch then { k1 with filterState := some .Exact } else k1) = k2 at hfin ⊢
              cases hgm : o.getModified with
              | false =>
                rw [hgm] at hfin
                simp only [Bool.false_eq_true, if_false] at hfin ⊢
                cases hfin
                exact ⟨_, rfl, rfl, l1, l2, rfl⟩
              | true =>
                rw [hgm] at hfin
                simp only [if_true] at hfin ⊢
                have hd : env.depth ≠ 0 := by
                  intro h0
                  rw [h0] at hfin
                  cases hfin
                obtain ⟨m, hm1, hm2⟩ := attach_plain st' hs.plain env.depth (.mk k2 [] []) rfl hd
                rw [hm1]
                exact ⟨m, rfl, (attach_inUse st hs.onrec _ _ _ hfin).trans
                  (attach_inUse st' (plain_recorded hs.plain) _ _ _ hm1).symm, l1, l2, hm2⟩

theorem loop_beside (env : Env) {st st' : State} (hs : Beside st st') (path : Str) (f : Filter) (sf : Option Filter) (sm : Bool)
    (seq : Option Nat) (gm : Bool) : ∀ (offs : List Nat) (ro : Nat) (lg : Logs) ns fd lg1 ro1,
    readSubKeysLoop env st path f sf sm seq gm offs ro lg = .ok (ns, fd, lg1, ro1) →
    ∃ ms, readSubKeysLoop env st' path f sf sm seq gm offs ro lg = .ok (ms, fd, lg1, ro1) ∧ Pairs ns ms := by
  intro offs
  induction offs with
  | nil => intro ro lg ns fd lg1 ro1 h; cases h; exact ⟨[], rfl, .nil⟩
  | cons off offs ih =>
    intro ro lg ns fd lg1 ro1 h
    rw [readSubKeysLoop] at h ⊢
    obtain ⟨h1, h2, h3⟩ := readKey_beside env (hs.at ro) ⟨off, path, sf, sm, seq, gm⟩
    cases hr : readKey env { st with rootOffset := ro } ⟨off, path, sf, sm, seq, gm⟩ with
    | panic => rw [hr] at h; cases h
    | err =>
      rw [hr] at h
      rw [h1 hr]
      exact ih _ _ _ _ _ _ h
    | ok x =>
      obtain ⟨x, ro2⟩ := x
      cases x with
      | none =>
        rw [hr] at h
        rw [h2 ro2 hr]
        exact ih _ _ _ _ _ _ h
      | some n =>
        rw [hr] at h
        obtain ⟨m, hm, hl⟩ := h3 n ro2 hr
        rw [hm]
        simp only at h ⊢
        cases hloop : readSubKeysLoop env st path f sf sm seq gm offs ro2 lg with
        | panic => rw [hloop] at h; cases h
        | err => rw [hloop] at h; cases h
        | ok y =>
          obtain ⟨ns2, fd2, lg2, ro3⟩ := y
          rw [hloop] at h
          cases h
          obtain ⟨ms, hms, hall⟩ := ih _ _ _ _ _ _ hloop
          rw [hms]
          have e : n.key.filterState = m.key.filterState := like_field hl.same (·.filterState) (fun _ => rfl)
          refine ⟨m.setKey { m.key with filterState := childFilterState sm f.isValid m.key.filterState } :: ms, ?_, ?_⟩
          · simp only [e]
          · refine .cons ?_ hall
            exact hl.set (fun k => { k with filterState := childFilterState sm f.isValid k.filterState }) (fun _ _ => rfl)
              (fun _ => rfl) (fun _ => rfl)

theorem subKeys_beside (env : Env) {st st' : State} (hs : Beside st st') (f : Filter) (gm : Bool) {a b : Node} (hl : Like a b)
    (r : SubKeysResult) (h : readSubKeysInternal env st a f none gm = .ok r) :
    ∃ r', readSubKeysInternal env st' b f none gm = .ok r' ∧ Pairs r.children r'.children ∧ Like r.self r'.self ∧
      r'.rootOffset = r.rootOffset ∧ r'.found = r.found := by
  have e1 : a.key.cellState = b.key.cellState := like_field hl.same (·.cellState) (fun _ => rfl)
  have e2 : a.key.nSubKeys = b.key.nSubKeys := like_field hl.same (·.nSubKeys) (fun _ => rfl)
  have e3 : a.key.subKeysListOffset = b.key.subKeysListOffset := like_field hl.same (·.subKeysListOffset) (fun _ => rfl)
  have e4 : a.key.isFilterMatchOrDescendent = b.key.isFilterMatchOrDescendent :=
    like_field hl.same (·.isFilterMatchOrDescendent) (fun _ => rfl)
  have e5 : a.key.path = b.key.path := like_field hl.same (·.path) (fun _ => rfl)
  have e6 : a.key.logs = b.key.logs := like_field hl.same (·.logs) (fun _ => rfl)
  have hw : Like (a.setKey { a.key with logs := a.key.logs.add .WarningParse })
      (b.setKey { b.key with logs := b.key.logs.add .WarningParse }) :=
    hl.set (fun k => { k with logs := k.logs.add .WarningParse }) (fun _ _ => rfl) (fun _ => rfl) (fun _ => rfl)
  unfold readSubKeysInternal at h ⊢
  simp only at h ⊢
  have hlb : b.key.cellState = .Allocated := by rw [← e1]; exact hl.live
  rw [if_pos hl.live] at h
  rw [if_pos hlb]
  by_cases hbig : a.key.nSubKeys > 1024 * 1024
  · rw [if_pos hbig] at h
    rw [if_pos (by rw [← e2]; exact hbig)]
    cases h
    exact ⟨_, rfl, .nil, hw, hs.ro.symm, rfl⟩
  · rw [if_neg hbig] at h
    rw [if_neg (by rw [← e2]; exact hbig)]
    by_cases h0 : 0 < a.key.nSubKeys
    · rw [if_pos h0] at h
      rw [if_pos (by rw [← e2]; exact h0)]
      cases hp : parseSubKeyList env.fi env.depth a.key.subKeysListOffset with
      | panic => rw [hp] at h; cases h
      | err =>
        rw [hp] at h
        rw [e3] at hp
        rw [hp]
        cases h
        exact ⟨_, rfl, .nil, hw, hs.ro.symm, rfl⟩
      | ok offs =>
        rw [hp] at h
        rw [e3] at hp
        rw [hp]
        simp only at h ⊢
        split at h
        · rename_i ms fd lg ro hloop
          cases h
          obtain ⟨ms', hms, hall⟩ := loop_beside env hs _ _ _ _ _ _ _ _ _ _ _ _ _ hloop
          rw [e4, e5, e6, hs.ro] at hms
          rw [hms]
          exact ⟨_, rfl, hall, hl.set (fun k => { k with logs := lg, subKeyOffsets := offs }) (fun _ _ => rfl) (fun _ => rfl)
            (fun _ => rfl), rfl, rfl⟩
        · cases h
        · cases h
    · rw [if_neg h0] at h
      rw [if_neg (by rw [← e2]; exact h0)]
      cases h
      exact ⟨_, rfl, .nil, hl, hs.ro.symm, rfl⟩

/-- Two answers of a lookup: none, or the same key. -/
def Answers (x y : Option Node) : Prop := (x = none ∧ y = none) ∨ ∃ n m, x = some n ∧ y = some m ∧ Like n m

theorem Pairs.head {as bs : List Node} (h : Pairs as bs) : Answers as.head? bs.head? := by
  cases h with
  | nil => exact .inl ⟨rfl, rfl⟩
  | cons h _ => exact .inr ⟨_, _, rfl, rfl, h⟩

theorem goKids_beside {f g : Nat → Node → Res (Option Node × Nat)}
    (hfg : ∀ ro a b x ro1, Like a b → f ro a = .ok (x, ro1) → ∃ y, g ro b = .ok (y, ro1) ∧ Answers x y)
    {as bs : List Node} (h : Pairs as bs) : ∀ ro x ro1, getSubKeyInternal.goKids f ro as = .ok (x, ro1) →
      ∃ y, getSubKeyInternal.goKids g ro bs = .ok (y, ro1) ∧ Answers x y := by
  induction h with
  | nil => intro ro x ro1 h; cases h; exact ⟨none, rfl, .inl ⟨rfl, rfl⟩⟩
  | @cons a b as bs hl _ ih =>
    intro ro x ro1 h
    rw [getSubKeyInternal.goKids] at h ⊢
    cases hf : f ro a with
    | err => rw [hf] at h; cases h
    | panic => rw [hf] at h; cases h
    | ok z =>
      obtain ⟨z, ro2⟩ := z
      rw [hf] at h
      obtain ⟨y, hy, ha⟩ := hfg ro a b z ro2 hl hf
      rw [hy]
      rcases ha with ⟨rfl, rfl⟩ | ⟨n, m, rfl, rfl, hnm⟩
      · exact ih _ _ _ h
      · cases h
        exact ⟨_, rfl, .inr ⟨n, m, rfl, rfl, hnm⟩⟩

theorem getSubKey_beside (env : Env) (f : Filter) : ∀ (fuel : Nat) {st st' : State}, Beside st st' → ∀ {a b : Node}, Like a b →
    ∀ x ro, getSubKeyInternal env f none fuel st a = .ok (x, ro) →
      ∃ y, getSubKeyInternal env f none fuel st' b = .ok (y, ro) ∧ Answers x y := by
  intro fuel
  induction fuel with
  | zero => intro st st' _ a b _ x ro h; cases h
  | succ fuel ih =>
    intro st st' hs a b hl x ro h
    rw [getSubKeyInternal] at h ⊢
    cases hr : readSubKeysInternal env st a f none false with
    | err => rw [hr] at h; cases h
    | panic => rw [hr] at h; cases h
    | ok r =>
      obtain ⟨r', g1, g2, _, g4, g5⟩ := subKeys_beside env hs f false hl r hr
      rw [hr] at h
      rw [g1]
      simp only at h ⊢
      rw [g4, g5]
      by_cases hfd : r.found = true
      · rw [if_pos hfd] at h ⊢
        cases h
        exact ⟨_, rfl, g2.head⟩
      · rw [if_neg hfd] at h ⊢
        exact goKids_beside (fun ro a b x ro1 hab => ih (hs.at ro) hab x ro1) g2 _ _ _ h

theorem getKey_beside (env : Env) {st st' : State} (hs : Beside st st') (off : Int) (path : Str) (hasRoot : Bool) (x : Option Node)
    (ro : Nat) (h : getKey env st off path hasRoot = .ok (x, ro)) :
    ∃ y, getKey env st' off path hasRoot = .ok (y, ro) ∧ Answers x y := by
  have hroot : ∀ r, getRootKey env st off = r → (r = .err → getRootKey env st' off = .err) ∧
      (∀ ro, r = .ok (none, ro) → getRootKey env st' off = .ok (none, ro)) ∧
      ∀ n ro, r = .ok (some n, ro) → ∃ m, getRootKey env st' off = .ok (some m, ro) ∧ Like n m := by
    intro r hr
    subst hr
    unfold getRootKey
    by_cases h0 : off < 0
    · rw [if_pos h0]
      exact ⟨nofun, nofun, nofun⟩
    · rw [if_neg h0, if_neg h0]
      exact readKey_beside env hs _
  obtain ⟨r1, r2, r3⟩ := hroot _ rfl
  unfold getKey at h ⊢
  cases hr : getRootKey env st off with
  | panic => rw [hr] at h; cases h
  | err =>
    rw [hr] at h
    rw [r1 hr]
    cases h
    exact ⟨none, by rw [hs.ro], .inl ⟨rfl, rfl⟩⟩
  | ok z =>
    obtain ⟨z, ro2⟩ := z
    rw [hr] at h
    cases z with
    | none =>
      rw [r2 ro2 hr]
      cases h
      exact ⟨none, rfl, .inl ⟨rfl, rfl⟩⟩
    | some n =>
      obtain ⟨m, hm, hl⟩ := r3 n ro2 hr
      rw [hm]
      simp only at h ⊢
      have ep : n.key.path = m.key.path := like_field hl.same (·.path) (fun _ => rfl)
      unfold getSubKeyByPath at h ⊢
      by_cases hp : lookupPath path hasRoot = []
      · rw [if_pos hp] at h ⊢
        cases h
        exact ⟨_, rfl, .inr ⟨n, m, rfl, rfl, hl⟩⟩
      · rw [if_neg hp] at h ⊢
        rw [← ep]
        exact getSubKey_beside env _ env.depth (hs.at ro2) hl x ro h

/-- Two lists of keys: the same keys in use, and in the first one keys that are not in use in between. -/
inductive Mixed : List Node → List Node → Prop where
  | nil : Mixed [] []
  | both {a b as bs} : Like a b → Mixed as bs → Mixed (a :: as) (b :: bs)
  | del {a as bs} : AllDel a → Mixed as bs → Mixed (a :: as) bs

theorem Mixed.add {l as bs} (hl : ∀ a ∈ l, AllDel a) (h : Mixed as bs) : Mixed (l ++ as) bs := by
  induction l with
  | nil => exact h
  | cons a l ih => exact .del (hl a List.mem_cons_self) (ih fun x hx => hl x (List.mem_cons_of_mem _ hx))

/-- Two iterations side by side. -/
structure CtxMixed (c c' : IterCtx) : Prop where
  state : Beside c.state c'.state
  filter : c.filter = c'.filter
  seen : c.seen = c'.seen
  gm : c.getModified = c'.getModified
  anc : c.includeAncestors = c'.includeAncestors
  stack : Mixed c.stack c'.stack

theorem pushCheck_mixed {c c' : IterCtx} (h : CtxMixed c c') {a b : Node} (hl : Like a b) :
    CtxMixed (c.pushCheck a) (c'.pushCheck b) := by
  have e : a.key.fileOffset = b.key.fileOffset := like_field hl.same (·.fileOffset) (fun _ => rfl)
  unfold IterCtx.pushCheck
  rw [← e, ← h.seen]
  split
  · exact h
  · exact ⟨h.state, h.filter, by rw [h.seen], h.gm, h.anc, .both hl h.stack⟩

theorem foldl_mixed {as bs : List Node} (hl : Pairs as bs) {c c' : IterCtx} (h : CtxMixed c c') :
    CtxMixed (as.reverse.foldl IterCtx.pushCheck c) (bs.reverse.foldl IterCtx.pushCheck c') := by
  rw [List.foldl_reverse, List.foldl_reverse]
  induction hl with
  | nil => exact h
  | cons h1 _ ih => exact pushCheck_mixed ih h1

theorem pushKids_mixed (env : Env) {c c' : IterCtx} (h : CtxMixed c c') {a b : Node} (hl : Like a b) (a1 : Node) (c1 : IterCtx)
    (hk : pushKids env c a = .ok (a1, c1)) :
    ∃ b1 c1', pushKids env c' b = .ok (b1, c1') ∧ Like a1 b1 ∧ CtxMixed c1 c1' := by
  have e2 : a.key.nSubKeys = b.key.nSubKeys := like_field hl.same (·.nSubKeys) (fun _ => rfl)
  unfold pushKids at hk ⊢
  rw [← e2]
  by_cases h0 : 0 < a.key.nSubKeys
  · rw [if_pos h0] at hk ⊢
    cases hr : readSubKeysInternal env c.state a c.filter none c.getModified with
    | err => rw [hr] at hk; cases hk
    | panic => rw [hr] at hk; cases hk
    | ok r =>
      rw [hr] at hk
      cases hk
      obtain ⟨r', g1, g2, g3, g4, _⟩ := subKeys_beside env h.state c.filter c.getModified hl r hr
      rw [h.filter, h.gm] at g1
      rw [g1]
      refine ⟨_, _, rfl, ?_, ?_⟩
      · rw [← g2.length_eq]
        exact g3.set (fun k => { k with toReturn := r.children.length }) (fun _ _ => rfl) (fun _ => rfl) (fun _ => rfl)
      · rw [g4]
        exact foldl_mixed g2 ⟨h.state.at _, h.filter, h.seen, h.gm, h.anc, h.stack⟩
  · rw [if_neg h0] at hk ⊢
    cases hk
    exact ⟨b, c', rfl, hl, h⟩

/-- A key that is not in use adds no keys that are. -/
theorem pushKids_gone (env : Env) {c c' : IterCtx} (h : CtxMixed c c') {a : Node} (ha : AllDel a) (a1 : Node) (c1 : IterCtx)
    (hk : pushKids env c a = .ok (a1, c1)) : AllDel a1 ∧ CtxMixed c1 c' := by
  obtain ⟨d1, d2⟩ := (allDel_iff a).1 ha
  unfold pushKids at hk
  by_cases h0 : 0 < a.key.nSubKeys
  · rw [if_pos h0] at hk
    unfold readSubKeysInternal at hk
    simp only at hk
    rw [if_neg d1] at hk
    cases hk
    refine ⟨(allDel_iff _).2 ⟨?_, ?_⟩, ?_⟩
    · rw [setKey_key]; exact d1
    · intro d hd
      rw [setKey_deletedKeys] at hd
      exact d2 d hd
    · exact ⟨h.state, h.filter, h.seen, h.gm, h.anc, h.stack⟩
  · rw [if_neg h0] at hk
    cases hk
    exact ⟨ha, h⟩

theorem pushDeleted_mixed {c c' : IterCtx} (h : CtxMixed c c') {a b : Node} (hl : Like a b) :
    Like (pushDeleted a c).1 (pushDeleted b c').1 ∧ CtxMixed (pushDeleted a c).2 (pushDeleted b c').2 := by
  have hd : ∀ x ∈ (a.deletedKeys.map (inheritFilterState a.key.filterState)).reverse, AllDel x := by
    intro x hx
    obtain ⟨d, hd, rfl⟩ := List.mem_map.1 (List.mem_reverse.1 hx)
    exact inheritFilterState_allDel _ d (hl.dels d hd)
  unfold pushDeleted
  rw [hl.plain]
  refine ⟨⟨hl.same, hl.live, fun d hx => hd d (List.mem_reverse.2 hx), rfl⟩,
    ⟨h.state, h.filter, h.seen, h.gm, h.anc, Mixed.add hd h.stack⟩⟩

theorem pushDeleted_gone {c c' : IterCtx} (h : CtxMixed c c') {a : Node} (ha : AllDel a) :
    AllDel (pushDeleted a c).1 ∧ CtxMixed (pushDeleted a c).2 c' := by
  obtain ⟨d1, d2⟩ := (allDel_iff a).1 ha
  have hd : ∀ x ∈ a.deletedKeys.map (inheritFilterState a.key.filterState), AllDel x := by
    intro x hx
    obtain ⟨d, hd, rfl⟩ := List.mem_map.1 hx
    exact inheritFilterState_allDel _ d (d2 d hd)
  exact ⟨(allDel_iff _).2 ⟨d1, hd⟩, ⟨h.state, h.filter, h.seen, h.gm, h.anc,
    Mixed.add (fun x hx => hd x (List.mem_reverse.1 hx)) h.stack⟩⟩

/-- What is listed, without counting steps. -/
inductive PreRuns (env : Env) : IterCtx → List Node → Prop where
  | done {c} : c.stack = [] → PreRuns env c []
  | shown {c node rest n c1 ns} : c.stack = node :: rest → preStep env { c with stack := rest } node = .ok (some n, c1) →
      PreRuns env c1 ns → PreRuns env c (n :: ns)
  | hidden {c node rest c1 ns} : c.stack = node :: rest → preStep env { c with stack := rest } node = .ok (none, c1) →
      PreRuns env c1 ns → PreRuns env c ns

theorem pre_nextPre_runs (env : Env) : ∀ (s : Nat) (c : IterCtx), (∀ c1, nextPre env s c = some (.ok (none, c1)) → PreRuns env c []) ∧
    ∀ n c1 ns, nextPre env s c = some (.ok (some n, c1)) → PreRuns env c1 ns → PreRuns env c (n :: ns) := by
  intro s
  induction s with
  | zero => intro c; exact ⟨nofun, nofun⟩
  | succ s ih =>
    intro c
    rw [nextPre]
    cases hs : c.stack with
    | nil =>
      refine ⟨fun c1 h => .done hs, fun n c1 ns h => ?_⟩
      cases h
    | cons node rest =>
      simp only
      cases hp : preStep env { c with stack := rest } node with
      | err => exact ⟨nofun, nofun⟩
      | panic => exact ⟨nofun, nofun⟩
      | ok x =>
        obtain ⟨x, c2⟩ := x
        cases x with
        | none =>
          simp only
          exact ⟨fun c1 h => .hidden hs hp ((ih c2).1 c1 h), fun n c1 ns h hr => .hidden hs hp ((ih c2).2 n c1 ns h hr)⟩
        | some m =>
          simp only
          refine ⟨nofun, fun n c1 ns h hr => ?_⟩
          cases h
          exact .shown hs hp hr

theorem pre_collect_runs (env : Env) : ∀ (s : Nat) (c : IterCtx) (ns : List Node),
    collect (nextPre env) s c = some (.ok ns) → PreRuns env c ns := by
  intro s
  induction s with
  | zero => intro c ns h; cases h
  | succ s ih =>
    intro c ns h
    rw [collect] at h
    split at h
    · cases h
    · cases h
    · cases h
    · rename_i hn
      cases h
      exact (pre_nextPre_runs env _ c).1 _ hn
    · rename_i n c1 hn
      split at h
      · rename_i ms hm
        cases h
        exact (pre_nextPre_runs env _ c).2 n c1 ms hn (ih _ _ hm)
      · rename_i hno
        exact absurd h (hno ns)

theorem pre_nextPre_more (env : Env) : ∀ (s : Nat) (c : IterCtx) r, nextPre env s c = some r → nextPre env (s + 1) c = some r := by
  intro s
  induction s with
  | zero => intro c r h; cases h
  | succ s ih =>
    intro c r h
    rw [nextPre] at h ⊢
    cases hs : c.stack with
    | nil => rw [hs] at h; exact h
    | cons node rest =>
      rw [hs] at h
      simp only at h ⊢
      cases hp : preStep env { c with stack := rest } node with
      | err => rw [hp] at h; exact h
      | panic => rw [hp] at h; exact h
      | ok x =>
        obtain ⟨x, c2⟩ := x
        rw [hp] at h
        cases x with
        | none => exact ih _ _ h
        | some m => exact h

theorem pre_runs_collect (env : Env) {c : IterCtx} {ns : List Node} (h : PreRuns env c ns) :
    ∃ N, ∀ s, N ≤ s → collect (nextPre env) s c = some (.ok ns) := by
  induction h with
  | done hs =>
    refine ⟨1, fun s hle => ?_⟩
    obtain ⟨s, rfl⟩ : ∃ k, s = k + 1 := ⟨s - 1, by omega⟩
    rw [collect, nextPre, hs]
  | shown hs hp _ ih =>
    obtain ⟨N, ih⟩ := ih
    refine ⟨N + 1, fun s hle => ?_⟩
    obtain ⟨s, rfl⟩ : ∃ k, s = k + 1 := ⟨s - 1, by omega⟩
    rw [collect, nextPre, hs]
    simp only [hp]
    rw [ih s (by omega)]
  | @hidden c node rest c1 ns hs hp _ ih =>
    obtain ⟨N, ih⟩ := ih
    refine ⟨N + 2, fun s hle => ?_⟩
    obtain ⟨s, rfl⟩ : ∃ k, s = k + 2 := ⟨s - 2, by omega⟩
    have h1 := ih (s + 1) (by omega)
    have h2 := ih (s + 2) (by omega)
    rw [collect] at h1 h2 ⊢
    have e : nextPre env (s + 1 + 1) c = nextPre env (s + 1) c1 := by
      rw [nextPre, hs]
      simp only [hp]
    rw [e]
    cases hn : nextPre env (s + 1) c1 with
    | none => rw [hn] at h1; cases h1
    | some r =>
      rw [pre_nextPre_more env _ _ _ hn] at h2
      exact h2

/-- The listing with things on record is the listing without, with keys that are not in use in between. -/
theorem pre_runs_mixed (env : Env) {c : IterCtx} {ns : List Node} (h : PreRuns env c ns) : ∀ {c' : IterCtx}, CtxMixed c c' →
    ∃ ms, PreRuns env c' ms ∧ Mixed ns ms := by
  have step : ∀ {c c' : IterCtx} {node rest x c1}, CtxMixed c c' → c.stack = node :: rest →
      preStep env { c with stack := rest } node = .ok (x, c1) →
      (CtxMixed c1 c' ∧ ∀ n, x = some n → AllDel n) ∨
      ∃ node' rest' x' c1', c'.stack = node' :: rest' ∧ preStep env { c' with stack := rest' } node' = .ok (x', c1') ∧
        CtxMixed c1 c1' ∧ ((x = none ∧ x' = none) ∨ ∃ n n', x = some n ∧ x' = some n' ∧ Like n n') := by
    intro c c' node rest x c1 h hs hp
    have hst := h.stack
    rw [hs] at hst
    unfold preStep at hp
    generalize hcs : c'.stack = s' at hst
    cases hst with
    | @both _ b _ bs hl hrest =>
      refine .inr ⟨b, bs, ?_⟩
      have h0 : CtxMixed { c with stack := rest } { c' with stack := bs } := ⟨h.state, h.filter, h.seen, h.gm, h.anc, hrest⟩
      cases hk : pushKids env { c with stack := rest } node with
      | err => rw [hk] at hp; cases hp
      | panic => rw [hk] at hp; cases hp
      | ok y =>
        obtain ⟨n1, c2⟩ := y
        rw [hk] at hp
        simp only at hp
        obtain ⟨b1, c2', k1, k2, k3⟩ := pushKids_mixed env h0 hl n1 c2 hk
        obtain ⟨p1, p2⟩ := pushDeleted_mixed k3 k2
        unfold preStep
        rw [k1]
        simp only
        have ef : (pushDeleted n1 c2).1.key.isFilterMatchOrDescendent = (pushDeleted b1 c2').1.key.isFilterMatchOrDescendent :=
          like_field p1.same (·.isFilterMatchOrDescendent) (fun _ => rfl)
        rw [← p2.anc, ← p2.filter, ← ef]
        by_cases hc : ((pushDeleted n1 c2).2.includeAncestors || !(pushDeleted n1 c2).2.filter.isValid ||
            (pushDeleted n1 c2).1.key.isFilterMatchOrDescendent) = true
        · rw [if_pos hc] at hp ⊢
          cases hp
          exact ⟨_, _, trivial, rfl, p2, .inr ⟨_, _, rfl, rfl, p1⟩⟩
        · rw [if_neg hc] at hp ⊢
          cases hp
          exact ⟨_, _, trivial, rfl, p2, .inl ⟨rfl, rfl⟩⟩
    | del hd hrest =>
      refine .inl ?_
      have h0 : CtxMixed { c with stack := rest } c' := ⟨h.state, h.filter, h.seen, h.gm, h.anc, by rw [hcs]; exact hrest⟩
      cases hk : pushKids env { c with stack := rest } node with
      | err => rw [hk] at hp; cases hp
      | panic => rw [hk] at hp; cases hp
      | ok y =>
        obtain ⟨n1, c2⟩ := y
        rw [hk] at hp
        simp only at hp
        obtain ⟨k2, k3⟩ := pushKids_gone env h0 hd n1 c2 hk
        obtain ⟨p1, p2⟩ := pushDeleted_gone k3 k2
        split at hp
        · cases hp
          exact ⟨p2, fun n hn => by cases hn; exact p1⟩
        · cases hp
          exact ⟨p2, nofun⟩
  induction h with
  | done hs =>
    intro c' h
    have hst := h.stack
    rw [hs] at hst
    generalize hcs : c'.stack = s' at hst
    cases hst
    exact ⟨[], .done hcs, .nil⟩
  | shown hs hp _ ih =>
    intro c' h
    rcases step h hs hp with ⟨h1, h2⟩ | ⟨node', rest', x', c1', g1, g2, g3, g4⟩
    · obtain ⟨ms, hr, hm⟩ := ih h1
      exact ⟨ms, hr, .del (h2 _ rfl) hm⟩
    · rcases g4 with ⟨g4, _⟩ | ⟨n, n', g4, g5, g6⟩
      · cases g4
      · cases g4
        subst g5
        obtain ⟨ms, hr, hm⟩ := ih g3
        exact ⟨n' :: ms, .shown g1 g2 hr, .both g6 hm⟩
  | hidden hs hp _ ih =>
    intro c' h
    rcases step h hs hp with ⟨h1, h2⟩ | ⟨node', rest', x', c1', g1, g2, g3, g4⟩
    · exact ih h1
    · rcases g4 with ⟨_, g5⟩ | ⟨n, n', g4, _⟩
      · subst g5
        obtain ⟨ms, hr, hm⟩ := ih g3
        exact ⟨ms, .hidden g1 g2 hr, hm⟩
      · cases g4

/-- The keys in use among those listed, with what they say. -/
def Spec.keysInUse (ns : List Node) : List (KeyNode × List KeyValue) :=
  (ns.filter fun n => decide (n.key.cellState = .Allocated)).map inUse

theorem Mixed.inUse {ns ms : List Node} (h : Mixed ns ms) : keysInUse ns = ms.map Spec.inUse ∧
    ∀ m ∈ ms, m.key.cellState = .Allocated := by
  induction h with
  | nil => exact ⟨rfl, nofun⟩
  | both hl _ ih =>
    unfold keysInUse at ih ⊢
    rw [List.filter_cons_of_pos (by simpa using hl.live), List.map_cons, List.map_cons, ih.1, hl.same]
    refine ⟨rfl, fun m hm => ?_⟩
    rcases List.mem_cons.1 hm with rfl | hm
    · rw [← like_field hl.same (·.cellState) (fun _ => rfl)]; exact hl.live
    · exact ih.2 m hm
  | del hd _ ih =>
    unfold keysInUse at ih ⊢
    rw [List.filter_cons_of_neg (by simpa using ((allDel_iff _).1 hd).1)]
    exact ih

end Notatin
