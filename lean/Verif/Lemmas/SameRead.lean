import Verif.Lemmas.ReadBack
import Verif.Spec.Compare
/-
With nothing recovered, a key read twice is the same key: its hash and its values depend only on its
place in the file and on its path.
-/
namespace Notatin
open Spec

/-- Nothing is recorded: the state of a hive opened without recovery. -/
def NothingRecorded (st : State) : Prop :=
  (∀ p, st.deletedKeys p = none ∧ st.modifiedKeys p = none ∧ st.deletedValues p = none) ∧
    ∀ q, st.modifiedValues q = none

theorem updateModifiedLists_id {st : State} (h : NothingRecorded st) {fuel : Nat} {k : KeyNode} {n : Node}
    (hu : updateModifiedLists st fuel (.mk k [] []) = .ok n) : n = .mk k [] [] := by
  cases fuel with
  | zero => simp [updateModifiedLists] at hu
  | succ fuel =>
    rw [updateModifiedLists] at hu
    simp only [(h.1 _).1, (h.1 _).2.1, (h.1 _).2.2, updateModifiedLists.attachDeleted] at hu
    split at hu
    · cases hu; rfl
    · have hm : ∀ p, k.values.map (attachVersions st p) = k.values := by
        intro p
        rw [List.map_congr_left (g := id), List.map_id]
        intro v _
        unfold attachVersions
        rw [h.2]
        rfl
      simp only [Node.key, Node.versions, Node.deletedKeys] at hu
      rw [hm] at hu
      cases hu
      rfl

/-- The values of the key stored at some place. -/
def storedValues (env : Env) (k : KeyNode) : List Value :=
  if 0 < k.nValues then
    match k.readValues env none with
    | .ok (k, _) => k.values
    | _ => []
  else []

/-- The node is the key stored at its place, with its values if `full`. -/
def FromCell (env : Env) (full : Prop) (n : Node) : Prop :=
  (∃ path k r, KeyNode.fromBytes env.hashFn (env.fi.buffer.drop n.key.fileOffset) n.key.fileOffset path
      none = .ok (k, r) ∧ n.key.path = path ++ '\\' :: k.name ∧
      (n.key.hash = k.hash ∧ n.key.lastWritten = k.lastWritten ∧ n.key.flagBits = k.flagBits ∧
        n.key.accessBits = k.accessBits) ∧
      (full → n.key.values = storedValues env k)) ∧ n.deletedKeys = []

theorem FromCell.mono {env : Env} {p q : Prop} {n : Node} (h : FromCell env p n) (hq : q → p) :
    FromCell env q n := by
  obtain ⟨⟨path, k, r, h1, h2, h3, h4⟩, h5⟩ := h
  exact ⟨⟨path, k, r, h1, h2, h3, fun h => h4 (hq h)⟩, h5⟩

/-- The same place and the same path: the same key. -/
theorem FromCell.same {env : Env} {p q : Prop} {n m : Node} (hn : FromCell env p n)
    (hm : FromCell env q m) (hp : p) (hq : q) (hoff : n.key.fileOffset = m.key.fileOffset)
    (hpath : n.key.path = m.key.path) : SameEntry n m := by
  obtain ⟨⟨path, k, r, h1, h2, h3, h4⟩, _⟩ := hn
  obtain ⟨⟨path', k', r', g1, g2, g3, g4⟩, _⟩ := hm
  have e := keyNode_seq _ _ _ _ path' _ none _ _ h1
  rw [hoff, g1] at e
  simp only [Res.ok.injEq, Prod.mk.injEq] at e
  obtain ⟨e, _⟩ := e
  have hname : k'.name = k.name := by rw [e]
  have hpp : path = path' := by
    rw [h2, g2, hname] at hpath
    exact List.append_cancel_right hpath
  have hkp : k.path = path ++ '\\' :: k.name := by
    obtain ⟨_, _, nm, hnm, hp⟩ := fromBytes_fresh _ _ _ _ _ _ _ h1
    rw [hp, hnm]
  have hks : k.seq = none := by
    have := keyNode_seq _ _ _ _ path _ none _ _ h1
    rw [h1] at this
    simp only [Res.ok.injEq, Prod.mk.injEq] at this
    rw [this.1]
  have hkk : k' = k := by
    rw [e, ← hpp, ← hkp, ← hks]
  exact ⟨hpath, hoff, by rw [h3.1, g3.1, hkk], by rw [h4 hp, g4 hq, hkk], by rw [h3.2.1, g3.2.1, hkk],
    by rw [h3.2.2.1, g3.2.2.1, hkk], by rw [h3.2.2.2, g3.2.2.2, hkk]⟩

/-- The values are read whatever the filter says. -/
def ValuesWanted (filter : Option Filter) (selfMatch : Bool) : Prop :=
  selfMatch = true ∨ match filter with
    | none => True
    | some f => f.isValid = false

theorem valuesStep_stored (env : Env) (o : ReadOptions) (flags : FilterFlags) (k k' : KeyNode)
    (hseq : o.seq = none) (hk : k.values = [])
    (hr : ValuesWanted o.filter o.selfMatch ∨ flags = .keyMatch)
    (h : valuesStep env o flags k = .ok k') : k'.values = storedValues env k := by
  have hs : shouldReadValues o.filter flags o.selfMatch = true := by
    unfold shouldReadValues
    rcases hr with (h | h) | h
    · rw [h]; rfl
    · cases hf : o.filter with
      | none => simp
      | some f => rw [hf] at h; simp only at h; simp [h]
    · rw [h]; simp
  unfold valuesStep at h
  unfold storedValues
  by_cases hn : 0 < k.nValues
  · rw [if_pos ⟨hn, hs⟩, hseq] at h
    rw [if_pos hn]
    cases hrv : k.readValues env none with
    | err => rw [hrv] at h; cases h
    | panic => rw [hrv] at h; cases h
    | ok x =>
      obtain ⟨k1, b⟩ := x
      rw [hrv] at h
      cases b <;> cases h <;> rfl
  · rw [if_neg (fun h => hn h.1)] at h
    rw [if_neg hn]
    cases h
    exact hk

theorem readKey_stored (env : Env) (st : State) (o : ReadOptions) (n : Node) (ro : Nat)
    (hst : NothingRecorded st) (hseq : o.seq = none)
    (h : readKey env st o = .ok (some n, ro)) :
    FromCell env (ValuesWanted o.filter o.selfMatch ∨ n.key.filterState = some .Exact) n ∧
      n.versions = [] ∧ ∃ name, n.key.path = o.curPath ++ '\\' :: name := by
  unfold readKey getFrom at h
  split at h
  · cases h
  · rename_i slice hg
    split at hg
    case isFalse => cases hg
    case isTrue hle =>
    cases hg
    unfold readFromSlice at h
    cases hk : KeyNode.fromBytes env.hashFn (env.fi.buffer.drop o.offset) o.offset o.curPath o.seq with
    | err => rw [hk] at h; cases h
    | panic => rw [hk] at h; cases h
    | ok x =>
      obtain ⟨k, r⟩ := x
      obtain ⟨hfr, hoff, nm, hnm, hpath⟩ := fromBytes_fresh _ _ _ _ _ _ _ hk
      rw [hk] at h
      simp only at h
      cases hf : filterStep st o.filter k with
      | err => rw [hf] at h; cases h
      | panic => rw [hf] at h; cases h
      | ok x =>
        obtain ⟨flags, ro'⟩ := x
        rw [hf] at h
        simp only at h
        by_cases hno : flags = .noMatch
        · rw [if_pos hno] at h; cases h
        · rw [if_neg hno] at h
          obtain ⟨vs, lg, hv⟩ := valuesStep_ok env o flags k
          have hlv := valuesStep_stored env o flags k _ hseq hfr.2.2.2.2.2.2.1 (h := hv)
          rw [hv] at h
          simp only at h
          cases hfi : finishStep env st o flags { k with values := vs, logs := lg } with
          | err => rw [hfi] at h; cases h
          | panic => rw [hfi] at h; cases h
          | ok m =>
            rw [hfi] at h
            cases h
            have hm : n = .mk { k with
                values := vs
                logs := lg
                filterState := if flags = .keyMatch then some .Exact else none } [] [] := by
              unfold finishStep at hfi
              simp only at hfi
              have e : (if flags = .keyMatch then
                  ({ k with values := vs, logs := lg, filterState := some .Exact } : KeyNode)
                  else { k with values := vs, logs := lg }) = { k with
                    values := vs
                    logs := lg
                    filterState := if flags = .keyMatch then some .Exact else none } := by
                by_cases hm : flags = .keyMatch
                · rw [if_pos hm, if_pos hm]
                · rw [if_neg hm, if_neg hm, ← hfr.1]
              rw [e] at hfi
              by_cases hg : o.getModified = true
              · rw [if_pos hg] at hfi
                exact updateModifiedLists_id hst hfi
              · rw [if_neg hg] at hfi
                cases hfi
                rfl
            rw [hm]
            refine ⟨⟨⟨o.curPath, k, r, ?_, ?_, ⟨rfl, rfl, rfl, rfl⟩, ?_⟩, rfl⟩, rfl, nm, hpath⟩
            · show KeyNode.fromBytes _ (env.fi.buffer.drop k.fileOffset) k.fileOffset _ _ = _
              rw [hoff, ← hseq, hk]
            · show k.path = _
              rw [hpath, hnm]
            · intro hw
              apply hlv
              rcases hw with hw | hw
              · exact .inl hw
              · right
                by_cases hkm : flags = .keyMatch
                · exact hkm
                · exact absurd hw (by simp [Node.key, hkm])

theorem readKey_fromCell (env : Env) (st : State) (o : ReadOptions) (n : Node) (ro : Nat)
    (hst : NothingRecorded st) (hseq : o.seq = none)
    (h : readKey env st o = .ok (some n, ro)) :
    FromCell env (ValuesWanted o.filter o.selfMatch ∨ n.key.filterState = some .Exact) n :=
  (readKey_stored env st o n ro hst hseq h).1

/-- Nothing recorded, and the path begins with a backslash. -/
def PlainPath (n : Node) : Prop :=
  n.versions = [] ∧ n.deletedKeys = [] ∧ ∃ r, n.key.path = '\\' :: r

/-- The keys an iteration yields from a hive with nothing recorded have paths that begin with a
backslash. -/
theorem collect_plainPath (env : Env) (steps : Nat) (ctx : IterCtx) (ns : List Node)
    (hst : NothingRecorded ctx.state) (hs : ∀ n ∈ ctx.stack, PlainPath n)
    (h : collect (nextPre env) steps ctx = some (.ok ns)) : ∀ n ∈ ns, PlainPath n := by
  refine collect_all env PlainPath NothingRecorded ctx.getModified
    (fun _ seq => seq = none) (fun p => ∃ r, p = '\\' :: r)
    (fun st ro h => h) ?_ ?_ ?_ ?_ ctx.filter ⟨rfl, rfl⟩ (fun _ h => h.2.2) steps ctx ns rfl rfl hst hs h
  · intro st o n ro hst _ hO ⟨r, hc⟩ hr
    obtain ⟨h1, h2, name, h3⟩ := readKey_stored env st o n ro hst hO hr
    exact ⟨h2, h1.2, r ++ '\\' :: name, by rw [h3, hc]; rfl⟩
  · intro n sm v hn; cases n; exact hn
  · intro n lg so tr hn; cases n; exact hn
  · intro n hn
    refine ⟨(by intro d hd; rw [hn.2.1] at hd; cases hd), hn.1, ?_, hn.2.2⟩
    show n.deletedKeys.map _ = []
    rw [hn.2.1]
    rfl

/-- The keys an iteration without a filter yields are the stored ones with their values. -/
theorem collect_fromCell (env : Env) (steps : Nat) (ctx : IterCtx) (ns : List Node)
    (hst : NothingRecorded ctx.state) (hfil : ctx.filter.isValid = false)
    (hs : ∀ n ∈ ctx.stack, FromCell env True n)
    (h : collect (nextPre env) steps ctx = some (.ok ns)) : ∀ n ∈ ns, FromCell env True n := by
  refine collect_all env (FromCell env True) NothingRecorded ctx.getModified
    (fun f seq => seq = none ∧ ValuesWanted f false) (fun _ => True)
    (fun st ro h => h) ?_ ?_ ?_ ?_ ctx.filter ⟨⟨rfl, .inr trivial⟩, rfl, .inr hfil⟩ (fun _ _ => trivial) steps ctx ns rfl rfl hst hs h
  · intro st o n ro hst _ hO _ hr
    refine (readKey_fromCell env st o n ro hst hO.1 hr).mono fun _ => .inl ?_
    rcases hO.2 with h | h
    · cases h
    · exact .inr h
  · intro n sm v hn; cases n; exact hn
  · intro n lg so tr hn; cases n; exact hn
  · intro n hn
    refine ⟨(by intro d hd; rw [hn.2] at hd; cases hd), hn.1, ?_⟩
    show n.deletedKeys.map _ = []
    rw [hn.2]
    rfl

/-- What `get_sub_key_internal` finds is a stored key, with its values if it is the one searched. -/
theorem getSubKeyInternal_fromCell (env : Env) (f : Filter) (fuel : Nat) (st : State) (self n : Node)
    (ro : Nat) (hst : NothingRecorded st)
    (h : getSubKeyInternal env f none fuel st self = .ok (some n, ro)) :
    FromCell env (n.key.filterState = some .Exact) n := by
  induction fuel generalizing st self n ro with
  | zero => rw [getSubKeyInternal] at h; cases h
  | succ fuel ih =>
    rw [getSubKeyInternal] at h
    cases hr : readSubKeysInternal env st self f none false with
    | err => rw [hr] at h; cases h
    | panic => rw [hr] at h; cases h
    | ok r =>
      rw [hr] at h
      simp only at h
      have hall := readSubKeysInternal_all env (fun n => FromCell env (n.key.filterState = some .Exact) n)
        NothingRecorded false (fun _ seq => seq = none) (fun _ => True) (fun st ro h => h)
        (fun st o n ro hst _ hO _ hr => (readKey_fromCell env st o n ro hst hO hr).mono .inr)
        (by
          intro n sm v hn
          have hn' := hn
          obtain ⟨⟨path, k, r, h1, h2, h3, h4⟩, h5⟩ := hn
          refine ⟨⟨path, k, r, h1, h2, h3, ?_⟩, h5⟩
          intro hx
          apply h4
          show n.key.filterState = _
          have hx : childFilterState sm v n.key.filterState = some .Exact := hx
          unfold childFilterState at hx
          cases hfs : n.key.filterState with
          | none => rw [hfs] at hx; simp only at hx; split at hx <;> (try split at hx) <;> cases hx
          | some s => rw [hfs] at hx; exact hx)
        st self f none r hst ⟨rfl, rfl⟩ trivial hr
      by_cases hf : r.found = true
      · rw [if_pos hf] at h
        simp only [Res.ok.injEq, Prod.mk.injEq] at h
        exact hall n (List.mem_of_mem_head? h.1)
      · rw [if_neg hf] at h
        have hgo : ∀ (cs : List Node) (ro0 : Nat), getSubKeyInternal.goKids
            (fun ro c => getSubKeyInternal env f none fuel { st with rootOffset := ro } c) ro0 cs
            = .ok (some n, ro) → FromCell env (n.key.filterState = some .Exact) n := by
          intro cs
          induction cs with
          | nil => intro ro0 h; rw [getSubKeyInternal.goKids] at h; cases h
          | cons c cs ihc =>
            intro ro0 h
            rw [getSubKeyInternal.goKids] at h
            cases hc : getSubKeyInternal env f none fuel { st with rootOffset := ro0 } c with
            | err => rw [hc] at h; cases h
            | panic => rw [hc] at h; cases h
            | ok x =>
              obtain ⟨on, ro1⟩ := x
              rw [hc] at h
              cases on with
              | none => exact ihc _ h
              | some m => cases h; exact ih { st with rootOffset := ro0 } c _ _ hst hc
        exact hgo _ _ h

end Notatin
