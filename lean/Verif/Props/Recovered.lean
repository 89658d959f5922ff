import Verif.Spec.Recovered
import Verif.Props.Recover
import Verif.Props.Overwritten
/-
C77: what recovery finds in the free space of a clean hive is listed, from the bytes to the listing.
-/
namespace Notatin
open Spec

/-- What the scan has put on record. -/
structure Scanned (env : Env) (bins : List (Nat × List Nat)) (size : Nat) (st : State) (vs : List Value)
    (ns : List Node) : Prop where
  values : (st.deletedValues []).getD [] = vs
  keys : (st.deletedKeys []).getD [] = ns
  otherValues : ∀ p, p ≠ [] → st.deletedValues p = none
  otherKeys : ∀ p, p ≠ [] → st.deletedKeys p = none
  noKeys : ∀ p, st.modifiedKeys p = none
  noValues : ∀ p, st.modifiedValues p = none
  fromValues : ∀ v ∈ vs, env.fi.hbin ≤ v.val.fileOffset ∧
    DeletedAs env.fi.buffer v.val.fileOffset v.val.cellState ∧ ∃ kv r,
      KeyValue.fromBytes (env.fi.buffer.drop v.val.fileOffset) v.val.fileOffset none = .ok (kv, r) ∧
      v = .mk { kv.readValueBytes env.hashFn env.fi with cellState := v.val.cellState } []
  fromKeys : ∀ n ∈ ns, env.fi.hbin ≤ n.key.fileOffset ∧
    DeletedAs env.fi.buffer n.key.fileOffset n.key.cellState ∧ ∃ m,
      readKey env {} (deletedAt n.key.fileOffset) = .ok (some m, 0) ∧
      n = m.setKey { m.key with cellState := n.key.cellState }
  once : (vs.map (fun v => v.val.fileOffset) ++ ns.map fun n => n.key.fileOffset).Nodup
  complete : ListsFree env.fi.buffer bins size ns vs

theorem scan_records (env : Env) (hd : env.fi.buffer.length < 24 * env.depth) (bins : List (Nat × List Nat))
    (size steps : Nat) (hb : Bins env.fi.buffer env.fi.hbin (env.fi.hbin + size) bins)
    (he : env.fi.hbin + size ≤ env.fi.buffer.length) (hs : env.fi.buffer.length < steps) :
    ∃ st vs ns, initRecoverDeleted env steps size {} = some (.ok st) ∧ Scanned env bins size st vs ns := by
  obtain ⟨st, h1, h2⟩ := recover_complete_partial env hd bins size steps hb he hs {}
  obtain ⟨vs, ns, e1, e2, e3, e4, e5, e6, e7, e8, _⟩ := recover_sound_partial env hd size steps hs {} st h1
  have e1 : (st.deletedValues []).getD [] = vs := by rw [e1]; rfl
  have e2 : (st.deletedKeys []).getD [] = ns := by rw [e2]; rfl
  refine ⟨st, vs, ns, h1, e1, e2, fun p hp => (e6 p hp).1, fun p hp => (e6 p hp).2, fun p => by rw [e7],
    fun p => by rw [e8], e3, e4, e5, ?_⟩
  intro bin hbin hlt c hc hsz
  obtain ⟨g1, g2⟩ := h2 bin hbin hlt c hc hsz
  rw [e1] at g1
  rw [e2] at g2
  exact ⟨g2, g1⟩

theorem deletedAs_state {buf : Bytes} {off : Nat} {s : CellState} (h : DeletedAs buf off s) :
    s.isDeletedPrimaryFile = true ∧ s ≠ .Allocated := by
  rcases h with ⟨rfl, _⟩ | rfl <;> exact ⟨rfl, nofun⟩

/-- A key found by the scan has nothing attached. -/
theorem Scanned.bare {env bins size st vs ns} (h : Scanned env bins size st vs ns) :
    ∀ n ∈ ns, n.deletedKeys = [] ∧ n.versions = [] := by
  intro n hn
  obtain ⟨_, _, m, hm, hnm⟩ := h.fromKeys n hn
  have : m.deletedKeys = [] ∧ m.versions = [] := by
    unfold readKey at hm
    split at hm
    · cases hm
    · unfold readFromSlice at hm
      split at hm
      · cases hm
      · cases hm
      · split at hm
        · cases hm
        · cases hm
        · split at hm
          · cases hm
          · split at hm
            · cases hm
            · cases hm
            · unfold finishStep at hm
              simp only [deletedAt] at hm
              cases hm
              exact ⟨rfl, rfl⟩
  rw [hnm]
  exact this

theorem attachLoop_kept (f : Node → Res Node) (off : Nat) : ∀ (l : List Node), (∀ d ∈ l, f d = .ok d) →
    updateModifiedLists.attachLoop f off l = .ok l
  | [], _ => rfl
  | d :: l, h => by
    rw [updateModifiedLists.attachLoop]
    have : (if d.key.fileOffset ≠ off then f d else .ok d) = .ok d := by
      split
      · exact h d List.mem_cons_self
      · rfl
    rw [this]
    simp only
    rw [attachLoop_kept f off l fun x hx => h x (List.mem_cons_of_mem _ hx)]

/-- What is attached to a key under the path `p`, given the keys attached below it. -/
def attachedAt (st : State) (k : KeyNode) (p : Str) : Res (List Node) → Res Node
  | .err => .err
  | .panic => .panic
  | .ok deleted => .ok (.mk { k with values := match st.deletedValues p with
      | some dv => k.values.map (attachVersions st p) ++ dv.mergeSort fun a b => strLe a.val.name b.val.name
      | none => k.values.map (attachVersions st p) }
      (match st.modifiedKeys p with
        | some vs => vs.mergeSort fun a b => seqGe a.key.seq b.key.seq
        | none => []) deleted)

/-- Attaching, with the path under which is looked up. -/
theorem updateModifiedLists_at (st : State) (fuel : Nat) (k : KeyNode) (p : Str)
    (hp : (if k.flagBits.testBit 2 = true then [] else k.path) = p) (hc : k.cellState.isDeletedPrimaryFile = false) :
    updateModifiedLists st (fuel + 1) (.mk k [] []) = attachedAt st k p
      (updateModifiedLists.attachDeleted (updateModifiedLists st fuel) k.fileOffset [] (st.deletedKeys p)) := by
  have hp' : (if k.isKeyRoot = true then ([] : Str) else k.path) = p := by rw [isKeyRoot_iff]; exact hp
  rw [updateModifiedLists]
  by_cases hr : k.isKeyRoot = true
  · rw [if_pos hr] at hp'
    subst hp'
    simp only [Node.key, Node.deletedKeys, Node.versions, hc, hr, if_true, Bool.false_eq_true, if_false]
    cases updateModifiedLists.attachDeleted (updateModifiedLists st fuel) k.fileOffset [] (st.deletedKeys []) <;> rfl
  · rw [if_neg hr] at hp'
    subst hp'
    simp only [Node.key, Node.deletedKeys, Node.versions, hc, hr, Bool.false_eq_true, if_false]
    cases updateModifiedLists.attachDeleted (updateModifiedLists st fuel) k.fileOffset [] (st.deletedKeys k.path) <;> rfl

/-- The records attached to a key, by its path (empty for the root). -/
theorem Scanned.attached {env bins size st vs ns} (h : Scanned env bins size st vs ns) (fuel : Nat) (k : KeyNode)
    (hk : k.cellState = .Allocated) (hpath : k.path ≠ []) :
    ∃ m, updateModifiedLists st (fuel + 2) (.mk k [] []) = .ok m ∧ m.versions = [] ∧
      m.key = { k with values := m.key.values } ∧
      (k.flagBits.testBit 2 = false → m.deletedKeys = [] ∧ m.key.values = k.values) ∧
      (k.flagBits.testBit 2 = true → m.deletedKeys = ns ∧ ∃ vs', vs'.Perm vs ∧
        m.key.values = k.values ++ vs' ∧
        vs'.Pairwise fun a b => strLe a.val.name b.val.name = true) := by
  have hver : ∀ p, k.values.map (attachVersions st p) = k.values := by
    intro p
    conv => rhs; rw [← List.map_id k.values]
    apply List.map_congr_left
    intro v _
    unfold attachVersions
    rw [h.noValues]
    rfl
  have hc : k.cellState.isDeletedPrimaryFile = false := by rw [hk]; rfl
  by_cases hf : k.flagBits.testBit 2 = true
  · rw [updateModifiedLists_at st (fuel + 1) k [] (by rw [hf]; rfl) hc]
    have hkeep : ∀ d ∈ ns, updateModifiedLists st (fuel + 1) d = .ok d := by
      intro d hd
      rw [updateModifiedLists]
      simp only
      rw [(deletedAs_state (h.fromKeys d hd).2.1).1]
      rfl
    have hatt : updateModifiedLists.attachDeleted (updateModifiedLists st (fuel + 1)) k.fileOffset []
        (st.deletedKeys []) = .ok ns := by
      have hk := h.keys
      cases hd : st.deletedKeys [] with
      | none => rw [hd] at hk; rw [← hk]; rfl
      | some ds =>
        rw [hd] at hk
        have hk : ds = ns := hk
        subst hk
        exact attachLoop_kept _ _ _ hkeep
    rw [hatt]
    unfold attachedAt
    simp only [hver, h.noKeys]
    have hv := h.values
    refine ⟨_, rfl, rfl, rfl, fun e => absurd (hf.symm.trans e) (by decide), fun _ => ⟨rfl, ?_⟩⟩
    show ∃ vs', vs'.Perm vs ∧ (match st.deletedValues [] with
      | some dv => k.values ++ dv.mergeSort fun a b => strLe a.val.name b.val.name
      | none => k.values) = k.values ++ vs' ∧ _
    cases hd : st.deletedValues [] with
    | none =>
      rw [hd] at hv
      have hv : [] = vs := hv
      exact ⟨[], by rw [← hv], (List.append_nil _).symm, List.Pairwise.nil⟩
    | some dv =>
      rw [hd] at hv
      have hv : dv = vs := hv
      exact ⟨_, by rw [← hv]; exact List.mergeSort_perm _ _, rfl,
        List.pairwise_mergeSort (le := fun a b : Value => strLe a.val.name b.val.name)
          (fun a b c => strLe_trans a.val.name b.val.name c.val.name)
          (fun a b => strLe_total a.val.name b.val.name) dv⟩
  · rw [Bool.not_eq_true] at hf
    rw [updateModifiedLists_at st (fuel + 1) k k.path (by rw [hf]; rfl) hc, h.otherKeys _ hpath]
    unfold attachedAt updateModifiedLists.attachDeleted
    simp only [hver, h.noKeys, h.otherValues _ hpath]
    exact ⟨_, rfl, rfl, rfl, fun _ => ⟨rfl, rfl⟩, fun e => absurd (hf.symm.trans e) (by decide)⟩

theorem Scanned.kept {env bins size st vs ns} (h : Scanned env bins size st vs ns) (fuel : Nat) :
    ∀ d ∈ ns, updateModifiedLists st (fuel + 1) d = .ok d := by
  intro d hd
  rw [updateModifiedLists]
  simp only
  rw [(deletedAs_state (h.fromKeys d hd).2.1).1]
  rfl

theorem Scanned.attachOk {env env' : Env} {bins size st vs ns} (h : Scanned env bins size st vs ns)
    (hd : 1 < env'.depth) : AttachOk env' st := by
  intro k
  obtain ⟨fuel, hf⟩ : ∃ fuel, env'.depth = fuel + 2 := ⟨env'.depth - 2, by omega⟩
  rw [hf]
  by_cases hc : k.cellState.isDeletedPrimaryFile = true
  · rw [updateModifiedLists]
    simp only [Node.key, hc, if_true]
    nofun
  · rw [Bool.not_eq_true] at hc
    rw [updateModifiedLists_at st (fuel + 1) k _ rfl hc]
    generalize (if k.flagBits.testBit 2 = true then [] else k.path) = p
    have : ∃ ds, updateModifiedLists.attachDeleted (updateModifiedLists st (fuel + 1)) k.fileOffset []
        (st.deletedKeys p) = .ok ds := by
      by_cases hp : p = []
      · subst hp
        have hk := h.keys
        cases hd : st.deletedKeys [] with
        | none => exact ⟨_, rfl⟩
        | some ds =>
          rw [hd] at hk
          have hk : ds = ns := hk
          subst hk
          exact ⟨_, attachLoop_kept _ _ _ (h.kept fuel)⟩
      · rw [h.otherKeys _ hp]
        exact ⟨_, rfl⟩
    obtain ⟨ds, hds⟩ := this
    rw [hds]
    nofun

theorem Scanned.stateDel {env : Env} {bins size st vs ns} (h : Scanned env bins size st vs ns) : StateDel st := by
  intro p ds hp d hd
  by_cases he : p = []
  · subst he
    have hk := h.keys
    rw [hp] at hk
    have hk : ds = ns := hk
    subst hk
    refine .mk d (deletedAs_state (h.fromKeys d hd).2.1).2 ?_
    rw [(h.bare d hd).1]
    nofun
  · rw [h.otherKeys _ he] at hp; cases hp

theorem Scanned.withInfo {env : Env} {bins size st vs ns} (h : Scanned env bins size st vs ns) (info : Logs) :
    Scanned env bins size { st with info } vs ns :=
  ⟨h.values, h.keys, h.otherValues, h.otherKeys, h.noKeys, h.noValues, h.fromValues, h.fromKeys, h.once, h.complete⟩

/-! ### What is told of the cells found -/

theorem valueFromBytes_default {bs : Bytes} {off : Nat} {seq : Option Nat} {kv : KeyValue} {r : Bytes}
    (h : KeyValue.fromBytes bs off seq = .ok (kv, r)) :
    kv.cellState = .Allocated ∧ kv.dataType = DataType.ofRaw kv.dataTypeRaw := by
  unfold KeyValue.fromBytes at h
  obtain ⟨⟨size, i0⟩, _, h⟩ := ofOption_bind_ok h
  simp only at h
  split at h
  · cases h
  iterate 7 obtain ⟨⟨_, _⟩, _, h⟩ := ofOption_bind_ok h
  obtain ⟨⟨nb, i20⟩, h20, h⟩ := ofOption_bind_ok h
  simp only at h
  obtain ⟨s, logs, hs⟩ := vkName_ok (keyValueFlags _) nb _ (take_length h20).2
  rw [hs] at h
  simp only [Res.bind_ok] at h
  obtain ⟨⟨_, _⟩, _, h⟩ := ofOption_bind_ok h
  cases h
  exact ⟨rfl, rfl⟩

theorem readValueBytes_default {bs : Bytes} {off : Nat} {seq : Option Nat} {kv : KeyValue} {r : Bytes}
    (h : KeyValue.fromBytes bs off seq = .ok (kv, r)) (hash : Bytes → Bytes) (fi : FileInfo) :
    (kv.readValueBytes hash fi).cellState = .Allocated ∧ (kv.readValueBytes hash fi).valueBytes ≠ none ∧
      (kv.readValueBytes hash fi).dataType = DataType.ofRaw (kv.readValueBytes hash fi).dataTypeRaw :=
  ⟨(valueFromBytes_default h).1, nofun, (valueFromBytes_default h).2⟩

/-- A value as it is read with its key. -/
def AsRead (v : Value) : Prop := HasContent v ∧ v.versions = [] ∧ v.val.cellState = .Allocated

theorem readValuesLoop_asRead (env : Env) (seq : Option Nat) : ∀ (offs : List Nat) (acc : List Value) (logs : Logs)
    (vs : List Value) (lg : Logs) (b : Bool), (∀ v ∈ acc, AsRead v) →
    readValuesLoop env seq offs acc logs = .ok (vs, lg, b) → ∀ v ∈ vs, AsRead v
  | [], acc, logs, vs, lg, b, ha, h => by
    rw [readValuesLoop] at h; cases h; exact ha
  | o :: offs, acc, logs, vs, lg, b, ha, h => by
    rw [readValuesLoop] at h
    split at h
    · split at h
      · next kv r hk =>
        refine readValuesLoop_asRead env seq offs _ _ _ _ _ ?_ h
        intro v hv
        rcases List.mem_append.1 hv with hv | hv
        · exact ha v hv
        · rw [List.mem_singleton] at hv
          subst hv
          have := readValueBytes_default hk env.hashFn env.fi
          exact ⟨⟨this.2.1, this.2.2⟩, rfl, this.1⟩
      · cases h; exact ha
      · cases h
    · cases h; exact ha

theorem valuesStep_asRead {env : Env} {o : ReadOptions} {flags : FilterFlags} {k k' : KeyNode} (h0 : k.values = [])
    (h : valuesStep env o flags k = .ok k') : ∀ v ∈ k'.values, AsRead v := by
  have hk : ∀ k2 b, k.readValues env o.seq = .ok (k2, b) → ∀ v ∈ k2.values, AsRead v := by
    intro k2 b h
    unfold KeyNode.readValues at h
    split at h
    · split at h
      · cases h; show ∀ v ∈ k.values, _; rw [h0]; intro v hv; cases hv
      · split at h
        · cases h; intro v hv; cases hv
        · split at h
          · next he => cases h; refine readValuesLoop_asRead _ _ _ _ _ _ _ _ ?_ he; intro v hv; cases hv
          · cases h
          · cases h
    · cases h; rw [h0]; intro v hv; cases hv
  unfold valuesStep at h
  split at h
  · split at h
    · next he => cases h; exact hk _ _ he
    · next he => cases h; intro v hv; exact hk _ _ he v hv
    · cases h
    · cases h
  · cases h; rw [h0]; intro v hv; cases hv

theorem keyFromBytes_values {hash : Bytes → Bytes} {bs : Bytes} {off : Nat} {path : Str} {seq : Option Nat}
    {k : KeyNode} {r : Bytes} (h : KeyNode.fromBytes hash bs off path seq = .ok (k, r)) : k.values = [] := by
  unfold KeyNode.fromBytes at h
  obtain ⟨⟨size, i0⟩, _, h⟩ := ofOption_bind_ok h
  simp only at h
  split at h
  · cases h
  iterate 21 obtain ⟨⟨_, _⟩, _, h⟩ := ofOption_bind_ok h
  simp only at h
  cases hs : stringFromBytes (containsFlag (fromBitsChecked keyNodeFlagsMask _ {}).1 0x20) _ _
    (fromBitsChecked keyNodeFlagsMask _ {}).2 with
  | err => rw [hs] at h; cases h
  | panic => rw [hs] at h; cases h
  | ok x =>
    rw [hs] at h
    simp only [Res.bind_ok] at h
    obtain ⟨⟨_, _⟩, _, h⟩ := ofOption_bind_ok h
    cases h
    rfl

/-- The values of a key found by the scan. -/
theorem Scanned.asRead {env bins size st vs ns} (h : Scanned env bins size st vs ns) :
    ∀ n ∈ ns, ∀ v ∈ n.key.values, AsRead v := by
  intro n hn
  obtain ⟨_, _, m, hm, hnm⟩ := h.fromKeys n hn
  have : ∀ v ∈ m.key.values, AsRead v := by
    unfold readKey at hm
    split at hm
    · cases hm
    · unfold readFromSlice at hm
      split at hm
      · cases hm
      · cases hm
      · next hk =>
        split at hm
        · cases hm
        · cases hm
        · split at hm
          · cases hm
          · split at hm
            · cases hm
            · cases hm
            · next hv =>
              have hw := valuesStep_asRead (keyFromBytes_values hk) hv
              unfold finishStep at hm
              simp only [deletedAt, Bool.false_eq_true, if_false] at hm
              cases hm
              intro v hv
              refine hw v ?_
              revert hv
              show v ∈ (ite _ _ _ : KeyNode).values → _
              split <;> exact id
  rw [hnm]
  exact this

theorem fromFreeValue_of (w : World) (buf : Bytes) {bins size st vs ns}
    (h : Scanned (w.env buf) bins size st vs ns) : ∀ x ∈ vs, FromFreeValue buf x := by
  intro x hx
  obtain ⟨h1, h2, kv, r, hk, hxe⟩ := h.fromValues x hx
  have h1 : 4096 ≤ x.val.fileOffset := h1
  refine ⟨h1, keyValue_ok _ _ _ _ hk, h2, by rw [hxe]; rfl, fun v hv => ?_, by
    have := readValueBytes_default hk w.hashFn ⟨4096, buf⟩
    rw [hxe]
    exact ⟨this.2.1, this.2.2⟩⟩
  have := (valueAt_read (w.env buf) none _ v hv).2 (.mk (kv.readValueBytes w.hashFn ⟨4096, buf⟩) []) ⟨kv, r, by
    show KeyValue.fromBytes (buf.drop (x.val.fileOffset - 4096 + 4096)) (x.val.fileOffset - 4096 + 4096) none = _
    rw [Nat.sub_add_cancel h1]
    exact hk, rfl⟩
  rw [← this.1, hxe]
  rfl

theorem fromFreeKey_of (w : World) (buf : Bytes) {bins size st vs ns}
    (h : Scanned (w.env buf) bins size st vs ns) (n : Node) (hn : n ∈ ns) (y : Node) (hy : Yielded n y) :
    FromFreeKey buf y := by
  obtain ⟨h1, h2, m, hm, hne⟩ := h.fromKeys n hn
  obtain ⟨hyv, so, tr, fs, hyk⟩ := hy
  have ho : y.key.fileOffset = n.key.fileOffset := by rw [hyk]
  have hs : y.key.cellState = n.key.cellState := by rw [hyk]
  have hread : KeyReadable (buf.drop n.key.fileOffset) := by
    have := hm
    unfold readKey at this
    split at this
    · cases this
    · next sl hsl =>
      have hsl : sl = buf.drop n.key.fileOffset := by
        unfold getFrom at hsl
        split at hsl
        · exact (Option.some.inj hsl).symm
        · cases hsl
      unfold readFromSlice at this
      split at this
      · cases this
      · cases this
      · next hk => rw [hsl] at hk; exact keyNode_ok _ _ _ _ _ _ hk
  refine ⟨by rw [ho]; exact h1, by rw [ho]; exact hread, by rw [ho, hs]; exact h2, by rw [hyv]; exact (h.bare n hn).2, fun c name hat => ?_,
    by rw [hyk]; exact h.asRead n hn⟩
  rw [ho] at hat
  obtain ⟨k, hk, hfr, hcase⟩ := readKey_at (w.env buf) {} (deletedAt n.key.fileOffset) c name hat
  rcases hcase with ⟨fl, ro, hf, hcase⟩ | ⟨hf, _⟩ | ⟨hf, _⟩
  · cases hf
    rcases hcase with ⟨e, _⟩ | ⟨_, xs, lg, hv, hr⟩
    · cases e
    · rw [hm] at hr
      have hmk : m = .mk { k with values := xs, logs := lg } [] [] := by
        unfold finishStep at hr
        simp only [deletedAt] at hr
        cases hr
        rfl
      have hnk : n.key = { k with values := xs, logs := lg, cellState := n.key.cellState } := by
        conv => lhs; rw [hne, hmk]
        rfl
      obtain ⟨_, g2, g3, g4, g5, _, _, _, _, g10, g11, _, _, _, _, _, _, _, _, _, _, g22, g23, _⟩ := hk
      rw [hnk] at hyk
      constructor
      · rw [hyk]; exact g22
      · rw [hyk]; exact g23
      · rw [hyk]; exact g3
      · rw [hyk]; exact g2
      · rw [hyk]; exact g4
      · rw [hyk]; exact g5
      · intro zs hzs
        rw [hyk]
        exact (readsValues_stored (w.env buf) none k c zs g10 g11 hfr.2.2.2.2.2.2.1 hzs xs lg
          (readsValues_of hv rfl)).1
  · cases hf
  · cases hf

/-- A key of the tree as it is read. -/
theorem live_read (w : World) (hd : 1 < w.depth) (buf : Bytes) {bins size st vs ns}
    (h : Scanned (w.env buf) bins size st vs ns) (t : Tree) (vals : Nat → List Val) (ht : StoredHive w buf t vals)
    (n0 : Node) (hn0 : IsReadFor (w.env buf) st true true true t.nodes n0) :
    ∃ u ∈ t.nodes, n0.key.fileOffset = u.off ∧
      (u.cell.flags.testBit 2 = false → n0.deletedKeys = [] ∧ ListsStored vals n0 []) ∧
      (u.cell.flags.testBit 2 = true → n0.deletedKeys = ns ∧ ∃ vs', vs'.Perm vs ∧ ListsStored vals n0 vs' ∧
        vs'.Pairwise fun a b => strLe a.val.name b.val.name = true) := by
  obtain ⟨gm0, path, u, s, hu, hg, _, _, hr, hs⟩ := hn0
  have hg0 : gm0 = true := hg rfl
  subst hg0
  have hfacts := hr.facts
  obtain ⟨k, xs, lg, s0, m', hkm, hf, hup, hn, hrv⟩ := hr
  rw [if_pos rfl] at hup
  obtain ⟨_, g2, _, _, _, _, _, _, _, g10, g11, _, _, _, _, _, _, _, _, _, _, _, g23, g24, _⟩ := hkm
  obtain ⟨fuel, hfu⟩ : ∃ fuel, w.depth = fuel + 2 := ⟨w.depth - 2, by omega⟩
  obtain ⟨m, e1, e2, e3, e4, e5⟩ := h.attached fuel { k with values := xs, logs := lg, filterState := s0 }
    hf.2.2.2.2.2.2.2 (by show k.path ≠ []; rw [g23]; simp)
  have hmm : m' = m := by
    have : updateModifiedLists st (w.env buf).depth
        (.mk { k with values := xs, logs := lg, filterState := s0 } [] []) = .ok m := by
      show updateModifiedLists st w.depth _ = _
      rw [hfu]; exact e1
    have := hup.symm.trans this
    cases this; rfl
  subst hmm
  obtain ⟨v1, v2, _⟩ := readsValues_stored (w.env buf) none k u.cell (vals u.off) g10 g11 hf.2.2.2.2.2.2.1
    (every_nodes t ht.values u hu) xs lg (hrv (hs rfl))
  have hv0 : n0.key.values = m'.key.values := by rw [hn]; rfl
  refine ⟨u, hu, hfacts.1, fun hfl => ?_, fun hfl => ?_⟩
  · obtain ⟨d1, d2⟩ := e4 (by show k.flagBits.testBit 2 = false; rw [g2]; exact hfl)
    refine ⟨by rw [hn]; exact d1, hfacts.2.2.2.2.1, by rw [hn]; exact e2, xs, ?_, by rw [hfacts.1]; exact v1,
      fun v hv => v2 v hv⟩
    rw [hv0, d2, List.append_nil]
  · obtain ⟨d1, vs', d2, d3, d4⟩ := e5 (by show k.flagBits.testBit 2 = true; rw [g2]; exact hfl)
    exact ⟨by rw [hn]; exact d1, vs', d2, ⟨hfacts.2.2.2.2.1, by rw [hn]; exact e2, xs, by rw [hv0, d3],
      by rw [hfacts.1]; exact v1, fun v hv => v2 v hv⟩, d4⟩

theorem listsStored_yielded {vals : Nat → List Val} {n y : Node} {more : List Value} (h : ListsStored vals n more)
    (hy : Yielded n y) : ListsStored vals y more := by
  obtain ⟨h1, h2, own, h3, h4, h5⟩ := h
  obtain ⟨e1, so, tr, fs, e2⟩ := hy
  exact ⟨by rw [e2]; exact h1, by rw [e1]; exact h2, own, by rw [e2]; exact h3, by rw [e2]; exact h4, h5⟩

theorem Yielded.obs_eq {n y : Node} (h : Yielded n y) : obs y = obs n := by
  obtain ⟨_, so, tr, fs, e⟩ := h
  unfold obs
  rw [e]

/-- What the iteration shows of what the scan has found. -/
theorem scanned_shown (w : World) (hd : 1 < w.depth) (buf : Bytes) {bins size st vs ns}
    (h : Scanned (w.env buf) bins size st vs ns) (t : Tree) (vals : Nat → List Val) (ht : StoredHive w buf t vals)
    (hroot : RootMarked t) (anc : Bool) :
    ∃ root, initRoot (w.env buf) st = .ok (some root, st.rootOffset) ∧
    ∃ N r keys rest values, collect (nextPre (w.env buf)) N (.start st (some root) {} true anc) =
      some (.ok (r :: (keys ++ rest))) ∧ ListsDeleted buf bins size t vals r keys rest values := by
  obtain ⟨root, N, out, live, h1, h2, h3, _, _, _, h7, h8, h9⟩ := iteration_yields (w.env buf) st t true anc
    ht.bin ht.top ht.tree ht.once h.stateDel (h.attachOk hd)
  refine ⟨root, h1, N, ?_⟩
  have hpre : t.pre [] = (t.off, '\\' :: t.name) :: preAll ('\\' :: t.name) t.kids := by
    cases t; rw [Tree.pre]; rfl
  have honce : (offsAll t.kids).Nodup ∧ t.off ∉ offsAll t.kids := by
    have := ht.once
    cases t; rw [Tree.offs, List.nodup_cons] at this; exact ⟨this.2, this.1⟩
  have hnodes : t.nodes = t :: nodesAll t.kids := by cases t; rw [Tree.nodes]; rfl
  have huniq : ∀ u ∈ t.nodes, ∀ v ∈ t.nodes, u.off = v.off → u = v := fun u hu v hv e =>
    map_inj_of_nodup Tree.off _ (by rw [nodes_offs]; exact ht.once) u hu v hv e
  cases live with
  | nil => rw [hpre] at h3; cases h3
  | cons l0 ls =>
    have h3' : obs l0 = (t.off, '\\' :: t.name) ∧ ls.map obs = preAll ('\\' :: t.name) t.kids := by
      rw [hpre, List.map_cons] at h3
      exact ⟨(List.cons.inj h3).1, (List.cons.inj h3).2⟩
    -- the root
    obtain ⟨u, hu, a1, _, a3⟩ := live_read w hd buf h t vals ht l0 (h8 l0 List.mem_cons_self)
    have hut : u = t := huniq u hu t (by rw [hnodes]; exact List.mem_cons_self)
      (by rw [← a1]; exact congrArg Prod.fst h3'.1)
    rw [hut] at a3
    obtain ⟨b1, values, b2, b3, b4⟩ := a3 hroot.1
    -- the others
    have hls : ∀ l ∈ ls, l.deletedKeys = [] ∧ ListsStored vals l [] := by
      intro l hl
      obtain ⟨v, hv, c1, c2, _⟩ := live_read w hd buf h t vals ht l (h8 l (List.mem_cons_of_mem _ hl))
      refine c2 ?_
      rw [hnodes] at hv
      rcases List.mem_cons.1 hv with rfl | hv
      · exfalso
        have : obs l ∈ preAll ('\\' :: v.name) v.kids := by rw [← h3'.2]; exact List.mem_map.2 ⟨l, hl, rfl⟩
        refine honce.2 ?_
        rw [← c1, ← preAll_offs _ ('\\' :: v.name)]
        exact List.mem_map.2 ⟨_, this, rfl⟩
      · exact everyAll_nodes _ hroot.2 v hv
    have hbelow : (l0 :: ls).flatMap belowTree = l0 :: (ns.reverse ++ ls) := by
      rw [List.flatMap_cons, belowTree_eq, b1, belowAll_eq]
      have one : ∀ l : List Node, (∀ x ∈ l, x.deletedKeys = []) → l.flatMap belowTree = l := by
        intro l
        induction l with
        | nil => intro _; rfl
        | cons x l ih =>
          intro hl
          rw [List.flatMap_cons, belowTree_eq, hl x List.mem_cons_self, ih fun y hy => hl y (List.mem_cons_of_mem _ hy)]
          rfl
      rw [one ns.reverse fun x hx => (h.bare x (List.mem_reverse.1 hx)).1, one ls fun x hx => (hls x hx).1]
      rfl
    rw [hbelow] at h9
    cases out with
    | nil => exact absurd h9 (by simp [Pairwise2])
    | cons r out =>
      obtain ⟨keys, rest, rfl, p1, p2⟩ := pairwise2_split _ _ _ h9.2
      refine ⟨r, keys, rest, values, h2, ?_⟩
      have hkoff : keys.map (fun y => y.key.fileOffset) = ns.reverse.map fun n => n.key.fileOffset :=
        pairwise2_map_eq _ _ (fun a b hab => congrArg Prod.fst (Yielded.obs_eq hab)) p1
      constructor
      · rw [← h3, List.map_cons, List.map_cons, Yielded.obs_eq h9.1,
          pairwise2_map_eq obs obs (fun a b hab => Yielded.obs_eq hab) p2]
      · intro y hy
        have hs : y.key.cellState = .Allocated := by
          rcases List.mem_cons.1 hy with rfl | hy
          · exact (listsStored_yielded b3 h9.1).1
          · obtain ⟨l, hl, hly⟩ := pairwise2_mem_right p2 y hy
            exact (listsStored_yielded (hls l hl).2 hly).1
        obtain ⟨u, hu, hk⟩ := h7 y (by
          rcases List.mem_cons.1 hy with rfl | hy
          · exact List.mem_cons_self
          · exact List.mem_cons_of_mem _ (List.mem_append_right _ hy)) hs
        exact ⟨u, hu, shown_stored hk⟩
      · exact listsStored_yielded b3 h9.1
      · intro y hy
        obtain ⟨l, hl, hly⟩ := pairwise2_mem_right p2 y hy
        exact listsStored_yielded (hls l hl).2 hly
      · intro y hy
        obtain ⟨n, hn, hny⟩ := pairwise2_mem_right p1 y hy
        exact fromFreeKey_of w buf h n (List.mem_reverse.1 hn) y hny
      · intro x hx
        exact fromFreeValue_of w buf h x (b2.mem_iff.1 hx)
      · exact b4.imp fun hab => strLe_le _ _ hab
      · rw [hkoff]
        refine List.Perm.nodup ?_ h.once
        exact (b2.symm.map _).append ((List.reverse_perm ns).symm.map _)
      · intro bin hbin hlt c hc hsz
        obtain ⟨q1, q2⟩ := h.complete bin hbin hlt c hc hsz
        refine ⟨fun hk => ?_, fun hv => ?_⟩
        · obtain ⟨n, hn, hno⟩ := q1 hk
          obtain ⟨y, hy, hny⟩ := pairwise2_mem_left p1 n (List.mem_reverse.2 hn)
          exact ⟨y, hy, by rw [← hno]; exact congrArg Prod.fst (Yielded.obs_eq hny)⟩
        · obtain ⟨x, hx, hxo⟩ := q2 hv
          exact ⟨x, b2.mem_iff.2 hx, hxo⟩

/-! ### C77: what is found in free and unused space is listed -/

/-- C77: a clean hive is opened with recovery, and its listing starts with the root, followed by the keys found
in free and unused space; the values found there are listed behind those of the root.  Each of them is
marked as what it is, tells its offset and exactly the contents of the cell, nothing is listed twice, and every
free cell of the bins that start more than 4096 bytes before the end of the bins is listed; the keys and
values of the hive are listed as without recovery.  (Missing: the bins in the last 4096 bytes, see
`deleted_listed_violated`.) -/
theorem deleted_listed_partial (w : World) (b : Builder) (bb : BaseBlock) (bins : List (Nat × List Nat)) (t : Tree)
    (vals : Nat → List Val) (hrec : b.recover = true) (hc : CleanHive b bb) (hst : StoredHive w b.primary t vals)
    (hroot : RootMarked t) (hb : Bins b.primary 4096 (4096 + bb.base.hiveBinsDataSize) bins)
    (he : 4096 + bb.base.hiveBinsDataSize ≤ b.primary.length) (hd : b.primary.length < 24 * w.depth) :
    ∀ steps, b.primary.length < steps → ∃ p, b.build { w with steps } = some (.ok p) ∧
      ∀ anc, ∃ N root keys rest values, p.iterate N {} false true anc = some (.ok (root :: (keys ++ rest))) ∧
        ListsDeleted b.primary bins bb.base.hiveBinsDataSize t vals root keys rest values := by
  intro steps hs
  obtain ⟨⟨logs, warn⟩, hlogs⟩ := hc.logsRead
  obtain ⟨rest, hp⟩ := hc.header
  obtain ⟨st, vs, ns, hscan, hsc⟩ := scan_records (w.env b.primary) hd bins _ steps hb he hs
  have hd1 : 1 < w.depth := by omega
  obtain ⟨info, ho⟩ := open_clean (World.analyze { w with steps } b.recover) (World.initItems { w with steps } b.recover)
    (World.scan { w with steps } b.recover) b.primary (some (.ok ({}, []))) (some (.ok (st, []))) logs bb rest hp
    hc.supported hc.clean hc.checksum (by
      unfold World.scan
      rw [hrec]
      simp only [if_true]
      rw [show initRecoverDeleted (World.env { w with steps } b.primary) steps bb.base.hiveBinsDataSize {} = some (.ok st)
        from hscan])
  obtain ⟨info2, hbd⟩ := build_opened { w with steps } b logs warn _ st [] hlogs ho rfl rfl
  have hshow := fun anc => scanned_shown w hd1 b.primary (hsc.withInfo info2) t vals hst hroot anc
  obtain ⟨root, hr, _⟩ := hshow false
  refine ⟨_, hbd root hr, fun anc => ?_⟩
  obtain ⟨root', hr', N, r, keys, rest, values, g1, g2⟩ := hshow anc
  have : root' = root := by
    have := hr'.symm.trans hr
    cases this; rfl
  subst this
  exact ⟨N, r, keys, rest, values, g1, g2⟩

/-- The full claim of C77: without the restriction to certain bins. -/
def DeletedListed : Prop :=
  ∀ (w : World) (b : Builder) (bb : BaseBlock) (bins : List (Nat × List Nat)) (t : Tree) (vals : Nat → List Val),
    b.recover = true → CleanHive b bb → StoredHive w b.primary t vals → RootMarked t →
    Bins b.primary 4096 (4096 + bb.base.hiveBinsDataSize) bins →
    4096 + bb.base.hiveBinsDataSize ≤ b.primary.length → b.primary.length < 24 * w.depth →
    ∀ steps, b.primary.length < steps → ∃ p, b.build { w with steps } = some (.ok p) ∧
      ∀ anc, ∃ N root keys rest values, p.iterate N {} false true anc = some (.ok (root :: (keys ++ rest))) ∧
        ListsDeleted b.primary bins (4096 + bb.base.hiveBinsDataSize) t vals root keys rest values

/-! ### Examples -/

/-- Room for the hives of the examples. -/
def freeWorld : World := ⟨fun _ => [], 20000, id, 20000⟩

/-- A free value cell: `v`, a number. -/
def freeValue : VkCell :=
  { size := 25, dataSize := 0x80000004, dataOffset := 1, dataType := 4, flags := 1, padding := 0,
    nameBytes := [0x76], slack := [] }

/-- A second bin with the free value cell and one more free cell. -/
def freeTail : Bytes :=
  hbinBytes 381 7811 0 0 0 0 ++ (freeValue.encode ++ (encI32 7754 ++ List.replicate 7750 0))

/-- The hive of `sampleHive`, with the second bin. -/
def freeHive : Builder := { primary := sampleHive 5 5 8192 0x61 freeTail, recover := true }

theorem at_cut (buf : Bytes) (off : Nat) (enc : Bytes) (h : off ≤ buf.length) (he : slice buf off enc.length = enc) :
    At buf off enc := by
  refine ⟨buf.take off, buf.drop (off + enc.length), ?_, by rw [List.length_take]; omega⟩
  have : buf.drop (off + enc.length) = (buf.drop off).drop enc.length := by rw [List.drop_drop]
  rw [this]
  unfold slice at he
  have h2 := List.take_append_drop enc.length (buf.drop off)
  rw [he] at h2
  rw [h2, List.take_append_drop]

theorem sample_storedHive (w : World) (hd : 0 < w.depth) (p s bins : Nat) (tail : Bytes) :
    StoredHive w (sampleHive p s bins 0x61 tail) (sampleTree 0x61) fun _ => [] := by
  have hv : ∀ flags n list name buf, (exampleCell flags n list name).nValues = 0 ∧
      ValuesAt buf 4096 (exampleCell flags n list name) [] := fun _ _ _ _ _ => ⟨rfl, rfl, by decide, .inl rfl⟩
  refine ⟨sampleTree_stored w hd 0x61 (.inl rfl) _ ⟨sampleHeader p s bins ++ List.replicate 3584 0, tail,
    by rw [List.length_append, List.length_replicate]
       simp only [sampleHeader, List.length_append, length_encLE, List.length_replicate]
       rfl, rfl⟩, ?_⟩
  unfold sampleTree
  simp only [Tree.Every, EveryAll, and_true]
  exact ⟨(hv _ _ _ _ _).2, (hv _ _ _ _ _).2, (hv _ _ _ _ _).2⟩

theorem sample_rootMarked : RootMarked (sampleTree 0x61) := by
  refine ⟨by decide, ?_⟩
  show EveryAll _ [_, _]
  simp only [Tree.Every, EveryAll, and_true]
  exact ⟨by decide, by decide⟩

theorem freeHive_bins : Bins freeHive.primary 4096 (4096 + 8192)
    [(4096, [4128, 4210, 4234, 4315, 4396]), (4477, [4509, 4534])] := by
  have step : ∀ a b c cs, (sizeAt freeHive.primary a).natAbs = b - a → 8 ≤ b - a → a ≤ b →
      Chain freeHive.primary b c cs → Chain freeHive.primary a c (a :: cs) := by
    intro a b c cs h1 h2 h3 h4
    refine .cons _ _ _ (by omega) ?_
    rw [show a + (sizeAt freeHive.primary a).natAbs = b by omega]
    exact h4
  refine .cons _ 4477 _ _ _ ⟨by decide +kernel, by decide +kernel, by decide, ?_⟩
    (.cons _ 12288 _ _ _ ⟨by decide +kernel, by decide +kernel, by decide, ?_⟩ (.nil _))
  · exact step _ 4210 _ _ (by decide +kernel) (by decide) (by decide)
      (step _ 4234 _ _ (by decide +kernel) (by decide) (by decide)
        (step _ 4315 _ _ (by decide +kernel) (by decide) (by decide)
          (step _ 4396 _ _ (by decide +kernel) (by decide) (by decide)
            (step _ 4477 _ _ (by decide +kernel) (by decide) (by decide) (.nil _)))))
  · exact step _ 4534 _ _ (by decide +kernel) (by decide) (by decide)
      (step _ 12288 _ _ (by decide +kernel) (by decide) (by decide) (.nil _))

/-- The hypotheses of `deleted_listed_partial`; what is listed of the free cells. -/
example : ∃ p, freeHive.build freeWorld = some (.ok p) ∧
    ∀ anc, ∃ N root rest, p.iterate N {} false true anc = some (.ok (root :: rest)) ∧
      (∃ y ∈ rest, y.key.fileOffset = 4396 ∧ y.key.path = "\\d".toList ∧ y.key.cellState ≠ .Allocated) ∧
      ∃ x ∈ root.key.values, x.val.fileOffset = 4509 ∧ obsVal x = ⟨['v'], 4, [1, 0, 0, 0]⟩ ∧
        x.val.cellState ≠ .Allocated := by
  obtain ⟨bb, rest, h1, h2, h3, h4, h5, h6⟩ := sampleHive_header 5 5 8192 0x61 freeTail (by decide +kernel)
  have hl : freeHive.primary.length = 12288 := by decide +kernel
  obtain ⟨p, hp, hp'⟩ := deleted_listed_partial freeWorld freeHive bb
    [(4096, [4128, 4210, 4234, 4315, 4396]), (4477, [4509, 4534])] (sampleTree 0x61) (fun _ => []) rfl
    ⟨⟨([], none), by decide +kernel⟩, ⟨rest, h1⟩, h2, h3.trans h4.symm, h6⟩
    (sample_storedHive _ (by decide) _ _ _ _) sample_rootMarked (by rw [h5]; exact freeHive_bins)
    (by rw [h5, hl]; decide) (by rw [hl]; decide) 20000 (by rw [hl]; decide)
  refine ⟨p, hp, fun anc => ?_⟩
  obtain ⟨N, root, keys, more, values, hit, hls⟩ := hp' anc
  rw [h5] at hls
  refine ⟨N, root, keys ++ more, hit, ?_, ?_⟩
  · obtain ⟨y, hy, hyo⟩ := (hls.complete _ List.mem_cons_self (by decide) 4396 (by decide)
      (by decide +kernel)).1 (by decide +kernel)
    have hf := hls.fromKeys y hy
    refine ⟨y, List.mem_append_left _ hy, hyo, (hf.tells { exampleCell 0x20 0 0 [0x64] with size := 81 } ['d'] ?_).path,
      (deletedAs_state hf.why).2⟩
    rw [hyo]
    refine ⟨by unfold NkCell.Fits isI32; decide, at_cut _ _ _ (by rw [hl]; decide) (by decide +kernel),
      .inl ⟨by decide, by decide⟩⟩
  · obtain ⟨x, hx, hxo⟩ := (hls.complete _ (List.mem_cons_of_mem _ List.mem_cons_self) (by decide) 4509 (by decide)
      (by decide +kernel)).2 (by decide +kernel)
    have hf := hls.fromValues x hx
    obtain ⟨_, _, own, hv, _⟩ := hls.root
    refine ⟨x, by rw [hv]; exact List.mem_append_right _ hx, hxo, hf.tells ⟨['v'], 4, [1, 0, 0, 0]⟩ ?_,
      (deletedAs_state hf.why).2⟩
    rw [hxo]
    exact ⟨freeValue, [4521], by unfold VkCell.Fits isI32; decide, at_cut _ _ _ (by rw [hl]; decide) (by decide +kernel),
      .inl ⟨by decide, by
        intro i hi
        have : i = 0 := by
          cases i with
          | zero => rfl
          | succ i =>
            exfalso
            have : Nat.testBit 1 (i + 1) = true := hi
            simp [Nat.testBit_succ] at this
        subst this; rfl, by decide⟩, rfl,
      .resident [1, 0, 0, 0] [] rfl, .inr ⟨4, by decide, by decide⟩, .inl (by decide)⟩

/-- The hive of `sampleHive` alone: one bin, with the free key `d`. -/
def lastHive : Builder := { primary := sampleHive 5 5 381 0x61 [], recover := true }

theorem lastHive_bins : Bins lastHive.primary 4096 (4096 + 381) [(4096, [4128, 4210, 4234, 4315, 4396])] := by
  have step : ∀ a b c cs, (sizeAt lastHive.primary a).natAbs = b - a → 8 ≤ b - a → a ≤ b →
      Chain lastHive.primary b c cs → Chain lastHive.primary a c (a :: cs) := by
    intro a b c cs h1 h2 h3 h4
    refine .cons _ _ _ (by omega) ?_
    rw [show a + (sizeAt lastHive.primary a).natAbs = b by omega]
    exact h4
  refine .cons _ 4477 _ _ _ ⟨by decide +kernel, by decide +kernel, by decide, ?_⟩ (.nil _)
  exact step _ 4210 _ _ (by decide +kernel) (by decide) (by decide)
    (step _ 4234 _ _ (by decide +kernel) (by decide) (by decide)
      (step _ 4315 _ _ (by decide +kernel) (by decide) (by decide)
        (step _ 4396 _ _ (by decide +kernel) (by decide) (by decide)
          (step _ 4477 _ _ (by decide +kernel) (by decide) (by decide) (.nil _)))))

/-- C77 is violated: of a hive whose bins have no more than 4096 bytes no deleted key is listed. -/
theorem deleted_listed_violated : ¬ DeletedListed := by
  intro h
  obtain ⟨bb, rest, h1, h2, h3, h4, h5, h6⟩ := sampleHive_header 5 5 381 0x61 [] (by decide +kernel)
  have hl : lastHive.primary.length = 4477 := by decide +kernel
  obtain ⟨p, hp, hp'⟩ := h freeWorld lastHive bb
    [(4096, [4128, 4210, 4234, 4315, 4396])] (sampleTree 0x61) (fun _ => []) rfl
    ⟨⟨([], none), by decide +kernel⟩, ⟨rest, h1⟩, h2, h3.trans h4.symm, h6⟩
    (sample_storedHive _ (by decide) _ _ _ _) sample_rootMarked (by rw [h5]; exact lastHive_bins)
    (by rw [h5, hl]; decide) (by rw [hl]; decide) 20000 (by rw [hl]; decide)
  obtain ⟨N, root, keys, more, values, hit, hls⟩ := hp' false
  obtain ⟨y, hy, hyo⟩ := (hls.complete _ List.mem_cons_self (by rw [h5]; decide) 4396 (by decide)
    (by decide +kernel)).1 (by decide +kernel)
  have gen : ∀ x : Option (Res HiveParser), (match x with
      | some (.ok p) => match p.iterate 100 {} false true false with
        | some (.ok ns) => ns.all fun n => n.key.fileOffset ≠ 4396
        | _ => false
      | _ => false) = true → x = some (.ok p) → False := by
    intro x hx he
    subst he
    cases hi : p.iterate 100 {} false true false with
    | none => simp only [hi] at hx; cases hx
    | some r =>
      cases r with
      | err => simp only [hi] at hx; cases hx
      | panic => simp only [hi] at hx; cases hx
      | ok ns =>
        simp only [hi] at hx
        have := collect_unique (fuelMono_pre p.env) _ _ _ _ _ hi hit
        cases this
        have := List.all_eq_true.1 hx y (List.mem_cons_of_mem _ (List.mem_append_left _ hy))
        rw [hyo] at this
        cases this
  exact gen (lastHive.build freeWorld) (by decide +kernel) hp

/-! ### Dirty hives: the scan comes before the logs -/

/-- The listed keys, by offset and state. -/
def listedStates (p : Option (Res HiveParser)) : Option (List (Nat × CellState)) :=
  match p with
  | some (.ok p) => match p.iterate 100 {} false true false with
    | some (.ok ns) => some (ns.map fun n => (n.key.fileOffset, n.key.cellState))
    | _ => none
  | _ => none

theorem listedStates_of {x : Option (Res HiveParser)} {l : List (Nat × CellState)} (h : listedStates x = some l) :
    ∃ p ns, x = some (.ok p) ∧ p.iterate 100 {} false true false = some (.ok ns) ∧
      ns.map (fun n => (n.key.fileOffset, n.key.cellState)) = l := by
  unfold listedStates at h
  split at h
  · split at h
    · next p _ ns hi => exact ⟨p, ns, rfl, hi, Option.some.inj h⟩
    · cases h
  · cases h

/-- Some room; contents are told apart. -/
def apartWorld : World := { sampleWorld with hashFn := id }

/-- A key found in free space is still listed when the logs are given, if they leave its cell as it is: `b` is
the hive with the logs, `p` and `q` are the parsers without and with them. -/
def DeletedKept : Prop :=
  ∀ (w : World) (b : Builder) (p q : HiveParser) (ns ns' : List Node) (N M : Nat), b.recover = true →
    ({ b with logs := [] } : Builder).build w = some (.ok p) → b.build w = some (.ok q) →
    p.iterate N {} false true false = some (.ok ns) → q.iterate M {} false true false = some (.ok ns') →
    ∀ y ∈ ns, y.key.cellState = .DeletedPrimaryFile →
      slice q.env.fi.buffer y.key.fileOffset (sizeAt b.primary y.key.fileOffset).natAbs =
        slice b.primary y.key.fileOffset (sizeAt b.primary y.key.fileOffset).natAbs →
      ∃ y' ∈ ns', y'.key.fileOffset = y.key.fileOffset

/-- The hive of `sampleHive`, marked dirty, with the free key `d`. -/
def forgetHive (logs : List Bytes) : Builder := { primary := sampleHive 5 4 4477 0x61 [], logs, recover := true }

/-- C77 is violated for dirty hives: the analysis takes the keys found in free space for keys of the hive as it
is after the log entry, and strikes them from the list of deleted keys.  (The entry names `a` anew.) -/
theorem deleted_forgotten_violated : ¬ DeletedKept := by
  intro h
  obtain ⟨p, ns, hp, hi, hns⟩ := listedStates_of (show listedStates ((forgetHive []).build apartWorld) =
    some [(4128, .Allocated), (4396, .DeletedPrimaryFile), (4234, .Allocated), (4315, .Allocated)] by decide +kernel)
  obtain ⟨q, ns', hq, hj, hns'⟩ := listedStates_of (show listedStates ((forgetHive [sampleLog]).build apartWorld) =
    some [(4128, .Allocated), (4234, .Allocated), (4315, .Allocated)] by decide +kernel)
  obtain ⟨y, hy, hyo⟩ : ∃ y ∈ ns, (y.key.fileOffset, y.key.cellState) = (4396, .DeletedPrimaryFile) :=
    List.mem_map.1 (by rw [hns]; exact List.mem_cons_of_mem _ List.mem_cons_self)
  have ho : y.key.fileOffset = 4396 := congrArg Prod.fst hyo
  have gen : ∀ x : Option (Res HiveParser), (match x with
      | some (.ok q) => slice q.env.fi.buffer 4396 81 == slice (forgetHive []).primary 4396 81
      | _ => false) = true → x = some (.ok q) → slice q.env.fi.buffer 4396 81 = slice (forgetHive []).primary 4396 81 := by
    intro x hx he
    subst he
    exact eq_of_beq hx
  have hsz : (sizeAt (forgetHive [sampleLog]).primary 4396).natAbs = 81 := by decide +kernel
  obtain ⟨y', hy', he'⟩ := h apartWorld (forgetHive [sampleLog]) p q ns ns' 100 100 rfl hp hq hi hj y hy
    (congrArg Prod.snd hyo) (by rw [ho, hsz]; exact gen _ (by decide +kernel) hq)
  have : (y'.key.fileOffset, y'.key.cellState) ∈ ns'.map (fun n => (n.key.fileOffset, n.key.cellState)) :=
    List.mem_map.2 ⟨y', hy', rfl⟩
  rw [hns', he', ho] at this
  simp at this

/-- A value listed as found in a free cell is in a free cell of the file as it was opened. -/
def FreeIsFree : Prop :=
  ∀ (w : World) (b : Builder) (p : HiveParser) (ns : List Node) (N : Nat), b.build w = some (.ok p) →
    p.iterate N {} false true false = some (.ok ns) → ∀ y ∈ ns, ∀ x ∈ y.key.values,
      x.val.cellState = .DeletedPrimaryFile → 0 ≤ sizeAt p.env.fi.buffer x.val.fileOffset

/-- A bin with the root `RT`, its value `v` and a free value `w`. -/
def takenBin : Bytes :=
  hbinBytes 0 172 0 0 0 0 ++ ({ exampleCell 0x24 0 0 [0x52, 0x54] with nValues := 1, valuesList := 114 } : NkCell).encode ++
    (encI32 (-8) ++ encLE 4 122) ++ { freeValue with size := -25 }.encode ++
    { freeValue with nameBytes := [0x77] }.encode

/-- The log entry that gives the root the value `w` in place of `v`. -/
def takenEntry : RawEntry :=
  let e0 : RawEntry := ⟨0, 4, 4096, 0, 0, [(118, encLE 4 147), (147, encI32 (-25))], []⟩
  let e1 := { e0 with hash1 := (marvin32 defaultSeed (e0.encode.drop 40)).toNat }
  { e1 with hash2 := (marvin32 defaultSeed (e1.encode.take 32)).toNat }

def takenHive : Builder :=
  { primary := sampleHeader 5 4 4268 ++ List.replicate 3584 0 ++ takenBin,
    logs := [sampleHeader 4 4 4096 ++ takenEntry.encode], recover := true }

/-- C77 is violated for dirty hives: a cell that was free in the file without the logs, and is in use with them,
is listed twice, as value of the root and as deleted. -/
theorem deleted_stale_violated : ¬ FreeIsFree := by
  intro h
  have gen : ∀ x : Option (Res HiveParser), (match x with
      | some (.ok p) => match p.iterate 100 {} false true false with
        | some (.ok ns) => ns.any fun y => y.key.values.any fun v =>
            decide (v.val.cellState = .DeletedPrimaryFile ∧ sizeAt p.env.fi.buffer v.val.fileOffset < 0)
        | _ => false
      | _ => false) = true → ∃ p ns, x = some (.ok p) ∧ p.iterate 100 {} false true false = some (.ok ns) ∧
        ∃ y ∈ ns, ∃ v ∈ y.key.values, v.val.cellState = .DeletedPrimaryFile ∧
          sizeAt p.env.fi.buffer v.val.fileOffset < 0 := by
    intro x hx
    split at hx
    · next p =>
      split at hx
      · next ns hi =>
        obtain ⟨y, hy, hx⟩ := List.any_eq_true.1 hx
        obtain ⟨v, hv, hx⟩ := List.any_eq_true.1 hx
        exact ⟨p, ns, rfl, hi, y, hy, v, hv, of_decide_eq_true hx⟩
      · cases hx
    · cases hx
  obtain ⟨p, ns, hp, hi, y, hy, v, hv, h1, h2⟩ := gen (takenHive.build apartWorld) (by decide +kernel)
  have := h apartWorld takenHive p ns 100 hp hi y hy v hv h1
  omega

end Notatin
