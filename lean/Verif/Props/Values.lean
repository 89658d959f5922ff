import Verif.Props.Open
import Verif.Props.CompareFile
import Verif.Spec.Values
/-
C70: what is listed from a hive file, with the values of the keys and their data.
-/
namespace Notatin
open Spec

/-- What a value tells: name, number of the type, data. -/
def obsVal (v : Value) : Val := ⟨v.val.name, v.val.dataTypeRaw, v.val.valueBytes.getD []⟩

theorem pairwise2_len {α β : Type} {R : α → β → Prop} : ∀ {as : List α} {bs : List β}, Pairwise2 R as bs →
    as.length = bs.length
  | [], [], _ => rfl
  | [], _ :: _, h => absurd h (by simp [Pairwise2])
  | _ :: _, [], h => absurd h (by simp [Pairwise2])
  | _ :: as, _ :: bs, h => congrArg (· + 1) (pairwise2_len (as := as) (bs := bs) h.2)

/-- A value read from the file as it is now: not recovered, with its data, without a warning. -/
def Spec.PlainValue (v : Value) : Prop :=
  v.val.logs = {} ∧ v.versions = [] ∧ v.val.valueBytes ≠ none ∧ v.val.dataType = DataType.ofRaw v.val.dataTypeRaw ∧
    v.val.cellState = .Allocated

/-- What a stored value is read as. -/
theorem valueAt_read (env : Env) (seq : Option Nat) (off : Nat) (x : Val)
    (h : ValueAt env.fi.buffer env.fi.hbin off x) :
    valueOk env.fi off = true ∧
      ∀ v, IsValueAt env seq off v → obsVal v = x ∧ (v.val.seq = seq ∧ PlainValue v) := by
  obtain ⟨c, locs, hfit, hat, hn, ht, hs, hw, hdb⟩ := h
  obtain ⟨post, hg, _⟩ := at_getFrom hat
  have hd : env.fi.buffer.drop (off + env.fi.hbin) = c.encode ++ post := by
    unfold getFrom at hg
    split at hg
    · exact Option.some.inj hg
    · cases hg
  have hdec : ∃ kv, KeyValue.fromBytes (c.encode ++ post) (off + env.fi.hbin) seq = .ok (kv, post) ∧
      ValueMatches kv c x.name (off + env.fi.hbin) seq ∧ kv.logs = {} := by
    rcases hn with ⟨h1, h2, h3⟩ | ⟨h1, h2, h3⟩
    · obtain ⟨kv, e1, e2, _, e3⟩ := vk_decode_ascii c hfit h1 h2 post (off + env.fi.hbin) seq
      exact ⟨kv, e1, by rw [h3]; exact e2, e3⟩
    · exact vk_decode_utf16 c hfit x.name h1 h2 h3 post (off + env.fi.hbin) seq
  obtain ⟨kv, hkv, hm, hlg⟩ := hdec
  constructor
  · by_cases hr : valueOk env.fi off = true
    · exact hr
    · have := (vk_accepts_iff (env.fi.buffer.drop (off + env.fi.hbin)) (off + env.fi.hbin) seq).2
        (by unfold valueOk at hr; rwa [decide_eq_true_iff] at hr)
      rw [hd, hkv] at this
      cases this
  · rintro v ⟨kv', r, hk, rfl⟩
    rw [hd, hkv] at hk
    cases hk
    obtain ⟨_, _, m3, m4, m5, _, _, _, m9, m10, m11, m12, _, m14⟩ := hm
    have := value_data_partial env.fi (off + env.fi.hbin) c.dataSize c.dataOffset (DataType.ofRaw c.dataType)
      {} x.data locs hs (by rw [ht]; exact hw) hdb
    have e : (readValueBytesDirect kv.fileOffset kv.dataSizeRaw kv.dataOffset kv.dataType env.fi kv.logs).1
          = x.data ∧
        (readValueBytesDirect kv.fileOffset kv.dataSizeRaw kv.dataOffset kv.dataType env.fi kv.logs).2.2 = {} := by
      rw [m3, m4, m10, m14, hlg]; exact this
    refine ⟨?_, m11, e.2, rfl, nofun, ?_, m12⟩
    rotate_left
    · exact m14.trans (by rw [← m5]; rfl)
    show (⟨kv.name, kv.dataTypeRaw, (readValueBytesDirect kv.fileOffset kv.dataSizeRaw kv.dataOffset
      kv.dataType env.fi kv.logs).1⟩ : Val) = x
    rw [e.1, m9, m5, ht]

theorem valuesAt_all (env : Env) (seq : Option Nat) : ∀ (offs : List Nat) (xs : List Val) (vs : List Value),
    Pairwise2 (ValueAt env.fi.buffer env.fi.hbin) offs xs →
    (offs.all (valueOk env.fi) = true ∧
      (Pairwise2 (IsValueAt env seq) offs vs → vs.map obsVal = xs ∧ ∀ v ∈ vs, v.val.seq = seq ∧ PlainValue v))
  | [], [], vs, _ => ⟨rfl, fun h => by
      cases vs with
      | nil => exact ⟨rfl, fun v hv => absurd hv List.not_mem_nil⟩
      | cons => exact absurd h (by simp [Pairwise2])⟩
  | [], _ :: _, _, h => absurd h (by simp [Pairwise2])
  | _ :: _, [], _, h => absurd h (by simp [Pairwise2])
  | o :: os, x :: xs, vs, h => by
    obtain ⟨h1, h2⟩ := valueAt_read env seq o x h.1
    refine ⟨by rw [List.all_cons, h1, (valuesAt_all env seq os xs [] h.2).1]; rfl, fun hv => ?_⟩
    cases vs with
    | nil => exact absurd hv (by simp [Pairwise2])
    | cons v vs =>
      obtain ⟨e1, e2⟩ := (valuesAt_all env seq os xs vs h.2).2 hv.2
      refine ⟨by rw [List.map_cons, e1, (h2 v hv.1).1], fun u hu => ?_⟩
      rcases List.mem_cons.1 hu with rfl | hu
      · exact (h2 _ hv.1).2
      · exact e2 u hu

/-- The values read for a key are the stored ones, without a warning. -/
theorem readsValues_stored (env : Env) (seq : Option Nat) (k : KeyNode) (c : NkCell) (xs : List Val)
    (hn : k.nValues = c.nValues) (hl : k.valuesListOffset = c.valuesList) (h0 : k.values = [])
    (hx : ValuesAt env.fi.buffer env.fi.hbin c xs) (vs : List Value) (lg : Logs)
    (h : ReadsValues env seq k vs lg) :
    vs.map obsVal = xs ∧ (∀ v ∈ vs, v.val.seq = seq ∧ PlainValue v) ∧ lg = k.logs := by
  obtain ⟨hc, hmax, hx⟩ := hx
  unfold ReadsValues at h
  rcases hx with rfl | ⟨offs, listOff, size, h1, h2, h3, h4, h5, h6⟩
  · unfold valuesStep at h
    rw [if_neg (by rw [hn, hc]; simp)] at h
    have hv : k.values = vs := by
      have := congrArg (fun r : Res KeyNode => match r with | .ok k => k.values | _ => []) h
      exact this
    have hg : k.logs = lg := by
      have := congrArg (fun r : Res KeyNode => match r with | .ok k => k.logs | _ => {}) h
      exact this
    rw [h0] at hv
    subst hv
    exact ⟨rfl, fun v hv => absurd hv List.not_mem_nil, hg.symm⟩
  · by_cases hz : offs = []
    · subst hz
      cases xs with
      | cons => exact absurd h6 (by simp [Pairwise2])
      | nil =>
        unfold valuesStep at h
        rw [if_neg (by rw [hn, hc]; simp)] at h
        have hv : k.values = vs := by
          have := congrArg (fun r : Res KeyNode => match r with | .ok k => k.values | _ => []) h
          exact this
        have hg : k.logs = lg := by
          have := congrArg (fun r : Res KeyNode => match r with | .ok k => k.logs | _ => {}) h
          exact this
        rw [h0] at hv
        subst hv
        exact ⟨rfl, fun v hv => absurd hv List.not_mem_nil, hg.symm⟩
    · have hlen : offs.length = xs.length := pairwise2_len h6
      have hpos : 0 < offs.length := List.length_pos_iff.2 hz
      obtain ⟨vs', lg', e1, e2, e3⟩ := read_values_partial env ⟨0, [], none, true, seq, false⟩ .iterate k offs
        listOff size rfl (by rw [hn, hc, hlen]) hpos (by omega) (by rw [hl, h1]) h2 h3 h4 h5
      rw [e1] at h
      have hv : vs' = vs := by
        have := congrArg (fun r : Res KeyNode => match r with | .ok k => k.values | _ => []) h
        exact this
      have hg : lg' = lg := by
        have := congrArg (fun r : Res KeyNode => match r with | .ok k => k.logs | _ => {}) h
        exact this
      obtain ⟨a1, a2⟩ := valuesAt_all env seq offs xs vs h6
      have htw : offs.takeWhile (valueOk env.fi) = offs := by
        have : ∀ l : List Nat, l.all (valueOk env.fi) = true → l.takeWhile (valueOk env.fi) = l := by
          intro l
          induction l with
          | nil => intro _; rfl
          | cons a l ih =>
            intro h
            rw [List.all_cons, Bool.and_eq_true] at h
            rw [List.takeWhile_cons, if_pos h.1, ih h.2]
        exact this offs a1
      rw [htw, hv] at e2
      obtain ⟨b1, b2⟩ := a2 e2
      refine ⟨b1, b2, ?_⟩
      rw [← hg, e3, a1]; rfl

/-- Two descriptions of the key cell at one place agree on the values. -/
theorem keyAt_values (buf : Bytes) (off : Nat) (c d : NkCell) (n m : Str) (h1 : KeyAt buf off c n)
    (h2 : KeyAt buf off d m) : c.nValues = d.nValues ∧ c.valuesList = d.valuesList := by
  obtain ⟨k, r, s, g1, f1, m1, _⟩ := readKeyAt ⟨⟨0, buf⟩, fun b => b, 0⟩ off c n h1 [] none
  obtain ⟨k', r', s', g2, f2, m2, _⟩ := readKeyAt ⟨⟨0, buf⟩, fun b => b, 0⟩ off d m h2 [] none
  rw [g1] at g2
  cases g2
  rw [f1] at f2
  cases f2
  obtain ⟨_, _, _, _, _, _, _, _, _, a1, a2, _⟩ := m1
  obtain ⟨_, _, _, _, _, _, _, _, _, b1, b2, _⟩ := m2
  exact ⟨a1 ▸ b1, a2 ▸ b2⟩

/-- In a state without recovered items nothing is added to the values. -/
theorem updateModifiedLists_plain_values (st : State) (h1 : ∀ p, st.modifiedValues p = none)
    (h2 : ∀ p, st.deletedValues p = none) (fuel : Nat) (n m : Node)
    (h : updateModifiedLists st fuel n = .ok m) : m.key.values = n.key.values := by
  cases fuel with
  | zero => simp [updateModifiedLists] at h
  | succ fuel =>
    rw [updateModifiedLists] at h
    simp only at h
    split at h
    · cases h; rfl
    · split at h
      · cases h
      · cases h
      · cases h
        have : ∀ q, attachVersions st q = id := by
          intro q
          funext v
          unfold attachVersions
          rw [h1]; rfl
        cases n
        simp only [Node.key, h2, this, List.map_id]

/-- Nothing was recovered. -/
def State.Plain (st : State) : Prop :=
  (∀ p, st.deletedKeys p = none) ∧ (∀ p, st.modifiedValues p = none) ∧ (∀ p, st.deletedValues p = none) ∧
    ∀ p, st.modifiedKeys p = none

/-- In a state without recovered items a key gets no versions. -/
theorem updateModifiedLists_plain_versions (st : State) (h1 : ∀ p, st.modifiedKeys p = none) (fuel : Nat) (n m : Node)
    (h0 : n.versions = []) (h : updateModifiedLists st fuel n = .ok m) : m.versions = [] := by
  cases fuel with
  | zero => simp [updateModifiedLists] at h
  | succ fuel =>
    rw [updateModifiedLists] at h
    simp only at h
    split at h
    · cases h; exact h0
    · split at h
      · cases h
      · cases h
      · cases h
        cases n
        simp only [Node.versions, h1] at h0 ⊢
        exact h0

/-- A node shows the key `u` with the values `xs`: where it is, its name, when it was written, its flags, how
many sub-keys it has, and the values with their names, types and data, in order; nothing is recovered and no
value has a warning. -/
def Spec.KeyTold (u : Tree) (xs : List Val) (n : Node) : Prop :=
  n.key.fileOffset = u.off ∧ n.key.name = u.name ∧ n.key.lastWritten = u.cell.lastWritten ∧
  n.key.flagBits = u.cell.flags ∧ n.key.accessBits = u.cell.access ∧
  n.key.subKeyOffsets.length = u.kids.length ∧ n.key.cellState = .Allocated ∧ n.key.seq = none ∧
  n.versions = [] ∧ n.key.values.map obsVal = xs ∧ ∀ v ∈ n.key.values, v.val.seq = none ∧ PlainValue v

/-- A key read with its values is told. -/
theorem reads_told (env : Env) (st : State) (hst : st.Plain) (gm : Bool) (path : Str) (u : Tree)
    (s : Option FilterMatchState) (n : Node) (hr : Reads env st gm none path u s n)
    (hs : s ≠ some .None) (xs : List Val) (hx : ValuesAt env.fi.buffer env.fi.hbin u.cell xs) :
    (n.key.fileOffset = u.off ∧ n.key.name = u.name ∧ n.key.lastWritten = u.cell.lastWritten ∧
      n.key.flagBits = u.cell.flags ∧ n.key.accessBits = u.cell.access ∧ n.key.cellState = .Allocated ∧
      n.key.seq = none) ∧ n.versions = [] ∧
    n.key.values.map obsVal = xs ∧ ∀ v ∈ n.key.values, v.val.seq = none ∧ PlainValue v := by
  have hkey := hr.key
  obtain ⟨k, vs, lg, s0, m, h1, h2, h3, h4, h5⟩ := hr
  have hm1 := h1
  obtain ⟨_, _, _, _, _, _, _, _, _, a1, a2, _⟩ := h1
  obtain ⟨b1, b2, _⟩ := readsValues_stored env none k u.cell xs a1 a2 h2.2.2.2.2.2.2.1 hx vs lg (h5 hs)
  have hv : n.key.values = vs ∧ n.versions = [] := by
    rw [h4]
    show m.key.values = vs ∧ m.versions = []
    by_cases hg : gm = true
    · rw [if_pos hg] at h3
      rw [updateModifiedLists_plain_values st hst.2.1 hst.2.2.1 _ _ _ h3]
      exact ⟨rfl, updateModifiedLists_plain_versions st hst.2.2.2 _ _ _ rfl h3⟩
    · rw [if_neg hg] at h3
      rw [h3]; exact ⟨rfl, rfl⟩
  refine ⟨?_, hv.2, by rw [hv.1]; exact b1, by rw [hv.1]; exact b2⟩
  obtain ⟨k', vs', lg', hk, _, e⟩ := hkey
  obtain ⟨_, g2, g3, g4, _, _, _, _, _, _, _, _, _, _, _, _, _, _, _, _, _, g22, _, g24, g25, g26, _⟩ := hk
  rw [e]
  exact ⟨g24, g22, g3, g2, g4, g26, g25⟩

mutual
theorem every_nodes {p : Tree → Prop} : ∀ (t : Tree), t.Every p → ∀ u ∈ t.nodes, p u
  | .mk off c name kids, h, u, hu => by
    rw [Tree.nodes] at hu
    rcases List.mem_cons.1 hu with rfl | hu
    · exact every_self h
    · exact everyAll_nodes kids (every_kids h) u hu
theorem everyAll_nodes {p : Tree → Prop} : ∀ (ts : List Tree), EveryAll p ts → ∀ u ∈ nodesAll ts, p u
  | [], _, u, hu => absurd hu List.not_mem_nil
  | t :: ts, h, u, hu => by
    rw [EveryAll] at h
    rw [nodesAll] at hu
    rcases List.mem_append.1 hu with hu | hu
    · exact every_nodes t h.1 u hu
    · exact everyAll_nodes ts h.2 u hu
end

/-- The tree of keys is stored in the file, and every key has the values `vals` gives for its cell. -/
structure Spec.StoredHive (w : World) (buf : Bytes) (t : Tree) (vals : Nat → List Val) : Prop
    extends StoredTree w buf t where
  values : t.Every fun u => ValuesAt buf 4096 u.cell (vals u.off)

/-- The parser shows exactly the keys of the tree, in pre-order, each with exactly its values (name, type,
data) in order, as they are stored. -/
def Spec.TellsAll (p : HiveParser) (t : Tree) (vals : Nat → List Val) : Prop :=
  ∀ gm anc, ∃ steps ns, p.iterate steps {} false gm anc = some (.ok ns) ∧
    ns.map (fun n => (obs n, n.key.values.map obsVal)) = (t.pre []).map (fun e => (e, vals e.1)) ∧
    ∀ n ∈ ns, ∃ u ∈ t.nodes, KeyTold u (vals u.off) n

theorem liveKeys_all {ns : List Node} (h : liveKeys ns = ns.map obs) :
    ∀ n ∈ ns, n.key.cellState = .Allocated := by
  intro n hn
  unfold liveKeys at h
  have := congrArg List.length h
  rw [List.length_map, List.length_map] at this
  have := List.filter_eq_self.1 ((List.filter_sublist).eq_of_length this) n hn
  exact of_decide_eq_true this

/-- A shown key is told. -/
theorem shown_told (w : World) (buf : Bytes) (st : State) (t : Tree) (vals : Nat → List Val)
    (hn : st.Plain) (ht : StoredHive w buf t vals) (n : Node)
    (hs : ∃ u ∈ t.nodes, IsShown (w.env buf) st true u n) : ∃ u ∈ t.nodes, KeyTold u (vals u.off) n := by
  obtain ⟨u, hu, gm, path, s, m, so, tr, _, hr, hkey, hlen, hver, hfs⟩ := hs
  refine ⟨u, hu, ?_⟩
  have hsf : s ≠ some .None := by
    have h := hfs rfl
    rw [hkey] at h
    rw [← hr.facts.2.2.2.2.2.1]
    exact h
  obtain ⟨⟨a1, a2, a3, a4, a5, a6, a7⟩, a8, a9, a10⟩ := reads_told (w.env buf) st hn gm path u s m hr hsf
    (vals u.off) (every_nodes t ht.values u hu)
  unfold KeyTold
  rw [hver, hkey]
  exact ⟨a1, a2, a3, a4, a5, hlen, a6, a7, a8, a9, a10⟩

theorem told_map {ns : List Node} {t : Tree} {vals : Nat → List Val}
    (h : ∀ n ∈ ns, ∃ u ∈ t.nodes, KeyTold u (vals u.off) n) :
    ns.map (fun n => (obs n, n.key.values.map obsVal)) = (ns.map obs).map (fun e => (e, vals e.1)) := by
  rw [List.map_map]
  apply List.map_congr_left
  intro n hnm
  obtain ⟨u, _, h1, _, _, _, _, _, _, _, _, h2, _⟩ := h n hnm
  show (obs n, _) = (obs n, vals n.key.fileOffset)
  rw [h2, h1]

/-- A file opened without recovery tells what is stored. -/
theorem plain_tells (w : World) (buf : Bytes) (bb : BaseBlock) (st : State) (t : Tree) (vals : Nat → List Val)
    (hd : 0 < w.depth) (hn : st.Plain) (ht : StoredHive w buf t vals) :
    ∃ root, initRoot (w.env buf) st = .ok (some root, st.rootOffset) ∧
      TellsAll ⟨w.env buf, bb, st, some root⟩ t vals := by
  have hatt : AttachOk (w.env buf) st := attachOk_empty _ _ hd hn.1
  have hdel : StateDel st := by
    intro p ds h
    rw [hn.1] at h; cases h
  obtain ⟨root, hr, hl⟩ := plain_lists w buf bb st t hd hn.1 ht.toStoredTree
  refine ⟨root, hr, fun gm anc => ?_⟩
  obtain ⟨steps0, ns0, hi0, hobs⟩ := hl gm anc
  obtain ⟨root', steps, ns, live, h1, h2, h3, h4, h5, h6, h7⟩ := iteration_shown (w.env buf) st t gm anc
    ht.bin ht.top ht.tree ht.once hdel hatt
  rw [hr] at h1
  cases h1
  have hsame : ns0 = ns := by
    have := collect_unique (fuelMono_pre (w.env buf)) _ _ _ _ _ hi0 h2
    cases this; rfl
  subst hsame
  have hall := liveKeys_all (h6.trans hobs.symm)
  have hval := fun n hnm => shown_told w buf st t vals hn ht n (h7 n hnm (hall n hnm))
  refine ⟨steps0, ns0, hi0, ?_, hval⟩
  rw [← hobs]
  exact told_map hval

/-- Without recovery: what an opened hive was read from. -/
theorem built_plain (w : World) (b : Builder) (p : HiveParser) (hrec : b.recover = false)
    (h : b.build w = some (.ok p)) (hroot : p.root ≠ none) :
    p.env = w.env p.env.fi.buffer ∧ p.state.Plain ∧ p.state.rootOffset = 0 ∧
      initRoot p.env p.state = .ok (p.root, p.state.rootOffset) := by
  unfold Builder.build at h
  split at h
  · cases h
  · cases h
  · rename_i logs warn hlogs
    split at h
    · cases h
    · cases h
    · rename_i sup hv ho
      have hoff : hv.hbinOffset = 4096 := openHive_hbin _ _ _ _ _ _ _ _ ho
      have hr' : hv.recovery = some (.ok ({}, [])) := by
        rw [hrec, analyze_false, initItems_false, scan_false] at ho
        exact openHive_inv _ _ _ (· = some (.ok ({}, []))) (fun _ _ _ s h => h)
          (fun _ s s' h e => by cases e; exact h) (fun _ _ s s' h e => by cases e; exact h) _ _ _ _ _ rfl ho
      rw [hr'] at h
      simp only at h
      cases sup with
      | false => cases h; exact absurd rfl hroot
      | true =>
        simp only [if_true] at h
        split at h
        · cases h
        · cases h
        · rename_i root ro hi
          cases h
          obtain ⟨_, hro, _⟩ := initRoot_other _ _ {} _ _ hi (fun _ => rfl)
          subst hro
          refine ⟨?_, ⟨fun _ => rfl, fun _ => rfl, fun _ => rfl, fun _ => rfl⟩, rfl, hi⟩
          unfold World.env
          rw [hoff]

/-- C70: whatever hive is opened, with whatever logs (and without recovery): the iteration shows exactly the
keys stored in the file as it is after the logs were applied, each with exactly its stored values: names, types
and data, in order and without a warning. -/
theorem opened_tells (w : World) (b : Builder) (p : HiveParser) (t : Tree) (vals : Nat → List Val)
    (hd : 0 < w.depth) (hrec : b.recover = false) (h : b.build w = some (.ok p)) (hroot : p.root ≠ none)
    (ht : StoredHive w p.env.fi.buffer t vals) : TellsAll p t vals := by
  obtain ⟨h1, h2, _, h3⟩ := built_plain w b p hrec h hroot
  obtain ⟨root, hr, hl⟩ := plain_tells w p.env.fi.buffer p.header p.state t vals hd h2 ht
  rw [← h1, h3] at hr
  have e : p = ⟨w.env p.env.fi.buffer, p.header, p.state, some root⟩ := by
    have : p.root = some root := by
      have := congrArg (fun r : Res (Option Node × Nat) => match r with | .ok x => x.1 | _ => none) hr
      exact this
    rw [← h1, ← this]
  rw [e]
  exact hl

/-- C70, clean files: the keys and values stored in the file itself. -/
theorem open_clean_tells (w : World) (b : Builder) (bb : BaseBlock) (rest : Bytes) (t : Tree)
    (vals : Nat → List Val) (hd : 0 < w.depth) (hrec : b.recover = false)
    (hlogs : ∃ x, TransactionLog.parse b.logs = .ok x)
    (hp : BaseBlock.fromBytes b.primary = .ok (bb, rest)) (hsup : bb.base.fileType ≠ .unknown)
    (hclean : bb.base.primarySeq = bb.base.secondarySeq)
    (hck : calculateChecksum (b.primary.take 512) = .ok bb.base.checksum)
    (ht : StoredHive w b.primary t vals) :
    ∃ p, b.build w = some (.ok p) ∧ p.header = bb ∧ TellsAll p t vals := by
  obtain ⟨p, h1, h2, h3, hne, _⟩ := open_clean_lists w b bb rest t hd hrec hlogs hp hsup hclean hck ht.toStoredTree
  exact ⟨p, h1, h3, opened_tells w b p t vals hd hrec h1 hne (by rw [h2]; exact ht)⟩

/-- C70, dirty files (partial: as `open_dirty_lists_partial`). -/
theorem open_dirty_tells_partial (w : World) (b : Builder) (bb : BaseBlock) (rest : Bytes)
    (logs : List TransactionLog) (warn : Option Logs) (hd : 0 < w.depth) (hrec : b.recover = false)
    (hlogs : TransactionLog.parse b.logs = .ok (logs, warn))
    (hp : BaseBlock.fromBytes b.primary = .ok (bb, rest)) (hsup : bb.base.fileType ≠ .unknown)
    (hck : calculateChecksum (b.primary.take 512) = .ok bb.base.checksum)
    (hdirty : bb.base.primarySeq ≠ bb.base.secondarySeq) (hsec : 0 < bb.base.secondarySeq)
    (hsound : ∀ l ∈ logs, SoundLog l)
    (hfresh : ∃ l ∈ logs, bb.base.secondarySeq ≤ l.base.primarySeq) :
    ∃ used : List TransactionLog, used.Sublist logs ∧
      used.head? = logs.find? (fun l => decide (bb.base.secondarySeq ≤ l.base.primarySeq)) ∧
      Consecutive (used.flatMap (·.entries)) ∧
      (EntriesFit 4096 bb.base.hiveBinsDataSize (used.flatMap (·.entries)) b.primary.length →
        ∃ new, Replayed b.primary (used.flatMap (·.entries)) new ∧
          ∀ t vals, StoredHive w new t vals → ∃ p, b.build w = some (.ok p) ∧ TellsAll p t vals) := by
  obtain ⟨used, h1, h2, h3, h4, _⟩ := open_dirty_lists_partial w b bb rest logs warn hd hrec hlogs hp hsup hck
    hdirty hsec hsound hfresh
  refine ⟨used, h1, h2, h3, fun hf => ?_⟩
  obtain ⟨new, last, h5, _, h6⟩ := h4 hf
  refine ⟨new, h5, fun t vals ht => ?_⟩
  obtain ⟨p, h7, h8, h9, _⟩ := h6 t ht.toStoredTree
  exact ⟨p, h7, opened_tells w b p t vals hd hrec h7 h9 (by rw [h8]; exact ht)⟩

/-- C70 with a filter (partial: the conditions of C11 on the names and the filter).  In a hive opened without
recovery, the iteration with a filter shows exactly the keys asked for, each with exactly its stored values. -/
theorem opened_filter_tells_partial (w : World) (b : Builder) (p : HiveParser) (t : Tree)
    (vals : Nat → List Val) (hd : 0 < w.depth) (hrec : b.recover = false) (h : b.build w = some (.ok p))
    (hroot : p.root ≠ none) (ht : StoredHive w p.env.fi.buffer t vals)
    (P : List Seg) (q : RegQuery) (gm : Bool) (hq : q.keyPath = P.map Seg.component)
    (hnames : t.Every (fun u => '\\' ∉ u.name))
    (hflags : q.hasRoot = false → EveryAll (fun u => u.cell.flags.testBit 2 = false) t.kids)
    (hlong : (segments q.hasRoot [t.name]).length < P.length) :
    ∃ steps ns, p.iterate steps ⟨some q⟩ false gm false = some (.ok ns) ∧
      ns.map (fun n => (obs n, n.key.values.map obsVal)) =
        (filtered P q.hasRoot q.children false t).map (fun e => (e, vals e.1)) ∧
      ∀ n ∈ ns, ∃ u ∈ t.nodes, KeyTold u (vals u.off) n := by
  obtain ⟨h1, h2, h0, h3⟩ := built_plain w b p hrec h hroot
  have hbuf : p.env.fi.hbin = 4096 := by rw [h1]; rfl
  have hdep : p.env.depth = w.depth := by rw [h1]; rfl
  have hatt : AttachOk p.env p.state := attachOk_empty _ _ (by rw [hdep]; exact hd) h2.1
  have hdel : StateDel p.state := by
    intro q ds hds
    rw [h2.1] at hds; cases hds
  have hfi : p.env.fi = ⟨4096, p.env.fi.buffer⟩ := by
    conv => lhs; rw [h1]
    rfl
  obtain ⟨root, steps, ns, live, e1, e2, e3, e4, e5, e6, e7⟩ := filter_shown p.env p.state t P q gm false hq
    (by rw [hfi]; exact ht.bin) (by rw [hbuf]; exact ht.top) (by rw [hbuf, hdep]; exact ht.tree) ht.once hdel hatt
    (.inl h0) hnames hflags (.inr ⟨rfl, hlong⟩)
  rw [h3] at e1
  have hr : p.root = some root := by
    have := congrArg (fun r : Res (Option Node × Nat) => match r with | .ok x => x.1 | _ => none) e1
    exact this
  have hflat : ∀ l : List Node, (∀ n ∈ l, IsRead p.env p.state n) → l.flatMap withRecovered = l.map obs := by
    intro l
    induction l with
    | nil => intro _; rfl
    | cons n l ih =>
      intro hl
      rw [List.flatMap_cons, List.map_cons, ih (fun m hm => hl m (List.mem_cons_of_mem _ hm))]
      obtain ⟨gm, q, u, s, _, hrd⟩ := hl n List.mem_cons_self
      unfold withRecovered
      rw [reads_none p.env p.state h2.1 gm q u s n hrd]
      rfl
  rw [hflat live e5] at e4
  have hall := liveKeys_all (e6.trans e4.symm)
  have hval := fun n hnm => shown_told w p.env.fi.buffer p.state t vals h2 ht n
    (by rw [← h1]; exact e7 n hnm (hall n hnm))
  refine ⟨steps, ns, ?_, ?_, hval⟩
  · unfold HiveParser.iterate
    rw [hr]; exact e2
  · rw [← e3, ← e4]
    exact told_map hval

/-- The first value with the name (up to the case of ASCII letters). -/
def Spec.FirstNamed (vs : List Val) (name : Str) : Option Val → Prop
  | some v => ∃ pre post, vs = pre ++ v :: post ∧ SameIgnoringCase v.name name ∧
      ∀ u ∈ pre, ¬ SameIgnoringCase u.name name
  | none => ∀ u ∈ vs, ¬ SameIgnoringCase u.name name

theorem getValue_first (k : KeyNode) (name : Str) :
    FirstNamed (k.values.map obsVal) name ((k.getValue name).map obsVal) := by
  cases hg : k.getValue name with
  | none =>
    intro u hu
    obtain ⟨v, hv, rfl⟩ := List.mem_map.1 hu
    exact (get_value_none k name).1 hg v hv
  | some v =>
    obtain ⟨pre, post, h1, h2, h3⟩ := (get_value_first k name v).1 hg
    refine ⟨pre.map obsVal, post.map obsVal, by rw [h1, List.map_append, List.map_cons], h2, fun u hu => ?_⟩
    obtain ⟨x, hx, rfl⟩ := List.mem_map.1 hu
    exact h3 x hx

/-- A key read with its values has the stored ones. -/
theorem isRead_values (env : Env) (st : State) (hst : st.Plain) (n : Node) (h : IsRead env st n)
    (hs : n.key.filterState ≠ some .None) (c : NkCell) (name : Str) (xs : List Val)
    (hk : KeyAt env.fi.buffer n.key.fileOffset c name) (hx : ValuesAt env.fi.buffer env.fi.hbin c xs) :
    n.key.values.map obsVal = xs ∧ ∀ v ∈ n.key.values, v.val.seq = none ∧ PlainValue v := by
  obtain ⟨gm, path, t, s, hat, hr⟩ := h
  have hf := hr.facts
  rw [hf.2.2.2.2.2.1] at hs
  rw [hf.1] at hk
  obtain ⟨e1, e2⟩ := keyAt_values _ _ _ _ _ _ hat hk
  exact (reads_told env st hst gm path t s n hr hs xs (by unfold ValuesAt at hx ⊢; rw [e1, e2]; exact hx)).2.2

mutual
/-- The keys of a listing are the keys of the tree. -/
theorem pre_stored (p : Tree → Prop) (buf : Bytes) (hbin depth : Nat) : ∀ (t : Tree) (path : Str),
    TreeAt buf hbin depth t → t.Every p → ∀ e ∈ t.pre path, ∃ u : Tree, u.off = e.1 ∧
      KeyAt buf u.off u.cell u.name ∧ p u
  | .mk off c name kids, path, ht, hp, e, he => by
    have hk := treeAt_keyAt ht
    rw [Tree.pre] at he
    rcases List.mem_cons.1 he with rfl | he
    · exact ⟨_, rfl, hk, every_self hp⟩
    · rw [TreeAt] at ht
      exact preAll_stored p buf hbin depth kids _ ht.2.2 (every_kids hp) e he
theorem preAll_stored (p : Tree → Prop) (buf : Bytes) (hbin depth : Nat) : ∀ (ts : List Tree) (path : Str),
    ForestAt buf hbin depth ts → EveryAll p ts → ∀ e ∈ preAll path ts, ∃ u : Tree, u.off = e.1 ∧
      KeyAt buf u.off u.cell u.name ∧ p u
  | [], _, _, _, e, he => absurd he List.not_mem_nil
  | t :: ts, path, ht, hp, e, he => by
    rw [preAll] at he
    rw [ForestAt] at ht
    rw [EveryAll] at hp
    rcases List.mem_append.1 he with he | he
    · exact pre_stored p buf hbin depth t path ht.2.1 hp.1 e he
    · exact preAll_stored p buf hbin depth ts path ht.2.2 hp.2 e he
end

/-- C70, one lookup from the file to the data: in a hive opened without recovery, `get_key` with the names
`segs` finds the first key with these names (or none iff there is none), with all its stored values; and
`get_value` on it finds the first of the stored values with that name, with its type and data. -/
theorem opened_lookup_partial (w : World) (b : Builder) (p : HiveParser) (t : Tree) (vals : Nat → List Val)
    (hd : 0 < w.depth) (hrec : b.recover = false) (h : b.build w = some (.ok p)) (hroot : p.root ≠ none)
    (ht : StoredHive w p.env.fi.buffer t vals) (hrco : p.header.base.rootCellOffset = 32)
    (hnames : t.Every (fun u => '\\' ∉ u.name))
    (segs : List Str) (hsegs : ∀ s ∈ segs, '\\' ∉ s ∧ s ≠ []) (hdepth : segs.length ≤ w.depth) :
    ∃ r ro, getKey p.env p.state p.header.base.rootCellOffset (joined segs) false = .ok (r, ro) ∧
      r.map obs = firstAt segs t ∧
      ∀ n, r = some n → n.key.values.map obsVal = vals n.key.fileOffset ∧
        ∀ name, FirstNamed (vals n.key.fileOffset) name ((n.key.getValue name).map obsVal) := by
  obtain ⟨h1, h2, h0, h3⟩ := built_plain w b p hrec h hroot
  have hbuf : p.env.fi.hbin = 4096 := by rw [h1]; rfl
  have hdep : p.env.depth = w.depth := by rw [h1]; rfl
  have hatt : AttachOk p.env p.state := attachOk_empty _ _ (by rw [hdep]; exact hd) h2.1
  have htree : TreeAt p.env.fi.buffer p.env.fi.hbin p.env.depth t := by rw [hbuf, hdep]; exact ht.tree
  have hoff : t.off = (32 : Int).toNat + p.env.fi.hbin := by rw [hbuf, ht.top]; rfl
  obtain ⟨⟨r, ro, e1, _, e2, e3⟩, _⟩ := get_key_found p.env p.state t 32 (by omega) hoff htree hatt (.inl h0)
    hnames segs hsegs (by omega) 0 0 (fun _ => rfl) ['x'] (by decide)
  rw [hrco]
  refine ⟨r, ro, by simpa using e1, e2, fun n hn => ?_⟩
  suffices hv : n.key.values.map obsVal = vals n.key.fileOffset from
    ⟨hv, fun name => by rw [← hv]; exact getValue_first n.key name⟩
  have hmem : obs n ∈ t.pre [] := by
    rw [hn, Option.map_some] at e2
    have := List.mem_of_mem_head? (Option.mem_def.2 e2.symm)
    obtain ⟨x, hx, he⟩ := List.mem_map.1 this
    rw [← named_pre t [] []]
    exact List.mem_map.2 ⟨x, (List.mem_filter.1 hx).1, he⟩
  obtain ⟨u, hu1, hu2, hu3⟩ := pre_stored _ _ _ _ t [] ht.tree ht.values _ hmem
  have hu1 : u.off = n.key.fileOffset := hu1
  have key : IsRead p.env p.state n ∧ n.key.filterState ≠ some .None := by
    rcases e3 n hn with ⟨q, t', hk, hr⟩ | hr
    · exact ⟨⟨false, q, t', _, hk, hr⟩, by rw [hr.facts.2.2.2.2.2.1]; simp⟩
    · unfold getRootKey at hr
      rw [if_neg (by omega)] at hr
      obtain ⟨m, hm, hreads⟩ := readKey_unfiltered p.env p.state
        ⟨(32 : Int).toNat + p.env.fi.hbin, [], none, true, none, true⟩ t
        (treeAt_keyAt htree) hoff.symm (fun _ => hatt) rfl
      rw [hm] at hr
      cases hr
      exact ⟨⟨true, [], t, none, treeAt_keyAt htree, hreads⟩, by rw [hreads.facts.2.2.2.2.2.1]; simp⟩
  have := isRead_values p.env p.state h2 n key.1 key.2 u.cell u.name (vals u.off)
    (by rw [← hu1]; exact hu2) (by rw [hbuf]; exact hu3)
  rw [← hu1]
  exact this.1

/-! ### Examples -/

/-- The root key `RT` with two values: `a`, a number, and the default value, a text. -/
def valuedKey : NkCell := { exampleCell 0x24 0 0 [0x52, 0x54] with nValues := 2, valuesList := 114 }

def valuedBin : Bytes :=
  hbinBytes 0 186 0 0 0 0 ++ valuedKey.encode ++ (encLE 4 0xFFFFFFF4 ++ [126, 154].flatMap (encLE 4)) ++
    VkCell.encode ⟨-28, 0x80000004, 5, 4, 1, 0, [0x61], [0, 0, 0]⟩ ++
    VkCell.encode ⟨-24, 4, 178, 1, 0, 0, [], []⟩ ++ (encI32 (-8) ++ [0x68, 0, 0x69, 0])

def valuedHive : Bytes := sampleHeader 5 5 4282 ++ List.replicate 3584 0 ++ valuedBin

def valuedTree : Tree := .mk 4128 valuedKey ['R', 'T'] []

def valuedVals (off : Nat) : List Val :=
  if off = 4128 then [⟨['a'], 4, [5, 0, 0, 0]⟩, ⟨[], 1, [0x68, 0, 0x69, 0]⟩] else []

theorem valuedHive_stored : StoredHive sampleWorld valuedHive valuedTree valuedVals := by
  have hl : (sampleHeader 5 5 4282 ++ List.replicate 3584 (0 : UInt8)).length = 4096 := by
    rw [List.length_append, List.length_replicate]
    simp only [sampleHeader, List.length_append, length_encLE, List.length_replicate]
    rfl
  have hat : ∀ (off : Nat) (enc : Bytes), valuedBin = valuedBin.take off ++ (enc ++ valuedBin.drop (off + enc.length)) →
      off ≤ 186 → At valuedHive (4096 + off) enc := by
    intro off enc he ho
    have hb : valuedBin.length = 186 := by decide +kernel
    refine ⟨(sampleHeader 5 5 4282 ++ List.replicate 3584 0) ++ valuedBin.take off, valuedBin.drop (off + enc.length), ?_, ?_⟩
    · unfold valuedHive
      conv => lhs; rw [he]
      rw [List.append_assoc _ (valuedBin.take off)]
    · rw [List.length_append, hl, List.length_take, hb]; omega
  refine ⟨⟨⟨0, 186, 0, 0, 0, 0, by decide, by decide, by decide, by decide, by decide, by decide, ?_⟩, rfl, ?_, ?_⟩, ?_⟩
  · exact hat 0 _ (by decide +kernel) (by decide)
  · unfold valuedTree
    rw [TreeAt, ForestAt]
    exact ⟨⟨by unfold NkCell.Fits isI32; decide, hat 32 _ (by decide +kernel) (by decide), .inl ⟨by decide, by decide⟩⟩, .inl ⟨rfl, rfl⟩, trivial⟩
  · show ([4128] : List Nat).Nodup
    decide
  · unfold valuedTree
    rw [Tree.Every, EveryAll]
    refine ⟨⟨rfl, by decide, .inr ⟨[126, 154], 114, 0xFFFFFFF4, rfl, by decide, by decide, by decide,
      hat 114 _ (by decide +kernel) (by decide), ?_⟩⟩, trivial⟩
    refine ⟨⟨⟨-28, 0x80000004, 5, 4, 1, 0, [0x61], [0, 0, 0]⟩, [4096 + 126 + 12], by unfold VkCell.Fits isI32; decide,
      hat 126 _ (by decide +kernel) (by decide), .inl ⟨by decide, ?_, by decide⟩, rfl, ?_, ?_, .inl (by decide)⟩,
      ⟨⟨-24, 4, 178, 1, 0, 0, [], []⟩, [4096 + 178 + 4], by unfold VkCell.Fits isI32; decide,
      hat 154 _ (by decide +kernel) (by decide), .inr ⟨by decide, by decide, by decide⟩, rfl, ?_, .inl (by decide), .inl (by decide)⟩,
      trivial⟩
    · intro i hi
      cases i with
      | zero => rfl
      | succ i =>
        simp [Nat.testBit_succ] at hi
    · exact .resident [5, 0, 0, 0] [] rfl
    · exact .inr ⟨4, by decide, by decide⟩
    · exact .plain 178 (-8) [0x68, 0, 0x69, 0] (by decide) (by decide) (hat 178 _ (by decide +kernel) (by decide))

/-- The hypotheses of `open_clean_tells`, `opened_tells`, and `opened_lookup_partial`: the hive is opened and
tells its key with the two values; looking up the empty path and the name `A` gives the number 5. -/
example : ∃ p, ({ primary := valuedHive } : Builder).build sampleWorld = some (.ok p) ∧
    TellsAll p valuedTree valuedVals := by
  have hh : (match BaseBlock.fromBytes valuedHive with
      | .ok (bb, _) => decide (bb.base.fileType ≠ .unknown ∧ bb.base.primarySeq = bb.base.secondarySeq ∧
          calculateChecksum (valuedHive.take 512) = .ok bb.base.checksum)
      | _ => false) = true := by decide +kernel
  cases hb : BaseBlock.fromBytes valuedHive with
  | err => rw [hb] at hh; cases hh
  | panic => rw [hb] at hh; cases hh
  | ok x =>
    rw [hb] at hh
    obtain ⟨h1, h2, h3⟩ := of_decide_eq_true hh
    obtain ⟨p, h4, _, h5⟩ := open_clean_tells sampleWorld { primary := valuedHive } x.1 x.2 valuedTree valuedVals
      (by decide) rfl ⟨([], none), by decide +kernel⟩ hb h1 h2 h3 valuedHive_stored
    exact ⟨p, h4, h5⟩

example : (valuedTree.pre []).map (fun e => (e, valuedVals e.1)) =
    [((4128, "\\RT".toList), [⟨['a'], 4, [5, 0, 0, 0]⟩, ⟨[], 1, [0x68, 0, 0x69, 0]⟩])] := by decide +kernel

example : FirstNamed (valuedVals 4128) ['A'] (some ⟨['a'], 4, [5, 0, 0, 0]⟩) :=
  ⟨[], _, rfl, by decide, nofun⟩

end Notatin
