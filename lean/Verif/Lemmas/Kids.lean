import Verif.Lemmas.Termination
import Verif.Props.Termination
/-
Reading the sub-keys of a key of a stored tree, for any filter.
-/
namespace Notatin
open Spec

/-- `vs` are the values the key `k` is read with when its values are read. -/
def ReadsValues (env : Env) (seq : Option Nat) (k : KeyNode) (vs : List Value) (lg : Logs) : Prop :=
  valuesStep env ⟨0, [], none, true, seq, false⟩ .iterate k = .ok { k with values := vs, logs := lg }

theorem readsValues_of {env : Env} {o : ReadOptions} {flags : FilterFlags} {k : KeyNode}
    {vs : List Value} {lg : Logs} (h : valuesStep env o flags k = .ok { k with values := vs, logs := lg })
    (hr : shouldReadValues o.filter flags o.selfMatch = true) : ReadsValues env o.seq k vs lg := by
  unfold ReadsValues
  unfold valuesStep at h ⊢
  rw [hr] at h
  exact h

/-- The node `n` is the stored key `t` below `path`, with the recovered items of `st` attached when
`gm`, and the filter state `s`; unless the filter state says that it is neither matched nor below a
match, with its values. -/
def Reads (env : Env) (st : State) (gm : Bool) (seq : Option Nat) (path : Str) (t : Tree)
    (s : Option FilterMatchState) (n : Node) : Prop :=
  ∃ k vs lg s0 m, KeyMatches k t.cell path t.name t.off seq ∧ Fresh k ∧
    (if gm = true then
      updateModifiedLists st env.depth
        (.mk { k with values := vs, logs := lg, filterState := s0 } [] []) = .ok m
     else m = .mk { k with values := vs, logs := lg, filterState := s0 } [] []) ∧
    n = m.setKey { m.key with filterState := s } ∧
    (s ≠ some .None → ReadsValues env seq k vs lg)

theorem Reads.key {env st gm seq path t s n} (h : Reads env st gm seq path t s n) :
    ∃ k vs lg, KeyMatches k t.cell path t.name t.off seq ∧ Fresh k ∧
      n.key = { k with values := vs, logs := lg, filterState := s } := by
  obtain ⟨k, vs, lg, s0, m, hk, hf, hm, rfl, _⟩ := h
  by_cases hg : gm = true
  · rw [if_pos hg] at hm
    have := updateModifiedLists_key _ _ _ _ hm
    refine ⟨k, m.key.values, lg, hk, hf, ?_⟩
    show ({ m.key with filterState := s } : KeyNode) = _
    rw [this]
    rfl
  · rw [if_neg hg] at hm
    subst hm
    exact ⟨k, vs, lg, hk, hf, rfl⟩

/-- The facts about a read key that the iterators use. -/
theorem Reads.facts {env st gm seq path t s n} (h : Reads env st gm seq path t s n) :
    n.key.fileOffset = t.off ∧ n.key.path = path ++ '\\' :: t.name ∧
    n.key.nSubKeys = t.cell.nSubKeys ∧ n.key.subKeysListOffset = t.cell.subKeysList ∧
    n.key.cellState = .Allocated ∧ n.key.filterState = s ∧ n.key.toReturn = 0 ∧
    n.key.trackReturned = 0 ∧ n.key.flagBits = t.cell.flags ∧ n.key.name = t.name := by
  obtain ⟨k, vs, lg, hk, hf, e⟩ := h.key
  obtain ⟨_, h2, _, _, _, h6, _, h8, _, _, _, _, _, _, _, _, _, _, _, _, _, hn, hp, ho, _, hc, _⟩ := hk
  rw [e]
  exact ⟨ho, hp, h6, h8, hc, rfl, hf.2.1, hf.2.2.1, h2, hn⟩

theorem Reads.offsets {env st gm seq path t s n} (h : Reads env st gm seq path t s n) :
    n.key.subKeyOffsets = [] := by
  obtain ⟨k, vs, lg, hk, hf, e⟩ := h.key
  rw [e]
  exact hf.2.2.2.2.1

theorem Reads.delOk {env st gm seq path t s n} (hst : StateDel st)
    (h : Reads env st gm seq path t s n) : DelOk n := by
  obtain ⟨k, vs, lg, s0, m, hk, hf, hm, rfl, _⟩ := h
  show DelOk m
  by_cases hg : gm = true
  · rw [if_pos hg] at hm
    exact updateModifiedLists_delOk st hst _ _ m (by intro d hd; cases hd) hm
  · rw [if_neg hg] at hm
    subst hm
    intro d hd; cases hd

theorem Reads.plain {env st seq path t s n} (h : Reads env st false seq path t s n) :
    n.deletedKeys = [] ∧ n.versions = [] := by
  obtain ⟨k, vs, lg, s0, m, hk, hf, hm, rfl, _⟩ := h
  rw [if_neg (by decide)] at hm
  subst hm
  exact ⟨rfl, rfl⟩

/-- Reading one stored key through a filter that says `flags`. -/
theorem readKey_flags (env : Env) (st : State) (o : ReadOptions) (t : Tree)
    (hat : KeyAt env.fi.buffer t.off t.cell t.name) (ho : o.offset = t.off)
    (hatt : o.getModified = true → AttachOk env st) (flags : FilterFlags) (ro' : Nat)
    (hfs : ∀ k : KeyNode, k.flagBits = t.cell.flags → k.path = o.curPath ++ '\\' :: t.name →
      filterStep st o.filter k = .ok (flags, ro')) :
    (flags = .noMatch → readKey env st o = .ok (none, ro')) ∧
    (flags ≠ .noMatch → ∃ n, readKey env st o = .ok (some n, ro') ∧
      n.key.filterState = (if flags = .keyMatch then some .Exact else none) ∧
      ∀ s, (s ≠ some .None → shouldReadValues o.filter flags o.selfMatch = true) →
        Reads env st o.getModified o.seq o.curPath t s (n.setKey { n.key with filterState := s })) := by
  have hat' : KeyAt env.fi.buffer o.offset t.cell t.name := by rw [ho]; exact hat
  obtain ⟨k, hk, hfr, h⟩ := readKey_at env st o t.cell t.name hat'
  have hstep := hfs k hk.2.1
    (by obtain ⟨_, _, _, _, _, _, _, _, _, _, _, _, _, _, _, _, _, _, _, _, _, _, hp, _⟩ := hk; exact hp)
  rcases h with ⟨fl, ro, hf, h⟩ | ⟨hf, _⟩ | ⟨hf, _⟩
  · rw [hstep] at hf
    cases hf
    rcases h with ⟨rfl, h⟩ | ⟨hne, vs, lg, hv, h⟩
    · exact ⟨fun _ => h, fun h => absurd rfl h⟩
    · refine ⟨fun h => absurd h hne, fun _ => ?_⟩
      rw [ho] at hk
      have hfin : ∃ m, finishStep env st o flags { k with values := vs, logs := lg } = .ok m ∧
          (if o.getModified = true then
            updateModifiedLists st env.depth (.mk { k with values := vs, logs := lg, filterState := if flags = .keyMatch then some .Exact else none } [] []) = .ok m
           else m = .mk { k with values := vs, logs := lg, filterState := if flags = .keyMatch then some .Exact else none } [] []) := by
        have hk0 : (if flags = .keyMatch then { k with values := vs, logs := lg, filterState := some .Exact }
            else { k with values := vs, logs := lg } : KeyNode)
            = { k with values := vs, logs := lg, filterState := if flags = .keyMatch then some .Exact else none } := by
          by_cases hm : flags = .keyMatch
          · rw [if_pos hm, if_pos hm]
          · rw [if_neg hm, if_neg hm, ← hfr.1]
        unfold finishStep
        simp only
        rw [hk0]
        by_cases hg : o.getModified = true
        · rw [if_pos hg]
          simp only [if_pos hg]
          cases hu : updateModifiedLists st env.depth (.mk { k with values := vs, logs := lg, filterState := if flags = .keyMatch then some .Exact else none } [] []) with
          | panic => exact absurd hu (hatt hg _)
          | err => exact absurd hu (updateModifiedLists_no_err _ _ _)
          | ok m => exact ⟨m, rfl, rfl⟩
        · rw [if_neg hg]
          simp only [if_neg hg]
          exact ⟨_, rfl, rfl⟩
      obtain ⟨m, hm1, hm2⟩ := hfin
      refine ⟨m, by rw [h, hm1], ?_, fun s hs => ⟨k, vs, lg, _, m, hk, hfr, hm2, rfl,
        fun hne => readsValues_of hv (hs hne)⟩⟩
      have : m.key.filterState = if flags = .keyMatch then some .Exact else none := by
        by_cases hg : o.getModified = true
        · rw [if_pos hg] at hm2
          rw [updateModifiedLists_key _ _ _ _ hm2]
          rfl
        · rw [if_neg hg] at hm2
          rw [hm2]; rfl
      exact this
  · rw [hstep] at hf; cases hf
  · rw [hstep] at hf; cases hf

/-- Reading one stored key without a filter. -/
theorem readKey_unfiltered (env : Env) (st : State) (o : ReadOptions) (t : Tree)
    (hat : KeyAt env.fi.buffer t.off t.cell t.name) (ho : o.offset = t.off)
    (hatt : o.getModified = true → AttachOk env st) (hf : o.filter = none) :
    ∃ n, readKey env st o = .ok (some n, st.rootOffset) ∧
      Reads env st o.getModified o.seq o.curPath t none n := by
  obtain ⟨n, hn, hfs, hr⟩ := (readKey_flags env st o t hat ho hatt .iterate st.rootOffset
    (fun k _ _ => by rw [hf]; rfl)).2 (by decide)
  have hr := hr none (fun _ => by rw [hf]; cases o.selfMatch <;> rfl)
  rw [if_neg (by decide)] at hfs
  rw [← hfs] at hr
  have e : n.setKey { n.key with filterState := n.key.filterState } = n := by cases n; rfl
  rw [e, hfs] at hr
  exact ⟨n, hn, hr⟩

theorem forestAt_mem {buf : Bytes} {hbin depth : Nat} {ts : List Tree}
    (h : ForestAt buf hbin depth ts) (t : Tree) (ht : t ∈ ts) :
    t.off < 4294967296 ∧ TreeAt buf hbin depth t := by
  induction ts with
  | nil => cases ht
  | cons a as ih =>
    rw [ForestAt] at h
    rcases List.mem_cons.1 ht with rfl | ht
    · exact ⟨h.1, h.2.1⟩
    · exact ih h.2.2 ht

theorem treeAt_keyAt {buf : Bytes} {hbin depth : Nat} {t : Tree} (h : TreeAt buf hbin depth t) :
    KeyAt buf t.off t.cell t.name := by
  cases t; rw [TreeAt] at h; exact h.1

/-- The filter state a child gets from its flags. -/
def kidState (selfMatch valid : Bool) (flags : FilterFlags) : Option FilterMatchState :=
  childFilterState selfMatch valid (if flags = .keyMatch then some .Exact else none)

/-- The sub-key loop over stored keys: those the filter does not reject, in order. -/
theorem readSubKeysLoop_kids (env : Env) (st : State) (path : Str) (f : Filter)
    (sf : Option Filter) (sm : Bool) (seq : Option Nat) (gm : Bool) (hatt : gm = true → AttachOk env st)
    (Good : Nat → Prop) (flagsOf : Tree → FilterFlags) (kids : List Tree)
    (hat : ∀ t ∈ kids, KeyAt env.fi.buffer t.off t.cell t.name)
    (hsf : f.isValid = false → ∀ g, sf = some g → g.isValid = false)
    (hfs : ∀ t ∈ kids, ∀ ro, Good ro → ∃ ro', Good ro' ∧ ∀ k : KeyNode,
      k.flagBits = t.cell.flags → k.path = path ++ '\\' :: t.name →
      filterStep { st with rootOffset := ro } sf k = .ok (flagsOf t, ro'))
    (ro : Nat) (hro : Good ro) (logs : Logs) :
    ∃ ns ro', readSubKeysLoop env st path f sf sm seq gm (kids.map Tree.off) ro logs
        = .ok (ns, kids.any (fun t => decide (flagsOf t = .keyMatch)), logs, ro') ∧ Good ro' ∧
      Pairwise2 (fun t n => Reads env st gm seq path t (kidState sm f.isValid (flagsOf t)) n)
        (kids.filter fun t => decide (flagsOf t ≠ .noMatch)) ns := by
  induction kids generalizing ro with
  | nil => exact ⟨[], ro, rfl, hro, trivial⟩
  | cons t ts ih =>
    obtain ⟨ro1, hro1, hst⟩ := hfs t List.mem_cons_self ro hro
    have hatt' : gm = true → AttachOk env { st with rootOffset := ro } := by
      intro hg k
      rw [updateModifiedLists_rootOffset]
      exact hatt hg k
    obtain ⟨hno, hyes⟩ := readKey_flags env { st with rootOffset := ro }
      ⟨t.off, path, sf, sm, seq, gm⟩ t (hat t List.mem_cons_self) rfl hatt' (flagsOf t) ro1 hst
    obtain ⟨ns, ro', hl, hg, hp⟩ := ih (fun t h => hat t (List.mem_cons_of_mem _ h))
      (fun t h => hfs t (List.mem_cons_of_mem _ h)) ro1 hro1
    rw [List.map_cons, readSubKeysLoop]
    by_cases hm : flagsOf t = .noMatch
    · refine ⟨ns, ro', ?_, hg, ?_⟩
      · rw [hno hm]
        simp only
        rw [hl, List.any_cons, decide_eq_false (by rw [hm]; decide), Bool.false_or]
      · rw [List.filter_cons, if_neg (by simpa using hm)]
        exact hp
    · obtain ⟨n, hr, hfst, hn⟩ := hyes hm
      rw [hr]
      simp only
      rw [hl]
      simp only
      refine ⟨n.setKey { n.key with filterState := childFilterState sm f.isValid n.key.filterState } :: ns,
        ro', ?_, hg, ?_⟩
      · have : (n.key.filterState == some .Exact) = decide (flagsOf t = .keyMatch) := by
          rw [hfst]
          by_cases h : flagsOf t = .keyMatch
          · rw [if_pos h, decide_eq_true h]; rfl
          · rw [if_neg h, decide_eq_false h]; rfl
        rw [this, List.any_cons]
      · rw [List.filter_cons, if_pos (by simpa using hm)]
        refine ⟨?_, hp⟩
        rw [hfst]
        obtain ⟨k, vs, lg, s0, m, h1, h2, h3, h4, h5⟩ := hn (kidState sm f.isValid (flagsOf t)) (by
          intro hne
          unfold shouldReadValues
          unfold kidState childFilterState at hne
          by_cases hk : flagsOf t = .keyMatch
          · rw [hk]; simp
          · rw [if_neg hk] at hne
            cases hsm : sm with
            | true => rfl
            | false =>
              rw [hsm] at hne
              cases hv : f.isValid with
              | true => rw [hv] at hne; simp at hne
              | false =>
                cases hg : sf with
                | none => rfl
                | some g => simp only; rw [hsf hv g hg]; rfl)
        refine ⟨k, vs, lg, s0, m, h1, h2, ?_, h4, h5⟩
        simp only at h3
        split
        · rename_i hgm
          rw [if_pos hgm, updateModifiedLists_rootOffset] at h3
          exact h3
        · rename_i hgm
          rw [if_neg hgm] at h3
          exact h3

/-- The filter given to the children of a node. -/
def subFilterOf (f : Filter) (s : Option FilterMatchState) : Option Filter :=
  if (s == some .Exact || s == some .Descendent) && f.returnSubKeys then none else some f

theorem subFilterOf_valid (f : Filter) (s : Option FilterMatchState) (hv : f.isValid = false) :
    ∀ g, subFilterOf f s = some g → g.isValid = false := by
  intro g hg
  unfold subFilterOf at hg
  split at hg
  · cases hg
  · cases hg; exact hv

/-- Does the node count as matched? -/
def matchedState (s : Option FilterMatchState) : Bool := s == some .Exact || s == some .Descendent

/-- Reading the sub-keys of a node that reads a stored tree. -/
theorem readSubKeysInternal_kids (env : Env) (st : State) (f : Filter) (seq : Option Nat)
    (gm gm0 : Bool) (seq0 : Option Nat) (st0 : State) (hatt : gm = true → AttachOk env st) (path : Str) (t : Tree)
    (ht : TreeAt env.fi.buffer env.fi.hbin env.depth t)
    (s : Option FilterMatchState) (n : Node) (hn : Reads env st0 gm0 seq0 path t s n)
    (Good : Nat → Prop) (hro : Good st.rootOffset) (flagsOf : Tree → FilterFlags)
    (hfs : ∀ kid ∈ t.kids, ∀ ro, Good ro → ∃ ro', Good ro' ∧ ∀ k : KeyNode,
      k.flagBits = kid.cell.flags → k.path = (path ++ '\\' :: t.name) ++ '\\' :: kid.name →
      filterStep { st with rootOffset := ro } (subFilterOf f s) k = .ok (flagsOf kid, ro')) :
    ∃ r, readSubKeysInternal env st n f seq gm = .ok r ∧ Good r.rootOffset ∧
      r.found = t.kids.any (fun kid => decide (flagsOf kid = .keyMatch)) ∧
      Pairwise2 (fun kid c => Reads env st gm seq (path ++ '\\' :: t.name) kid
          (kidState (matchedState s) f.isValid (flagsOf kid)) c)
        (t.kids.filter fun kid => decide (flagsOf kid ≠ .noMatch)) r.children ∧
      ∃ so, so.length = t.kids.length ∧ r.self = n.setKey { n.key with subKeyOffsets := so } := by
  obtain ⟨h1, h2, h3, h4, h5, h6, _⟩ := hn.facts
  have hself : n = n.setKey { n.key with subKeyOffsets := n.key.subKeyOffsets } := by cases n; rfl
  cases t with
  | mk off c name kids =>
  rw [TreeAt] at ht
  obtain ⟨hk, hl, hf⟩ := ht
  simp only [Tree.kids, Tree.name, Tree.cell] at *
  unfold readSubKeysInternal
  simp only
  rw [if_pos h5, h3, h4]
  rcases hl with ⟨h0, rfl⟩ | ⟨hpos, hmax, hl⟩
  · rw [if_neg (by omega), if_neg (by omega)]
    exact ⟨_, rfl, hro, rfl, trivial, n.key.subKeyOffsets, by rw [hn.offsets]; rfl, by rw [← h3, ← h4]; exact hself⟩
  · rw [if_neg (by omega), if_pos hpos]
    rw [sub_key_list_partial _ _ _ _ hl (by
      intro x hx
      obtain ⟨t, ht, rfl⟩ := List.mem_map.1 hx
      exact (forestAt_mem hf t ht).1)]
    simp only
    have e1 : n.key.isFilterMatchOrDescendent = matchedState s := by
      unfold KeyNode.isFilterMatchOrDescendent; rw [h6]; rfl
    rw [e1, h2]
    obtain ⟨ns, ro', hloop, hg, hp⟩ := readSubKeysLoop_kids env st (path ++ '\\' :: name) f
      (subFilterOf f s) (matchedState s) seq gm hatt Good flagsOf kids
      (fun t ht => treeAt_keyAt (forestAt_mem hf t ht).2) (subFilterOf_valid f s) hfs st.rootOffset hro n.key.logs
    have e2 : (if (matchedState s && f.returnSubKeys) = true then none else some f) = subFilterOf f s := rfl
    rw [e2, hloop]
    exact ⟨_, rfl, hg, rfl, hp, _, List.length_map _, rfl⟩

end Notatin
