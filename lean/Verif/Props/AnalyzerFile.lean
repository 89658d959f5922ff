import Verif.Props.Analyzer
import Verif.Lemmas.ReadBack
import Verif.Props.Order
/-
C37 for whole files: the items kept between entries describe the file, so that each entry is
compared with the right thing.
-/
namespace Notatin
open Spec

/-- The iteration over the file, from the root as it is opened, yields `ns`. -/
def Iterated (env : Env) (steps : Nat) (gm : Bool) (st : State) (ns : List Node) : Prop :=
  ∃ root ro, initRoot env st = .ok (root, ro) ∧
    collect (nextPre env) steps (.start { st with rootOffset := ro } root {} gm false) = some (.ok ns)

/-- No two items have the same path and name, and no name of a key contains a backslash. -/
structure PlainNames (ns : List Node) : Prop where
  distinct : ((ns.flatMap seenOf).map Seen.key).Nodup
  names : ∀ n ∈ ns, '\\' ∉ n.key.name

/-- Nothing is recorded where opening the root looks for recorded items. -/
def NothingAtRoot (env : Env) (st : State) : Prop :=
  ∀ root ro, initRoot env st = .ok (some root, ro) →
    NothingAt st (if root.key.isKeyRoot then [] else root.key.path)

theorem upTo_child (p name : Str) (h : '\\' ∉ name) : upTo (p ++ '\\' :: name) = p := by
  induction p with
  | nil => rw [List.nil_append, upTo, if_neg h]
  | cons c p ih => rw [List.cons_append, upTo, if_pos (by simp), ih]

theorem keyNode_hash (hashFn : Bytes → Bytes) (bs : Bytes) (off : Nat) (path : Str)
    (seq : Option Nat) (k : KeyNode) (r : Bytes)
    (h : KeyNode.fromBytes hashFn bs off path seq = .ok (k, r)) : k.hash ≠ none := by
  rcases keyNode_cases hashFn bs off path seq with ⟨_, n, l, _, hp⟩ | ⟨_, hp⟩
  · rw [h] at hp; cases hp; simp [keyOfSlices]
  · rw [h] at hp; cases hp

/-- The root is on the stack when the iteration starts; it is in the file. -/
theorem iterated_live (env : Env) (steps : Nat) (gm : Bool) (st : State) (ns : List Node)
    (hroot : NothingAtRoot env st) (hgm : gm = true → ∀ path, NothingAt st path)
    (h : Iterated env steps gm st ns) : ∀ n ∈ ns, LiveKey env n := by
  obtain ⟨root, ro, hr, hc⟩ := h
  cases root with
  | none =>
    exfalso
    unfold initRoot at hr
    cases h1 : getFrom env.fi.buffer env.fi.hbin with
    | none => rw [h1] at hr; cases hr
    | some input =>
      rw [h1] at hr
      simp only at hr
      cases h2 : HiveBinHeader.fromBytes env.fi.hbin input with
      | none => rw [h2] at hr; cases hr
      | some x =>
        rw [h2] at hr
        simp only at hr
        unfold readKey at hr
        split at hr
        · cases hr
        · unfold readFromSlice at hr
          simp only [filterStep] at hr
          split at hr
          · cases hr
          · cases hr
          · split at hr
            · rename_i h3; cases h3
            · split at hr
              · cases hr
              · cases hr
              · split at hr
                · cases hr
                · cases hr
                · cases hr
  | some root =>
    refine collect_live env steps _ ns hgm ?_ hc
    intro n hn
    have hn : n ∈ [root] := hn
    rw [List.mem_singleton.1 hn]
    have hq := hroot root ro hr
    unfold initRoot at hr
    cases h1 : getFrom env.fi.buffer env.fi.hbin with
    | none => rw [h1] at hr; cases hr
    | some input =>
      rw [h1] at hr
      simp only at hr
      cases h2 : HiveBinHeader.fromBytes env.fi.hbin input with
      | none => rw [h2] at hr; cases hr
      | some x =>
        rw [h2] at hr
        exact readKey_live env st _ root ro hr (fun _ => hq)

/-- What is seen of a key of the file. -/
theorem seen_live (env : Env) (ns : List Node) (hl : ∀ n ∈ ns, LiveKey env n)
    (hp : ∀ n ∈ ns, '\\' ∉ n.key.name) (s : Seen) (hs : s ∈ ns.flatMap seenOf) :
    s.hash ≠ none ∧ ∀ h seq, s.hash = some h →
      match s.key.2 with
      | none => KeyWas env s.key.1 ⟨h, s.off, seq⟩
      | some name => ValueWas env name ⟨h, s.off, seq⟩ := by
  obtain ⟨n, hn, hs⟩ := List.mem_flatMap.1 hs
  obtain ⟨⟨path, k, r, hk, hpath, hname, hhash⟩, hvals, _⟩ := hl n hn
  unfold seenOf at hs
  rcases List.mem_cons.1 hs with rfl | hs
  · refine ⟨by show n.key.hash ≠ none; rw [hhash]; exact keyNode_hash _ _ _ _ _ _ _ hk, ?_⟩
    intro h seq hh
    have hh : n.key.hash = some h := hh
    show KeyWas env n.key.path ⟨h, n.key.fileOffset, seq⟩
    have hup : upTo n.key.path = path := by
      rw [hpath, ← hname]; exact upTo_child _ _ (hp n hn)
    refine ⟨_, r, keyNode_seq _ _ _ _ _ _ _ _ _ hk, ?_, ?_⟩
    · show upTo n.key.path ++ '\\' :: k.name = n.key.path
      rw [hup, hpath]
    · show k.hash = some h
      rw [← hhash, hh]
  · obtain ⟨v, hv, rfl⟩ := List.mem_map.1 hs
    obtain ⟨kv, r, hkv, hvn, hvh⟩ := hvals v hv
    refine ⟨by show v.val.hash ≠ none; rw [hvh]; simp [KeyValue.readValueBytes], ?_⟩
    intro h seq hh
    have hh : v.val.hash = some h := hh
    show ValueWas env v.val.name ⟨h, v.val.fileOffset, seq⟩
    refine ⟨_, r, keyValue_seq _ _ _ _ _ _ hkv, ?_, ?_⟩
    · exact hvn.symm
    · show (kv.readValueBytes env.hashFn env.fi).hash = some h
      rw [← hvh, hh]

theorem pairwise2_map {α β γ : Type} {f : α → γ} {g : β → γ} {R : α → β → Prop}
    (h : ∀ a b, R a b → g b = f a) : ∀ (l : List α) (m : List β), Pairwise2 R l m → m.map g = l.map f := by
  intro l
  induction l with
  | nil => intro m hm; cases m with
    | nil => rfl
    | cons b m => exact absurd hm (by simp [Pairwise2])
  | cons a l ih => intro m hm; cases m with
    | nil => exact absurd hm (by simp [Pairwise2])
    | cons b m => rw [List.map_cons, List.map_cons, h a b hm.1, ih m hm.2]

/-- C37, from one entry to the next: when the items describe the file before the entry, the
comparison succeeds under the hypotheses of the theorems on `analyzeSeen`, and the items it keeps
describe the file after the entry. -/
theorem analysis_continues (prior env : Env) (order : RegItemMap → RegItemMap) (steps newSeq : Nat)
    (items : RegItemMap) (st : State) (ns : List Node)
    (hit : Iterated env steps false st ns) (hplain : PlainNames ns) (hroot : NothingAtRoot env st)
    (hwas : ItemsAre prior items) (hnd : (items.map Prod.fst).Nodup)
    (hord : ∀ m, (order m).Perm m) :
    Comparable prior order (ns.flatMap seenOf) items ∧
    ∃ st' items' lg, getLatestRegItems prior env order steps newSeq items st = some (.ok (st', items', lg)) ∧
      (∃ ro, analyzeSeen prior order newSeq (ns.flatMap seenOf) items { st with rootOffset := ro }
        = .ok (st', items', lg)) ∧
      items'.map Prod.fst = (ns.flatMap seenOf).map Seen.key ∧
      ItemsAre env items' ∧ (items'.map Prod.fst).Nodup ∧
      Pairwise2 (fun s x => x.1 = s.key ∧ x.2.off = s.off) (ns.flatMap seenOf) items' := by
  have hl := iterated_live env steps false st ns hroot (fun h => by cases h) hit
  have hc : Comparable prior order (ns.flatMap seenOf) items :=
    ⟨fun s hs => (seen_live env ns hl hplain.names s hs).1, hplain.distinct, hnd, hwas, hord⟩
  refine ⟨hc, ?_⟩
  obtain ⟨root, ro, hr, hcol⟩ := hit
  obtain ⟨st', items', lg, e, _, _, hpw⟩ :=
    analysis_latest prior order newSeq (ns.flatMap seenOf) items { st with rootOffset := ro } hc
  refine ⟨st', items', lg, ?_, ⟨ro, e⟩, ?_⟩
  · unfold getLatestRegItems
    rw [hr]
    simp only
    rw [hcol]
    simp only
    rw [e]
  · have hkeys : items'.map Prod.fst = (ns.flatMap seenOf).map Seen.key :=
      pairwise2_map (fun s x h => h.1) _ _ hpw
    refine ⟨hkeys, ?_, by rw [hkeys]; exact hplain.distinct,
      pairwise2_imp (fun s _ x _ h => ⟨h.1, h.2.2.1⟩) hpw⟩
    intro x hx
    obtain ⟨s, hs, h1, h2, h3, _⟩ := pairwise2_mem_right hpw _ hx
    have := (seen_live env ns hl hplain.names s hs).2 x.2.hash x.2.seq h2.symm
    rw [← h1, ← h3] at this
    exact this

/-- The map `get_reg_items` builds. -/
theorem regItemsLoop_ok (seq : Nat) (l : List Seen) (m : RegItemMap) (hh : ∀ s ∈ l, s.hash ≠ none)
    (hnd : (m.map Prod.fst ++ l.map Seen.key).Nodup) :
    ∃ m', regItemsLoop seq l m = .ok (m ++ m') ∧
      Pairwise2 (fun s x => x.1 = s.key ∧ some x.2.hash = s.hash ∧ x.2.off = s.off ∧ x.2.seq = seq) l m' := by
  induction l generalizing m with
  | nil => exact ⟨[], by rw [regItemsLoop, List.append_nil], trivial⟩
  | cons s l ih =>
    rw [regItemsLoop]
    cases hs : s.hash with
    | none => exact absurd hs (hh s List.mem_cons_self)
    | some h =>
      simp only
      have hnot : s.key ∉ m.map Prod.fst := by
        intro hm
        rw [List.map_cons, List.nodup_append] at hnd
        exact hnd.2.2 _ hm _ List.mem_cons_self rfl
      have herase : m.insert s.key ⟨h, s.off, seq⟩ = m ++ [(s.key, ⟨h, s.off, seq⟩)] := by
        unfold RegItemMap.insert
        congr 1
        unfold RegItemMap.erase
        rw [List.filter_eq_self]
        intro x hx
        rw [decide_eq_true_iff]
        intro e
        exact hnot (e ▸ List.mem_map.2 ⟨x, hx, rfl⟩)
      rw [herase]
      obtain ⟨m', h1, h2⟩ := ih (m ++ [(s.key, ⟨h, s.off, seq⟩)])
        (fun s' hs' => hh s' (List.mem_cons_of_mem _ hs')) (by
          rw [List.map_append, List.map_cons, List.map_nil, List.append_assoc]
          exact hnd)
      refine ⟨(s.key, ⟨h, s.off, seq⟩) :: m', ?_, ⟨rfl, ?_, rfl, rfl⟩, h2⟩
      · rw [h1, List.append_assoc]; rfl
      · exact hs.symm

/-- C37, the first entry: the items collected from the primary file describe it. -/
theorem analysis_starts (env : Env) (steps seq : Nat) (st : State) (ns : List Node)
    (hit : Iterated env steps true st ns) (hplain : PlainNames ns)
    (hst : ∀ path, NothingAt st path) :
    ∃ items st', getRegItems env steps seq st = some (.ok (items, st')) ∧
      items.map Prod.fst = (ns.flatMap seenOf).map Seen.key ∧
      ItemsAre env items ∧ (items.map Prod.fst).Nodup ∧ (∀ x ∈ items, x.2.seq = seq) ∧
      Pairwise2 (fun s x => x.1 = s.key ∧ x.2.off = s.off) (ns.flatMap seenOf) items ∧
      ∃ ro, st' = { st with rootOffset := ro } := by
  have hl := iterated_live env steps true st ns (fun _ _ _ => hst _) (fun _ => hst) hit
  obtain ⟨items, e, hpw⟩ := regItemsLoop_ok seq (ns.flatMap seenOf) []
    (fun s hs => (seen_live env ns hl hplain.names s hs).1) (by simpa using hplain.distinct)
  obtain ⟨root, ro, hr, hcol⟩ := hit
  have hkeys : items.map Prod.fst = (ns.flatMap seenOf).map Seen.key :=
    pairwise2_map (fun s x h => h.1) _ _ hpw
  refine ⟨items, { st with rootOffset := ro }, ?_, hkeys, ?_, by rw [hkeys]; exact hplain.distinct, ?_,
    pairwise2_imp (fun s _ x _ h => ⟨h.1, h.2.2.1⟩) hpw, ro, rfl⟩
  · unfold getRegItems
    rw [hr]
    simp only
    rw [hcol]
    simp only
    rw [e]
    rfl
  · intro x hx
    obtain ⟨s, hs, h1, h2, h3, _⟩ := pairwise2_mem_right hpw _ hx
    have := (seen_live env ns hl hplain.names s hs).2 x.2.hash x.2.seq h2.symm
    rw [← h1, ← h3] at this
    exact this
  · intro x hx
    obtain ⟨s, _, _, _, _, h4⟩ := pairwise2_mem_right hpw _ hx
    exact h4

/-! ### An entry that deletes one key and changes another -/

/-- `exampleHive` as the primary file. -/
def analysisEnv : Env := ⟨exampleHive, id, 2⟩

/-- The file after an entry: `\RT\a` is no longer in the list, `\RT\b` was written later. -/
def changedHive : FileInfo :=
  ⟨0, hbinBytes 0 300 0 0 0 0 ++ (exampleCell 0x24 1 114 [0x52, 0x54]).encode ++
    leafCell .lf (-16) [(219, [0, 0, 0, 0])] ++ List.replicate 8 0 ++
    (exampleCell 0x20 0 0 [0x61]).encode ++
    { exampleCell 0x20 0 0 [0x62] with lastWritten := 2 }.encode⟩

/-- The environment of `changedHive`. -/
def changedEnv : Env := ⟨changedHive, id, 2⟩

/-- The keys the iteration yields, as a function. -/
def iteratedKeys (env : Env) (steps : Nat) (gm : Bool) (st : State) : Option (List Node) :=
  match initRoot env st with
  | .ok (root, ro) =>
    match collect (nextPre env) steps (.start { st with rootOffset := ro } root {} gm false) with
    | some (.ok ns) => some ns
    | _ => none
  | _ => none

theorem iterated_of_keys {env : Env} {steps : Nat} {gm : Bool} {st : State} {ns : List Node}
    (h : iteratedKeys env steps gm st = some ns) : Iterated env steps gm st ns := by
  unfold iteratedKeys at h
  cases hr : initRoot env st with
  | err => rw [hr] at h; cases h
  | panic => rw [hr] at h; cases h
  | ok x =>
    obtain ⟨root, ro⟩ := x
    rw [hr] at h
    simp only at h
    cases hc : collect (nextPre env) steps (.start { st with rootOffset := ro } root {} gm false) with
    | none => rw [hc] at h; cases h
    | some y =>
      cases y with
      | err => rw [hc] at h; cases h
      | panic => rw [hc] at h; cases h
      | ok ms => rw [hc] at h; cases h; exact ⟨root, ro, hr, hc⟩

/-- Decidable form of `PlainNames`. -/
theorem plain_of_check {ns : List Node}
    (h : (decide ((ns.flatMap seenOf).map Seen.key).Nodup &&
      (ns.all fun n => decide ('\\' ∉ n.key.name))) = true) : PlainNames ns := by
  rw [Bool.and_eq_true, decide_eq_true_iff, List.all_eq_true] at h
  exact ⟨h.1, fun n hn => by simpa using h.2 n hn⟩

/-- `PlainNames` for what an iteration yields. -/
theorem iterated_plain {env : Env} {steps : Nat} {gm : Bool} {st : State}
    (h : ((iteratedKeys env steps gm st).map fun ns =>
      decide ((ns.flatMap seenOf).map Seen.key).Nodup &&
        (ns.all fun n => decide ('\\' ∉ n.key.name))) = some true) :
    ∃ ns, Iterated env steps gm st ns ∧ PlainNames ns := by
  cases hk : iteratedKeys env steps gm st with
  | none => rw [hk] at h; cases h
  | some ns =>
    rw [hk] at h
    exact ⟨ns, iterated_of_keys hk, plain_of_check (by simpa using h)⟩

theorem nothing_recorded (path : Str) : NothingAt {} path := ⟨rfl, rfl⟩

/-- The hypotheses of `analysis_starts` hold for `exampleHive`. -/
example : ∃ ns, Iterated analysisEnv 9 true {} ns ∧ PlainNames ns ∧ ∀ path, NothingAt {} path := by
  obtain ⟨ns, h1, h2⟩ := iterated_plain (env := analysisEnv) (steps := 9) (gm := true) (st := {})
    (by decide +kernel)
  exact ⟨ns, h1, h2, nothing_recorded⟩

/-- The hypotheses of `analysis_continues`, and with them `Comparable`, hold for the entry from
`exampleHive` to `changedHive`. -/
example : ∃ items ns, Iterated changedEnv 9 false {} ns ∧ PlainNames ns ∧ NothingAtRoot changedEnv {} ∧
    ItemsAre analysisEnv items ∧ (items.map Prod.fst).Nodup ∧ items ≠ [] ∧
    Comparable analysisEnv id (ns.flatMap seenOf) items := by
  obtain ⟨ms, h1, h2⟩ := iterated_plain (env := analysisEnv) (steps := 9) (gm := true) (st := {})
    (by decide +kernel)
  obtain ⟨ns, h3, h4⟩ := iterated_plain (env := changedEnv) (steps := 9) (gm := false) (st := {})
    (by decide +kernel)
  obtain ⟨items, st', e, hk, hw, hnd, _⟩ := analysis_starts analysisEnv 9 0 {} ms h1 h2 nothing_recorded
  have hq : NothingAtRoot changedEnv {} := fun _ _ _ => nothing_recorded _
  refine ⟨items, ns, h3, h4, hq, hw, hnd, ?_, ?_⟩
  · intro hnil
    have hlen : (match getRegItems analysisEnv 9 0 {} with
      | some (.ok (m, _)) => m.length
      | _ => 0) = 3 := by decide +kernel
    rw [e, hnil] at hlen
    cases hlen
  · exact (analysis_continues analysisEnv changedEnv id 9 7 items {} ns h3 h4 hq hw hnd
      (fun m => List.Perm.refl m)).1

/-- The entry with the sequence number 7 in the example: the deletion of `\RT\a` and the change of
`\RT\b` are recorded, both with the sequence numbers 0 (from) and 7 (until), the root is not. -/
example : (match getRegItems analysisEnv 9 0 {} with
    | some (.ok (items, st)) =>
      match analyzeEntry analysisEnv changedEnv id 9 7 (st, items) with
      | some (.ok (st', items')) =>
        decide ((items'.map fun x => (x.1.1, x.2.off, x.2.seq)) =
            [("\\RT".toList, 32, 0), ("\\RT\\b".toList, 219, 7)]) &&
          decide ((((st'.deletedKeys "\\RT".toList).getD []).map fun n =>
            (n.key.path, n.key.seq, n.key.updatedBySeq)) = [("\\RT\\a".toList, some 0, some 7)]) &&
          decide ((((st'.modifiedKeys "\\RT\\b".toList).getD []).map fun n =>
            (n.key.seq, n.key.updatedBySeq)) = [(some 0, some 7)]) &&
          decide (((st'.modifiedKeys "\\RT".toList).getD []).length = 0)
      | _ => false
    | _ => false) = true := by decide +kernel

/-! ### Where the code falls short -/

/-- C37, deleted keys, in full: `analysis_deleted_keys_partial` without the hypothesis
`NothingRecordedBelow`. -/
def DeletedKeysKept : Prop :=
  ∀ (env : Env) (order : RegItemMap → RegItemMap) (newSeq : Nat) (seen : List Seen)
    (prior : RegItemMap) (st : State), Comparable env order seen prior →
    ∃ st' latest lg, analyzeSeen env order newSeq seen prior st = .ok (st', latest, lg) ∧
      ∀ parent, ∃ kept gone new,
        (st'.deletedKeys parent).getD [] = kept ++ new ∧
        Retracts (fun n => CurrentKey seen n ∧ upTo n.key.path = parent)
          (fun a b => b.key.path = a.key.path ∧ b.key.hash = a.key.hash)
          ((st.deletedKeys parent).getD []) kept ∧
        gone.Nodup ∧ (∀ x, x ∈ gone ↔ Gone prior seen x ∧ upTo x.1.1 = parent ∧ x.1.2 = none) ∧
        Pairwise2 (fun x n => IsKeyVersion env newSeq .DeletedTransactionLog x.1.1 x.2 n) gone new

/-- The deleted keys `\R\a` and `\R\a\b` are on record. -/
def lostState : State :=
  { deletedKeys := fun p =>
      if p = "\\R".toList then some [pathKey "\\R\\a".toList [1]]
      else if p = "\\R\\a".toList then some [pathKey "\\R\\a\\b".toList [2]] else none }

/-- `\R\a` is there again, `\R\a\b` is not. -/
def lostSeen : List Seen := [⟨("\\R\\a".toList, none), some [1], 0, {}⟩]

theorem lost_comparable : Comparable analysisEnv id lostSeen [] where
  hashed := by intro s hs; rw [lostSeen, List.mem_singleton] at hs; rw [hs]; simp
  distinct := by decide
  priorDistinct := by decide
  was := by intro x hx; cases hx
  order := fun m => List.Perm.refl m

/-- C37: when a deleted key turns up again, the deletion of the keys below it is forgotten, although
they are not there. -/
theorem analysis_lost_violated : ¬ DeletedKeysKept := by
  intro h
  obtain ⟨st', latest, lg, e, hall⟩ := h analysisEnv id 7 lostSeen [] lostState lost_comparable
  have hst : (match analyzeSeen analysisEnv id 7 lostSeen [] lostState with
    | .ok (s, _, _) => some ((s.deletedKeys "\\R\\a".toList).getD []).length
    | _ => none) = some 0 := by decide +kernel
  rw [e] at hst
  simp only [Option.some.injEq] at hst
  obtain ⟨kept, gone, new, hk, hr, _⟩ := hall "\\R\\a".toList
  rw [List.length_eq_zero_iff] at hst
  rw [hst] at hk
  have hkept : kept = [] := (List.append_eq_nil_iff.1 hk.symm).1
  have := hr.rest (fun n => decide (n.key.path = "\\R\\a\\b".toList)) (by
    intro n hn
    rw [decide_eq_true_iff] at hn
    rintro ⟨⟨s, hs, hsk, _⟩, _⟩
    rw [lostSeen, List.mem_singleton] at hs
    rw [hs, hn] at hsk
    revert hsk; decide)
  rw [hkept] at this
  have := congrArg List.length this
  revert this
  decide +kernel

/-- Nothing is recorded below what is there, so `analysis_deleted_keys_partial` applies: the
deleted key `\R\a` alone is on record. -/
example : NothingRecordedBelow lostSeen []
    { deletedKeys := fun p => if p = "\\R".toList then some [pathKey "\\R\\a".toList [1]] else none } := by
  intro s hs _
  rw [lostSeen, List.mem_singleton] at hs
  rw [hs]
  right; left
  exact ⟨by simp only []; rw [if_neg (by decide)]; rfl, fun x hx => by cases hx.1⟩

/-- C37: an entry under which nothing turns up again leaves the records of deleted items alone.
Here: a key recovered from the primary file whose path is not in the file after the entry. -/
def RecoveredKept : Prop :=
  ∀ (prior env : Env) (order : RegItemMap → RegItemMap) (steps newSeq : Nat) (st st' : State)
    (items items' : RegItemMap) (t : Tree), FirstBin env.fi → t.off = env.fi.hbin + 32 →
    TreeAt env.fi.buffer env.fi.hbin env.depth t → t.offs.Nodup → (∀ m, (order m).Perm m) →
    analyzeEntry prior env order steps newSeq (st, items) = some (.ok (st', items')) →
    ∀ path, ∀ d ∈ (st.deletedKeys path).getD [], d.key.path ∉ (t.pre []).map Prod.snd →
      d.key.path ∈ ((st'.deletedKeys path).getD []).map fun n => n.key.path

/-- A key recovered from the primary file, as the scan for deleted cells records it. -/
def recoveredKey : Node :=
  .mk { defaultKey with
        fileOffset := 1000
        name := ['d']
        path := "\\d".toList
        hash := some [1]
        cellState := .DeletedPrimaryFile } [] []

/-- The state after the scan. -/
def recoveredState : State :=
  { deletedKeys := fun p => if p = [] then some [recoveredKey] else none }

/-- C37: a key recovered from the primary file is attached to the root, hence iterated like the keys
that are there, and therefore taken off the record by the first log entry. -/
theorem analysis_recovered_violated : ¬ RecoveredKept := by
  intro h
  have hst : (match analyzeEntry analysisEnv analysisEnv id 9 7 (recoveredState, []) with
    | some (.ok (s, _)) => some (((s.deletedKeys []).getD []).map fun n => n.key.path)
    | _ => none) = some [] := by decide +kernel
  cases hx : analyzeEntry analysisEnv analysisEnv id 9 7 (recoveredState, []) with
  | none => rw [hx] at hst; cases hst
  | some y =>
    cases y with
    | err => rw [hx] at hst; cases hst
    | panic => rw [hx] at hst; cases hst
    | ok z =>
      obtain ⟨st', items'⟩ := z
      rw [hx] at hst
      simp only [Option.some.injEq] at hst
      have := h analysisEnv analysisEnv id 9 7 recoveredState st' [] items' exampleTree
        exampleHive_bin rfl (exampleHive_tree 1) (by decide) (fun m => List.Perm.refl m) hx []
        recoveredKey List.mem_cons_self (by decide)
      rw [hst] at this
      cases this

/-- C37: what is unchanged is recorded nowhere; in particular comparing a file with itself records
nothing. -/
def UnchangedUnrecorded : Prop :=
  ∀ (env : Env) (order : RegItemMap → RegItemMap) (steps seq newSeq : Nat) (items items' : RegItemMap)
    (st st' : State) (lg : Logs), (∀ m, (order m).Perm m) →
    getRegItems env steps seq {} = some (.ok (items, st)) →
    getLatestRegItems env env order steps newSeq items st = some (.ok (st', items', lg)) →
    ∀ path, (st'.modifiedKeys path).getD [] = []

/-- Two sub-keys `a` with different times. -/
def twinEnv : Env :=
  ⟨⟨0, hbinBytes 0 300 0 0 0 0 ++ (exampleCell 0x24 2 114 [0x52, 0x54]).encode ++
    leafCell .lf (-24) [(138, [0, 0, 0, 0]), (219, [0, 0, 0, 0])] ++
    (exampleCell 0x20 0 0 [0x61]).encode ++
    { exampleCell 0x20 0 0 [0x61] with lastWritten := 2 }.encode⟩, id, 2⟩

/-- C37: of two sub-keys with the same name only the last is kept for the comparison, so an entry
that changes nothing records a modification. -/
theorem analysis_unchanged_violated : ¬ UnchangedUnrecorded := by
  intro h
  cases hx : getRegItems twinEnv 9 0 {} with
  | none =>
    have : (getRegItems twinEnv 9 0 {}).isSome = true := by decide +kernel
    rw [hx] at this; cases this
  | some y =>
    have hst : (match getRegItems twinEnv 9 0 {} with
      | some (.ok (items, st)) =>
        match getLatestRegItems twinEnv twinEnv id 9 7 items st with
        | some (.ok (s, _, _)) => some ((s.modifiedKeys "\\RT\\a".toList).getD []).length
        | _ => none
      | _ => none) = some 1 := by decide +kernel
    rw [hx] at hst
    cases y with
    | err => cases hst
    | panic => cases hst
    | ok z =>
      obtain ⟨items, st⟩ := z
      simp only at hst
      cases hy : getLatestRegItems twinEnv twinEnv id 9 7 items st with
      | none => rw [hy] at hst; cases hst
      | some w =>
        rw [hy] at hst
        cases w with
        | err => cases hst
        | panic => cases hst
        | ok v =>
          obtain ⟨st', items', lg⟩ := v
          simp only [Option.some.injEq] at hst
          have := h twinEnv id 9 0 7 items items' st st' lg (fun m => List.Perm.refl m) hx hy
            "\\RT\\a".toList
          rw [this] at hst
          cases hst

/-- C37: the items carried to the next entry describe the file after this one, whatever the
outcome of the comparison. -/
def ItemsFollow : Prop :=
  ∀ (prior env : Env) (order : RegItemMap → RegItemMap) (steps newSeq : Nat) (st st' : State)
    (items items' : RegItemMap), (∀ m, (order m).Perm m) → ItemsAre prior items →
    analyzeEntry prior env order steps newSeq (st, items) = some (.ok (st', items')) →
    ItemsAre env items'

/-- A file whose pages an entry has overwritten with zeros. -/
def wipedEnv : Env := ⟨⟨0, List.replicate 300 0⟩, id, 2⟩

/-- C37: when the root cannot be read after an entry, the items of the file before it are kept,
and the next entry is compared with items that are no longer in the file. -/
theorem analysis_stale_violated : ¬ ItemsFollow := by
  intro h
  obtain ⟨ms, h1, h2⟩ := iterated_plain (env := analysisEnv) (steps := 9) (gm := true) (st := {})
    (by decide +kernel)
  obtain ⟨items, st, e, hk, hw, _⟩ := analysis_starts analysisEnv 9 0 {} ms h1 h2 nothing_recorded
  have hroot : initRoot wipedEnv st = .err := by
    unfold initRoot
    have hb : (match getFrom wipedEnv.fi.buffer wipedEnv.fi.hbin with
      | none => true
      | some input => (HiveBinHeader.fromBytes wipedEnv.fi.hbin input).isNone) = true := by
      decide +kernel
    cases hg : getFrom wipedEnv.fi.buffer wipedEnv.fi.hbin with
    | none => rfl
    | some input =>
      rw [hg] at hb
      simp only
      rw [Option.isNone_iff_eq_none.1 hb]
  have hx : analyzeEntry analysisEnv wipedEnv id 9 7 (st, items) =
      some (.ok ({ st with info := st.info.add .WarningTransactionLog }, items)) := by
    unfold analyzeEntry getLatestRegItems
    rw [hroot]
  have hnew := h analysisEnv wipedEnv id 9 7 st _ items _ (fun m => List.Perm.refl m) hw hx
  have hitems : (match getRegItems analysisEnv 9 0 {} with
    | some (.ok (m, _)) => m.map fun x => (x.1, x.2.off)
    | _ => []) = [(("\\RT".toList, none), 32), (("\\RT\\a".toList, none), 138),
      (("\\RT\\b".toList, none), 219)] := by decide +kernel
  rw [e] at hitems
  simp only at hitems
  cases items with
  | nil => cases hitems
  | cons x l =>
    obtain ⟨⟨p, nm⟩, it⟩ := x
    rw [List.map_cons, List.cons.injEq] at hitems
    have h3 := hitems.1
    simp only [Prod.mk.injEq] at h3
    have hwas := hnew _ List.mem_cons_self
    rw [h3.1.2] at hwas
    obtain ⟨k, r, hk, _⟩ := hwas
    simp only at hk
    rw [h3.2] at hk
    have hbad : ¬ KeyReadable (wipedEnv.fi.buffer.drop 32) := by
      intro hr
      have := hr.1
      revert this
      decide +kernel
    rw [(nk_accepts_iff wipedEnv.hashFn (wipedEnv.fi.buffer.drop 32) 32 (upTo p) (some it.seq)).2
      hbad] at hk
    cases hk

end Notatin
