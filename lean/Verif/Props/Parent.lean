import Verif.Props.Fields
import Verif.Props.Order
import Verif.Spec.Filter
/-
C65: `get_parent_key` leads from a listed key to the key it is listed under.
-/
namespace Notatin
open Spec

mutual
/-- The keys in pre-order with their offsets and paths, each with that of the key it is listed under. -/
def Spec.Tree.withParent (path : Str) (above : Option (Nat × Str)) : Tree → List ((Nat × Str) × Option (Nat × Str))
  | .mk off _ name kids =>
    ((off, path ++ '\\' :: name), above) :: withParentAll (path ++ '\\' :: name) (some (off, path ++ '\\' :: name)) kids
/-- The same for a list of trees. -/
def Spec.withParentAll (path : Str) (above : Option (Nat × Str)) : List Tree → List ((Nat × Str) × Option (Nat × Str))
  | [] => []
  | t :: ts => t.withParent path above ++ withParentAll path above ts
end

/-- The parent fields of the sub-keys name the cell of the key. -/
def Spec.KidsPointUp (hbin : Nat) (t : Tree) : Prop := ∀ kid ∈ t.kids, kid.cell.parent + (hbin : Int) = t.off ∧ 0 ≤ kid.cell.parent

mutual
theorem withParent_pre : ∀ (t : Tree) (path : Str) (above : Option (Nat × Str)),
    (t.withParent path above).map Prod.fst = t.pre path
  | .mk off c name kids, path, above => by
    rw [Tree.withParent, Tree.pre, List.map_cons, withParentAll_pre]
theorem withParentAll_pre : ∀ (ts : List Tree) (path : Str) (above : Option (Nat × Str)),
    (withParentAll path above ts).map Prod.fst = preAll path ts
  | [], _, _ => rfl
  | t :: ts, path, above => by
    rw [withParentAll, preAll, List.map_append, withParent_pre, withParentAll_pre]
end

/-- `kid` is a sub-key of `t`, both are stored and have the property. -/
def Under (p : Tree → Prop) (buf : Bytes) (t kid : Tree) : Prop :=
  kid ∈ t.kids ∧ p t ∧ p kid ∧ KeyAt buf t.off t.cell t.name ∧ KeyAt buf kid.off kid.cell kid.name

mutual
theorem withParent_under (p : Tree → Prop) (buf : Bytes) (hbin depth : Nat) : ∀ (t : Tree) (path : Str)
    (above : Option (Nat × Str)), TreeAt buf hbin depth t → t.Every p →
    ∀ e ∈ t.withParent path above, ∀ q, e.2 = some q → (e.1 = (t.off, path ++ '\\' :: t.name) ∧ e.2 = above) ∨
      ∃ path' u kid, Under p buf u kid ∧ q = (u.off, path' ++ '\\' :: u.name) ∧
        e.1 = (kid.off, path' ++ '\\' :: u.name ++ '\\' :: kid.name)
  | .mk off c name kids, path, above, ht, hp, e, he, q, hq => by
    rw [Tree.withParent] at he
    rcases List.mem_cons.1 he with rfl | he
    · exact .inl ⟨rfl, rfl⟩
    · right
      have hk := (treeAt_keyAt ht)
      rw [TreeAt] at ht
      rcases withParentAll_under p buf hbin depth kids _ _ ht.2.2 (every_kids hp) e he q hq with ⟨kid, hm, h1, h2⟩ | h
      · rw [hq] at h2
        cases h2
        exact ⟨path, .mk off c name kids, kid,
          ⟨hm, every_self hp, every_self (every_mem (every_kids hp) kid hm), hk,
            treeAt_keyAt (forestAt_mem ht.2.2 kid hm).2⟩, rfl, h1⟩
      · exact h
theorem withParentAll_under (p : Tree → Prop) (buf : Bytes) (hbin depth : Nat) : ∀ (ts : List Tree) (path : Str)
    (above : Option (Nat × Str)), ForestAt buf hbin depth ts → EveryAll p ts →
    ∀ e ∈ withParentAll path above ts, ∀ q, e.2 = some q →
      (∃ kid ∈ ts, e.1 = (kid.off, path ++ '\\' :: kid.name) ∧ e.2 = above) ∨
      ∃ path' u kid, Under p buf u kid ∧ q = (u.off, path' ++ '\\' :: u.name) ∧
        e.1 = (kid.off, path' ++ '\\' :: u.name ++ '\\' :: kid.name)
  | [], _, _, _, _, e, he, _, _ => absurd he List.not_mem_nil
  | t :: ts, path, above, ht, hp, e, he, q, hq => by
    rw [withParentAll] at he
    rw [ForestAt] at ht
    rw [EveryAll] at hp
    rcases List.mem_append.1 he with he | he
    · rcases withParent_under p buf hbin depth t path above ht.2.1 hp.1 e he q hq with h | h
      · exact .inl ⟨t, List.mem_cons_self, h⟩
      · exact .inr h
    · rcases withParentAll_under p buf hbin depth ts path above ht.2.2 hp.2 e he q hq with ⟨kid, h1, h2⟩ | h
      · exact .inl ⟨kid, List.mem_cons_of_mem _ h1, h2⟩
      · exact .inr h
end

mutual
theorem tree_every_and {p q : Tree → Prop} : ∀ {t : Tree}, t.Every p → t.Every q → t.Every (fun u => p u ∧ q u)
  | .mk _ _ _ _, h1, h2 => by
    rw [Tree.Every] at *
    exact ⟨⟨h1.1, h2.1⟩, forest_every_and h1.2 h2.2⟩
theorem forest_every_and {p q : Tree → Prop} : ∀ {ts : List Tree}, EveryAll p ts → EveryAll q ts →
    EveryAll (fun u => p u ∧ q u) ts
  | [], _, _ => trivial
  | _ :: _, h1, h2 => by
    rw [EveryAll] at *
    exact ⟨tree_every_and h1.1 h2.1, forest_every_and h1.2 h2.2⟩
end

theorem cutLastSegment_snoc (path name : Str) (h : '\\' ∉ name) : cutLastSegment (path ++ '\\' :: name) = path := by
  unfold cutLastSegment parentPath
  have hm : '\\' ∈ path ++ '\\' :: name := by simp
  rw [if_pos hm, if_pos hm, List.reverse_append, List.reverse_cons, List.append_assoc,
    List.dropWhile_append_of_pos (by intro c hc; simp at hc ⊢; rintro rfl; exact h hc)]
  simp

/-- The parent field of a stored cell, as it is read. -/
theorem keyAt_parent (env : Env) (off : Nat) (c : NkCell) (name : Str) (h : KeyAt env.fi.buffer off c name)
    (k : KeyNode) (hk : KeyStored (env.fi.buffer.drop off) k) : k.parentOffset = c.parent := by
  obtain ⟨k', r, slice, hg, hf, hm, _⟩ := readKeyAt env off c name h [] none
  have hs : slice = env.fi.buffer.drop off := by
    unfold getFrom at hg
    split at hg
    · cases hg; rfl
    · cases hg
  subst hs
  have := keyStored _ _ _ _ _ _ _ hf
  rw [hk.parentOffset, ← this.parentOffset]
  exact hm.2.2.2.2.1

/-- C65 (partial: names without backslashes, the root key left out): on a hive whose key cells form a tree, their
parent fields naming the cells they are listed under, `get_parent_key` of every key of the tree which an iteration
yields, with any filter and options and in any recovery state, gives the key it is listed under. -/
theorem parent_found_partial (env : Env) (st : State) (t : Tree) (root : Node) (ro : Nat) (f : Filter) (gm anc : Bool)
    (steps : Nat) (ns : List Node) (ht : TreeAt env.fi.buffer env.fi.hbin env.depth t)
    (hnames : t.Every (fun u => '\\' ∉ u.name)) (hup : t.Every (KidsPointUp env.fi.hbin))
    (hst : RecordedDeleted st) (hatt : AttachOk env st)
    (hroot : initRoot env st = .ok (some root, ro))
    (h : collect (nextPre env) steps (.start st (some root) f gm anc) = some (.ok ns)) :
    ∀ n ∈ ns, n.key.cellState = .Allocated → ∀ p, (obs n, some p) ∈ t.withParent [] none →
      ∃ m, getParentKey env st n = .ok (some m, st.rootOffset) ∧ obs m = p ∧ m.key.cellState = .Allocated := by
  have hboth := tree_every_and hnames hup
  have hstored : ∀ n ∈ ns, NodeStored env.fi.buffer n := by
    refine collect_stored env steps _ ns hst ?_ h
    intro m hm
    have hm : m ∈ [root] := hm
    rw [List.mem_singleton.1 hm]
    unfold initRoot at hroot
    split at hroot
    · cases hroot
    · split at hroot
      · cases hroot
      · exact readKey_nodeStored env st hst _ root ro hroot
  intro n hn ha p hp
  rcases withParent_under _ _ _ _ t [] none ht hboth _ hp p rfl with ⟨_, h0⟩ | ⟨path, u, kid, hu, rfl, he⟩
  · cases h0
  · obtain ⟨hm, hpu, hpk, hku, hkk⟩ := hu
    obtain ⟨hup1, hup2⟩ := hpu.2 kid hm
    obtain ⟨_, hks, _⟩ := (hstored n hn).1 ha
    have hoff : n.key.fileOffset = kid.off := congrArg Prod.fst he
    have hpath : n.key.path = path ++ '\\' :: u.name ++ '\\' :: kid.name := congrArg Prod.snd he
    rw [hoff] at hks
    have hpar := keyAt_parent env _ _ _ hkk _ hks
    unfold getParentKey
    rw [hpar, if_neg (by omega), hpath, cutLastSegment_snoc _ _ hpk.1, cutLastSegment_snoc _ _ hpu.1]
    obtain ⟨m, hm1, hm2⟩ := readKey_unfiltered env st ⟨kid.cell.parent.toNat + env.fi.hbin, path, none, true, none, true⟩ u
      hku (by show _ = _; simp only; omega) (fun _ => hatt) rfl
    obtain ⟨hf1, hf2, _, _, hf3, _⟩ := hm2.facts
    refine ⟨m, hm1, ?_, hf3⟩
    show (m.key.fileOffset, m.key.path) = _
    rw [hf1, hf2]

/-- A bin with the root key `RT` and its sub-key named `name`, whose parent field names the root key. -/
def parentEnv (name : Bytes) : Env :=
  ⟨⟨0, hbinBytes 0 300 0 0 0 0 ++ (exampleCell 0x24 1 114 [0x52, 0x54]).encode ++
    leafCell .lf (-16) [(130, [0, 0, 0, 0])] ++ { exampleCell 0x20 0 0 name with parent := 32 }.encode⟩, fun _ => [], 2⟩

/-- The tree of it. -/
def parentTree (name : Bytes) : Tree :=
  .mk 32 (exampleCell 0x24 1 114 [0x52, 0x54]) ['R', 'T']
    [.mk 130 { exampleCell 0x20 0 0 name with parent := 32 } (latin1 name) []]

/-- Iterate over it and ask for the parent of each key. -/
def parentsOf (env : Env) : Option (List ((Nat × Str) × Option (Option (Nat × Str)))) :=
  match initRoot env {} with
  | .ok (some root, _) =>
    match collect (nextPre env) 9 (.start {} (some root) {} false false) with
    | some (.ok ns) => some (ns.map fun n => (obs n, match getParentKey env {} n with
      | .ok (m, _) => some (m.map obs)
      | _ => none))
    | _ => none
  | _ => none

/-- The parent of `\\RT\\a` is found; asked for the root key, an error is returned. -/
example : parentsOf (parentEnv [0x61]) = some
    [((32, "\\RT".toList), none), ((130, "\\RT\\a".toList), some (some (32, "\\RT".toList)))] := by decide +kernel

/-- The hypotheses of `parent_found_partial`. -/
example : TreeAt (parentEnv [0x61]).fi.buffer 0 2 (parentTree [0x61]) ∧
    (parentTree [0x61]).Every (fun u => '\\' ∉ u.name) ∧ (parentTree [0x61]).Every (KidsPointUp 0) ∧
    (parentTree [0x61]).withParent [] none =
      [((32, "\\RT".toList), none), ((130, "\\RT\\a".toList), some (32, "\\RT".toList))] := by
  have hk : ∀ off c name, c.Fits → c.flags.testBit 5 = true → name = latin1 c.nameBytes →
      (parentEnv [0x61]).fi.buffer = (parentEnv [0x61]).fi.buffer.take off ++
        (c.encode ++ (parentEnv [0x61]).fi.buffer.drop (off + c.encode.length)) →
      ((parentEnv [0x61]).fi.buffer.take off).length = off → KeyAt (parentEnv [0x61]).fi.buffer off c name := by
    intro off c name h1 h2 h3 h4 h5
    exact ⟨h1, ⟨_, _, h4, h5⟩, .inl ⟨h2, h3⟩⟩
  refine ⟨?_, ?_, ?_, by decide⟩
  · unfold parentTree
    rw [TreeAt, ForestAt, ForestAt, TreeAt, ForestAt]
    refine ⟨hk _ _ _ (exampleCell_fits _ _ _ _ (by decide) (by decide) (by decide) (by decide)) (by decide)
      (by decide) (by decide +kernel) (by decide +kernel), .inr ⟨by decide, by decide, .inl ?_⟩, by decide,
      ⟨hk _ _ _ ?_ (by decide) rfl (by decide +kernel) (by decide +kernel), .inl ⟨rfl, rfl⟩, trivial⟩, trivial⟩
    · exact ⟨.lf, -16, [(130, [0, 0, 0, 0])], by decide, by decide, by decide,
        ⟨(parentEnv [0x61]).fi.buffer.take 114, (parentEnv [0x61]).fi.buffer.drop 130, by decide +kernel, by decide +kernel⟩, rfl⟩
    · unfold NkCell.Fits exampleCell isI32
      simp
  · simp only [parentTree, Tree.Every, EveryAll, Tree.name]
    decide
  · simp only [parentTree, Tree.Every, EveryAll, KidsPointUp, Tree.kids]
    refine ⟨fun kid h => ?_, ⟨fun kid h => absurd h List.not_mem_nil, trivial⟩, trivial⟩
    rw [List.mem_singleton.1 h]
    decide

/-- C65 is violated.  (1) The parent of a key whose name has a backslash is given with a wrong path.
(2) The root key has no parent, yet asking for it gives an error: its parent field is followed. -/
theorem parent_violated :
    parentsOf (parentEnv [0x61, 0x5C, 0x62]) = some
      [((32, "\\RT".toList), none), ((130, "\\RT\\a\\b".toList), some (some (32, "\\RT\\RT".toList)))] ∧
    (parentTree [0x61, 0x5C, 0x62]).withParent [] none =
      [((32, "\\RT".toList), none), ((130, "\\RT\\a\\b".toList), some (32, "\\RT".toList))] := by
  constructor <;> decide +kernel

end Notatin
