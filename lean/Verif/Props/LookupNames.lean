import Verif.Props.SubKey
/-
C12, continued: the two kinds of names for which `get_key` is not the walk along the names: names
with a backslash in them, and names that occur twice among the sub-keys of a key.
-/
namespace Notatin
open Spec

/-- A bin with the root key `RT` and its one sub-key, named `a\b`. -/
def slashHive : FileInfo :=
  ⟨0, hbinBytes 0 300 0 0 0 0 ++ (exampleCell 0x24 1 114 [0x52, 0x54]).encode ++
    leafCell .lf (-16) [(130, [0, 0, 0, 0])] ++ (exampleCell 0x20 0 0 [0x61, 0x5c, 0x62]).encode⟩

/-- The tree of `slashHive`. -/
def slashTree : Tree :=
  .mk 32 (exampleCell 0x24 1 114 [0x52, 0x54]) ['R', 'T']
    [.mk 130 (exampleCell 0x20 0 0 [0x61, 0x5c, 0x62]) "a\\b".toList []]

/-- A bin with the root key `RT` and its two sub-keys, both named `a`; the second has a sub-key `b`. -/
def twinHive : FileInfo :=
  ⟨0, hbinBytes 0 400 0 0 0 0 ++ (exampleCell 0x24 2 114 [0x52, 0x54]).encode ++
    leafCell .lf (-24) [(138, [0, 0, 0, 0]), (219, [0, 0, 0, 0])] ++
    (exampleCell 0x20 0 0 [0x61]).encode ++ (exampleCell 0x20 1 300 [0x61]).encode ++
    leafCell .lf (-16) [(316, [0, 0, 0, 0])] ++ (exampleCell 0x20 0 0 [0x62]).encode⟩

/-- The tree of `twinHive`. -/
def twinTree : Tree :=
  .mk 32 (exampleCell 0x24 2 114 [0x52, 0x54]) ['R', 'T']
    [.mk 138 (exampleCell 0x20 0 0 [0x61]) ['a'] [],
     .mk 219 (exampleCell 0x20 1 300 [0x61]) ['a'] [.mk 316 (exampleCell 0x20 0 0 [0x62]) ['b'] []]]

/-- A stored ASCII-named key, given by its position. -/
theorem keyAt_of_slice (buf : Bytes) (off : Nat) (c : NkCell) (name : Str) (h1 : c.Fits)
    (h2 : c.flags.testBit 5 = true) (h3 : name = latin1 c.nameBytes)
    (h4 : buf = buf.take off ++ (c.encode ++ buf.drop (off + c.encode.length)))
    (h5 : (buf.take off).length = off) : KeyAt buf off c name :=
  ⟨h1, ⟨_, _, h4, h5⟩, .inl ⟨h2, h3⟩⟩

theorem slashHive_tree (depth : Nat) : TreeAt slashHive.buffer slashHive.hbin (depth + 1) slashTree := by
  unfold slashTree
  rw [TreeAt]
  refine ⟨keyAt_of_slice _ _ _ _ (exampleCell_fits _ _ _ _ (by decide) (by decide) (by decide) (by decide))
    (by decide) (by decide) (by decide +kernel) (by decide +kernel), .inr ⟨by decide, by decide, ?_⟩, ?_⟩
  · left
    exact ⟨.lf, -16, [(130, [0, 0, 0, 0])], by decide, by decide, by decide,
      ⟨slashHive.buffer.take 114, slashHive.buffer.drop 130, by decide +kernel, by decide +kernel⟩, rfl⟩
  · rw [ForestAt, ForestAt]
    refine ⟨by decide, ?_, trivial⟩
    rw [TreeAt, ForestAt]
    exact ⟨keyAt_of_slice _ _ _ _ (exampleCell_fits _ _ _ _ (by decide) (by decide) (by decide) (by decide))
      (by decide) (by decide) (by decide +kernel) (by decide +kernel), .inl ⟨rfl, rfl⟩, trivial⟩

theorem twinHive_tree (depth : Nat) : TreeAt twinHive.buffer twinHive.hbin (depth + 1) twinTree := by
  unfold twinTree
  rw [TreeAt]
  refine ⟨keyAt_of_slice _ _ _ _ (exampleCell_fits _ _ _ _ (by decide) (by decide) (by decide) (by decide))
    (by decide) (by decide) (by decide +kernel) (by decide +kernel), .inr ⟨by decide, by decide, ?_⟩, ?_⟩
  · left
    exact ⟨.lf, -24, [(138, [0, 0, 0, 0]), (219, [0, 0, 0, 0])], by decide, by decide, by decide,
      ⟨twinHive.buffer.take 114, twinHive.buffer.drop 138, by decide +kernel, by decide +kernel⟩, rfl⟩
  · rw [ForestAt, ForestAt, ForestAt]
    refine ⟨by decide, ?_, by decide, ?_, trivial⟩
    · rw [TreeAt, ForestAt]
      exact ⟨keyAt_of_slice _ _ _ _ (exampleCell_fits _ _ _ _ (by decide) (by decide) (by decide) (by decide))
        (by decide) (by decide) (by decide +kernel) (by decide +kernel), .inl ⟨rfl, rfl⟩, trivial⟩
    · rw [TreeAt, ForestAt, ForestAt]
      refine ⟨keyAt_of_slice _ _ _ _ (exampleCell_fits _ _ _ _ (by decide) (by decide) (by decide) (by decide))
        (by decide) (by decide) (by decide +kernel) (by decide +kernel), .inr ⟨by decide, by decide, ?_⟩,
        by decide, ?_, trivial⟩
      · left
        exact ⟨.lf, -16, [(316, [0, 0, 0, 0])], by decide, by decide, by decide,
          ⟨twinHive.buffer.take 300, twinHive.buffer.drop 316, by decide +kernel, by decide +kernel⟩, rfl⟩
      · rw [TreeAt, ForestAt]
        exact ⟨keyAt_of_slice _ _ _ _ (exampleCell_fits _ _ _ _ (by decide) (by decide) (by decide) (by decide))
          (by decide) (by decide) (by decide +kernel) (by decide +kernel), .inl ⟨rfl, rfl⟩, trivial⟩

/-- What a lookup returns: the offset and path of the key found. -/
def found (r : Res (Option Node × Nat)) : Option (Nat × Str) :=
  match r with
  | .ok (some n, _) => some (obs n)
  | _ => none

/-- C12 is violated for names with a backslash: the root has one sub-key, named `a\b`. No chain of
sub-keys has the names `a` and `b`, but `get_key("a\b")` returns that sub-key. -/
theorem get_key_backslash_violated : ∃ (fi : FileInfo) (t : Tree),
    TreeAt fi.buffer fi.hbin 2 t ∧ t.off = 32 + fi.hbin ∧
      walkTo [['a'], ['b']] [] t = none ∧ firstAt [['a'], ['b']] t = none ∧
      found (getKey ⟨fi, fun _ => [], 2⟩ {} 32 "a\\b".toList false) = some (130, "\\RT\\a\\b".toList) :=
  ⟨slashHive, slashTree, slashHive_tree 1, rfl, by decide +kernel, by decide +kernel, by decide +kernel⟩

/-- C12 is violated for a name that occurs twice: both sub-keys of the root are named `a`, only the
second one has a sub-key `b`. Following the first sub-key named `a` leads nowhere, but
`get_key("a\b")` returns the sub-key of the second. -/
theorem get_key_twins_violated : ∃ (fi : FileInfo) (t : Tree),
    TreeAt fi.buffer fi.hbin 3 t ∧ t.off = 32 + fi.hbin ∧
      walkTo [['a'], ['b']] [] t = none ∧
      found (getKey ⟨fi, fun _ => [], 3⟩ {} 32 "a\\b".toList false) = some (316, "\\RT\\a\\b".toList) :=
  ⟨twinHive, twinTree, twinHive_tree 2, rfl, by decide +kernel, by decide +kernel⟩

/-! ### C44 -/

/-- C44 is violated when the sub-key list lists itself: whatever the index and however large the
stack, `get_sub_key_by_index` and `next_sub_key` exhaust it instead of returning. -/
theorem sub_key_by_index_violated : ∃ (fi : FileInfo) (self : Node),
    ∀ (hashFn : Bytes → Bytes) (depth : Nat) (st : State) (i : Nat),
      getSubKeyByIndex ⟨fi, hashFn, depth⟩ st self i = .panic ∧
      nextSubKey ⟨fi, hashFn, depth⟩ st self = .panic := by
  refine ⟨selfRi, .mk { defaultKey with nSubKeys := 1, subKeysListOffset := 0 } [] [], ?_⟩
  intro hashFn depth st i
  have h : ∀ i, getSubKeyByIndex ⟨selfRi, hashFn, depth⟩ st
      (.mk { defaultKey with nSubKeys := 1, subKeysListOffset := 0 } [] []) i = .panic := by
    intro i
    unfold getSubKeyByIndex
    rw [if_pos (by show 0 < 1; decide)]
    simp only [Node.key, sub_key_list_cycle_violated]
  refine ⟨h i, ?_⟩
  unfold nextSubKey
  rw [h]

end Notatin
