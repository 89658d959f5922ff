import Verif.Spec.Dump
import Verif.Spec.Diff
import Verif.Spec.Compare
import Verif.Spec.Filter
/-
What a comparison of two hives should report, said in terms of the keys and values stored in the two files:
the spec speaks of the stored trees and of what a reader finds in the report.
-/
namespace Notatin.Spec
open Notatin

/-! ### What is stored -/

mutual
/-- The keys of a tree below a key with the path `parent`, with their paths, in pre-order. -/
def Tree.keys (parent : Str) : Tree → List (Str × Tree)
  | .mk off c name kids =>
    (parent ++ '\\' :: name, .mk off c name kids) :: keysAll (parent ++ '\\' :: name) kids
/-- The same for a list of trees. -/
def keysAll (parent : Str) : List Tree → List (Str × Tree)
  | [] => []
  | t :: ts => t.keys parent ++ keysAll parent ts
end

/-- A value as it is stored, with the flags of its cell. -/
structure FlaggedVal where
  val : Val
  flags : Nat
deriving DecidableEq, Repr

/-- The value cell at the relative offset `off` holds these flags. -/
def FlagsAt (buf : Bytes) (hbin off flags : Nat) : Prop :=
  flags < 65536 ∧ At buf (off + hbin + 20) (encLE 2 flags)

/-- The key cell has exactly the values, in this order, with these flags. -/
def FlaggedValuesAt (buf : Bytes) (hbin : Nat) (c : NkCell) (vs : List FlaggedVal) : Prop :=
  c.nValues = vs.length ∧ vs.length ≤ 1048576 ∧
  (vs = [] ∨ ∃ (offs : List Nat) (listOff size : Nat), c.valuesList = (listOff : Int) ∧ 0 < listOff ∧
    size < 4294967296 ∧ (∀ x ∈ offs, x < 4294967296) ∧
    At buf (hbin + listOff) (encLE 4 size ++ offs.flatMap (encLE 4)) ∧
    Pairwise2 (fun off x => ValueAt buf hbin off x.val ∧ FlagsAt buf hbin off x.flags) offs vs)

/-- The keys at and below the keys to which the names lead from the children of the key `t` with the path
`parent\name`, with their paths, in pre-order; names are compared up to the case of ASCII letters. -/
def Tree.keysUnder (parent : Str) : List Str → Tree → List (Str × Tree)
  | [], t => t.keys parent
  | s :: names, t =>
    t.kids.flatMap fun kid =>
      if decide (Seg.Matches (.lit s) kid.name) = true then kid.keysUnder (parent ++ '\\' :: t.name) names else []

/-- All values of the keys with the paths of their keys, in order. -/
def keyValues (ks : List (Str × Tree)) (vals : Nat → List FlaggedVal) : List (Str × FlaggedVal) :=
  ks.flatMap fun x => (vals x.2.off).map fun v => (x.1, v)

/-- What is compared of a key. -/
def Tree.facts (u : Tree) : Nat × Nat × Nat := (u.cell.flags, u.cell.lastWritten, u.cell.access)

/-- What is compared of a value. -/
def FlaggedVal.facts (v : FlaggedVal) : Nat × Nat × Bytes := (v.val.type, v.flags, v.val.data)

/-- The bytes that stand for what is compared of a key. -/
def Tree.factBytes (u : Tree) : Bytes :=
  encLE 2 u.cell.flags ++ encLE 8 u.cell.lastWritten ++ encLE 4 u.cell.access

/-- The bytes that stand for what is compared of a value. -/
def FlaggedVal.factBytes (v : FlaggedVal) : Bytes := encLE 4 v.val.type ++ encLE 2 v.flags ++ v.val.data

/-- The hash tells apart the keys, and the values, of the two hives. -/
structure HashTells (hash : Bytes → Bytes) (t1 : Tree) (v1 : Nat → List FlaggedVal) (t2 : Tree)
    (v2 : Nat → List FlaggedVal) : Prop where
  keys : ∀ a ∈ t1.nodes, ∀ b ∈ t2.nodes, hash a.factBytes = hash b.factBytes → a.factBytes = b.factBytes
  values : ∀ a ∈ t1.nodes, ∀ b ∈ t2.nodes, ∀ x ∈ v1 a.off, ∀ y ∈ v2 b.off,
    hash x.factBytes = hash y.factBytes → x.factBytes = y.factBytes

/-! ### The differences -/

/-- The keys of `ks` whose path `other` does not have, in order. -/
def onlyKeys (ks other : List (Str × Tree)) : List (Str × Tree) :=
  ks.filter fun x => !decide (x.1 ∈ other.map Prod.fst)

/-- The pairs of keys with the same path that differ in what is compared, in the order of the second list. -/
def changedKeys (ks1 ks2 : List (Str × Tree)) : List ((Str × Tree) × (Str × Tree)) :=
  ks2.flatMap fun y =>
    (ks1.filter fun x => decide (x.1 = y.1 ∧ x.2.facts ≠ y.2.facts)).map fun x => (x, y)

/-- The path and the name of a stored value. -/
def valueId (x : Str × FlaggedVal) : Str × Str := (x.1, x.2.val.name)

/-- The values of the first list that the second has not, in order. -/
def onlyValues (vs other : List (Str × FlaggedVal)) : List (Str × FlaggedVal) :=
  vs.filter fun x => !decide (valueId x ∈ other.map valueId)

/-- The pairs of values with the same path and name that differ in what is compared, in the order of the second
list. -/
def changedValues (vs1 vs2 : List (Str × FlaggedVal)) : List ((Str × FlaggedVal) × (Str × FlaggedVal)) :=
  vs2.flatMap fun y =>
    (vs1.filter fun x => decide (valueId x = valueId y ∧ x.2.facts ≠ y.2.facts)).map fun x => (x, y)

/-- The differences between the keys `ks1` and `ks2` of two stored hives and between their values; the deleted
keys and values may come in any order. -/
structure StoredDiff (ks1 : List (Str × Tree)) (v1 : Nat → List FlaggedVal) (ks2 : List (Str × Tree)) (v2 : Nat → List FlaggedVal)
    (keysDeleted keysAdded : List (Str × Tree)) (keysModified : List ((Str × Tree) × (Str × Tree)))
    (valuesDeleted valuesAdded : List (Str × FlaggedVal))
    (valuesModified : List ((Str × FlaggedVal) × (Str × FlaggedVal))) : Prop where
  keysDeleted : keysDeleted.Perm (onlyKeys ks1 ks2)
  keysAdded : keysAdded = onlyKeys ks2 ks1
  keysModified : keysModified = changedKeys ks1 ks2
  valuesDeleted : valuesDeleted.Perm (onlyValues (keyValues ks1 v1) (keyValues ks2 v2))
  valuesAdded : valuesAdded = onlyValues (keyValues ks2 v2) (keyValues ks1 v1)
  valuesModified : valuesModified = changedValues (keyValues ks1 v1) (keyValues ks2 v2)

/-! ### The rows of the report -/

/-- Numbers below 256 with a comma and a blank between them, up to the closing brackets. -/
def readByteList : Nat → Str → Option Bytes
  | 0, _ => none
  | fuel + 1, s =>
    match readDigits s with
    | some (n, [']', ')']) => if n < 256 then some [UInt8.ofNat n] else none
    | some (n, ',' :: ' ' :: r) =>
      if n < 256 then (readByteList fuel r).map (UInt8.ofNat n :: ·) else none
    | _ => none

/-- What follows the name and the opening bracket, without the closing one. -/
def inBrackets (name : String) (s : Str) : Option Str :=
  if name.toList ++ ['('] <+: s ∧ s.getLast? = some ')' then some ((s.drop (name.toList.length + 1)).dropLast)
  else none

/-- A content that is not a list of bytes: the name of the kind, and in brackets the content. -/
def readNamed (s : Str) : Option CellValue :=
  match inBrackets "String" s with
  | some ('"' :: r) =>
    match readDebug r with
    | some (t, []) => some (.String t)
    | _ => none
  | some _ => none
  | none =>
  match inBrackets "MultiString" s with
  | some r => (readTextList r).map .MultiString
  | none =>
  match inBrackets "U32" s with
  | some r => (readNumber r).map .U32
  | none =>
  match inBrackets "U64" s with
  | some r => (readNumber r).map .U64
  | none =>
  match inBrackets "I32" s with
  | some r => (readSigned r).map .I32
  | none => (inBrackets "I64" s).bind fun r => (readSigned r).map .I64

/-- The content a row of the report shows. -/
def readShown (s : Str) : Option CellValue :=
  if s = "None".toList then some .None
  else if s = "Error".toList then some .Error
  else if s = "Binary([])".toList then some (.Binary [])
  else if "Binary([".toList <+: s then (readByteList s.length (s.drop 8)).map .Binary
  else readNamed s

/-- The row is about this key: its path, when it was written, its flags. -/
def KeyRow (times : TimeRange) (row : Str) (x : Str × Tree) : Prop :=
  ∃ time flags access, row = x.1 ++ '\t' :: time ++ '\t' :: flags ++ '\t' :: access ∧
    (times x.2.cell.lastWritten → Tells time x.2.cell.lastWritten) ∧
    NamesFlags "KeyNodeFlags" keyFlagNames x.2.cell.flags flags ∧
    NamesFlags "AccessFlags" accessFlagNames x.2.cell.access access

/-- The row is about this value: the path of its key, its name, its content. -/
def ValueRow (row : Str) (x : Str × FlaggedVal) : Prop :=
  ∃ shown c, row = x.1 ++ '\t' :: shownName x.2.val.name ++ '\t' :: shown ∧ readShown shown = some c ∧
    ContentOf x.2.val.type x.2.val.data c

/-! ### The text report -/

/-- A section of the report: a title with a number between rules, and the rows. -/
def reportSection (title : String) (n : Nat) (rows : List Str) : List Str :=
  [[], List.replicate 34 '-', title.toList ++ ':' :: ' ' :: Nat.toDigits 10 n, List.replicate 34 '-'] ++ rows

/-- The text is the report on the files `base` and `comp` with these rows; a modified item has two rows, as it
was and as it is. -/
def IsReport (base comp : Str) (kd ka : List Str) (km : List (Str × Str)) (vd va : List Str)
    (vm : List (Str × Str)) (text : Str) : Prop :=
  lines text = ["Base: ".toList ++ base ++ [' '], "Comparison: ".toList ++ comp] ++
    reportSection "Keys deleted" kd.length kd ++ reportSection "Keys added" ka.length ka ++
    reportSection "Keys modified" km.length (km.flatMap fun x => [x.1, x.2]) ++
    reportSection "Values deleted" vd.length vd ++ reportSection "Values added" va.length va ++
    reportSection "Values modified" vm.length (vm.flatMap fun x => [x.1, x.2]) ++
    reportSection "Total changes"
      (kd.length + ka.length + km.length + vd.length + va.length + vm.length) []

/-- What `reg_compare` writes about the keys `ks1` and `ks2` of two hives: with these differences (in some order for what was deleted) and
one row for each item, a diff in unified format or a text report. -/
def CompareSays (diff : Bool) (times : TimeRange) (base comp : Str) (ks1 : List (Str × Tree))
    (v1 : Nat → List FlaggedVal) (ks2 : List (Str × Tree)) (v2 : Nat → List FlaggedVal) (text : Str) : Prop :=
  ∃ kd ka km vd va vm, StoredDiff ks1 v1 ks2 v2 kd ka km vd va vm ∧
  ∃ kdr kar kmr vdr var vmr,
    Pairwise2 (KeyRow times) kdr kd ∧ Pairwise2 (KeyRow times) kar ka ∧
    Pairwise2 (fun r x => KeyRow times r.1 x.1 ∧ KeyRow times r.2 x.2) kmr km ∧
    Pairwise2 ValueRow vdr vd ∧ Pairwise2 ValueRow var va ∧
    Pairwise2 (fun r x => ValueRow r.1 x.1 ∧ ValueRow r.2 x.2) vmr vm ∧
    if diff then
      IsDiff base comp (kdr ++ kmr.map Prod.fst ++ vdr ++ vmr.map Prod.fst)
        (kar ++ kmr.map Prod.snd ++ var ++ vmr.map Prod.snd) text
    else IsReport base comp kdr kar kmr vdr var vmr text

end Notatin.Spec
