import Verif.Spec.Slice
/-
Layout of the hive cells, written from the registry file format documentation
(https://github.com/msuhanov/regf), not from notatin's parsers.
-/
namespace Notatin.Spec
open Notatin

/-- A key cell: all stored fields.  `nameBytes` is the stored (encoded) name. -/
structure NkCell where
  size : Int
  flags : Nat
  lastWritten : Nat
  access : Nat
  parent : Int
  nSubKeys : Nat
  nVolatile : Nat
  subKeysList : Nat
  volatileList : Int
  nValues : Nat
  valuesList : Int
  security : Nat
  className : Int
  largestSubKeyName : Nat
  largestSubKeyClass : Nat
  largestValueName : Nat
  largestValueData : Nat
  workVar : Nat
  classNameSize : Nat
  nameBytes : Bytes
  slack : Bytes

/-- `"nk"`. -/
def nkSig : Bytes := [0x6E, 0x6B]
/-- `"vk"`. -/
def vkSig : Bytes := [0x76, 0x6B]

/-- The bytes of a key cell. -/
def NkCell.encode (c : NkCell) : Bytes :=
  encI32 c.size ++ (nkSig ++ (encLE 2 c.flags ++ (encLE 8 c.lastWritten ++ (encLE 4 c.access ++
  (encI32 c.parent ++ (encLE 4 c.nSubKeys ++ (encLE 4 c.nVolatile ++ (encLE 4 c.subKeysList ++
  (encI32 c.volatileList ++ (encLE 4 c.nValues ++ (encI32 c.valuesList ++ (encLE 4 c.security ++
  (encI32 c.className ++ (encLE 4 c.largestSubKeyName ++ (encLE 4 c.largestSubKeyClass ++
  (encLE 4 c.largestValueName ++ (encLE 4 c.largestValueData ++ (encLE 4 c.workVar ++
  (encLE 2 c.nameBytes.length ++ (encLE 2 c.classNameSize ++ (c.nameBytes ++
  c.slack)))))))))))))))))))))

/-- The fields fit their widths and the size field is the length of the cell. -/
def NkCell.Fits (c : NkCell) : Prop :=
  isI32 c.size ∧ c.size.natAbs = 80 + c.nameBytes.length + c.slack.length ∧
  c.flags < 65536 ∧ c.lastWritten < 18446744073709551616 ∧ c.access < 4294967296 ∧
  isI32 c.parent ∧ c.nSubKeys < 4294967296 ∧ c.nVolatile < 4294967296 ∧
  c.subKeysList < 4294967296 ∧ isI32 c.volatileList ∧ c.nValues < 4294967296 ∧
  isI32 c.valuesList ∧ c.security < 4294967296 ∧ isI32 c.className ∧
  c.largestSubKeyName < 4294967296 ∧ c.largestSubKeyClass < 4294967296 ∧
  c.largestValueName < 4294967296 ∧ c.largestValueData < 4294967296 ∧
  c.workVar < 4294967296 ∧ c.classNameSize < 65536 ∧ c.nameBytes.length < 65536

/-- A value cell: all stored fields. -/
structure VkCell where
  size : Int
  dataSize : Nat
  dataOffset : Nat
  dataType : Nat
  flags : Nat
  padding : Nat
  nameBytes : Bytes
  slack : Bytes

/-- The bytes of a value cell. -/
def VkCell.encode (c : VkCell) : Bytes :=
  encI32 c.size ++ (vkSig ++ (encLE 2 c.nameBytes.length ++ (encLE 4 c.dataSize ++
  (encLE 4 c.dataOffset ++ (encLE 4 c.dataType ++ (encLE 2 c.flags ++ (encLE 2 c.padding ++
  (c.nameBytes ++ c.slack))))))))

/-- The fields fit their widths and the size field is the length of the cell. -/
def VkCell.Fits (c : VkCell) : Prop :=
  isI32 c.size ∧ c.size.natAbs = 24 + c.nameBytes.length + c.slack.length ∧
  c.dataSize < 4294967296 ∧ c.dataOffset < 4294967296 ∧ c.dataType < 4294967296 ∧
  c.flags < 65536 ∧ c.padding < 65536 ∧ c.nameBytes.length < 65536

/-- The documented bits of the key flags: bits 0-9, 12 and 14. -/
def keyFlagBit (i : Nat) : Bool := decide (i ≤ 9) || i == 12 || i == 14
/-- The documented bits of the access flags. -/
def accessFlagBit (i : Nat) : Bool := i == 0 || i == 1
/-- The documented bits of the value flags: ASCII name, tombstone. -/
def valueFlagBit (i : Nat) : Bool := i == 0 || i == 1

/-- The text of a name stored one byte per character (Latin-1). -/
def latin1 (bs : Bytes) : Str := bs.map fun b => Char.ofNat b.toNat

end Notatin.Spec
