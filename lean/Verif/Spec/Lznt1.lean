import Verif.Spec.Encode
/-
LZNT1 as documented in [MS-XCA] 2.5: chunk encoding and the meaning of tokens.
Written independently of the decoder.
-/
namespace Notatin.Spec
open Notatin

/-- A token of a compressed chunk: a literal byte, or a back reference (displacement, length). -/
inductive Tok where
  | lit (b : UInt8)
  | ref (disp len : Nat)
deriving DecidableEq, Repr

/-- Number of displacement bits at output position `p` of a chunk: the least `m ≥ 4` with
`p ≤ 2^m` (for `p ≤ 4096`). -/
def dispBits (p : Nat) : Nat :=
  if p ≤ 16 then 4 else if p ≤ 32 then 5 else if p ≤ 64 then 6 else if p ≤ 128 then 7
  else if p ≤ 256 then 8 else if p ≤ 512 then 9 else if p ≤ 1024 then 10
  else if p ≤ 2048 then 11 else 12

/-- Number of output bytes of a token. -/
def Tok.outLen : Tok → Nat
  | .lit _ => 1
  | .ref _ len => len

/-- Is it a back reference (flag bit 1)? -/
def Tok.isRef : Tok → Nat
  | .lit _ => 0
  | .ref _ _ => 1

/-- Encoding of a token at output position `p` of its chunk. -/
def Tok.bytes (p : Nat) : Tok → Bytes
  | .lit b => [b]
  | .ref disp len => encLE 2 ((disp - 1) * 2 ^ (16 - dispBits p) + (len - 3))

/-- Total output length of tokens. -/
def outLens : List Tok → Nat
  | [] => 0
  | t :: ts => t.outLen + outLens ts

/-- Encoding of consecutive tokens starting at position `p`. -/
def encRun : Nat → List Tok → Bytes
  | _, [] => []
  | p, t :: ts => t.bytes p ++ encRun (p + t.outLen) ts

/-- Flag bits of a group, first token in the lowest bit. -/
def flags : List Tok → Nat
  | [] => 0
  | t :: ts => t.isRef + 2 * flags ts

/-- Encoding in groups of (at most) eight tokens, each preceded by its flag byte. -/
def encGroups (p : Nat) (ts : List Tok) : Bytes :=
  if ts = [] then [] else
    UInt8.ofNat (flags (ts.take 8)) :: encRun p (ts.take 8) ++
      encGroups (p + outLens (ts.take 8)) (ts.drop 8)
termination_by ts.length
decreasing_by
  have : ts.length ≠ 0 := by simpa using ‹¬ ts = []›
  simp; omega

/-- Meaning of a token: `out` becomes `out'` (`start`: where the chunk began).  A back reference
repeats the byte `disp` positions before, byte by byte. -/
def TokStep (start : Nat) (out : Bytes) (t : Tok) (out' : Bytes) : Prop :=
  match t with
  | .lit b => out.length < start + 4096 ∧ out' = out ++ [b]
  | .ref disp len =>
    1 ≤ disp ∧ start + disp ≤ out.length ∧ 3 ≤ len ∧
    len - 3 < 2 ^ (16 - dispBits (out.length - start)) ∧ out.length + len ≤ start + 4096 ∧
    out'.length = out.length + len ∧ out'.take out.length = out ∧
    ∀ i, out.length ≤ i → i < out'.length → out'[i]? = out'[i - disp]?

/-- Meaning of consecutive tokens. -/
inductive Expand (start : Nat) : Bytes → List Tok → Bytes → Prop
  | nil (out) : Expand start out [] out
  | cons (out t mid ts out') : TokStep start out t mid → Expand start mid ts out' →
      Expand start out (t :: ts) out'

/-- A chunk of a stream. -/
inductive Chunk where
  | raw (bs : Bytes)
  | comp (ts : List Tok)

/-- Encoding of a chunk: 16-bit header (signature 3, compressed bit, size − 1) and body. -/
def Chunk.bytes : Chunk → Bytes
  | .raw bs => encLE 2 (0x3000 + (bs.length - 1)) ++ bs
  | .comp ts => encLE 2 (0xB000 + ((encGroups 0 ts).length - 1)) ++ encGroups 0 ts

/-- Meaning of a chunk. -/
def ChunkStep (out : Bytes) (c : Chunk) (out' : Bytes) : Prop :=
  match c with
  | .raw bs => 1 ≤ bs.length ∧ bs.length ≤ 4096 ∧ out' = out ++ bs
  | .comp ts => ts ≠ [] ∧ (encGroups 0 ts).length ≤ 4096 ∧ Expand out.length out ts out'

/-- Meaning of a stream of chunks. -/
inductive Stream : Bytes → List Chunk → Bytes → Prop
  | nil (out) : Stream out [] out
  | cons (out c mid cs out') : ChunkStep out c mid → Stream mid cs out' →
      Stream out (c :: cs) out'

end Notatin.Spec
