import Verif.Model.Lznt1
import Verif.Spec.Lznt1
import Verif.Lemmas.Text
/-
Property theorems C24 (LZNT1).
-/
namespace Notatin
open Spec

theorem dispBits_of_bounds (o x : Nat) (ho : o ≤ 8) (h1 : x ≤ 16 * 2 ^ o)
    (h2 : o = 0 ∨ 16 * 2 ^ (o - 1) < x) : dispBits x = 4 + o := by
  have : o = 0 ∨ o = 1 ∨ o = 2 ∨ o = 3 ∨ o = 4 ∨ o = 5 ∨ o = 6 ∨ o = 7 ∨ o = 8 := by omega
  rcases this with rfl | rfl | rfl | rfl | rfl | rfl | rfl | rfl | rfl <;>
    simp only [Nat.reduceSub, Nat.reducePow, Nat.reduceMul, Nat.reduceEqDiff, false_or, true_or] at h1 h2 <;>
    unfold dispBits <;> repeat' (first | rw [if_pos (by omega)] | rw [if_neg (by omega)])

theorem calcCompressionBits_get : ∀ (n x o i : Nat), x + i < 4096 → i < n → o ≤ 8 →
    x ≤ 16 * 2 ^ o → (o = 0 ∨ 16 * 2 ^ (o - 1) < x) →
    (calcCompressionBits n x (16 * 2 ^ o) o)[i]? = some (dispBits (x + i)) := by
  intro n
  induction n with
  | zero => intro x o i _ h; omega
  | succ n ih =>
    intro x o i h1 h2 h3 h4 h5
    rw [calcCompressionBits]
    cases i with
    | zero => simp [dispBits_of_bounds o x h3 h4 h5]
    | succ i =>
      rw [List.getElem?_cons_succ]
      have e : x + (i + 1) = x + 1 + i := by omega
      rw [e]
      split
      · rename_i hx
        have ho : o < 8 := by
          apply Classical.byContradiction
          intro hh
          have : o = 8 := by omega
          subst this
          omega
        have e2 : 2 * (16 * 2 ^ o) = 16 * 2 ^ (o + 1) := by rw [Nat.pow_succ]; omega
        rw [e2]
        apply ih (x + 1) (o + 1) i (by omega) (by omega) (by omega)
        · have : 0 < 2 ^ o := Nat.pow_pos (by decide)
          rw [Nat.pow_succ]; omega
        · right; rw [Nat.add_sub_cancel]; omega
      · apply ih (x + 1) o i (by omega) (by omega) (by omega) (by omega)
        rcases h5 with h5 | h5
        · exact .inl h5
        · right; omega

/-- C24: the displacement/length split follows the output position as documented. -/
theorem lznt1_split (p : Nat) (h : p < 4096) : compressionBits[p]? = some (dispBits p) := by
  have := calcCompressionBits_get 4096 0 0 p (by omega) h (by omega) (by omega) (.inl rfl)
  simpa [compressionBits] using this

/-- C24: `dispBits` is the least number of bits, at least 4, that can express the position. -/
theorem dispBits_least (p : Nat) (h : p ≤ 4096) :
    4 ≤ dispBits p ∧ dispBits p ≤ 12 ∧ p ≤ 2 ^ dispBits p ∧
      ∀ m, 4 ≤ m → p ≤ 2 ^ m → dispBits p ≤ m := by
  have key : ∀ m a : Nat, 2 ^ a < p → p ≤ 2 ^ m → a < m := by
    intro m a h1 h2
    exact (Nat.pow_lt_pow_iff_right (a := 2) (by decide)).1 (Nat.lt_of_lt_of_le h1 h2)
  unfold dispBits
  split
  · exact ⟨by decide, by decide, by omega, fun m h1 _ => h1⟩
  · split
    · exact ⟨by decide, by decide, by omega, fun m _ h2 => key m 4 (by omega) h2⟩
    · split
      · exact ⟨by decide, by decide, by omega, fun m _ h2 => key m 5 (by omega) h2⟩
      · split
        · exact ⟨by decide, by decide, by omega, fun m _ h2 => key m 6 (by omega) h2⟩
        · split
          · exact ⟨by decide, by decide, by omega, fun m _ h2 => key m 7 (by omega) h2⟩
          · split
            · exact ⟨by decide, by decide, by omega, fun m _ h2 => key m 8 (by omega) h2⟩
            · split
              · exact ⟨by decide, by decide, by omega, fun m _ h2 => key m 9 (by omega) h2⟩
              · split
                · exact ⟨by decide, by decide, by omega, fun m _ h2 => key m 10 (by omega) h2⟩
                · exact ⟨by decide, by decide, by omega, fun m _ h2 => key m 11 (by omega) h2⟩

theorem lzCopy_spec (d : Nat) (hd : 1 ≤ d) :
    ∀ (n : Nat) (out out' : Bytes), d ≤ out.length → out'.length = out.length + n →
      out'.take out.length = out →
      (∀ i, out.length ≤ i → i < out'.length → out'[i]? = out'[i - d]?) →
      lzCopy n (out.length - d) out = some out' := by
  intro n
  induction n with
  | zero =>
    intro out out' _ h1 h2 _
    rw [lzCopy, ← h2, List.take_of_length_le (by omega)]
  | succ n ih =>
    intro out out' h0 h1 h2 h3
    rw [lzCopy]
    have hlt : out.length < out'.length := by omega
    have e1 : out[out.length - d]? = some out'[out.length] := by
      have := h3 out.length (Nat.le_refl _) hlt
      rw [List.getElem?_eq_getElem hlt] at this
      rw [this]
      conv => lhs; rw [← h2]
      rw [List.getElem?_take, if_pos (by simp only [List.length_take]; omega)]
      congr 1
      simp only [List.length_take]; omega
    rw [e1]
    simp only
    have e2 : out ++ [out'[out.length]] = out'.take (out.length + 1) := by
      rw [List.take_succ_eq_append_getElem hlt, h2]
    have e3 : (out'.take (out.length + 1)).length = out.length + 1 := by
      rw [List.length_take]; omega
    rw [e2]
    have := ih (out'.take (out.length + 1)) out' (by omega) (by omega)
      (by rw [e3]) (by rw [e3]; intro i hi; exact h3 i (by omega))
    rw [e3] at this
    have e4 : out.length - d + 1 = out.length + 1 - d := by omega
    rw [e4]; exact this

theorem u16At_of_drop (source : Bytes) (i n : Nat) (hn : n < 65536) (rest : Bytes)
    (h : source.drop i = encLE 2 n ++ rest) : u16At source i = some n := by
  obtain ⟨a, b, hab, hv⟩ := encLE_two n
  rw [hab] at h
  have h0 : source[i]? = some a := by
    have : (source.drop i)[0]? = some a := by rw [h]; rfl
    simpa using this
  have h1 : source[i + 1]? = some b := by
    have : (source.drop i)[1]? = some b := by rw [h]; rfl
    simpa using this
  simp only [u16At, h0, h1, hv hn]

theorem drop_add_of_drop (source : Bytes) (i : Nat) (a rest : Bytes)
    (h : source.drop i = a ++ rest) : source.drop (i + a.length) = rest := by
  rw [← List.drop_drop, h, List.drop_left]

theorem tok_outLen (start : Nat) (out : Bytes) (t : Tok) (out' : Bytes)
    (h : TokStep start out t out') : out'.length = out.length + t.outLen := by
  cases t with
  | lit b => rw [h.2]; simp [Tok.outLen]
  | ref d l => exact h.2.2.2.2.2.1

theorem expand_outLen (start : Nat) (out : Bytes) (ts : List Tok) (out' : Bytes)
    (h : Expand start out ts out') : out'.length = out.length + outLens ts := by
  induction h with
  | nil => simp [outLens]
  | cons out t mid ts out' h1 _ ih => rw [ih, tok_outLen _ _ _ _ h1, outLens]; omega

theorem length_tok_bytes (t : Tok) (p : Nat) : 1 ≤ (t.bytes p).length := by
  cases t <;> simp [Tok.bytes, length_encLE]

theorem lzTokens_spec (source : Bytes) (subEnd start : Nat) (rest : Bytes) :
    ∀ (n : Nat) (ts : List Tok) (si : Nat) (out out' : Bytes), start ≤ out.length →
      Expand start out ts out' →
      source.drop si = encRun (out.length - start) ts ++ rest →
      si + (encRun (out.length - start) ts).length ≤ subEnd →
      ts.length ≤ n →
      (ts.length = n ∨ si + (encRun (out.length - start) ts).length = subEnd) →
      lzTokens source subEnd start n (flags ts) si out =
        .ok (si + (encRun (out.length - start) ts).length, out') := by
  intro n
  induction n with
  | zero =>
    intro ts si out out' _ hex _ _ hlen _
    have : ts = [] := List.eq_nil_of_length_eq_zero (by omega)
    subst this
    cases hex
    simp [lzTokens, encRun]
  | succ n ih =>
    intro ts si out out' hstart hex hdrop hle hlen hor
    cases hex with
    | nil =>
      have : si = subEnd := by
        rcases hor with h | h
        · simp at h
        · simpa [encRun] using h
      rw [lzTokens, if_pos (by omega)]; simp [encRun]
    | cons _ t mid ts _ hstep hrest =>
      have hl := tok_outLen _ _ _ _ hstep
      have hb := length_tok_bytes t (out.length - start)
      rw [encRun] at hdrop hle hor ⊢
      rw [List.length_append] at hle hor ⊢
      have hpos : out.length - start + t.outLen = mid.length - start := by omega
      rw [hpos] at hdrop hle hor ⊢
      rw [List.append_assoc] at hdrop
      have hdrop2 := drop_add_of_drop _ _ _ _ hdrop
      have hrec := ih ts (si + (t.bytes (out.length - start)).length) mid out' (by omega) hrest
        hdrop2 (by omega) (by simpa using hlen)
        (by rcases hor with h | h
            · left; simpa using h
            · right; omega)
      rw [lzTokens, if_neg (by omega)]
      cases t with
      | lit b =>
        have hb0 : source[si]? = some b := by
          have : (source.drop si)[0]? = some b := by rw [hdrop]; rfl
          simpa using this
        have hf : flags (Tok.lit b :: ts) = 2 * flags ts := by simp [flags, Tok.isRef]
        rw [hf, if_pos (by omega), hb0]
        simp only
        rw [Nat.mul_div_cancel_left _ (by decide : 0 < 2), ← hstep.2]
        simp only [Tok.bytes, List.length_cons, List.length_nil] at hrec ⊢
        rw [hrec]
        simp; omega
      | ref d l =>
        obtain ⟨h1, h2, h3, h4, h5, h6, h7, h8⟩ := hstep
        have hf : flags (Tok.ref d l :: ts) = 1 + 2 * flags ts := by simp [flags, Tok.isRef]
        rw [hf, if_neg (by omega), lznt1_split _ (by omega : out.length - start < 4096)]
        simp only
        have hd := dispBits_least (out.length - start) (by omega)
        generalize hbits : dispBits (out.length - start) = bits at *
        obtain ⟨hb4, hb12, hp, _⟩ := hd
        have hpow : 2 ^ bits * 2 ^ (16 - bits) = 65536 := by
          rw [← Nat.pow_add]
          have : bits + (16 - bits) = 16 := by omega
          rw [this]
        have hm : (d - 1) * 2 ^ (16 - bits) + (l - 3) < 65536 := by
          have h9 : d ≤ 2 ^ bits := by omega
          have h10 : (d - 1 + 1) * 2 ^ (16 - bits) ≤ 2 ^ bits * 2 ^ (16 - bits) :=
            Nat.mul_le_mul_right _ (by omega)
          rw [Nat.add_mul, Nat.one_mul] at h10
          omega
        simp only [Tok.bytes, hbits] at hdrop hdrop2 hrec ⊢
        rw [u16At_of_drop source si _ hm _ hdrop]
        simp only
        have hpp : 0 < 2 ^ (16 - bits) := Nat.pow_pos (by decide)
        have e1 : ((d - 1) * 2 ^ (16 - bits) + (l - 3)) / 2 ^ (16 - bits) = d - 1 := by
          rw [Nat.mul_comm, Nat.mul_add_div hpp, Nat.div_eq_of_lt h4]; omega
        have e2 : ((d - 1) * 2 ^ (16 - bits) + (l - 3)) % 2 ^ (16 - bits) = l - 3 := by
          rw [Nat.mul_comm, Nat.mul_add_mod, Nat.mod_eq_of_lt h4]
        rw [e1, e2, if_pos (by omega)]
        have e3 : out.length - (d - 1) - 1 = out.length - d := by omega
        have e4 : l - 3 + 3 = l := by omega
        rw [e3, e4, lzCopy_spec d h1 l out mid (by omega) h6 h7 h8]
        simp only
        have e5 : (1 + 2 * flags ts) / 2 = flags ts := by omega
        rw [e5]
        simp only [length_encLE] at hrec ⊢
        rw [hrec, Nat.add_assoc]

theorem expand_append (start : Nat) (out : Bytes) (a b : List Tok) (out' : Bytes)
    (h : Expand start out (a ++ b) out') : ∃ mid, Expand start out a mid ∧ Expand start mid b out' := by
  induction a generalizing out with
  | nil => exact ⟨out, .nil _, h⟩
  | cons t a ih =>
    cases h with
    | cons _ _ mid _ _ h1 h2 =>
      obtain ⟨m2, h3, h4⟩ := ih mid h2
      exact ⟨m2, .cons _ _ mid _ _ h1 h3, h4⟩

theorem flags_lt (ts : List Tok) : flags ts < 2 ^ ts.length := by
  induction ts with
  | nil => simp [flags]
  | cons t ts ih =>
    rw [flags, List.length_cons, Nat.pow_succ]
    cases t <;> simp only [Tok.isRef] <;> omega

theorem lzGroups_spec (source : Bytes) (subEnd start : Nat) (rest : Bytes) :
    ∀ (n : Nat) (ts : List Tok) (si : Nat) (out out' : Bytes), ts.length ≤ n → start ≤ out.length →
      Expand start out ts out' →
      source.drop si = encGroups (out.length - start) ts ++ rest →
      si + (encGroups (out.length - start) ts).length = subEnd →
      lzGroups source subEnd start si out = .ok (subEnd, out') := by
  intro n
  induction n with
  | zero =>
    intro ts si out out' hn _ hex hdrop hend
    have : ts = [] := List.eq_nil_of_length_eq_zero (by omega)
    subst this
    cases hex
    rw [encGroups] at hend
    simp at hend
    rw [lzGroups, if_neg (by omega), hend]
  | succ n ih =>
    intro ts si out out' hn hstart hex hdrop hend
    by_cases hnil : ts = []
    · subst hnil
      cases hex
      rw [encGroups] at hend
      simp at hend
      rw [lzGroups, if_neg (by omega), hend]
    · have hpos : 0 < ts.length := List.length_pos_iff.2 hnil
      rw [← List.take_append_drop 8 ts] at hex
      obtain ⟨mid, he1, he2⟩ := expand_append _ _ _ _ _ hex
      have hmid := expand_outLen _ _ _ _ he1
      rw [encGroups, if_neg hnil] at hdrop hend
      have hp2 : out.length - start + outLens (ts.take 8) = mid.length - start := by omega
      rw [hp2] at hdrop hend
      simp only [List.length_append, List.length_cons] at hend
      have hb : source[si]? = some (UInt8.ofNat (flags (ts.take 8))) := by
        have : (source.drop si)[0]? = some (UInt8.ofNat (flags (ts.take 8))) := by rw [hdrop]; rfl
        simpa using this
      have hd1 : source.drop (si + 1) = encRun (out.length - start) (ts.take 8) ++
          (encGroups (mid.length - start) (ts.drop 8) ++ rest) := by
        have := drop_add_of_drop source si [UInt8.ofNat (flags (ts.take 8))]
          (encRun (out.length - start) (ts.take 8) ++
          (encGroups (mid.length - start) (ts.drop 8) ++ rest)) (by rw [hdrop]; simp)
        simpa using this
      have hft : (UInt8.ofNat (flags (ts.take 8))).toNat = flags (ts.take 8) := by
        have h1 := flags_lt (ts.take 8)
        have h2 : 2 ^ (ts.take 8).length ≤ 2 ^ 8 :=
          Nat.pow_le_pow_right (by decide) (by rw [List.length_take]; omega)
        simp only [UInt8.toNat_ofNat']
        omega
      have ht := lzTokens_spec source subEnd start _ 8 (ts.take 8) (si + 1) out mid hstart he1 hd1
        (by omega) (by rw [List.length_take]; omega)
        (by
          by_cases h8 : 8 ≤ ts.length
          · left; rw [List.length_take]; omega
          · right
            have : ts.drop 8 = [] := List.drop_eq_nil_of_le (by omega)
            rw [this] at hend
            have e : encGroups (mid.length - start) [] = [] := by rw [encGroups]; simp
            rw [e] at hend
            simp at hend
            omega)
      rw [lzGroups, if_pos (by omega), hb]
      simp only
      split
      · rename_i si' out'' heq
        rw [hft, ht] at heq
        simp only [Res.ok.injEq, Prod.mk.injEq] at heq
        obtain ⟨rfl, rfl⟩ := heq
        apply ih (ts.drop 8) _ _ _ (by rw [List.length_drop]; omega) (by omega) he2
        · exact drop_add_of_drop _ _ _ _ hd1
        · omega
      · rename_i heq; rw [hft, ht] at heq; cases heq
      · rename_i heq; rw [hft, ht] at heq; cases heq

theorem length_chunk_bytes (c : Chunk) : 2 ≤ c.bytes.length := by
  cases c <;> simp [Chunk.bytes, length_encLE]

theorem lzLoop_spec (source : Bytes) (tail : Bytes) (ht : tail = [] ∨ ∃ t, tail = 0 :: 0 :: t) :
    ∀ (cs : List Chunk) (si : Nat) (out out' : Bytes), Stream out cs out' →
      source.drop si = cs.flatMap Chunk.bytes ++ tail → si ≤ source.length →
      lzLoop source source.length si out = .ok out' := by
  intro cs
  induction cs with
  | nil =>
    intro si out out' hs hdrop hsi
    cases hs
    rw [lzLoop]
    rcases ht with rfl | ⟨t, rfl⟩
    · have : source.length ≤ si := by
        have := congrArg List.length hdrop
        simp at this; omega
      rw [if_neg (by omega)]
    · have hlen : 2 ≤ source.length - si := by
        have := congrArg List.length hdrop
        simp at this; omega
      have hu := u16At_of_drop source si 0 (by omega) t (by rw [hdrop]; rfl)
      rw [if_pos (by omega), hu]
      simp
  | cons c cs ih =>
    intro si out out' hs hdrop hsi
    cases hs with
    | cons _ _ mid _ _ hc hrest =>
      rw [List.flatMap_cons, List.append_assoc] at hdrop
      have hlen2 := length_chunk_bytes c
      have hlen : si + c.bytes.length ≤ source.length := by
        have := congrArg List.length hdrop
        simp at this; omega
      have hd2 := drop_add_of_drop _ _ _ _ hdrop
      have hrec := ih (si + c.bytes.length) mid out' hrest hd2 hlen
      rw [lzLoop, if_pos (by omega)]
      cases c with
      | raw bs =>
        obtain ⟨h1, h2, h3⟩ := hc
        simp only [Chunk.bytes, List.append_assoc] at hdrop
        rw [u16At_of_drop source si (0x3000 + (bs.length - 1)) (by omega) _ hdrop]
        simp only
        rw [if_neg (by omega), if_pos (by omega)]
        have e1 : (0x3000 + (bs.length - 1)) % 0x1000 + 1 = bs.length := by omega
        rw [e1]
        have hd3 := drop_add_of_drop _ _ _ _ hdrop
        rw [length_encLE] at hd3
        simp only [Chunk.bytes, List.length_append, length_encLE] at hlen hrec
        have hg : getRange source (si + 2) (si + 2 + bs.length) = some bs := by
          unfold getRange
          rw [if_pos (by omega), hd3, Nat.add_sub_cancel_left, List.take_left]
        rw [hg]
        simp only
        rw [← h3, Nat.add_assoc]
        exact hrec
      | comp ts =>
        obtain ⟨h1, h2, h3⟩ := hc
        simp only [Chunk.bytes, List.append_assoc] at hdrop
        have hpos : 1 ≤ (encGroups 0 ts).length := by
          rw [encGroups, if_neg h1]; simp
        rw [u16At_of_drop source si (0xB000 + ((encGroups 0 ts).length - 1)) (by omega) _ hdrop]
        simp only
        rw [if_neg (by omega), if_neg (by omega)]
        have e1 : si + 2 + (0xB000 + ((encGroups 0 ts).length - 1)) % 0x1000 + 1 =
            si + 2 + (encGroups 0 ts).length := by omega
        rw [e1]
        have hd3 := drop_add_of_drop _ _ _ _ hdrop
        rw [length_encLE] at hd3
        have hg := lzGroups_spec source (si + 2 + (encGroups 0 ts).length) out.length
          (cs.flatMap Chunk.bytes ++ tail) ts.length ts (si + 2) out mid (Nat.le_refl _)
          (Nat.le_refl _) h3 (by rw [Nat.sub_self]; exact hd3) (by rw [Nat.sub_self])
        simp only [Chunk.bytes, List.length_append, length_encLE] at hrec
        split
        · rename_i si' out'' heq
          rw [hg] at heq
          simp only [Res.ok.injEq, Prod.mk.injEq] at heq
          obtain ⟨rfl, rfl⟩ := heq
          rw [Nat.add_assoc]; exact hrec
        · rename_i heq; rw [hg] at heq; cases heq
        · rename_i heq; rw [hg] at heq; cases heq

/-- C24: decompressing the encoding of any stream of raw and compressed chunks (preceded by
`pre`, followed by nothing or by a zero header and arbitrary bytes) gives the contents of the
chunks. -/
theorem lznt1_roundtrip (pre : Bytes) (cs : List Chunk) (out : Bytes) (h : Stream [] cs out)
    (tail : Bytes) (ht : tail = [] ∨ ∃ t, tail = 0 :: 0 :: t) :
    decodeLznt1 (pre ++ (cs.flatMap Chunk.bytes ++ tail)) pre.length
      (pre ++ (cs.flatMap Chunk.bytes ++ tail)).length = .ok out :=
  lzLoop_spec _ tail ht cs pre.length [] out h (by rw [List.drop_left]) (by simp)

/-- "abcabcabc": three literals and an overlapping back reference. -/
example : Stream [] [.comp [.lit 97, .lit 98, .lit 99, .ref 3 6]]
    [97, 98, 99, 97, 98, 99, 97, 98, 99] := by
  refine .cons _ _ [97, 98, 99, 97, 98, 99, 97, 98, 99] _ _
    ⟨by simp, by decide +kernel, ?_⟩ (.nil _)
  refine .cons _ _ [97] _ _ ⟨by decide, rfl⟩ ?_
  refine .cons _ _ [97, 98] _ _ ⟨by decide, rfl⟩ ?_
  refine .cons _ _ [97, 98, 99] _ _ ⟨by decide, rfl⟩ ?_
  refine .cons _ _ [97, 98, 99, 97, 98, 99, 97, 98, 99] _ _
    ⟨by decide, by decide, by decide, by decide, by decide, by decide, by decide, ?_⟩ (.nil _)
  intro i h1 h2
  simp at h1 h2
  have : i = 3 ∨ i = 4 ∨ i = 5 ∨ i = 6 ∨ i = 7 ∨ i = 8 := by omega
  rcases this with rfl | rfl | rfl | rfl | rfl | rfl <;> rfl

namespace Spec
/-- The robustness half of C24: arbitrary bytes never panic. -/
def Lznt1NeverPanics : Prop := ∀ bs : Bytes, decodeLznt1 bs 0 bs.length ≠ .panic
end Spec

/-- C24 (robustness half) is violated: one stray byte, a truncated raw chunk, a back reference
before the start of the output, and a chunk body that stops after its flag byte all panic. -/
theorem lznt1_panics : ¬ Lznt1NeverPanics ∧
    decodeLznt1 [0x01] 0 1 = .panic ∧
    decodeLznt1 [0x05, 0x30, 0x41] 0 3 = .panic ∧
    decodeLznt1 [0x02, 0xB0, 0x01, 0x00, 0x00] 0 5 = .panic ∧
    decodeLznt1 [0x03, 0xB0, 0x00] 0 3 = .panic := by
  refine ⟨fun h => h [0x01] ?_, ?_, ?_, ?_, ?_⟩ <;> decide +kernel

/-- C24: decompression never returns an error value: its only failure mode is the panic. -/
theorem lznt1_never_err (bs : Bytes) (off len : Nat) : decodeLznt1 bs off len ≠ .err := by
  have ht : ∀ n tag si out e st, lzTokens bs e st n tag si out ≠ .err := by
    intro n
    induction n with
    | zero => intros; simp [lzTokens]
    | succ n ih =>
      intro tag si out e st
      simp only [lzTokens]
      repeat' split
      all_goals first | exact ih _ _ _ _ _ | simp
  have hg : ∀ e st si out, lzGroups bs e st si out ≠ .err := by
    intro e st si out
    fun_induction lzGroups bs e st si out <;> simp_all
  unfold decodeLznt1
  fun_induction lzLoop bs len off [] <;> simp_all

end Notatin
