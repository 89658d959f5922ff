import Verif.Spec.Lists
import Verif.Props.ValueData
import Verif.Model.SubKeyList
import Verif.Model.Security
/-
Property theorems C16 (sub-key lists) and C28 (security ring).
-/
namespace Notatin
open Spec

/-! ### C16 -/

theorem fromBytes_other_sig (sig other : Bytes) (item : Bytes → Option (Nat × Bytes)) (size : Int)
    (rest : Bytes) (h : isI32 size) (hl : other.length = sig.length) (hne : other ≠ sig) :
    SubKeyList.fromBytes sig item (encI32 size ++ (other ++ rest)) = none := by
  unfold SubKeyList.fromBytes
  rw [leI32_enc h]
  simp only [Option.bind_eq_bind, Option.bind_some]
  have : tag sig (other ++ rest) = none := by
    unfold tag
    rw [← hl, List.take_left, if_neg hne]
  rw [this]; rfl

theorem fromBytes_sig (sig : Bytes) (item : Bytes → Option (Nat × Bytes)) (size : Int) (n : Nat)
    (body rest : Bytes) (items : List Nat) (h : isI32 size) (hn : n < 65536)
    (hc : Notatin.count item n body = some (items, rest)) :
    SubKeyList.fromBytes sig item (encI32 size ++ (sig ++ (encLE 2 n ++ body)))
      = some ({ size := unsignedAbs size, count := n, items }, rest) := by
  unfold SubKeyList.fromBytes
  rw [leI32_enc h]
  simp only [Option.bind_eq_bind, Option.bind_some, tag_append, leU16_enc hn, hc]

theorem count_items (form : LeafForm) (item : Bytes → Option (Nat × Bytes))
    (hitem : ∀ p : Nat × Bytes, p.1 < 4294967296 → p.2.length = 4 → ∀ rest,
      item (form.item p ++ rest) = some (p.1, rest))
    (items : List (Nat × Bytes)) (rest : Bytes)
    (h : ∀ p ∈ items, p.1 < 4294967296 ∧ p.2.length = 4) :
    Notatin.count item items.length (items.flatMap form.item ++ rest)
      = some (items.map Prod.fst, rest) := by
  induction items with
  | nil => rfl
  | cons p ps ih =>
    simp only [List.length_cons, Notatin.count, List.flatMap_cons, List.append_assoc]
    rw [hitem p (h p (by simp)).1 (h p (by simp)).2]
    simp only
    rw [ih (fun x hx => h x (by simp [hx]))]
    rfl

theorem lf_item (p : Nat × Bytes) (h1 : p.1 < 4294967296) (h2 : p.2.length = 4) (rest : Bytes) :
    lfItem (LeafForm.item .lf p ++ rest) = some (p.1, rest) := by
  obtain ⟨o, e⟩ := p
  simp only [LeafForm.item, lfItem, List.append_assoc, leU32_enc h1, Option.bind_eq_bind,
    Option.bind_some, take_append 4 e rest h2]

theorem lh_item (p : Nat × Bytes) (h1 : p.1 < 4294967296) (h2 : p.2.length = 4) (rest : Bytes) :
    lhItem (LeafForm.item .lh p ++ rest) = some (p.1, rest) := by
  obtain ⟨o, e⟩ := p
  have : leU32 (e ++ rest) = some (leNat e, rest) := leUint_append 4 e rest h2
  simp only [LeafForm.item, lhItem, List.append_assoc, leU32_enc h1, Option.bind_eq_bind,
    Option.bind_some, this]

theorem li_item (p : Nat × Bytes) (h1 : p.1 < 4294967296) (_ : p.2.length = 4) (rest : Bytes) :
    leU32 (LeafForm.item .li p ++ rest) = some (p.1, rest) := by
  obtain ⟨o, e⟩ := p
  simp only [LeafForm.item, leU32_enc h1]

theorem offsetListAdd_ok (hbin : Nat) (xs : List Nat) (h : ∀ x ∈ xs, x + hbin < 4294967296) :
    offsetListAdd hbin xs = .ok (xs.map (· + hbin)) := by
  induction xs with
  | nil => rfl
  | cons x xs ih =>
    rw [offsetListAdd, if_pos (h x (by simp)), ih (fun y hy => h y (by simp [hy]))]
    rfl

theorem offsetListChecked_ok (hbin : Nat) (xs : List Nat) (h : ∀ x ∈ xs, x + hbin < 4294967296) :
    offsetListChecked hbin xs = xs.map (· + hbin) := by
  unfold offsetListChecked
  induction xs with
  | nil => rfl
  | cons x xs ih =>
    rw [List.filterMap_cons, if_pos (h x (by simp)), ih (fun y hy => h y (by simp [hy]))]
    rfl

theorem parseLeaf_ok (form : LeafForm) (hbin : Nat) (size : Int) (items : List (Nat × Bytes))
    (post : Bytes) (hs : isI32 size) (hn : items.length < 65536)
    (hi : ∀ p ∈ items, p.1 < 4294967296 ∧ p.2.length = 4)
    (hb : ∀ p ∈ items, p.1 + hbin < 4294967296) :
    SubKeyList.fromBytes [0x72, 0x69] leU32 (leafCell form size items ++ post) = none ∧
    parseLeafList hbin (leafCell form size items ++ post)
      = .ok (items.map (fun p => p.1 + hbin)) := by
  have hb' : ∀ x ∈ items.map Prod.fst, x + hbin < 4294967296 := by
    intro x hx
    obtain ⟨p, hp, rfl⟩ := List.mem_map.1 hx
    exact hb p hp
  have hmm : (items.map Prod.fst).map (· + hbin) = items.map (fun p => p.1 + hbin) := by
    rw [List.map_map]; rfl
  unfold leafCell
  simp only [List.append_assoc]
  constructor
  · apply fromBytes_other_sig _ _ _ _ _ hs
    · cases form <;> rfl
    · cases form <;> decide
  · unfold parseLeafList
    cases form with
    | lf =>
      rw [show LeafForm.sig .lf = [0x6C, 0x66] from rfl,
        fromBytes_sig _ _ _ _ _ _ _ hs hn (count_items .lf lfItem lf_item items post hi)]
      simp only
      rw [offsetListAdd_ok hbin _ hb', hmm]
    | lh =>
      rw [fromBytes_other_sig [0x6C, 0x66] (LeafForm.sig .lh) _ _ _ hs rfl (by decide),
        show LeafForm.sig .lh = [0x6C, 0x68] from rfl,
        fromBytes_sig _ _ _ _ _ _ _ hs hn (count_items .lh lhItem lh_item items post hi)]
      simp only
      rw [offsetListChecked_ok hbin _ hb', hmm]
    | li =>
      rw [fromBytes_other_sig [0x6C, 0x66] (LeafForm.sig .li) _ _ _ hs rfl (by decide),
        fromBytes_other_sig [0x6C, 0x68] (LeafForm.sig .li) _ _ _ hs rfl (by decide),
        show LeafForm.sig .li = [0x6C, 0x69] from rfl,
        fromBytes_sig _ _ _ _ _ _ _ hs hn (count_items .li leU32 li_item items post hi)]
      simp only
      rw [offsetListAdd_ok hbin _ hb', hmm]

theorem riLoop_ok (parse : Nat → Res (List Nat)) (offs : List Nat) (parts : List (List Nat))
    (h : Pairwise2 (fun o p => parse o = .ok p) offs parts) :
    riLoop parse offs = .ok parts.flatten := by
  induction offs generalizing parts with
  | nil =>
    cases parts with
    | nil => rfl
    | cons => exact absurd h (by simp [Pairwise2])
  | cons o os ih =>
    cases parts with
    | nil => exact absurd h (by simp [Pairwise2])
    | cons p ps =>
      rw [riLoop, h.1, ih ps h.2]
      rfl

theorem Pairwise2_mem {α β : Type} {R S : α → β → Prop} {as : List α} {bs : List β}
    (h : Pairwise2 R as bs) (hrs : ∀ a b, b ∈ bs → R a b → S a b) : Pairwise2 S as bs := by
  induction as generalizing bs with
  | nil =>
    cases bs with
    | nil => trivial
    | cons => exact h
  | cons a as ih =>
    cases bs with
    | nil => exact h
    | cons b bs => exact ⟨hrs a b (by simp) h.1, ih h.2 (fun a b hb => hrs a b (by simp [hb]))⟩

/-- C16, the full claim. -/
def SubKeyListExact : Prop :=
  ∀ (fi : FileInfo) (depth off : Nat) (keys : List Nat), ListAt fi.buffer fi.hbin depth off keys →
    parseSubKeyList fi depth off = .ok keys

/-- C16, partial: every well-formed list, of any form and any nesting, decodes to the stored
offsets in order.  Missing: offsets that exceed 32 bits after adding the bin start. -/
theorem sub_key_list_partial (fi : FileInfo) (depth off : Nat) (keys : List Nat)
    (h : ListAt fi.buffer fi.hbin depth off keys) (hb : ∀ k ∈ keys, k < 4294967296) :
    parseSubKeyList fi depth off = .ok keys := by
  induction depth generalizing off keys with
  | zero => exact absurd h (by simp [ListAt])
  | succ depth ih =>
    rw [ListAt] at h
    rcases h with ⟨form, size, items, hs, hn, hi, hat, rfl⟩ | ⟨size, offs, parts, hs, hn, ho, hat, hp, rfl⟩
    · obtain ⟨post, hg, _⟩ := at_getFrom hat
      obtain ⟨h1, h2⟩ := parseLeaf_ok form fi.hbin size items post hs hn hi
        (fun p hp => hb _ (List.mem_map.2 ⟨p, hp, rfl⟩))
      rw [parseSubKeyList, Nat.add_comm off, hg]
      simp only
      rw [h1, h2]
    · obtain ⟨post, hg, _⟩ := at_getFrom hat
      rw [parseSubKeyList, Nat.add_comm off, hg]
      simp only
      unfold riCell
      simp only [List.append_assoc]
      rw [fromBytes_sig _ _ _ _ _ _ _ hs hn (count_leU32 offs post ho)]
      simp only
      apply riLoop_ok
      exact Pairwise2_mem hp fun o p hpm hr => ih o p hr
        (fun k hk => hb k (List.mem_flatten.2 ⟨p, hpm, hk⟩))

/-- C16: a cell outside the file, too short, with an unknown signature or with fewer item bytes
than announced is rejected. -/
theorem sub_key_list_rejected (fi : FileInfo) (depth off : Nat)
    (h : fi.buffer.length < fi.hbin + off + 8 ∨
      (slice fi.buffer (fi.hbin + off + 4) 2 ∉ ([[0x6C, 0x66], [0x6C, 0x68], [0x6C, 0x69], [0x72, 0x69]] : List Bytes)) ∨
      fi.buffer.length < fi.hbin + off + 8 + 4 * leNat (slice fi.buffer (fi.hbin + off + 6) 2)) :
    parseSubKeyList fi (depth + 1) off = .err := by
  have hcount : ∀ (item : Bytes → Option (Nat × Bytes)),
      (∀ b x r, item b = some (x, r) → r.length + 4 ≤ b.length) →
      ∀ n b l r, Notatin.count item n b = some (l, r) → r.length + 4 * n ≤ b.length := by
    intro item hitem n
    induction n with
    | zero =>
      intro b l r hc
      simp only [Notatin.count, Option.some.injEq, Prod.mk.injEq] at hc
      rw [hc.2]; omega
    | succ n ih =>
      intro b l r hc
      rw [Notatin.count] at hc
      split at hc
      · cases hc
      · rename_i a i' he
        split at hc
        · cases hc
        · rename_i as i'' he2
          simp only [Option.some.injEq, Prod.mk.injEq] at hc
          have h1 := hitem _ _ _ he
          have h2 := ih _ _ _ he2
          rw [hc.2] at h2; omega
  have hu : ∀ b x r, leU32 b = some (x, r) → r.length + 4 ≤ b.length := by
    intro b x r he
    obtain ⟨a, ha, rfl, _⟩ := leUint_eq_some.1 he
    rw [List.length_append]; omega
  have hlf : ∀ b x r, lfItem b = some (x, r) → r.length + 4 ≤ b.length := by
    intro b x r he
    unfold lfItem at he
    cases h1 : leU32 b with
    | none => rw [h1] at he; cases he
    | some p =>
      rw [h1] at he
      simp only [Option.bind_eq_bind, Option.bind_some] at he
      cases h2 : Notatin.take 4 p.2 with
      | none => rw [h2] at he; cases he
      | some q =>
        rw [h2] at he
        simp only [Option.bind_some, Option.some.injEq, Prod.mk.injEq] at he
        have := hu b p.1 p.2 h1
        obtain ⟨h3, h4⟩ := take_eq_some.1 h2
        have := congrArg List.length h4
        rw [List.length_append] at this
        rw [← he.2]; omega
  have hlh : ∀ b x r, lhItem b = some (x, r) → r.length + 4 ≤ b.length := by
    intro b x r he
    unfold lhItem at he
    cases h1 : leU32 b with
    | none => rw [h1] at he; cases he
    | some p =>
      rw [h1] at he
      simp only [Option.bind_eq_bind, Option.bind_some] at he
      cases h2 : leU32 p.2 with
      | none => rw [h2] at he; cases he
      | some q =>
        rw [h2] at he
        simp only [Option.bind_some, Option.some.injEq, Prod.mk.injEq] at he
        have := hu b p.1 p.2 h1
        have := hu p.2 q.1 q.2 h2
        rw [← he.2]; omega
  have key : ∀ (sig : Bytes) (item : Bytes → Option (Nat × Bytes)),
      sig ∈ ([[0x6C, 0x66], [0x6C, 0x68], [0x6C, 0x69], [0x72, 0x69]] : List Bytes) →
      (∀ b x r, item b = some (x, r) → r.length + 4 ≤ b.length) →
      fi.hbin + off ≤ fi.buffer.length →
      SubKeyList.fromBytes sig item (fi.buffer.drop (fi.hbin + off)) = none := by
    intro sig item hsig hitem hle
    cases hf : SubKeyList.fromBytes sig item (fi.buffer.drop (fi.hbin + off)) with
    | none => rfl
    | some p =>
      exfalso
      have hl : sig.length = 2 := by
        simp only [List.mem_cons, List.not_mem_nil, or_false] at hsig
        rcases hsig with rfl | rfl | rfl | rfl <;> rfl
      unfold SubKeyList.fromBytes at hf
      cases h1 : leI32 (fi.buffer.drop (fi.hbin + off)) with
      | none => rw [h1] at hf; cases hf
      | some p1 =>
        rw [h1] at hf
        simp only [Option.bind_eq_bind, Option.bind_some] at hf
        have h8 : 4 ≤ fi.buffer.length - (fi.hbin + off) := by
          unfold leI32 at h1
          cases h11 : leUint 4 (fi.buffer.drop (fi.hbin + off)) with
          | none => rw [h11] at h1; cases h1
          | some q =>
            have := leUint_eq_some.1 (show leUint 4 _ = some (q.1, q.2) from h11)
            obtain ⟨a, ha, hb, _⟩ := this
            have := congrArg List.length hb
            rw [List.length_append, List.length_drop] at this
            omega
        rw [leI32_drop _ _ (by omega)] at h1
        simp only [Option.some.injEq] at h1
        subst h1
        simp only at hf
        cases h2 : tag sig (fi.buffer.drop (fi.hbin + off + 4)) with
        | none => rw [h2] at hf; cases hf
        | some p2 =>
          rw [h2] at hf
          simp only [Option.bind_some] at hf
          have h2' := tag_eq_some.1 (show tag sig _ = some ((), p2.2) from h2)
          have hsl : slice fi.buffer (fi.hbin + off + 4) 2 = sig := by
            unfold slice; rw [h2', ← hl, List.take_left]
          have hlen := congrArg List.length h2'
          rw [List.length_append, List.length_drop, hl] at hlen
          have hp2 : p2.2 = fi.buffer.drop (fi.hbin + off + 6) := by
            have := congrArg (List.drop 2) h2'
            rw [List.drop_drop, ← hl, List.drop_left] at this
            rw [hl] at this
            exact this.symm
          cases h3 : leU16 p2.2 with
          | none => rw [h3] at hf; cases hf
          | some p3 =>
            rw [h3] at hf
            simp only [Option.bind_some] at hf
            have h3l : 2 ≤ p2.2.length := by
              obtain ⟨a, ha, hb, _⟩ := leUint_eq_some.1 (show leUint 2 _ = some (p3.1, p3.2) from h3)
              rw [hb, List.length_append]; omega
            rw [hp2, List.length_drop] at h3l
            have h3' : leU16 (fi.buffer.drop (fi.hbin + off + 6)) = _ :=
              leUint_drop 2 fi.buffer (fi.hbin + off + 6) (by omega)
            rw [hp2, h3'] at h3
            simp only [Option.some.injEq] at h3
            subst h3
            simp only at hf
            cases h4 : Notatin.count item (leNat (slice fi.buffer (fi.hbin + off + 6) 2))
                (fi.buffer.drop (fi.hbin + off + 6 + 2)) with
            | none => rw [h4] at hf; cases hf
            | some p4 =>
              have := hcount item hitem _ _ _ _ (show _ = some (p4.1, p4.2) from h4)
              rw [List.length_drop] at this
              rcases h with h | h | h
              · omega
              · rw [hsl] at h; exact h hsig
              · omega
  rw [parseSubKeyList, Nat.add_comm off]
  by_cases hle : fi.hbin + off ≤ fi.buffer.length
  · have hg : Notatin.getFrom fi.buffer (fi.hbin + off) = some (fi.buffer.drop (fi.hbin + off)) := by
      unfold Notatin.getFrom; rw [if_pos hle]
    rw [hg]
    simp only
    rw [key _ _ (by simp) hu hle]
    simp only
    unfold parseLeafList
    rw [key _ _ (by simp) hlf hle, key _ _ (by simp) hlh hle, key _ _ (by simp) hu hle]
  · have hg : Notatin.getFrom fi.buffer (fi.hbin + off) = none := by
      unfold Notatin.getFrom; rw [if_neg hle]
    rw [hg]

/-- An `lf` list with one item whose offset is near 2^32. -/
def overflowLf : FileInfo := ⟨4, [0, 0, 0, 0, 0xF0, 0xFF, 0xFF, 0xFF, 0x6C, 0x66, 1, 0,
  0xFF, 0xFF, 0xFF, 0xFF, 0, 0, 0, 0]⟩

/-- C16: the code violates the claim at the 32-bit border: the addition overflows and panics. -/
theorem sub_key_list_violated : ¬ SubKeyListExact := by
  intro h
  have := h overflowLf 1 0 [4294967299] (by
    left
    exact ⟨.lf, -16, [(4294967295, [0, 0, 0, 0])], by decide, by decide, by decide,
      ⟨[0, 0, 0, 0], [], by decide, rfl⟩, rfl⟩)
  revert this; decide +kernel

/-- C16: an index root that lists itself. -/
def selfRi : FileInfo := ⟨0, [0xF0, 0xFF, 0xFF, 0xFF, 0x72, 0x69, 1, 0, 0, 0, 0, 0]⟩

/-- C16: on an index root that lists itself the reader recurses until the stack is exhausted,
however large it is; the file is neither read nor rejected. -/
theorem sub_key_list_cycle_violated (depth : Nat) : parseSubKeyList selfRi depth 0 = .panic := by
  induction depth with
  | zero => rfl
  | succ d ih =>
    rw [parseSubKeyList]
    have h1 : getFrom selfRi.buffer (0 + selfRi.hbin) = some selfRi.buffer := by decide
    have h2 : SubKeyList.fromBytes [0x72, 0x69] leU32 selfRi.buffer
        = some ({ size := 16, count := 1, items := [0] }, []) := by decide
    rw [h1]
    simp only
    rw [h2]
    simp only [riLoop, ih]

/-- A two-level list meeting the hypotheses of `sub_key_list_partial`. -/
example : ListAt (riCell (-16) [16, 28] ++ leafCell .li (-12) [(100, [0, 0, 0, 0])] ++
    leafCell .lf (-16) [(200, [0, 0, 0, 0])]) 0 2 0 [100, 200] := by
  refine .inr ⟨-16, [16, 28], [[100], [200]], by decide, by decide, by decide,
    ⟨[], leafCell .li (-12) [(100, [0, 0, 0, 0])] ++ leafCell .lf (-16) [(200, [0, 0, 0, 0])],
      by decide, rfl⟩, ⟨?_, ?_, trivial⟩, by decide⟩
  · exact .inl ⟨.li, -12, [(100, [0, 0, 0, 0])], by decide, by decide, by decide,
      ⟨riCell (-16) [16, 28], leafCell .lf (-16) [(200, [0, 0, 0, 0])], by decide, by decide⟩, rfl⟩
  · exact .inl ⟨.lf, -16, [(200, [0, 0, 0, 0])], by decide, by decide, by decide,
      ⟨riCell (-16) [16, 28] ++ leafCell .li (-12) [(100, [0, 0, 0, 0])], [], by decide,
        by decide⟩, rfl⟩

/-! ### C28 -/

theorem security_parse (size : Int) (unknown flink blink refCount : Nat) (desc rest : Bytes)
    (h1 : isI32 size) (h2 : unknown < 65536) (h3 : flink < 4294967296) (h4 : blink < 4294967296)
    (h5 : refCount < 4294967296) (h6 : desc.length < 4294967296) :
    ∃ c, KeySecurity.fromBytes (skCell size unknown flink blink refCount desc ++ rest)
        = some (c, rest) ∧ c.flink = flink ∧ c.descriptor = desc := by
  refine ⟨⟨unsignedAbs size, unknown, flink, blink, refCount, desc.length, desc⟩, ?_, rfl, rfl⟩
  unfold KeySecurity.fromBytes skCell
  simp only [List.append_assoc, leI32_enc h1, Option.bind_eq_bind, Option.bind_some, tag_append,
    leU16_enc h2, leU32_enc h3, leU32_enc h4, leU32_enc h5, leU32_enc h6,
    take_append desc.length desc rest rfl]

theorem security_parse_inv (bs rest : Bytes) (c : KeySecurity)
    (h : KeySecurity.fromBytes bs = some (c, rest)) :
    ∃ size unknown blink refCount, isI32 size ∧ unknown < 65536 ∧ c.flink < 4294967296 ∧
      blink < 4294967296 ∧ refCount < 4294967296 ∧ c.descriptor.length < 4294967296 ∧
      bs = skCell size unknown c.flink blink refCount c.descriptor ++ rest := by
  have dw : ∀ (b r : Bytes) (n : Nat), leU32 b = some (n, r) → n < 4294967296 ∧ b = encLE 4 n ++ r := by
    intro b r n hh
    obtain ⟨a, ha, hb, rfl⟩ := leUint_eq_some.1 hh
    have := leNat_lt a
    rw [ha] at this
    refine ⟨by simpa using this, ?_⟩
    rw [hb, ← ha, encLE_leNat]
  have w : ∀ (b r : Bytes) (n : Nat), leU16 b = some (n, r) → n < 65536 ∧ b = encLE 2 n ++ r := by
    intro b r n hh
    obtain ⟨a, ha, hb, rfl⟩ := leUint_eq_some.1 hh
    have := leNat_lt a
    rw [ha] at this
    refine ⟨by simpa using this, ?_⟩
    rw [hb, ← ha, encLE_leNat]
  have iw : ∀ (b r : Bytes) (i : Int), leI32 b = some (i, r) → isI32 i ∧ b = encI32 i ++ r := by
    intro b r i hh
    unfold leI32 at hh
    cases hq : leUint 4 b with
    | none => rw [hq] at hh; cases hh
    | some q =>
      rw [hq] at hh
      simp only [Option.some.injEq, Prod.mk.injEq] at hh
      obtain ⟨h1, h2⟩ := dw b q.2 q.1 hq
      rw [← hh.1, ← hh.2]
      refine ⟨toI32_isI32 h1, ?_⟩
      rw [h2]
      congr 1
      unfold encI32
      congr 1
      unfold toI32; split <;> omega
  unfold KeySecurity.fromBytes at h
  simp only [Option.bind_eq_bind, Option.bind_eq_some_iff] at h
  obtain ⟨⟨size, b1⟩, e1, ⟨u, b2⟩, e2, ⟨unk, b3⟩, e3, ⟨fl, b4⟩, e4, ⟨bl, b5⟩, e5, ⟨rc, b6⟩, e6,
    ⟨ss, b7⟩, e7, ⟨desc, b8⟩, e8, h⟩ := h
  simp only [Option.some.injEq, Prod.mk.injEq] at h
  obtain ⟨rfl, rfl⟩ := h
  obtain ⟨i1, rfl⟩ := iw _ _ _ e1
  have i2 := tag_eq_some.1 e2
  obtain ⟨i3, j3⟩ := w _ _ _ e3
  obtain ⟨i4, j4⟩ := dw _ _ _ e4
  obtain ⟨i5, j5⟩ := dw _ _ _ e5
  obtain ⟨i6, j6⟩ := dw _ _ _ e6
  obtain ⟨i7, j7⟩ := dw _ _ _ e7
  obtain ⟨i8, j8⟩ := take_eq_some.1 e8
  refine ⟨size, unk, bl, rc, i1, i3, i4, i5, i6, by simp only [i8]; exact i7, ?_⟩
  simp only at i2 j3 j4 j5 j6 j7 j8
  unfold skCell
  rw [i2, j3, j4, j5, j6, j7, j8, i8]
  simp

/-- C28, the full claim: every walk ends, and when it succeeds it returns the ring. -/
def SecurityRingTotal : Prop :=
  ∀ (sd : Bytes → Option Unit) (buffer : Bytes) (start hbin : Nat),
    ∃ steps r, readCellKeySecurity sd buffer start hbin steps = some r

theorem security_loop_ring {δ : Type} (sd : Bytes → Option δ) (buffer : Bytes) (start hbin : Nat)
    (off : Nat) (ds : List δ) (h : Ring sd buffer hbin start off ds) :
    ∀ steps acc, ds.length ≤ steps →
      securityLoop sd buffer start hbin steps off acc = some (.ok (acc ++ ds)) := by
  have step : ∀ (off next : Nat) (bytes : Bytes), SecurityAt buffer hbin off next bytes →
      ∃ sl c r, Notatin.getFrom buffer (off + hbin) = some sl ∧
        KeySecurity.fromBytes sl = some (c, r) ∧ c.flink = next ∧ c.descriptor = bytes := by
    rintro off next bytes ⟨size, unk, bl, rc, h1, h2, h3, h4, h5, h6, hat⟩
    obtain ⟨post, hg, _⟩ := at_getFrom hat
    obtain ⟨c, hc, hf, hd⟩ := security_parse size unk next bl rc bytes post h1 h2 h3 h4 h5 h6
    exact ⟨_, c, _, by rw [Nat.add_comm]; exact hg, hc, hf, hd⟩
  induction h with
  | last off bytes d hat hsd =>
    intro steps acc hs
    obtain ⟨n, rfl⟩ : ∃ n, steps = n + 1 := ⟨steps - 1, by simp at hs; omega⟩
    obtain ⟨sl, c, r, hg, hc, hf, hd⟩ := step off start bytes hat
    rw [securityLoop, hg]
    simp only
    rw [hc]
    simp only
    rw [hd, hsd]
    simp only
    rw [if_pos hf]
  | step off next bytes d ds hat hsd hne _ ih =>
    intro steps acc hs
    obtain ⟨n, rfl⟩ : ∃ n, steps = n + 1 := ⟨steps - 1, by simp at hs; omega⟩
    obtain ⟨sl, c, r, hg, hc, hf, hd⟩ := step off next bytes hat
    rw [securityLoop, hg]
    simp only
    rw [hc]
    simp only
    rw [hd, hsd]
    simp only
    rw [if_neg (by rw [hf]; exact hne), hf, ih n (acc ++ [d]) (by simp at hs; omega)]
    simp

/-- C28, partial: a ring is returned completely, each descriptor once and in order.  Missing:
termination on links that never come back to the start. -/
theorem security_ring_partial {δ : Type} (sd : Bytes → Option δ) (buffer : Bytes)
    (start hbin : Nat) (ds : List δ) (h : Ring sd buffer hbin start start ds) (steps : Nat)
    (hs : ds.length ≤ steps) :
    readCellKeySecurity sd buffer start hbin steps = some (.ok ds) := by
  have := security_loop_ring sd buffer start hbin start ds h steps [] hs
  simpa [readCellKeySecurity] using this

/-- C28: conversely, whatever is returned is the ring. -/
theorem security_ring_only {δ : Type} (sd : Bytes → Option δ) (buffer : Bytes)
    (start hbin : Nat) (ds : List δ) (steps : Nat)
    (h : readCellKeySecurity sd buffer start hbin steps = some (.ok ds)) :
    Ring sd buffer hbin start start ds := by
  have key : ∀ steps off acc out, securityLoop sd buffer start hbin steps off acc = some (.ok out) →
      ∃ ds, out = acc ++ ds ∧ Ring sd buffer hbin start off ds := by
    intro steps
    induction steps with
    | zero => intro off acc out h; rw [securityLoop] at h; cases h
    | succ n ih =>
      intro off acc out h
      rw [securityLoop] at h
      cases hg : Notatin.getFrom buffer (off + hbin) with
      | none => rw [hg] at h; cases h
      | some sl =>
        rw [hg] at h
        simp only at h
        cases hc : KeySecurity.fromBytes sl with
        | none => rw [hc] at h; cases h
        | some p =>
          obtain ⟨c, r⟩ := p
          rw [hc] at h
          simp only at h
          cases hsd : sd c.descriptor with
          | none => rw [hsd] at h; cases h
          | some d =>
            rw [hsd] at h
            simp only at h
            obtain ⟨size, unk, bl, rc, h1, h2, h3, h4, h5, h6, hb⟩ := security_parse_inv _ _ _ hc
            have hat : SecurityAt buffer hbin off c.flink c.descriptor := by
              refine ⟨size, unk, bl, rc, h1, h2, h3, h4, h5, h6, ?_⟩
              unfold Notatin.getFrom at hg
              split at hg
              · rename_i hle
                injection hg with hg
                refine ⟨buffer.take (off + hbin), r, ?_, by rw [List.length_take]; omega⟩
                rw [← hb, ← hg, List.take_append_drop]
              · cases hg
            split at h
            · rename_i hfs
              simp only [Option.some.injEq, Res.ok.injEq] at h
              exact ⟨[d], h.symm, .last off _ d (hfs ▸ hat) hsd⟩
            · rename_i hne
              obtain ⟨ds, ho, hr⟩ := ih _ _ _ h
              exact ⟨d :: ds, by rw [ho]; simp, .step off _ _ d ds hat hsd hne hr⟩
  obtain ⟨ds', h1, h2⟩ := key steps start [] ds h
  rw [List.nil_append] at h1
  rw [h1]; exact h2

/-- A security cell at 0 linking to one at 24 that links to itself. -/
def lostRing : Bytes := skCell (-24) 0 24 24 1 [] ++ skCell (-24) 0 24 0 1 []

/-- C28: the code violates the claim: on links that run into a loop not containing the start the
walk never ends. -/
theorem security_ring_violated : ¬ SecurityRingTotal := by
  intro h
  obtain ⟨steps, r, hr⟩ := h (fun _ => some ()) lostRing 0 0
  have h1 : ∀ n acc, securityLoop (fun _ => some ()) lostRing 0 0 n 24 acc = none := by
    intro n
    induction n with
    | zero => intro acc; rfl
    | succ n ih =>
      intro acc
      rw [securityLoop]
      have e1 : Notatin.getFrom lostRing (24 + 0) = some (skCell (-24) 0 24 0 1 []) := by decide +kernel
      have e2 : KeySecurity.fromBytes (skCell (-24) 0 24 0 1 [])
          = some (⟨24, 0, 24, 0, 1, 0, []⟩, []) := by decide +kernel
      rw [e1]
      simp only
      rw [e2]
      simp only
      rw [if_neg (by decide)]
      exact ih _
  have h2 : ∀ n, readCellKeySecurity (fun _ => some ()) lostRing 0 0 n = none := by
    intro n
    unfold readCellKeySecurity
    cases n with
    | zero => rfl
    | succ n =>
      rw [securityLoop]
      have e1 : Notatin.getFrom lostRing (0 + 0) = some lostRing := by decide +kernel
      have e2 : KeySecurity.fromBytes lostRing
          = some (⟨24, 0, 24, 24, 1, 0, []⟩, skCell (-24) 0 24 0 1 []) := by decide +kernel
      rw [e1]
      simp only
      rw [e2]
      simp only
      rw [if_neg (by decide)]
      exact h1 _ _
  rw [h2] at hr; cases hr

/-- A ring of two cells meeting the hypotheses of `security_ring_partial`. -/
example : Ring (fun b => some b) (skCell (-24) 0 24 24 1 [] ++ skCell (-28) 0 0 0 1 [7, 8, 9, 10])
    0 0 0 [[], [7, 8, 9, 10]] := by
  refine .step 0 24 [] [] _ ?_ rfl (by decide) (.last 24 [7, 8, 9, 10] _ ?_ rfl)
  · exact ⟨-24, 0, 24, 1, by decide, by decide, by decide, by decide, by decide, by decide,
      [], skCell (-28) 0 0 0 1 [7, 8, 9, 10], by decide, rfl⟩
  · exact ⟨-28, 0, 0, 1, by decide, by decide, by decide, by decide, by decide, by decide,
      skCell (-24) 0 24 24 1 [], [], by decide, by decide⟩

end Notatin
