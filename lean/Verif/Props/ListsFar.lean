import Verif.Props.Lists
/-
C16 at the 32-bit border: what becomes of items of a leaf list whose offset does not fit into 32 bits any more once the bin
start is added.  The hashed form leaves them out, the other two crash.
-/
namespace Notatin
open Spec

theorem offsetListAdd_far (hbin : Nat) (xs : List Nat) (h : ∃ x ∈ xs, 4294967296 ≤ x + hbin) :
    offsetListAdd hbin xs = .panic := by
  induction xs with
  | nil => obtain ⟨_, hx, _⟩ := h; cases hx
  | cons x xs ih =>
    rw [offsetListAdd]
    by_cases hx : x + hbin < 4294967296
    · rw [if_pos hx, ih]
      obtain ⟨y, hy, hf⟩ := h
      rcases List.mem_cons.1 hy with rfl | hy
      · omega
      · exact ⟨y, hy, hf⟩
    · rw [if_neg hx]

/-- C16: a hashed leaf list (`lh`) gives the keys of the items that fit into 32 bits, in order, and no others; none is moved
to another place by wrapping around. -/
theorem hashed_list_far (fi : FileInfo) (depth off : Nat) (size : Int) (items : List (Nat × Bytes))
    (hs : isI32 size) (hn : items.length < 65536) (hi : ∀ p ∈ items, p.1 < 4294967296 ∧ p.2.length = 4)
    (hat : At fi.buffer (fi.hbin + off) (leafCell .lh size items)) :
    ∃ keys, parseSubKeyList fi (depth + 1) off = .ok keys ∧
      keys = (items.map fun p => p.1 + fi.hbin).filter fun k => decide (k < 4294967296) := by
  obtain ⟨post, hg, hlen⟩ := at_getFrom hat
  refine ⟨_, ?_, rfl⟩
  rw [parseSubKeyList, Nat.add_comm off, hg]
  simp only
  unfold leafCell
  simp only [List.append_assoc]
  rw [fromBytes_other_sig [0x72, 0x69] (LeafForm.sig .lh) _ _ _ hs rfl (by decide)]
  simp only
  unfold parseLeafList
  rw [fromBytes_other_sig [0x6C, 0x66] (LeafForm.sig .lh) _ _ _ hs rfl (by decide),
    show LeafForm.sig .lh = [0x6C, 0x68] from rfl,
    fromBytes_sig _ _ _ _ _ _ _ hs hn (count_items .lh lhItem lh_item items post hi)]
  simp only [Res.ok.injEq]
  unfold offsetListChecked
  clear hg hat hn hi hlen
  induction items with
  | nil => rfl
  | cons p ps ih =>
    simp only [List.map_cons, List.filterMap_cons, List.filter_cons]
    by_cases hp : p.1 + fi.hbin < 4294967296
    · simp only [hp, if_true, decide_true, ih]
    · simp only [hp, if_false, decide_false, ih, Bool.false_eq_true]

/-- C16: the other two leaf forms crash as soon as one of their items does not fit, wherever it stands. -/
theorem plain_list_far (fi : FileInfo) (depth off : Nat) (form : LeafForm) (hf : form ≠ .lh) (size : Int)
    (items : List (Nat × Bytes)) (hs : isI32 size) (hn : items.length < 65536)
    (hi : ∀ p ∈ items, p.1 < 4294967296 ∧ p.2.length = 4) (hfar : ∃ p ∈ items, 4294967296 ≤ p.1 + fi.hbin)
    (hat : At fi.buffer (fi.hbin + off) (leafCell form size items)) :
    parseSubKeyList fi (depth + 1) off = .panic := by
  obtain ⟨post, hg, _⟩ := at_getFrom hat
  have hfar' : ∃ x ∈ items.map Prod.fst, 4294967296 ≤ x + fi.hbin := by
    obtain ⟨p, hp, h⟩ := hfar
    exact ⟨p.1, List.mem_map.2 ⟨p, hp, rfl⟩, h⟩
  rw [parseSubKeyList, Nat.add_comm off, hg]
  simp only
  unfold leafCell
  simp only [List.append_assoc]
  cases form with
  | lh => exact absurd rfl hf
  | lf =>
    rw [fromBytes_other_sig [0x72, 0x69] (LeafForm.sig .lf) _ _ _ hs rfl (by decide)]
    simp only
    unfold parseLeafList
    rw [show LeafForm.sig .lf = [0x6C, 0x66] from rfl,
      fromBytes_sig _ _ _ _ _ _ _ hs hn (count_items .lf lfItem lf_item items post hi)]
    exact offsetListAdd_far _ _ hfar'
  | li =>
    rw [fromBytes_other_sig [0x72, 0x69] (LeafForm.sig .li) _ _ _ hs rfl (by decide)]
    simp only
    unfold parseLeafList
    rw [fromBytes_other_sig [0x6C, 0x66] (LeafForm.sig .li) _ _ _ hs rfl (by decide),
      fromBytes_other_sig [0x6C, 0x68] (LeafForm.sig .li) _ _ _ hs rfl (by decide),
      show LeafForm.sig .li = [0x6C, 0x69] from rfl,
      fromBytes_sig _ _ _ _ _ _ _ hs hn (count_items .li leU32 li_item items post hi)]
    exact offsetListAdd_far _ _ hfar'

def farItems : List (Nat × Bytes) := [(32, [1, 2, 3, 4]), (4294967295, [0, 0, 0, 0]), (120, [5, 6, 7, 8])]

/-- The hypotheses of `hashed_list_far`: the second of three items does not fit. -/
example : parseSubKeyList ⟨4, [0, 0, 0, 0] ++ leafCell .lh (-32) farItems⟩ 1 0 = .ok [36, 124] := by
  obtain ⟨keys, h1, h2⟩ := hashed_list_far ⟨4, [0, 0, 0, 0] ++ leafCell .lh (-32) farItems⟩ 0 0 (-32) farItems
    (by decide) (by decide) (by decide) ⟨[0, 0, 0, 0], [], by decide, rfl⟩
  rw [h1, h2]
  decide

/-- The hypotheses of `plain_list_far`. -/
example : parseSubKeyList ⟨4, [0, 0, 0, 0] ++ leafCell .li (-16) farItems⟩ 1 0 = .panic :=
  plain_list_far ⟨4, [0, 0, 0, 0] ++ leafCell .li (-16) farItems⟩ 0 0 .li (by decide) (-16) farItems
    (by decide) (by decide) (by decide) ⟨(4294967295, [0, 0, 0, 0]), by decide, by decide⟩
    ⟨[0, 0, 0, 0], [], by decide, rfl⟩

end Notatin
