import Verif.Model.KeyNode
import Verif.Spec.Tree
import Verif.Props.Cells
import Verif.Props.Lists
/-
Reading a stored key cell.
-/
namespace Notatin
open Spec

/-- The iteration fields of a freshly parsed key. -/
def Fresh (k : KeyNode) : Prop :=
  k.filterState = none ∧ k.toReturn = 0 ∧ k.trackReturned = 0 ∧ k.iterIndex = 0 ∧
  k.subKeyOffsets = [] ∧ k.updatedBySeq = none ∧ k.values = [] ∧ k.cellState = .Allocated

theorem fromBytes_fresh (hashFn : Bytes → Bytes) (bs : Bytes) (off : Nat) (path : Str)
    (seq : Option Nat) (k : KeyNode) (r : Bytes)
    (h : KeyNode.fromBytes hashFn bs off path seq = .ok (k, r)) :
    Fresh k ∧ k.fileOffset = off ∧ ∃ name, k.name = name ∧ k.path = path ++ '\\' :: name := by
  rcases keyNode_cases hashFn bs off path seq with ⟨_, n, l, _, hp⟩ | ⟨_, hp⟩
  · rw [h] at hp
    cases hp
    exact ⟨⟨rfl, rfl, rfl, rfl, rfl, rfl, rfl, rfl⟩, rfl, _, rfl, rfl⟩
  · rw [h] at hp; cases hp

theorem readKeyAt (env : Env) (off : Nat) (c : NkCell) (name : Str)
    (h : KeyAt env.fi.buffer off c name) (path : Str) (seq : Option Nat) :
    ∃ k rest slice, getFrom env.fi.buffer off = some slice ∧
      KeyNode.fromBytes env.hashFn slice off path seq = .ok (k, rest) ∧
      KeyMatches k c path name off seq ∧ Fresh k := by
  obtain ⟨hf, hat, hn⟩ := h
  obtain ⟨post, hg, _⟩ := at_getFrom hat
  rcases hn with ⟨hb, rfl⟩ | ⟨hb, hb2, hz⟩
  · obtain ⟨k, h1, h2, _⟩ := nk_decode_ascii env.hashFn c hf hb post off path seq
    exact ⟨k, _, _, hg, h1, h2, (fromBytes_fresh _ _ _ _ _ _ _ h1).1⟩
  · obtain ⟨k, h1, h2, _⟩ := nk_decode_utf16 env.hashFn c hf name hb hb2 hz post off path seq
    exact ⟨k, _, _, hg, h1, h2, (fromBytes_fresh _ _ _ _ _ _ _ h1).1⟩

theorem readValuesLoop_ok (env : Env) (seq : Option Nat) (offs : List Nat) (acc : List Value)
    (logs : Logs) : ∃ x, readValuesLoop env seq offs acc logs = .ok x := by
  induction offs generalizing acc logs with
  | nil => exact ⟨_, rfl⟩
  | cons o os ih =>
    rw [readValuesLoop]
    split
    · rename_i h
      cases hk : KeyValue.fromBytes (env.fi.buffer.drop (o + env.fi.hbin)) (o + env.fi.hbin) seq with
      | ok x => exact ih _ _
      | err => exact ⟨_, rfl⟩
      | panic => exact absurd hk (keyValue_no_panic _ _ _)
    · exact ⟨_, rfl⟩

theorem readValues_ok (env : Env) (k : KeyNode) (seq : Option Nat) :
    ∃ vs lg b, k.readValues env seq = .ok ({ k with values := vs, logs := lg }, b) := by
  unfold KeyNode.readValues
  by_cases h : 0 < k.valuesListOffset ∧ k.valuesListOffset.toNat < env.fi.buffer.length
  · rw [if_pos h]
    by_cases h2 : k.nValues > 1024 * 1024
    · rw [if_pos h2]; exact ⟨k.values, _, _, rfl⟩
    · rw [if_neg h2]
      cases hp : parseKeyValues env.fi k.nValues k.valuesListOffset.toNat with
      | none => exact ⟨[], k.logs, _, rfl⟩
      | some offs =>
        obtain ⟨⟨v, l, b⟩, hx⟩ := readValuesLoop_ok env seq offs [] k.logs
        simp only [hx]
        exact ⟨v, l, b, rfl⟩
  · rw [if_neg h]; exact ⟨k.values, k.logs, _, rfl⟩

/-- Reading values only changes the values and the logs, and never fails. -/
theorem valuesStep_ok (env : Env) (o : ReadOptions) (flags : FilterFlags) (k : KeyNode) :
    ∃ vs lg, valuesStep env o flags k = .ok { k with values := vs, logs := lg } := by
  unfold valuesStep
  by_cases h : 0 < k.nValues ∧ shouldReadValues o.filter flags o.selfMatch = true
  · rw [if_pos h]
    obtain ⟨vs, lg, b, hr⟩ := readValues_ok env k o.seq
    rw [hr]
    cases b with
    | true => exact ⟨vs, lg, rfl⟩
    | false => exact ⟨vs, _, rfl⟩
  · rw [if_neg h]; exact ⟨k.values, k.logs, rfl⟩

theorem finishStep_iterate (env : Env) (st : State) (o : ReadOptions) (k : KeyNode) :
    finishStep env st o .iterate k =
      if o.getModified then updateModifiedLists st env.depth (.mk k [] []) else .ok (.mk k [] []) := by
  unfold finishStep
  simp only [reduceCtorEq, if_false]

theorem finishStep_match (env : Env) (st : State) (o : ReadOptions) (k : KeyNode) :
    finishStep env st o .keyMatch k =
      if o.getModified then
        updateModifiedLists st env.depth (.mk { k with filterState := some .Exact } [] [])
      else .ok (.mk { k with filterState := some .Exact } [] []) := by
  unfold finishStep
  simp only [if_true]

/-- Everything about reading a stored key cell that does not depend on the filter. -/
theorem readKey_at (env : Env) (st : State) (o : ReadOptions) (c : NkCell) (name : Str)
    (h : KeyAt env.fi.buffer o.offset c name) :
    ∃ k, KeyMatches k c o.curPath name o.offset o.seq ∧ Fresh k ∧
      ((∃ flags ro, filterStep st o.filter k = .ok (flags, ro) ∧
        ((flags = .noMatch ∧ readKey env st o = .ok (none, ro)) ∨
         (flags ≠ .noMatch ∧ ∃ vs lg,
           valuesStep env o flags k = .ok { k with values := vs, logs := lg } ∧
           readKey env st o =
            match finishStep env st o flags { k with values := vs, logs := lg } with
            | .ok n => .ok (some n, ro)
            | .err => .err
            | .panic => .panic))) ∨
       (filterStep st o.filter k = .err ∧ readKey env st o = .err) ∨
       (filterStep st o.filter k = .panic ∧ readKey env st o = .panic)) := by
  obtain ⟨k, rest, slice, hg, hk, hm, hfr⟩ := readKeyAt env o.offset c name h o.curPath o.seq
  refine ⟨k, hm, hfr, ?_⟩
  unfold readKey
  rw [hg]
  simp only
  unfold readFromSlice
  rw [hk]
  simp only
  cases hf : filterStep st o.filter k with
  | err => right; left; exact ⟨rfl, rfl⟩
  | panic => right; right; exact ⟨rfl, rfl⟩
  | ok x =>
    obtain ⟨flags, ro⟩ := x
    left
    refine ⟨flags, ro, rfl, ?_⟩
    simp only
    by_cases hno : flags = .noMatch
    · left; rw [if_pos hno]; exact ⟨hno, rfl⟩
    · right
      rw [if_neg hno]
      obtain ⟨vs, lg, hv⟩ := valuesStep_ok env o flags k
      refine ⟨hno, vs, lg, hv, ?_⟩
      rw [hv]
      simp only
      cases finishStep env st o flags { k with values := vs, logs := lg } <;> rfl

end Notatin
