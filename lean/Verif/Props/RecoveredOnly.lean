import Verif.Props.XlsxFile
/-
C33: what `--recovered-only` keeps.  The documentation (/repo/README.md line 24): "only items that are modified,
deleted, or that contain a modified or deleted value".
-/
namespace Notatin
open Spec

/-- The value is deleted or modified, or was something else before. -/
def Spec.changedValue (v : Value) : Bool := recoveredState v.val.cellState || !v.versions.isEmpty

/-- The item is modified or deleted, or contains a modified or deleted value. -/
def Spec.ExportItem.touched : ExportItem → Bool
  | .key n => recoveredState n.key.cellState || !n.versions.isEmpty || n.key.values.any changedValue
  | .value _ v => changedValue v

/-- The keys of the listing that contain a modified or deleted value are modified or deleted themselves. -/
def Spec.OwnChanges (ns : List Node) : Prop :=
  ∀ n, ExportItem.key n ∈ allItems ns → n.key.values.any changedValue = true →
    recoveredState n.key.cellState = true ∨ n.versions ≠ []

theorem touched_recovered {ns : List Node} (h : OwnChanges ns) :
    (allItems ns).filter ExportItem.recovered = (allItems ns).filter ExportItem.touched := by
  apply List.filter_congr
  intro x hx
  cases x with
  | value n v => rfl
  | key n =>
    have hn := h n hx
    show (recoveredState n.key.cellState || !n.versions.isEmpty) =
      (recoveredState n.key.cellState || !n.versions.isEmpty || n.key.values.any changedValue)
    cases ha : n.key.values.any changedValue with
    | false => rw [Bool.or_false]
    | true =>
      rw [Bool.or_true]
      rcases hn ha with h1 | h1
      · rw [h1, Bool.true_or]
      · have : n.versions.isEmpty = false := by
          cases hv : n.versions with
          | nil => exact absurd hv h1
          | cons => rfl
        rw [this, Bool.not_false, Bool.or_true]

/-- C33 (partial: keys that are not modified themselves, but contain a modified or deleted value, are left out, see
`recovered_only_violated`): the TSV export with recovered-only has exactly the rows of the items that are modified
or deleted or contain a modified or deleted value, in the order of the full export. -/
theorem recovered_only_partial (kcols : KeyNode → Str) (vcols : Node → Value → Str) (logs : List Str)
    (ns : List Node) (h : OwnChanges ns) :
    writeTsv kcols vcols true logs ns = tsvHeader :: (numbered 1
      (((allItems ns).filter ExportItem.touched).map (rowText kcols vcols)) ++ "\nLogs\n-----------".toList :: logs) := by
  rw [tsv_rows, if_pos rfl, touched_recovered h]

/-- The same for a finished spreadsheet. -/
theorem recovered_only_xlsx_partial (t : XlsxTexts) (ht : t.Plain) (logs : List (Str × Str)) (ns : List Node)
    (h : OwnChanges ns) {items l o : Sheet} (hw : writeXlsx t true logs ns = .ok (items, l, o)) :
    (∀ i x, ((allItems ns).filter ExportItem.touched)[i]? = some x → ∀ c,
      Shows items o (i + 1) c ((itemRow t (i + 1) x)[c]?.getD [])) ∧
    ∀ i, ((allItems ns).filter ExportItem.touched).length < i → ∀ c, Shows items o i c [] := by
  have h1 := xlsx_rows t ht true logs ns hw
  have e : exported true ns = (allItems ns).filter ExportItem.touched := touched_recovered h
  rw [e] at h1
  exact ⟨h1.2.1, h1.2.2.1⟩

/-- A key that is what it was, with a value that was deleted. -/
def untouchedKey : Node :=
  .mk exportNode.key [] []

/-- C33, what the code does not do: a key that contains a deleted value has no row. -/
theorem recovered_only_violated :
    ¬ ∀ (kcols : KeyNode → Str) (vcols : Node → Value → Str) (logs : List Str) (ns : List Node),
      writeTsv kcols vcols true logs ns = tsvHeader :: (numbered 1
        (((allItems ns).filter ExportItem.touched).map (rowText kcols vcols)) ++ "\nLogs\n-----------".toList :: logs) := by
  intro h
  have := h (fun k => k.path) (fun _ v => v.val.name) [] [untouchedKey]
  exact absurd (congrArg List.length this) (by decide +kernel)

example : writeTsv (fun k => k.path) (fun _ v => v.val.name) true [] [untouchedKey]
    = [tsvHeader, "1\tv".toList, "\nLogs\n-----------".toList] := by
  decide +kernel

/-- The hypotheses of `recovered_only_partial`: the key is modified, and one of its values deleted. -/
example : OwnChanges [exportNode] ∧ (ExportItem.key exportNode).touched = true := by
  refine ⟨fun n hn ha => ?_, by decide +kernel⟩
  have all : (allItems [exportNode]).all (fun x => match x with
      | .key n => !n.key.values.any changedValue || recoveredState n.key.cellState || !n.versions.isEmpty
      | .value _ _ => true) = true := by decide +kernel
  have := List.all_eq_true.1 all _ hn
  simp only [ha, Bool.not_true, Bool.false_or, Bool.or_eq_true, Bool.not_eq_true', List.isEmpty_eq_false_iff] at this
  exact this

end Notatin
