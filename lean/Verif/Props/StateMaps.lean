import Verif.Model.KeyNode
import Verif.Spec.StateMaps
/-
C27: bookkeeping of deleted and modified items.
-/
namespace Notatin
open Spec

/-- The map holds what is on record (an empty list and an absent entry are the same). -/
def Holds {κ α : Type} [DecidableEq κ] (m : κ → Option (List α)) (l : List (κ × α)) : Prop :=
  ∀ k, (m k).getD [] = recordedUnder l k

theorem holds_add {κ α : Type} [DecidableEq κ] {m : κ → Option (List α)} {l : List (κ × α)}
    (h : Holds m l) (k : κ) (a : α) : Holds (mapAdd m k a) (record l (.add k a)) := by
  intro k'
  have := h k'
  unfold mapAdd record recordedUnder
  rw [List.filter_append, List.map_append]
  by_cases hk : k' = k
  · subst hk
    rw [if_pos rfl, List.filter_cons, if_pos (by simp)]
    unfold recordedUnder at this
    rw [← this]
    cases m k' <;> rfl
  · rw [if_neg hk, List.filter_cons, if_neg (by simpa using fun e => hk e.symm)]
    unfold recordedUnder at this
    rw [this]
    simp

theorem recordedUnder_remove {κ α : Type} [DecidableEq κ] (l : List (κ × α)) (k q : κ)
    (p : α → Bool) :
    recordedUnder (record l (.remove k p)) q =
      if q = k then dropFirst p (recordedUnder l k) else recordedUnder l q := by
  simp only [record, recordedUnder]
  induction l with
  | nil =>
    by_cases h : q = k
    · rw [if_pos h]; rfl
    · rw [if_neg h]; rfl
  | cons x l ih =>
    rw [dropFirst]
    by_cases hx : x.1 = k
    · by_cases hp : p x.2 = true
      · rw [if_pos (by simp [hx, hp])]
        by_cases hq : q = k
        · rw [if_pos hq, List.filter_cons, if_pos (by simpa using hx), List.map_cons, dropFirst,
            if_pos hp, hq]
        · rw [if_neg hq, List.filter_cons, if_neg (by simpa [hx] using fun e => hq e.symm)]
      · rw [if_neg (by simp [hp])]
        by_cases hq : q = k
        · rw [if_pos hq] at ih ⊢
          rw [List.filter_cons, if_pos (by simp [hx, hq]), List.map_cons, ih, List.filter_cons,
            if_pos (by simpa using hx), List.map_cons, dropFirst, if_neg hp]
        · rw [if_neg hq] at ih ⊢
          rw [List.filter_cons, if_neg (by simpa [hx] using fun e => hq e.symm), ih,
            List.filter_cons, if_neg (by simpa [hx] using fun e => hq e.symm)]
    · rw [if_neg (by simp [hx])]
      by_cases hq : q = k
      · rw [if_pos hq] at ih ⊢
        rw [List.filter_cons, if_neg (by simpa [hq] using hx), ih, List.filter_cons,
          if_neg (by simpa using hx)]
      · rw [if_neg hq] at ih ⊢
        by_cases hxq : x.1 = q
        · rw [List.filter_cons, if_pos (by simpa using hxq), List.map_cons, ih, List.filter_cons,
            if_pos (by simpa using hxq), List.map_cons]
        · rw [List.filter_cons, if_neg (by simpa using hxq), ih, List.filter_cons,
            if_neg (by simpa using hxq)]

theorem removeFirst_spec {α : Type} (p : α → Bool) (l : List α) :
    dropFirst p l = (removeFirst p l).getD l := by
  induction l with
  | nil => rfl
  | cons a l ih =>
    rw [dropFirst, removeFirst]
    by_cases h : p a = true
    · rw [if_pos h, if_pos h]; rfl
    · rw [if_neg h, if_neg h, ih]
      cases removeFirst p l <;> rfl

/-- One operation on the deleted values: what the analysis of the logs does. -/
inductive ValueOp where
  | add (path : Str) (v : Value)
  | remove (path name : Str) (hash : Bytes)

/-- The operation on the map. -/
def ValueOp.run (m : Str → Option (List Value)) : ValueOp → Str → Option (List Value)
  | .add path v => mapAdd m path v
  | .remove path name hash => deletedValuesRemove m path name hash

/-- The operation on the record: a removal drops the oldest value of that name and hash. -/
def ValueOp.op : ValueOp → Op Str Value
  | .add path v => .add path v
  | .remove path name hash =>
    .remove path fun v => decide (v.val.name = name ∧ v.val.hash = some hash)

theorem holds_valueOp {m : Str → Option (List Value)} {l : List (Str × Value)} (h : Holds m l)
    (op : ValueOp) : Holds (op.run m) (record l op.op) := by
  cases op with
  | add path v => exact holds_add h path v
  | remove path name hash =>
    intro q
    rw [ValueOp.op, recordedUnder_remove]
    have hp := h path
    have hq := h q
    have hpred : (fun v : Value => decide (v.val.name = name ∧ v.val.hash = some hash))
        = fun v => v.val.name == name && v.val.hash == some hash := by
      funext v
      rw [Bool.eq_iff_iff, decide_eq_true_iff, Bool.and_eq_true, beq_iff_eq, beq_iff_eq]
    rw [hpred, ← hp]
    show (deletedValuesRemove m path name hash q).getD [] = _
    rw [deletedValuesRemove]
    cases hm : m path with
    | none =>
      simp only
      by_cases hk : q = path
      · subst hk; rw [if_pos rfl, hm]; rfl
      · rw [if_neg hk, hq]
    | some vs =>
      simp only [Option.getD_some]
      rw [removeFirst_spec]
      cases hr : removeFirst (fun v : Value => v.val.name == name && v.val.hash == some hash) vs with
      | none =>
        simp only [Option.getD_none]
        by_cases hk : q = path
        · subst hk; rw [if_pos rfl, hm]; rfl
        · rw [if_neg hk, hq]
      | some vs' =>
        simp only [Option.getD_some]
        by_cases hk : q = path
        · rw [if_pos hk, if_pos hk]
          cases vs' <;> rfl
        · rw [if_neg hk, if_neg hk, hq]

/-- C27 for deleted values: after every history of additions and removals, looking up a path gives
exactly the values added under that path and not removed since, oldest first. -/
theorem deleted_values_recorded (ops : List ValueOp) :
    Holds (ops.foldl ValueOp.run fun _ => none) ((ops.map ValueOp.op).foldl record []) := by
  suffices ∀ (m : Str → Option (List Value)) l, Holds m l →
      Holds (ops.foldl ValueOp.run m) ((ops.map ValueOp.op).foldl record l) from
    this _ _ (fun _ => rfl)
  induction ops with
  | nil => exact fun m l h => h
  | cons op ops ih => exact fun m l h => ih _ _ (holds_valueOp h op)

/-- C27 for modified items (keys under their path, values under path and name; these are only
added): looking up gives exactly what was added, oldest first. -/
theorem modified_recorded {κ α : Type} [DecidableEq κ] (adds : List (κ × α)) :
    Holds (adds.foldl (fun m x => mapAdd m x.1 x.2) fun _ => none) adds := by
  suffices ∀ (m : κ → Option (List α)) l, Holds m l →
      Holds (adds.foldl (fun m x => mapAdd m x.1 x.2) m) (l ++ adds) by
    simpa using this (fun _ => none) [] (fun _ => rfl)
  induction adds with
  | nil => intro m l h; rw [List.append_nil]; exact h
  | cons x xs ih =>
    intro m l h
    have := ih (mapAdd m x.1 x.2) (l ++ [x]) (holds_add h x.1 x.2)
    simpa using this

/-- One operation on the deleted keys. -/
inductive KeyOp where
  | add (path : Str) (k : Node)
  | remove (path : Str) (hash : Bytes)

/-- The operation on the map. -/
def KeyOp.run (m : Str → Option (List Node)) : KeyOp → Str → Option (List Node)
  | .add path v => mapAdd m path v
  | .remove path hash => deletedKeysRemove m path hash

/-- Everything before the last backslash, nothing when there is none. -/
def Spec.upTo : Str → Str
  | [] => []
  | c :: s => if '\\' ∈ s then c :: upTo s else []

/-- The operation on the record: a removal drops the oldest key with that path and hash among
those filed under the parent path. -/
def KeyOp.op : KeyOp → Op Str Node
  | .add path k => .add path k
  | .remove path hash =>
    .remove (upTo path) fun k => decide (k.key.path = path ∧ k.key.hash = some hash)

theorem dropWhile_nil_iff {α : Type} (p : α → Bool) (l : List α) :
    l.dropWhile p = [] ↔ ∀ a ∈ l, p a = true := by
  induction l with
  | nil => simp
  | cons a l ih =>
    rw [List.dropWhile_cons]
    by_cases h : p a = true
    · rw [if_pos h, ih]; simp [h]
    · rw [if_neg h]; simp [h]

theorem parentPath_eq (s : Str) : parentPath s = upTo s := by
  unfold parentPath
  induction s with
  | nil => rfl
  | cons c s ih =>
    rw [upTo]
    by_cases hs : '\\' ∈ s
    · rw [if_pos hs] at ih
      rw [if_pos (List.mem_cons_of_mem _ hs), if_pos hs, ← ih, List.reverse_cons,
        List.dropWhile_append]
      have hne : (s.reverse.dropWhile (· != '\\')).isEmpty = false := by
        rw [List.isEmpty_eq_false_iff]
        intro h
        rw [dropWhile_nil_iff] at h
        exact absurd (h '\\' (List.mem_reverse.2 hs)) (by simp)
      rw [hne]
      simp only [Bool.false_eq_true, if_false]
      cases hd : s.reverse.dropWhile (· != '\\') with
      | nil => rw [hd] at hne; cases hne
      | cons a l => simp
    · rw [if_neg hs]
      split
      · rename_i h
        have hc : c = '\\' := by
          cases h with
          | head => rfl
          | tail _ h => exact absurd h hs
        subst hc
        rw [List.reverse_cons, List.dropWhile_append]
        have : s.reverse.dropWhile (· != '\\') = [] := by
          rw [dropWhile_nil_iff]
          intro x hx
          rw [bne_iff_ne]
          rintro rfl
          exact hs (List.mem_reverse.1 hx)
        rw [this]
        rfl
      · rfl

/-- C27 for deleted keys, the full claim. -/
def DeletedKeysRecorded : Prop :=
  ∀ ops : List KeyOp,
    Holds (ops.foldl KeyOp.run fun _ => none) ((ops.map KeyOp.op).foldl record [])

theorem holds_keyOp {m : Str → Option (List Node)} {l : List (Str × Node)} (h : Holds m l)
    (op : KeyOp) (hop : ∀ path hash, op = .remove path hash → recordedUnder l path = []) :
    Holds (op.run m) (record l op.op) := by
  cases op with
  | add path v => exact holds_add h path v
  | remove path hash =>
    intro q
    have hempty := hop path hash rfl
    rw [KeyOp.op, recordedUnder_remove]
    have hp := h (upTo path)
    have hq := h q
    have hpred : (fun k : Node => decide (k.key.path = path ∧ k.key.hash = some hash))
        = fun k => k.key.hash == some hash && k.key.path == path := by
      funext v
      rw [Bool.eq_iff_iff, decide_eq_true_iff, Bool.and_eq_true, beq_iff_eq, beq_iff_eq]
      exact And.comm
    rw [hpred, ← hp]
    show (deletedKeysRemove m path hash q).getD [] = _
    rw [deletedKeysRemove]
    simp only [parentPath_eq]
    cases hm : m (upTo path) with
    | none =>
      simp only
      by_cases hk : q = upTo path
      · rw [if_pos hk, hk, hm]; rfl
      · rw [if_neg hk, hq]
    | some vs =>
      simp only [Option.getD_some]
      rw [removeFirst_spec]
      cases hr : removeFirst (fun k : Node => k.key.hash == some hash && k.key.path == path) vs with
      | none =>
        simp only [Option.getD_none]
        by_cases hk : q = upTo path
        · rw [if_pos hk, hk, hm]; rfl
        · rw [if_neg hk, hq]
      | some vs' =>
        simp only [Option.getD_some]
        have hmain : ((if q = upTo path then some vs' else m q).getD [])
            = if q = upTo path then vs' else recordedUnder l q := by
          by_cases hk : q = upTo path
          · rw [if_pos hk, if_pos hk]; rfl
          · rw [if_neg hk, if_neg hk, hq]
        cases hv : vs'.isEmpty with
        | false => simp only [Bool.false_eq_true, if_false]; exact hmain
        | true =>
          simp only [if_true]
          by_cases hqp : q = path
          · rw [if_pos hqp, hqp]
            by_cases hk : path = upTo path
            · rw [if_pos hk, List.isEmpty_iff.1 hv]; rfl
            · rw [if_neg hk, hempty]; rfl
          · rw [if_neg hqp]; exact hmain

/-- C27 for deleted keys, partial: true for every history in which nothing is filed under a path
at the time a key of that path is removed.  Missing: removing a deleted key that has deleted
sub-keys (`deleted_keys_violated`). -/
theorem deleted_keys_recorded_partial (ops : List KeyOp)
    (hops : ∀ pre path hash post, ops = pre ++ .remove path hash :: post →
      recordedUnder ((pre.map KeyOp.op).foldl record []) path = []) :
    Holds (ops.foldl KeyOp.run fun _ => none) ((ops.map KeyOp.op).foldl record []) := by
  suffices ∀ (ops' pre : List KeyOp) (m : Str → Option (List Node)),
      ops = pre ++ ops' → Holds m ((pre.map KeyOp.op).foldl record []) →
      Holds (ops'.foldl KeyOp.run m) ((ops'.map KeyOp.op).foldl record
        ((pre.map KeyOp.op).foldl record [])) from
    this ops [] _ rfl (fun _ => rfl)
  intro ops'
  induction ops' with
  | nil => exact fun pre m _ h => h
  | cons op ops' ih =>
    intro pre m he h
    have hstep := holds_keyOp h op (fun path hash hop => hops pre path hash ops' (by rw [he, hop]))
    have := ih (pre ++ [op]) (op.run m) (by rw [he]; simp) (by
      rw [List.map_append, List.foldl_append]; exact hstep)
    rw [List.map_append, List.foldl_append] at this
    exact this

/-- A key with the given path and hash. -/
def pathKey (path : Str) (hash : Bytes) : Node :=
  .mk { fileOffset := 0, size := -80, flagBits := 0x20, lastWritten := 0, accessBits := 0,
        parentOffset := 0, nSubKeys := 0, nVolatileSubKeys := 0, subKeysListOffset := 0,
        volatileListOffset := 0, nValues := 0, valuesListOffset := 0, securityOffset := 0,
        classNameOffset := 0, largestSubKeyName := 0, largestSubKeyClassName := 0,
        largestValueName := 0, largestValueData := 0, workVar := 0, nameSize := 0,
        classNameSize := 0, slack := [], name := [], path := path, hash := some hash } [] []

/-- The deleted key `\R\a` and its deleted sub-key `\R\a\b` are on record; then `\R\a` turns up
again and is taken off the record. -/
def lostSubKey : List KeyOp :=
  [.add "\\R".toList (pathKey "\\R\\a".toList [1]),
   .add "\\R\\a".toList (pathKey "\\R\\a\\b".toList [2]),
   .remove "\\R\\a".toList [1]]

/-- C27: taking the last deleted key below a path off the record also drops everything recorded
below that key. -/
theorem deleted_keys_violated : ¬ DeletedKeysRecorded := by
  intro h
  have h1 := congrArg List.length (h lostSubKey "\\R\\a".toList)
  revert h1; decide +kernel

/-- A history with a removal meeting the hypothesis of `deleted_keys_recorded_partial`. -/
example : recordedUnder ((([KeyOp.add "\\R".toList (pathKey "\\R\\a".toList [1])].map
    KeyOp.op).foldl record [])) "\\R\\a".toList = [] := by
  simp only [List.map_cons, List.map_nil, List.foldl_cons, List.foldl_nil, KeyOp.op, record,
    recordedUnder, List.nil_append]
  rw [List.filter_cons, if_neg (by decide)]
  rfl

end Notatin
