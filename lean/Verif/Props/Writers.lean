import Verif.Spec.Writers
import Verif.Props.Diff
/-
C32, C33: the exports in the common format and as TSV.
-/
namespace Notatin
open Spec

/-! ### C32 -/

/-- The totals of a list of rows. -/
def rowTotals (rows : List Str) : Totals where
  keys := rowCount rows "key" 'A'
  values := rowCount rows "value" 'A'
  unusedKeys := rowCount rows "key" 'U'
  unusedValues := rowCount rows "value" 'U'
  deletedKeys := rowCount rows "key" 'D'
  deletedValues := rowCount rows "value" 'D'
  modifiedKeys := rowCount rows "key" 'M'
  modifiedValues := rowCount rows "value" 'M'

/-- The sum. -/
def Totals.add (a b : Totals) : Totals where
  keys := a.keys + b.keys
  values := a.values + b.values
  unusedKeys := a.unusedKeys + b.unusedKeys
  unusedValues := a.unusedValues + b.unusedValues
  deletedKeys := a.deletedKeys + b.deletedKeys
  deletedValues := a.deletedValues + b.deletedValues
  modifiedKeys := a.modifiedKeys + b.modifiedKeys
  modifiedValues := a.modifiedValues + b.modifiedValues

theorem rowCount_append (a b : List Str) (k : String) (f : Char) :
    rowCount (a ++ b) k f = rowCount a k f + rowCount b k f := List.countP_append

theorem rowTotals_append (a b : List Str) : rowTotals (a ++ b) = (rowTotals a).add (rowTotals b) := by
  simp only [rowTotals, rowCount_append, Totals.add]

theorem Totals.add_assoc (a b c : Totals) : (a.add b).add c = a.add (b.add c) := by
  simp only [Totals.add, Nat.add_assoc]

theorem Totals.add_nil (a : Totals) : a.add (rowTotals []) = a := rfl

/-- The totals of keys and values in the given states. -/
def stateTotals (ks vs : List CellState) : Totals where
  keys := ks.countP fun s => flagOf s = 'A'
  values := vs.countP fun s => flagOf s = 'A'
  unusedKeys := ks.countP fun s => flagOf s = 'U'
  unusedValues := vs.countP fun s => flagOf s = 'U'
  deletedKeys := ks.countP fun s => flagOf s = 'D'
  deletedValues := vs.countP fun s => flagOf s = 'D'
  modifiedKeys := ks.countP fun s => flagOf s = 'M'
  modifiedValues := vs.countP fun s => flagOf s = 'M'

theorem stateTotals_append (ks ks' vs vs' : List CellState) :
    stateTotals (ks ++ ks') (vs ++ vs') = (stateTotals ks vs).add (stateTotals ks' vs') := by
  simp only [stateTotals, List.countP_append, Totals.add]

theorem keyRow_totals (time : KeyNode → Str) (n : Node) (p : Str) :
    rowTotals [commonKeyRow time n p] = stateTotals [n.key.cellState] [] := by
  unfold commonKeyRow
  cases n.key.cellState <;> rfl

theorem valueRow_totals (v : Value) (p : Str) :
    rowTotals [commonValueRow v p] = stateTotals [] [v.val.cellState] := by
  unfold commonValueRow
  cases v.val.cellState <;> rfl

/-- What a step of the export keeps. -/
def Counts {α : Type} (f : α → Totals → Res (List Str × Totals)) (ks vs : α → List CellState) : Prop :=
  ∀ a t r t', f a t = .ok (r, t') → t' = t.add (rowTotals r) ∧ rowTotals r = stateTotals (ks a) (vs a) ∧
    r.length = (ks a).length + (vs a).length

theorem countUp_ok {n c : Nat} (h : countUp n = .ok c) : c = n + 1 := by
  unfold countUp at h
  split at h
  · cases h; rfl
  · cases h

theorem commonKey_counts (time : KeyNode → Str) :
    Counts (commonKey time) (fun n => [n.key.cellState]) (fun _ => []) := by
  intro n t r t' h
  unfold commonKey at h
  cases hs : n.key.cellState with
  | DeletedPrimaryFile | DeletedPrimaryFileSlack =>
    simp only [hs] at h
    split at h
    · rename_i c hc
      cases h
      refine ⟨?_, keyRow_totals .., rfl⟩
      rw [countUp_ok hc, keyRow_totals, hs]
      rfl
    · cases h
  | _ =>
    simp only [hs] at h
    split at h
    · rename_i c p hc hp
      cases h
      refine ⟨?_, keyRow_totals .., rfl⟩
      rw [countUp_ok hc, keyRow_totals, hs]
      rfl
    · cases h

theorem commonValue_counts (n : Node) :
    Counts (commonValue n) (fun _ => []) (fun v => [v.val.cellState]) := by
  intro v t r t' h
  unfold commonValue at h
  cases hs : v.val.cellState with
  | _ =>
    simp only [hs] at h
    split at h
    · rename_i c hc
      cases h
      refine ⟨?_, valueRow_totals .., rfl⟩
      rw [countUp_ok hc, valueRow_totals, hs]
      rfl
    · cases h

theorem writeEach_counts {α : Type} {f : α → Totals → Res (List Str × Totals)}
    {ks vs : α → List CellState} (hf : Counts f ks vs) :
    Counts (writeEach f) (fun as => as.flatMap ks) (fun as => as.flatMap vs) := by
  intro as
  induction as with
  | nil =>
    intro t r t' h
    rw [writeEach] at h
    cases h
    exact ⟨rfl, rfl, rfl⟩
  | cons a as ih =>
    intro t r t' h
    rw [writeEach] at h
    cases h1 : f a t with
    | ok x =>
      obtain ⟨r1, t1⟩ := x
      obtain ⟨e1, e2, e3⟩ := hf a t r1 t1 h1
      simp only [h1] at h
      cases h2 : writeEach f as t1 with
      | ok x =>
        obtain ⟨r2, t2⟩ := x
        obtain ⟨d1, d2, d3⟩ := ih t1 r2 t2 h2
        simp only [h2] at h
        cases h
        simp only [List.flatMap_cons]
        refine ⟨?_, ?_, ?_⟩
        · rw [rowTotals_append, ← Totals.add_assoc, ← e1, ← d1]
        · rw [rowTotals_append, stateTotals_append, e2, d2]
        · simp only [List.length_append, e3, d3]
          omega
      | err => simp only [h2] at h; cases h
      | panic => simp only [h2] at h; cases h
    | err => simp only [h1] at h; cases h
    | panic => simp only [h1] at h; cases h

theorem Counts.congr {α : Type} {f : α → Totals → Res (List Str × Totals)}
    {ks vs ks' vs' : α → List CellState} (h : Counts f ks vs) (hk : ∀ a, ks a = ks' a)
    (hv : ∀ a, vs a = vs' a) : Counts f ks' vs' := by
  have e1 : ks = ks' := funext hk
  have e2 : vs = vs' := funext hv
  rwa [← e1, ← e2]

theorem commonItem_counts (time : KeyNode → Str) :
    Counts (commonItem time) (fun n => (keyItems [n]).map fun m => m.key.cellState)
      (fun n => (valueItems [n]).map fun v => v.val.cellState) := by
  have hk : Counts (writeEach (commonKey time)) (fun ns => ns.map fun m => m.key.cellState) (fun _ => []) :=
    (writeEach_counts (commonKey_counts time)).congr (fun _ => List.map_eq_flatMap.symm)
      (fun _ => List.flatMap_eq_nil_iff.2 fun _ _ => rfl)
  have hv : ∀ n, Counts (commonValues n) (fun _ => [])
      (fun v => (v :: v.versions).map fun v => v.val.cellState) := by
    intro n v t r t' h
    exact ((writeEach_counts (commonValue_counts n)).congr
      (fun _ => List.flatMap_eq_nil_iff.2 fun _ _ => rfl) (fun _ => List.map_eq_flatMap.symm)) _ _ _ _ h
  have hvs : ∀ n, Counts (writeEach (commonValues n)) (fun _ => [])
      (fun vs => (vs.flatMap fun v => v :: v.versions).map fun v => v.val.cellState) := fun n =>
    (writeEach_counts (hv n)).congr (fun _ => List.flatMap_eq_nil_iff.2 fun _ _ => rfl)
      (fun _ => List.map_flatMap.symm)
  intro n t r t' h
  unfold commonItem at h
  cases h1 : writeEach (commonKey time) (n :: n.versions) t with
  | ok x =>
    obtain ⟨r1, t1⟩ := x
    simp only [h1] at h
    obtain ⟨e1, e2, e3⟩ := hk _ _ _ _ h1
    cases h2 : writeEach (commonValues n) n.key.values t1 with
    | ok x =>
      obtain ⟨r2, t2⟩ := x
      simp only [h2] at h
      cases h
      obtain ⟨d1, d2, d3⟩ := hvs n _ _ _ _ h2
      simp only [keyItems, valueItems, List.flatMap_cons, List.flatMap_nil, List.append_nil]
      refine ⟨?_, ?_, ?_⟩
      · rw [rowTotals_append, ← Totals.add_assoc, ← e1, ← d1]
      · rw [rowTotals_append, e2, d2, ← stateTotals_append, List.append_nil, List.nil_append]
      · rw [List.length_append, e3, d3]
        simp
    | err => simp only [h2] at h; cases h
    | panic => simp only [h2] at h; cases h
  | err => simp only [h1] at h; cases h
  | panic => simp only [h1] at h; cases h

/-- C32: whenever the export in the common format finishes, it consists of a heading, rows, and eight
totals that are the numbers of rows of each kind with each flag; and these rows are as many as there
are keys and values, versions included, in the state with that flag. -/
theorem common_totals (time : KeyNode → Str) (ns : List Node)
    (records : List Str) (h : writeCommon time ns = .ok records) :
    ∃ rows, TotalsMatch commonHeader rows records ∧
      (∀ f : CellState, rowCount rows "key" (flagOf f)
        = (keyItems ns).countP fun n => flagOf n.key.cellState = flagOf f) ∧
      (∀ f : CellState, rowCount rows "value" (flagOf f)
        = (valueItems ns).countP fun v => flagOf v.val.cellState = flagOf f) ∧
      rows.length = (keyItems ns).length + (valueItems ns).length := by
  unfold writeCommon at h
  cases h1 : writeEach (commonItem time) ns {} with
  | ok x =>
    obtain ⟨rows, t⟩ := x
    simp only [h1] at h
    cases h
    have hc : Counts (writeEach (commonItem time))
        (fun ns => (keyItems ns).map fun m => m.key.cellState)
        (fun ns => (valueItems ns).map fun v => v.val.cellState) := by
      refine (writeEach_counts (commonItem_counts time)).congr (fun ns => ?_) (fun ns => ?_)
      · simp only [keyItems, List.map_flatMap, List.flatMap_cons, List.flatMap_nil, List.append_nil]
      · simp only [valueItems, List.map_flatMap, List.flatMap_cons, List.flatMap_nil, List.append_nil]
    obtain ⟨e1, e2, e3⟩ := hc _ _ _ _ h1
    have ht : t = rowTotals rows := by
      rw [e1]
      simp only [Totals.add, Nat.zero_add]
    refine ⟨rows, ⟨_, _, _, _, _, _, _, _, rfl, ?_⟩, ?_, ?_, ?_⟩
    · subst ht
      exact ⟨decimal_number _, decimal_number _, decimal_number _, decimal_number _, decimal_number _,
        decimal_number _, decimal_number _, decimal_number _⟩
    · intro f
      have h2 := e2
      rw [rowTotals, stateTotals] at h2
      simp only [Totals.mk.injEq, List.countP_map, Function.comp_def] at h2
      obtain ⟨a1, a2, a3, a4, a5, a6, a7, a8⟩ := h2
      cases f <;> assumption
    · intro f
      have h2 := e2
      rw [rowTotals, stateTotals] at h2
      simp only [Totals.mk.injEq, List.countP_map, Function.comp_def] at h2
      obtain ⟨a1, a2, a3, a4, a5, a6, a7, a8⟩ := h2
      cases f <;> assumption
    · simpa using e3
  | err => simp only [h1] at h; cases h
  | panic => simp only [h1] at h; cases h

/-- No counter can go over with `k` more items. -/
def Totals.Room (t : Totals) (k : Nat) : Prop :=
  t.keys + k < 4294967296 ∧ t.values + k < 4294967296 ∧ t.unusedKeys + k < 4294967296 ∧
  t.unusedValues + k < 4294967296 ∧ t.deletedKeys + k < 4294967296 ∧
  t.deletedValues + k < 4294967296 ∧ t.modifiedKeys + k < 4294967296 ∧
  t.modifiedValues + k < 4294967296

/-- The step finishes if there is room for its items. -/
def Finishes {α : Type} (f : α → Totals → Res (List Str × Totals)) (size : α → Nat) (a : α) : Prop :=
  ∀ t k, t.Room (size a + k) → ∃ r t', f a t = .ok (r, t') ∧ t'.Room k

theorem countUp_room {n k : Nat} (h : n + (1 + k) < 4294967296) : countUp n = .ok (n + 1) := by
  unfold countUp
  rw [if_pos (by omega)]

theorem commonKey_finishes (time : KeyNode → Str) (n : Node)
    (h : flagOf n.key.cellState ≠ 'U' → ∃ r, n.key.path = '\\' :: r) :
    Finishes (commonKey time) (fun _ => 1) n := by
  intro t k hr
  simp only at hr
  obtain ⟨r1, r2, r3, r4, r5, r6, r7, r8⟩ := hr
  have hp : flagOf n.key.cellState ≠ 'U' → ∃ p, sliceFrom1 n.key.path = .ok p := by
    intro hu
    obtain ⟨r, e⟩ := h hu
    rw [e]
    have h1 : '\\'.utf8Size = 1 := by decide
    exact ⟨r, by simp [sliceFrom1, dropBytes, h1]⟩
  unfold commonKey
  cases hs : n.key.cellState with
  | DeletedPrimaryFile | DeletedPrimaryFileSlack =>
    simp only [countUp_room r3]
    exact ⟨_, _, rfl, by unfold Totals.Room; simp only; omega⟩
  | DeletedTransactionLog =>
    obtain ⟨p, e⟩ := hp (by rw [hs]; decide)
    simp only [countUp_room r5, e]
    exact ⟨_, _, rfl, by unfold Totals.Room; simp only; omega⟩
  | ModifiedTransactionLog =>
    obtain ⟨p, e⟩ := hp (by rw [hs]; decide)
    simp only [countUp_room r7, e]
    exact ⟨_, _, rfl, by unfold Totals.Room; simp only; omega⟩
  | Allocated =>
    obtain ⟨p, e⟩ := hp (by rw [hs]; decide)
    simp only [countUp_room r1, e]
    exact ⟨_, _, rfl, by unfold Totals.Room; simp only; omega⟩

theorem commonValue_finishes (n : Node) (v : Value) :
    Finishes (commonValue n) (fun _ => 1) v := by
  intro t k hr
  simp only at hr
  obtain ⟨r1, r2, r3, r4, r5, r6, r7, r8⟩ := hr
  unfold commonValue
  cases hs : v.val.cellState with
  | DeletedPrimaryFile | DeletedPrimaryFileSlack =>
    simp only [countUp_room r4]
    exact ⟨_, _, rfl, by unfold Totals.Room; simp only; omega⟩
  | DeletedTransactionLog =>
    simp only [countUp_room r6]
    exact ⟨_, _, rfl, by unfold Totals.Room; simp only; omega⟩
  | ModifiedTransactionLog =>
    simp only [countUp_room r8]
    exact ⟨_, _, rfl, by unfold Totals.Room; simp only; omega⟩
  | Allocated =>
    simp only [countUp_room r2]
    exact ⟨_, _, rfl, by unfold Totals.Room; simp only; omega⟩

theorem writeEach_finishes {α : Type} {f : α → Totals → Res (List Str × Totals)} {size : α → Nat}
    (as : List α) (hf : ∀ a ∈ as, Finishes f size a) :
    Finishes (writeEach f) (fun as => (as.map size).sum) as := by
  induction as with
  | nil =>
    intro t k hr
    refine ⟨[], t, rfl, ?_⟩
    simpa using hr
  | cons a as ih =>
    intro t k hr
    simp only at hr
    rw [List.map_cons, List.sum_cons, Nat.add_assoc] at hr
    obtain ⟨r1, t1, e1, h1⟩ := hf a List.mem_cons_self t _ hr
    obtain ⟨r2, t2, e2, h2⟩ := ih (fun a ha => hf a (List.mem_cons_of_mem _ ha)) t1 k h1
    refine ⟨r1 ++ r2, t2, ?_, h2⟩
    rw [writeEach, e1]
    simp only
    rw [e2]

theorem sum_ones {α : Type} (as : List α) : (as.map fun _ => 1).sum = as.length := by
  induction as with
  | nil => rfl
  | cons a as ih => rw [List.map_cons, List.sum_cons, ih, List.length_cons]; omega

theorem commonItem_finishes (time : KeyNode → Str) (n : Node)
    (h : ∀ m ∈ n :: n.versions, flagOf m.key.cellState ≠ 'U' → ∃ r, m.key.path = '\\' :: r) :
    Finishes (commonItem time) (fun n => (keyItems [n]).length + (valueItems [n]).length) n := by
  intro t k hr
  simp only [keyItems, valueItems, List.flatMap_cons, List.flatMap_nil, List.append_nil] at hr
  have hk := writeEach_finishes (n :: n.versions) fun m hm => commonKey_finishes time m (h m hm)
  have hv : ∀ v ∈ n.key.values, Finishes (commonValues n) (fun v => (v :: v.versions).length) v := by
    intro v _ t k hr
    refine writeEach_finishes (v :: v.versions) (fun m _ => commonValue_finishes n m) t k ?_
    simp only [sum_ones]
    simpa using hr
  have hvs := writeEach_finishes n.key.values hv
  obtain ⟨r1, t1, e1, h1⟩ := hk t ((n.key.values.flatMap fun v => v :: v.versions).length + k)
    (by simp only [sum_ones]; simpa [Nat.add_assoc] using hr)
  obtain ⟨r2, t2, e2, h2⟩ := hvs t1 k (by simpa [List.length_flatMap] using h1)
  refine ⟨r1 ++ r2, t2, ?_, h2⟩
  unfold commonItem
  rw [e1]
  simp only
  rw [e2]

/-- C32: the export in the common format finishes if the paths of all keys but those recovered from
the primary file begin with a backslash and there are fewer than 2³² items.

Partial: with another path it panics (`common_default_violated`). -/
theorem common_finishes_partial (time : KeyNode → Str) (ns : List Node)
    (hpath : ∀ m ∈ keyItems ns, flagOf m.key.cellState ≠ 'U' → ∃ r, m.key.path = '\\' :: r)
    (hcount : (keyItems ns).length + (valueItems ns).length < 4294967296) :
    ∃ records, writeCommon time ns = .ok records := by
  have hs : (ns.map fun n => (keyItems [n]).length + (valueItems [n]).length).sum
      = (keyItems ns).length + (valueItems ns).length := by
    clear hpath hcount
    induction ns with
    | nil => rfl
    | cons n ns ih =>
      rw [List.map_cons, List.sum_cons, ih]
      simp only [keyItems, valueItems, List.flatMap_cons, List.flatMap_nil, List.append_nil,
        List.length_append]
      omega
  obtain ⟨r, t, e, _⟩ := writeEach_finishes ns (fun n hn => commonItem_finishes time n fun m hm =>
    hpath m (List.mem_flatMap.2 ⟨n, hn, hm⟩)) {} 0 (by
      simp only [hs]
      unfold Totals.Room
      simp only
      omega)
  unfold writeCommon
  rw [e]
  exact ⟨_, rfl⟩

/-- C32: for every file with a root key and nothing recorded, whatever the rest of it is and whatever
the filter, the export of the listing finishes with the right totals. -/
theorem common_opened_partial (env : Env) (st st0 : State) (root : Node) (ro : Nat) (f : Filter)
    (anc del : Bool) (steps : Nat) (ns : List Node) (time : KeyNode → Str)
    (hst0 : NothingRecorded st0) (hst : NothingRecorded st) (hroot : initRoot env st0 = .ok (some root, ro))
    (hns : collect (nextPre env) steps (.start st (some root) f anc del) = some (.ok ns))
    (hcount : ns.length + (valueItems ns).length < 4294967296) :
    ∃ records, writeCommon time ns = .ok records := by
  have hall : ∀ n ∈ ns, PlainPath n := by
    refine collect_plainPath env steps _ ns hst ?_ hns
    intro n hn
    have hn : n ∈ [root] := hn
    rw [List.mem_singleton] at hn
    subst hn
    unfold initRoot at hroot
    split at hroot
    · cases hroot
    · split at hroot
      · cases hroot
      · obtain ⟨h1, h2, name, h3⟩ := readKey_stored _ _ _ _ _ hst0 rfl hroot
        exact ⟨h2, h1.2, name, h3⟩
  have hk : keyItems ns = ns := by
    unfold keyItems
    clear hns hcount
    induction ns with
    | nil => rfl
    | cons n ns ih =>
      rw [List.flatMap_cons, (hall n List.mem_cons_self).1,
        ih fun m hm => hall m (List.mem_cons_of_mem _ hm)]
      rfl
  apply common_finishes_partial
  · intro m hm _
    rw [hk] at hm
    exact (hall m hm).2.2
  · rw [hk]; exact hcount

/-- A hive of three keys meets the hypotheses. -/
example : (match initRoot exampleEnv {} with
    | .ok (some root, _) =>
      match collect (nextPre exampleEnv) 9 (.start {} (some root) {} true false) with
      | some (.ok ns) => decide (ns.length + (valueItems ns).length = 3)
      | _ => false
    | _ => false) = true := by decide +kernel

/-- A key in use with an older version, a value deleted in a log and one in use. -/
def exportNode : Node :=
  .mk
    { defaultKey with
      path := "\\RT".toList
      values := [
        .mk { fileOffset := 7, size := 0, nameSize := 1, dataSizeRaw := 0, dataOffset := 0,
              dataTypeRaw := 1, flagsRaw := 0, padding := 0, name := ['v'], slack := [],
              dataType := .REG_SZ, flags := 0, cellState := .DeletedTransactionLog } [],
        .mk { fileOffset := 9, size := 0, nameSize := 1, dataSizeRaw := 0, dataOffset := 0,
              dataTypeRaw := 1, flagsRaw := 0, padding := 0, name := ['w'], slack := [],
              dataType := .REG_SZ, flags := 0 } []] }
    [.mk { defaultKey with path := "\\RT".toList, cellState := .ModifiedTransactionLog } [] []] []

example : ∃ records, writeCommon (fun _ => []) [exportNode] = .ok records :=
  common_finishes_partial _ _ (by
    intro m hm _
    simp only [keyItems, List.flatMap_cons, List.flatMap_nil, List.append_nil, exportNode, Node.versions,
      List.mem_cons, List.not_mem_nil, or_false] at hm
    rcases hm with rfl | rfl
    · exact ⟨_, rfl⟩
    · exact ⟨_, rfl⟩) (by decide)

example : (keyItems [exportNode]).map (fun n => flagOf n.key.cellState) = ['A', 'M'] ∧
    (valueItems [exportNode]).map (fun v => flagOf v.val.cellState) = ['D', 'A'] := by decide

/-- The listing of a file that is no hive, for which the parser has no root: one made-up key. -/
theorem no_root_listing (env : Env) :
    collect (nextPre env) 3 (.start {} none {} true false) = some (.ok [.mk defaultKey [] []]) := rfl

/-- C32 does not hold for every file: for a file that is no hive the listing is one made-up key
without a path, and the export panics. -/
theorem common_default_violated (env : Env) (time : KeyNode → Str) :
    ∃ ns, collect (nextPre env) 3 (.start {} none {} true false) = some (.ok ns) ∧
      writeCommon time ns = .panic := by
  refine ⟨_, no_root_listing env, ?_⟩
  have h : sliceFrom1 [] = .panic := by simp [sliceFrom1, dropBytes]
  simp only [writeCommon, writeEach, commonItem, commonKey, Node.key, h, defaultKey, countUp]
  rfl

/-! ### C33 -/

theorem numbered_append (i : Nat) (a b : List Str) :
    numbered i (a ++ b) = numbered i a ++ numbered (i + a.length) b := by
  induction a generalizing i with
  | nil => rfl
  | cons r a ih =>
    rw [List.cons_append, numbered, ih, numbered, List.cons_append, List.length_cons,
      Nat.add_assoc, Nat.add_comm 1]

/-- The step writes the rows of these items, numbered on. -/
def Writes {α : Type} (row : ExportItem → Str) (f : α → Nat → List Str × Nat) (items : α → List ExportItem) (a : α) :
    Prop :=
  ∀ i, f a i = (numbered (i + 1) ((items a).map row), i + (items a).length)

theorem tsvEach_writes {α : Type} {row : ExportItem → Str} {f : α → Nat → List Str × Nat}
    {items : α → List ExportItem} (as : List α) (h : ∀ a ∈ as, Writes row f items a) :
    Writes row (tsvEach f) (fun as => as.flatMap items) as := by
  induction as with
  | nil => intro i; rfl
  | cons a as ih =>
    intro i
    rw [tsvEach, h a List.mem_cons_self i]
    simp only
    rw [ih (fun a ha => h a (List.mem_cons_of_mem _ ha))]
    simp only [List.flatMap_cons, List.map_append, numbered_append, List.length_map, List.length_append]
    rw [Prod.mk.injEq]
    exact ⟨by rw [Nat.add_right_comm], by omega⟩

/-- The items that are exported. -/
def wanted (recoveredOnly : Bool) (items : List ExportItem) : List ExportItem :=
  if recoveredOnly then items.filter ExportItem.recovered else items

theorem wanted_append (ro : Bool) (a b : List ExportItem) : wanted ro (a ++ b) = wanted ro a ++ wanted ro b := by
  unfold wanted
  cases ro
  · rfl
  · exact List.filter_append ..

theorem wanted_flatMap {α : Type} (ro : Bool) (as : List α) (f : α → List ExportItem) :
    wanted ro (as.flatMap f) = as.flatMap fun a => wanted ro (f a) := by
  induction as with
  | nil => cases ro <;> rfl
  | cons a as ih => rw [List.flatMap_cons, List.flatMap_cons, wanted_append, ih]

/-- The text of a row after the number. -/
def rowText (kcols : KeyNode → Str) (vcols : Node → Value → Str) : ExportItem → Str
  | .key n => kcols n.key
  | .value n v => vcols n v

theorem node_recovered (n : Node) : n.hasOrIsRecovered = (ExportItem.key n).recovered := by
  unfold Node.hasOrIsRecovered ExportItem.recovered
  simp only
  cases n.key.cellState <;> rfl

theorem value_recovered (n : Node) (v : Value) : v.hasOrIsRecovered = (ExportItem.value n v).recovered := by
  unfold Value.hasOrIsRecovered ExportItem.recovered
  simp only
  cases v.val.cellState <;> rfl

theorem tsvValue_writes (kcols : KeyNode → Str) (vcols : Node → Value → Str) (ro : Bool) (n : Node)
    (v : Value) :
    Writes (rowText kcols vcols) (tsvValue vcols ro n) (fun v => wanted ro [.value n v]) v := by
  intro i
  unfold tsvValue wanted
  rw [value_recovered n v]
  cases ro
  · rfl
  · cases h : (ExportItem.value n v).recovered
    · simp only [Bool.not_true, Bool.false_or, if_true, List.filter_cons, h]
      rfl
    · simp only [Bool.not_true, Bool.false_or, if_true, List.filter_cons, h]
      rfl

mutual
theorem tsvVersion_writes (kcols : KeyNode → Str) (vcols : Node → Value → Str) (ro : Bool) :
    ∀ n, Writes (rowText kcols vcols) (tsvVersion kcols ro) (fun n => wanted ro (withVersions n)) n
  | .mk k vs ds => by
    intro i
    rw [tsvVersion, node_recovered]
    simp only [withVersions]
    by_cases h : (!ro || (ExportItem.key (.mk k vs ds)).recovered) = true
    · rw [if_pos h, versions_writes kcols vcols ro vs]
      have e : wanted ro (ExportItem.key (.mk k vs ds) :: withVersionsAll vs)
          = ExportItem.key (.mk k vs ds) :: wanted ro (withVersionsAll vs) := by
        unfold wanted
        cases ro
        · rfl
        · rw [Bool.not_true, Bool.false_or] at h
          simp only [if_true, List.filter_cons, h]
      simp only [e, List.map_cons, numbered, List.length_cons, Prod.mk.injEq]
      exact ⟨rfl, by omega⟩
    · rw [if_neg h]
      have hr : ro = true ∧ (ExportItem.key (.mk k vs ds)).recovered = false := by
        cases ro <;> simp_all
      have hv : vs = [] := by
        have := hr.2
        unfold ExportItem.recovered at this
        rw [Bool.or_eq_false_iff] at this
        simpa [Node.versions] using this.2
      subst hv
      rw [hr.1]
      simp only [wanted, withVersionsAll, if_true, List.filter_cons, hr.2, Bool.false_eq_true, if_false,
        List.filter_nil, List.map_nil, numbered, List.length_nil, Nat.add_zero]
theorem versions_writes (kcols : KeyNode → Str) (vcols : Node → Value → Str) (ro : Bool) :
    ∀ vs, Writes (rowText kcols vcols) (tsvVersion.versions kcols ro)
      (fun vs => wanted ro (withVersionsAll vs)) vs
  | [] => by
    intro i
    rw [tsvVersion.versions]
    simp only [withVersionsAll]
    cases ro <;> rfl
  | v :: vs => by
    intro i
    rw [tsvVersion.versions, tsvVersion_writes kcols vcols ro v]
    simp only
    rw [versions_writes kcols vcols ro vs]
    simp only [withVersionsAll, wanted_append, List.map_append, numbered_append, List.length_map,
      List.length_append, Prod.mk.injEq]
    exact ⟨by rw [Nat.add_right_comm], by omega⟩
end

theorem tsvKey_writes (kcols : KeyNode → Str) (vcols : Node → Value → Str) (ro : Bool) (n : Node) :
    Writes (rowText kcols vcols) (tsvKey kcols vcols ro) (fun n => wanted ro (allItems [n])) n := by
  intro i
  have hv : ∀ v ∈ n.key.values, Writes (rowText kcols vcols) (tsvValues vcols ro n)
      (fun v => wanted ro ((v :: v.versions).map (.value n))) v := by
    intro v _ i
    have := tsvEach_writes (v :: v.versions) (fun v _ => tsvValue_writes kcols vcols ro n v) i
    rw [tsvValues, this]
    simp only [← wanted_flatMap]
    rw [List.map_eq_flatMap (f := ExportItem.value n)]
  unfold tsvKey
  rw [tsvVersion_writes kcols vcols ro n]
  simp only
  rw [tsvEach_writes n.key.values hv]
  simp only [allItems, List.flatMap_cons, List.flatMap_nil, List.append_nil, wanted_append, List.map_append,
    numbered_append, List.length_map, List.length_append, ← wanted_flatMap, Prod.mk.injEq]
  exact ⟨by rw [Nat.add_right_comm], by omega⟩

/-- C33: the TSV export is the heading, one row per item numbered 1, 2, 3, … without gaps, and the
logs.  The items are all keys and values of the listing, versions included; with recovered-only
exactly those of them that were recovered or have older versions, in the same order. -/
theorem tsv_rows (kcols : KeyNode → Str) (vcols : Node → Value → Str) (recoveredOnly : Bool)
    (logs : List Str) (ns : List Node) :
    writeTsv kcols vcols recoveredOnly logs ns = tsvHeader :: (numbered 1
      ((if recoveredOnly then (allItems ns).filter ExportItem.recovered else allItems ns).map
        (rowText kcols vcols)) ++ "\nLogs\n-----------".toList :: logs) := by
  have h := tsvEach_writes ns (fun n _ => tsvKey_writes kcols vcols recoveredOnly n) 0
  unfold writeTsv
  rw [h]
  simp only [← wanted_flatMap]
  have e : (ns.flatMap fun n => allItems [n]) = allItems ns := by
    simp only [allItems, List.flatMap_cons, List.flatMap_nil, List.append_nil]
  rw [e]
  rfl

/-- C33: the rows of the recovered-only export are, apart from the numbers, among those of the full
export in the same order. -/
theorem tsv_recovered_sublist (kcols : KeyNode → Str) (vcols : Node → Value → Str) (ns : List Node) :
    List.Sublist (((allItems ns).filter ExportItem.recovered).map (rowText kcols vcols))
      ((allItems ns).map (rowText kcols vcols)) :=
  (List.filter_sublist).map _

example : writeTsv (fun k => k.path) (fun _ v => v.val.name) true [] [exportNode]
    = [tsvHeader, "1\t\\RT".toList, "2\t\\RT".toList, "3\tv".toList, "\nLogs\n-----------".toList] := by
  decide +kernel

example : writeTsv (fun k => k.path) (fun _ v => v.val.name) false [] [exportNode]
    = [tsvHeader, "1\t\\RT".toList, "2\t\\RT".toList, "3\tv".toList, "4\tw".toList,
      "\nLogs\n-----------".toList] := by
  decide +kernel

end Notatin
