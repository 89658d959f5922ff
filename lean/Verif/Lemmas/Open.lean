import Verif.Model.Open
import Verif.Props.Fields
/-
What opening a hive with recovery records, whatever is in the file: every key and value on the
lists of deleted items is marked as recovered, and every such key is filed under the path of its
parent.
-/
namespace Notatin
open Spec

/-- The deleted items are marked as such, and filed under the path of their parent. -/
def Filed (st : State) : Prop :=
  (∀ p ds, st.deletedKeys p = some ds → ∀ d ∈ ds, d.key.cellState ≠ .Allocated ∧ d.deletedKeys = [] ∧
    ∃ name, d.key.path = p ++ '\\' :: name) ∧
  ∀ p vs, st.deletedValues p = some vs → ∀ v ∈ vs, v.val.cellState ≠ .Allocated

theorem filed_empty : Filed {} := by
  constructor
  · intro p ds h; cases h
  · intro p ds h; cases h

theorem Filed.recorded {st : State} (h : Filed st) : RecordedDeleted st := by
  refine ⟨fun p ds hp d hd => ?_, h.2⟩
  obtain ⟨h1, h2, _⟩ := h.1 p ds hp d hd
  rw [allDel_iff]
  refine ⟨h1, fun e he => ?_⟩
  rw [h2] at he
  cases he

theorem mapAdd_mem {κ α : Type} [DecidableEq κ] {m : κ → Option (List α)} {k p : κ} {x : α} {l : List α}
    (h : mapAdd m k x p = some l) (y : α) (hy : y ∈ l) :
    (∃ l', m p = some l' ∧ y ∈ l') ∨ (p = k ∧ y = x) := by
  unfold mapAdd at h
  by_cases hp : p = k
  · rw [if_pos hp] at h
    cases hm : m k with
    | none =>
      rw [hm] at h; cases h
      exact .inr ⟨hp, List.mem_singleton.1 hy⟩
    | some vs =>
      rw [hm] at h; cases h
      rcases List.mem_append.1 hy with hy | hy
      · exact .inl ⟨vs, by rw [hp, hm], hy⟩
      · exact .inr ⟨hp, List.mem_singleton.1 hy⟩
  · rw [if_neg hp] at h
    exact .inl ⟨l, h, hy⟩

theorem Filed.addKey {st : State} (h : Filed st) (p : Str) (d : Node) (h1 : d.key.cellState ≠ .Allocated)
    (h2 : d.deletedKeys = []) (h3 : ∃ name, d.key.path = p ++ '\\' :: name) :
    Filed { st with deletedKeys := mapAdd st.deletedKeys p d } := by
  refine ⟨fun q ds hq e he => ?_, h.2⟩
  rcases mapAdd_mem hq e he with ⟨l, hl, hel⟩ | ⟨rfl, rfl⟩
  · exact h.1 q l hl e hel
  · exact ⟨h1, h2, h3⟩

theorem Filed.addValue {st : State} (h : Filed st) (p : Str) (v : Value) (h1 : v.val.cellState ≠ .Allocated) :
    Filed { st with deletedValues := mapAdd st.deletedValues p v } := by
  refine ⟨h.1, fun q vs hq w hw => ?_⟩
  rcases mapAdd_mem hq w hw with ⟨l, hl, hwl⟩ | ⟨_, rfl⟩
  · exact h.2 q l hl w hwl
  · exact h1

/-! ### The scan -/

/-- A step of the scan keeps what is recorded in order. -/
def KeepsFiled (f : Bytes → Nat → State → Option (Res State)) : Prop :=
  ∀ i s st st', Filed st → f i s st = some (.ok st') → Filed st'

theorem readCellKeyValue_filed (env : Env) {slack} (hs : KeepsFiled slack) (input : Bytes) (off : Nat)
    (cs : CellState) (hcs : cs ≠ .Allocated) (force : Bool) (st st' : State) (n : Nat) (h : Filed st)
    (hr : readCellKeyValue env slack input off cs force st = some (.ok (n, st'))) : Filed st' := by
  unfold readCellKeyValue at hr
  split at hr
  · cases hr
  · cases hr; exact h
  · unfold keepValue at hr
    split at hr
    · cases hr
    · cases hr
    · cases hr
    · rename_i st1 hst1
      have h1 := hs _ _ _ _ h hst1
      split at hr
      · cases hr; exact h1.addValue _ _ hcs
      · cases hr; exact h1

theorem readCellKeyNode_filed (env : Env) {slack} (hs : KeepsFiled slack) (input : Bytes) (off : Nat)
    (cs : CellState) (hcs : cs ≠ .Allocated) (force : Bool) (st st' : State) (n : Nat) (h : Filed st)
    (hr : readCellKeyNode env slack input off cs force st = some (.ok (n, st'))) : Filed st' := by
  unfold readCellKeyNode at hr
  rcases readFromSlice_deleted env st input off with ⟨k, r, vs, lg, hk, hs1, _⟩ | ⟨_, hs1⟩
  · unfold deletedAt at hs1
    rw [hs1] at hr
    simp only at hr
    obtain ⟨_, _, nm, _, hpath⟩ := fromBytes_fresh _ _ _ _ _ _ _ hk
    unfold keepKey at hr
    split at hr
    · cases hr
    · cases hr
    · cases hr
    · rename_i st1 hst1
      have h1 := hs _ _ _ _ (show Filed { st with rootOffset := st.rootOffset } from h) hst1
      split at hr
      · cases hr
        exact h1.addKey _ _ hcs rfl ⟨nm, hpath⟩
      · cases hr; exact h1
  · unfold deletedAt at hs1
    rw [hs1] at hr
    cases hr
    exact h

theorem slackLoop_filed (env : Env) {slack} (hs : KeepsFiled slack) (input : Bytes) (start : Nat) :
    ∀ (steps offset : Nat) (st st' : State), Filed st →
      slackLoop env slack input start steps offset st = some (.ok st') → Filed st' := by
  intro steps
  induction steps with
  | zero => intro offset st st' _ h; cases h
  | succ steps ih =>
    intro offset st st' hf h
    rw [slackLoop] at h
    split at h
    · split at h
      · cases h; exact hf
      · split at h
        · cases h
        · cases h
        · cases h
        · rename_i n st1 hc
          refine ih _ _ _ ?_ h
          unfold slackCell at hc
          split at hc
          · exact readCellKeyNode_filed env hs _ _ _ (by simp) _ _ _ _ hf hc
          · split at hc
            · exact readCellKeyValue_filed env hs _ _ _ (by simp) _ _ _ _ hf hc
            · cases hc; exact hf
    · cases h; exact hf

theorem findCellsInSlack_filed (env : Env) (steps : Nat) : ∀ depth, KeepsFiled (findCellsInSlack env steps depth) := by
  intro depth
  induction depth with
  | zero => intro i s st st' _ h; cases h
  | succ depth ih =>
    intro i s st st' hf h
    rw [findCellsInSlack] at h
    exact slackLoop_filed env ih _ _ _ _ _ _ hf h

theorem visitCell_filed (env : Env) (steps : Nat) (ct : CellType) (off size : Nat) (st st' : State)
    (hf : Filed st) (h : visitCell env steps ct off size st = some (.ok st')) : Filed st' := by
  have hs := findCellsInSlack_filed env steps env.depth
  unfold visitCell at h
  simp only at h
  split at h
  · split at h
    · cases h; exact hf
    · split at h
      · cases h
      · cases h
      · cases h
      · rename_i hc
        cases h
        exact readCellKeyValue_filed env hs _ _ _ (by simp) _ _ _ _ hf hc
  · split at h
    · cases h; exact hf
    · split at h
      · cases h
      · cases h
      · cases h
      · rename_i hc
        cases h
        exact readCellKeyNode_filed env hs _ _ _ (by simp) _ _ _ _ hf hc
  · split at h
    · cases h; exact hf
    · exact hs _ _ _ _ hf h

theorem binLoop_filed (env : Env) (hbinMax : Nat) : ∀ (steps : Nat) (input : Bytes) (off off' : Nat)
    (st st' : State), Filed st → binLoop env hbinMax steps input off st = some (.ok (off', st')) →
    Filed st' := by
  intro steps
  induction steps with
  | zero => intro input off off' st st' _ h; cases h
  | succ steps ih =>
    intro input off off' st st' hf h
    rw [binLoop] at h
    split at h
    · split at h
      · cases h
      · split at h
        · cases h; exact hf
        · split at h
          · cases h
          · cases h
          · cases h
          · rename_i st1 hv
            have h1 := visitCell_filed env _ _ _ _ _ _ hf hv
            split at h
            · cases h; exact h1
            · exact ih _ _ _ _ _ h1 h
    · cases h; exact hf

theorem scanBins_filed (env : Env) (size : Nat) : ∀ (steps off : Nat) (st st' : State), Filed st →
    scanBins env size steps off st = some (.ok st') → Filed st' := by
  intro steps
  induction steps with
  | zero => intro off st st' _ h; cases h
  | succ steps ih =>
    intro off st st' hf h
    rw [scanBins] at h
    split at h
    · split at h
      · cases h
      · cases h
      · cases h
      · rename_i off1 st1 hb
        refine ih _ _ _ ?_ h
        unfold scanBin at hb
        split at hb
        · cases hb
        · split at hb
          · cases hb
          · simp only at hb
            split at hb
            · cases hb
            · exact binLoop_filed env _ _ _ _ _ _ _ hf hb
    · cases h; exact hf

/-! ### The analysis of log entries -/

theorem readKey_priorPath (env : Env) (st : State) (path : Str) (off seq : Nat) (n : Node) (ro : Nat)
    (h : readKey env st (priorOptions path off seq) = .ok (some n, ro)) :
    n.deletedKeys = [] ∧ ∃ name, n.key.path = parentPath path ++ '\\' :: name := by
  unfold readKey at h
  split at h
  · cases h
  · unfold readFromSlice at h
    cases hk : KeyNode.fromBytes env.hashFn _ (priorOptions path off seq).offset
        (priorOptions path off seq).curPath (priorOptions path off seq).seq with
    | err => rw [hk] at h; cases h
    | panic => rw [hk] at h; cases h
    | ok x =>
      obtain ⟨k, r⟩ := x
      obtain ⟨_, _, nm, _, hpath⟩ := fromBytes_fresh _ _ _ _ _ _ _ hk
      rw [hk] at h
      simp only at h
      cases hf : filterStep st (priorOptions path off seq).filter k with
      | err => rw [hf] at h; cases h
      | panic => rw [hf] at h; cases h
      | ok x =>
        obtain ⟨flags, ro'⟩ := x
        rw [hf] at h
        simp only at h
        by_cases hno : flags = .noMatch
        · rw [if_pos hno] at h; cases h
        · rw [if_neg hno] at h
          obtain ⟨vs, lg, hv⟩ := valuesStep_ok env (priorOptions path off seq) flags k
          rw [hv] at h
          simp only at h
          have hfin : ∀ m, finishStep env st (priorOptions path off seq) flags
              { k with values := vs, logs := lg } = .ok m →
              m.deletedKeys = [] ∧ m.key.path = k.path := by
            intro m hm
            unfold finishStep priorOptions at hm
            simp only [Bool.false_eq_true, if_false] at hm
            split at hm <;> cases hm <;> exact ⟨rfl, rfl⟩
          split at h
          · cases h
          · cases h
          · rename_i m hm
            cases h
            obtain ⟨h1, h2⟩ := hfin _ hm
            exact ⟨h1, nm, by rw [h2, hpath]; rfl⟩

theorem addFullKey_filed (env : Env) (newSeq : Nat) (t : ListType) (path : Str) (off seq : Nat)
    (x y : State × Logs) (hf : Filed x.1) (h : addFullKey env newSeq t path off seq x = .ok y) :
    Filed y.1 := by
  unfold addFullKey at h
  split at h
  · cases h
  · cases h; exact hf
  · cases h; exact hf
  · rename_i n ro hr
    cases h
    obtain ⟨h1, nm, h2⟩ := readKey_priorPath _ _ _ _ _ _ _ hr
    unfold fileKey
    cases t with
    | updated => exact hf
    | deleted =>
      refine Filed.addKey (st := { x.1 with rootOffset := ro }) hf _ _ ?_ ?_ ⟨nm, ?_⟩
      · cases n; simp [keyRecord, Node.setKey, Node.key]
      · cases n; exact h1
      · cases n; exact h2

theorem addFullValue_filed (env : Env) (newSeq : Nat) (t : ListType) (path : Str) (off seq : Nat)
    (x y : State × Logs) (hf : Filed x.1) (h : addFullValue env newSeq t path off seq x = .ok y) :
    Filed y.1 := by
  unfold addFullValue at h
  split at h
  · cases h; exact hf
  · split at h
    · cases h
    · cases h; exact hf
    · cases h
      unfold fileValue
      cases t with
      | updated => exact hf
      | deleted =>
        refine Filed.addValue (st := x.1) hf _ _ ?_
        simp [valueRecord, Value.val]

theorem forEach_filed {α : Type} (f : α → State × Logs → Res (State × Logs))
    (hk : ∀ a x y, Filed x.1 → f a x = .ok y → Filed y.1) : ∀ (l : List α) (x y : State × Logs),
    Filed x.1 → forEach f l x = .ok y → Filed y.1 := by
  intro l
  induction l with
  | nil => intro x y hx h; cases h; exact hx
  | cons a as ih =>
    intro x y hx h
    rw [forEach] at h
    split at h
    · cases h
    · cases h
    · rename_i z hz
      exact ih _ _ (hk _ _ _ hx hz) h

theorem removeFirst_mem {α : Type} (p : α → Bool) : ∀ (l l' : List α), removeFirst p l = some l' →
    ∀ x ∈ l', x ∈ l := by
  intro l
  induction l with
  | nil => intro l' h; cases h
  | cons a as ih =>
    intro l' h x hx
    rw [removeFirst] at h
    split at h
    · cases h; exact List.mem_cons_of_mem _ hx
    · cases hr : removeFirst p as with
      | none => rw [hr] at h; cases h
      | some l2 =>
        rw [hr] at h
        cases h
        rcases List.mem_cons.1 hx with rfl | hx
        · exact List.mem_cons_self
        · exact List.mem_cons_of_mem _ (ih _ hr x hx)

theorem deletedValuesRemove_mem {m : Str → Option (List Value)} {path name : Str} {hash : Bytes} {p : Str}
    {vs : List Value} (h : deletedValuesRemove m path name hash p = some vs) (v : Value) (hv : v ∈ vs) :
    ∃ l, m p = some l ∧ v ∈ l := by
  unfold deletedValuesRemove at h
  cases hl : m path with
  | none => rw [hl] at h; exact ⟨vs, h, hv⟩
  | some l =>
    rw [hl] at h
    simp only at h
    cases hr : removeFirst (fun v => v.val.name == name && v.val.hash == some hash) l with
    | none => rw [hr] at h; exact ⟨vs, h, hv⟩
    | some l' =>
      rw [hr] at h
      simp only at h
      by_cases he : p = path
      · rw [if_pos he] at h
        split at h
        · cases h
        · cases h
          exact ⟨l, by rw [he, hl], removeFirst_mem _ _ _ hr v hv⟩
      · rw [if_neg he] at h
        exact ⟨vs, h, hv⟩

theorem deletedKeysRemove_mem {m : Str → Option (List Node)} {path : Str} {hash : Bytes} {p : Str}
    {ds : List Node} (h : deletedKeysRemove m path hash p = some ds) (d : Node) (hd : d ∈ ds) :
    ∃ l, m p = some l ∧ d ∈ l := by
  unfold deletedKeysRemove at h
  simp only at h
  cases hl : m (parentPath path) with
  | none => rw [hl] at h; exact ⟨ds, h, hd⟩
  | some l =>
    rw [hl] at h
    simp only at h
    cases hr : removeFirst (fun k => k.key.hash == some hash && k.key.path == path) l with
    | none => rw [hr] at h; exact ⟨ds, h, hd⟩
    | some l' =>
      rw [hr] at h
      simp only at h
      have hm : (if p = parentPath path then some l' else m p) = some ds → ∃ l, m p = some l ∧ d ∈ l := by
        intro h
        by_cases he : p = parentPath path
        · rw [if_pos he] at h
          cases h
          exact ⟨l, by rw [he, hl], removeFirst_mem _ _ _ hr d hd⟩
        · rw [if_neg he] at h
          exact ⟨ds, h, hd⟩
      by_cases hi : l'.isEmpty = true
      · rw [if_pos hi] at h
        by_cases he : p = path
        · rw [if_pos he] at h; cases h
        · rw [if_neg he] at h; exact hm h
      · rw [if_neg hi] at h
        exact hm h

theorem takeOff_filed (st : State) (x : ItemKey × Item) (hf : Filed st) : Filed (takeOff st x) := by
  unfold takeOff
  split
  · refine ⟨hf.1, fun p vs hp v hv => ?_⟩
    obtain ⟨l, hl, hvl⟩ := deletedValuesRemove_mem hp v hv
    exact hf.2 p l hl v hvl
  · refine ⟨fun p ds hp d hd => ?_, hf.2⟩
    obtain ⟨l, hl, hdl⟩ := deletedKeysRemove_mem hp d hd
    exact hf.1 p l hl d hdl

theorem foldl_takeOff_filed (l : List (ItemKey × Item)) : ∀ st, Filed st → Filed (l.foldl takeOff st) := by
  induction l with
  | nil => intro st h; exact h
  | cons a as ih => intro st h; exact ih _ (takeOff_filed st a h)

theorem analyzeEntry_filed (prior env : Env) (order : RegItemMap → RegItemMap) (steps newSeq : Nat)
    (x y : State × RegItemMap) (hf : Filed x.1)
    (h : analyzeEntry prior env order steps newSeq x = some (.ok y)) : Filed y.1 := by
  unfold analyzeEntry at h
  split at h
  · cases h
  · cases h
  · cases h; exact hf
  · rename_i st items logs hg
    cases h
    unfold getLatestRegItems at hg
    split at hg
    · cases hg
    · cases hg
    · simp only at hg
      split at hg
      · cases hg
      · cases hg
      · cases hg
      · simp only [Option.some.injEq] at hg
        unfold analyzeSeen at hg
        split at hg
        · cases hg
        · cases hg
        · split at hg
          · cases hg
          · cases hg
          · rename_i x1 h1
            have f1 := forEach_filed _ (fun a x y hx h => addFullKey_filed _ _ _ _ _ _ x y hx h) _ _ _
              (show Filed _ from hf) h1
            split at hg
            · cases hg
            · cases hg
            · rename_i x2 h2
              have f2 := forEach_filed _ (fun a x y hx h => addFullValue_filed _ _ _ _ _ _ x y hx h) _ _ _ f1 h2
              split at hg
              · cases hg
              · cases hg
              · rename_i x3 h3
                have f3 := forEach_filed (addDeleted prior newSeq) (fun a x y hx h => by
                  unfold addDeleted at h
                  split at h
                  · exact addFullValue_filed _ _ _ _ _ _ x y hx h
                  · exact addFullKey_filed _ _ _ _ _ _ x y hx h) _ _ _ f2 h3
                cases hg
                exact foldl_takeOff_filed _ _ f3

/-! ### Opening with and without recovery -/

/-- The same file with another recovery state. -/
def Hive.put {σ τ : Type} (h : Hive σ) (s : τ) : Hive τ :=
  { buffer := h.buffer, hbinOffset := h.hbinOffset, baseBlock := h.baseBlock, info := h.info, recovery := s }

/-- The same replay with another recovery state. -/
def ReplayState.put {σ τ : Type} (x : ReplayState σ) (s : τ) : ReplayState τ :=
  { newSeq := x.newSeq, buffer := x.buffer, info := x.info, recovery := s }

/-- A function on what was computed. -/
def mapOk {α β : Type} (f : α → β) : Res α → Res β
  | .ok a => .ok (f a)
  | .err => .err
  | .panic => .panic

/-- No analysis. -/
abbrev noAnalysis {τ : Type} : Bytes → Nat → Bytes → τ → τ := fun _ _ _ s => s

theorem updateEntries_put {σ τ : Type} (A : Bytes → Nat → Bytes → σ → σ) (s : τ) (off sec bins : Nat) :
    ∀ (es : List LogEntry) (x : ReplayState σ),
      updateEntries noAnalysis off sec bins es (x.put s) =
        mapOk (fun y => y.put s) (updateEntries A off sec bins es x) := by
  intro es
  induction es with
  | nil => intro x; rfl
  | cons e es ih =>
    intro x
    rw [updateEntries, updateEntries]
    by_cases h1 : e.hasValidHashes = true
    · rw [if_pos h1, if_pos h1]
      by_cases h2 : e.seq < sec
      · rw [if_pos h2, if_pos h2, ← ih]; rfl
      · rw [if_neg h2, if_neg h2]
        by_cases h3 : e.hiveBinsDataSize % 4096 ≠ 0
        · rw [if_pos h3, if_pos h3]; rfl
        · rw [if_neg h3, if_neg h3]
          show (if x.newSeq ≠ 0 ∧ x.newSeq + 1 ≥ 4294967296 then _ else _) = _
          by_cases h4 : x.newSeq ≠ 0 ∧ x.newSeq + 1 ≥ 4294967296
          · rw [if_pos h4, if_pos h4]; rfl
          · rw [if_neg h4, if_neg h4]
            show (if x.newSeq ≠ 0 ∧ e.seq ≠ x.newSeq + 1 then _ else _) = _
            by_cases h5 : x.newSeq ≠ 0 ∧ e.seq ≠ x.newSeq + 1
            · rw [if_pos h5, if_pos h5]; rfl
            · rw [if_neg h5, if_neg h5]
              show (match applyEntry off bins e x.buffer with
                | .ok buf => _
                | .err => _
                | .panic => _) = _
              cases applyEntry off bins e x.buffer with
              | err => rfl
              | panic => rfl
              | ok buf =>
                simp only
                rw [← ih]; rfl
    · rw [if_neg h1, if_neg h1]; rfl

theorem updateEntries_inv {σ : Type} (A : Bytes → Nat → Bytes → σ → σ) (P : σ → Prop)
    (hA : ∀ a n b s, P s → P (A a n b s)) (off sec bins : Nat) :
    ∀ (es : List LogEntry) (x y : ReplayState σ), P x.recovery →
      updateEntries A off sec bins es x = .ok y → P y.recovery := by
  intro es
  induction es with
  | nil => intro x y hx h; cases h; exact hx
  | cons e es ih =>
    intro x y hx h
    rw [updateEntries] at h
    split at h
    · split at h
      · exact ih _ _ (by exact hx) h
      · split at h
        · cases h; exact hx
        · split at h
          · cases h
          · split at h
            · cases h; exact hx
            · split at h
              · exact ih _ _ (hA _ _ _ _ hx) h
              · cases h
              · cases h
    · cases h; exact hx

theorem updateParser_put {σ τ : Type} (A : Bytes → Nat → Bytes → σ → σ) (s : τ) (h : Hive σ)
    (log : TransactionLog) :
    updateParser noAnalysis (h.put s) log = mapOk (fun y => (y.1, y.2.put s)) (updateParser A h log) := by
  unfold updateParser
  have := updateEntries_put A s h.hbinOffset h.baseBlock.base.secondarySeq
    h.baseBlock.base.hiveBinsDataSize log.entries
    { newSeq := 0, buffer := h.buffer, info := h.info, recovery := h.recovery }
  have e : ({ newSeq := 0, buffer := h.buffer, info := h.info, recovery := s } : ReplayState τ) =
    ReplayState.put { newSeq := 0, buffer := h.buffer, info := h.info, recovery := h.recovery } s := rfl
  show (match updateEntries noAnalysis h.hbinOffset h.baseBlock.base.secondarySeq
    h.baseBlock.base.hiveBinsDataSize log.entries
      ({ newSeq := 0, buffer := h.buffer, info := h.info, recovery := s } : ReplayState τ) with
    | .ok st => _
    | .err => _
    | .panic => _) = _
  rw [e, this]
  cases updateEntries A h.hbinOffset h.baseBlock.base.secondarySeq
    h.baseBlock.base.hiveBinsDataSize log.entries
    { newSeq := 0, buffer := h.buffer, info := h.info, recovery := h.recovery } <;> rfl

theorem applyLogs_put {σ τ : Type} (A : Bytes → Nat → Bytes → σ → σ) (s : τ) (sec : Nat) :
    ∀ (logs : List TransactionLog) (n : Nat) (h : Hive σ),
      applyLogs noAnalysis sec logs n (h.put s) =
        mapOk (fun y => (y.1, y.2.put s)) (applyLogs A sec logs n h) := by
  intro logs
  induction logs with
  | nil => intro n h; rfl
  | cons l logs ih =>
    intro n h
    rw [applyLogs, applyLogs]
    by_cases h1 : l.base.primarySeq ≥ sec
    · rw [if_pos h1, if_pos h1]
      by_cases h2 : n ≠ 0 ∧ n + 1 ≥ 4294967296
      · rw [if_pos h2, if_pos h2]; rfl
      · rw [if_neg h2, if_neg h2]
        by_cases h3 : n = 0 ∨ l.base.primarySeq = n + 1
        · rw [if_pos h3, if_pos h3, updateParser_put A]
          cases updateParser A h l with
          | err => rfl
          | panic => rfl
          | ok x => exact ih _ _
        · rw [if_neg h3, if_neg h3, ← ih]; rfl
    · rw [if_neg h1, if_neg h1, ← ih]; rfl

theorem applyLogs_inv {σ : Type} (A : Bytes → Nat → Bytes → σ → σ) (P : σ → Prop)
    (hA : ∀ a n b s, P s → P (A a n b s)) (sec : Nat) :
    ∀ (logs : List TransactionLog) (n : Nat) (h : Hive σ) (y : Nat × Hive σ), P h.recovery →
      applyLogs A sec logs n h = .ok y → P y.2.recovery := by
  intro logs
  induction logs with
  | nil => intro n h y hx he; cases he; exact hx
  | cons l logs ih =>
    intro n h y hx he
    rw [applyLogs] at he
    split at he
    · split at he
      · cases he
      · split at he
        · split at he
          · rename_i n1 h1 hu
            refine ih _ _ _ ?_ he
            unfold updateParser at hu
            split at hu
            · rename_i x hx2
              cases hu
              exact updateEntries_inv A P hA _ _ _ _ _ _ (by exact hx) hx2
            · cases hu
            · cases hu
          · cases he
          · cases he
        · exact ih _ _ _ (by exact hx) he
    · exact ih _ _ _ (by exact hx) he

theorem reinit_put {σ τ : Type} (h : Hive σ) (s : τ) :
    (h.put s).reinit = mapOk (fun y => y.put s) h.reinit := by
  unfold Hive.reinit
  show (initBaseBlock h.buffer h.info >>= _) = _
  cases initBaseBlock h.buffer h.info <;> rfl

theorem reinit_recovery {σ : Type} {h h' : Hive σ} (he : h.reinit = .ok h') : h'.recovery = h.recovery := by
  unfold Hive.reinit at he
  cases hi : initBaseBlock h.buffer h.info with
  | err => rw [hi] at he; cases he
  | panic => rw [hi] at he; cases he
  | ok x => rw [hi] at he; cases he; rfl

theorem updateHeader_put {σ τ : Type} (h : Hive σ) (s : τ) (n : Nat) :
    updateHeader (h.put s) n = mapOk (fun y => y.put s) (updateHeader h n) := by
  unfold updateHeader
  show (rewriteHeader h.buffer n >>= _) = _
  cases rewriteHeader h.buffer n with
  | err => rfl
  | panic => rfl
  | ok buf =>
    simp only [Res.bind_ok]
    have := reinit_put { h with buffer := buf } s
    show ((Hive.put { h with buffer := buf } s).reinit >>= _) = _
    rw [this]
    cases Hive.reinit { h with buffer := buf } <;> rfl

theorem updateHeader_recovery {σ : Type} {h h' : Hive σ} {n : Nat} (he : updateHeader h n = .ok h') :
    h'.recovery = h.recovery := by
  unfold updateHeader at he
  cases hr : rewriteHeader h.buffer n with
  | err => rw [hr] at he; cases he
  | panic => rw [hr] at he; cases he
  | ok buf =>
    rw [hr] at he
    simp only [Res.bind_ok] at he
    cases hi : Hive.reinit { h with buffer := buf } with
    | err => rw [hi] at he; cases he
    | panic => rw [hi] at he; cases he
    | ok x =>
      rw [hi] at he
      cases he
      have := reinit_recovery hi
      exact this

theorem handleBadChecksum_put {σ τ : Type} (h : Hive σ) (s : τ) (logs : List TransactionLog) :
    handleBadChecksum (h.put s) logs = mapOk (fun y => (y.1.put s, y.2)) (handleBadChecksum h logs) := by
  unfold handleBadChecksum
  simp only
  cases logs.getLast? with
  | none => rfl
  | some newest =>
    simp only
    show (match getRange h.buffer 0 512 with
      | none => _
      | some _ => _) = _
    cases getRange h.buffer 0 512 with
    | none => rfl
    | some r =>
      simp only
      by_cases hl : newest.baseBlockBytes.length ≠ 512
      · rw [if_pos hl, if_pos hl]; rfl
      · rw [if_neg hl, if_neg hl]
        have := reinit_put { h with buffer := newest.baseBlockBytes ++ h.buffer.drop 512,
                                    info := h.info.add .WarningBaseBlock } s
        show (match (Hive.put { h with buffer := newest.baseBlockBytes ++ h.buffer.drop 512,
                                       info := h.info.add .WarningBaseBlock } s).reinit with
          | .ok h => _
          | .err => _
          | .panic => _) = _
        rw [this]
        cases Hive.reinit { h with buffer := newest.baseBlockBytes ++ h.buffer.drop 512,
                                   info := h.info.add .WarningBaseBlock } <;> rfl

theorem handleBadChecksum_recovery {σ : Type} {h : Hive σ} {logs : List TransactionLog}
    {y : Hive σ × List TransactionLog} (he : handleBadChecksum h logs = .ok y) :
    y.1.recovery = h.recovery := by
  unfold handleBadChecksum at he
  simp only at he
  split at he
  · cases he
  · split at he
    · cases he
    · split at he
      · cases he
      · split at he
        · rename_i hi
          cases he
          have := reinit_recovery hi
          exact this
        · cases he
        · cases he

theorem prepareLogs_eq {σ : Type} (h : Hive σ) (bad : Bool) (logs : List TransactionLog) :
    prepareLogs h bad logs =
      (if bad then handleBadChecksum h logs else .ok (h, logs)) >>= fun x =>
        if x.1.baseBlock.base.primarySeq = x.1.baseBlock.base.secondarySeq then
          .ok (false, { x.1 with info := x.1.info.add .WarningTransactionLog }, x.2)
        else .ok (true, x.1, x.2) := by
  unfold prepareLogs
  cases bad <;> rfl

theorem prepareLogs_put {σ τ : Type} (h : Hive σ) (s : τ) (bad : Bool) (logs : List TransactionLog) :
    prepareLogs (h.put s) bad logs =
      mapOk (fun y => (y.1, y.2.1.put s, y.2.2)) (prepareLogs h bad logs) := by
  rw [prepareLogs_eq, prepareLogs_eq]
  have key : (if bad then handleBadChecksum (h.put s) logs else .ok (h.put s, logs)) =
      mapOk (fun y => (y.1.put s, y.2)) (if bad then handleBadChecksum h logs else .ok (h, logs)) := by
    cases bad with
    | true => exact handleBadChecksum_put h s logs
    | false => rfl
  rw [key]
  cases (if bad then handleBadChecksum h logs else .ok (h, logs)) with
  | err => rfl
  | panic => rfl
  | ok x =>
    obtain ⟨g, ls⟩ := x
    simp only [mapOk, Res.bind_ok]
    show (if g.baseBlock.base.primarySeq = g.baseBlock.base.secondarySeq then _ else _) = _
    by_cases hq : g.baseBlock.base.primarySeq = g.baseBlock.base.secondarySeq
    · rw [if_pos hq, if_pos hq]; rfl
    · rw [if_neg hq, if_neg hq]

theorem prepareLogs_recovery {σ : Type} {h : Hive σ} {bad : Bool} {logs : List TransactionLog}
    {y : Bool × Hive σ × List TransactionLog} (he : prepareLogs h bad logs = .ok y) :
    y.2.1.recovery = h.recovery := by
  rw [prepareLogs_eq] at he
  have key : ∀ x : Hive σ × List TransactionLog,
      (if bad then handleBadChecksum h logs else .ok (h, logs)) = .ok x → x.1.recovery = h.recovery := by
    intro x hx
    cases bad with
    | true => exact handleBadChecksum_recovery hx
    | false => cases hx; rfl
  cases hx : (if bad then handleBadChecksum h logs else .ok (h, logs)) with
  | err => rw [hx] at he; cases he
  | panic => rw [hx] at he; cases he
  | ok x =>
    have := key x hx
    obtain ⟨g, ls⟩ := x
    rw [hx] at he
    simp only [Res.bind_ok] at he
    split at he
    · cases he; exact this
    · cases he; exact this

/-- What opening does to the file and the header does not depend on the recovery. -/
theorem openHive_put {σ τ : Type} (A : Bytes → Nat → Bytes → σ → σ) (I : Bytes → σ → Res σ)
    (S : Bytes → BaseBlock → σ → Res σ) (buf : Bytes) (s0 : σ) (t0 : τ) (logs : List TransactionLog)
    (sup : Bool) (h : Hive σ) (he : openHive A I S buf s0 logs = .ok (sup, h)) :
    openHive noAnalysis (fun _ s => .ok s) (fun _ _ s => .ok s) buf t0 logs = .ok (sup, h.put t0) := by
  unfold openHive at he ⊢
  cases hi : initBaseBlock buf {} with
  | err => rw [hi] at he; cases he
  | panic => rw [hi] at he; cases he
  | ok x =>
    obtain ⟨bb, off, supported, bad, info⟩ := x
    rw [hi] at he
    simp only [Res.bind_ok] at he ⊢
    cases supported with
    | false => cases he; rfl
    | true =>
      simp only [if_true] at he ⊢
      cases hs : S buf bb s0 with
      | err => rw [hs] at he; cases he
      | panic => rw [hs] at he; cases he
      | ok s =>
        rw [hs] at he
        simp only [Res.bind_ok] at he
        generalize hh0 : (Hive.mk buf off bb info s : Hive σ) = h0 at he
        have e0 : (Hive.mk buf off bb info t0 : Hive τ) = h0.put t0 := by rw [← hh0]; rfl
        rw [e0]
        suffices hap : ∀ h', applyTransactionLogs A I h0 bad logs = .ok h' →
            applyTransactionLogs noAnalysis (fun _ s => .ok s) (h0.put t0) bad logs = .ok (h'.put t0) by
          cases ha : applyTransactionLogs A I h0 bad logs with
          | err => rw [ha] at he; cases he
          | panic => rw [ha] at he; cases he
          | ok h' =>
            rw [ha] at he
            cases he
            rw [hap _ ha]
            rfl
        intro h' ha
        unfold applyTransactionLogs at ha ⊢
        by_cases hl : logs.isEmpty = true
        · rw [if_pos hl] at ha ⊢
          cases ha; rfl
        · rw [if_neg hl] at ha ⊢
          rw [prepareLogs_put]
          cases hp : prepareLogs h0 bad logs with
          | err => rw [hp] at ha; cases ha
          | panic => rw [hp] at ha; cases ha
          | ok y =>
            obtain ⟨go, g, ls⟩ := y
            rw [hp] at ha
            cases go with
            | false => cases ha; rfl
            | true =>
              simp only [mapOk] at ha ⊢
              cases hI : I g.buffer g.recovery with
              | err => rw [hI] at ha; cases ha
              | panic => rw [hI] at ha; cases ha
              | ok s2 =>
                rw [hI] at ha
                simp only at ha
                have e1 : (g.put t0) = Hive.put { g with recovery := s2 } t0 := rfl
                show (match applyLogs noAnalysis g.baseBlock.base.secondarySeq ls 0 (g.put t0) with
                  | .ok (newSeq, h) => updateHeader h newSeq
                  | .err => .err
                  | .panic => .panic) = _
                rw [e1, applyLogs_put A]
                cases hal : applyLogs A g.baseBlock.base.secondarySeq ls 0 { g with recovery := s2 } with
                | err => rw [hal] at ha; cases ha
                | panic => rw [hal] at ha; cases ha
                | ok z =>
                  rw [hal] at ha
                  simp only [mapOk] at ha ⊢
                  rw [updateHeader_put, ha]
                  rfl

/-- What holds of the recovery at first and is kept by its steps holds of it in the end. -/
theorem openHive_inv {σ : Type} (A : Bytes → Nat → Bytes → σ → σ) (I : Bytes → σ → Res σ)
    (S : Bytes → BaseBlock → σ → Res σ) (P : σ → Prop) (hA : ∀ a n b s, P s → P (A a n b s))
    (hI : ∀ b s s', P s → I b s = .ok s' → P s') (hS : ∀ b bb s s', P s → S b bb s = .ok s' → P s')
    (buf : Bytes) (s0 : σ) (logs : List TransactionLog) (sup : Bool) (h : Hive σ) (h0 : P s0)
    (he : openHive A I S buf s0 logs = .ok (sup, h)) : P h.recovery := by
  unfold openHive at he
  cases hi : initBaseBlock buf {} with
  | err => rw [hi] at he; cases he
  | panic => rw [hi] at he; cases he
  | ok x =>
    obtain ⟨bb, off, supported, bad, info⟩ := x
    rw [hi] at he
    simp only [Res.bind_ok] at he
    cases supported with
    | false => cases he; exact h0
    | true =>
      simp only [if_true] at he
      cases hs : S buf bb s0 with
      | err => rw [hs] at he; cases he
      | panic => rw [hs] at he; cases he
      | ok s =>
        have h1 := hS _ _ _ _ h0 hs
        rw [hs] at he
        simp only [Res.bind_ok] at he
        generalize hh0 : (Hive.mk buf off bb info s : Hive σ) = g0 at he
        have h1 : P g0.recovery := by rw [← hh0]; exact h1
        suffices hap : ∀ h', applyTransactionLogs A I g0 bad logs = .ok h' → P h'.recovery by
          cases ha : applyTransactionLogs A I g0 bad logs with
          | err => rw [ha] at he; cases he
          | panic => rw [ha] at he; cases he
          | ok h' => rw [ha] at he; cases he; exact hap _ ha
        intro h' ha
        unfold applyTransactionLogs at ha
        split at ha
        · cases ha; exact h1
        · split at ha
          · cases ha
          · cases ha
          · rename_i hp
            cases ha
            have := prepareLogs_recovery hp
            rw [this]; exact h1
          · rename_i g ls hp
            have hg := prepareLogs_recovery hp
            split at ha
            · cases ha
            · cases ha
            · rename_i s2 hI2
              have h2 := hI _ _ _ (by rw [hg]; exact h1) hI2
              split at ha
              · rename_i hal
                have h3 := applyLogs_inv A P hA _ _ _ _ _ (by exact h2) hal
                rw [updateHeader_recovery ha]
                exact h3
              · cases ha
              · cases ha

theorem analyze_false (w : World) : w.analyze false = noAnalysis := by
  funext a n b s
  unfold World.analyze
  split <;> rfl

theorem initItems_false (w : World) : w.initItems false = fun _ s => .ok s := by
  funext b s
  unfold World.initItems
  split <;> rfl

theorem scan_false (w : World) : w.scan false = fun _ _ s => .ok s := by
  funext b bb s
  unfold World.scan
  split <;> rfl

/-- What is recorded, if anything, is in order. -/
def FiledR (r : Recovery) : Prop := ∀ x, r = some (.ok x) → Filed x.1

theorem open_filed (w : World) (recover : Bool) (buf : Bytes) (logs : List TransactionLog) (sup : Bool)
    (h : Hive Recovery)
    (he : openHive (w.analyze recover) (w.initItems recover) (w.scan recover) buf (some (.ok ({}, []))) logs
      = .ok (sup, h)) : FiledR h.recovery := by
  refine openHive_inv _ _ _ FiledR ?_ ?_ ?_ _ _ _ _ _ ?_ he
  · intro a n b s hs x hx
    unfold World.analyze at hx
    split at hx
    · rename_i y
      split at hx
      · exact analyzeEntry_filed _ _ _ _ _ _ _ (hs _ rfl) hx
      · cases hx; exact hs _ rfl
    · exact hs x hx
  · intro b s s' hs hi x hx
    unfold World.initItems at hi
    split at hi
    · rename_i y
      split at hi
      · split at hi
        · cases hi; cases hx
        · cases hi
        · cases hi
        · rename_i items st hg
          cases hi
          cases hx
          unfold getRegItems at hg
          split at hg
          · cases hg
          · cases hg
          · simp only at hg
            split at hg
            · cases hg
            · cases hg
            · cases hg
            · split at hg
              · cases hg
                exact hs y rfl
              · cases hg
              · cases hg
      · cases hi; exact hs x hx
    · cases hi; exact hs x hx
  · intro b bb s s' hs hi x hx
    unfold World.scan at hi
    split at hi
    · rename_i y
      split at hi
      · split at hi
        · cases hi; cases hx
        · cases hi
        · cases hi
        · rename_i st hg
          cases hi
          cases hx
          exact scanBins_filed _ _ _ _ _ _ (hs y rfl) hg
      · cases hi; exact hs x hx
    · cases hi; exact hs x hx
  · intro x hx; cases hx; exact filed_empty

end Notatin
