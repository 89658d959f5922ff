import Verif.Lemmas.Open
/-
More room on the stack and more time never change an answer: each function that recurses without a bound gives, with more of
both, what it gave before, unless it crashed or had not ended.
-/
namespace Notatin

/-- The first answer is a crash or the same as the second. -/
def Res.Le {α : Type} (a b : Res α) : Prop := a = .panic ∨ a = b

/-- The first run has not ended, has crashed, or gave the same as the second. -/
def RunLe {α : Type} (a b : Option (Res α)) : Prop := a = none ∨ a = some .panic ∨ a = b

theorem Res.Le.rfl' {α : Type} (a : Res α) : a.Le a := .inr rfl
theorem RunLe.refl {α : Type} (a : Option (Res α)) : RunLe a a := .inr (.inr rfl)

theorem Res.Le.run {α : Type} {a b : Res α} (h : a.Le b) : RunLe (some a) (some b) := by
  rcases h with rfl | rfl
  · exact .inr (.inl rfl)
  · exact .inr (.inr rfl)

theorem RunLe.ok {α : Type} {a b : Option (Res α)} (h : RunLe a b) {x : α} (he : a = some (.ok x)) : b = some (.ok x) := by
  rcases h with h | h | h
  · rw [h] at he; cases he
  · rw [h] at he; cases he
  · rw [← h, he]

/-- The same file with room for `d` nested calls. -/
def Env.deep (env : Env) (d : Nat) : Env := { env with depth := d }

/-! ### Sub-key lists -/

theorem riLoop_le {f g : Nat → Res (List Nat)} (h : ∀ x, (f x).Le (g x)) (xs : List Nat) :
    (riLoop f xs).Le (riLoop g xs) := by
  induction xs with
  | nil => exact .inr rfl
  | cons x xs ih =>
    rw [riLoop, riLoop]
    rcases h x with hx | hx
    · left; simp only [hx]
    · rw [hx]
      cases g x with
      | panic => exact .inl rfl
      | err => exact .inr rfl
      | ok ys =>
        simp only
        rcases ih with h1 | h1
        · left; simp only [h1]
        · rw [h1]; exact .inr rfl

theorem parseSubKeyList_le (fi : FileInfo) {d d' : Nat} (hd : d ≤ d') (off : Nat) :
    (parseSubKeyList fi d off).Le (parseSubKeyList fi d' off) := by
  induction d generalizing d' off with
  | zero => exact .inl rfl
  | succ d ih =>
    obtain ⟨e, rfl⟩ : ∃ e, d' = e + 1 := ⟨d' - 1, by omega⟩
    rw [parseSubKeyList, parseSubKeyList]
    split
    · exact .inr rfl
    · split
      · exact riLoop_le (fun x => ih (by omega) x) _
      · exact .inr rfl

/-! ### Reading keys -/

theorem attachLoop_le {f g : Node → Res Node} (h : ∀ x, (f x).Le (g x)) (o : Nat) (ds : List Node) :
    (updateModifiedLists.attachLoop f o ds).Le (updateModifiedLists.attachLoop g o ds) := by
  induction ds with
  | nil => exact .inr rfl
  | cons x xs ih =>
    rw [updateModifiedLists.attachLoop, updateModifiedLists.attachLoop]
    have hx : (if x.key.fileOffset ≠ o then f x else .ok x).Le (if x.key.fileOffset ≠ o then g x else .ok x) := by
      split
      · exact h x
      · exact .inr rfl
    rcases hx with hx | hx
    · left; rw [hx]
    · rw [hx]
      cases (if x.key.fileOffset ≠ o then g x else .ok x) with
      | panic => exact .inl rfl
      | err => exact .inr rfl
      | ok ys =>
        simp only
        rcases ih with h1 | h1
        · left; simp only [h1]
        · rw [h1]; exact .inr rfl

theorem updateModifiedLists_le (st : State) {d d' : Nat} (hd : d ≤ d') (n : Node) :
    (updateModifiedLists st d n).Le (updateModifiedLists st d' n) := by
  induction d generalizing d' n with
  | zero => exact .inl rfl
  | succ d ih =>
    obtain ⟨e, rfl⟩ : ∃ e, d' = e + 1 := ⟨d' - 1, by omega⟩
    rw [updateModifiedLists, updateModifiedLists]
    simp only
    split
    · exact .inr rfl
    · have h1 : ∀ old x, (updateModifiedLists.attachDeleted (updateModifiedLists st d) n.key.fileOffset old x).Le
          (updateModifiedLists.attachDeleted (updateModifiedLists st e) n.key.fileOffset old x) := by
        intro old x
        cases x with
        | none => exact .inr rfl
        | some ds => exact attachLoop_le (fun x => ih (by omega) x) _ ds
      rcases h1 n.deletedKeys (st.deletedKeys (if n.key.isKeyRoot = true then [] else n.key.path)) with h1 | h1
      · left; rw [h1]
      · rw [h1]; exact .inr rfl

theorem readValuesLoop_deep (env : Env) (d : Nat) (seq : Option Nat) (vs : List Nat) :
    ∀ acc logs, readValuesLoop (env.deep d) seq vs acc logs = readValuesLoop env seq vs acc logs := by
  induction vs with
  | nil => intro acc logs; rfl
  | cons v vs ih =>
    intro acc logs
    rw [readValuesLoop, readValuesLoop]
    simp only [ih]
    rfl

theorem valuesStep_deep (env : Env) (d : Nat) (o : ReadOptions) (flags : FilterFlags) (k : KeyNode) :
    valuesStep (env.deep d) o flags k = valuesStep env o flags k := by
  unfold valuesStep KeyNode.readValues
  simp only [readValuesLoop_deep]
  rfl

theorem finishStep_le (env : Env) {d : Nat} (hd : env.depth ≤ d) (st : State) (o : ReadOptions) (flags : FilterFlags)
    (k : KeyNode) : (finishStep env st o flags k).Le (finishStep (env.deep d) st o flags k) := by
  unfold finishStep
  simp only
  split
  · exact updateModifiedLists_le st hd _
  · exact .inr rfl

theorem readFromSlice_le (env : Env) {d : Nat} (hd : env.depth ≤ d) (st : State) (slice : Bytes) (o : ReadOptions) :
    (readFromSlice env st slice o).Le (readFromSlice (env.deep d) st slice o) := by
  unfold readFromSlice
  show Res.Le _ (match KeyNode.fromBytes env.hashFn slice o.offset o.curPath o.seq with
    | .err => _
    | .panic => _
    | .ok (k, _) => _)
  cases KeyNode.fromBytes env.hashFn slice o.offset o.curPath o.seq with
  | err => exact .inr rfl
  | panic => exact .inl rfl
  | ok x =>
    simp only
    cases filterStep st o.filter x.1 with
    | err => exact .inr rfl
    | panic => exact .inl rfl
    | ok y =>
      simp only
      split
      · exact .inr rfl
      · rw [valuesStep_deep]
        cases valuesStep env o y.1 x.1 with
        | err => exact .inr rfl
        | panic => exact .inl rfl
        | ok k =>
          simp only
          rcases finishStep_le env hd st o y.1 k with h | h
          · left; rw [h]
          · rw [h]; exact .inr rfl

theorem readKey_le (env : Env) {d : Nat} (hd : env.depth ≤ d) (st : State) (o : ReadOptions) :
    (readKey env st o).Le (readKey (env.deep d) st o) := by
  unfold readKey
  show Res.Le _ (match getFrom env.fi.buffer o.offset with
    | none => _
    | some slice => _)
  cases getFrom env.fi.buffer o.offset with
  | none => exact .inr rfl
  | some slice => exact readFromSlice_le env hd st slice o

theorem readSubKeysLoop_le (env : Env) {d : Nat} (hd : env.depth ≤ d) (st : State) (path : Str) (filter : Filter)
    (sub : Option Filter) (sm : Bool) (seq : Option Nat) (gm : Bool) (offs : List Nat) :
    ∀ ro logs, (readSubKeysLoop env st path filter sub sm seq gm offs ro logs).Le
      (readSubKeysLoop (env.deep d) st path filter sub sm seq gm offs ro logs) := by
  induction offs with
  | nil => intro ro logs; exact .inr rfl
  | cons off offs ih =>
    intro ro logs
    rw [readSubKeysLoop, readSubKeysLoop]
    rcases readKey_le env hd { st with rootOffset := ro }
        { offset := off, curPath := path, filter := sub, selfMatch := sm, seq, getModified := gm } with h | h
    · left; rw [h]
    · rw [h]
      rcases readKey (env.deep d) { st with rootOffset := ro }
          { offset := off, curPath := path, filter := sub, selfMatch := sm, seq, getModified := gm } with ⟨⟨_ | n, ro'⟩⟩ | _ | _
      · exact ih _ _
      · simp only
        rcases ih ro' logs with h1 | h1
        · left; rw [h1]
        · rw [h1]; exact .inr rfl
      · exact ih _ _
      · exact .inl rfl

theorem readSubKeysInternal_le (env : Env) {d : Nat} (hd : env.depth ≤ d) (st : State) (self : Node) (filter : Filter)
    (seq : Option Nat) (gm : Bool) :
    (readSubKeysInternal env st self filter seq gm).Le (readSubKeysInternal (env.deep d) st self filter seq gm) := by
  unfold readSubKeysInternal
  simp only
  split
  · split
    · exact .inr rfl
    · split
      · rcases parseSubKeyList_le env.fi hd self.key.subKeysListOffset with h | h
        · left; rw [h]
        · rw [h]
          show Res.Le _ (match parseSubKeyList env.fi d self.key.subKeysListOffset with
            | .panic => _
            | .err => _
            | .ok offsets => _)
          cases parseSubKeyList env.fi d self.key.subKeysListOffset with
          | panic => exact .inl rfl
          | err => exact .inr rfl
          | ok offsets =>
            simp only
            rcases readSubKeysLoop_le env hd st self.key.path filter
              (if (self.key.isFilterMatchOrDescendent && filter.returnSubKeys) = true then none else some filter)
              self.key.isFilterMatchOrDescendent seq gm offsets st.rootOffset self.key.logs with h1 | h1
            · left; rw [h1]
            · rw [h1]; exact .inr rfl
      · exact .inr rfl
  · exact .inr rfl

/-! ### Lookups -/

theorem goKids_le {f g : Nat → Node → Res (Option Node × Nat)} (h : ∀ r x, (f r x).Le (g r x)) (cs : List Node) :
    ∀ ro, (getSubKeyInternal.goKids f ro cs).Le (getSubKeyInternal.goKids g ro cs) := by
  induction cs with
  | nil => intro ro; exact .inr rfl
  | cons c cs ih =>
    intro ro
    rw [getSubKeyInternal.goKids, getSubKeyInternal.goKids]
    rcases h ro c with h1 | h1
    · left; rw [h1]
    · rw [h1]
      rcases g ro c with ⟨⟨_ | n, ro'⟩⟩ | _ | _
      · exact ih _
      · exact .inr rfl
      · exact .inr rfl
      · exact .inl rfl

theorem getSubKeyInternal_le (env : Env) {d : Nat} (hd : env.depth ≤ d) (filter : Filter) (seq : Option Nat) {m m' : Nat}
    (hm : m ≤ m') (st : State) (self : Node) :
    (getSubKeyInternal env filter seq m st self).Le (getSubKeyInternal (env.deep d) filter seq m' st self) := by
  induction m generalizing m' st self with
  | zero => exact .inl rfl
  | succ m ih =>
    obtain ⟨e, rfl⟩ : ∃ e, m' = e + 1 := ⟨m' - 1, by omega⟩
    rw [getSubKeyInternal, getSubKeyInternal]
    rcases readSubKeysInternal_le env hd st self filter seq false with h | h
    · left; rw [h]
    · rw [h]
      cases readSubKeysInternal (env.deep d) st self filter seq false with
      | panic => exact .inl rfl
      | err => exact .inr rfl
      | ok r =>
        simp only
        split
        · exact .inr rfl
        · exact goKids_le (fun ro c => ih (by omega) _ c) _ _

theorem getSubKeyByPath_le (env : Env) {d : Nat} (hd : env.depth ≤ d) (st : State) (self : Node) (path : Str) :
    (getSubKeyByPath env st self path).Le (getSubKeyByPath (env.deep d) st self path) := by
  unfold getSubKeyByPath
  split
  · exact .inr rfl
  · exact getSubKeyInternal_le env hd _ _ hd _ _

theorem getRootKey_le (env : Env) {d : Nat} (hd : env.depth ≤ d) (st : State) (c : Int) :
    (getRootKey env st c).Le (getRootKey (env.deep d) st c) := by
  unfold getRootKey
  split
  · exact .inl rfl
  · exact readKey_le env hd _ _

theorem getKey_le (env : Env) {d : Nat} (hd : env.depth ≤ d) (st : State) (c : Int) (path : Str) (hasRoot : Bool) :
    (getKey env st c path hasRoot).Le (getKey (env.deep d) st c path hasRoot) := by
  unfold getKey
  rcases getRootKey_le env hd st c with h | h
  · left; rw [h]
  · rw [h]
    rcases getRootKey (env.deep d) st c with ⟨⟨_ | n, ro'⟩⟩ | _ | _
    · exact .inr rfl
    · exact getSubKeyByPath_le env hd _ _ _
    · exact .inr rfl
    · exact .inl rfl

theorem getParentKey_le (env : Env) {d : Nat} (hd : env.depth ≤ d) (st : State) (self : Node) :
    (getParentKey env st self).Le (getParentKey (env.deep d) st self) := by
  unfold getParentKey
  split
  · exact .inl rfl
  · exact readKey_le env hd _ _

/-! ### Iterating -/

theorem pushKids_le (env : Env) {d : Nat} (hd : env.depth ≤ d) (ctx : IterCtx) (node : Node) :
    (pushKids env ctx node).Le (pushKids (env.deep d) ctx node) := by
  unfold pushKids
  split
  · rcases readSubKeysInternal_le env hd ctx.state node ctx.filter none ctx.getModified with h | h
    · left; rw [h]
    · rw [h]; exact .inr rfl
  · exact .inr rfl

theorem preStep_le (env : Env) {d : Nat} (hd : env.depth ≤ d) (ctx : IterCtx) (node : Node) :
    (preStep env ctx node).Le (preStep (env.deep d) ctx node) := by
  unfold preStep
  rcases pushKids_le env hd ctx node with h | h
  · left; rw [h]
  · rw [h]; exact .inr rfl

theorem nextPre_le (env : Env) {d : Nat} (hd : env.depth ≤ d) {n m : Nat} (hn : n ≤ m) (ctx : IterCtx) :
    RunLe (nextPre env n ctx) (nextPre (env.deep d) m ctx) := by
  induction n generalizing m ctx with
  | zero => exact .inl rfl
  | succ n ih =>
    obtain ⟨e, rfl⟩ : ∃ e, m = e + 1 := ⟨m - 1, by omega⟩
    rw [nextPre, nextPre]
    cases ctx.stack with
    | nil => exact .refl _
    | cons node rest =>
      simp only
      rcases preStep_le env hd { ctx with stack := rest } node with h | h
      · right; left; rw [h]
      · rw [h]
        rcases preStep (env.deep d) { ctx with stack := rest } node with ⟨⟨_ | x, c⟩⟩ | _ | _
        · exact ih (by omega) _
        · exact .refl _
        · exact .refl _
        · exact .refl _

theorem nextPost_le (env : Env) {d : Nat} (hd : env.depth ≤ d) {n m : Nat} (hn : n ≤ m) (ctx : IterCtx) :
    RunLe (nextPost env n ctx) (nextPost (env.deep d) m ctx) := by
  induction n generalizing m ctx with
  | zero => exact .inl rfl
  | succ n ih =>
    obtain ⟨e, rfl⟩ : ∃ e, m = e + 1 := ⟨m - 1, by omega⟩
    rw [nextPost, nextPost]
    cases ctx.stack with
    | nil => exact .refl _
    | cons node rest =>
      simp only
      cases popFinished ctx.ret with
      | some x => exact .refl _
      | none =>
        simp only
        rcases pushKids_le env hd { ctx with stack := rest } node with h | h
        · right; left; rw [h]
        · rw [h]
          rcases pushKids (env.deep d) { ctx with stack := rest } node with ⟨⟨x, c⟩⟩ | _ | _
          · exact ih (by omega) _
          · exact .refl _
          · exact .refl _

theorem collect_le {next next' : Nat → IterCtx → Option (Res (Option Node × IterCtx))}
    (h : ∀ {n m}, n ≤ m → ∀ ctx, RunLe (next n ctx) (next' m ctx)) {n m : Nat} (hn : n ≤ m) (ctx : IterCtx) :
    RunLe (collect next n ctx) (collect next' m ctx) := by
  induction n generalizing m ctx with
  | zero => exact .inl rfl
  | succ n ih =>
    obtain ⟨e, rfl⟩ : ∃ e, m = e + 1 := ⟨m - 1, by omega⟩
    rw [collect, collect]
    rcases h hn ctx with h1 | h1 | h1
    · left; rw [h1]
    · right; left; rw [h1]
    · rw [h1]
      rcases next' (e + 1) ctx with _ | ⟨⟨_ | x, c⟩⟩ | _ | _
      · exact .refl _
      · exact .refl _
      · simp only
        rcases ih (m := e) (by omega) c with h2 | h2 | h2
        · left; rw [h2]
        · right; left; rw [h2]
        · rw [h2]; exact .refl _
      · exact .refl _
      · exact .refl _

theorem initRoot_le (env : Env) {d : Nat} (hd : env.depth ≤ d) (st : State) :
    (initRoot env st).Le (initRoot (env.deep d) st) := by
  unfold initRoot
  show Res.Le _ (match getFrom env.fi.buffer env.fi.hbin with
    | none => _
    | some input => _)
  cases getFrom env.fi.buffer env.fi.hbin with
  | none => exact .inr rfl
  | some input =>
    simp only
    show Res.Le _ (match HiveBinHeader.fromBytes env.fi.hbin input with
      | none => _
      | some (_, rest) => _)
    cases HiveBinHeader.fromBytes env.fi.hbin input with
    | none => exact .inr rfl
    | some x => exact readKey_le env hd _ _

/-! ### The search for deleted cells -/

theorem keepValue_le (env : Env) (d : Nat) {f g : Bytes → Nat → State → Option (Res State)}
    (h : ∀ b o s, RunLe (f b o s) (g b o s)) (kv : KeyValue) (cs : CellState) (force : Bool) (st : State) :
    RunLe (keepValue env f kv cs force st) (keepValue (env.deep d) g kv cs force st) := by
  unfold keepValue
  rcases h kv.slack kv.slackOffset st with h1 | h1 | h1
  · left; rw [h1]
  · right; left; rw [h1]
  · rw [h1]; exact .refl _

theorem readCellKeyValue_le (env : Env) (d : Nat) {f g : Bytes → Nat → State → Option (Res State)}
    (h : ∀ b o s, RunLe (f b o s) (g b o s)) (input : Bytes) (off : Nat) (cs : CellState) (force : Bool) (st : State) :
    RunLe (readCellKeyValue env f input off cs force st) (readCellKeyValue (env.deep d) g input off cs force st) := by
  unfold readCellKeyValue
  cases KeyValue.fromBytes input off none with
  | panic => exact .refl _
  | err => exact .refl _
  | ok x => exact keepValue_le env d h _ _ _ _

theorem keepKey_le {f g : Bytes → Nat → State → Option (Res State)}
    (h : ∀ b o s, RunLe (f b o s) (g b o s)) (n : Node) (cs : CellState) (force : Bool) (st : State) :
    RunLe (keepKey f n cs force st) (keepKey g n cs force st) := by
  unfold keepKey
  rcases h n.key.slack n.key.slackOffset st with h1 | h1 | h1
  · left; rw [h1]
  · right; left; rw [h1]
  · rw [h1]; exact .refl _

theorem readCellKeyNode_le (env : Env) {d : Nat} (hd : env.depth ≤ d) {f g : Bytes → Nat → State → Option (Res State)}
    (h : ∀ b o s, RunLe (f b o s) (g b o s)) (input : Bytes) (off : Nat) (cs : CellState) (force : Bool) (st : State) :
    RunLe (readCellKeyNode env f input off cs force st) (readCellKeyNode (env.deep d) g input off cs force st) := by
  unfold readCellKeyNode
  rcases readFromSlice_le env hd st input ⟨off, [], none, true, none, false⟩ with h1 | h1
  · right; left; rw [h1]
  · rw [h1]
    rcases readFromSlice (env.deep d) st input ⟨off, [], none, true, none, false⟩ with ⟨⟨_ | n, ro'⟩⟩ | _ | _
    · exact .refl _
    · exact keepKey_le h _ _ _ _
    · exact .refl _
    · exact .refl _

theorem slackCell_le (env : Env) {d : Nat} (hd : env.depth ≤ d) {f g : Bytes → Nat → State → Option (Res State)}
    (h : ∀ b o s, RunLe (f b o s) (g b o s)) (input rest : Bytes) (off : Nat) (st : State) :
    RunLe (slackCell env f input rest off st) (slackCell (env.deep d) g input rest off st) := by
  unfold slackCell
  split
  · exact readCellKeyNode_le env hd h _ _ _ _ _
  · split
    · exact readCellKeyValue_le env d h _ _ _ _ _
    · exact .refl _

theorem slackLoop_le (env : Env) {d : Nat} (hd : env.depth ≤ d) {f g : Bytes → Nat → State → Option (Res State)}
    (h : ∀ b o s, RunLe (f b o s) (g b o s)) (input : Bytes) (start : Nat) {n m : Nat} (hn : n ≤ m) (off : Nat) (st : State) :
    RunLe (slackLoop env f input start n off st) (slackLoop (env.deep d) g input start m off st) := by
  induction n generalizing m off st with
  | zero => exact .inl rfl
  | succ n ih =>
    obtain ⟨e, rfl⟩ : ∃ e, m = e + 1 := ⟨m - 1, by omega⟩
    rw [slackLoop, slackLoop]
    split
    · cases leI32 (input.drop off) with
      | none => exact .refl _
      | some x =>
        simp only
        rcases slackCell_le env hd h (input.drop off) x.2 (start + off) st with h1 | h1 | h1
        · left; rw [h1]
        · right; left; rw [h1]
        · rw [h1]
          rcases slackCell (env.deep d) g (input.drop off) x.2 (start + off) st with _ | ⟨⟨k, s⟩⟩ | _ | _
          · exact .refl _
          · exact ih (by omega) _ _
          · exact .refl _
          · exact .refl _
    · exact .refl _

theorem findCellsInSlack_le (env : Env) {d : Nat} (hd : env.depth ≤ d) {n m : Nat} (hn : n ≤ m) {k l : Nat} (hk : k ≤ l)
    (input : Bytes) (start : Nat) (st : State) :
    RunLe (findCellsInSlack env n k input start st) (findCellsInSlack (env.deep d) m l input start st) := by
  induction k generalizing l input start st with
  | zero => exact .inr (.inl rfl)
  | succ k ih =>
    obtain ⟨e, rfl⟩ : ∃ e, l = e + 1 := ⟨l - 1, by omega⟩
    rw [findCellsInSlack, findCellsInSlack]
    exact slackLoop_le env hd (fun b o s => ih (by omega) b o s) _ _ hn _ _

theorem visitCell_le (env : Env) {d : Nat} (hd : env.depth ≤ d) {n m : Nat} (hn : n ≤ m) (t : CellType) (off size : Nat)
    (st : State) : RunLe (visitCell env n t off size st) (visitCell (env.deep d) m t off size st) := by
  have hs := fun b o s => findCellsInSlack_le env hd hn (k := env.depth) (l := d) hd b o s
  unfold visitCell
  simp only
  cases t
  case CellValue =>
    show RunLe _ (match readChecked env.fi.buffer off with
      | none => _
      | some input => _)
    cases readChecked env.fi.buffer off with
    | none => exact .refl _
    | some input =>
      simp only
      rcases readCellKeyValue_le env d hs input off .DeletedPrimaryFile false st with h1 | h1 | h1
      · left; rw [h1]
      · right; left; rw [h1]
      · rw [h1]; exact .refl _
  case CellKey =>
    show RunLe _ (match readChecked env.fi.buffer off with
      | none => _
      | some input => _)
    cases readChecked env.fi.buffer off with
    | none => exact .refl _
    | some input =>
      simp only
      rcases readCellKeyNode_le env hd hs input off .DeletedPrimaryFile false st with h1 | h1 | h1
      · left; rw [h1]
      · right; left; rw [h1]
      · rw [h1]; exact .refl _
  all_goals
    show RunLe _ (match readRangeChecked env.fi.buffer off size with
      | none => _
      | some input => _)
    cases readRangeChecked env.fi.buffer off size with
    | none => exact .refl _
    | some input => exact hs _ _ _

theorem binLoop_le (env : Env) {d : Nat} (hd : env.depth ≤ d) (top : Nat) {n m : Nat} (hn : n ≤ m) (input : Bytes) (off : Nat)
    (st : State) : RunLe (binLoop env top n input off st) (binLoop (env.deep d) top m input off st) := by
  induction n generalizing m input off st with
  | zero => exact .inl rfl
  | succ n ih =>
    obtain ⟨e, rfl⟩ : ∃ e, m = e + 1 := ⟨m - 1, by omega⟩
    rw [binLoop, binLoop]
    split
    · cases leI32 input with
      | none => exact .refl _
      | some x =>
        simp only
        split
        · exact .refl _
        · rcases visitCell_le env hd hn (CellType.readCellType x.2) off (unsignedAbs x.1) st with h1 | h1 | h1
          · left; rw [h1]
          · right; left; rw [h1]
          · rw [h1]
            rcases visitCell (env.deep d) (e + 1) (CellType.readCellType x.2) off (unsignedAbs x.1) st with _ | s | _ | _
            · exact .refl _
            · show RunLe (match readRangeChecked env.fi.buffer (off + unsignedAbs x.1) (unsignedAbs x.1) with
                | none => _
                | some input => _) (match readRangeChecked env.fi.buffer (off + unsignedAbs x.1) (unsignedAbs x.1) with
                | none => _
                | some input => _)
              cases readRangeChecked env.fi.buffer (off + unsignedAbs x.1) (unsignedAbs x.1) with
              | none => exact .refl _
              | some i => exact ih (by omega) _ _ _
            · exact .refl _
            · exact .refl _
    · exact .refl _

theorem scanBin_le (env : Env) {d : Nat} (hd : env.depth ≤ d) {n m : Nat} (hn : n ≤ m) (off : Nat)
    (st : State) : RunLe (scanBin env n off st) (scanBin (env.deep d) m off st) := by
  unfold scanBin
  show RunLe _ (match readChecked env.fi.buffer off with
    | none => _
    | some slice => _)
  cases readChecked env.fi.buffer off with
  | none => exact .refl _
  | some slice =>
    simp only
    cases HiveBinHeader.fromBytes off slice with
    | none => exact .refl _
    | some x =>
      simp only
      show RunLe _ (match readChecked env.fi.buffer (env.fi.buffer.length - x.2.length) with
        | none => _
        | some slice => _)
      cases readChecked env.fi.buffer (env.fi.buffer.length - x.2.length) with
      | none => exact .refl _
      | some i => exact binLoop_le env hd _ hn _ _ _

theorem scanBins_le (env : Env) {d : Nat} (hd : env.depth ≤ d) (size : Nat) {n m : Nat} (hn : n ≤ m) (off : Nat)
    (st : State) : RunLe (scanBins env size n off st) (scanBins (env.deep d) size m off st) := by
  induction n generalizing m off st with
  | zero => exact .inl rfl
  | succ n ih =>
    obtain ⟨e, rfl⟩ : ∃ e, m = e + 1 := ⟨m - 1, by omega⟩
    rw [scanBins, scanBins]
    split
    · rcases scanBin_le env hd hn off st with h1 | h1 | h1
      · left; rw [h1]
      · right; left; rw [h1]
      · rw [h1]
        rcases scanBin (env.deep d) (e + 1) off st with _ | ⟨⟨o, s⟩⟩ | _ | _
        · exact .refl _
        · exact ih (by omega) _ _
        · exact .refl _
        · exact .refl _
    · exact .refl _

/-! ### The comparison of the states of the file -/

theorem forEach_le {α β : Type} {f g : α → β → Res β} (h : ∀ a b, (f a b).Le (g a b)) (as : List α) :
    ∀ b, (forEach f as b).Le (forEach g as b) := by
  induction as with
  | nil => intro b; exact .inr rfl
  | cons a as ih =>
    intro b
    rw [forEach, forEach]
    rcases h a b with h1 | h1
    · left; rw [h1]
    · rw [h1]
      cases g a b with
      | panic => exact .inl rfl
      | err => exact .inr rfl
      | ok b => exact ih b

theorem addFullKey_le (env : Env) {d : Nat} (hd : env.depth ≤ d) (seq : Nat) (t : ListType) (path : Str) (off s : Nat)
    (x : State × Logs) : (addFullKey env seq t path off s x).Le (addFullKey (env.deep d) seq t path off s x) := by
  unfold addFullKey
  rcases readKey_le env hd x.1 (priorOptions path off s) with h1 | h1
  · left; rw [h1]
  · rw [h1]; exact .inr rfl

theorem addDeleted_le (env : Env) {d : Nat} (hd : env.depth ≤ d) (seq : Nat) (x : ItemKey × Item)
    (y : State × Logs) : (addDeleted env seq x y).Le (addDeleted (env.deep d) seq x y) := by
  unfold addDeleted
  split
  · exact .inr rfl
  · exact addFullKey_le env hd _ _ _ _ _ _

theorem analyzeSeen_le (env : Env) {d : Nat} (hd : env.depth ≤ d) (order : RegItemMap → RegItemMap) (seq : Nat)
    (seen : List Seen) (prior : RegItemMap) (st : State) :
    (analyzeSeen env order seq seen prior st).Le (analyzeSeen (env.deep d) order seq seen prior st) := by
  unfold analyzeSeen
  cases compareLoop seq seen { prior } with
  | err => exact .inr rfl
  | panic => exact .inl rfl
  | ok c =>
    simp only
    rcases forEach_le (fun (n : Needed) => addFullKey_le env hd seq .updated n.path n.off n.seq) c.keys (st, c.logs) with h1 | h1
    · left; rw [h1]
    · rw [h1]
      cases forEach (fun (n : Needed) => addFullKey (env.deep d) seq .updated n.path n.off n.seq) c.keys (st, c.logs) with
      | err => exact .inr rfl
      | panic => exact .inl rfl
      | ok x =>
        simp only
        show Res.Le _ (match forEach (fun (n : Needed) => addFullValue env seq .updated n.path n.off n.seq) c.values x with
          | .err => _
          | .panic => _
          | .ok x => _)
        cases forEach (fun (n : Needed) => addFullValue env seq .updated n.path n.off n.seq) c.values x with
        | err => exact .inr rfl
        | panic => exact .inl rfl
        | ok y =>
          simp only
          rcases forEach_le (fun x => addDeleted_le env hd seq x) (order c.prior) y with h2 | h2
          · left; rw [h2]
          · rw [h2]; exact .inr rfl

theorem getLatestRegItems_le (prior env : Env) {d : Nat} (hp : prior.depth ≤ d) (hd : env.depth ≤ d)
    (order : RegItemMap → RegItemMap) {n m : Nat} (hn : n ≤ m) (seq : Nat) (items : RegItemMap) (st : State) :
    RunLe (getLatestRegItems prior env order n seq items st)
      (getLatestRegItems (prior.deep d) (env.deep d) order m seq items st) := by
  unfold getLatestRegItems
  rcases initRoot_le env hd st with h1 | h1
  · right; left; rw [h1]
  · rw [h1]
    rcases initRoot (env.deep d) st with ⟨⟨root, ro⟩⟩ | _ | _
    · simp only
      rcases collect_le (fun h c => nextPre_le env hd h c) hn
        (.start { st with rootOffset := ro } root {} false false) with h2 | h2 | h2
      · left; rw [h2]
      · right; left; rw [h2]
      · rw [h2]
        rcases collect (nextPre (env.deep d)) m (.start { st with rootOffset := ro } root {} false false) with _ | ns | _ | _
        · exact .refl _
        · exact (analyzeSeen_le prior hp order seq _ _ _).run
        · exact .refl _
        · exact .refl _
    · exact .refl _
    · exact .refl _

theorem getRegItems_le (env : Env) {d : Nat} (hd : env.depth ≤ d) {n m : Nat} (hn : n ≤ m) (seq : Nat) (st : State) :
    RunLe (getRegItems env n seq st) (getRegItems (env.deep d) m seq st) := by
  unfold getRegItems
  rcases initRoot_le env hd st with h1 | h1
  · right; left; rw [h1]
  · rw [h1]
    rcases initRoot (env.deep d) st with ⟨⟨root, ro⟩⟩ | _ | _
    · simp only
      rcases collect_le (fun h c => nextPre_le env hd h c) hn
        (.start { st with rootOffset := ro } root {} true false) with h2 | h2 | h2
      · left; rw [h2]
      · right; left; rw [h2]
      · rw [h2]; exact .refl _
    · exact .refl _
    · exact .refl _

theorem analyzeEntry_le (prior env : Env) {d : Nat} (hp : prior.depth ≤ d) (hd : env.depth ≤ d)
    (order : RegItemMap → RegItemMap) {n m : Nat} (hn : n ≤ m) (seq : Nat) (x : State × RegItemMap) :
    RunLe (analyzeEntry prior env order n seq x) (analyzeEntry (prior.deep d) (env.deep d) order m seq x) := by
  unfold analyzeEntry
  rcases getLatestRegItems_le prior env hp hd order hn seq x.2 x.1 with h | h | h
  · left; rw [h]
  · right; left; rw [h]
  · rw [h]; exact .refl _

end Notatin
