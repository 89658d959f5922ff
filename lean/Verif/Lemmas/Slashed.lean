import Verif.Lemmas.Open
/-
Whatever is in the files: every key that opening with or without recovery records, and every key a listing yields, has
a path that begins with a backslash.
-/
namespace Notatin
open Spec

/-- It begins with a backslash. -/
def Slash (p : Str) : Prop := ∃ r, p = '\\' :: r

/-- It is empty or begins with a backslash. -/
def SlashOrNil (p : Str) : Prop := p = [] ∨ Slash p

theorem SlashOrNil.below {p : Str} (h : SlashOrNil p) (name : Str) : Slash (p ++ '\\' :: name) := by
  rcases h with rfl | ⟨r, rfl⟩
  · exact ⟨name, rfl⟩
  · exact ⟨r ++ '\\' :: name, rfl⟩

theorem SlashOrNil.parent {p : Str} (h : SlashOrNil p) : SlashOrNil (parentPath p) := by
  rcases h with rfl | ⟨r, rfl⟩
  · exact .inl rfl
  · have hp : parentPath ('\\' :: r) <+: '\\' :: r := by
      unfold parentPath
      rw [if_pos List.mem_cons_self]
      have h1 : ((('\\' :: r).reverse.dropWhile (· != '\\')).drop 1) <:+ ('\\' :: r).reverse :=
        (List.drop_suffix _ _).trans (List.dropWhile_suffix _)
      have := List.reverse_prefix.2 h1
      rwa [List.reverse_reverse] at this
    obtain ⟨t, ht⟩ := hp
    cases hx : parentPath ('\\' :: r) with
    | nil => exact .inl rfl
    | cons c cs =>
      rw [hx] at ht
      injection ht with h1 h2
      exact .inr ⟨cs, by rw [h1]⟩

/-- The paths of a key, of its versions and of the deleted keys below it begin with a backslash. -/
inductive Slashy : Node → Prop
  | mk (k : KeyNode) (vs ds : List Node) (hk : Slash k.path) (hv : ∀ v ∈ vs, Slash v.key.path)
    (hd : ∀ d ∈ ds, Slashy d) : Slashy (.mk k vs ds)

theorem slashy_iff (n : Node) : Slashy n ↔
    Slash n.key.path ∧ (∀ v ∈ n.versions, Slash v.key.path) ∧ ∀ d ∈ n.deletedKeys, Slashy d := by
  cases n with
  | mk k vs ds =>
    constructor
    · rintro ⟨_, _, _, h1, h2, h3⟩; exact ⟨h1, h2, h3⟩
    · rintro ⟨h1, h2, h3⟩; exact ⟨_, _, _, h1, h2, h3⟩

/-- A key as it is recorded. -/
def SlashRecord (d : Node) : Prop := Slash d.key.path ∧ d.versions = [] ∧ d.deletedKeys = []

theorem SlashRecord.slashy {d : Node} (h : SlashRecord d) : Slashy d := by
  rw [slashy_iff]
  refine ⟨h.1, ?_, ?_⟩
  · intro v hv; rw [h.2.1] at hv; cases hv
  · intro v hv; rw [h.2.2] at hv; cases hv

/-- The recorded keys have paths that begin with a backslash. -/
def Slashed (st : State) : Prop :=
  (∀ p ds, st.deletedKeys p = some ds → ∀ d ∈ ds, SlashRecord d) ∧
  ∀ p ds, st.modifiedKeys p = some ds → ∀ d ∈ ds, SlashRecord d

theorem slashed_empty : Slashed {} := by
  constructor
  · intro p ds h; cases h
  · intro p ds h; cases h

theorem Slashed.addKey {st : State} (h : Slashed st) (p : Str) (d : Node) (hd : SlashRecord d) :
    Slashed { st with deletedKeys := mapAdd st.deletedKeys p d } := by
  refine ⟨fun q ds hq e he => ?_, h.2⟩
  rcases mapAdd_mem hq e he with ⟨l, hl, hel⟩ | ⟨_, rfl⟩
  · exact h.1 q l hl e hel
  · exact hd

theorem Slashed.addModified {st : State} (h : Slashed st) (p : Str) (d : Node) (hd : SlashRecord d) :
    Slashed { st with modifiedKeys := mapAdd st.modifiedKeys p d } := by
  refine ⟨h.1, fun q ds hq e he => ?_⟩
  rcases mapAdd_mem hq e he with ⟨l, hl, hel⟩ | ⟨_, rfl⟩
  · exact h.2 q l hl e hel
  · exact hd

/-! ### The scan -/

/-- A step of the scan keeps the paths in order. -/
def KeepsSlashed (f : Bytes → Nat → State → Option (Res State)) : Prop :=
  ∀ i s st st', Slashed st → f i s st = some (.ok st') → Slashed st'

theorem readCellKeyValue_slashed (env : Env) {slack} (hs : KeepsSlashed slack) (input : Bytes) (off : Nat)
    (cs : CellState) (force : Bool) (st st' : State) (n : Nat) (h : Slashed st)
    (hr : readCellKeyValue env slack input off cs force st = some (.ok (n, st'))) : Slashed st' := by
  unfold readCellKeyValue at hr
  split at hr
  · cases hr
  · cases hr; exact h
  · unfold keepValue at hr
    split at hr
    · cases hr
    · cases hr
    · cases hr
    · rename_i st1 hst1
      have h1 := hs _ _ _ _ h hst1
      split at hr
      · cases hr; exact h1
      · cases hr; exact h1

theorem readCellKeyNode_slashed (env : Env) {slack} (hs : KeepsSlashed slack) (input : Bytes) (off : Nat)
    (cs : CellState) (force : Bool) (st st' : State) (n : Nat) (h : Slashed st)
    (hr : readCellKeyNode env slack input off cs force st = some (.ok (n, st'))) : Slashed st' := by
  unfold readCellKeyNode at hr
  rcases readFromSlice_deleted env st input off with ⟨k, r, vs, lg, hk, hs1, _⟩ | ⟨_, hs1⟩
  · unfold deletedAt at hs1
    rw [hs1] at hr
    simp only at hr
    obtain ⟨_, _, nm, _, hpath⟩ := fromBytes_fresh _ _ _ _ _ _ _ hk
    unfold keepKey at hr
    split at hr
    · cases hr
    · cases hr
    · cases hr
    · rename_i st1 hst1
      have h1 := hs _ _ _ _ (show Slashed { st with rootOffset := st.rootOffset } from h) hst1
      split at hr
      · cases hr
        exact h1.addKey _ _ ⟨⟨nm, hpath⟩, rfl, rfl⟩
      · cases hr; exact h1
  · unfold deletedAt at hs1
    rw [hs1] at hr
    cases hr
    exact h

theorem slackLoop_slashed (env : Env) {slack} (hs : KeepsSlashed slack) (input : Bytes) (start : Nat) :
    ∀ (steps offset : Nat) (st st' : State), Slashed st →
      slackLoop env slack input start steps offset st = some (.ok st') → Slashed st' := by
  intro steps
  induction steps with
  | zero => intro offset st st' _ h; cases h
  | succ steps ih =>
    intro offset st st' hf h
    rw [slackLoop] at h
    split at h
    · split at h
      · cases h; exact hf
      · split at h
        · cases h
        · cases h
        · cases h
        · rename_i n st1 hc
          refine ih _ _ _ ?_ h
          unfold slackCell at hc
          split at hc
          · exact readCellKeyNode_slashed env hs _ _ _ _ _ _ _ hf hc
          · split at hc
            · exact readCellKeyValue_slashed env hs _ _ _ _ _ _ _ hf hc
            · cases hc; exact hf
    · cases h; exact hf

theorem findCellsInSlack_slashed (env : Env) (steps : Nat) : ∀ depth, KeepsSlashed (findCellsInSlack env steps depth) := by
  intro depth
  induction depth with
  | zero => intro i s st st' _ h; cases h
  | succ depth ih =>
    intro i s st st' hf h
    rw [findCellsInSlack] at h
    exact slackLoop_slashed env ih _ _ _ _ _ _ hf h

theorem visitCell_slashed (env : Env) (steps : Nat) (ct : CellType) (off size : Nat) (st st' : State)
    (hf : Slashed st) (h : visitCell env steps ct off size st = some (.ok st')) : Slashed st' := by
  have hs := findCellsInSlack_slashed env steps env.depth
  unfold visitCell at h
  simp only at h
  split at h
  · split at h
    · cases h; exact hf
    · split at h
      · cases h
      · cases h
      · cases h
      · rename_i hc
        cases h
        exact readCellKeyValue_slashed env hs _ _ _ _ _ _ _ hf hc
  · split at h
    · cases h; exact hf
    · split at h
      · cases h
      · cases h
      · cases h
      · rename_i hc
        cases h
        exact readCellKeyNode_slashed env hs _ _ _ _ _ _ _ hf hc
  · split at h
    · cases h; exact hf
    · exact hs _ _ _ _ hf h

theorem binLoop_slashed (env : Env) (hbinMax : Nat) : ∀ (steps : Nat) (input : Bytes) (off off' : Nat)
    (st st' : State), Slashed st → binLoop env hbinMax steps input off st = some (.ok (off', st')) →
    Slashed st' := by
  intro steps
  induction steps with
  | zero => intro input off off' st st' _ h; cases h
  | succ steps ih =>
    intro input off off' st st' hf h
    rw [binLoop] at h
    split at h
    · split at h
      · cases h
      · split at h
        · cases h; exact hf
        · split at h
          · cases h
          · cases h
          · cases h
          · rename_i st1 hv
            have h1 := visitCell_slashed env _ _ _ _ _ _ hf hv
            split at h
            · cases h; exact h1
            · exact ih _ _ _ _ _ h1 h
    · cases h; exact hf

theorem scanBins_slashed (env : Env) (size : Nat) : ∀ (steps off : Nat) (st st' : State), Slashed st →
    scanBins env size steps off st = some (.ok st') → Slashed st' := by
  intro steps
  induction steps with
  | zero => intro off st st' _ h; cases h
  | succ steps ih =>
    intro off st st' hf h
    rw [scanBins] at h
    split at h
    · split at h
      · cases h
      · cases h
      · cases h
      · rename_i off1 st1 hb
        refine ih _ _ _ ?_ h
        unfold scanBin at hb
        split at hb
        · cases hb
        · split at hb
          · cases hb
          · simp only at hb
            split at hb
            · cases hb
            · exact binLoop_slashed env _ _ _ _ _ _ _ hf hb
    · cases h; exact hf

/-! ### Reading keys -/

theorem updateModifiedLists_slashy (st : State) (hst : Slashed st) (fuel : Nat) : ∀ (n m : Node), Slashy n →
    updateModifiedLists st fuel n = .ok m → Slashy m := by
  induction fuel with
  | zero => intro n m _ h; cases h
  | succ fuel ih =>
    intro n m hn h
    rw [updateModifiedLists] at h
    simp only at h
    split at h
    · cases h; exact hn
    · have hloop : ∀ (so : Nat) (l l' : List Node), (∀ d ∈ l, Slashy d) →
          updateModifiedLists.attachLoop (updateModifiedLists st fuel) so l = .ok l' → ∀ d ∈ l', Slashy d := by
        intro so l
        induction l with
        | nil => intro l' _ h d hd; cases h; cases hd
        | cons a as ihl =>
          intro l' hl h
          rw [updateModifiedLists.attachLoop] at h
          split at h
          · cases h
          · cases h
          · rename_i a' ha
            have ha' : Slashy a' := by
              split at ha
              · exact ih _ _ (hl _ List.mem_cons_self) ha
              · cases ha; exact hl _ List.mem_cons_self
            split at h
            · cases h
            · cases h
            · rename_i as' has
              cases h
              intro d hd
              rcases List.mem_cons.1 hd with rfl | hd
              · exact ha'
              · exact ihl _ (fun d hd => hl d (List.mem_cons_of_mem _ hd)) has d hd
      obtain ⟨h1, h2, h3⟩ := (slashy_iff n).1 hn
      split at h
      · cases h
      · cases h
      · rename_i ds hds
        cases h
        refine ⟨_, _, _, h1, ?_, ?_⟩
        · intro v hv
          split at hv
          · rename_i vs hvs
            exact (hst.2 _ _ hvs v (List.mem_mergeSort.1 hv)).1
          · exact h2 v hv
        · intro d hd
          unfold updateModifiedLists.attachDeleted at hds
          split at hds
          · cases hds; exact h3 d hd
          · rename_i l hl
            exact hloop _ _ _ (fun e he => (hst.1 _ _ hl e he).slashy) hds d hd

theorem readKey_slashy (env : Env) (st : State) (o : ReadOptions) (n : Node) (ro : Nat) (hst : Slashed st)
    (hc : SlashOrNil o.curPath) (h : readKey env st o = .ok (some n, ro)) :
    Slashy n ∧ (o.getModified = false → SlashRecord n) := by
  unfold readKey at h
  split at h
  · cases h
  · unfold readFromSlice at h
    cases hk : KeyNode.fromBytes env.hashFn _ o.offset o.curPath o.seq with
    | err => rw [hk] at h; cases h
    | panic => rw [hk] at h; cases h
    | ok x =>
      obtain ⟨k, r⟩ := x
      obtain ⟨_, _, nm, _, hpath⟩ := fromBytes_fresh _ _ _ _ _ _ _ hk
      rw [hk] at h
      simp only at h
      cases hf : filterStep st o.filter k with
      | err => rw [hf] at h; cases h
      | panic => rw [hf] at h; cases h
      | ok x =>
        obtain ⟨flags, ro'⟩ := x
        rw [hf] at h
        simp only at h
        by_cases hno : flags = .noMatch
        · rw [if_pos hno] at h; cases h
        · rw [if_neg hno] at h
          obtain ⟨vs, lg, hv⟩ := valuesStep_ok env o flags k
          rw [hv] at h
          simp only at h
          have hp : Slash k.path := by rw [hpath]; exact hc.below nm
          split at h
          · cases h
          · cases h
          · rename_i m hm
            cases h
            unfold finishStep at hm
            simp only at hm
            generalize hk2 : (if flags = .keyMatch then ({ k with values := vs, logs := lg, filterState := some .Exact } : KeyNode)
                else { k with values := vs, logs := lg }) = k2 at hm
            have hp2 : Slash k2.path := by
              rw [← hk2]
              by_cases hm : flags = .keyMatch
              · rw [if_pos hm]; exact hp
              · rw [if_neg hm]; exact hp
            have hrec : SlashRecord (.mk k2 [] []) := ⟨hp2, rfl, rfl⟩
            by_cases hg : o.getModified = true
            · rw [if_pos hg] at hm
              exact ⟨updateModifiedLists_slashy st hst _ _ _ hrec.slashy hm, fun h => by rw [hg] at h; cases h⟩
            · rw [if_neg hg] at hm
              cases hm
              exact ⟨hrec.slashy, fun _ => hrec⟩

theorem initRoot_slashy (env : Env) (st : State) (x : Option Node) (ro : Nat) (hst : Slashed st)
    (h : initRoot env st = .ok (x, ro)) : ∀ r, x = some r → Slashy r := by
  rintro r rfl
  unfold initRoot at h
  split at h
  · cases h
  · split at h
    · cases h
    · exact (readKey_slashy env st _ r ro hst (.inl rfl) h).1

/-- What an iteration yields. -/
theorem collect_slashy (env : Env) (steps : Nat) (ctx : IterCtx) (ns : List Node) (hst : Slashed ctx.state)
    (hs : ∀ n ∈ ctx.stack, Slashy n) (h : collect (nextPre env) steps ctx = some (.ok ns)) : ∀ n ∈ ns, Slashy n := by
  have hset : ∀ (n : Node) (k : KeyNode), k.path = n.key.path → Slashy n → Slashy (n.setKey k) := by
    intro n k hk hn
    obtain ⟨h1, h2, h3⟩ := (slashy_iff n).1 hn
    cases n
    exact ⟨_, _, _, by rw [hk]; exact h1, h2, h3⟩
  refine collect_all env Slashy Slashed ctx.getModified (fun _ _ => True) SlashOrNil
    (fun st ro h => h) ?_ ?_ ?_ ?_ ctx.filter ⟨trivial, trivial⟩ (fun n hn => .inr ((slashy_iff n).1 hn).1) steps ctx ns
    rfl rfl hst hs h
  · intro st o n ro hst _ _ hc hr
    exact (readKey_slashy env st o n ro hst hc hr).1
  · intro n sm v hn; exact hset _ _ rfl hn
  · intro n lg so tr hn; exact hset _ _ rfl hn
  · intro n hn
    obtain ⟨h1, h2, h3⟩ := (slashy_iff n).1 hn
    refine ⟨fun d hd => hset _ _ rfl (h3 d hd), ⟨_, _, _, h1, h2, ?_⟩⟩
    intro d hd
    obtain ⟨e, he, rfl⟩ := List.mem_map.1 hd
    exact hset _ _ rfl (h3 e he)

/-! ### The analysis of log entries -/

/-- The paths of the items. -/
def ItemsSlashed (m : RegItemMap) : Prop := ∀ x ∈ m, SlashOrNil x.1.1

theorem ItemsSlashed.insert {m : RegItemMap} (h : ItemsSlashed m) (k : ItemKey) (i : Item) (hk : SlashOrNil k.1) :
    ItemsSlashed (m.insert k i) := by
  intro x hx
  rcases List.mem_append.1 hx with hx | hx
  · exact h x (List.mem_filter.1 hx).1
  · rw [List.mem_singleton.1 hx]; exact hk

theorem seenOf_slashed {ns : List Node} (h : ∀ n ∈ ns, SlashOrNil n.key.path) :
    ∀ s ∈ ns.flatMap seenOf, SlashOrNil s.key.1 := by
  intro s hs
  obtain ⟨n, hn, hsn⟩ := List.mem_flatMap.1 hs
  have := h n hn
  unfold seenOf at hsn
  rcases List.mem_cons.1 hsn with rfl | hsn
  · exact this
  · obtain ⟨v, _, rfl⟩ := List.mem_map.1 hsn
    exact this

theorem regItemsLoop_slashed (seq : Nat) : ∀ (ss : List Seen) (m m' : RegItemMap), (∀ s ∈ ss, SlashOrNil s.key.1) →
    ItemsSlashed m → regItemsLoop seq ss m = .ok m' → ItemsSlashed m' := by
  intro ss
  induction ss with
  | nil => intro m m' _ hm h; cases h; exact hm
  | cons s ss ih =>
    intro m m' hs hm h
    rw [regItemsLoop] at h
    split at h
    · cases h
    · exact ih _ _ (fun t ht => hs t (List.mem_cons_of_mem _ ht)) (hm.insert _ _ (hs s List.mem_cons_self)) h

/-- The paths in what is compared. -/
structure ComparedSlashed (c : Compared) : Prop where
  prior : ItemsSlashed c.prior
  latest : ItemsSlashed c.latest
  keys : ∀ n ∈ c.keys, SlashOrNil n.path

theorem handleNewItem_slashed (newSeq : Nat) (c c' : Compared) (s : Seen) (hs : SlashOrNil s.key.1)
    (hc : ComparedSlashed c) (h : handleNewItem newSeq c s = .ok c') : ComparedSlashed c' := by
  unfold handleNewItem at h
  have herase : ItemsSlashed (c.prior.erase s.key) := fun x hx => hc.prior x (List.mem_filter.1 hx).1
  split at h
  · cases h
  · split at h
    · simp only at h
      split at h
      · cases h
        exact ⟨herase, hc.latest.insert _ _ hs, hc.keys⟩
      · cases h
        unfold Compared.need
        split
        · refine ⟨herase, hc.latest.insert _ _ hs, ?_⟩
          intro n hn
          rcases List.mem_append.1 hn with hn | hn
          · exact hc.keys n hn
          · rw [List.mem_singleton.1 hn]; exact hs
        · exact ⟨herase, hc.latest.insert _ _ hs, hc.keys⟩
    · cases h
      exact ⟨hc.prior, hc.latest.insert _ _ hs, hc.keys⟩

theorem compareLoop_slashed (newSeq : Nat) : ∀ (ss : List Seen) (c c' : Compared), (∀ s ∈ ss, SlashOrNil s.key.1) →
    ComparedSlashed c → compareLoop newSeq ss c = .ok c' → ComparedSlashed c' := by
  intro ss
  induction ss with
  | nil => intro c c' _ hc h; cases h; exact hc
  | cons s ss ih =>
    intro c c' hs hc h
    rw [compareLoop] at h
    split at h
    · cases h
    · cases h
    · rename_i c1 h1
      exact ih _ _ (fun t ht => hs t (List.mem_cons_of_mem _ ht))
        (handleNewItem_slashed newSeq _ _ _ (hs s List.mem_cons_self) hc h1) h

theorem addFullKey_slashed (env : Env) (newSeq : Nat) (t : ListType) (path : Str) (off seq : Nat)
    (x y : State × Logs) (hp : SlashOrNil path) (hf : Slashed x.1)
    (h : addFullKey env newSeq t path off seq x = .ok y) : Slashed y.1 := by
  unfold addFullKey at h
  split at h
  · cases h
  · cases h; exact hf
  · cases h; exact hf
  · rename_i n ro hr
    cases h
    obtain ⟨h1, h2, h3⟩ := (readKey_slashy _ _ _ _ _ hf (show SlashOrNil (priorOptions path off seq).curPath from hp.parent) hr).2 rfl
    have hrec : SlashRecord (keyRecord newSeq t n) := by
      cases n; exact ⟨h1, h2, h3⟩
    unfold fileKey
    cases t with
    | updated => exact Slashed.addModified (st := { x.1 with rootOffset := ro }) hf _ _ hrec
    | deleted => exact Slashed.addKey (st := { x.1 with rootOffset := ro }) hf _ _ hrec

theorem addFullValue_slashed (env : Env) (newSeq : Nat) (t : ListType) (path : Str) (off seq : Nat)
    (x y : State × Logs) (hf : Slashed x.1) (h : addFullValue env newSeq t path off seq x = .ok y) :
    Slashed y.1 := by
  unfold addFullValue at h
  split at h
  · cases h; exact hf
  · split at h
    · cases h
    · cases h; exact hf
    · cases h
      unfold fileValue
      cases t with
      | updated => exact hf
      | deleted => exact hf

theorem forEach_slashed {α : Type} (f : α → State × Logs → Res (State × Logs)) (Q : α → Prop)
    (hk : ∀ a x y, Q a → Slashed x.1 → f a x = .ok y → Slashed y.1) : ∀ (l : List α) (x y : State × Logs),
    (∀ a ∈ l, Q a) → Slashed x.1 → forEach f l x = .ok y → Slashed y.1 := by
  intro l
  induction l with
  | nil => intro x y _ hx h; cases h; exact hx
  | cons a as ih =>
    intro x y hl hx h
    rw [forEach] at h
    split at h
    · cases h
    · cases h
    · rename_i z hz
      exact ih _ _ (fun b hb => hl b (List.mem_cons_of_mem _ hb)) (hk _ _ _ (hl a List.mem_cons_self) hx hz) h

theorem foldl_takeOff_slashed (l : List (ItemKey × Item)) : ∀ st, Slashed st → Slashed (l.foldl takeOff st) := by
  induction l with
  | nil => intro st h; exact h
  | cons a as ih =>
    intro st h
    refine ih _ ?_
    unfold takeOff
    split
    · exact h
    · refine ⟨fun p ds hp d hd => ?_, h.2⟩
      obtain ⟨l, hl, hdl⟩ := deletedKeysRemove_mem hp d hd
      exact h.1 p l hl d hdl

theorem listed_slashed {env : Env} {st : State} {x : Option Node} {ro steps : Nat} {gm anc : Bool} {ns : List Node}
    (hf : Slashed st) (hi : initRoot env st = .ok (x, ro))
    (hc : collect (nextPre env) steps (.start { st with rootOffset := ro } x {} gm anc) = some (.ok ns)) :
    ∀ n ∈ ns, SlashOrNil n.key.path := by
  have hx : ∃ r, x = some r := by
    unfold initRoot at hi
    split at hi
    · cases hi
    · split at hi
      · cases hi
      · cases x with
        | some r => exact ⟨r, rfl⟩
        | none =>
          exfalso
          unfold readKey at hi
          split at hi
          · cases hi
          · unfold readFromSlice at hi
            split at hi
            · cases hi
            · cases hi
            · simp only [filterStep] at hi
              rw [if_neg (by simp)] at hi
              split at hi
              · cases hi
              · cases hi
              · split at hi <;> cases hi
  obtain ⟨r, rfl⟩ := hx
  intro n hn
  refine .inr ((slashy_iff n).1 (collect_slashy env steps _ ns (show Slashed { st with rootOffset := ro } from hf) ?_ hc n hn)).1
  intro m hm
  have hm : m ∈ [r] := hm
  rw [List.mem_singleton.1 hm]
  exact initRoot_slashy env st _ ro hf hi r rfl

theorem analyzeEntry_slashed (prior env : Env) (order : RegItemMap → RegItemMap) (ho : ∀ m, (order m).Perm m)
    (steps newSeq : Nat) (x y : State × RegItemMap) (hf : Slashed x.1 ∧ ItemsSlashed x.2)
    (h : analyzeEntry prior env order steps newSeq x = some (.ok y)) : Slashed y.1 ∧ ItemsSlashed y.2 := by
  unfold analyzeEntry at h
  split at h
  · cases h
  · cases h
  · cases h; exact hf
  · rename_i st items logs hg
    cases h
    unfold getLatestRegItems at hg
    split at hg
    · cases hg
    · cases hg
    · rename_i root ro hi
      simp only at hg
      split at hg
      · cases hg
      · cases hg
      · cases hg
      · rename_i ns hc
        have hseen := seenOf_slashed (listed_slashed hf.1 hi hc)
        simp only [Option.some.injEq] at hg
        unfold analyzeSeen at hg
        split at hg
        · cases hg
        · cases hg
        · rename_i c hcl
          have hcs := compareLoop_slashed newSeq _ _ _ hseen
            ⟨hf.2, (by intro x hx; cases hx), (by intro x hx; cases hx)⟩ hcl
          split at hg
          · cases hg
          · cases hg
          · rename_i x1 h1
            have f1 := forEach_slashed _ (fun n : Needed => SlashOrNil n.path)
              (fun a x y ha hx h => addFullKey_slashed _ _ _ _ _ _ x y ha hx h) _ _ _ hcs.keys
              (show Slashed _ from hf.1) h1
            split at hg
            · cases hg
            · cases hg
            · rename_i x2 h2
              have f2 := forEach_slashed _ (fun _ => True)
                (fun a x y _ hx h => addFullValue_slashed _ _ _ _ _ _ x y hx h) _ _ _ (fun _ _ => trivial) f1 h2
              split at hg
              · cases hg
              · cases hg
              · rename_i x3 h3
                have f3 := forEach_slashed (addDeleted prior newSeq) (fun a => SlashOrNil a.1.1)
                  (fun a x y ha hx h => by
                    unfold addDeleted at h
                    split at h
                    · exact addFullValue_slashed _ _ _ _ _ _ x y hx h
                    · exact addFullKey_slashed _ _ _ _ _ _ x y ha hx h) _ _ _
                  (fun a ha => hcs.prior a ((ho _).mem_iff.1 ha)) f2 h3
                cases hg
                exact ⟨foldl_takeOff_slashed _ _ f3, hcs.latest⟩

/-! ### Opening -/

/-- Whatever the files: what opening them records has paths that begin with a backslash. -/
theorem open_slashed (w : World) (hord : ∀ m, (w.order m).Perm m) (recover : Bool) (buf : Bytes)
    (logs : List TransactionLog) (sup : Bool) (h : Hive Recovery) (st : State) (items : RegItemMap)
    (ho : openHive (w.analyze recover) (w.initItems recover) (w.scan recover) buf (some (.ok ({}, []))) logs = .ok (sup, h))
    (hr : h.recovery = some (.ok (st, items))) : Slashed st := by
  have := openHive_inv (w.analyze recover) (w.initItems recover) (w.scan recover)
    (fun s => ∀ x, s = some (.ok x) → Slashed x.1 ∧ ItemsSlashed x.2) ?_ ?_ ?_ buf _ logs sup h ?_ ho
  · exact (this _ hr).1
  · intro a n b s hs x hx
    unfold World.analyze at hx
    split at hx
    · split at hx
      · exact analyzeEntry_slashed _ _ _ hord _ _ _ _ (hs _ rfl) hx
      · cases hx; exact hs _ rfl
    · exact hs _ hx
  · intro b s s' hs he x hx
    subst hx
    unfold World.initItems at he
    split at he
    · rename_i y
      split at he
      · split at he
        · cases he
        · cases he
        · cases he
        · rename_i m st' hg
          cases he
          unfold getRegItems at hg
          split at hg
          · cases hg
          · cases hg
          · rename_i root ro hi
            simp only at hg
            split at hg
            · cases hg
            · cases hg
            · cases hg
            · rename_i ns hc
              split at hg
              · rename_i m' hm
                cases hg
                exact ⟨(hs y rfl).1, regItemsLoop_slashed 0 _ _ _ (seenOf_slashed (listed_slashed (hs y rfl).1 hi hc))
                  (by intro x hx; cases hx) hm⟩
              · cases hg
              · cases hg
      · cases he; exact hs _ rfl
    · cases he; exact hs _ rfl
  · intro b bb s s' hs he x hx
    subst hx
    unfold World.scan at he
    split at he
    · rename_i y
      split at he
      · split at he
        · cases he
        · cases he
        · cases he
        · rename_i st' hg
          cases he
          exact ⟨scanBins_slashed _ _ _ _ _ _ (hs y rfl).1 hg, (hs y rfl).2⟩
      · cases he; exact hs _ rfl
    · cases he; exact hs _ rfl
  · intro x hx; cases hx; exact ⟨slashed_empty, by intro x hx; cases hx⟩

/-- Whatever the files: the keys of a listing of a hive with a root have paths that begin with a backslash. -/
theorem listing_slashy (w : World) (hord : ∀ m, (w.order m).Perm m) (b : Builder) (p : HiveParser)
    (hb : b.build w = some (.ok p)) (hroot : p.root ≠ none) (steps : Nat) (filter : Filter) (gm anc : Bool)
    (ns : List Node) (hns : p.iterate steps filter false gm anc = some (.ok ns)) : ∀ n ∈ ns, Slashy n := by
  unfold Builder.build at hb
  split at hb
  · cases hb
  · cases hb
  · split at hb
    · cases hb
    · cases hb
    · rename_i sup h ho
      split at hb
      · cases hb
      · cases hb
      · cases hb
      · rename_i st items hrec
        have hsl := open_slashed w hord _ _ _ _ _ _ _ ho hrec
        simp only at hb
        split at hb
        · split at hb
          · cases hb
          · cases hb
          · rename_i root ro hi
            cases hb
            cases root with
            | none => exact absurd rfl hroot
            | some r =>
              refine collect_slashy _ steps _ ns (by exact hsl) ?_ hns
              intro m hm
              have hm : m ∈ [r] := hm
              rw [List.mem_singleton.1 hm]
              exact initRoot_slashy _ _ _ _ (by exact hsl) hi r rfl
        · cases hb; exact absurd rfl hroot

end Notatin
