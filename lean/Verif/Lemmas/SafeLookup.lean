import Verif.Lemmas.SafeIter
import Verif.Lemmas.SameRead
/-
Lemmas for C84: looking up keys does not panic.
-/
namespace Notatin
open Spec

/-! ### Counting segments -/

theorem splitBackslash_length (s : Str) : (splitBackslash s).length = s.count '\\' + 1 := by
  induction s with
  | nil => rfl
  | cons c s ih =>
    rw [splitBackslash]
    by_cases hc : c = '\\'
    · rw [if_pos hc, hc, List.length_cons, ih, List.count_cons_self]
    · rw [if_neg hc, List.count_cons_of_ne hc]
      cases hs : splitBackslash s with
      | nil => rw [hs] at ih; cases ih
      | cons a as => rw [hs] at ih; exact ih

theorem asciiLower_count (s : Str) : (asciiLower s).count '\\' = s.count '\\' := by
  induction s with
  | nil => rfl
  | cons c s ih =>
    have hl : asciiLower (c :: s) = (if 'A' ≤ c ∧ c ≤ 'Z' then Char.ofNat (c.toNat + 32) else c) :: asciiLower s := rfl
    rw [hl, List.count_cons, List.count_cons, ih]
    congr 1
    by_cases h : 'A' ≤ c ∧ c ≤ 'Z'
    · rw [if_pos h]
      have h1 : 65 ≤ c.toNat := h.1
      have h2 : c.toNat ≤ 90 := h.2
      have hv : (c.toNat + 32).isValidChar := by left; omega
      have hn : (Char.ofNat (c.toNat + 32)).toNat = c.toNat + 32 := by
        unfold Char.ofNat; rw [dif_pos hv]; rfl
      have e1 : (Char.ofNat (c.toNat + 32) == '\\') = false := by
        rw [beq_eq_false_iff_ne]
        intro he
        rw [he] at hn
        have : (92 : Nat) = c.toNat + 32 := hn
        omega
      have e2 : (c == '\\') = false := by
        rw [beq_eq_false_iff_ne]
        intro he
        rw [he] at h2
        exact absurd h2 (by decide)
      rw [e1, e2]
    · rw [if_neg h]

theorem trimEnd_count (s : Str) : (trimEndBackslash s).count '\\' ≤ s.count '\\' := by
  unfold trimEndBackslash
  rw [List.count_reverse]
  have h : (s.reverse.dropWhile (· == '\\')).Sublist s.reverse := List.dropWhile_sublist _
  have := h.count_le '\\'
  rw [List.count_reverse] at this
  exact this

theorem lookupPath_count (s : Str) (hasRoot : Bool) : (lookupPath s hasRoot).count '\\' ≤ s.count '\\' := by
  have h1 : (trimStartBackslash s).Sublist s := List.dropWhile_sublist _
  have h2 : (lookupPath s hasRoot).Sublist (trimStartBackslash s) := by
    unfold lookupPath
    simp only
    split
    · split
      · exact (List.drop_sublist _ _).trans (List.dropWhile_sublist _)
      · exact List.nil_sublist _
    · exact List.Sublist.refl _
  exact (h2.trans h1).count_le '\\'

theorem pushLit_length (l : List Str) : ∀ b : FilterBuilder,
    (l.foldl FilterBuilder.pushLit b).keyPath.length = b.keyPath.length + l.length ∧
      (l.foldl FilterBuilder.pushLit b).regexErrors = b.regexErrors := by
  induction l with
  | nil => intro b; exact ⟨rfl, rfl⟩
  | cons a as ih =>
    intro b
    obtain ⟨h1, h2⟩ := ih (b.pushLit a)
    rw [List.foldl_cons]
    refine ⟨?_, h2⟩
    rw [h1, List.length_cons]
    unfold FilterBuilder.pushLit
    rw [List.length_append, List.length_singleton]
    omega

/-- Segments that are let through are no more than the components. -/
theorem matchSegments_length : ∀ (cs : List Component) (segs : List Str), matchSegments cs segs ≠ .noMatch →
    segs.length ≤ cs.length := by
  intro cs
  induction cs with
  | nil =>
    intro segs h
    cases segs with
    | nil => exact Nat.le_refl _
    | cons a as => exact absurd rfl h
  | cons c cs ih =>
    intro segs h
    cases segs with
    | nil => exact Nat.zero_le _
    | cons a as =>
      rw [matchSegments] at h
      split at h
      · exact Nat.succ_le_succ (ih as h)
      · exact absurd rfl h

/-- A filter whose path has the root in it: no panic, and what it lets through is no longer than itself. -/
theorem filterStep_rooted (st : State) (f : Filter) (q : RegQuery) (hq : f.query = some q) (hr : q.hasRoot = true)
    (k : KeyNode) : ∃ fl ro, filterStep st (some f) k = .ok (fl, ro) ∧
      (fl ≠ .noMatch → k.path.count '\\' + 1 ≤ q.keyPath.length) := by
  unfold filterStep Filter.checkCell
  simp only [hq, hr, Bool.not_true, Bool.and_false]
  rw [if_neg (by simp)]
  unfold RegQuery.checkKeyMatch
  rw [hr, if_pos rfl]
  have hd : dropBytes 0 (asciiLower k.path) = some (asciiLower k.path) := by unfold dropBytes; rfl
  rw [hd]
  refine ⟨_, _, rfl, fun h => ?_⟩
  have := matchSegments_length _ _ h
  rw [splitBackslash_length, asciiLower_count] at this
  exact this

/-- No panic in the filter step without a filter. -/
theorem filterStep_free (st : State) (f : Option Filter) (hf : ∀ g, f = some g → g.query = none) (k : KeyNode) :
    filterStep st f k ≠ .panic := by
  unfold filterStep
  cases f with
  | none => simp
  | some g =>
    simp only
    unfold Filter.checkCell
    rw [hf g rfl]
    simp

/-- A key that has been read has passed the filter. -/
theorem readKey_passes (env : Env) (st : State) (o : ReadOptions) (n : Node) (ro : Nat)
    (h : readKey env st o = .ok (some n, ro)) :
    ∃ (k : KeyNode) (fl : FilterFlags) (r : Nat), filterStep st o.filter k = .ok (fl, r) ∧ fl ≠ .noMatch ∧ k.path = n.key.path := by
  unfold readKey at h
  cases hg : getFrom env.fi.buffer o.offset with
  | none => rw [hg] at h; cases h
  | some slc =>
    rw [hg] at h
    simp only at h
    unfold readFromSlice at h
    cases hk : KeyNode.fromBytes env.hashFn slc o.offset o.curPath o.seq with
    | err => rw [hk] at h; cases h
    | panic => rw [hk] at h; cases h
    | ok x =>
      obtain ⟨k, r⟩ := x
      rw [hk] at h
      simp only at h
      cases hf : filterStep st o.filter k with
      | err => rw [hf] at h; cases h
      | panic => rw [hf] at h; cases h
      | ok x =>
        obtain ⟨flags, ro'⟩ := x
        rw [hf] at h
        simp only at h
        by_cases hno : flags = .noMatch
        · rw [if_pos hno] at h; cases h
        · rw [if_neg hno] at h
          obtain ⟨vs, lg, hv⟩ := valuesStep_ok env o flags k
          rw [hv] at h
          simp only at h
          cases hfi : finishStep env st o flags { k with values := vs, logs := lg } with
          | err => rw [hfi] at h; cases h
          | panic => rw [hfi] at h; cases h
          | ok m =>
            rw [hfi] at h
            cases h
            refine ⟨k, flags, _, hf, hno, ?_⟩
            unfold finishStep at hfi
            simp only at hfi
            by_cases hg : o.getModified = true
            · rw [if_pos hg] at hfi
              rw [updateModifiedLists_key _ _ _ _ hfi]
              by_cases hm : flags = .keyMatch
              · rw [if_pos hm]; rfl
              · rw [if_neg hm]; rfl
            · rw [if_neg hg] at hfi
              cases hfi
              by_cases hm : flags = .keyMatch
              · rw [if_pos hm]; rfl
              · rw [if_neg hm]; rfl

/-! ### Keys of the file -/

/-- The key has no sub-keys, or its numbers are those of a key cell of the file. -/
def CellNums (env : Env) (n : Node) : Prop :=
  n.key.nSubKeys = 0 ∨ ∃ o, slice env.fi.buffer (o + 4) 2 = [0x6E, 0x6B] ∧
    n.key.nSubKeys = u32At env.fi.buffer (o + 24) ∧ n.key.subKeysListOffset = u32At env.fi.buffer (o + 32)

/-- So are those of the key; the recovered keys attached to it are such keys, too, and have nothing attached in turn. -/
def CellKey (env : Env) (n : Node) : Prop :=
  CellNums env n ∧ ∀ d ∈ n.deletedKeys, CellNums env d ∧ d.deletedKeys = []

theorem CellNums.congr {env : Env} {n : Node} (h : CellNums env n) (k : KeyNode) (h1 : k.nSubKeys = n.key.nSubKeys)
    (h2 : k.subKeysListOffset = n.key.subKeysListOffset) : CellNums env (n.setKey k) := by
  obtain g | ⟨o, g1, g2, g3⟩ := h
  · cases n
    exact .inl (h1.trans g)
  · cases n
    exact .inr ⟨o, g1, h1.trans g2, h2.trans g3⟩

theorem CellKey.congr {env : Env} {n : Node} (h : CellKey env n) (k : KeyNode) (h1 : k.nSubKeys = n.key.nSubKeys)
    (h2 : k.subKeysListOffset = n.key.subKeysListOffset) : CellKey env (n.setKey k) :=
  ⟨h.1.congr k h1 h2, by cases n; exact h.2⟩

/-- What is on record can be attached, and is keys of free space with numbers of key cells. -/
structure StateCell (env : Env) (st : State) : Prop where
  attach : AttachOk env st
  del : ∀ q ds, st.deletedKeys q = some ds → ∀ d ∈ ds,
    CellNums env d ∧ d.deletedKeys = [] ∧ d.key.cellState.isDeletedPrimaryFile = true

theorem StateCell.at {env : Env} {st : State} (h : StateCell env st) (ro : Nat) : StateCell env { st with rootOffset := ro } :=
  ⟨fun k => by rw [updateModifiedLists_rootOffset]; exact h.attach k, h.del⟩

theorem attachLoop_same (f : Node → Res Node) (off : Nat) : ∀ (l l' : List Node), (∀ d ∈ l, ∀ d', f d = .ok d' → d' = d) →
    updateModifiedLists.attachLoop f off l = .ok l' → l' = l := by
  intro l
  induction l with
  | nil => intro l' _ h; rw [updateModifiedLists.attachLoop] at h; cases h; rfl
  | cons d ds ih =>
    intro l' hl h
    rw [updateModifiedLists.attachLoop] at h
    cases h1 : (if d.key.fileOffset ≠ off then f d else .ok d) with
    | err => rw [h1] at h; cases h
    | panic => rw [h1] at h; cases h
    | ok d' =>
      rw [h1] at h
      simp only at h
      have hd : d' = d := by
        split at h1
        · exact hl d List.mem_cons_self d' h1
        · cases h1; rfl
      cases h2 : updateModifiedLists.attachLoop f off ds with
      | err => rw [h2] at h; cases h
      | panic => rw [h2] at h; cases h
      | ok ds' =>
        rw [h2] at h
        cases h
        rw [hd, ih ds' (fun x hx => hl x (List.mem_cons_of_mem _ hx)) h2]

theorem updateModifiedLists_cells {env : Env} {st : State} (hst : StateCell env st) (fuel : Nat) (k : KeyNode) (m : Node)
    (h : updateModifiedLists st fuel (.mk k [] []) = .ok m) : ∀ d ∈ m.deletedKeys, CellNums env d ∧ d.deletedKeys = [] := by
  cases fuel with
  | zero => rw [updateModifiedLists] at h; cases h
  | succ fuel =>
    rw [updateModifiedLists] at h
    simp only at h
    split at h
    · cases h
      intro d hd
      cases hd
    · generalize (if (Node.mk k [] []).key.isKeyRoot = true then ([] : Str) else (Node.mk k [] []).key.path) = q at h
      cases ha : updateModifiedLists.attachDeleted (updateModifiedLists st fuel) (Node.mk k [] []).key.fileOffset
          (Node.mk k [] []).deletedKeys (st.deletedKeys q) with
      | err => rw [ha] at h; cases h
      | panic => rw [ha] at h; cases h
      | ok deleted =>
        rw [ha] at h
        cases h
        intro d hd
        replace hd : d ∈ deleted := hd
        cases hq : st.deletedKeys q with
        | none => rw [hq, updateModifiedLists.attachDeleted] at ha; cases ha; cases hd
        | some ds =>
          rw [hq, updateModifiedLists.attachDeleted] at ha
          have := attachLoop_same _ _ ds deleted (by
            intro x hx x' hx'
            cases fuel with
            | zero => rw [updateModifiedLists] at hx'; cases hx'
            | succ fuel =>
              rw [updateModifiedLists] at hx'
              simp only [(hst.del q ds hq x hx).2.2, if_true] at hx'
              cases hx'
              rfl) ha
          rw [this] at hd
          exact ⟨(hst.del q ds hq d hd).1, (hst.del q ds hq d hd).2.1⟩

theorem readKey_cellKey {env : Env} {st : State} {o : ReadOptions} {n : Node} {ro : Nat}
    (hst : StateCell env st) (h : readKey env st o = .ok (some n, ro)) : CellKey env n := by
  obtain ⟨h1, h2, h3, h4, _⟩ := readKey_cell_of env st o n ro (fun n => ∀ d ∈ n.deletedKeys, CellNums env d ∧ d.deletedKeys = [])
    (fun k => ⟨(by intro d hd; cases hd), fun m hm => updateModifiedLists_cells hst _ k m hm⟩) h
  exact ⟨.inr ⟨o.offset, h2, h3, h4⟩, h1⟩

theorem readKey_free_safe (env : Env) (st : State) (o : ReadOptions) (hst : StateCell env st)
    (hf : ∀ st k, filterStep st o.filter k ≠ .panic) : readKey env st o ≠ .panic :=
  (readKey_safe env st o (fun _ => True) hst.attach
    (fun k _ => ⟨hf st k, fun _ _ _ => trivial⟩)).1

theorem readSubKeysLoop_free (env : Env) (st : State) (hst : StateCell env st)
    (path : Str) (f : Filter) (sf : Option Filter) (hf : ∀ st k, filterStep st sf k ≠ .panic) (sm : Bool)
    (seq : Option Nat) (gm : Bool) : ∀ (offs : List Nat) (ro : Nat) (logs : Logs),
    ∃ ns fd lg ro', readSubKeysLoop env st path f sf sm seq gm offs ro logs = .ok (ns, fd, lg, ro') ∧
      ∀ n ∈ ns, CellKey env n ∧ path.count '\\' + 1 ≤ n.key.path.count '\\' ∧
        ∃ (st : State) (k : KeyNode) (fl : FilterFlags) (r : Nat), filterStep st sf k = .ok (fl, r) ∧ fl ≠ .noMatch ∧ k.path = n.key.path := by
  intro offs
  induction offs with
  | nil => intro ro logs; exact ⟨_, _, _, _, by rw [readSubKeysLoop], by intro n hn; cases hn⟩
  | cons o os ih =>
    intro ro logs
    have hst' := hst.at ro
    have hsafe := readKey_free_safe env { st with rootOffset := ro } ⟨o, path, sf, sm, seq, gm⟩ hst' hf
    rw [readSubKeysLoop]
    cases hr : readKey env { st with rootOffset := ro } ⟨o, path, sf, sm, seq, gm⟩ with
    | panic => exact absurd hr hsafe
    | err => exact ih _ _
    | ok x =>
      obtain ⟨on, ro1⟩ := x
      cases on with
      | none => exact ih _ _
      | some n =>
        obtain ⟨ns, fd, lg, ro', h1, h2⟩ := ih ro1 logs
        simp only [h1]
        refine ⟨_, _, _, _, rfl, ?_⟩
        intro m hm
        rcases List.mem_cons.1 hm with rfl | hm
        · obtain ⟨_, _, _, _, name, hp⟩ := readKey_cell_of env _ _ n ro1 (fun _ => True) (fun _ => ⟨trivial, fun _ _ => trivial⟩) hr
          obtain ⟨k, fl, r, p1, p2, p3⟩ := readKey_passes env _ _ n ro1 hr
          refine ⟨(readKey_cellKey hst' hr).congr _ rfl rfl, ?_, _, k, fl, r, p1, p2, p3⟩
          show _ ≤ n.key.path.count '\\'
          rw [hp, List.count_append, List.count_cons_self]
          show path.count '\\' + 1 ≤ path.count '\\' + _
          omega
        · exact h2 m hm

/-- Reading the sub-keys of a key of the file: it ends well when the list does. -/
theorem readSubKeysInternal_free (env : Env) (st : State) (hst : StateCell env st)
    (n : Node) (hn : CellKey env n)
    (hl : 0 < n.key.nSubKeys → n.key.nSubKeys ≤ 1048576 →
      parseSubKeyList env.fi env.depth n.key.subKeysListOffset ≠ .panic)
    (f : Filter) (hf : ∀ sf : Option Filter, (sf = some f ∨ sf = none ∧ f.returnSubKeys = true) → ∀ st k, filterStep st sf k ≠ .panic)
    (seq : Option Nat) (gm : Bool) :
    ∃ r, readSubKeysInternal env st n f seq gm = .ok r ∧ CellKey env r.self ∧ ∀ m ∈ r.children, CellKey env m ∧
      n.key.path.count '\\' + 1 ≤ m.key.path.count '\\' ∧ (f.returnSubKeys = false →
        ∃ (st : State) (k : KeyNode) (fl : FilterFlags) (r : Nat), filterStep st (some f) k = .ok (fl, r) ∧ fl ≠ .noMatch ∧ k.path = m.key.path) := by
  unfold readSubKeysInternal
  simp only
  by_cases h1 : n.key.cellState = .Allocated
  · rw [if_pos h1]
    by_cases h2 : n.key.nSubKeys > 1024 * 1024
    · rw [if_pos h2]
      exact ⟨_, rfl, hn.congr _ rfl rfl, by intro m hm; cases hm⟩
    · rw [if_neg h2]
      by_cases h3 : 0 < n.key.nSubKeys
      · rw [if_pos h3]
        cases hp : parseSubKeyList env.fi env.depth n.key.subKeysListOffset with
        | panic => exact absurd hp (hl h3 (by omega))
        | err => exact ⟨_, rfl, hn.congr _ rfl rfl, by intro m hm; cases hm⟩
        | ok offs =>
          simp only
          have hsf : (if (n.key.isFilterMatchOrDescendent && f.returnSubKeys) = true then none else some f) = some f ∨
              (if (n.key.isFilterMatchOrDescendent && f.returnSubKeys) = true then none else some f) = none ∧
                f.returnSubKeys = true := by
            by_cases hx : (n.key.isFilterMatchOrDescendent && f.returnSubKeys) = true
            · rw [if_pos hx]; exact .inr ⟨rfl, (Bool.and_eq_true_iff.1 hx).2⟩
            · rw [if_neg hx]; exact .inl rfl
          obtain ⟨ns, fd, lg, ro', g1, g2⟩ := readSubKeysLoop_free env st hst n.key.path f _ (hf _ hsf)
            n.key.isFilterMatchOrDescendent seq gm offs st.rootOffset n.key.logs
          rw [g1]
          refine ⟨_, rfl, hn.congr _ rfl rfl, ?_⟩
          intro m hm
          obtain ⟨a1, a2, a3⟩ := g2 m hm
          refine ⟨a1, a2, fun hns => ?_⟩
          rw [if_neg (by simp [hns])] at a3
          exact a3
      · rw [if_neg h3]
        exact ⟨_, rfl, hn, by intro m hm; cases hm⟩
  · rw [if_neg h1]
    exact ⟨_, rfl, hn, by intro m hm; cases hm⟩

/-- The search by path ends well when there is room for as many calls as the filter has components. -/
theorem getSubKeyInternal_safe (env : Env)
    (hlists : ∀ o, slice env.fi.buffer (o + 4) 2 = [0x6E, 0x6B] → 0 < u32At env.fi.buffer (o + 24) →
      u32At env.fi.buffer (o + 24) ≤ 1048576 →
      parseSubKeyList env.fi env.depth (u32At env.fi.buffer (o + 32)) ≠ .panic)
    (f : Filter) (q : RegQuery) (hq : f.query = some q) (hr : q.hasRoot = true) (hch : q.children = false) :
    ∀ (fuel : Nat) (st : State) (n : Node), StateCell env st → CellKey env n → 0 < fuel →
      q.keyPath.length ≤ fuel + n.key.path.count '\\' →
      ∃ x ro, getSubKeyInternal env f none fuel st n = .ok (x, ro) ∧ ∀ m, x = some m → CellKey env m := by
  have hret : f.returnSubKeys = false := by unfold Filter.returnSubKeys; rw [hq]; exact hch
  intro fuel
  induction fuel with
  | zero => intro st n _ _ h; exact absurd h (by omega)
  | succ fuel ih =>
    intro st n hst hn _ hlen
    rw [getSubKeyInternal]
    obtain ⟨r, h1, _, h2⟩ := readSubKeysInternal_free env st hst n hn
      (by
        intro a b
        obtain ⟨c0 | ⟨o, c1, c2, c3⟩, _⟩ := hn
        · omega
        rw [c3]
        rw [c2] at a b
        exact hlists o c1 a b)
      f (by
        rintro sf (rfl | ⟨_, h⟩) st k
        · obtain ⟨fl, ro, he, _⟩ := filterStep_rooted st f q hq hr k
          rw [he]; simp
        · rw [hret] at h; cases h) none false
    rw [h1]
    simp only
    by_cases hfd : r.found = true
    · rw [if_pos hfd]
      exact ⟨_, _, rfl, fun m hm => (h2 m (List.mem_of_mem_head? hm)).1⟩
    · rw [if_neg hfd]
      have hgo : ∀ (cs : List Node) (ro : Nat), (∀ m ∈ cs, m ∈ r.children) →
          ∃ x ro', getSubKeyInternal.goKids
            (fun ro c => getSubKeyInternal env f none fuel { st with rootOffset := ro } c) ro cs = .ok (x, ro') ∧
            ∀ m, x = some m → CellKey env m := by
        intro cs
        induction cs with
        | nil => intro ro _; exact ⟨_, _, by rw [getSubKeyInternal.goKids], by intro m hm; cases hm⟩
        | cons c cs ihc =>
          intro ro hmem
          obtain ⟨c1, c2, c3⟩ := h2 c (hmem c List.mem_cons_self)
          obtain ⟨st', k, fl, r', p1, p2, p3⟩ := c3 hret
          obtain ⟨fl', ro'', e1, e2⟩ := filterStep_rooted st' f q hq hr k
          rw [p1] at e1
          cases e1
          have e2 := e2 p2
          rw [p3] at e2
          obtain ⟨x, ro', i1, i2⟩ := ih { st with rootOffset := ro } c (hst.at ro) c1 (by omega) (by omega)
          rw [getSubKeyInternal.goKids]
          rw [i1]
          cases x with
          | none => exact ihc _ (fun m hm => hmem m (List.mem_cons_of_mem _ hm))
          | some m => exact ⟨_, _, rfl, i2⟩
      exact hgo r.children r.rootOffset (fun _ h => h)

theorem getSubKeyByPath_safe (env : Env) (hd : 0 < env.depth)
    (hlists : ∀ o, slice env.fi.buffer (o + 4) 2 = [0x6E, 0x6B] → 0 < u32At env.fi.buffer (o + 24) →
      u32At env.fi.buffer (o + 24) ≤ 1048576 →
      parseSubKeyList env.fi env.depth (u32At env.fi.buffer (o + 32)) ≠ .panic)
    (st : State) (hst : StateCell env st) (n : Node) (hn : CellKey env n) (sub : Str)
    (hlen : sub.count '\\' + 2 ≤ env.depth) :
    ∃ x ro, getSubKeyByPath env st n sub = .ok (x, ro) ∧ ∀ m, x = some m → CellKey env m := by
  unfold getSubKeyByPath
  by_cases hs : sub = []
  · rw [if_pos hs]
    exact ⟨_, _, rfl, by intro m hm; cases hm; exact hn⟩
  · rw [if_neg hs]
    obtain ⟨l1, l2⟩ := pushLit_length (splitBackslash (trimEndBackslash (n.key.path ++ '\\' :: sub))) {}
    have hb : ((({} : FilterBuilder).addKeyPath (n.key.path ++ '\\' :: sub)).keyPathHasRoot true).build =
        .ok { query := some {
          keyPath := (({} : FilterBuilder).addKeyPath (n.key.path ++ '\\' :: sub)).keyPath
          hasRoot := true
          children := (({} : FilterBuilder).addKeyPath (n.key.path ++ '\\' :: sub)).children } } := by
      unfold FilterBuilder.build
      rw [if_pos (by exact l2)]
      rfl
    rw [hb]
    have hch : ∀ (l : List Str) (b : FilterBuilder), (l.foldl FilterBuilder.pushLit b).children = b.children := by
      intro l
      induction l with
      | nil => intro b; rfl
      | cons a as ih => intro b; rw [List.foldl_cons, ih]; rfl
    refine getSubKeyInternal_safe env hlists _ _ rfl rfl (hch _ _) env.depth st n hst hn hd ?_
    show (({} : FilterBuilder).addKeyPath (n.key.path ++ '\\' :: sub)).keyPath.length ≤ _
    unfold FilterBuilder.addKeyPath
    rw [l1, splitBackslash_length]
    have := trimEnd_count (n.key.path ++ '\\' :: sub)
    rw [List.count_append, List.count_cons_self] at this
    show 0 + _ ≤ _
    omega

/-- What the search by path finds is a key of the file. -/
theorem found_cell (env : Env) (f : Filter) (fuel : Nat) (st : State) (self n : Node) (ro : Nat)
    (hst : StateCell env st) (h : getSubKeyInternal env f none fuel st self = .ok (some n, ro)) :
    CellKey env n := by
  induction fuel generalizing st self n ro with
  | zero => rw [getSubKeyInternal] at h; cases h
  | succ fuel ih =>
    rw [getSubKeyInternal] at h
    cases hr : readSubKeysInternal env st self f none false with
    | err => rw [hr] at h; cases h
    | panic => rw [hr] at h; cases h
    | ok r =>
      rw [hr] at h
      simp only at h
      have hall := readSubKeysInternal_all env (CellKey env) (fun st => StateCell env st) false
        (fun _ _ => True) (fun _ => True) (fun _ ro h => h.at ro)
        (fun st o n ro hst _ _ _ hr => readKey_cellKey hst hr) (fun n sm v hn => hn.congr _ rfl rfl)
        st self f none r hst ⟨trivial, trivial⟩ trivial hr
      by_cases hf : r.found = true
      · rw [if_pos hf] at h
        simp only [Res.ok.injEq, Prod.mk.injEq] at h
        exact hall n (List.mem_of_mem_head? h.1)
      · rw [if_neg hf] at h
        have hgo : ∀ (cs : List Node) (ro0 : Nat), getSubKeyInternal.goKids
            (fun ro c => getSubKeyInternal env f none fuel { st with rootOffset := ro } c) ro0 cs
            = .ok (some n, ro) → CellKey env n := by
          intro cs
          induction cs with
          | nil => intro ro0 h; rw [getSubKeyInternal.goKids] at h; cases h
          | cons c cs ihc =>
            intro ro0 h
            rw [getSubKeyInternal.goKids] at h
            cases hc : getSubKeyInternal env f none fuel { st with rootOffset := ro0 } c with
            | err => rw [hc] at h; cases h
            | panic => rw [hc] at h; cases h
            | ok x =>
              obtain ⟨on, ro1⟩ := x
              rw [hc] at h
              cases on with
              | none => exact ihc ro1 h
              | some m =>
                cases h
                exact ih { st with rootOffset := ro0 } c _ _ (hst.at ro0) hc
        exact hgo _ _ h

end Notatin
