import Verif.Props.SubKey
/-
C42: attaching recorded deleted and modified items to the keys read.
-/
namespace Notatin
open Spec

/-- In a list with the newest first, what stands before something written at sequence number `y` was
written at `y` or later; things of no sequence number (read from the primary file) come last. -/
def Spec.NotOlder (a b : Option Nat) : Prop := ∀ y, b = some y → ∃ x, a = some x ∧ y ≤ x

/-- What the recovery state has on record for the path `p` is attached to `m`, which was read as
`n`: the deleted keys in order (each possibly with attachments of its own), the earlier versions,
the earlier versions of each value, both with the newest first, and after the values read the
deleted values by name. -/
def Spec.Attached (st : State) (p : Str) (n m : Node) : Prop :=
  m.key = { n.key with values := m.key.values } ∧
  (∀ ds, st.deletedKeys p = some ds →
    Pairwise2 (fun d d' => d'.key = { d.key with values := d'.key.values }) ds m.deletedKeys) ∧
  (∀ vs, st.modifiedKeys p = some vs → m.versions.Perm vs ∧
    m.versions.Pairwise (fun a b => NotOlder a.key.seq b.key.seq)) ∧
  ∃ own del, m.key.values = own ++ del ∧ del.Perm ((st.deletedValues p).getD []) ∧
    del.Pairwise (fun a b => a.val.name.map Char.toNat ≤ b.val.name.map Char.toNat) ∧
    Pairwise2 (fun v v' => v'.val = v.val ∧
      ∀ vs, st.modifiedValues (p, v.val.name) = some vs → v'.versions.Perm vs ∧
        v'.versions.Pairwise (fun a b => NotOlder a.val.seq b.val.seq)) n.key.values own

theorem attachLoop_pairs (st : State) (fuel off : Nat) (ds ds' : List Node)
    (h : updateModifiedLists.attachLoop (updateModifiedLists st fuel) off ds = .ok ds') :
    Pairwise2 (fun d d' => d'.key = { d.key with values := d'.key.values }) ds ds' := by
  induction ds generalizing ds' with
  | nil => cases h; trivial
  | cons d ds ih =>
    rw [updateModifiedLists.attachLoop] at h
    cases h1 : (if d.key.fileOffset ≠ off then updateModifiedLists st fuel d else .ok d) with
    | err => rw [h1] at h; cases h
    | panic => rw [h1] at h; cases h
    | ok d' =>
      rw [h1] at h
      simp only at h
      cases h2 : updateModifiedLists.attachLoop (updateModifiedLists st fuel) off ds with
      | err => rw [h2] at h; cases h
      | panic => rw [h2] at h; cases h
      | ok ds2 =>
        rw [h2] at h
        cases h
        refine ⟨?_, ih ds2 h2⟩
        by_cases hd : d.key.fileOffset ≠ off
        · rw [if_pos hd] at h1
          exact updateModifiedLists_key st fuel d d' h1
        · rw [if_neg hd] at h1
          cases h1
          rfl

theorem seqGe_trans (a b c : Option Nat) (h1 : seqGe a b = true) (h2 : seqGe b c = true) : seqGe a c = true := by
  cases a <;> cases b <;> cases c <;> simp_all [seqGe]
  omega

theorem seqGe_total (a b : Option Nat) : (seqGe a b || seqGe b a) = true := by
  cases a <;> cases b <;> simp [seqGe]
  omega

theorem seqGe_notOlder (a b : Option Nat) (h : seqGe a b = true) : NotOlder a b := by
  intro y e
  subst e
  cases a with
  | none => cases h
  | some x => exact ⟨x, rfl, of_decide_eq_true h⟩

theorem strLe_trans : ∀ a b c : Str, strLe a b = true → strLe b c = true → strLe a c = true
  | [], _, _, _, _ => rfl
  | _ :: _, [], _, h, _ => by cases h
  | _ :: _, _ :: _, [], _, h => by cases h
  | a :: as, b :: bs, c :: cs, h1, h2 => by
    rw [strLe] at h1 h2 ⊢
    by_cases hab : a.toNat < b.toNat
    · by_cases hbc : b.toNat < c.toNat
      · rw [if_pos (by omega)]
      · rw [if_neg hbc] at h2
        by_cases e : b = c
        · rw [if_pos (by rw [← e]; exact hab)]
        · rw [if_neg e] at h2; cases h2
    · rw [if_neg hab] at h1
      by_cases e : a = b
      · rw [if_pos e] at h1
        subst e
        by_cases hbc : a.toNat < c.toNat
        · rw [if_pos hbc]
        · rw [if_neg hbc] at h2 ⊢
          by_cases e : a = c
          · rw [if_pos e] at h2 ⊢
            exact strLe_trans as bs cs h1 h2
          · rw [if_neg e] at h2; cases h2
      · rw [if_neg e] at h1; cases h1

theorem char_toNat_inj {a b : Char} (h : a.toNat = b.toNat) : a = b := by
  apply Char.ext
  apply UInt32.toNat_inj.1
  exact h

theorem strLe_total : ∀ a b : Str, (strLe a b || strLe b a) = true
  | [], _ => by simp [strLe]
  | _ :: _, [] => by simp [strLe]
  | a :: as, b :: bs => by
    rw [strLe, strLe]
    by_cases h1 : a.toNat < b.toNat
    · rw [if_pos h1]; rfl
    · by_cases h2 : b.toNat < a.toNat
      · rw [if_pos h2, Bool.or_true]
      · have e : a = b := char_toNat_inj (by omega)
        subst e
        rw [if_neg h1, if_pos rfl, if_neg h1, if_pos rfl]
        exact strLe_total as bs

theorem strLe_lt : ∀ a b : Str, strLe a b = true → a ≠ b → a.map Char.toNat < b.map Char.toNat
  | [], [], _, h => absurd rfl h
  | [], _ :: _, _, _ => by simp
  | _ :: _, [], h, _ => by cases h
  | a :: as, b :: bs, h, hne => by
    rw [strLe] at h
    rw [List.map_cons, List.map_cons, List.cons_lt_cons_iff]
    by_cases h1 : a.toNat < b.toNat
    · exact .inl h1
    · rw [if_neg h1] at h
      by_cases e : a = b
      · subst e
        rw [if_pos rfl] at h
        exact .inr ⟨rfl, strLe_lt as bs h fun e => hne (by rw [e])⟩
      · rw [if_neg e] at h; cases h

theorem strLe_le (a b : Str) (h : strLe a b = true) : a.map Char.toNat ≤ b.map Char.toNat := by
  by_cases e : a = b
  · rw [e]; exact List.le_refl _
  · exact List.le_of_lt (strLe_lt a b h e)

/-- The path under which the items of a key are looked up: its own, or the empty one for a
root-flagged key. -/
def lookupKey (k : KeyNode) : Str := if k.flagBits.testBit 2 then [] else k.path

/-- C42: whenever attaching succeeds on a key that is not itself recovered from the primary file,
everything on record under the lookup path is attached. -/
theorem attached_all (st : State) (fuel : Nat) (n m : Node)
    (hn : n.key.cellState.isDeletedPrimaryFile = false)
    (h : updateModifiedLists st fuel n = .ok m) : Attached st (lookupKey n.key) n m := by
  have hkey := updateModifiedLists_key st fuel n m h
  cases fuel with
  | zero => simp [updateModifiedLists] at h
  | succ fuel =>
    rw [updateModifiedLists] at h
    simp only at h
    rw [isKeyRoot_iff, if_neg (by simp [hn])] at h
    have e : (if n.key.flagBits.testBit 2 = true then [] else n.key.path) = lookupKey n.key := rfl
    rw [e] at h
    clear e
    generalize lookupKey n.key = p at *
    cases hd : updateModifiedLists.attachDeleted (updateModifiedLists st fuel) n.key.fileOffset n.deletedKeys
        (st.deletedKeys p) with
    | err => rw [hd] at h; cases h
    | panic => rw [hd] at h; cases h
    | ok deleted =>
      rw [hd] at h
      simp only [Res.ok.injEq] at h
      refine ⟨hkey, ?_, ?_, ?_⟩
      · intro ds hds
        rw [hds, updateModifiedLists.attachDeleted] at hd
        rw [← h]
        exact attachLoop_pairs st fuel _ ds deleted hd
      · intro vs hvs
        rw [← h]
        simp only [Node.versions]
        rw [hvs]
        exact ⟨List.mergeSort_perm _ _, (List.pairwise_mergeSort (le := fun a b : Node => seqGe a.key.seq b.key.seq)
          (fun a b c => seqGe_trans a.key.seq b.key.seq c.key.seq)
          (fun a b => seqGe_total a.key.seq b.key.seq) vs).imp fun h => seqGe_notOlder _ _ h⟩
      · have hown : Pairwise2 (fun v v' : Value => v'.val = v.val ∧
            ∀ vs, st.modifiedValues (p, v.val.name) = some vs → v'.versions.Perm vs ∧
              v'.versions.Pairwise (fun a b => NotOlder a.val.seq b.val.seq))
            n.key.values (n.key.values.map (attachVersions st p)) := by
          generalize n.key.values = l
          induction l with
          | nil => trivial
          | cons v l ih =>
            refine ⟨?_, ih⟩
            unfold attachVersions
            cases hv : st.modifiedValues (p, v.val.name) with
            | none => exact ⟨rfl, by intro vs h; rw [hv] at h; cases h⟩
            | some vs =>
              refine ⟨rfl, ?_⟩
              intro vs' h
              rw [hv] at h
              cases h
              exact ⟨List.mergeSort_perm _ _, (List.pairwise_mergeSort
                (le := fun a b : Value => seqGe a.val.seq b.val.seq)
                (fun a b c => seqGe_trans a.val.seq b.val.seq c.val.seq)
                (fun a b => seqGe_total a.val.seq b.val.seq) vs).imp fun h => seqGe_notOlder _ _ h⟩
        rw [← h]
        cases hdv : st.deletedValues p with
        | none => exact ⟨_, [], (List.append_nil _).symm, List.Perm.refl _, List.Pairwise.nil, hown⟩
        | some dv => exact ⟨_, _, rfl, List.mergeSort_perm _ _, (List.pairwise_mergeSort
            (le := fun a b : Value => strLe a.val.name b.val.name)
            (fun a b c => strLe_trans a.val.name b.val.name c.val.name)
            (fun a b => strLe_total a.val.name b.val.name) dv).imp fun h => strLe_le _ _ h, hown⟩

/-- C42: attaching ends when no recorded deleted key is root-flagged, every one has a longer path
than the one it is recorded under, and the stack has room for one call per character of the
longest path. -/
theorem attach_ends (st : State) (L : Nat)
    (hrec : ∀ p ds, st.deletedKeys p = some ds → (ds ≠ [] → p.length ≤ L) ∧
      ∀ d ∈ ds, d.key.flagBits.testBit 2 = false ∧ p.length < d.key.path.length)
    (fuel : Nat) : ∀ n : Node, L + 1 < fuel + (lookupKey n.key).length →
      0 < fuel → updateModifiedLists st fuel n ≠ .panic := by
  induction fuel with
  | zero => intro n _ h; omega
  | succ fuel ih =>
    intro n hf _
    rw [updateModifiedLists]
    simp only
    rw [isKeyRoot_iff]
    by_cases hdp : n.key.cellState.isDeletedPrimaryFile = true
    · rw [if_pos hdp]; simp
    · rw [if_neg hdp]
      have e : (if n.key.flagBits.testBit 2 = true then [] else n.key.path) = lookupKey n.key := rfl
      rw [e]
      clear e
      generalize lookupKey n.key = p at *
      have : updateModifiedLists.attachDeleted (updateModifiedLists st fuel) n.key.fileOffset n.deletedKeys
          (st.deletedKeys p) ≠ .panic := by
        cases hd : st.deletedKeys p with
        | none => simp [updateModifiedLists.attachDeleted]
        | some ds =>
          obtain ⟨hL, hds⟩ := hrec p ds hd
          rw [updateModifiedLists.attachDeleted]
          clear hd
          by_cases hne : ds = []
          · rw [hne]; simp [updateModifiedLists.attachLoop]
          replace hL := hL hne
          clear hne
          induction ds with
          | nil => simp [updateModifiedLists.attachLoop]
          | cons d ds ihd =>
            rw [updateModifiedLists.attachLoop]
            obtain ⟨hroot, hlen⟩ := hds d List.mem_cons_self
            have h1 : (if d.key.fileOffset ≠ n.key.fileOffset then updateModifiedLists st fuel d else .ok d) ≠ .panic := by
              split
              · apply ih d
                · simp only [lookupKey, hroot]
                  simp only [Bool.false_eq_true, if_false]
                  omega
                · omega
              · simp
            have h2 := ihd (fun d hd => hds d (List.mem_cons_of_mem _ hd))
            cases h3 : (if d.key.fileOffset ≠ n.key.fileOffset then updateModifiedLists st fuel d else .ok d) with
            | err => simp
            | panic => exact absurd h3 h1
            | ok d' =>
              simp only
              cases h4 : updateModifiedLists.attachLoop (updateModifiedLists st fuel) n.key.fileOffset ds with
              | err => simp
              | panic => exact absurd h4 h2
              | ok => simp
      cases hr : updateModifiedLists.attachDeleted (updateModifiedLists st fuel) n.key.fileOffset n.deletedKeys
          (st.deletedKeys p) with
      | err => simp
      | panic => exact absurd hr this
      | ok => simp

/-- C42: under the conditions of `attach_ends`, every key that is not root-flagged gets everything
recorded under its path. -/
theorem attach_partial (st : State) (L : Nat)
    (hrec : ∀ p ds, st.deletedKeys p = some ds → (ds ≠ [] → p.length ≤ L) ∧
      ∀ d ∈ ds, d.key.flagBits.testBit 2 = false ∧ p.length < d.key.path.length)
    (n : Node) (hroot : n.key.flagBits.testBit 2 = false)
    (hn : n.key.cellState.isDeletedPrimaryFile = false) :
    ∃ m, updateModifiedLists st (L + 2) n = .ok m ∧ Attached st n.key.path n m := by
  have h := attach_ends st L hrec (L + 2) n (by omega) (by omega)
  cases hm : updateModifiedLists st (L + 2) n with
  | panic => exact absurd hm h
  | err => exact absurd hm (updateModifiedLists_no_err st _ n)
  | ok m =>
    refine ⟨m, rfl, ?_⟩
    have := attached_all st _ n m hn hm
    rwa [lookupKey, if_neg (by simp [hroot])] at this

/-- C42, the full claim: any recovery state with longer paths below shorter ones, any key. -/
def AttachClaim : Prop :=
  ∀ (st : State) (n : Node), n.key.cellState.isDeletedPrimaryFile = false →
    ∃ fuel m, updateModifiedLists st fuel n = .ok m ∧ Attached st n.key.path n m

/-- A deleted key `\RT\d`. -/
def rootDeletedKeys : List Node := [.mk { defaultKey with fileOffset := 1000, path := "\\RT\\d".toList } [] []]

/-- The deleted key `d` recorded where the log analysis records it: under the path of the root. -/
def rootDeleted : State :=
  { deletedKeys := fun p => if p = "\\RT".toList then
      some rootDeletedKeys else none }

/-- The root key `\RT`. -/
def rootNode : Node := .mk { defaultKey with fileOffset := 32, flagBits := 0x24, path := "\\RT".toList } [] []

/-- C42 fails for the root key: what is recorded under its path is never attached, since the root
looks under the empty path. -/
theorem attach_root_violated : ¬ AttachClaim := by
  intro h
  obtain ⟨fuel, m, h1, _, h2, _⟩ := h rootDeleted rootNode (by decide)
  have h3 : m.deletedKeys = [] := by
    cases fuel with
    | zero => simp [updateModifiedLists] at h1
    | succ fuel =>
      rw [updateModifiedLists] at h1
      have hp : rootDeleted.deletedKeys [] = none := by decide +kernel
      simp only [show (rootNode.key.isKeyRoot = true) from by decide +kernel, if_true, hp,
        updateModifiedLists.attachDeleted,
        show (rootNode.key.cellState.isDeletedPrimaryFile = true) = False from by decide +kernel, if_false,
        Res.ok.injEq] at h1
      rw [← h1]; rfl
  have h4 := h2 rootDeletedKeys (by simp only [rootDeleted]; exact if_pos (by decide +kernel))
  rw [h3] at h4
  exact h4

/-- An earlier root key. -/
def earlierRoot (off : Nat) (name : Str) : Node :=
  .mk { defaultKey with fileOffset := off, flagBits := 0x24, path := '\\' :: name } [] []

/-- Two of them. -/
def earlierRoots : List Node := [earlierRoot 100 ['A'], earlierRoot 200 ['B']]

/-- These two root keys (the root was renamed twice), recorded under the empty path. -/
def twoRoots : State :=
  { deletedKeys := fun p => if p = [] then
      some earlierRoots else none }

/-- C42: with two deleted root keys on record, attaching never ends: whatever the stack size, it
overflows. -/
theorem attach_loops_violated (fuel : Nat) : ∀ n : Node, n.key.flagBits.testBit 2 = true →
    n.key.cellState.isDeletedPrimaryFile = false →
    updateModifiedLists twoRoots fuel n = .panic := by
  induction fuel with
  | zero => intro n _ _; rfl
  | succ fuel ih =>
    intro n hn hd
    rw [updateModifiedLists]
    simp only
    rw [isKeyRoot_iff, hn, if_pos rfl, if_neg (by simp [hd])]
    have hA := ih (earlierRoot 100 ['A']) (by decide) (by decide)
    have hB := ih (earlierRoot 200 ['B']) (by decide) (by decide)
    have oA : (earlierRoot 100 ['A']).key.fileOffset = 100 := rfl
    have oB : (earlierRoot 200 ['B']).key.fileOffset = 200 := rfl
    have : updateModifiedLists.attachDeleted (updateModifiedLists twoRoots fuel) n.key.fileOffset n.deletedKeys
        (twoRoots.deletedKeys []) = .panic := by
      rw [show twoRoots.deletedKeys [] = some earlierRoots from by simp only [twoRoots]; exact if_pos trivial, updateModifiedLists.attachDeleted,
        earlierRoots, updateModifiedLists.attachLoop, updateModifiedLists.attachLoop, hA, hB, oA, oB]
      by_cases h : (100 : Nat) ≠ n.key.fileOffset
      · rw [if_pos h]
      · rw [if_neg h, if_pos (show (200 : Nat) ≠ n.key.fileOffset by omega)]
    rw [this]

/-- A key `d` deleted below `\RT\a`: the conditions of `attach_partial` hold. -/
example : ∃ m, updateModifiedLists exampleState 7
      (.mk { defaultKey with path := "\\RT\\a".toList, flagBits := 0x20 } [] []) = .ok m ∧
    Attached exampleState "\\RT\\a".toList (.mk { defaultKey with path := "\\RT\\a".toList, flagBits := 0x20 } [] []) m :=
  attach_partial exampleState 5 (by
    intro p ds h
    simp only [exampleState] at h
    split at h
    · rename_i hp
      cases h
      subst hp
      exact ⟨by decide, by intro d hd; rw [List.mem_singleton.1 hd]; decide +kernel⟩
    · cases h) _ (by decide) (by decide)

end Notatin
