import Verif.Spec.Stages
import Verif.Lemmas.Slashed
import Verif.Lemmas.SafeIter
import Verif.Props.StateMaps
import Verif.Props.SafeRecover
/-
Lemmas for C86: comparing the states of a file between log entries does not panic.
-/
namespace Notatin
open Spec

/-! ### Names without backslashes -/

theorem ofNat_backslash {n : Nat} (h : Char.ofNat n = '\\') : n = 92 := by
  unfold Char.ofNat at h
  split at h
  · rename_i hv
    have h1 : (Char.ofNatAux n hv).toNat = n := rfl
    rw [← h1, h]
    rfl
  · exact absurd h (by decide)

theorem replacement_ne : replacementChar ≠ '\\' := by decide

theorem decodeLoop_backslash : ∀ (k : Nat) (us : List (Option Nat)) (lg : Logs) (s : Str) (n : Nat) (lg' : Logs),
    us.length ≤ k → decodeLoop us lg = .ok (s, n, lg') → '\\' ∈ s → some 92 ∈ us := by
  intro k
  induction k with
  | zero =>
    intro us lg s n lg' hk h hs
    obtain rfl := List.length_eq_zero_iff.1 (Nat.le_zero.1 hk)
    rw [decodeLoop] at h
    cases h
    cases hs
  | succ k ih =>
    intro us lg s n lg' hk h hs
    have hcons : ∀ (c : Char) (us' : List (Option Nat)) (lg1 : Logs), c ≠ '\\' → us'.length ≤ k →
        (match decodeLoop us' lg1 with
          | .ok (s, n, logs) => Res.ok (c :: s, n + 1, logs)
          | .err => .err
          | .panic => .panic) = .ok (s, n, lg') → some 92 ∈ us' := by
      intro c us' lg1 hc hl he
      split at he
      · rename_i s1 n1 l1 hd
        cases he
        rcases List.mem_cons.1 hs with h1 | h1
        · exact absurd h1.symm hc
        · exact ih _ _ _ _ _ hl hd h1
      · cases he
      · cases he
    cases us with
    | nil => rw [decodeLoop] at h; cases h; cases hs
    | cons u us =>
      have hl : us.length ≤ k := by simp only [List.length_cons] at hk; omega
      cases u with
      | none => rw [decodeLoop] at h; cases h
      | some u =>
        by_cases hu : u = 92
        · rw [hu]; exact List.mem_cons_self
        · rw [decodeLoop.eq_def] at h
          simp only at h
          split at h
          · split at h
            · cases h; cases hs
            · exact List.mem_cons_of_mem _ (hcons _ _ _ (fun he => hu (ofNat_backslash he)) hl h)
          · split at h
            · exact List.mem_cons_of_mem _ (hcons _ _ _ replacement_ne hl h)
            · split at h
              · cases h
                rcases List.mem_cons.1 hs with h1 | h1
                · exact absurd h1.symm replacement_ne
                · cases h1
              · cases h
              · rename_i u2 rest
                simp only [List.length_cons] at hl
                split at h
                · refine List.mem_cons_of_mem _ (List.mem_cons_of_mem _ (hcons _ _ _ (fun he => ?_) (by omega) h))
                  have := ofNat_backslash he
                  omega
                · exact List.mem_cons_of_mem _ (hcons _ _ _ replacement_ne (by simpa using hl) h)

theorem latin1_backslash {bs : Bytes} (h : '\\' ∈ latin1 bs) : ∃ i : Nat, i < bs.length ∧ (bs[i]?.getD 0).toNat = 92 := by
  obtain ⟨b, hb, he⟩ := List.mem_map.1 h
  obtain ⟨i, hi, rfl⟩ := List.mem_iff_getElem.1 hb
  refine ⟨i, hi, ?_⟩
  rw [List.getElem?_eq_getElem hi]
  exact ofNat_backslash he

theorem slice_byte (buf : Bytes) (o n i : Nat) (hi : i < n) : ((slice buf o n)[i]?.getD 0).toNat = byteAt buf (o + i) := by
  unfold slice byteAt
  rw [List.getElem?_take, if_pos hi, List.getElem?_drop]

theorem leNat2 (buf : Bytes) (o : Nat) : leNat (slice buf o 2) = byteAt buf o + 256 * byteAt buf (o + 1) := by
  have h0 := slice_byte buf o 2 0 (by omega)
  have h1 := slice_byte buf o 2 1 (by omega)
  have hl : (slice buf o 2).length ≤ 2 := by unfold slice; rw [List.length_take]; omega
  rw [Nat.add_zero] at h0
  rw [← h0, ← h1]
  generalize slice buf o 2 = l at hl
  match l, hl with
  | [], _ => rfl
  | [a], _ => simp [leNat]
  | [a, b], _ => simp [leNat]

theorem low_bit (buf : Bytes) (o j : Nat) (hj : j < 8) : (leNat (slice buf o 2)).testBit j = (byteAt buf o).testBit j := by
  rw [leNat2, Nat.add_comm, show (256 : Nat) = 2 ^ 8 from rfl, Nat.testBit_two_pow_mul_add _ (show byteAt buf o < 2 ^ 8 from UInt8.toNat_lt _), if_pos hj]

theorem asciiFlag_iff (flags : Nat) : containsFlag (flags &&& keyNodeFlagsMask) 0x20 = flags.testBit 5 := by
  show (flags &&& keyNodeFlagsMask &&& 0x20 == 0x20) = _
  have hb : ∀ i, (0x20 : Nat).testBit i = decide (i = 5) := by
    intro i
    have := @Nat.testBit_two_pow 5 i
    rw [show (0x20 : Nat) = 2 ^ 5 from rfl, this]
    by_cases h : i = 5
    · subst h; rfl
    · simp [h]; omega
  rw [Bool.eq_iff_iff, beq_iff_eq]
  constructor
  · intro h
    have := congrArg (fun n => n.testBit 5) h
    simp only [Nat.testBit_and] at this
    rw [show (0x20 : Nat).testBit 5 = true from rfl, show keyNodeFlagsMask.testBit 5 = true from by decide] at this
    simpa using this
  · intro h
    apply Nat.eq_of_testBit_eq
    intro i
    rw [Nat.testBit_and, Nat.testBit_and, hb]
    by_cases hi : i = 5
    · subst hi; rw [h]; decide
    · simp [hi]

/-- The name read from an orderly file. -/
theorem orderly_name {buf : Bytes} (ho : OrderlyKeys buf) (o : Nat) (hsig : slice buf (o + 4) 2 = [0x6E, 0x6B])
    (lg lg' : Logs) (name : Str)
    (h : stringFromBytes (containsFlag (leNat (slice buf (o + 6) 2) &&& keyNodeFlagsMask) 0x20)
      (slice buf (o + 80) (leNat (slice buf (o + 76) 2))) (leNat (slice buf (o + 76) 2)) lg = .ok (name, lg')) :
    '\\' ∉ name := by
  have e4 : byteAt buf (o + 4) = 0x6E := by
    have := slice_byte buf (o + 4) 2 0 (by omega)
    rw [hsig] at this
    exact this.symm
  have e5 : byteAt buf (o + 5) = 0x6B := by
    have := slice_byte buf (o + 4) 2 1 (by omega)
    rw [hsig] at this
    exact this.symm
  have hn := (ho o e4 e5).2
  have hbit : containsFlag (leNat (slice buf (o + 6) 2) &&& keyNodeFlagsMask) 0x20 = (byteAt buf (o + 6)).testBit 5 := by
    rw [asciiFlag_iff, low_bit _ _ 5 (by omega)]
  rw [hbit] at h
  rw [← leNat2 buf (o + 76)] at hn
  generalize leNat (slice buf (o + 76) 2) = n at *
  intro hc
  unfold stringFromBytes at h
  split at h
  · rename_i hb
    rw [if_pos hb] at hn
    rw [ascii_latin1] at h
    cases h
    obtain ⟨i, hi, he⟩ := latin1_backslash hc
    have hi' : i < n := by
      unfold slice at hi
      rw [List.length_take] at hi
      omega
    rw [slice_byte _ _ _ _ hi'] at he
    exact hn i hi' he
  · rename_i hb
    rw [if_neg hb] at hn
    unfold fromUtf16LeString at h
    split at h
    · split at h
      · rename_i s k lg1 hs
        cases h
        unfold fromUtf16Single at hs
        split at hs
        · rename_i hd
          cases hs
          have hm := decodeLoop_backslash _ _ _ _ _ _ (Nat.le_refl _) hd hc
          obtain ⟨i, hi, he⟩ := List.mem_map.1 hm
          have hi := List.mem_range.1 hi
          unfold unitAt at he
          have h0 := slice_byte buf (o + 80) n (2 * i) (by omega)
          have h1 := slice_byte buf (o + 80) n (2 * i + 1) (by omega)
          split at he
          · rename_i a b ha hb'
            rw [ha] at h0
            rw [hb'] at h1
            simp only [Option.getD_some] at h0 h1
            simp only [Option.some.injEq] at he
            have := a.toNat_lt
            have := b.toNat_lt
            refine hn i (by omega) ⟨by omega, ?_⟩
            rw [show o + 81 + 2 * i = o + 80 + (2 * i + 1) by omega, ← h1]
            omega
          · cases he
        · cases hs
        · cases hs
      · cases h
      · cases h
    · cases h

/-! ### Keys in their places -/

/-- How deep a path is. -/
def level (p : Str) : Nat := p.count '\\'

theorem level_below (q name : Str) (h : '\\' ∉ name) : level (q ++ '\\' :: name) = level q + 1 := by
  unfold level
  rw [List.count_append, List.count_cons_self, List.count_eq_zero.2 h]

theorem parentPath_below (q name : Str) (h : '\\' ∉ name) : parentPath (q ++ '\\' :: name) = q := by
  unfold parentPath
  rw [if_pos (by simp)]
  have : (q ++ '\\' :: name).reverse = name.reverse ++ '\\' :: q.reverse := by simp
  rw [this, List.dropWhile_append_of_pos (by
    intro c hc
    have : c ≠ '\\' := fun e => h (e ▸ List.mem_reverse.1 hc)
    simpa using this)]
  simp

/-- The path of a key, at most `B` deep; a key right behind the header of the first bin is at the top. -/
def Placed (B : Nat) (path : Str) (off : Nat) : Prop :=
  ∃ q name, path = q ++ '\\' :: name ∧ '\\' ∉ name ∧ level q + 1 ≤ B ∧ (off = 4128 → q = [])

theorem Placed.up {B : Nat} {path : Str} {off : Nat} (h : Placed B path off) :
    level (parentPath path) + 1 ≤ B ∧ (off = 4128 → parentPath path = []) := by
  obtain ⟨q, name, rfl, h1, h2, h3⟩ := h
  rw [parentPath_below q name h1]
  exact ⟨h2, h3⟩

structure KeyFine (B : Nat) (k : KeyNode) : Prop where
  placed : Placed B k.path k.fileOffset
  hash : k.hash ≠ none
  values : ∀ v ∈ k.values, v.val.hash ≠ none

/-- A key with the deleted keys attached to it. -/
inductive Fine (B : Nat) : Node → Prop
  | mk (k : KeyNode) (vs ds : List Node) (hk : KeyFine B k) (hd : ∀ d ∈ ds, Fine B d) : Fine B (.mk k vs ds)

theorem fine_iff {B : Nat} (n : Node) : Fine B n ↔ KeyFine B n.key ∧ ∀ d ∈ n.deletedKeys, Fine B d := by
  cases n with
  | mk k vs ds =>
    constructor
    · rintro ⟨_, _, _, h1, h2⟩; exact ⟨h1, h2⟩
    · rintro ⟨h1, h2⟩; exact ⟨_, _, _, h1, h2⟩

/-- A key as it is recorded under a path. -/
structure Rec (B : Nat) (q : Str) (d : Node) : Prop where
  fine : KeyFine B d.key
  place : ∃ name, d.key.path = q ++ '\\' :: name ∧ '\\' ∉ name
  dead : d.key.cellState ≠ .Allocated
  bare : d.deletedKeys = []
  kind : d.key.cellState.isDeletedPrimaryFile = true ∨ (d.key.isKeyRoot = true → d.key.fileOffset = 4128)

structure StFine (B : Nat) (st : State) : Prop where
  keys : ∀ q ds, st.deletedKeys q = some ds → ∀ d ∈ ds, Rec B q d
  values : ∀ q vs, st.deletedValues q = some vs → ∀ v ∈ vs, v.val.hash ≠ none

theorem Rec.topmost {B : Nat} {q : Str} {d : Node} (h : Rec B q d) (ho : d.key.fileOffset = 4128) : q = [] := by
  obtain ⟨name, e1, e2⟩ := h.place
  have := h.fine.placed.up.2 ho
  rwa [e1, parentPath_below q name e2] at this

theorem attachLoop_safe (f : Node → Res Node) (off : Nat) : ∀ l : List Node,
    (∀ d ∈ l, d.key.fileOffset ≠ off → f d ≠ .panic) → updateModifiedLists.attachLoop f off l ≠ .panic := by
  intro l
  induction l with
  | nil => intro _; simp [updateModifiedLists.attachLoop]
  | cons a as ih =>
    intro h
    rw [updateModifiedLists.attachLoop]
    have ha := h a List.mem_cons_self
    have has := ih (fun d hd => h d (List.mem_cons_of_mem _ hd))
    split
    · simp
    · rename_i hp
      split at hp
      · rename_i hne; exact absurd hp (ha hne)
      · cases hp
    · split
      · simp
      · rename_i hp; exact absurd hp has
      · simp

theorem update_step (st : State) (fuel : Nat) (n : Node)
    (h : n.key.cellState.isDeletedPrimaryFile = false →
      ∀ ds, st.deletedKeys (if n.key.isKeyRoot then [] else n.key.path) = some ds →
      ∀ d ∈ ds, d.key.fileOffset ≠ n.key.fileOffset → updateModifiedLists st fuel d ≠ .panic) :
    updateModifiedLists st (fuel + 1) n ≠ .panic := by
  rw [updateModifiedLists]
  simp only
  split
  · simp
  · rename_i hd
    have h := h (by simpa using hd)
    generalize (if n.key.isKeyRoot = true then [] else n.key.path) = q at *
    cases hq : st.deletedKeys q with
    | none => simp [updateModifiedLists.attachDeleted]
    | some ds =>
      rw [updateModifiedLists.attachDeleted]
      have := attachLoop_safe _ _ ds (h ds hq)
      split
      · simp
      · rename_i hp; exact absurd hp this
      · simp

theorem attach_under {B : Nat} {st : State} (hst : StFine B st) : ∀ (m fuel : Nat) (n : Node),
    ((if n.key.isKeyRoot then [] else n.key.path) = [] → n.key.fileOffset = 4128) →
    B ≤ m + level (if n.key.isKeyRoot then [] else n.key.path) → m + 2 ≤ fuel →
    updateModifiedLists st fuel n ≠ .panic := by
  intro m
  induction m with
  | zero =>
    intro fuel n htop hB hf
    obtain ⟨fuel, rfl⟩ : ∃ k, fuel = k + 2 := ⟨fuel - 2, by omega⟩
    apply update_step
    intro _ ds hq d hd hne
    generalize (if n.key.isKeyRoot = true then [] else n.key.path) = q at *
    have hr := hst.keys q ds hq d hd
    obtain ⟨name, e1, e2⟩ := hr.place
    have hlv := hr.fine.placed.up.1
    rw [e1, parentPath_below q name e2] at hlv
    omega
  | succ m ih =>
    intro fuel n htop hB hf
    obtain ⟨fuel, rfl⟩ : ∃ k, fuel = k + 1 := ⟨fuel - 1, by omega⟩
    apply update_step
    intro _ ds hq d hd hne
    generalize (if n.key.isKeyRoot = true then [] else n.key.path) = q at *
    have hr := hst.keys q ds hq d hd
    obtain ⟨name, e1, e2⟩ := hr.place
    by_cases hdp : d.key.cellState.isDeletedPrimaryFile = true
    · obtain ⟨f, rfl⟩ : ∃ k, fuel = k + 1 := ⟨fuel - 1, by omega⟩
      exact update_step st f d (fun h => by rw [hdp] at h; cases h)
    · have hk := hr.kind.resolve_left hdp
      by_cases hroot : d.key.isKeyRoot = true
      · have h1 := hk hroot
        exact absurd (h1.trans (htop (hr.topmost h1)).symm) hne
      · refine ih fuel d ?_ ?_ (by omega)
        · rw [if_neg hroot, e1]; intro h; simp at h
        · rw [if_neg hroot, e1, level_below q name e2]; omega

/-- What is recorded can be attached when the stack has room for a little more than the depth of the tree. -/
theorem attach_any {B : Nat} {st : State} (hst : StFine B st) (fuel : Nat) (hf : B + 3 ≤ fuel) (n : Node) :
    updateModifiedLists st fuel n ≠ .panic := by
  obtain ⟨fuel, rfl⟩ : ∃ k, fuel = k + 1 := ⟨fuel - 1, by omega⟩
  apply update_step
  intro _ ds hq d hd hne
  generalize (if n.key.isKeyRoot = true then [] else n.key.path) = q at *
  have hr := hst.keys q ds hq d hd
  obtain ⟨name, e1, e2⟩ := hr.place
  by_cases hdp : d.key.cellState.isDeletedPrimaryFile = true
  · obtain ⟨f, rfl⟩ : ∃ k, fuel = k + 1 := ⟨fuel - 1, by omega⟩
    exact update_step st f d (fun h => by rw [hdp] at h; cases h)
  · have hk := hr.kind.resolve_left hdp
    refine attach_under hst B fuel d ?_ (by omega) (by omega)
    by_cases hroot : d.key.isKeyRoot = true
    · intro _; exact hk hroot
    · rw [if_neg hroot, e1]; intro h; simp at h

theorem StFine.safe {B : Nat} {st : State} (h : StFine B st) (env : Env) (hd : B + 3 ≤ env.depth) : StateSafe env st := by
  refine ⟨fun k => attach_any h _ hd _, ?_⟩
  intro q ds hq d hdm
  have hr := h.keys q ds hq d hdm
  exact (allDel_iff d).2 ⟨hr.dead, by intro x hx; rw [hr.bare] at hx; cases hx⟩

theorem updateModifiedLists_fine {B : Nat} (st : State) (hst : StFine B st) (fuel : Nat) : ∀ (n m : Node), Fine B n →
    updateModifiedLists st fuel n = .ok m → Fine B m := by
  induction fuel with
  | zero => intro n m _ h; cases h
  | succ fuel ih =>
    intro n m hn h
    rw [updateModifiedLists] at h
    simp only at h
    split at h
    · cases h; exact hn
    · have hloop : ∀ (so : Nat) (l l' : List Node), (∀ d ∈ l, Fine B d) →
          updateModifiedLists.attachLoop (updateModifiedLists st fuel) so l = .ok l' → ∀ d ∈ l', Fine B d := by
        intro so l
        induction l with
        | nil => intro l' _ h d hd; cases h; cases hd
        | cons a as ihl =>
          intro l' hl h
          rw [updateModifiedLists.attachLoop] at h
          split at h
          · cases h
          · cases h
          · rename_i a' ha
            have ha' : Fine B a' := by
              split at ha
              · exact ih _ _ (hl _ List.mem_cons_self) ha
              · cases ha; exact hl _ List.mem_cons_self
            split at h
            · cases h
            · cases h
            · rename_i as' has
              cases h
              intro d hd
              rcases List.mem_cons.1 hd with rfl | hd
              · exact ha'
              · exact ihl _ (fun d hd => hl d (List.mem_cons_of_mem _ hd)) has d hd
      obtain ⟨h1, h3⟩ := (fine_iff n).1 hn
      split at h
      · cases h
      · cases h
      · rename_i ds hds
        cases h
        refine ⟨_, _, _, ⟨h1.placed, h1.hash, ?_⟩, ?_⟩
        · have hmap : ∀ q, ∀ v ∈ n.key.values.map (attachVersions st q), v.val.hash ≠ none := by
            intro q v hv
            obtain ⟨v0, hv0, rfl⟩ := List.mem_map.1 hv
            have : (attachVersions st q v0).val = v0.val := by
              unfold attachVersions; split <;> rfl
            rw [this]
            exact h1.values v0 hv0
          intro v hv
          dsimp only at hv
          split at hv
          · rename_i dv hdv
            rcases List.mem_append.1 hv with hv | hv
            · exact hmap _ v hv
            · exact hst.values _ _ hdv v (List.mem_mergeSort.1 hv)
          · exact hmap _ v hv
        · intro d hd
          unfold updateModifiedLists.attachDeleted at hds
          split at hds
          · cases hds; exact h3 d hd
          · rename_i l hl
            refine hloop _ _ _ (fun e he => (fine_iff e).2 ⟨(hst.keys _ _ hl e he).fine, ?_⟩) hds d hd
            rw [(hst.keys _ _ hl e he).bare]
            intro x hx; cases hx

/-! ### Reading keys -/

theorem readValueBytes_hashed (kv : KeyValue) (hashFn : Bytes → Bytes) (fi : FileInfo) :
    (kv.readValueBytes hashFn fi).hash ≠ none := by
  unfold KeyValue.readValueBytes
  simp

theorem readValuesLoop_hashed (env : Env) (seq : Option Nat) : ∀ (offs : List Nat) (acc : List Value) (lg : Logs)
    (vs : List Value) (lg' : Logs) (b : Bool), (∀ v ∈ acc, v.val.hash ≠ none) →
    readValuesLoop env seq offs acc lg = .ok (vs, lg', b) → ∀ v ∈ vs, v.val.hash ≠ none := by
  intro offs
  induction offs with
  | nil => intro acc lg vs lg' b ha h; cases h; exact ha
  | cons o os ih =>
    intro acc lg vs lg' b ha h
    rw [readValuesLoop] at h
    split at h
    · split at h
      · refine ih _ _ _ _ _ ?_ h
        intro v hv
        rcases List.mem_append.1 hv with hv | hv
        · exact ha v hv
        · rw [List.mem_singleton.1 hv]; exact readValueBytes_hashed _ _ _
      · cases h; exact ha
      · cases h
    · cases h; exact ha

theorem valuesStep_hashed (env : Env) (o : ReadOptions) (flags : FilterFlags) (k k' : KeyNode) (hk : k.values = [])
    (h : valuesStep env o flags k = .ok k') : ∀ v ∈ k'.values, v.val.hash ≠ none := by
  have h0 : ∀ v ∈ k.values, v.val.hash ≠ none := by intro v hv; rw [hk] at hv; cases hv
  have hread : ∀ k1 b, k.readValues env o.seq = .ok (k1, b) → ∀ v ∈ k1.values, v.val.hash ≠ none := by
    intro k1 b hr
    unfold KeyNode.readValues at hr
    split at hr
    · split at hr
      · cases hr; exact h0
      · split at hr
        · cases hr; intro v hv; cases hv
        · split at hr
          · rename_i hl
            cases hr
            exact readValuesLoop_hashed env o.seq _ _ _ _ _ _ (by intro v hv; cases hv) hl
          · cases hr
          · cases hr
    · cases hr; exact h0
  unfold valuesStep at h
  split at h
  · split at h
    · rename_i hr; cases h; exact hread _ _ hr
    · rename_i k1 hr
      cases h
      exact fun v hv => hread k1 false hr v hv
    · cases h
    · cases h
  · cases h; exact h0

theorem readKey_fine {B : Nat} {env : Env} (ho : OrderlyKeys env.fi.buffer) {st : State} (hst : StFine B st)
    {o : ReadOptions} {n : Node} {ro : Nat} (hB : level o.curPath + 1 ≤ B)
    (h : readKey env st o = .ok (some n, ro)) :
    ((o.offset = 4128 → o.curPath = []) → Fine B n) ∧ (∃ name, n.key.path = o.curPath ++ '\\' :: name ∧ '\\' ∉ name) ∧ n.key.fileOffset = o.offset ∧
      o.offset < env.fi.buffer.length ∧ n.key.cellState = .Allocated ∧ (n.key.isKeyRoot = true → o.offset = 4128) ∧
      (o.getModified = false → n.deletedKeys = []) := by
  unfold readKey getFrom at h
  split at h
  · cases h
  · rename_i slc hg
    split at hg
    case isFalse => cases hg
    case isTrue hle =>
    cases hg
    unfold readFromSlice at h
    rcases keyNode_cases env.hashFn (env.fi.buffer.drop o.offset) o.offset o.curPath o.seq with
      ⟨⟨_, _, hsig, hlen⟩, name, logs, hname, hk⟩ | ⟨_, hk⟩
    · rw [hk] at h
      simp only at h
      have hfresh := (fromBytes_fresh _ _ _ _ _ _ _ hk).1
      have hroot : (keyOfSlices env.hashFn (env.fi.buffer.drop o.offset) o.offset o.curPath o.seq name logs).isKeyRoot =
          (byteAt env.fi.buffer (o.offset + 6)).testBit 2 := by
        rw [isKeyRoot_iff]
        show (leNat (slice (env.fi.buffer.drop o.offset) 6 2)).testBit 2 = _
        rw [show slice (env.fi.buffer.drop o.offset) 6 2 = slice env.fi.buffer (o.offset + 6) 2 by
          unfold slice; rw [List.drop_drop], low_bit _ _ _ (by omega)]
      generalize hk0 : keyOfSlices env.hashFn (env.fi.buffer.drop o.offset) o.offset o.curPath o.seq name logs = k at h hroot hfresh
      have e0 : slice env.fi.buffer (o.offset + 4) 2 = [0x6E, 0x6B] := by
        unfold slice at hsig ⊢
        rw [List.drop_drop] at hsig
        exact hsig
      have hno : '\\' ∉ name := by
        refine orderly_name ho o.offset e0
          (fromBitsChecked keyNodeFlagsMask (leNat (slice (env.fi.buffer.drop o.offset) 6 2)) {}).2 logs name ?_
        · have e : ∀ a m, slice (env.fi.buffer.drop o.offset) a m = slice env.fi.buffer (o.offset + a) m := by
            intro a m; unfold slice; rw [List.drop_drop]
          unfold nkNameSize at hname
          rw [e, e] at hname
          rw [e] at hname ⊢
          exact hname
      have e4 : byteAt env.fi.buffer (o.offset + 4) = 0x6E := by
        have := slice_byte env.fi.buffer (o.offset + 4) 2 0 (by omega)
        rw [e0] at this
        exact this.symm
      have e5 : byteAt env.fi.buffer (o.offset + 5) = 0x6B := by
        have := slice_byte env.fi.buffer (o.offset + 4) 2 1 (by omega)
        rw [e0] at this
        exact this.symm
      have hroot4 : k.isKeyRoot = true → o.offset = 4128 := by rw [hroot]; exact (ho _ e4 e5).1
      have hpath : k.path = o.curPath ++ '\\' :: name := by rw [← hk0]; rfl
      have hoff : k.fileOffset = o.offset := by rw [← hk0]; rfl
      have hhash : k.hash ≠ none := by rw [← hk0]; simp [keyOfSlices]
      have hvals : k.values = [] := by rw [← hk0]; rfl
      have hcs : k.cellState = .Allocated := by rw [← hk0]; rfl
      have hlt : o.offset < env.fi.buffer.length := by
        rw [List.length_drop] at hlen; omega
      cases hf : filterStep st o.filter k with
      | err => rw [hf] at h; cases h
      | panic => rw [hf] at h; cases h
      | ok x =>
        obtain ⟨flags, ro'⟩ := x
        rw [hf] at h
        simp only at h
        by_cases hnm : flags = .noMatch
        · rw [if_pos hnm] at h; cases h
        · rw [if_neg hnm] at h
          obtain ⟨vs, lg, hv⟩ := valuesStep_ok env o flags k
          have hvh := valuesStep_hashed env o flags k _ hvals hv
          rw [hv] at h
          simp only at h
          split at h
          · cases h
          · cases h
          · rename_i m hm
            cases h
            unfold finishStep at hm
            simp only at hm
            generalize hk2 : (if flags = .keyMatch then ({ k with values := vs, logs := lg, filterState := some .Exact } : KeyNode)
                else { k with values := vs, logs := lg }) = k2 at hm
            have hp2 : k2.path = k.path ∧ k2.fileOffset = k.fileOffset ∧ k2.hash = k.hash ∧ k2.values = vs ∧
                k2.cellState = k.cellState ∧ k2.isKeyRoot = k.isKeyRoot := by
              rw [← hk2]
              by_cases hm : flags = .keyMatch
              · rw [if_pos hm]; exact ⟨rfl, rfl, rfl, rfl, rfl, rfl⟩
              · rw [if_neg hm]; exact ⟨rfl, rfl, rfl, rfl, rfl, rfl⟩
            obtain ⟨p1, p2, p3, p4, p5, p6⟩ := hp2
            have hfine : (o.offset = 4128 → o.curPath = []) → Fine B (.mk k2 [] []) := by
              intro htop
              refine ⟨_, _, _, ⟨⟨o.curPath, name, by rw [p1, hpath], hno, hB, ?_⟩, ?_, ?_⟩, by intro d hd; cases hd⟩
              · rw [p2, hoff]; exact htop
              · rw [p3]; exact hhash
              · rw [p4]; exact hvh
            by_cases hg : o.getModified = true
            · rw [if_pos hg] at hm
              have hkey := updateModifiedLists_key _ _ _ _ hm
              have hkr : n.key.isKeyRoot = k2.isKeyRoot := by rw [hkey]; rfl
              refine ⟨fun ht => updateModifiedLists_fine st hst _ _ _ (hfine ht) hm, ⟨name, ?_, hno⟩, ?_, hlt, ?_, ?_, ?_⟩
              · rw [hkey]; exact p1.trans hpath
              · rw [hkey]; exact p2.trans hoff
              · rw [hkey]; exact p5.trans hcs
              · rw [hkr, p6]; exact hroot4
              · intro h; rw [hg] at h; cases h
            · rw [if_neg hg] at hm
              cases hm
              exact ⟨hfine, ⟨name, p1.trans hpath, hno⟩, p2.trans hoff, hlt, p5.trans hcs, by
                show k2.isKeyRoot = true → _
                rw [p6]; exact hroot4, fun _ => rfl⟩
    · rw [hk] at h
      cases h

theorem valuesStep_no_panic (env : Env) (o : ReadOptions) (flags : FilterFlags) (k : KeyNode) :
    valuesStep env o flags k ≠ .panic := by
  obtain ⟨vs, lg, hv⟩ := valuesStep_ok env o flags k
  rw [hv]; simp

/-- Reading without attaching anything does not panic, whatever is on record. -/
theorem readKey_bare_safe (env : Env) (st : State) (o : ReadOptions) (hf : o.filter = none) (hg : o.getModified = false) :
    readKey env st o ≠ .panic := by
  unfold readKey
  split
  · simp
  · unfold readFromSlice
    split
    · simp
    · rename_i hk; exact absurd hk (fromBytes_no_panic _ _ _ _ _)
    · rw [hf]
      simp only [filterStep]
      rw [if_neg (by simp)]
      split
      · simp
      · rename_i hv
        exact absurd hv (valuesStep_no_panic _ _ _ _)
      · split
        · simp
        · rename_i hfin
          unfold finishStep at hfin
          simp only at hfin
          rw [if_neg (by rw [hg]; simp)] at hfin
          cases hfin
        · simp

/-! ### Listing -/

theorem StFine.at {B : Nat} {st : State} (h : StFine B st) (ro : Nat) : StFine B { st with rootOffset := ro } :=
  ⟨h.keys, h.values⟩

theorem StFine.del {B : Nat} {st : State} (h : StFine B st) : StateDel st := by
  intro q ds hq d hd
  have hr := h.keys q ds hq d hd
  exact (allDel_iff d).2 ⟨hr.dead, by intro x hx; rw [hr.bare] at hx; cases hx⟩

theorem Fine.setKey {B : Nat} {n : Node} (h : Fine B n) {k : KeyNode} (h1 : k.path = n.key.path)
    (h2 : k.fileOffset = n.key.fileOffset) (h3 : k.hash = n.key.hash) (h4 : k.values = n.key.values) :
    Fine B (n.setKey k) := by
  obtain ⟨hk, hd⟩ := (fine_iff n).1 h
  cases n
  exact ⟨_, _, _, ⟨by rw [h1, h2]; exact hk.placed, by rw [h3]; exact hk.hash, by rw [h4]; exact hk.values⟩, hd⟩

theorem nodup_below : ∀ (n : Nat) (l : List Nat), l.Nodup → (∀ x ∈ l, x < n) → l.length ≤ n := by
  intro n
  induction n with
  | zero =>
    intro l _ hl
    cases l with
    | nil => exact Nat.le_refl _
    | cons a as => exact absurd (hl a List.mem_cons_self) (by omega)
  | succ n ih =>
    intro l hn hl
    have h1 := ih (l.erase n) (hn.erase n) (by
      intro x hx
      have := hn.mem_erase_iff.1 hx
      have := hl x this.2
      omega)
    by_cases hm : n ∈ l
    · have := List.length_erase_of_mem hm
      omega
    · rw [List.erase_of_not_mem hm] at h1
      omega

/-- What holds while the keys of a file of `len` bytes are listed. -/
structure CtxFine (B len : Nat) (ctx : IterCtx) : Prop where
  state : StFine B ctx.state
  stack : ∀ n ∈ ctx.stack, Fine B n ∧ DelOk n ∧ (n.key.cellState = .Allocated → level n.key.path ≤ ctx.seen.length)
  once : ctx.seen.Nodup
  inside : ∀ o ∈ ctx.seen, o < len
  top : 4128 ∈ ctx.seen

theorem pushKids_fine {B : Nat} {env : Env} (ho : OrderlyKeys env.fi.buffer) (hB : env.fi.buffer.length + 1 ≤ B)
    {ctx ctx' : IterCtx} {node node' : Node} (hc : CtxFine B env.fi.buffer.length ctx) (hn : Fine B node) (hd : DelOk node)
    (hl : node.key.cellState = .Allocated → level node.key.path ≤ ctx.seen.length)
    (h : pushKids env ctx node = .ok (node', ctx')) :
    CtxFine B env.fi.buffer.length ctx' ∧ Fine B node' ∧ DelOk node' := by
  obtain ⟨⟨lg, so, tr, e⟩, _⟩ := (pushKids_facts env ctx node).2.2 node' ctx' h
  refine ⟨?_, by rw [e]; exact hn.setKey rfl rfl rfl rfl, by rw [e]; cases node; exact hd⟩
  unfold pushKids at h
  by_cases h0 : 0 < node.key.nSubKeys
  · rw [if_pos h0] at h
    cases hr : readSubKeysInternal env ctx.state node ctx.filter none ctx.getModified with
    | err => rw [hr] at h; cases h
    | panic => rw [hr] at h; cases h
    | ok r =>
      rw [hr] at h
      cases h
      have hall : ∀ m ∈ r.children, (node.key.cellState = .Allocated) ∧ (m.key.fileOffset ≠ 4128 → Fine B m) ∧ DelOk m ∧
          level m.key.path = level node.key.path + 1 ∧ m.key.fileOffset < env.fi.buffer.length := by
        by_cases halloc : node.key.cellState = .Allocated
        · have hlen := nodup_below _ _ hc.once hc.inside
          refine readSubKeysInternal_all env _ (StFine B) ctx.getModified (fun _ _ => True) (· = node.key.path)
            (fun st ro h => h.at ro) ?_ ?_ _ _ _ _ _ hc.state ⟨trivial, trivial⟩ rfl hr
          · intro st o m ro hst _ _ hC hrk
            have hlv := hl halloc
            obtain ⟨f1, ⟨name, f2, f3⟩, f4, f5, _⟩ := readKey_fine ho hst (by rw [hC]; omega) hrk
            refine ⟨halloc, ?_, (readKey_cell_del env st o m ro hst.del hrk).1, ?_, by rw [f4]; exact f5⟩
            · intro hne
              exact f1 (fun he => absurd (f4.trans he) hne)
            · rw [f2, hC, level_below _ _ f3]
          · rintro m sm v ⟨g1, g2, g3, g4, g5⟩
            cases m with
            | mk k vs ds =>
              exact ⟨g1, fun hne => (g2 hne).setKey rfl rfl rfl rfl, g3, g4, g5⟩
        · have : r.children = [] := by
            unfold readSubKeysInternal at hr
            simp only at hr
            rw [if_neg halloc] at hr
            cases hr; rfl
          rw [this]
          intro m hm; cases hm
      obtain ⟨news, e, hm, hnd, hns⟩ := foldl_pushCheck r.children.reverse
        { ctx with state := { ctx.state with rootOffset := r.rootOffset } }
      rw [e]
      have hnew : ∀ m ∈ news, m ∈ r.children := fun m hmm => List.mem_reverse.1 (hm m hmm)
      refine ⟨hc.state.at _, ?_, ?_, ?_, ?_⟩
      · intro m hmm
        simp only [List.length_append, List.length_map]
        rcases List.mem_append.1 hmm with hmm | hmm
        · obtain ⟨a, g1, g2, g3, g4⟩ := hall m (hnew m hmm)
          refine ⟨g1 (fun he => hns m hmm (he ▸ hc.top)), g2, fun _ => ?_⟩
          have := hl a
          have : 0 < news.length := List.length_pos_of_mem hmm
          omega
        · obtain ⟨g1, g2, g3⟩ := hc.stack m hmm
          exact ⟨g1, g2, fun ha => by have := g3 ha; omega⟩
      · rw [List.nodup_append]
        refine ⟨hnd, hc.once, ?_⟩
        intro a ha b hb he
        obtain ⟨m, hmm, rfl⟩ := List.mem_map.1 ha
        exact hns m hmm (he ▸ hb)
      · intro o hom
        rcases List.mem_append.1 hom with hom | hom
        · obtain ⟨m, hmm, rfl⟩ := List.mem_map.1 hom
          exact (hall m (hnew m hmm)).2.2.2.2
        · exact hc.inside o hom
      · exact List.mem_append_right _ hc.top
  · rw [if_neg h0] at h
    cases h
    exact hc

theorem nextPre_fine {B : Nat} {env : Env} (ho : OrderlyKeys env.fi.buffer) (hB : env.fi.buffer.length + 1 ≤ B) :
    ∀ (steps : Nat) (ctx ctx' : IterCtx) (x : Option Node), CtxFine B env.fi.buffer.length ctx →
    nextPre env steps ctx = some (.ok (x, ctx')) →
    CtxFine B env.fi.buffer.length ctx' ∧ ∀ n, x = some n → Fine B n := by
  intro steps
  induction steps with
  | zero => intro ctx ctx' x _ h; cases h
  | succ steps ih =>
    intro ctx ctx' x hc h
    rw [nextPre] at h
    cases hs : ctx.stack with
    | nil =>
      rw [hs] at h
      cases h
      exact ⟨hc, by intro n hn; cases hn⟩
    | cons node rest =>
      rw [hs] at h
      simp only at h
      obtain ⟨n1, n2, n3⟩ := hc.stack node (by rw [hs]; exact List.mem_cons_self)
      have h0 : CtxFine B env.fi.buffer.length { ctx with stack := rest } :=
        ⟨hc.state, fun m hm => hc.stack m (by rw [hs]; exact List.mem_cons_of_mem _ hm), hc.once, hc.inside, hc.top⟩
      unfold preStep at h
      cases hp : pushKids env { ctx with stack := rest } node with
      | err => rw [hp] at h; cases h
      | panic => rw [hp] at h; cases h
      | ok y =>
        obtain ⟨m, ctx1⟩ := y
        rw [hp] at h
        obtain ⟨g1, g2, g3⟩ := pushKids_fine ho hB h0 n1 n2 n3 hp
        have hdel : CtxFine B env.fi.buffer.length (pushDeleted m ctx1).2 ∧ Fine B (pushDeleted m ctx1).1 := by
          have hi : ∀ d ∈ m.deletedKeys, Fine B (inheritFilterState m.key.filterState d) :=
            fun d hd => (((fine_iff m).1 g2).2 d hd).setKey rfl rfl rfl rfl
          refine ⟨⟨g1.state, ?_, g1.once, g1.inside, g1.top⟩, ?_⟩
          · intro n hn
            rcases List.mem_append.1 hn with hn | hn
            · obtain ⟨d, hd, rfl⟩ := List.mem_map.1 (List.mem_reverse.1 hn)
              have ha := (allDel_iff _).1 (inheritFilterState_allDel m.key.filterState d (g3 d hd))
              exact ⟨hi d hd, ha.2, fun hal => absurd hal ha.1⟩
            · exact g1.stack n hn
          · refine ⟨_, _, _, ((fine_iff m).1 g2).1, ?_⟩
            intro d hd
            obtain ⟨d', hd', rfl⟩ := List.mem_map.1 hd
            exact hi d' hd'
        generalize hpd : pushDeleted m ctx1 = pd at hdel
        obtain ⟨m2, ctx2⟩ := pd
        simp only at h
        rw [hpd] at h
        simp only at h
        by_cases hshow : (ctx2.includeAncestors || !ctx2.filter.isValid || m2.key.isFilterMatchOrDescendent) = true
        · rw [if_pos hshow] at h
          cases h
          exact ⟨hdel.1, by intro n hn; cases hn; exact hdel.2⟩
        · rw [if_neg hshow] at h
          exact ih ctx2 ctx' x hdel.1 h

theorem collect_fine {B : Nat} {env : Env} (ho : OrderlyKeys env.fi.buffer) (hB : env.fi.buffer.length + 1 ≤ B) :
    ∀ (steps : Nat) (ctx : IterCtx) (ns : List Node), CtxFine B env.fi.buffer.length ctx →
    collect (nextPre env) steps ctx = some (.ok ns) → ∀ n ∈ ns, Fine B n := by
  intro steps
  induction steps with
  | zero => intro ctx ns _ h; cases h
  | succ steps ih =>
    intro ctx ns hc h
    rw [collect] at h
    cases hx : nextPre env (steps + 1) ctx with
    | none => rw [hx] at h; cases h
    | some r =>
      rcases r with ⟨x, ctx'⟩ | _ | _
      · obtain ⟨h1, h2⟩ := nextPre_fine ho hB _ _ _ _ hc hx
        rw [hx] at h
        cases x with
        | none => cases h; intro n hn; cases hn
        | some n =>
          simp only at h
          split at h
          · rename_i ms hms
            cases h
            intro k hk
            rcases List.mem_cons.1 hk with rfl | hk
            · exact h2 _ rfl
            · exact ih _ _ h1 hms k hk
          · rename_i hne
            exact absurd h (hne ns)
      · rw [hx] at h; cases h
      · rw [hx] at h; cases h

theorem initRoot_present {env : Env} {st : State} {x : Option Node} {ro : Nat} (hi : initRoot env st = .ok (x, ro)) :
    ∃ r, x = some r := by
  unfold initRoot at hi
  split at hi
  · cases hi
  · split at hi
    · cases hi
    · cases x with
      | some r => exact ⟨r, rfl⟩
      | none =>
        exfalso
        unfold readKey at hi
        split at hi
        · cases hi
        · unfold readFromSlice at hi
          split at hi
          · cases hi
          · cases hi
          · simp only [filterStep] at hi
            rw [if_neg (by simp)] at hi
            split at hi
            · cases hi
            · cases hi
            · split at hi <;> cases hi

theorem initRoot_fine {B : Nat} {env : Env} (ho : OrderlyKeys env.fi.buffer) (hb : env.fi.hbin = 4096) (hB : 1 ≤ B)
    {st : State} (hst : StFine B st) {r : Node} {ro : Nat} (hi : initRoot env st = .ok (some r, ro)) :
    Fine B r ∧ r.key.fileOffset = 4128 ∧ 4128 < env.fi.buffer.length ∧ level r.key.path = 1 := by
  unfold initRoot at hi
  split at hi
  · cases hi
  · rename_i input hg
    split at hi
    · cases hi
    · rename_i hd rest hh
      have hlen := hiveBinHeader_length hh
      unfold getFrom at hg
      split at hg
      case isFalse => cases hg
      case isTrue hle =>
      cases hg
      rw [List.length_drop] at hlen
      have e : env.fi.buffer.length - rest.length = 4128 := by omega
      obtain ⟨f1, ⟨name, f2, f3⟩, f4, f5, _⟩ := readKey_fine ho hst (show level [] + 1 ≤ B from hB) hi
      refine ⟨f1 (fun _ => rfl), f4.trans e, by rw [← e]; exact f5, ?_⟩
      rw [f2, level_below _ _ f3]; rfl

/-- Listing the keys of an orderly file. -/
theorem list_fine (w : World) {buf : Bytes} {B : Nat} (ho : OrderlyKeys buf) (hs : SaneLists buf w.depth)
    (hB : buf.length + 1 ≤ B) (hd : B + 3 ≤ w.depth) {st : State} (hst : StFine B st) (h0 : st.rootOffset = 0)
    (gm anc : Bool) (steps : Nat) :
    initRoot (w.env buf) st ≠ .panic ∧ ∀ x ro, initRoot (w.env buf) st = .ok (x, ro) → ro = 0 ∧
      collect (nextPre (w.env buf)) steps (.start { st with rootOffset := ro } x {} gm anc) ≠ some .panic ∧
      ∀ ns, collect (nextPre (w.env buf)) steps (.start { st with rootOffset := ro } x {} gm anc) = some (.ok ns) →
        ∀ n ∈ ns, Fine B n := by
  have hsafe := hst.safe (w.env buf) hd
  obtain ⟨i1, i2⟩ := initRoot_safe_of (w.env buf) st hsafe
  refine ⟨i1, fun x ro hi => ?_⟩
  obtain ⟨r, rfl⟩ := initRoot_present hi
  obtain ⟨j1, j2⟩ := i2 _ _ hi
  obtain ⟨k1, o, k2, k3, k4, name, k5⟩ := j2 r rfl
  have hro : ro = 0 := j1.trans h0
  subst hro
  obtain ⟨l1, l2, l3, l4⟩ := initRoot_fine (env := w.env buf) ho rfl (by omega) hst hi
  have hlists : ∀ o, slice buf (o + 4) 2 = [0x6E, 0x6B] → 0 < u32At buf (o + 24) →
      u32At buf (o + 24) ≤ 1048576 →
      parseSubKeyList (w.env buf).fi (w.env buf).depth (u32At buf (o + 32)) ≠ .panic :=
    fun o h1 h2 h3 => parseSubKeyList_safe _ _ _ (hs o h1 h2 h3)
  obtain ⟨c, hc⟩ := root_part name
  refine ⟨rfl, collect_safe (w.env buf) name c hc hlists steps _ ⟨hsafe.at 0, .inl rfl, ?_⟩, ?_⟩
  · intro n hn
    cases List.mem_singleton.1 hn
    refine ⟨k1, ?_, fun _ _ => ⟨[], by simp [k5], .inl rfl⟩⟩
    intro _ g1 g2
    rw [Option.getD_some, k4]
    exact hlists o k2 (lt_of_lt_of_eq g1 k3) (le_of_eq_of_le k3.symm g2)
  · intro ns hns
    refine collect_fine (env := w.env buf) ho hB steps _ ns ⟨hst.at 0, ?_, ?_, ?_, ?_⟩ hns
    · intro n hn
      cases List.mem_singleton.1 hn
      refine ⟨l1, k1, fun _ => ?_⟩
      show level r.key.path ≤ 1
      omega
    · exact List.nodup_cons.2 ⟨List.not_mem_nil, List.nodup_nil⟩
    · intro x hx
      cases List.mem_singleton.1 hx
      show r.key.fileOffset < _
      rw [l2]; exact l3
    · show 4128 ∈ [r.key.fileOffset]
      rw [l2]; exact List.mem_singleton.2 rfl

/-! ### The analysis of log entries -/

def ItemsFine (B : Nat) (m : RegItemMap) : Prop := ∀ x ∈ m, x.1.2 = none → Placed B x.1.1 x.2.off

def SeenFine (B : Nat) (s : Seen) : Prop := s.hash ≠ none ∧ (s.key.2 = none → Placed B s.key.1 s.off)

theorem ItemsFine.insert {B : Nat} {m : RegItemMap} (h : ItemsFine B m) (k : ItemKey) (i : Item)
    (hk : k.2 = none → Placed B k.1 i.off) : ItemsFine B (m.insert k i) := by
  intro x hx
  rcases List.mem_append.1 hx with hx | hx
  · exact h x (List.mem_filter.1 hx).1
  · rw [List.mem_singleton.1 hx]; exact hk

theorem seenOf_fine {B : Nat} {ns : List Node} (h : ∀ n ∈ ns, Fine B n) : ∀ s ∈ ns.flatMap seenOf, SeenFine B s := by
  intro s hs
  obtain ⟨n, hn, hsn⟩ := List.mem_flatMap.1 hs
  have hk := ((fine_iff n).1 (h n hn)).1
  unfold seenOf at hsn
  rcases List.mem_cons.1 hsn with rfl | hsn
  · exact ⟨hk.hash, fun _ => hk.placed⟩
  · obtain ⟨v, hv, rfl⟩ := List.mem_map.1 hsn
    exact ⟨hk.values v hv, fun h => by cases h⟩

theorem regItemsLoop_fine {B : Nat} (seq : Nat) : ∀ (ss : List Seen) (m : RegItemMap), (∀ s ∈ ss, SeenFine B s) →
    ItemsFine B m → ∃ m', regItemsLoop seq ss m = .ok m' ∧ ItemsFine B m' := by
  intro ss
  induction ss with
  | nil => intro m _ hm; exact ⟨m, rfl, hm⟩
  | cons s ss ih =>
    intro m hs hm
    rw [regItemsLoop]
    obtain ⟨h1, h2⟩ := hs s List.mem_cons_self
    cases hh : s.hash with
    | none => exact absurd hh h1
    | some h => exact ih _ (fun t ht => hs t (List.mem_cons_of_mem _ ht)) (hm.insert _ _ h2)

structure ComparedFine (B : Nat) (c : Compared) : Prop where
  prior : ItemsFine B c.prior
  latest : ItemsFine B c.latest
  keys : ∀ n ∈ c.keys, Placed B n.path n.off

theorem handleNewItem_fine {B : Nat} (newSeq : Nat) (c : Compared) (s : Seen) (hs : SeenFine B s)
    (hc : ComparedFine B c) : ∃ c', handleNewItem newSeq c s = .ok c' ∧ ComparedFine B c' := by
  unfold handleNewItem
  have herase : ItemsFine B (c.prior.erase s.key) := fun x hx => hc.prior x (List.mem_filter.1 hx).1
  cases hh : s.hash with
  | none => exact absurd hh hs.1
  | some h =>
    simp only
    cases hg : c.prior.get s.key with
    | none => exact ⟨_, rfl, hc.prior, hc.latest.insert _ _ hs.2, hc.keys⟩
    | some p =>
      simp only
      by_cases he : h = p.hash
      · rw [if_pos he]
        exact ⟨_, rfl, herase, hc.latest.insert _ _ hs.2, hc.keys⟩
      · rw [if_neg he]
        refine ⟨_, rfl, ?_⟩
        have hp : s.key.2 = none → Placed B s.key.1 p.off := by
          intro hn
          unfold RegItemMap.get at hg
          cases hf : c.prior.find? fun x => decide (x.1 = s.key) with
          | none => rw [hf] at hg; cases hg
          | some x =>
            rw [hf] at hg
            cases hg
            have h1 := List.find?_some hf
            have h1 : x.1 = s.key := by simpa using h1
            have := hc.prior x (List.mem_of_find?_eq_some hf) (by rw [h1]; exact hn)
            rwa [h1] at this
        unfold Compared.need
        split
        · rename_i hn
          refine ⟨herase, hc.latest.insert _ _ hs.2, ?_⟩
          intro n hnm
          rcases List.mem_append.1 hnm with hnm | hnm
          · exact hc.keys n hnm
          · rw [List.mem_singleton.1 hnm]; exact hp hn
        · exact ⟨herase, hc.latest.insert _ _ hs.2, hc.keys⟩

theorem compareLoop_fine {B : Nat} (newSeq : Nat) : ∀ (ss : List Seen) (c : Compared), (∀ s ∈ ss, SeenFine B s) →
    ComparedFine B c → ∃ c', compareLoop newSeq ss c = .ok c' ∧ ComparedFine B c' := by
  intro ss
  induction ss with
  | nil => intro c _ hc; exact ⟨c, rfl, hc⟩
  | cons s ss ih =>
    intro c hs hc
    rw [compareLoop]
    obtain ⟨c1, h1, h2⟩ := handleNewItem_fine newSeq c s (hs s List.mem_cons_self) hc
    rw [h1]
    exact ih _ (fun t ht => hs t (List.mem_cons_of_mem _ ht)) h2

/-- What is recorded while a hive is opened. -/
def RecFine (B : Nat) (st : State) : Prop := StFine B st ∧ st.rootOffset = 0

theorem addFullKey_fine {B : Nat} {env : Env} (ho : OrderlyKeys env.fi.buffer) (newSeq : Nat) (t : ListType) (path : Str)
    (off seq : Nat) (x : State × Logs) (hp : Placed B path off) (hf : RecFine B x.1) :
    ∃ y, addFullKey env newSeq t path off seq x = .ok y ∧ RecFine B y.1 := by
  obtain ⟨lg, hlg⟩ := addFullKey_ok env newSeq t path off seq x
  refine ⟨_, hlg, ?_⟩
  cases hk : keyVersion env newSeq t path off seq with
  | none => exact hf
  | some n =>
    unfold keyVersion at hk
    split at hk
    · rename_i m ro hr
      cases hk
      have hup := hp.up
      have hempty : StFine B {} := ⟨(by intro q ds h; cases h), (by intro q vs h; cases h)⟩
      obtain ⟨f1, ⟨name, f2, f3⟩, f4, f5, f6, f7, f8⟩ :=
        readKey_fine ho hempty (show level (priorOptions path off seq).curPath + 1 ≤ B from hup.1) hr
      have f1 := f1 hup.2
      have f8 := f8 rfl
      unfold fileKey
      cases t with
      | updated => exact ⟨⟨hf.1.keys, hf.1.values⟩, hf.2⟩
      | deleted =>
        refine ⟨⟨?_, hf.1.values⟩, hf.2⟩
        intro q ds hq d hd
        dsimp only at hq
        rcases mapAdd_mem hq d hd with ⟨l, hl, hdl⟩ | ⟨rfl, rfl⟩
        · exact hf.1.keys q l hl d hdl
        · have hkf := ((fine_iff m).1 f1).1
          cases m with
          | mk k vs ds' =>
            refine ⟨⟨hkf.placed, hkf.hash, by intro v hv; cases hv⟩, ⟨name, f2, f3⟩, (by intro h; cases h), f8, .inr ?_⟩
            intro hroot
            exact f4.trans (f7 hroot)
    · cases hk

theorem addFullValue_fine {B : Nat} (env : Env) (newSeq : Nat) (t : ListType) (path : Str)
    (off seq : Nat) (x : State × Logs) (hf : RecFine B x.1) :
    ∃ y, addFullValue env newSeq t path off seq x = .ok y ∧ RecFine B y.1 := by
  obtain ⟨lg, hlg⟩ := addFullValue_ok env newSeq t path off seq x
  refine ⟨_, hlg, ?_⟩
  cases hk : valueVersion env newSeq t off seq with
  | none => exact hf
  | some v =>
    unfold fileValue
    cases t with
    | updated => exact ⟨⟨hf.1.keys, hf.1.values⟩, hf.2⟩
    | deleted =>
      refine ⟨⟨hf.1.keys, ?_⟩, hf.2⟩
      intro q vs hq v' hv'
      dsimp only at hq
      rcases mapAdd_mem hq v' hv' with ⟨l, hl, hdl⟩ | ⟨rfl, rfl⟩
      · exact hf.1.values q l hl v' hdl
      · unfold valueVersion at hk
        split at hk
        · cases hk
        · split at hk
          · cases hk
            exact readValueBytes_hashed _ _ _
          · cases hk

theorem forEach_fine {B : Nat} {α : Type} (f : α → State × Logs → Res (State × Logs)) (Q : α → Prop)
    (hk : ∀ a x, Q a → RecFine B x.1 → ∃ y, f a x = .ok y ∧ RecFine B y.1) : ∀ (l : List α) (x : State × Logs),
    (∀ a ∈ l, Q a) → RecFine B x.1 → ∃ y, forEach f l x = .ok y ∧ RecFine B y.1 := by
  intro l
  induction l with
  | nil => intro x _ hx; exact ⟨x, rfl, hx⟩
  | cons a as ih =>
    intro x hl hx
    rw [forEach]
    obtain ⟨y, h1, h2⟩ := hk a x (hl a List.mem_cons_self) hx
    rw [h1]
    exact ih _ (fun b hb => hl b (List.mem_cons_of_mem _ hb)) h2

theorem foldl_takeOff_fine {B : Nat} (l : List (ItemKey × Item)) : ∀ st, RecFine B st → RecFine B (l.foldl takeOff st) := by
  induction l with
  | nil => intro st h; exact h
  | cons a as ih =>
    intro st h
    refine ih _ ?_
    unfold takeOff
    split
    · refine ⟨⟨h.1.keys, fun p vs hp v hv => ?_⟩, h.2⟩
      obtain ⟨l, hl, hvl⟩ := deletedValuesRemove_mem hp v hv
      exact h.1.values p l hl v hvl
    · refine ⟨⟨fun p ds hp d hd => ?_, h.1.values⟩, h.2⟩
      obtain ⟨l, hl, hdl⟩ := deletedKeysRemove_mem hp d hd
      exact h.1.keys p l hl d hdl

theorem analyzeEntry_fine (w : World) (hord : ∀ m, (w.order m).Perm m) {B : Nat} {pbuf buf : Bytes} (hpo : OrderlyKeys pbuf)
    (ho : OrderlyKeys buf) (hs : SaneLists buf w.depth) (hB : buf.length + 1 ≤ B) (hd : B + 3 ≤ w.depth)
    (newSeq : Nat) (x : State × RegItemMap) (hf : RecFine B x.1 ∧ ItemsFine B x.2) :
    analyzeEntry (w.env pbuf) (w.env buf) w.order w.steps newSeq x ≠ some .panic ∧
      ∀ y, analyzeEntry (w.env pbuf) (w.env buf) w.order w.steps newSeq x = some (.ok y) →
        RecFine B y.1 ∧ ItemsFine B y.2 := by
  have key : getLatestRegItems (w.env pbuf) (w.env buf) w.order w.steps newSeq x.2 x.1 ≠ some .panic ∧
      ∀ y, getLatestRegItems (w.env pbuf) (w.env buf) w.order w.steps newSeq x.2 x.1 = some (.ok y) →
        RecFine B y.1 ∧ ItemsFine B y.2.1 := by
    unfold getLatestRegItems
    obtain ⟨i1, i2⟩ := list_fine w ho hs hB hd hf.1.1 hf.1.2 false false w.steps
    cases hi : initRoot (w.env buf) x.1 with
    | err => exact ⟨by simp, by intro y h; cases h⟩
    | panic => exact absurd hi i1
    | ok z =>
      obtain ⟨root, ro⟩ := z
      obtain ⟨rfl, c1, c2⟩ := i2 root ro hi
      simp only
      cases hc : collect (nextPre (w.env buf)) w.steps (.start { x.1 with rootOffset := 0 } root {} false false) with
      | none => exact ⟨by simp, by intro y h; cases h⟩
      | some r =>
        rcases r with ns | _ | _
        · have hseen := seenOf_fine (c2 ns hc)
          simp only
          unfold analyzeSeen
          obtain ⟨c, hcl, hcf⟩ := compareLoop_fine newSeq (ns.flatMap seenOf) { prior := x.2 } hseen
            ⟨hf.2, (by intro x hx; cases hx), (by intro x hx; cases hx)⟩
          rw [hcl]
          simp only
          have hst0 : RecFine B { x.1 with rootOffset := 0 } := ⟨hf.1.1.at 0, rfl⟩
          obtain ⟨x1, h1, f1⟩ := forEach_fine _ (fun n : Needed => Placed B n.path n.off)
            (fun a x ha hx => addFullKey_fine (env := w.env pbuf) hpo newSeq .updated a.path a.off a.seq x ha hx) c.keys
            ({ x.1 with rootOffset := 0 }, c.logs) hcf.keys hst0
          rw [h1]
          simp only
          obtain ⟨x2, h2, f2⟩ := forEach_fine _ (fun _ => True)
            (fun (a : Needed) x _ hx => addFullValue_fine (w.env pbuf) newSeq .updated a.path a.off a.seq x hx) c.values
            x1 (fun _ _ => trivial) f1
          rw [h2]
          simp only
          obtain ⟨x3, h3, f3⟩ := forEach_fine (addDeleted (w.env pbuf) newSeq)
            (fun a : ItemKey × Item => a.1.2 = none → Placed B a.1.1 a.2.off)
            (fun a x ha hx => by
              unfold addDeleted
              split
              · exact addFullValue_fine _ _ _ _ _ _ x hx
              · rename_i hn
                exact addFullKey_fine (env := w.env pbuf) hpo _ _ _ _ _ x (ha hn) hx) (w.order c.prior) x2
            (fun a ha => hcf.prior a ((hord _).mem_iff.1 ha)) f2
          rw [h3]
          refine ⟨by simp, ?_⟩
          intro y hy
          cases hy
          exact ⟨foldl_takeOff_fine _ _ f3, hcf.latest⟩
        · exact ⟨by simp, by intro y h; cases h⟩
        · exact absurd hc c1
  unfold analyzeEntry
  cases hg : getLatestRegItems (w.env pbuf) (w.env buf) w.order w.steps newSeq x.2 x.1 with
  | none => exact ⟨by simp, by intro y h; cases h⟩
  | some r =>
    rcases r with ⟨st, items, logs⟩ | _ | _
    · refine ⟨by simp, ?_⟩
      intro y hy
      cases hy
      have := key.2 _ hg
      exact ⟨⟨⟨this.1.1.keys, this.1.1.values⟩, this.1.2⟩, this.2⟩
    · refine ⟨by simp, ?_⟩
      intro y hy
      cases hy
      exact ⟨⟨⟨hf.1.1.keys, hf.1.1.values⟩, hf.1.2⟩, hf.2⟩
    · exact absurd hg key.1

theorem getRegItems_fine (w : World) {B : Nat} {buf : Bytes}
    (ho : OrderlyKeys buf) (hs : SaneLists buf w.depth) (hB : buf.length + 1 ≤ B) (hd : B + 3 ≤ w.depth)
    (seq : Nat) (st : State) (hf : RecFine B st) :
    getRegItems (w.env buf) w.steps seq st ≠ some .panic ∧
      ∀ m st', getRegItems (w.env buf) w.steps seq st = some (.ok (m, st')) → RecFine B st' ∧ ItemsFine B m := by
  unfold getRegItems
  obtain ⟨i1, i2⟩ := list_fine w ho hs hB hd hf.1 hf.2 true false w.steps
  cases hi : initRoot (w.env buf) st with
  | err => exact ⟨by simp, by intro m st' h; cases h⟩
  | panic => exact absurd hi i1
  | ok z =>
    obtain ⟨root, ro⟩ := z
    obtain ⟨rfl, c1, c2⟩ := i2 root ro hi
    simp only
    cases hc : collect (nextPre (w.env buf)) w.steps (.start { st with rootOffset := 0 } root {} true false) with
    | none => exact ⟨by simp, by intro m st' h; cases h⟩
    | some r =>
      rcases r with ns | _ | _
      · obtain ⟨m', hm, hmf⟩ := regItemsLoop_fine seq (ns.flatMap seenOf) [] (seenOf_fine (c2 ns hc)) (by intro x hx; cases hx)
        simp only
        rw [hm]
        refine ⟨by simp, ?_⟩
        intro m st' h
        cases h
        exact ⟨⟨hf.1.at 0, rfl⟩, hmf⟩
      · exact ⟨by simp, by intro m st' h; cases h⟩
      · exact absurd hc c1

/-! ### Replaying -/

theorem orderly_congr {a b : Bytes} (h : ∀ i, byteAt b i = byteAt a i) (ha : OrderlyKeys a) : OrderlyKeys b := by
  intro o h4 h5
  simp only [h] at h4 h5 ⊢
  exact ha o h4 h5

theorem orderly_grow {buf : Bytes} (bins size : Nat) (h : OrderlyKeys buf) : OrderlyKeys (growBuffer bins size buf) := by
  refine orderly_congr (fun i => ?_) h
  unfold byteAt
  rw [(growBuffer_get bins size buf).2 i]
  by_cases h1 : i < buf.length
  · rw [if_pos h1]
  · rw [if_neg h1, List.getElem?_eq_none (by omega)]
    split <;> rfl

/-- What has been recorded, if recording has come so far. -/
def RecOk (B : Nat) (s : Recovery) : Prop :=
  s ≠ some .panic ∧ ∀ x, s = some (.ok x) → RecFine B x.1 ∧ ItemsFine B x.2

theorem u32At_low {a b : Bytes} (n : Nat) (h : ∀ i, i < n + 4 → b[i]? = a[i]?) : u32At b n = u32At a n := by
  unfold u32At
  congr 1
  unfold slice
  apply List.ext_getElem?
  intro i
  rw [List.getElem?_take, List.getElem?_take, List.getElem?_drop, List.getElem?_drop]
  split
  · exact h _ (by omega)
  · rfl

theorem wf_bins {σ : Type} {h : Hive σ} (hw : h.Wf) : h.baseBlock.base.hiveBinsDataSize = u32At h.buffer 40 := by
  have hb := hw.1
  unfold BaseBlock.fromBytes at hb
  rcases baseBlockBase_cases h.buffer with ⟨hlen, hsig, _⟩ | ⟨_, hc⟩
  · obtain ⟨fn, logs, _, hc⟩ := baseBlockBase_closed h.buffer hlen hsig
    rw [hc] at hb
    simp only [Res.bind_ok] at hb
    cases hext : BaseBlockExtended.fromBytes (h.buffer.drop 512) with
    | none => rw [hext] at hb; cases hb
    | some ext =>
      rw [hext] at hb
      simp only [Res.ofOption_some, Res.bind_ok] at hb
      injection hb with hb
      rw [← (Prod.mk.inj hb).1]
      rfl
  · rw [hc] at hb; cases hb

/-- The hypotheses on all states of the file. -/
def Calm (w : World) (B : Nat) (old : Bytes) (heads : List Bytes) (all : List LogEntry) : Prop :=
  ∀ es buf, es.Sublist all → Stage old heads es buf → OrderlyKeys buf ∧ SaneLists buf w.depth ∧ buf.length + 1 ≤ B

theorem updateEntries_fine (w : World) (hord : ∀ m, (w.order m).Perm m) {B : Nat} (hd : B + 3 ≤ w.depth) {old : Bytes}
    {heads : List Bytes} {all : List LogEntry} (hc : Calm w B old heads all) (sec bins : Nat) (tail : List LogEntry) :
    ∀ (es done : List LogEntry) (x y : ReplayState Recovery), (done ++ es ++ tail).Sublist all →
      Stage old heads done x.buffer → 4096 ≤ x.buffer.length → u32At x.buffer 40 = bins → RecOk B x.recovery →
      updateEntries (w.analyze true) 4096 sec bins es x = .ok y →
      ∃ done', (done' ++ tail).Sublist all ∧ Stage old heads done' y.buffer ∧ RecOk B y.recovery ∧
        x.buffer.length ≤ y.buffer.length ∧ ∀ i, i < 4096 → y.buffer[i]? = x.buffer[i]? := by
  intro es
  induction es with
  | nil =>
    intro done x y hsub hst h4 hb hr h
    cases h
    exact ⟨done, by simpa using hsub, hst, hr, Nat.le_refl _, fun _ _ => rfl⟩
  | cons e es ih =>
    intro done x y hsub hst h4 hb hr h
    have hskip : (done ++ es ++ tail).Sublist all := by
      refine List.Sublist.trans ?_ hsub
      exact List.Sublist.append_right (List.Sublist.append_left (List.sublist_cons_self e es) done) tail
    have hstop : (done ++ tail).Sublist all := by
      refine List.Sublist.trans ?_ hsub
      exact List.Sublist.append_right (List.sublist_append_left done (e :: es)) tail
    rw [updateEntries] at h
    split at h
    · split at h
      · exact ih done { x with info := x.info.add .WarningTransactionLog } y hskip (by exact hst) (by exact h4) (by exact hb) (by exact hr) h
      · split at h
        · cases h
          exact ⟨done, hstop, hst, hr, Nat.le_refl _, fun _ _ => rfl⟩
        · split at h
          · cases h
          · split at h
            · cases h
              exact ⟨done, hstop, hst, hr, Nat.le_refl _, fun _ _ => rfl⟩
            · split at h
              · rename_i buf hap
                have hlow := applyEntry_low hap
                have hstage : Stage old heads (done ++ [e]) buf := by
                  rcases Classical.em (pagesFit 4096 e.dirtyPages (x.buffer.length + (e.hiveBinsDataSize - bins))) with hf | hf
                  · obtain ⟨b, hb1, hl, hp⟩ := (entry_effect 4096 bins e x.buffer).1 hf
                    rw [hb1] at hap
                    cases hap
                    exact .write done x.buffer buf e hst (by rw [hb]; exact hl) hp
                  · rw [(entry_effect 4096 bins e x.buffer).2 hf] at hap
                    cases hap
                have hsub' : (done ++ [e] ++ es ++ tail).Sublist all := by simpa using hsub
                have hsubd : done.Sublist all := List.Sublist.trans (by simp) hsub
                have hsube : (done ++ [e]).Sublist all := List.Sublist.trans (by simp) hsub'
                have hrec : RecOk B (w.analyze true (growBuffer bins e.hiveBinsDataSize x.buffer) e.seq buf x.recovery) := by
                  obtain ⟨r1, r2⟩ := hr
                  obtain ⟨c1, c2, c3⟩ := hc _ _ hsube hstage
                  have hpo := orderly_grow bins e.hiveBinsDataSize (hc _ _ hsubd hst).1
                  unfold World.analyze
                  split
                  · rename_i s z hz
                    rw [if_pos rfl]
                    exact analyzeEntry_fine w hord hpo c1 c2 c3 hd e.seq z (r2 z hz)
                  · exact ⟨r1, r2⟩
                obtain ⟨done', k1, k2, k3, k4, k5⟩ := ih (done ++ [e]) _ y hsub' (by exact hstage)
                  (show 4096 ≤ buf.length from Nat.le_trans h4 hlow.1)
                  (show u32At buf 40 = bins by rw [← hb]; exact u32At_low 40 (fun i hi => hlow.2 i (by omega) (by omega)))
                  (by exact hrec) h
                refine ⟨done', k1, k2, k3, Nat.le_trans hlow.1 k4, fun i hi => ?_⟩
                rw [k5 i hi]
                exact hlow.2 i hi (by omega)
              · cases h
              · cases h
    · cases h
      exact ⟨done, hstop, hst, hr, Nat.le_refl _, fun _ _ => rfl⟩

theorem applyLogs_fine (w : World) (hord : ∀ m, (w.order m).Perm m) {B : Nat} (hd : B + 3 ≤ w.depth) {old : Bytes}
    {heads : List Bytes} {all : List LogEntry} (hc : Calm w B old heads all) (sec : Nat) :
    ∀ (ls : List TransactionLog) (n n' : Nat) (done : List LogEntry) (h h' : Hive Recovery),
      (done ++ ls.flatMap (·.entries)).Sublist all → Stage old heads done h.buffer → h.Wf → RecOk B h.recovery →
      applyLogs (w.analyze true) sec ls n h = .ok (n', h') → RecOk B h'.recovery := by
  intro ls
  induction ls with
  | nil => intro n n' done h h' _ _ _ hr he; cases he; exact hr
  | cons l ls ih =>
    intro n n' done h h' hsub hst hw hr he
    rw [List.flatMap_cons] at hsub
    have hskip : (done ++ ls.flatMap (·.entries)).Sublist all := by
      refine List.Sublist.trans ?_ hsub
      exact List.Sublist.append_left (List.sublist_append_right _ _) done
    rw [applyLogs] at he
    split at he
    · split at he
      · cases he
      · split at he
        · split at he
          · rename_i n1 h1 hu
            unfold updateParser at hu
            rw [hw.2.1] at hu
            split at hu
            · rename_i y hy
              cases hu
              obtain ⟨done', k1, k2, k3, k4, k5⟩ := updateEntries_fine w hord hd hc _ _ (ls.flatMap (·.entries)) l.entries
                done _ y (by simpa using hsub) (by exact hst) hw.2.2 (wf_bins hw).symm (by exact hr) hy
              refine ih _ n' done' { h with buffer := y.buffer, hbinOffset := 4096, info := y.info, recovery := y.recovery } h' k1 (by exact k2) ?_ (by exact k3) he
              have hlen : 4096 ≤ y.buffer.length := Nat.le_trans hw.2.2 k4
              exact ⟨(baseBlock_frame _ _ _ hw.1).2.2 y.buffer hlen k5, rfl, hlen⟩
            · cases hu
            · cases hu
          · cases he
          · cases he
        · exact ih n n' done _ h' hskip (by exact hst) (by exact hw) (by exact hr) he
    · exact ih n n' done _ h' hskip (by exact hst) (by exact hw) (by exact hr) he

theorem reinit_wf {σ : Type} {h h' : Hive σ} (he : h.reinit = .ok h') : h'.Wf ∧ h'.buffer = h.buffer ∧ h'.recovery = h.recovery := by
  unfold Hive.reinit at he
  cases hb : BaseBlock.fromBytes h.buffer with
  | err => unfold initBaseBlock at he; rw [hb] at he; cases he
  | panic => exact absurd hb (baseBlock_no_panic _)
  | ok x =>
    obtain ⟨bb, rest⟩ := x
    obtain ⟨sup, bad, info', hi, _⟩ := initBaseBlock_ok h.buffer h.info bb rest hb
    obtain ⟨f1, f2, _⟩ := baseBlock_frame _ _ _ hb
    rw [hi] at he
    cases he
    exact ⟨⟨by rw [hb, f1], rfl, f2⟩, rfl, rfl⟩

/-- The file the entries are written over. -/
theorem prepareLogs_stage {h : Hive Recovery} (hw : h.Wf) (bad : Bool) {logs : List TransactionLog}
    {b : Bool} {h' : Hive Recovery} {logs' : List TransactionLog} (hp : prepareLogs h bad logs = .ok (b, h', logs')) :
    Stage h.buffer (logs.map (·.baseBlockBytes)) [] h'.buffer ∧ h'.Wf ∧ h'.recovery = h.recovery ∧
      (logs'.flatMap (·.entries)).Sublist (logs.flatMap (·.entries)) := by
  have hdo : prepareLogs h bad logs =
      ((if bad = true then handleBadChecksum h logs else .ok (h, logs)) >>= fun y =>
        if y.1.baseBlock.base.primarySeq = y.1.baseBlock.base.secondarySeq then
          .ok (false, { y.1 with info := y.1.info.add .WarningTransactionLog }, y.2)
        else .ok (true, y.1, y.2)) := by
    unfold prepareLogs
    cases bad <;> rfl
  rw [hdo] at hp
  have hinner : ∀ y, (if bad = true then handleBadChecksum h logs else .ok (h, logs)) = .ok y →
      Stage h.buffer (logs.map (·.baseBlockBytes)) [] y.1.buffer ∧ y.1.Wf ∧ y.1.recovery = h.recovery ∧
      (y.2.flatMap (·.entries)).Sublist (logs.flatMap (·.entries)) := by
    intro y hy
    by_cases hbad : bad = true
    · rw [if_pos hbad] at hy
      unfold handleBadChecksum at hy
      simp only at hy
      split at hy
      · cases hy
      · rename_i newest hg
        split at hy
        · cases hy
        · split at hy
          · cases hy
          · split at hy
            · rename_i h2 hr
              cases hy
              obtain ⟨w1, w2, w3⟩ := reinit_wf hr
              refine ⟨?_, w1, w3, ?_⟩
              · show Stage _ _ [] h2.buffer
                rw [w2]
                exact .head _ (List.mem_map.2 ⟨newest, List.mem_of_getLast? hg, rfl⟩)
              · show (List.flatMap _ (if _ then _ else _)).Sublist _
                split
                · cases logs with
                  | nil => exact List.Sublist.refl _
                  | cons l ls => rw [List.flatMap_cons]; exact List.sublist_append_right _ _
                · exact List.Sublist.refl _
            · cases hy
            · cases hy
    · rw [if_neg hbad] at hy
      cases hy
      exact ⟨.start, hw, rfl, List.Sublist.refl _⟩
  cases hx : (if bad = true then handleBadChecksum h logs else .ok (h, logs)) with
  | err => rw [hx] at hp; cases hp
  | panic => rw [hx] at hp; cases hp
  | ok y =>
    obtain ⟨g1, g2, g3, g4⟩ := hinner y hx
    rw [hx] at hp
    simp only [Res.bind_ok] at hp
    split at hp
    · cases hp; exact ⟨g1, g2, g3, g4⟩
    · cases hp; exact ⟨g1, g2, g3, g4⟩

theorem updateHeader_kept {σ : Type} {h h' : Hive σ} {n : Nat} (he : updateHeader h n = .ok h') :
    h'.recovery = h.recovery ∧ h'.hbinOffset = 4096 := by
  unfold updateHeader at he
  cases hr : rewriteHeader h.buffer n with
  | err => rw [hr] at he; cases he
  | panic => rw [hr] at he; cases he
  | ok buf =>
    rw [hr] at he
    simp only [Res.bind_ok] at he
    cases hi : Hive.reinit { h with buffer := buf } with
    | err => rw [hi] at he; cases he
    | panic => rw [hi] at he; cases he
    | ok h2 =>
      rw [hi] at he
      cases he
      obtain ⟨w1, _, w3⟩ := reinit_wf hi
      exact ⟨w3, w1.2.1⟩

theorem applyTransactionLogs_fine (w : World) (hord : ∀ m, (w.order m).Perm m) {B : Nat} (hd : B + 3 ≤ w.depth)
    {h : Hive Recovery} (hw : h.Wf) (hr : RecOk B h.recovery) (bad : Bool) (logs : List TransactionLog)
    (hl : ∀ l ∈ logs, SafeLog l)
    (hc : Calm w B h.buffer (logs.map (·.baseBlockBytes)) (logs.flatMap (·.entries))) :
    applyTransactionLogs (w.analyze true) (w.initItems true) h bad logs ≠ .panic ∧
      ∀ h', applyTransactionLogs (w.analyze true) (w.initItems true) h bad logs = .ok h' →
        RecOk B h'.recovery ∧ h'.hbinOffset = 4096 := by
  unfold applyTransactionLogs
  cases hne : logs with
  | nil => exact ⟨by simp, by intro h' he; cases he; exact ⟨hr, hw.2.1⟩⟩
  | cons l ls =>
    rw [if_neg (by simp), ← hne]
    obtain ⟨p1, p2⟩ := prepareLogs_safe h bad logs hw.2.2 hl (by rw [hne]; simp)
    cases hp : prepareLogs h bad logs with
    | err => exact ⟨by simp, by intro h' he; cases he⟩
    | panic => exact absurd hp p1
    | ok y =>
      obtain ⟨b, h1, logs'⟩ := y
      obtain ⟨q1, q2⟩ := p2 b h1 logs' hp
      obtain ⟨s1, s2, s3, s4⟩ := prepareLogs_stage hw bad hp
      rw [← s3] at hr
      cases b with
      | false => exact ⟨by simp, by intro h' he; cases he; exact ⟨hr, s2.2.1⟩⟩
      | true =>
        simp only
        obtain ⟨c1, c2, c3⟩ := hc [] h1.buffer (List.nil_sublist _) s1
        have hI : w.initItems true h1.buffer h1.recovery ≠ .panic ∧
            ∀ s, w.initItems true h1.buffer h1.recovery = .ok s → RecOk B s := by
          unfold World.initItems
          split
          · rename_i z hz
            rw [if_pos rfl]
            obtain ⟨g1, g2⟩ := getRegItems_fine w c1 c2 c3 hd 0 z.1 (hr.2 z hz).1
            split
            · exact ⟨by simp, by intro s he; cases he; exact ⟨by simp, by intro x hx; cases hx⟩⟩
            · exact ⟨by simp, by intro s he; cases he⟩
            · rename_i hg; exact absurd hg g1
            · rename_i items st hg
              refine ⟨by simp, ?_⟩
              intro s he
              cases he
              exact ⟨by simp, by intro x hx; cases hx; exact g2 _ _ hg⟩
          · exact ⟨by simp, by intro s he; cases he; exact hr⟩
        cases hit : w.initItems true h1.buffer h1.recovery with
        | err => exact ⟨by simp, by intro h' he; cases he⟩
        | panic => exact absurd hit hI.1
        | ok s0 =>
          simp only
          have hrs := hI.2 s0 hit
          obtain ⟨a1, a2⟩ := applyLogs_safe (w.analyze true) h1.baseBlock.base.secondarySeq logs' 0 { h1 with recovery := s0 } q2 (by omega)
          cases ha : applyLogs (w.analyze true) h1.baseBlock.base.secondarySeq logs' 0 { h1 with recovery := s0 } with
          | err => exact ⟨by simp, by intro h' he; cases he⟩
          | panic => exact absurd ha a1
          | ok z =>
            obtain ⟨n, h3⟩ := z
            simp only
            have hlen : h1.buffer.length ≤ h3.buffer.length := a2 n h3 ha
            have hrec := applyLogs_fine w hord hd hc _ logs' 0 n [] { h1 with recovery := s0 } h3 (by simpa using s4)
              (by exact s1) (by exact s2) (by exact hrs) ha
            refine ⟨updateHeader_safe h3 n (by omega), ?_⟩
            intro h' he
            obtain ⟨u1, u2⟩ := updateHeader_kept he
            exact ⟨by rw [u1]; exact hrec, u2⟩

/-- What a scan records. -/
theorem scan_fine {w : World} {buf : Bytes} (ho : OrderlyKeys buf) {B : Nat} (hB : 1 ≤ B) (hd : buf.length < 24 * w.depth)
    (hs : buf.length < w.steps) (size : Nat) {st : State}
    (h : initRecoverDeleted (w.env buf) w.steps size {} = some (.ok st)) : RecFine B st := by
  obtain ⟨vs, ns, e1, e2, e3, e4, e5, e6, e7, e8, e9⟩ := recover_sound_partial (w.env buf) hd _ w.steps hs {} st h
  refine ⟨⟨?_, ?_⟩, e9⟩
  · intro q ds hq d hdm
    by_cases hqe : q = []
    · subst hqe
      rw [hq] at e2
      have : ds = ns := e2
      subst this
      obtain ⟨_, g2, m, g3, g4⟩ := e4 d hdm
      have hempty : StFine B {} := ⟨(by intro q ds h; cases h), (by intro q vs h; cases h)⟩
      obtain ⟨f1, ⟨name, f2, f3⟩, f4, f5, f6, f7, f8⟩ :=
        readKey_fine (env := w.env buf) ho hempty (show level [] + 1 ≤ B from hB) g3
      have hk := ((fine_iff m).1 (f1 (fun _ => rfl))).1
      clear f1
      have hst := deletedAs_state g2
      have hbare : m.deletedKeys = [] := deletedAt_bare g3
      generalize d.key.cellState = cs at g4 hst
      subst g4
      cases m with
      | mk k vs' ds' =>
        exact ⟨⟨hk.placed, hk.hash, hk.values⟩, ⟨name, f2, f3⟩, hst.2, hbare, .inl hst.1⟩
    · rw [(e6 q hqe).2] at hq; cases hq
  · intro q l hq v hv
    by_cases hqe : q = []
    · subst hqe
      rw [hq] at e1
      have : l = vs := e1
      subst this
      obtain ⟨_, _, kv, r, _, g⟩ := e3 v hv
      rw [g]
      exact readValueBytes_hashed _ _ _
    · rw [(e6 q hqe).1] at hq; cases hq

end Notatin
