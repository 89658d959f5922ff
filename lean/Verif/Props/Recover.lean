import Verif.Lemmas.Recover
import Verif.Props.Cells
/-
C26, C49: the scan for deleted keys and values.
-/
namespace Notatin
open Spec

/-! ### C26: the scan ends, does not crash, and reports only what is in the file -/

/-- The values among the items. -/
def foundValues (its : List Found) : List Value :=
  its.filterMap fun | .value v => some v | .key _ => none

/-- The keys among the items. -/
def foundKeys (its : List Found) : List Node :=
  its.filterMap fun | .value _ => none | .key n => some n

theorem found_perm (its : List Found) :
    ((foundValues its).map (fun v => v.val.fileOffset) ++
      (foundKeys its).map fun n => n.key.fileOffset).Perm (its.map Found.off) := by
  induction its with
  | nil => exact .nil
  | cons x its ih =>
    cases x with
    | value v => exact ih.cons _
    | key n => exact List.perm_middle.trans (ih.cons _)

theorem recordAll_found (its : List Found) (st : State) :
    ((recordAll st its).deletedValues []).getD [] = (st.deletedValues []).getD [] ++ foundValues its ∧
    ((recordAll st its).deletedKeys []).getD [] = (st.deletedKeys []).getD [] ++ foundKeys its ∧
    (∀ p, p ≠ [] → (recordAll st its).deletedValues p = st.deletedValues p ∧
      (recordAll st its).deletedKeys p = st.deletedKeys p) ∧
    (recordAll st its).modifiedKeys = st.modifiedKeys ∧
    (recordAll st its).modifiedValues = st.modifiedValues ∧
    (recordAll st its).rootOffset = st.rootOffset := by
  induction its generalizing st with
  | nil => exact ⟨(List.append_nil _).symm, (List.append_nil _).symm, fun _ _ => ⟨rfl, rfl⟩, rfl, rfl, rfl⟩
  | cons x its ih =>
    obtain ⟨h1, h2, h3, h4, h5, h6⟩ := ih (x.record st)
    cases x with
    | value v =>
      refine ⟨h1.trans ?_, h2, fun p hp => ⟨(h3 p hp).1.trans ?_, (h3 p hp).2⟩, h4, h5, h6⟩
      · show (mapAdd st.deletedValues [] v []).getD [] ++ _ = _
        rw [mapAdd_getD, if_pos rfl, List.append_assoc]
        rfl
      · show mapAdd st.deletedValues [] v p = _
        unfold mapAdd
        rw [if_neg hp]
    | key n =>
      refine ⟨h1, h2.trans ?_, fun p hp => ⟨(h3 p hp).1, (h3 p hp).2.trans ?_⟩, h4, h5, h6⟩
      · show (mapAdd st.deletedKeys [] n []).getD [] ++ _ = _
        rw [mapAdd_getD, if_pos rfl, List.append_assoc]
        rfl
      · show mapAdd st.deletedKeys [] n p = _
        unfold mapAdd
        rw [if_neg hp]

/-- C26: whatever the file contains, the scan for deleted cells ends — after at most as many rounds
of each loop as the file has bytes — and does not crash, provided the stack has room for one
call per 24 bytes of the file (`recover_overflow_violated` shows the proviso is needed). -/
theorem recover_terminates_partial (env : Env) (hd : env.fi.buffer.length < 24 * env.depth)
    (size steps : Nat) (hs : env.fi.buffer.length < steps) (st : State) :
    ∃ r, initRecoverDeleted env steps size st = some r ∧ r ≠ .panic := by
  obtain ⟨r, e, h⟩ := scanBins_ok env hd size steps env.fi.hbin st (by omega) (by omega)
  refine ⟨r, e, ?_⟩
  rcases h with rfl | ⟨_, _, rfl, _, _⟩ <;> simp

/-- C26: the keys and values the scan adds are what reading the file at their offset gives, at or
after the first bin; each is free space (positive size field) or was found in the unused part of
another cell and is marked accordingly; no offset is reported twice, neither as two values or keys
nor as a value and a key; what was on record before stays, and nothing else changes but the
warnings. -/
theorem recover_sound_partial (env : Env) (hd : env.fi.buffer.length < 24 * env.depth)
    (size steps : Nat) (hs : env.fi.buffer.length < steps) (st st' : State)
    (h : initRecoverDeleted env steps size st = some (.ok st')) :
    ∃ (vs : List Value) (ns : List Node),
      (st'.deletedValues []).getD [] = (st.deletedValues []).getD [] ++ vs ∧
      (st'.deletedKeys []).getD [] = (st.deletedKeys []).getD [] ++ ns ∧
      (∀ v ∈ vs, env.fi.hbin ≤ v.val.fileOffset ∧
        DeletedAs env.fi.buffer v.val.fileOffset v.val.cellState ∧ ∃ kv r,
          KeyValue.fromBytes (env.fi.buffer.drop v.val.fileOffset) v.val.fileOffset none
            = .ok (kv, r) ∧
          v = .mk { kv.readValueBytes env.hashFn env.fi with cellState := v.val.cellState } []) ∧
      (∀ n ∈ ns, env.fi.hbin ≤ n.key.fileOffset ∧
        DeletedAs env.fi.buffer n.key.fileOffset n.key.cellState ∧ ∃ m,
          readKey env {} (deletedAt n.key.fileOffset) = .ok (some m, 0) ∧
          n = m.setKey { m.key with cellState := n.key.cellState }) ∧
      (vs.map (fun v => v.val.fileOffset) ++ ns.map fun n => n.key.fileOffset).Nodup ∧
      (∀ p, p ≠ [] → st'.deletedValues p = st.deletedValues p ∧
        st'.deletedKeys p = st.deletedKeys p) ∧
      st'.modifiedKeys = st.modifiedKeys ∧ st'.modifiedValues = st.modifiedValues ∧
      st'.rootOffset = st.rootOffset := by
  obtain ⟨r, e, hr⟩ := scanBins_ok env hd size steps env.fi.hbin st (by omega) (by omega)
  unfold initRecoverDeleted at h
  rw [h] at e
  cases e
  rcases hr with hr | ⟨b, s2, hr, hb, its, info, he, hg, hn⟩
  · cases hr
  cases hr
  obtain ⟨h1, h2, h3, h4, h5, h6⟩ := recordAll_found its st
  refine ⟨foundValues its, foundKeys its, by rw [he]; exact h1, by rw [he]; exact h2, ?_, ?_,
    (found_perm its).nodup_iff.2 hn, by rw [he]; exact h3, by rw [he]; exact h4,
    by rw [he]; exact h5, by rw [he]; exact h6⟩
  · intro v hv
    obtain ⟨it, hit, hv⟩ := List.mem_filterMap.1 hv
    cases it with
    | value w =>
      cases hv
      have := hg _ hit
      exact ⟨this.2.1, this.1⟩
    | key n => cases hv
  · intro n hn
    obtain ⟨it, hit, hv⟩ := List.mem_filterMap.1 hn
    cases it with
    | value w => cases hv
    | key m =>
      cases hv
      have := hg _ hit
      exact ⟨this.2.1, this.1⟩

/-! ### C26: cells nested in slack overflow the stack -/

/-- A free value cell without name or data whose unused part is `slack`. -/
def nestCell (slack : Bytes) : VkCell :=
  { size := 24 + slack.length, dataSize := 0, dataOffset := 0, dataType := 0, flags := 1,
    padding := 0, nameBytes := [], slack }

/-- `n` free value cells, each in the unused part of the one before. -/
def nested : Nat → Bytes
  | 0 => []
  | n + 1 => (nestCell (nested n)).encode

theorem nested_length (n : Nat) : (nested n).length = 24 * n := by
  induction n with
  | zero => rfl
  | succ n ih =>
    simp only [nested, nestCell, VkCell.encode, List.length_append, length_encI32, length_encLE, ih]
    simp only [vkSig, List.length_cons, List.length_nil]
    omega

theorem nestCell_fits (n : Nat) (h : n < 80000000) : (nestCell (nested n)).Fits := by
  have := nested_length n
  refine ⟨?_, ?_, ?_, ?_, ?_, ?_, ?_, ?_⟩ <;> simp only [nestCell, isI32] <;>
    (try rw [this]) <;> (try simp only [List.length_nil]) <;> omega

theorem nestCell_parse (n : Nat) (h : n < 80000000) (rest : Bytes) (off : Nat) :
    ∃ v, KeyValue.fromBytes (nested (n + 1) ++ rest) off none = .ok (v, rest) ∧
      v.slack = nested n := by
  obtain ⟨v, h1, h2, _, _⟩ := vk_decode_ascii (nestCell (nested n)) (nestCell_fits n h)
    (show Nat.testBit 1 0 = true from rfl)
    (by
      intro i hi
      cases i with
      | zero => rfl
      | succ i => exact absurd hi (by simp [nestCell, Nat.testBit_succ]))
    rest off none
  exact ⟨v, h1, h2.2.2.2.2.2.2.2.1⟩

theorem nested_cons (n : Nat) (rest : Bytes) : ∃ i r, leI32 (nested (n + 1) ++ rest) = some (i, r) ∧
    0 < (nested (n + 1) ++ rest).length ∧
    (tag [0x6E, 0x6B] r).isSome = false ∧ (tag [0x76, 0x6B] r).isSome = true ∧
    (n < 80000000 → i ≠ 0) := by
  have hl : 4 ≤ (nested (n + 1) ++ rest).length := by
    rw [List.length_append, nested_length]; omega
  refine ⟨_, _, leI32_zero _ hl, by omega, ?_, ?_, ?_⟩
  · simp only [nested, VkCell.encode, vkSig, List.append_assoc]
    rw [List.drop_left' (length_encI32 _)]
    rfl
  · simp only [nested, VkCell.encode, vkSig, List.append_assoc]
    rw [List.drop_left' (length_encI32 _)]
    rfl
  · intro hn
    have hf := nestCell_fits n hn
    have h1 := leI32_zero _ hl
    have h2 : nested (n + 1) ++ rest = encI32 (nestCell (nested n)).size ++
        ((nested (n + 1)).drop 4 ++ rest) := by
      conv => lhs; rw [show nested (n + 1) = encI32 (nestCell (nested n)).size ++ (nested (n + 1)).drop 4 by
        simp only [nested, VkCell.encode]
        rw [List.drop_left' (length_encI32 _)]]
      rw [List.append_assoc]
    rw [h2, leI32_enc hf.1] at h1
    intro h0
    rw [← h2] at h1
    injection h1 with h1
    injection h1 with h1 _
    have h3 := hf.2.1
    rw [h1, h0] at h3
    simp at h3
    omega

theorem slack_overflow (env : Env) (steps : Nat) (hs : 0 < steps) : ∀ (depth n : Nat),
    depth ≤ n → n < 80000000 → ∀ start st,
    findCellsInSlack env steps depth (nested n) start st = some .panic := by
  intro depth
  induction depth with
  | zero => intro n _ _ start st; rfl
  | succ depth ih =>
    intro n hn hlt start st
    obtain ⟨m, rfl⟩ : ∃ m, n = m + 1 := ⟨n - 1, by omega⟩
    obtain ⟨s, rfl⟩ : ∃ s, steps = s + 1 := ⟨steps - 1, by omega⟩
    obtain ⟨i, r, h1, h2, h3, h4, _⟩ := nested_cons m []
    rw [List.append_nil] at h1 h2
    obtain ⟨v, hv, hsl⟩ := nestCell_parse m (by omega) [] (start + 0)
    rw [List.append_nil] at hv
    unfold findCellsInSlack slackLoop
    rw [if_pos h2, List.drop_zero, h1]
    simp only
    unfold slackCell
    rw [h3, h4]
    simp only [Bool.false_eq_true, if_false, if_true]
    unfold readCellKeyValue
    rw [hv]
    simp only
    unfold keepValue
    rw [hsl, ih m (by omega) (by omega)]

/-- The header of a bin of 4096 bytes. -/
def binHeader : Bytes :=
  [0x68, 0x62, 0x69, 0x6E, 0, 0, 0, 0, 0, 0x10, 0, 0, 0, 0, 0, 0, 0, 0, 0, 0, 0, 0, 0, 0, 0, 0, 0, 0,
    0, 0, 0, 0]

/-- A file whose first bin starts with nested cells. -/
def nestedFile (n : Nat) : Bytes := List.replicate 4096 0 ++ (binHeader ++ nested n)

/-- C26 fails without a bound on the nesting of cells in slack: for every stack depth there is a
file, of about 24 bytes per level, on which the scan overflows the stack. -/
theorem recover_overflow_violated (depth : Nat) (h : depth < 80000000 - 1)
    (hashFn : Bytes → Bytes) (size steps : Nat) (hz : 4096 < size) (hst : 0 < steps) (st : State) :
    initRecoverDeleted ⟨⟨4096, nestedFile (depth + 1)⟩, hashFn, depth⟩ steps size st
      = some .panic ∧ (nestedFile (depth + 1)).length = 4152 + 24 * depth := by
  have hlen : (nestedFile (depth + 1)).length = 4152 + 24 * depth := by
    unfold nestedFile
    rw [List.length_append, List.length_append, nested_length, List.length_replicate]
    simp only [binHeader, List.length_cons, List.length_nil]
    omega
  refine ⟨?_, hlen⟩
  obtain ⟨s, rfl⟩ : ∃ s, steps = s + 1 := ⟨steps - 1, by omega⟩
  have hd1 : (nestedFile (depth + 1)).drop 4096 = binHeader ++ nested (depth + 1) := by
    unfold nestedFile
    exact List.drop_left' List.length_replicate
  have hd2 : (nestedFile (depth + 1)).drop 4128 = nested (depth + 1) := by
    rw [show 4128 = 4096 + 32 from rfl, ← List.drop_drop, hd1]
    exact List.drop_left' rfl
  have hh : ∃ hb, HiveBinHeader.fromBytes 4096 (binHeader ++ nested (depth + 1)) =
      some (hb, nested (depth + 1)) ∧ hb.size = 4096 := ⟨_, rfl, rfl⟩
  obtain ⟨hb, hh, hsz⟩ := hh
  obtain ⟨i, r, h1, h2, h3, h4, h5⟩ := nested_cons depth []
  rw [List.append_nil] at h1 h2
  obtain ⟨v, hv, hsl⟩ := nestCell_parse depth (by omega) [] 4128
  rw [List.append_nil] at hv
  have hct : CellType.readCellType r = .CellValue := by
    unfold CellType.readCellType
    rw [h3, h4]; rfl
  unfold initRecoverDeleted scanBins
  simp only
  rw [if_pos hz]
  unfold scanBin readChecked
  simp only
  rw [if_pos (by rw [hlen]; omega)]
  simp only [hd1, hh, hsz]
  rw [nested_length, show (nestedFile (depth + 1)).length - 24 * (depth + 1) = 4128 by omega,
    if_pos (by rw [hlen]; omega), hd2]
  simp only
  unfold binLoop
  rw [if_pos (by omega), h1]
  simp only
  rw [if_neg (h5 (by omega)), hct]
  unfold visitCell readChecked
  simp only
  rw [if_pos (by rw [hlen]; omega), hd2]
  simp only
  unfold readCellKeyValue
  rw [hv]
  simp only
  unfold keepValue
  rw [hsl, slack_overflow _ _ (by omega) _ _ (Nat.le_refl _) (by omega)]

/-! ### C49: every free cell is found -/

theorem chain_le {buf : Bytes} {a b : Nat} {cs : List Nat} (h : Chain buf a b cs) : a ≤ b := by
  induction h with
  | nil => exact Nat.le_refl _
  | cons a b cs h1 h2 ih => omega

/-- The cell at `c`, if free, is on record as what its signature says. -/
def FreeRecorded (env : Env) (st : State) (c : Nat) : Prop :=
  0 < sizeAt env.fi.buffer c →
    (ValueReadable (env.fi.buffer.drop c) → ValueRecorded env st c) ∧
    (KeyReadable (env.fi.buffer.drop c) → KeyRecorded env st c)

theorem freeRecorded_grows {env : Env} {a b : Nat} {st st' : State} (h : Grows env a b st st')
    {c : Nat} (hr : FreeRecorded env st c) : FreeRecorded env st' c :=
  fun hf => ⟨fun hv => valueRecorded_grows h ((hr hf).1 hv),
    fun hk => keyRecorded_grows h ((hr hf).2 hk)⟩

theorem cellType_of_sig {buf : Bytes} {off : Nat} {input : Bytes} (hat : IsAt buf off input)
    (hl : 6 ≤ input.length) :
    (slice (buf.drop off) 4 2 = vkSig → CellType.readCellType (input.drop 4) = .CellValue) ∧
    (slice (buf.drop off) 4 2 = nkSig → CellType.readCellType (input.drop 4) = .CellKey) := by
  obtain ⟨ext, he⟩ := hat
  rw [he, slice_append _ _ _ _ (by omega)]
  unfold CellType.readCellType
  constructor
  · intro h
    have h1 : slice input 4 ([0x6E, 0x6B] : Bytes).length = vkSig := h
    have h2 : slice input 4 ([0x76, 0x6B] : Bytes).length = vkSig := h
    rw [tag_drop, tag_drop, h1, h2]
    rfl
  · intro h
    have h1 : slice input 4 ([0x6E, 0x6B] : Bytes).length = nkSig := h
    rw [tag_drop, h1]
    rfl

theorem binLoop_complete (env : Env) (hd : env.fi.buffer.length < 24 * env.depth) (b : Nat)
    (hb : b ≤ env.fi.buffer.length) (off : Nat) (cs : List Nat)
    (hc : Chain env.fi.buffer off b cs) :
    ∀ (steps : Nat) (input : Bytes) (st : State), IsAt env.fi.buffer off input →
      off < env.fi.buffer.length → (off < b → 6 ≤ input.length) →
      env.fi.buffer.length < steps + off →
      ∃ st', binLoop env b steps input off st = some (.ok (b, st')) ∧ Grows env off b st st' ∧
        ∀ c ∈ cs, FreeRecorded env st' c := by
  induction hc with
  | nil a =>
    intro steps input st hat h1 h2 h3
    obtain ⟨s, rfl⟩ : ∃ s, steps = s + 1 := ⟨steps - 1, by omega⟩
    unfold binLoop
    rw [if_neg (by omega)]
    exact ⟨st, rfl, grows_refl _ _ _ _, by simp⟩
  | cons a b cs hsz hrest ih =>
    intro steps input st hat h1 h2 h3
    obtain ⟨s, rfl⟩ : ∃ s, steps = s + 1 := ⟨steps - 1, by omega⟩
    have hle := chain_le hrest
    have hl := h2 (by omega)
    have hsize := sizeAt_eq hat (by omega)
    unfold binLoop
    rw [if_pos (by omega), leI32_zero input (by omega), ← hsize]
    simp only
    rw [if_neg (by omega)]
    have habs : unsignedAbs (sizeAt env.fi.buffer a) = (sizeAt env.fi.buffer a).natAbs := rfl
    rw [habs]
    obtain ⟨st1, e, g, hr⟩ := visitCell_ok env hd (s + 1) a (sizeAt env.fi.buffer a).natAbs h3
      (CellType.readCellType (input.drop 4)) rfl (by omega) h1 st
    rw [e]
    simp only
    have hfree : FreeRecorded env st1 a := by
      intro hf
      obtain ⟨t1, t2⟩ := cellType_of_sig hat hl
      exact ⟨fun hv => (hr hf).1 (t1 hv.2.2.1) hv, fun hk => (hr hf).2 (t2 hk.2.2.1) hk⟩
    unfold readRangeChecked
    by_cases hn : a + (sizeAt env.fi.buffer a).natAbs < env.fi.buffer.length
    · rw [if_pos hn]
      simp only
      obtain ⟨st2, e2, g2, hr2⟩ := ih hb s
        ((env.fi.buffer.drop (a + (sizeAt env.fi.buffer a).natAbs)).take
          (min (a + (sizeAt env.fi.buffer a).natAbs + (sizeAt env.fi.buffer a).natAbs)
            env.fi.buffer.length - (a + (sizeAt env.fi.buffer a).natAbs))) st1 (isAt_take _ _ _) hn
        (by
          intro hlt
          rw [List.length_take, List.length_drop]
          cases hrest with
          | nil => omega
          | cons _ _ cs' hs' hr' => have := chain_le hr'; omega)
        (by omega)
      refine ⟨st2, e2, grows_trans g g2 (by omega) hle, ?_⟩
      intro c hcm
      rcases List.mem_cons.1 hcm with rfl | hcm
      · exact freeRecorded_grows g2 hfree
      · exact hr2 c hcm
    · rw [if_neg hn]
      have hbe : a + (sizeAt env.fi.buffer a).natAbs = b := by omega
      cases hrest with
      | nil =>
        refine ⟨st1, rfl, g, ?_⟩
        intro c hcm
        rw [List.mem_singleton] at hcm
        subst hcm
        exact hfree
      | cons _ _ cs' hs' hr' => have := chain_le hr'; omega

theorem hiveBinHeader_some (buf : Bytes) (off : Nat) (hsig : slice buf off 4 = [0x68, 0x62, 0x69, 0x6E])
    (hl : off + 32 ≤ buf.length) :
    ∃ h, HiveBinHeader.fromBytes off (buf.drop off) = some (h, buf.drop (off + 32)) ∧
      h.size = u32At buf (off + 8) := by
  unfold HiveBinHeader.fromBytes
  have ht := tag_drop [0x68, 0x62, 0x69, 0x6E] buf off
  rw [show ([0x68, 0x62, 0x69, 0x6E] : Bytes).length = 4 from rfl, if_pos hsig] at ht
  rw [ht]
  simp only [bind, Option.bind_some, leU32, leU64]
  rw [leUint_drop 4 buf (off + 4) (by omega)]
  simp only [Option.bind_some]
  rw [leUint_drop 4 buf (off + 4 + 4) (by omega)]
  simp only [Option.bind_some]
  rw [leUint_drop 4 buf (off + 4 + 4 + 4) (by omega)]
  simp only [Option.bind_some]
  rw [leUint_drop 4 buf (off + 4 + 4 + 4 + 4) (by omega)]
  simp only [Option.bind_some]
  rw [leUint_drop 8 buf (off + 4 + 4 + 4 + 4 + 4) (by omega)]
  simp only [Option.bind_some]
  rw [leUint_drop 4 buf (off + 4 + 4 + 4 + 4 + 4 + 8) (by omega)]
  exact ⟨_, rfl, rfl⟩

theorem bins_le {buf : Bytes} {a e : Nat} {bs : List (Nat × List Nat)} (h : Bins buf a e bs) :
    a ≤ e := by
  induction h with
  | nil => exact Nat.le_refl _
  | cons a b e cs bs h1 h2 ih => have := h1.2.2.1; omega

theorem bins_from {buf : Bytes} {a e : Nat} {bs : List (Nat × List Nat)} (h : Bins buf a e bs) :
    ∀ p ∈ bs, a ≤ p.1 := by
  induction h with
  | nil => simp
  | cons a b e cs bs h1 h2 ih =>
    intro p hp
    rcases List.mem_cons.1 hp with rfl | hp
    · exact Nat.le_refl _
    · have := ih p hp; have := h1.2.2.1; omega

theorem scanBins_complete (env : Env) (hd : env.fi.buffer.length < 24 * env.depth) (size : Nat)
    (off e : Nat) (bs : List (Nat × List Nat)) (hb : Bins env.fi.buffer off e bs)
    (he : e ≤ env.fi.buffer.length) (hse : size ≤ e) :
    ∀ (steps : Nat) (st : State), env.fi.buffer.length < steps + off → 0 < steps →
      ∃ st' b, scanBins env size steps off st = some (.ok st') ∧ Grows env off b st st' ∧
        (∀ p ∈ bs, size ≤ p.1 → b ≤ p.1) ∧
        ∀ p ∈ bs, p.1 < size → ∀ c ∈ p.2, FreeRecorded env st' c := by
  induction hb with
  | nil a =>
    intro steps st h1 h2
    obtain ⟨s, rfl⟩ : ∃ s, steps = s + 1 := ⟨steps - 1, by omega⟩
    unfold scanBins
    rw [if_neg (by omega)]
    exact ⟨st, a, rfl, grows_refl _ _ _ _, by simp, by simp⟩
  | cons a b e cs bs hbin hrest ih =>
    intro steps st h1 h2
    obtain ⟨s, rfl⟩ : ∃ s, steps = s + 1 := ⟨steps - 1, by omega⟩
    obtain ⟨b1, b2, b3, b4⟩ := hbin
    have hle := bins_le hrest
    unfold scanBins
    by_cases ho : a < size
    · rw [if_pos ho]
      obtain ⟨h, hh, hhs⟩ := hiveBinHeader_some env.fi.buffer a b1 (by omega)
      obtain ⟨st1, e1, g1, r1⟩ := binLoop_complete env hd b (by omega) (a + 32) cs b4 (s + 1)
        (env.fi.buffer.drop (a + 32)) st (isAt_self _ _) (by omega)
        (by
          intro _
          rw [List.length_drop]
          cases b4 with
          | nil => omega
          | cons _ _ cs' hs' hr' => have := chain_le hr'; omega)
        (by omega)
      have hscan : scanBin env (s + 1) a st = some (.ok (b, st1)) := by
        unfold scanBin readChecked
        rw [if_pos (by omega)]
        simp only [hh]
        rw [List.length_drop, show env.fi.buffer.length - (env.fi.buffer.length - (a + 32)) = a + 32 by omega,
          if_pos (by omega), hhs, b2]
        exact e1
      rw [hscan]
      simp only
      obtain ⟨st2, b', e2, g2, q2, r2⟩ := ih he hse s st1 (by omega) (by omega)
      have hb' : b ≤ max b b' := Nat.le_max_left _ _
      refine ⟨st2, max b b', e2, grows_trans (grows_mono g1 (by omega) (Nat.le_refl _))
        (grows_mono g2 (Nat.le_refl _) (Nat.le_max_right _ _)) (by omega) hb', ?_, ?_⟩
      · intro p hp hps
        rcases List.mem_cons.1 hp with rfl | hp
        · exact absurd hps (by simp only; omega)
        · exact Nat.max_le.2 ⟨bins_from hrest p hp, q2 p hp hps⟩
      intro p hp hps c hcm
      rcases List.mem_cons.1 hp with rfl | hp
      · exact freeRecorded_grows g2 (r1 c hcm)
      · exact r2 p hp hps c hcm
    · rw [if_neg ho]
      refine ⟨st, a, rfl, grows_refl _ _ _ _, ?_, ?_⟩
      · intro p hp hps
        rcases List.mem_cons.1 hp with rfl | hp
        · exact Nat.le_refl _
        · have := bins_from hrest p hp; omega
      intro p hp hps
      rcases List.mem_cons.1 hp with rfl | hp
      · omega
      · have := bins_from hrest p hp; omega

/-- C49 as far as it holds: if the bins data of the file is a sequence of well-formed bins, then the
scan succeeds, and every free cell holding a key or value — in a bin whose *file* offset is below
the size of the bins data — is on record, with what reading the file there gives.  Missing: the bins
of the last 4096 bytes, see `recover_misses_last_bins_violated`. -/
theorem recover_complete_partial (env : Env) (hd : env.fi.buffer.length < 24 * env.depth)
    (bins : List (Nat × List Nat)) (size steps : Nat)
    (hb : Bins env.fi.buffer env.fi.hbin (env.fi.hbin + size) bins)
    (he : env.fi.hbin + size ≤ env.fi.buffer.length) (hs : env.fi.buffer.length < steps)
    (st : State) :
    ∃ st', initRecoverDeleted env steps size st = some (.ok st') ∧
      ∀ p ∈ bins, p.1 < size → ∀ c ∈ p.2, 0 < sizeAt env.fi.buffer c →
        (ValueReadable (env.fi.buffer.drop c) →
          ∃ v ∈ (st'.deletedValues []).getD [], v.val.fileOffset = c) ∧
        (KeyReadable (env.fi.buffer.drop c) →
          ∃ n ∈ (st'.deletedKeys []).getD [], n.key.fileOffset = c) := by
  obtain ⟨st', _, e, _, _, h⟩ := scanBins_complete env hd size env.fi.hbin _ bins hb he (by omega)
    steps st (by omega) (by omega)
  refine ⟨st', e, ?_⟩
  intro p hp hps c hc hf
  obtain ⟨h1, h2⟩ := h p hp hps c hc hf
  refine ⟨fun hv => ?_, fun hk => ?_⟩
  · obtain ⟨v, hv1, hv2, _⟩ := h1 hv
    exact ⟨v, hv1, hv2⟩
  · obtain ⟨n, hn1, hn2, _⟩ := h2 hk
    exact ⟨n, hn1, hn2⟩

/-- How C49 fails for the last bins: the loop over the bins stops when the offset *in the file* reaches
the size of the bins data, which starts at offset 4096.  In a well-formed hive nothing at or after
a bin starting there is reported. -/
theorem recover_misses_last_bins (env : Env) (hd : env.fi.buffer.length < 24 * env.depth)
    (bins : List (Nat × List Nat)) (size steps : Nat)
    (hb : Bins env.fi.buffer env.fi.hbin (env.fi.hbin + size) bins)
    (he : env.fi.hbin + size ≤ env.fi.buffer.length) (hs : env.fi.buffer.length < steps)
    (p : Nat × List Nat) (hp : p ∈ bins) (hps : size ≤ p.1) :
    ∃ st', initRecoverDeleted env steps size {} = some (.ok st') ∧
      (∀ q, ∀ v ∈ (st'.deletedValues q).getD [], v.val.fileOffset < p.1) ∧
      (∀ q, ∀ n ∈ (st'.deletedKeys q).getD [], n.key.fileOffset < p.1) := by
  obtain ⟨st', b, e, ⟨its, info, h1, h2, _⟩, h3, _⟩ := scanBins_complete env hd size env.fi.hbin _
    bins hb he (by omega) steps {} (by omega) (by omega)
  obtain ⟨f1, f2, f3, _⟩ := recordAll_found its {}
  have hb := h3 p hp hps
  refine ⟨st', e, ?_, ?_⟩
  · intro q v hv
    rw [h1] at hv
    by_cases hq : q = []
    · subst hq
      have hv' : v ∈ ([] : List Value) ++ foundValues its := f1 ▸ hv
      obtain ⟨it, hit, hx⟩ := List.mem_filterMap.1 hv'
      cases it with
      | value w => cases hx; have := (h2 _ hit).2.2; exact Nat.lt_of_lt_of_le this hb
      | key n => cases hx
    · have hv' : v ∈ ((recordAll {} its).deletedValues q).getD [] := hv
      rw [(f3 q hq).1] at hv'
      cases hv'
  · intro q n hn
    rw [h1] at hn
    by_cases hq : q = []
    · subst hq
      have hn' : n ∈ ([] : List Node) ++ foundKeys its := f2 ▸ hn
      obtain ⟨it, hit, hx⟩ := List.mem_filterMap.1 hn'
      cases it with
      | value w => cases hx
      | key m => cases hx; have := (h2 _ hit).2.2; exact Nat.lt_of_lt_of_le this hb
    · have hn' : n ∈ ((recordAll {} its).deletedKeys q).getD [] := hn
      rw [(f3 q hq).2] at hn'
      cases hn'

/-- A free value cell filling a bin of 4096 bytes. -/
def wholeBin : Bytes :=
  binHeader ++ VkCell.encode
    { size := 4064, dataSize := 0, dataOffset := 0, dataType := 0, flags := 1, padding := 0,
      nameBytes := [0x61], slack := List.replicate 4039 0 }

/-- A hive of `n` such bins. -/
def freeBins (n : Nat) : Bytes := List.replicate 4096 0 ++ (List.replicate n wholeBin).flatten

theorem freeBins_one : Bins (freeBins 1) 4096 (4096 + 4096) [(4096, [4128])] :=
  .cons _ 8192 _ _ _ ⟨by decide +kernel, by decide +kernel, by decide +kernel,
    .cons _ _ _ (by decide +kernel) (by
      rw [show 4096 + 32 + (sizeAt (freeBins 1) (4096 + 32)).natAbs = 8192 by decide +kernel]
      exact .nil _)⟩ (.nil _)

/-- A well-formed hive of one bin with a free, readable value cell, of which the scan reports
nothing. -/
theorem recover_misses_last_bins_violated (hashFn : Bytes → Bytes) (depth steps : Nat)
    (hs : 0 < steps) :
    ∃ (env : Env) (bins : List (Nat × List Nat)) (p : Nat × List Nat) (c : Nat),
      env.hashFn = hashFn ∧ env.depth = depth ∧ env.fi.hbin = 4096 ∧
      Bins env.fi.buffer 4096 (4096 + 4096) bins ∧ env.fi.buffer.length = 4096 + 4096 ∧
      p ∈ bins ∧ c ∈ p.2 ∧ 0 < sizeAt env.fi.buffer c ∧ ValueReadable (env.fi.buffer.drop c) ∧
      ∀ st, initRecoverDeleted env steps 4096 st = some (.ok st) := by
  refine ⟨⟨⟨4096, freeBins 1⟩, hashFn, depth⟩, _, (4096, [4128]), 4128, rfl, rfl, rfl,
    freeBins_one, (by decide +kernel : (freeBins 1).length = 4096 + 4096),
    List.mem_singleton.2 rfl, List.mem_singleton.2 rfl,
    (by decide +kernel : 0 < sizeAt (freeBins 1) 4128),
    (by decide +kernel : ValueReadable ((freeBins 1).drop 4128)), ?_⟩
  intro st
  obtain ⟨s, rfl⟩ : ∃ s, steps = s + 1 := ⟨steps - 1, by omega⟩
  rfl

/-- Case: in the hive of two such bins the first is scanned and its cell found; the second is not. -/
theorem freeBins_two : Bins (freeBins 2) 4096 (4096 + 8192) [(4096, [4128]), (8192, [8224])] :=
  .cons _ 8192 _ _ _ ⟨by decide +kernel, by decide +kernel, by decide +kernel,
    .cons _ _ _ (by decide +kernel) (by
      rw [show 4096 + 32 + (sizeAt (freeBins 2) (4096 + 32)).natAbs = 8192 by decide +kernel]
      exact .nil _)⟩
  (.cons _ 12288 _ _ _ ⟨by decide +kernel, by decide +kernel, by decide +kernel,
    .cons _ _ _ (by decide +kernel) (by
      rw [show 8192 + 32 + (sizeAt (freeBins 2) (8192 + 32)).natAbs = 12288 by decide +kernel]
      exact .nil _)⟩ (.nil _))

example (hashFn : Bytes → Bytes) :
    ∃ st', initRecoverDeleted ⟨⟨4096, freeBins 2⟩, hashFn, 20000⟩ 20000 8192 {} = some (.ok st') ∧
      (∃ v ∈ (st'.deletedValues []).getD [], v.val.fileOffset = 4128) ∧
      ∀ q, ∀ v ∈ (st'.deletedValues q).getD [], v.val.fileOffset < 8192 := by
  have hl : (freeBins 2).length = 12288 := by decide +kernel
  obtain ⟨st', e, h⟩ := recover_complete_partial ⟨⟨4096, freeBins 2⟩, hashFn, 20000⟩
    (by simp only [hl]; omega) _ 8192 20000 freeBins_two (by simp only [hl]; omega)
    (by simp only [hl]; omega) {}
  obtain ⟨st2, e2, h2, _⟩ := recover_misses_last_bins ⟨⟨4096, freeBins 2⟩, hashFn, 20000⟩
    (by simp only [hl]; omega) _ 8192 20000 freeBins_two (by simp only [hl]; omega)
    (by simp only [hl]; omega) (8192, [8224]) (by simp) (by simp)
  rw [e] at e2
  cases e2
  exact ⟨st', e, (h (4096, [4128]) (by simp) (by simp) 4128 (by simp)
    (by decide +kernel : 0 < sizeAt (freeBins 2) 4128)).1
    (by decide +kernel : ValueReadable ((freeBins 2).drop 4128)), h2⟩

end Notatin
