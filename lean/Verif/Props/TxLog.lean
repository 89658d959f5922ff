import Verif.Lemmas.BaseBlock
import Verif.Spec.TxLog
/- C05, C06, C29, C35: transaction log files. -/
namespace Notatin
open Spec

/-! ### C35 -/

theorem length_encRefs (pages : List (Nat × Bytes)) : (encRefs pages).length = 8 * pages.length := by
  induction pages with
  | nil => rfl
  | cons p ps ih =>
    rw [encRefs, List.flatMap_cons, List.length_append, ← encRefs, ih]
    simp; omega

theorem count_refs (pages : List (Nat × Bytes)) (rest : Bytes)
    (h : ∀ p ∈ pages, p.1 < 2 ^ 32 ∧ p.2.length < 2 ^ 32) :
    count dirtyPageRef pages.length (encRefs pages ++ rest) =
      some (pages.map (fun p => (p.1, p.2.length)), rest) := by
  induction pages with
  | nil => rfl
  | cons p ps ih =>
    obtain ⟨h1, h2⟩ := h p (by simp)
    have hp : dirtyPageRef (encRefs (p :: ps) ++ rest) = some ((p.1, p.2.length), encRefs ps ++ rest) := by
      unfold dirtyPageRef encRefs
      rw [List.flatMap_cons, List.append_assoc, List.append_assoc, leU32_enc (by omega)]
      simp only [Option.bind_eq_bind, Option.bind_some]
      rw [leU32_enc (by omega)]
      rfl
    rw [List.length_cons, count, hp]
    simp only
    rw [ih (fun q hq => h q (by simp [hq]))]
    rfl

theorem readPages_enc (pages : List (Nat × Bytes)) (rest : Bytes) :
    readPages (pages.map (fun p => (p.1, p.2.length))) (encPages pages ++ rest) =
      some (pages.map (fun p => ⟨p.1, p.2⟩), rest) := by
  induction pages with
  | nil => rfl
  | cons p ps ih =>
    rw [List.map_cons, readPages, encPages, List.flatMap_cons, List.append_assoc, take_append _ _ _ rfl]
    simp only [Option.bind_eq_bind, Option.bind_some]
    rw [← encPages, ih]
    rfl

theorem Spec.RawEntry.length_encode (e : RawEntry) : e.encode.length = e.size := by
  unfold RawEntry.encode RawEntry.size
  simp only [List.length_append, length_encLE, length_encRefs, List.length_cons, List.length_nil]

/-- The stored hashes of an encoded entry are right. -/
def Spec.RawEntry.hashesOk (e : RawEntry) : Prop :=
  (marvin32 defaultSeed (e.encode.drop 40)).toNat = e.hash1 ∧
  (marvin32 defaultSeed (e.encode.take 32)).toNat = e.hash2

instance (e : RawEntry) : Decidable (RawEntry.hashesOk e) := inferInstanceAs (Decidable (_ ∧ _))

/-- What the library should report for an entry at file offset `pos`. -/
def Spec.RawEntry.expected (e : RawEntry) (pos : Nat) : LogEntry :=
  { fileOffset := pos, size := e.size, flags := e.flags, seq := e.seq, hiveBinsDataSize := e.bins,
    dirtyPagesCount := e.pages.length, hash1 := e.hash1, hash2 := e.hash2,
    dirtyPages := e.pages.map (fun p => ⟨p.1, p.2⟩), hasValidHashes := decide e.hashesOk }

theorem page_le (pages : List (Nat × Bytes)) : ∀ p ∈ pages, p.2.length ≤ (encPages pages).length := by
  induction pages with
  | nil => intro p hp; cases hp
  | cons q ps ih =>
    intro p hp
    rw [encPages, List.flatMap_cons, List.length_append, ← encPages]
    rcases List.mem_cons.1 hp with rfl | hp
    · omega
    · have := ih p hp; omega

/-- C35: an encoded entry, followed by anything, parses to exactly its content. -/
theorem log_entry_roundtrip (e : RawEntry) (he : e.Fits) (pos : Nat) (rest : Bytes) :
    LogEntry.fromBytes pos (e.encode ++ rest) = .ok (e.expected pos, rest) := by
  obtain ⟨h1, h2, h3, h4, h5, h6, h7⟩ := he
  have hsz : 8 * e.pages.length + (encPages e.pages).length + e.pad.length + 40 = e.size := by
    unfold RawEntry.size; omega
  have hlen : (e.encode ++ rest).length = e.size + rest.length := by
    rw [List.length_append, RawEntry.length_encode]
  have hhash1 : calcHash1 (e.encode ++ rest) e.size =
      .ok (marvin32 defaultSeed (e.encode.drop 40)).toNat := by
    unfold calcHash1
    rw [if_neg (by omega), getRange, if_pos ⟨by omega, by omega⟩]
    simp only
    rw [List.drop_append_of_le_length (by rw [RawEntry.length_encode]; omega),
      List.take_left' (by rw [List.length_drop, RawEntry.length_encode])]
  have hhash2 : calcHash2 (e.encode ++ rest) = .ok (marvin32 defaultSeed (e.encode.take 32)).toNat := by
    unfold calcHash2
    rw [getRange, if_pos ⟨by omega, by omega⟩]
    simp only [List.drop_zero, Nat.sub_zero]
    rw [List.take_append_of_le_length (by rw [RawEntry.length_encode]; omega)]
  unfold LogEntry.fromBytes
  have hpages : ∀ p ∈ e.pages, p.1 < 2 ^ 32 ∧ p.2.length < 2 ^ 32 := by
    intro p hp
    have := page_le e.pages p hp
    exact ⟨h7 p hp, by omega⟩
  have henc : e.encode ++ rest = hvle ++ (encLE 4 e.size ++ (encLE 4 e.flags ++ (encLE 4 e.seq ++
      (encLE 4 e.bins ++ (encLE 4 e.pages.length ++ (encLE 8 e.hash1 ++ (encLE 8 e.hash2 ++
      (encRefs e.pages ++ (encPages e.pages ++ (e.pad ++ rest)))))))))) := by
    unfold RawEntry.encode hvle
    simp only [List.append_assoc]
  rw [show tag hvle (e.encode ++ rest) = some ((), _) by rw [henc, tag_append]]
  simp only [Res.ofOption_some, Res.bind_ok]
  rw [leU32_enc (by omega)]
  simp only [Res.ofOption_some, Res.bind_ok]
  rw [leU32_enc (by omega)]
  simp only [Res.ofOption_some, Res.bind_ok]
  rw [leU32_enc (by omega)]
  simp only [Res.ofOption_some, Res.bind_ok]
  rw [leU32_enc (by omega)]
  simp only [Res.ofOption_some, Res.bind_ok]
  rw [leU32_enc (by omega)]
  simp only [Res.ofOption_some, Res.bind_ok]
  rw [leU64_enc (by omega)]
  simp only [Res.ofOption_some, Res.bind_ok]
  rw [leU64_enc (by omega)]
  simp only [Res.ofOption_some, Res.bind_ok]
  rw [count_refs _ _ hpages]
  simp only [Res.ofOption_some, Res.bind_ok]
  rw [readPages_enc]
  simp only [Res.ofOption_some, Res.bind_ok]
  have hcons : e.size + rest.length - (e.pad ++ rest).length = e.size - e.pad.length := by
    rw [List.length_append]; omega
  have heat : eatRemaining (e.pad ++ rest) e.size (e.size - e.pad.length) = some (e.pad, rest) := by
    unfold eatRemaining
    by_cases hp : e.pad.length = 0
    · rw [List.length_eq_zero_iff] at hp
      rw [hp]; simp
    · rw [if_pos (by omega), take_append _ _ _ (by omega)]
  rw [hlen, hcons, heat]
  simp only [Res.ofOption_some, Res.bind_ok, hhash1, hhash2]
  have hv : (e.hash1 == (marvin32 defaultSeed (e.encode.drop 40)).toNat &&
      e.hash2 == (marvin32 defaultSeed (e.encode.take 32)).toNat) = decide e.hashesOk := by
    rw [Bool.eq_iff_iff, decide_eq_true_iff, Bool.and_eq_true, beq_iff_eq, beq_iff_eq]
    unfold RawEntry.hashesOk
    exact ⟨fun ⟨a, b⟩ => ⟨a.symm, b.symm⟩, fun ⟨a, b⟩ => ⟨a.symm, b.symm⟩⟩
  rw [hv]
  rfl

/-- The entries expected from consecutive encodings starting at `pos`. -/
def expectedEntries : Nat → List RawEntry → List LogEntry
  | _, [] => []
  | pos, e :: es => e.expected pos :: expectedEntries (pos + e.size) es

/-- C35: any number of encoded entries followed by bytes that are not an entry parse to exactly
these entries, at their file offsets, and the rest is left. -/
theorem log_entries_roundtrip (es : List RawEntry) (hes : ∀ e ∈ es, e.Fits) (junk : Bytes)
    (hj : ∀ pos, LogEntry.fromBytes pos junk = .err) : ∀ pos,
    logEntries pos (es.flatMap (·.encode) ++ junk) = .ok (expectedEntries pos es, junk) := by
  induction es with
  | nil =>
    intro pos
    rw [logEntries, List.flatMap_nil, List.nil_append, hj]
    rfl
  | cons e es ih =>
    intro pos
    have hrt := log_entry_roundtrip e (hes e (by simp)) pos (es.flatMap (·.encode) ++ junk)
    rw [List.flatMap_cons, List.append_assoc]
    rw [logEntries.eq_def, hrt]
    have hl : (e.encode ++ (es.flatMap (·.encode) ++ junk)).length -
        (es.flatMap (·.encode) ++ junk).length = e.size := by
      rw [List.length_append, RawEntry.length_encode]; omega
    have hpos : (es.flatMap (·.encode) ++ junk).length <
        (e.encode ++ (es.flatMap (·.encode) ++ junk)).length := by
      rw [List.length_append (as := e.encode), RawEntry.length_encode]
      unfold RawEntry.size; omega
    simp only [dif_pos hpos, hl]
    rw [ih (fun x hx => hes x (by simp [hx]))]
    rfl

/-- C35: a log file made of a 512-byte header and entries, cut off by anything that is not an
entry, gives exactly the header and these entries. -/
theorem log_file_roundtrip (hdr : Bytes) (base : BaseBlockBase) (hb : BaseBlockBase.fromBytes hdr = .ok (base, []))
    (es : List RawEntry) (hes : ∀ e ∈ es, e.Fits) (junk : Bytes)
    (hj : ∀ pos, LogEntry.fromBytes pos junk = .err) :
    TransactionLog.fromBytes (hdr ++ (es.flatMap (·.encode) ++ junk)) =
      .ok ({ base, baseBlockBytes := hdr, entries := expectedEntries 512 es }, junk) := by
  obtain ⟨hlen, hsig⟩ := baseBlockBase_ok _ _ hb
  have hdl : hdr.length = 512 := by
    rcases baseBlockBase_cases hdr with ⟨_, _, fn, logs, h⟩ | ⟨h, _⟩
    · rw [h] at hb
      simp only [Res.ok.injEq, Prod.mk.injEq] at hb
      have := congrArg List.length hb.2
      simp at this
      omega
    · exact absurd ⟨hlen, hsig⟩ h
  generalize hr : es.flatMap (·.encode) ++ junk = r
  have hs : ∀ o k, o + k ≤ 512 → slice (hdr ++ r) o k = slice hdr o k := by
    intro o k hk
    apply slice_ext
    intro i _ h2
    rw [List.getElem?_append_left (by omega)]
  have hu : ∀ o, o + 4 ≤ 512 → u32At (hdr ++ r) o = u32At hdr o := by
    intro o hk; unfold u32At; rw [hs o 4 hk]
  obtain ⟨fn, logs, hf, hc⟩ := baseBlockBase_closed hdr hlen hsig
  obtain ⟨fn', logs', hf', hc'⟩ := baseBlockBase_closed (hdr ++ r) (by simp; omega)
    (by rw [List.take_append_of_le_length (by omega)]; exact hsig)
  have hl : baseLogs (hdr ++ r) = baseLogs hdr := by
    unfold baseLogs; rw [hu 28 (by omega), hu 32 (by omega)]
  rw [hs 48 64 (by omega), hl, hf] at hf'
  simp only [Res.ok.injEq, Prod.mk.injEq] at hf'
  obtain ⟨rfl, rfl⟩ := hf'
  have hbase : baseOfSlices (hdr ++ r) fn logs = baseOfSlices hdr fn logs := by
    unfold baseOfSlices
    simp only [hu 4 (by omega), hu 8 (by omega), hs 12 8 (by omega), hu 20 (by omega),
      hu 24 (by omega), hu 28 (by omega), hu 32 (by omega), hu 36 (by omega), hu 40 (by omega),
      hu 44 (by omega), hs 112 396 (by omega), hu 508 (by omega)]
  rw [hc] at hb
  simp only [Res.ok.injEq, Prod.mk.injEq] at hb
  have hd : (hdr ++ r).drop 512 = r := by rw [← hdl, List.drop_left]
  unfold TransactionLog.fromBytes
  rw [hc', hbase, hd, hb.1]
  simp only [Res.bind_ok]
  have hpos : (hdr ++ r).length - r.length = 512 := by simp; omega
  rw [hpos, ← hr, log_entries_roundtrip es hes junk hj 512]
  simp only [Res.bind_ok]
  rw [getRange, if_pos ⟨by omega, by rw [List.length_append]; omega⟩]
  simp only [List.drop_zero]
  rw [List.take_left' (by omega)]

/-- Bytes that are not an entry: the empty rest, or anything not starting with `HvLE`. -/
theorem not_entry (junk : Bytes) (h : junk.take 4 ≠ hvle) (pos : Nat) :
    LogEntry.fromBytes pos junk = .err := by
  unfold LogEntry.fromBytes tag
  rw [show hvle.length = 4 from rfl, if_neg h]
  rfl

example : LogEntry.fromBytes 0 ((RawEntry.mk 0 7 4096 1 2 [(8, [1, 2, 3])] [0]).encode ++ [9]) =
    .ok (⟨0, 52, 0, 7, 4096, 1, 1, 2, [⟨8, [1, 2, 3]⟩], false⟩, [9]) := by decide +kernel

/-! ### C06 -/

/-- The logs that can be used, in order. -/
def usableLog (f : Bytes) : Option TransactionLog :=
  if f = [] then none
  else match TransactionLog.fromBytes f with
    | .ok (l, _) => some l
    | _ => none

theorem readLogs_spec (files : List Bytes) : ∀ logs,
    (∀ f ∈ files, TransactionLog.fromBytes f ≠ .panic) →
    ∃ logs', readLogs files logs = .ok (files.filterMap usableLog, logs') ∧
      logs'.codes = logs.codes ++
        List.replicate (files.countP (fun f => (usableLog f).isNone)) .WarningParse := by
  induction files with
  | nil => intro logs _; exact ⟨logs, rfl, by simp⟩
  | cons f fs ih =>
    intro logs hp
    have hp' : ∀ f ∈ fs, TransactionLog.fromBytes f ≠ .panic := fun x hx => hp x (by simp [hx])
    rw [readLogs]
    by_cases hf : f = []
    · subst hf
      obtain ⟨logs', h1, h2⟩ := ih (logs.add .WarningParse) hp'
      refine ⟨logs', by simpa [usableLog] using h1, ?_⟩
      rw [h2, Logs.codes_add, List.countP_cons_of_pos (by simp [usableLog]), List.replicate_succ]
      simp
    · have : f.isEmpty = false := by cases f <;> simp_all
      rw [this]
      cases hl : TransactionLog.fromBytes f with
      | panic => exact absurd hl (hp f (by simp))
      | ok x =>
        obtain ⟨logs', h1, h2⟩ := ih logs hp'
        have hu : usableLog f = some x.1 := by simp [usableLog, hf, hl]
        simp only [Bool.false_eq_true, if_false, h1]
        refine ⟨logs', by rw [List.filterMap_cons_some hu], ?_⟩
        rw [h2, List.countP_cons_of_neg (by simp [hu])]
      | err =>
        obtain ⟨logs', h1, h2⟩ := ih (logs.add .WarningParse) hp'
        have hu : usableLog f = none := by simp [usableLog, hf, hl]
        simp only [Bool.false_eq_true, if_false, h1]
        refine ⟨logs', by rw [List.filterMap_cons_none hu], ?_⟩
        rw [h2, Logs.codes_add, List.countP_cons_of_pos (by simp [hu]), List.replicate_succ]
        simp

/-! What a parser leaves is a suffix of its input. -/

theorem suffix_tag {t i r : Bytes} {u : Unit} (h : tag t i = some (u, r)) : r <:+ i :=
  ⟨t, (tag_eq_some.1 h).symm⟩

theorem suffix_leUint {k n : Nat} {i r : Bytes} (h : leUint k i = some (n, r)) : r <:+ i := by
  obtain ⟨a, _, e, _⟩ := leUint_eq_some.1 h
  exact ⟨a, e.symm⟩

theorem suffix_take {k : Nat} {i a r : Bytes} (h : Notatin.take k i = some (a, r)) : r <:+ i := by
  obtain ⟨_, e⟩ := take_eq_some.1 h
  exact ⟨a, e.symm⟩

theorem suffix_count {α : Type} {p : Parser α} (hp : ∀ i a r, p i = some (a, r) → r <:+ i) :
    ∀ (n : Nat) (i r : Bytes) (x : List α), count p n i = some (x, r) → r <:+ i := by
  intro n
  induction n with
  | zero => intro i r x hh; cases hh; exact List.suffix_refl _
  | succ n ih =>
    intro i r x hh
    rw [count] at hh
    split at hh
    · cases hh
    · rename_i a i' heq
      split at hh
      · cases hh
      · rename_i as i'' heq2
        cases hh
        exact (ih _ _ _ heq2).trans (hp _ _ _ heq)

theorem suffix_dirtyPageRef (i : Bytes) (a : Nat × Nat) (r : Bytes)
    (h : dirtyPageRef i = some (a, r)) : r <:+ i := by
  unfold dirtyPageRef leU32 at h
  simp only [Option.bind_eq_bind, Option.bind_eq_some_iff, Option.some.injEq, Prod.mk.injEq] at h
  obtain ⟨⟨_, r1⟩, q1, ⟨_, r2⟩, q2, _, rfl⟩ := h
  exact (suffix_leUint q2).trans (suffix_leUint q1)

theorem suffix_readPages : ∀ (refs : List (Nat × Nat)) (i r : Bytes) (x : List DirtyPage),
    readPages refs i = some (x, r) → r <:+ i := by
  intro refs
  induction refs with
  | nil => intro i r x hh; cases hh; exact List.suffix_refl _
  | cons p ps ih =>
    intro i r x hh
    obtain ⟨o, sz⟩ := p
    rw [readPages] at hh
    simp only [Option.bind_eq_bind, Option.bind_eq_some_iff, Option.some.injEq, Prod.mk.injEq] at hh
    obtain ⟨⟨_, r1⟩, q1, ⟨_, r2⟩, q2, _, rfl⟩ := hh
    exact (ih _ _ _ q2).trans (suffix_take q1)

theorem suffix_eatRemaining {i r a : Bytes} {s c : Nat} (h : eatRemaining i s c = some (a, r)) :
    r <:+ i := by
  unfold eatRemaining at h
  split at h
  · exact suffix_take h
  · cases h; exact List.suffix_refl _

/-- The steps of a successful or panicking entry parse up to the hashes. -/
theorem logEntry_steps (pos : Nat) (bs : Bytes) (h : LogEntry.fromBytes pos bs ≠ .err) :
    bs.take 4 = hvle ∧ 40 ≤ bs.length ∧
    ∃ pages rest : Bytes, ∃ dp : List DirtyPage, pages <:+ bs ∧ rest <:+ pages ∧
      eatRemaining pages (u32At bs 4) (bs.length - pages.length) = some (pages.take (u32At bs 4 - (bs.length - pages.length)), rest) ∧
      LogEntry.fromBytes pos bs = (do
        let h1 ← calcHash1 bs (u32At bs 4)
        let h2 ← calcHash2 bs
        .ok ({ fileOffset := pos, size := u32At bs 4, flags := u32At bs 8, seq := u32At bs 12,
               hiveBinsDataSize := u32At bs 16, dirtyPagesCount := u32At bs 20,
               hash1 := leNat (slice bs 24 8), hash2 := leNat (slice bs 32 8), dirtyPages := dp,
               hasValidHashes := leNat (slice bs 24 8) == h1 && leNat (slice bs 32 8) == h2 }, rest)) := by
  unfold LogEntry.fromBytes at h ⊢
  by_cases ht : bs.take 4 = hvle
  · have htag : tag hvle bs = some ((), bs.drop 4) := by
      unfold tag; rw [show hvle.length = 4 from rfl, if_pos ht]
    rw [htag] at h ⊢
    by_cases hl : 40 ≤ bs.length
    · simp only [Res.ofOption_some, Res.bind_ok, leU32, leU64,
        leUint_drop 4 bs 4 (by omega), leUint_drop 4 bs 8 (by omega), leUint_drop 4 bs 12 (by omega),
        leUint_drop 4 bs 16 (by omega), leUint_drop 4 bs 20 (by omega), leUint_drop 8 bs 24 (by omega),
        leUint_drop 8 bs 32 (by omega), Nat.reduceAdd] at h ⊢
      refine ⟨ht, hl, ?_⟩
      cases hc : count dirtyPageRef (leNat (slice bs 20 4)) (bs.drop 40) with
      | none => rw [hc] at h; exact absurd rfl h
      | some x =>
        obtain ⟨refs, i8⟩ := x
        rw [hc] at h
        simp only [Res.ofOption_some, Res.bind_ok] at h ⊢
        cases hr : readPages refs i8 with
        | none => rw [hr] at h; exact absurd rfl h
        | some x =>
          obtain ⟨dp, i9⟩ := x
          rw [hr] at h
          simp only [Res.ofOption_some, Res.bind_ok] at h ⊢
          cases he : eatRemaining i9 (leNat (slice bs 4 4)) (bs.length - i9.length) with
          | none => rw [he] at h; exact absurd rfl h
          | some x =>
            obtain ⟨a, i10⟩ := x
            have hs8 := suffix_count suffix_dirtyPageRef _ _ _ _ hc
            have hs9 := suffix_readPages _ _ _ _ hr
            refine ⟨i9, i10, dp, (hs9.trans hs8).trans (List.drop_suffix _ _),
              suffix_eatRemaining he, ?_, rfl⟩
            unfold u32At
            rw [he]
            unfold eatRemaining at he
            split at he
            · unfold Notatin.take at he
              split at he
              · cases he; rfl
              · cases he
            · cases he
              congr 2
              rw [Nat.sub_eq_zero_of_le (by omega)]; rfl
    · exfalso
      apply h
      clear h ht htag
      simp only [Res.ofOption_some, Res.bind_ok, leU32, leU64]
      have hstep : ∀ {β : Type} (k o : Nat) (f : Nat × Bytes → Res β), 0 < k →
          (o + k ≤ bs.length → f (leNat (slice bs o k), bs.drop (o + k)) = .err) →
          (Res.ofOption (leUint k (bs.drop o)) >>= f) = .err := by
        intro β k o f hk hf
        by_cases h : o + k ≤ bs.length
        · rw [leUint_drop k bs o h]; exact hf h
        · rcases leUint_drop_none k bs o (by omega) with h | h
          · rw [h]; rfl
          · omega
      refine hstep 4 4 _ (by omega) (fun _ => ?_)
      refine hstep 4 8 _ (by omega) (fun _ => ?_)
      refine hstep 4 12 _ (by omega) (fun _ => ?_)
      refine hstep 4 16 _ (by omega) (fun _ => ?_)
      refine hstep 4 20 _ (by omega) (fun _ => ?_)
      refine hstep 8 24 _ (by omega) (fun _ => ?_)
      refine hstep 8 32 _ (by omega) (fun _ => ?_)
      omega
  · exfalso
    apply h
    unfold tag
    rw [show hvle.length = 4 from rfl, if_neg ht]
    rfl

theorem logEntry_size_le (pos : Nat) (bs : Bytes) (h : LogEntry.fromBytes pos bs ≠ .err) :
    u32At bs 4 ≤ bs.length := by
  obtain ⟨_, _, pages, rest, _, hs, _, he, _⟩ := logEntry_steps pos bs h
  have := hs.length_le
  unfold eatRemaining at he
  split at he
  · unfold Notatin.take at he
    split at he
    · omega
    · cases he
  · omega

/-- An entry parse that neither fails nor panics: exact result. -/
theorem logEntry_ok (pos : Nat) (bs : Bytes) (e : LogEntry) (rest : Bytes)
    (h : LogEntry.fromBytes pos bs = .ok (e, rest)) :
    40 ≤ u32At bs 4 ∧ u32At bs 4 ≤ bs.length ∧ rest <:+ bs ∧ e.size = u32At bs 4 ∧
    e.hash1 = leNat (slice bs 24 8) ∧ e.hash2 = leNat (slice bs 32 8) ∧
    (e.hasValidHashes = true ↔
      leNat (slice bs 24 8) = (marvin32 defaultSeed (slice bs 40 (u32At bs 4 - 40))).toNat ∧
      leNat (slice bs 32 8) = (marvin32 defaultSeed (slice bs 0 32)).toNat) := by
  have hne : LogEntry.fromBytes pos bs ≠ .err := by rw [h]; simp
  have hle := logEntry_size_le pos bs hne
  obtain ⟨_, hl, pages, rest', dp, hs, hs', _, heq⟩ := logEntry_steps pos bs hne
  rw [heq] at h
  unfold calcHash1 calcHash2 at h
  by_cases h40 : u32At bs 4 < 40
  · rw [if_pos h40] at h; cases h
  · rw [if_neg h40, getRange_eq _ _ _ (by omega) hle, getRange_eq _ _ _ (by omega) (by omega)] at h
    simp only [Res.bind_ok, Res.ok.injEq, Prod.mk.injEq] at h
    obtain ⟨rfl, rfl⟩ := h
    refine ⟨by omega, hle, hs'.trans hs, rfl, rfl, rfl, ?_⟩
    simp only [Bool.and_eq_true, beq_iff_eq, Nat.sub_zero]

theorem logEntry_suffix (pos : Nat) (bs : Bytes) (e : LogEntry) (rest : Bytes)
    (h : LogEntry.fromBytes pos bs = .ok (e, rest)) : ∃ pre, bs = pre ++ rest := by
  obtain ⟨_, _, ⟨pre, hp⟩, _⟩ := logEntry_ok pos bs e rest h
  exact ⟨pre, hp.symm⟩

theorem logEntry_cases (pos : Nat) (bs : Bytes) (h : LogEntry.fromBytes pos bs = .panic) :
    bs.take 4 = hvle ∧ 40 ≤ bs.length ∧ u32At bs 4 < 40 := by
  have hne : LogEntry.fromBytes pos bs ≠ .err := by rw [h]; simp
  have hle := logEntry_size_le pos bs hne
  obtain ⟨ht, hl, pages, rest', dp, _, _, _, heq⟩ := logEntry_steps pos bs hne
  refine ⟨ht, hl, ?_⟩
  rcases Nat.lt_or_ge (u32At bs 4) 40 with h' | h'
  · exact h'
  · rw [heq] at h
    unfold calcHash1 calcHash2 at h
    rw [if_neg (by omega), getRange_eq _ _ _ (by omega) hle, getRange_eq _ _ _ (by omega) (by omega)] at h
    cases h

/-- C06 (partial: entries whose size field is below 40 must not occur, see
`unreadable_log_violated`): the logs used are exactly the readable ones, sorted by primary
sequence number; every other file adds one warning. -/
theorem unreadable_logs_skipped_partial (files : List Bytes)
    (h : ∀ f ∈ files, ∀ i, i ≤ f.length → slice f i 4 = hvle → 40 ≤ u32At f (i + 4)) :
    ∃ ls warn, TransactionLog.parse files = .ok (ls, warn) ∧
      ls.Perm (files.filterMap usableLog) ∧
      (warn.getD {}).codes =
        List.replicate (files.countP (fun f => (usableLog f).isNone)) .WarningParse := by
  have hnp : ∀ f ∈ files, TransactionLog.fromBytes f ≠ .panic := by
    intro f hf hp
    have hent : ∀ (n : Nat) (bs : Bytes) (pos : Nat), bs.length ≤ n → (∃ k, k ≤ f.length ∧ bs = f.drop k) →
        logEntries pos bs ≠ .panic := by
      intro n
      induction n with
      | zero =>
        intro bs pos hn _ hpan
        rw [List.length_eq_zero_iff.1 (by omega : bs.length = 0), logEntries.eq_def,
          not_entry [] (by decide)] at hpan
        cases hpan
      | succ n ih =>
        intro bs pos hn hk hpan
        obtain ⟨k, hk, rfl⟩ := hk
        rw [logEntries.eq_def] at hpan
        split at hpan
        · cases hpan
        · rename_i heq
          obtain ⟨t, l, u⟩ := logEntry_cases _ _ heq
          have h1 := h f hf k hk (by unfold slice; exact t)
          have h2 : u32At (f.drop k) 4 = u32At f (k + 4) := by
            unfold u32At slice; rw [List.drop_drop]
          omega
        · rename_i e rest heq
          split at hpan
          · rename_i hlt
            split at hpan
            · cases hpan
            · cases hpan
            · rename_i heq2
              refine ih rest _ (by omega) ?_ heq2
              have hsuf := logEntry_suffix _ _ _ _ heq
              obtain ⟨pre, hpre⟩ := hsuf
              refine ⟨k + pre.length, ?_, ?_⟩
              · have := congrArg List.length hpre
                simp at this; simp at hlt; omega
              · rw [← List.drop_drop, hpre, List.drop_left]
          · cases hpan
    unfold TransactionLog.fromBytes at hp
    rcases baseBlockBase_cases f with ⟨hl, _, fn, logs, hb⟩ | ⟨_, hb⟩
    · rw [hb] at hp
      simp only [Res.bind_ok] at hp
      cases hle : logEntries (f.length - (f.drop 512).length) (f.drop 512) with
      | panic => exact hent _ _ _ (Nat.le_refl _) ⟨512, hl, rfl⟩ hle
      | err => rw [hle] at hp; cases hp
      | ok x =>
        rw [hle] at hp
        simp only [Res.bind_ok] at hp
        rw [getRange_eq _ _ _ (by omega) hl] at hp
        cases hp
    · rw [hb] at hp; cases hp
  obtain ⟨logs', h1, h2⟩ := readLogs_spec files {} hnp
  refine ⟨_, logs'.getOption, by rw [TransactionLog.parse, h1], List.mergeSort_perm _ _, ?_⟩
  rw [Logs.codes_empty, List.nil_append] at h2
  rw [← h2]
  unfold Logs.getOption Logs.codes
  cases logs' with
  | mk l => cases l <;> rfl

/-- A 512-byte log header followed by an entry that announces a size of 32 bytes. -/
def demoTinyLog : Bytes :=
  regf ++ List.replicate 508 0 ++ hvle ++ [32, 0, 0, 0] ++ List.replicate 32 0

/-- C06 fails for an entry whose size field is below 40: the log reader panics (the length of the
hashed body underflows), so the other logs and the hive are not read at all. -/
theorem unreadable_log_violated : TransactionLog.parse [demoTinyLog] = .panic := by decide +kernel

/-- Two files, one empty and one that is no log: both skipped with a warning. -/
example : TransactionLog.parse [[], [1, 2, 3]] = .ok ([], some ⟨some [.WarningParse, .WarningParse]⟩) := by
  decide +kernel

/-! ### C05 -/

theorem le_trans_log (a b c : TransactionLog) : TransactionLog.le a b = true → TransactionLog.le b c = true →
    TransactionLog.le a c = true := by
  unfold TransactionLog.le; simp only [decide_eq_true_eq]; omega

theorem le_total_log (a b : TransactionLog) : (TransactionLog.le a b || TransactionLog.le b a) = true := by
  unfold TransactionLog.le; simp only [Bool.or_eq_true, decide_eq_true_eq]; omega

theorem readLogs_panic (files : List Bytes) : ∀ logs,
    (∃ f ∈ files, TransactionLog.fromBytes f = .panic) → readLogs files logs = .panic := by
  induction files with
  | nil => intro logs ⟨f, hf, _⟩; cases hf
  | cons f fs ih =>
    intro logs ⟨g, hg, hp⟩
    rw [readLogs]
    rcases List.mem_cons.1 hg with rfl | hg
    · have : g.isEmpty = false := by
        cases g with
        | nil =>
          have : TransactionLog.fromBytes [] = .err := by decide
          rw [this] at hp; cases hp
        | cons => rfl
      rw [this, hp]; rfl
    · have ih' := fun l => ih l ⟨g, hg, hp⟩
      split
      · exact ih' _
      · split
        · rw [ih']
        · exact ih' _
        · rfl

/-- Two sorted lists with distinct keys and the same elements are equal. -/
theorem sorted_perm_eq {as bs : List TransactionLog} (hp : as.Perm bs)
    (ha : as.Pairwise (fun a b => TransactionLog.le a b = true))
    (hb : bs.Pairwise (fun a b => TransactionLog.le a b = true))
    (hd : as.Pairwise (fun a b => a.base.primarySeq ≠ b.base.primarySeq)) : as = bs := by
  apply hp.eq_of_pairwise (le := fun a b => TransactionLog.le a b = true) ?_ ha hb
  intro a b hma hmb h1 h2
  unfold TransactionLog.le at h1 h2
  simp only [decide_eq_true_eq] at h1 h2
  have hR : as.Pairwise (fun a b => a.base.primarySeq = b.base.primarySeq → a = b) :=
    hd.imp (fun hne he => absurd he hne)
  have hR' : as.Pairwise (flip (fun a b => a.base.primarySeq = b.base.primarySeq → a = b)) :=
    hd.imp (fun hne he => absurd he.symm hne)
  exact List.Pairwise.forall_of_forall_of_flip (fun x _ _ => rfl) hR hR' hma (hp.mem_iff.2 hmb) (by omega)

/-- C05: the logs to replay are the readable ones, none lost or duplicated, in ascending order of
their primary sequence number; if these numbers are distinct, any permutation of the supplied
files gives the same list. -/
theorem log_order (files : List Bytes) (ls : List TransactionLog) (w : Option Logs)
    (h : TransactionLog.parse files = .ok (ls, w)) :
    ls.Perm (files.filterMap usableLog) ∧
    ls.Pairwise (fun a b => a.base.primarySeq ≤ b.base.primarySeq) ∧
    (ls.Pairwise (fun a b => a.base.primarySeq ≠ b.base.primarySeq) →
      ∀ files', files'.Perm files → ∃ w', TransactionLog.parse files' = .ok (ls, w')) := by
  have hnp : ∀ f ∈ files, TransactionLog.fromBytes f ≠ .panic := by
    intro f hf hp
    unfold TransactionLog.parse at h
    rw [readLogs_panic files {} ⟨f, hf, hp⟩] at h
    cases h
  obtain ⟨logs', h1, _⟩ := readLogs_spec files {} hnp
  unfold TransactionLog.parse at h
  rw [h1] at h
  simp only [Res.ok.injEq, Prod.mk.injEq] at h
  obtain ⟨rfl, _⟩ := h
  have hsorted := List.pairwise_mergeSort (le := TransactionLog.le) le_trans_log le_total_log
    (files.filterMap usableLog)
  refine ⟨List.mergeSort_perm _ _, hsorted.imp (fun h => by
    unfold TransactionLog.le at h; simpa using h), fun hd files' hperm => ?_⟩
  obtain ⟨logs'', h2, _⟩ := readLogs_spec files' {} (fun f hf => hnp f (hperm.mem_iff.1 hf))
  refine ⟨logs''.getOption, ?_⟩
  unfold TransactionLog.parse
  rw [h2]
  simp only [Res.ok.injEq, Prod.mk.injEq, and_true]
  have hsorted' := List.pairwise_mergeSort (le := TransactionLog.le) le_trans_log le_total_log
    (files'.filterMap usableLog)
  refine (sorted_perm_eq ?_ hsorted hsorted' hd).symm
  exact (List.mergeSort_perm _ _).trans ((hperm.symm.filterMap usableLog).trans (List.mergeSort_perm _ _).symm)

/-- Two logs supplied newest first: readable, with distinct numbers. -/
example : (match readLogs [regf ++ [9] ++ List.replicate 507 0, regf ++ [7] ++ List.replicate 507 0] {} with
    | .ok (ls, _) => ls.map (·.base.primarySeq)
    | _ => []) = [9, 7] := by decide +kernel

/-! ### C29 -/

theorem rotateLeft_inj (r : Nat) {x y : BitVec 32} (h : x.rotateLeft r = y.rotateLeft r) : x = y := by
  apply BitVec.eq_of_getLsbD_eq
  intro j hj
  have key : ∀ z : BitVec 32, ∀ i, (z.rotateLeft r).getLsbD i =
      bif decide (i < r % 32) then z.getLsbD (32 - (r % 32) + i) else (decide (i < 32) && z.getLsbD (i - r % 32)) :=
    fun z i => BitVec.getLsbD_rotateLeft
  have hr : r % 32 < 32 := Nat.mod_lt _ (by omega)
  by_cases hc : 32 - r % 32 ≤ j
  · have h1 := congrArg (fun z => z.getLsbD (j - (32 - r % 32))) h
    simp only [key] at h1
    rw [decide_eq_true (by omega : j - (32 - r % 32) < r % 32)] at h1
    simp only [cond_true] at h1
    rwa [show 32 - r % 32 + (j - (32 - r % 32)) = j by omega] at h1
  · have h1 := congrArg (fun z => z.getLsbD (j + r % 32)) h
    simp only [key] at h1
    rw [decide_eq_false (by omega : ¬ j + r % 32 < r % 32)] at h1
    simp only [cond_false] at h1
    rw [decide_eq_true (by omega : j + r % 32 < 32)] at h1
    simpa using h1

theorem add_left_inj' {a b c : BitVec 32} (h : a + c = b + c) : a = b := by
  have := congrArg (· - c) h
  simpa [BitVec.add_sub_cancel] using this

theorem marvinBlock_inj {a b a' b' : BitVec 32} (h : marvinBlock a b = marvinBlock a' b') :
    a = a' ∧ b = b' := by
  unfold marvinBlock at h
  simp only [Prod.mk.injEq] at h
  obtain ⟨h1, h2⟩ := h
  have h3 := rotateLeft_inj 19 h2
  rw [h3] at h1
  have h4 := rotateLeft_inj 27 (add_left_inj' h1)
  rw [h4] at h3
  have h5 : (b ^^^ a).rotateLeft 9 = (b' ^^^ a').rotateLeft 9 := by
    have := congrArg (· ^^^ (a'.rotateLeft 20 + (b' ^^^ a'))) h3
    simpa [BitVec.xor_assoc] using this
  have h6 := rotateLeft_inj 9 h5
  rw [h6] at h4
  have h7 := rotateLeft_inj 20 (add_left_inj' h4)
  subst h7
  have := congrArg (· ^^^ a) h6
  exact ⟨rfl, by simpa [BitVec.xor_assoc] using this⟩

theorem or_low {k x y m : Nat} (hm : m % 2 ^ k = 0) (hx : x < 2 ^ k) (hy : y < 2 ^ k)
    (h : m ||| x = m ||| y) : x = y := by
  have := congrArg (· % 2 ^ k) h
  simp only [Nat.or_mod_two_pow, hm, Nat.zero_or, Nat.mod_eq_of_lt hx, Nat.mod_eq_of_lt hy] at this
  exact this

theorem marvinTail_inj {t t' : Bytes} (hl : t.length = t'.length) (h4 : t.length < 4)
    (h : marvinTail t = marvinTail t') : t = t' := by
  have hlt : ∀ x : Bytes, leNat x < 256 ^ x.length := leNat_lt
  match t, t', hl, h4, h with
  | [], [], _, _, _ => rfl
  | [a], [a'], _, _, h =>
    have h1 := congrArg BitVec.toNat h
    have ha := a.toNat_lt
    have ha' := a'.toNat_lt
    simp only [marvinTail, BitVec.toNat_or, BitVec.toNat_ofNat] at h1
    rw [Nat.mod_eq_of_lt (a := a.toNat) (by omega), Nat.mod_eq_of_lt (a := a'.toNat) (by omega)] at h1
    have := or_low (k := 8) (by decide) (by omega) (by omega) h1
    rw [UInt8.toNat.inj this]
  | [a, b], [a', b'], _, _, h =>
    have h1 := congrArg BitVec.toNat h
    have ha := hlt [a, b]
    have ha' := hlt [a', b']
    simp only [List.length_cons, List.length_nil, Nat.reduceAdd, Nat.reducePow] at ha ha'
    simp only [marvinTail, BitVec.toNat_or, BitVec.toNat_ofNat] at h1
    rw [Nat.mod_eq_of_lt (a := leNat [a, b]) (by omega), Nat.mod_eq_of_lt (a := leNat [a', b']) (by omega)] at h1
    exact leNat_inj rfl (or_low (k := 16) (by decide) (by omega) (by omega) h1)
  | [a, b, c], [a', b', c'], _, _, h =>
    have h1 := congrArg BitVec.toNat h
    have ha := hlt [a, b]
    have ha' := hlt [a', b']
    have hc := c.toNat_lt
    have hc' := c'.toNat_lt
    simp only [List.length_cons, List.length_nil, Nat.reduceAdd, Nat.reducePow] at ha ha'
    simp only [marvinTail, BitVec.toNat_or, BitVec.toNat_ofNat, BitVec.toNat_shiftLeft, Nat.shiftLeft_eq] at h1
    rw [Nat.mod_eq_of_lt (a := leNat [a, b]) (by omega), Nat.mod_eq_of_lt (a := leNat [a', b']) (by omega),
      Nat.mod_eq_of_lt (a := c.toNat) (by omega), Nat.mod_eq_of_lt (a := c'.toNat) (by omega),
      Nat.mod_eq_of_lt (a := c.toNat * 2 ^ 16) (by omega), Nat.mod_eq_of_lt (a := c'.toNat * 2 ^ 16) (by omega)] at h1
    have hlow : leNat [a, b] = leNat [a', b'] := by
      have := congrArg (· % 2 ^ 16) h1
      simp only [Nat.or_mod_two_pow, Nat.mul_mod_left, Nat.or_zero, Nat.mod_eq_of_lt (show leNat [a, b] < 2 ^ 16 by omega),
        Nat.mod_eq_of_lt (show leNat [a', b'] < 2 ^ 16 by omega)] at this
      simpa using this
    have hhi : c.toNat = c'.toNat := by
      have := congrArg (fun x => x / 2 ^ 16 % 2 ^ 8) h1
      simp only [Nat.or_div_two_pow, Nat.or_mod_two_pow, Nat.mul_div_cancel _ (show 0 < 2 ^ 16 by decide),
        Nat.div_eq_of_lt (show leNat [a, b] < 2 ^ 16 by omega),
        Nat.div_eq_of_lt (show leNat [a', b'] < 2 ^ 16 by omega),
        Nat.mod_eq_of_lt (show c.toNat < 2 ^ 8 by omega), Nat.mod_eq_of_lt (show c'.toNat < 2 ^ 8 by omega)] at this
      simpa using this
    have := leNat_inj (a := [a, b]) (b := [a', b']) rfl hlow
    simp only [List.cons.injEq, and_true] at this
    rw [this.1, this.2, UInt8.toNat.inj hhi]

/-- The word loop is injective in the state and leaves the same partial word. -/
theorem marvinLoop_inj : ∀ (n : Nat) (d : Bytes), d.length ≤ n → ∀ s0 s1 s0' s1' : BitVec 32,
    (marvinLoop s0 s1 d).2.2 = (marvinLoop s0' s1' d).2.2 ∧
    ((marvinLoop s0 s1 d).1 = (marvinLoop s0' s1' d).1 →
      (marvinLoop s0 s1 d).2.1 = (marvinLoop s0' s1' d).2.1 → s0 = s0' ∧ s1 = s1') := by
  intro n
  induction n with
  | zero =>
    intro d hd
    rw [List.length_eq_zero_iff.1 (by omega : d.length = 0)]
    intro s0 s1 s0' s1'
    exact ⟨rfl, fun h1 h2 => ⟨h1, h2⟩⟩
  | succ n ih =>
    intro d hd s0 s1 s0' s1'
    match d, hd with
    | a :: b :: c :: e :: rest, hd =>
      simp only [marvinLoop]
      obtain ⟨i1, i2⟩ := ih rest (by simp at hd; omega)
        (marvinBlock (s0 + BitVec.ofNat 32 (leNat [a, b, c, e])) s1).1
        (marvinBlock (s0 + BitVec.ofNat 32 (leNat [a, b, c, e])) s1).2
        (marvinBlock (s0' + BitVec.ofNat 32 (leNat [a, b, c, e])) s1').1
        (marvinBlock (s0' + BitVec.ofNat 32 (leNat [a, b, c, e])) s1').2
      refine ⟨i1, fun h1 h2 => ?_⟩
      obtain ⟨j1, j2⟩ := i2 h1 h2
      obtain ⟨k1, k2⟩ := marvinBlock_inj (Prod.ext j1 j2)
      exact ⟨add_left_inj' k1, k2⟩
    | [], _ => exact ⟨rfl, fun h1 h2 => ⟨h1, h2⟩⟩
    | [a], _ => exact ⟨rfl, fun h1 h2 => ⟨h1, h2⟩⟩
    | [a, b], _ => exact ⟨rfl, fun h1 h2 => ⟨h1, h2⟩⟩
    | [a, b, c], _ => exact ⟨rfl, fun h1 h2 => ⟨h1, h2⟩⟩

/-- Final mixing is injective in the state. -/
theorem marvin_final_inj {a b a' b' : BitVec 32}
    (h : (let t := marvinBlock a b
          let t := marvinBlock t.1 t.2
          (t.1.setWidth 64) ||| (t.2.setWidth 64 <<< 32)) =
         (let t := marvinBlock a' b'
          let t := marvinBlock t.1 t.2
          (t.1.setWidth 64) ||| (t.2.setWidth 64 <<< 32) : BitVec 64)) : a = a' ∧ b = b' := by
  have key : ∀ x y x' y' : BitVec 32, (x.setWidth 64) ||| (y.setWidth 64 <<< 32) =
      ((x'.setWidth 64) ||| (y'.setWidth 64 <<< 32) : BitVec 64) → x = x' ∧ y = y' := by
    intro x y x' y' h
    constructor
    · apply BitVec.eq_of_getLsbD_eq
      intro i hi
      have := congrArg (fun z => z.getLsbD i) h
      simp only [BitVec.getLsbD_or, BitVec.getLsbD_setWidth, BitVec.getLsbD_shiftLeft] at this
      simpa [hi, show i < 64 by omega] using this
    · apply BitVec.eq_of_getLsbD_eq
      intro i hi
      have := congrArg (fun z => z.getLsbD (i + 32)) h
      simp only [BitVec.getLsbD_or, BitVec.getLsbD_setWidth, BitVec.getLsbD_shiftLeft] at this
      simpa [hi, show i + 32 < 64 by omega, show i < 64 by omega, show ¬ (i + 32 < 32) by omega] using this
  obtain ⟨h1, h2⟩ := key _ _ _ _ h
  obtain ⟨h3, h4⟩ := marvinBlock_inj (Prod.ext h1 h2)
  exact marvinBlock_inj (Prod.ext h3 h4)

theorem marvinLoop_diff : ∀ (k : Nat) (d d' : Bytes), d.length = d'.length →
    d.take (4 * k) = d'.take (4 * k) → d.drop (4 * k + 4) = d'.drop (4 * k + 4) → d ≠ d' →
    ∀ s0 s1 : BitVec 32,
      (marvinLoop s0 s1 d).1 + marvinTail (marvinLoop s0 s1 d).2.2 ≠
        (marvinLoop s0 s1 d').1 + marvinTail (marvinLoop s0 s1 d').2.2 ∨
      (marvinLoop s0 s1 d).2.1 ≠ (marvinLoop s0 s1 d').2.1 := by
  intro k
  induction k with
  | zero =>
    intro d d' hl _ hdrop hne s0 s1
    match d, d', hl with
    | a :: b :: c :: e :: rest, a' :: b' :: c' :: e' :: rest', _ =>
      simp only [Nat.mul_zero, Nat.zero_add, List.drop_succ_cons, List.drop_zero] at hdrop
      subst hdrop
      simp only [marvinLoop]
      rw [Classical.or_iff_not_imp_left]
      intro h h2
      apply h
      intro h1
      obtain ⟨i1, i2⟩ := marvinLoop_inj _ rest (Nat.le_refl _)
        (marvinBlock (s0 + BitVec.ofNat 32 (leNat [a, b, c, e])) s1).1
        (marvinBlock (s0 + BitVec.ofNat 32 (leNat [a, b, c, e])) s1).2
        (marvinBlock (s0 + BitVec.ofNat 32 (leNat [a', b', c', e'])) s1).1
        (marvinBlock (s0 + BitVec.ofNat 32 (leNat [a', b', c', e'])) s1).2
      rw [i1] at h1
      obtain ⟨j1, j2⟩ := i2 (add_left_inj' h1) h2
      obtain ⟨k1, _⟩ := marvinBlock_inj (Prod.ext j1 j2)
      rw [BitVec.add_comm s0, BitVec.add_comm s0] at k1
      have k2 := congrArg BitVec.toNat (add_left_inj' k1)
      have l1 := leNat_lt [a, b, c, e]
      have l2 := leNat_lt [a', b', c', e']
      simp only [List.length_cons, List.length_nil, Nat.reduceAdd, Nat.reducePow] at l1 l2
      rw [BitVec.toNat_ofNat, BitVec.toNat_ofNat, Nat.mod_eq_of_lt (by omega), Nat.mod_eq_of_lt (by omega)] at k2
      have := leNat_inj (a := [a, b, c, e]) (b := [a', b', c', e']) rfl k2
      simp only [List.cons.injEq, and_true] at this
      apply hne
      rw [this.1, this.2.1, this.2.2.1, this.2.2.2]
    | [], [], _ => exact absurd rfl hne
    | [a], [a'], _ =>
      left; intro h
      rw [BitVec.add_comm, BitVec.add_comm _ (marvinTail _)] at h
      exact hne (marvinTail_inj (by rfl) (by simp) (add_left_inj' h))
    | [a, b], [a', b'], _ =>
      left; intro h
      rw [BitVec.add_comm, BitVec.add_comm _ (marvinTail _)] at h
      exact hne (marvinTail_inj (by rfl) (by simp) (add_left_inj' h))
    | [a, b, c], [a', b', c'], _ =>
      left; intro h
      rw [BitVec.add_comm, BitVec.add_comm _ (marvinTail _)] at h
      exact hne (marvinTail_inj (by rfl) (by simp) (add_left_inj' h))
  | succ k ih =>
    intro d d' hl htake hdrop hne s0 s1
    have h4 : 4 * (k + 1) = 4 * k + 4 := by omega
    rw [h4] at htake hdrop
    match d, d', hl with
    | a :: b :: c :: e :: rest, a' :: b' :: c' :: e' :: rest', hl =>
      simp only [List.take_succ_cons, List.cons.injEq] at htake
      obtain ⟨rfl, rfl, rfl, rfl, htake⟩ := htake
      simp only [marvinLoop]
      apply ih
      · simpa using hl
      · exact htake
      · simpa using hdrop
      · intro h; exact hne (by rw [h])
    | [], [], _ => exact absurd rfl hne
    | [a], [a'], _ => exact absurd (by simpa using htake) hne
    | [a, b], [a', b'], _ => exact absurd (by simpa using htake) hne
    | [a, b, c], [a', b', c'], _ => exact absurd (by simpa using htake) hne

/-- C29: Marvin32 never collides on inputs of the same length that differ inside one aligned
4-byte word (the last word may be partial), for any seed. -/
theorem marvin_word_change (seed : BitVec 64) (d d' : Bytes) (k : Nat) (hl : d.length = d'.length)
    (htake : d.take (4 * k) = d'.take (4 * k)) (hdrop : d.drop (4 * k + 4) = d'.drop (4 * k + 4))
    (hne : d ≠ d') : marvin32 seed d ≠ marvin32 seed d' := by
  intro h
  unfold marvin32 at h
  obtain ⟨h1, h2⟩ := marvin_final_inj h
  rcases marvinLoop_diff k d d' hl htake hdrop hne (seed.setWidth 32) ((seed >>> 32).setWidth 32) with h | h
  · exact h h1
  · exact h h2

/-- C29: an entry counts as valid iff the two stored hashes match the hashed ranges. -/
theorem entry_valid_iff (pos : Nat) (bs : Bytes) (e : LogEntry) (rest : Bytes)
    (h : LogEntry.fromBytes pos bs = .ok (e, rest)) :
    e.hasValidHashes = true ↔
      leNat (slice bs 24 8) = (marvin32 defaultSeed (slice bs 40 (u32At bs 4 - 40))).toNat ∧
      leNat (slice bs 32 8) = (marvin32 defaultSeed (slice bs 0 32)).toNat :=
  (logEntry_ok pos bs e rest h).2.2.2.2.2.2

theorem slice_agree {a b : Bytes} {k o n : Nat} (h : ∀ i, i / 4 ≠ k → a[i]? = b[i]?)
    (hk : 4 * k + 4 ≤ o ∨ o + n ≤ 4 * k) : slice a o n = slice b o n :=
  slice_ext (fun i h1 h2 => h i (by omega))

theorem marvin_slice_change {a b : Bytes} {k o n : Nat} (hl : a.length = b.length)
    (h : ∀ i, i / 4 ≠ k → a[i]? = b[i]?) (ho : 4 ∣ o) (hok : o ≤ 4 * k)
    (hne : slice a o n ≠ slice b o n) :
    (marvin32 defaultSeed (slice a o n)).toNat ≠ (marvin32 defaultSeed (slice b o n)).toNat := by
  intro heq
  obtain ⟨m, rfl⟩ := ho
  refine marvin_word_change defaultSeed (slice a (4 * m) n) (slice b (4 * m) n) (k - m) ?_ ?_ ?_ hne
    (BitVec.eq_of_toNat_eq heq)
  · simp [slice, hl]
  · apply List.ext_getElem?
    intro i
    rw [List.getElem?_take, List.getElem?_take, getElem?_slice, getElem?_slice]
    split
    · rw [h _ (by omega)]
    · rfl
  · apply List.ext_getElem?
    intro i
    rw [List.getElem?_drop, List.getElem?_drop, getElem?_slice, getElem?_slice, h _ (by omega)]

/-- C29: take a valid entry and change any bytes inside one aligned word (within the entry's
size).  Whatever the changed bytes parse to, it is not accepted as a valid entry. -/
theorem corruption_detected (pos : Nat) (bs bs' : Bytes) (e : LogEntry) (rest : Bytes)
    (h : LogEntry.fromBytes pos bs = .ok (e, rest)) (hv : e.hasValidHashes = true)
    (k : Nat) (hl : bs.length = bs'.length) (hsame : ∀ i, i / 4 ≠ k → bs[i]? = bs'[i]?)
    (hdiff : bs.take e.size ≠ bs'.take e.size) :
    ∀ e' rest', LogEntry.fromBytes pos bs' = .ok (e', rest') → e'.hasValidHashes = false := by
  intro e' rest' h'
  rw [Bool.eq_false_iff]
  intro hv'
  obtain ⟨h40, hle, _, hsz, _⟩ := logEntry_ok pos bs e rest h
  rw [entry_valid_iff pos bs e rest h] at hv
  rw [entry_valid_iff pos bs' e' rest' h'] at hv'
  obtain ⟨v1, v2⟩ := hv
  obtain ⟨v1', v2'⟩ := hv'
  have hdiff' : slice bs 0 e.size ≠ slice bs' 0 e.size := by
    rw [slice_zero_take, slice_zero_take]; exact hdiff
  rw [hsz] at hdiff'
  have hsplit : ∀ {o n : Nat}, o + n ≤ u32At bs 4 →
      (∀ i, i < u32At bs 4 → ¬ (o ≤ i ∧ i < o + n) → bs[i]? = bs'[i]?) → slice bs o n ≠ slice bs' o n := by
    intro o n hon hout heq
    apply hdiff'
    apply slice_ext
    intro i _ hi
    by_cases hin : o ≤ i ∧ i < o + n
    · have := congrArg (fun z => z[i - o]?) heq
      simp only [getElem?_slice] at this
      rw [if_pos (by omega), if_pos (by omega), show o + (i - o) = i by omega] at this
      exact this
    · exact hout i (by omega) hin
  rcases Nat.lt_or_ge k 8 with hk | hk
  · -- the first 32 bytes
    have hs2 : slice bs 32 8 = slice bs' 32 8 := slice_agree hsame (by omega)
    rw [hs2, v2'] at v2
    exact marvin_slice_change hl.symm (fun i hi => (hsame i hi).symm) (by omega) (by omega)
      (fun hq => hsplit (o := 0) (n := 32) (by omega) (fun i _ hi => hsame i (by omega)) hq.symm) v2
  · rcases Nat.lt_or_ge k 10 with hk2 | hk2
    · -- the stored hash of the header
      have hs2 : slice bs 0 32 = slice bs' 0 32 := slice_agree hsame (by omega)
      rw [hs2, ← v2'] at v2
      have := leNat_inj (by rw [length_slice _ _ _ (by omega), length_slice _ _ _ (by omega)]) v2
      exact hsplit (o := 32) (n := 8) (by omega) (fun i _ hi => hsame i (by omega)) this
    · -- the body
      have hs1 : slice bs 24 8 = slice bs' 24 8 := slice_agree hsame (by omega)
      have hsz' : u32At bs 4 = u32At bs' 4 := by
        unfold u32At; rw [slice_agree hsame (by omega)]
      rw [hs1, v1', ← hsz'] at v1
      exact marvin_slice_change hl.symm (fun i hi => (hsame i hi).symm) (by omega) (by omega)
        (fun hq => hsplit (o := 40) (n := u32At bs 4 - 40) (by omega) (fun i hi1 hi => hsame i (by omega)) hq.symm) v1

/-- Test vectors of /repo/src/marvin32.rs lines 81-129. -/
example : marvin32 0x4FB61A001BDBCC#64 [] = 0x30ED35C100CD3C7D#64 ∧
    marvin32 0x4FB61A001BDBCC#64 [0xAF] = 0x48E73FC77D75DDC1#64 ∧
    marvin32 0x4FB61A001BDBCC#64 [0x86, 0x42, 0xDC, 0x59] = 0x7008F2E87E9CF556#64 := by decide +kernel

/-- A valid entry with one page, as hypothesis of `corruption_detected`. -/
def demoValidEntry : RawEntry :=
  let e0 : RawEntry := ⟨0, 7, 4096, 0, 0, [(8, [1, 2, 3, 4])], []⟩
  let e1 := { e0 with hash1 := (marvin32 defaultSeed (e0.encode.drop 40)).toNat }
  { e1 with hash2 := (marvin32 defaultSeed (e1.encode.take 32)).toNat }

example : (match LogEntry.fromBytes 0 demoValidEntry.encode with
    | .ok (e, _) => e.hasValidHashes
    | _ => false) = true ∧
    (match LogEntry.fromBytes 0 (demoValidEntry.encode.set 50 7) with
    | .ok (e, _) => e.hasValidHashes
    | _ => true) = false := by decide +kernel

end Notatin
