import Verif.Lemmas.Open
import Verif.Props.Attach
import Verif.Props.Order
import Verif.Props.Replay
import Verif.Props.TxLog
/-
C62: opening a hive with its transaction logs and listing its keys, from the bytes of the files to
the keys shown.  C63: recovery only adds.  C64: the filter given to the builder.
-/
namespace Notatin
open Spec

/-! ### Replaying a run of entries -/

/-- Every page of every entry lies inside the file as it has grown by then; `n` is its size at
first, `bins` the size of the hive bins the header tells. -/
def Spec.EntriesFit (off bins : Nat) : List LogEntry → Nat → Prop
  | [], _ => True
  | e :: es, n => pagesFit off e.dirtyPages (n + (e.hiveBinsDataSize - bins)) ∧
      EntriesFit off bins es (n + (e.hiveBinsDataSize - bins))

theorem pageByte_append {off : Nat} {P Q : List DirtyPage} {i : Nat} {old mid new : Option UInt8}
    (h1 : PageByte off P i old mid) (h2 : PageByte off Q i mid new) : PageByte off (P ++ Q) i old new := by
  rcases h2 with ⟨bef, p, aft, rfl, hc, hn, he⟩ | ⟨hn, rfl⟩
  · exact .inl ⟨P ++ bef, p, aft, by simp, hc, hn, he⟩
  · rcases h1 with ⟨bef, p, aft, rfl, hc, hn1, he⟩ | ⟨hn1, he⟩
    · refine .inl ⟨bef, p, aft ++ Q, by simp, hc, ?_, he⟩
      intro q hq
      rcases List.mem_append.1 hq with hq | hq
      · exact hn1 q hq
      · exact hn q hq
    · refine .inr ⟨?_, he⟩
      intro q hq
      rcases List.mem_append.1 hq with hq | hq
      · exact hn1 q hq
      · exact hn q hq

/-- C62: after a run of entries every byte is that of the last page written over it, or the old
one, or zero where the file has grown; if some page does not fit an error is returned. -/
theorem applyAll_effect (off bins : Nat) : ∀ (es : List LogEntry) (buf : Bytes),
    (EntriesFit off bins es buf.length →
      ∃ buf', applyAll off bins es buf = .ok buf' ∧ buf.length ≤ buf'.length ∧
        ∀ i, i < buf'.length →
          PageByte off (es.flatMap (·.dirtyPages)) i (some (buf[i]?.getD 0)) buf'[i]?) ∧
    (¬ EntriesFit off bins es buf.length → applyAll off bins es buf = .err) := by
  intro es
  induction es with
  | nil =>
    intro buf
    refine ⟨fun _ => ⟨buf, rfl, Nat.le_refl _, fun i hi => .inr ⟨by simp, ?_⟩⟩, fun h => absurd trivial h⟩
    rw [List.getElem?_eq_getElem hi]; rfl
  | cons e es ih =>
    intro buf
    obtain ⟨he1, he2⟩ := entry_effect off bins e buf
    rw [applyAll]
    by_cases hfit : pagesFit off e.dirtyPages (buf.length + (e.hiveBinsDataSize - bins))
    · obtain ⟨b1, hok, hlen, hb1⟩ := he1 hfit
      obtain ⟨i1, i2⟩ := ih b1
      rw [hok]
      constructor
      · rintro ⟨_, hf⟩
        obtain ⟨b2, hok2, hlen2, hb2⟩ := i1 (by rw [hlen]; exact hf)
        refine ⟨b2, hok2, by omega, fun i hi => ?_⟩
        rw [List.flatMap_cons]
        refine pageByte_append ?_ (hb2 i hi)
        by_cases hi1 : i < b1.length
        · have := hb1 i hi1
          rw [List.getElem?_eq_getElem hi1] at this ⊢
          exact this
        · refine .inr ⟨?_, ?_⟩
          · intro q hq hc
            have h1 := hfit q hq
            have h2 := hc.2
            omega
          · rw [List.getElem?_eq_none (by omega), List.getElem?_eq_none (by omega)]
      · intro hn
        refine i2 fun hf => hn ⟨hfit, ?_⟩
        rw [← hlen]; exact hf
    · refine ⟨fun h => absurd h.1 hfit, fun _ => ?_⟩
      rw [he2 hfit]; rfl

/-! ### Opening -/

/-- The tree of keys is stored in the file `buf`, its top right after the header of the first bin,
no key cell being used twice. -/
structure Spec.StoredTree (w : World) (buf : Bytes) (t : Tree) : Prop where
  bin : FirstBin ⟨4096, buf⟩
  top : t.off = 4096 + 32
  tree : TreeAt buf 4096 w.depth t
  once : t.offs.Nodup

/-- `new` is the file `old` after the entries: the pages of the entries are written over the hive
bins; of the header only the sequence numbers and the checksum are left open here. -/
def Spec.Replayed (old : Bytes) (entries : List LogEntry) (new : Bytes) : Prop :=
  old.length ≤ new.length ∧ ∀ i, i < new.length → ¬ (4 ≤ i ∧ i < 12) → ¬ (508 ≤ i ∧ i < 512) →
    PageByte 4096 (entries.flatMap (·.dirtyPages)) i (some (old[i]?.getD 0)) new[i]?

/-- The parser shows exactly the keys of the tree, in pre-order, with the plain options and any
setting of the others. -/
def Spec.Lists (p : HiveParser) (t : Tree) : Prop :=
  ∀ gm anc, ∃ steps ns, p.iterate steps {} false gm anc = some (.ok ns) ∧ ns.map obs = t.pre []

/-- Reading the root in another state, in which nothing is recorded. -/
theorem initRoot_other (env : Env) (st st2 : State) (r : Option Node) (ro : Nat)
    (h : initRoot env st = .ok (r, ro)) (h2 : ∀ p, st2.deletedKeys p = none) :
    r.isSome = true ∧ ro = st.rootOffset ∧ ∃ r2, initRoot env st2 = .ok (some r2, st2.rootOffset) := by
  unfold initRoot at h ⊢
  cases hg : getFrom env.fi.buffer env.fi.hbin with
  | none => rw [hg] at h; cases h
  | some input =>
    rw [hg] at h
    simp only at h ⊢
    cases hp : HiveBinHeader.fromBytes env.fi.hbin input with
    | none => rw [hp] at h; cases h
    | some x =>
      rw [hp] at h
      simp only at h ⊢
      unfold readKey at h ⊢
      simp only at h ⊢
      cases hs : getFrom env.fi.buffer (env.fi.buffer.length - x.2.length) with
      | none => rw [hs] at h; cases h
      | some slice =>
        rw [hs] at h
        simp only at h ⊢
        unfold readFromSlice at h ⊢
        simp only at h ⊢
        cases hk : KeyNode.fromBytes env.hashFn slice (env.fi.buffer.length - x.2.length) [] none with
        | err => rw [hk] at h; cases h
        | panic => rw [hk] at h; cases h
        | ok y =>
          rw [hk] at h
          simp only [filterStep, reduceCtorEq, if_false] at h ⊢
          cases hv : valuesStep env ⟨env.fi.buffer.length - x.2.length, [], none, true, none, true⟩ .iterate y.1 with
          | err => rw [hv] at h; cases h
          | panic => rw [hv] at h; cases h
          | ok k2 =>
            rw [hv] at h
            simp only [finishStep, reduceCtorEq, if_false, if_true] at h ⊢
            have hdep : 0 < env.depth := by
              cases hd : env.depth with
              | zero => rw [hd, updateModifiedLists] at h; cases h
              | succ d => omega
            have h3 : ∃ r2, (match updateModifiedLists st2 env.depth (.mk k2 [] []) with
                | .err => .err
                | .panic => .panic
                | .ok n => .ok (some n, st2.rootOffset)) = Res.ok (some r2, st2.rootOffset) := by
              cases hu : updateModifiedLists st2 env.depth (.mk k2 [] []) with
              | panic => exact absurd hu (attachOk_empty env st2 hdep h2 k2)
              | err => exact absurd hu (updateModifiedLists_no_err _ _ _)
              | ok m => exact ⟨m, rfl⟩
            cases hu : updateModifiedLists st env.depth (.mk k2 [] []) with
            | panic => rw [hu] at h; cases h
            | err => rw [hu] at h; cases h
            | ok m => rw [hu] at h; cases h; exact ⟨rfl, rfl, h3⟩

theorem initBaseBlock_hbin {buf : Bytes} {info info' : Logs} {bb : BaseBlock} {off : Nat} {sup bad : Bool}
    (h : initBaseBlock buf info = .ok (bb, off, sup, bad, info')) : off = 4096 := by
  cases hp : BaseBlock.fromBytes buf with
  | err => unfold initBaseBlock at h; rw [hp] at h; cases h
  | panic => unfold initBaseBlock at h; rw [hp] at h; cases h
  | ok x =>
    obtain ⟨_, _, _, hi, _⟩ := initBaseBlock_ok buf info x.1 x.2 hp
    rw [hi] at h
    cases h; rfl

theorem reinit_hbin {σ : Type} {h h' : Hive σ} (he : h.reinit = .ok h') : h'.hbinOffset = 4096 := by
  unfold Hive.reinit at he
  cases hi : initBaseBlock h.buffer h.info with
  | err => rw [hi] at he; cases he
  | panic => rw [hi] at he; cases he
  | ok x =>
    obtain ⟨bb, off, sup, bad, info⟩ := x
    have := initBaseBlock_hbin hi
    rw [hi] at he; cases he; exact this

/-- The hive bins always start at 4096. -/
theorem openHive_hbin {σ : Type} (A : Bytes → Nat → Bytes → σ → σ) (I : Bytes → σ → Res σ)
    (S : Bytes → BaseBlock → σ → Res σ) (buf : Bytes) (s0 : σ) (logs : List TransactionLog)
    (sup : Bool) (h : Hive σ) (he : openHive A I S buf s0 logs = .ok (sup, h)) : h.hbinOffset = 4096 := by
  unfold openHive at he
  cases hi : initBaseBlock buf {} with
  | err => rw [hi] at he; cases he
  | panic => rw [hi] at he; cases he
  | ok x =>
    obtain ⟨bb, off, supported, bad, info⟩ := x
    have hoff := initBaseBlock_hbin hi
    rw [hi] at he
    simp only [Res.bind_ok] at he
    cases supported with
    | false => cases he; exact hoff
    | true =>
      simp only [if_true] at he
      cases hs : S buf bb s0 with
      | err => rw [hs] at he; cases he
      | panic => rw [hs] at he; cases he
      | ok s =>
        rw [hs] at he
        simp only [Res.bind_ok] at he
        generalize hh0 : (Hive.mk buf off bb info s : Hive σ) = g0 at he
        have h1 : g0.hbinOffset = 4096 := by rw [← hh0]; exact hoff
        suffices hap : ∀ h', applyTransactionLogs A I g0 bad logs = .ok h' → h'.hbinOffset = 4096 by
          cases ha : applyTransactionLogs A I g0 bad logs with
          | err => rw [ha] at he; cases he
          | panic => rw [ha] at he; cases he
          | ok h' => rw [ha] at he; cases he; exact hap _ ha
        intro h' ha
        unfold applyTransactionLogs at ha
        split at ha
        · cases ha; exact h1
        · split at ha
          · cases ha
          · cases ha
          · rename_i g ls hp
            cases ha
            rw [prepareLogs_eq] at hp
            cases hb : (if bad then handleBadChecksum g0 logs else .ok (g0, logs)) with
            | err => rw [hb] at hp; cases hp
            | panic => rw [hb] at hp; cases hp
            | ok z =>
              have hz : z.1.hbinOffset = 4096 := by
                cases bad with
                | false => cases hb; exact h1
                | true =>
                  simp only [if_true] at hb
                  unfold handleBadChecksum at hb
                  simp only at hb
                  split at hb
                  · cases hb
                  · split at hb
                    · cases hb
                    · split at hb
                      · cases hb
                      · split at hb
                        · rename_i hi
                          cases hb
                          have := reinit_hbin hi
                          exact this
                        · cases hb
                        · cases hb
              rw [hb] at hp
              simp only [Res.bind_ok] at hp
              split at hp
              · cases hp; exact hz
              · cases hp
          · split at ha
            · cases ha
            · cases ha
            · split at ha
              · rename_i n g _
                unfold updateHeader at ha
                cases hr : rewriteHeader g.buffer n with
                | err => rw [hr] at ha; cases ha
                | panic => rw [hr] at ha; cases ha
                | ok buf2 =>
                  rw [hr] at ha
                  simp only [Res.bind_ok] at ha
                  cases hi2 : Hive.reinit { g with buffer := buf2 } with
                  | err => rw [hi2] at ha; cases ha
                  | panic => rw [hi2] at ha; cases ha
                  | ok z =>
                    have := reinit_hbin hi2
                    rw [hi2] at ha
                    cases ha
                    exact this
              · cases ha
              · cases ha

/-- A file opened without recovery, in which nothing is recorded, is listed as it is stored. -/
theorem plain_lists (w : World) (buf : Bytes) (bb : BaseBlock) (st : State) (t : Tree) (hd : 0 < w.depth)
    (hn : ∀ p, st.deletedKeys p = none) (ht : StoredTree w buf t) :
    ∃ root, initRoot (w.env buf) st = .ok (some root, st.rootOffset) ∧
      Lists ⟨w.env buf, bb, st, some root⟩ t := by
  have hatt : AttachOk (w.env buf) st := attachOk_empty _ _ hd hn
  have hdel : StateDel st := by
    intro p ds h
    rw [hn] at h; cases h
  obtain ⟨root, hr, _⟩ := initRoot_reads (w.env buf) st t ht.bin (treeAt_keyAt ht.tree) ht.top hatt
  refine ⟨root, hr, fun gm anc => ?_⟩
  obtain ⟨root', steps, ns, live, h1, h2, h3, h4, h5, _⟩ := iteration_preorder (w.env buf) st t gm anc
    ht.bin ht.top ht.tree ht.once hdel hatt
  rw [hr] at h1
  cases h1
  refine ⟨steps, ns, h2, ?_⟩
  rw [h4, ← h3]
  have : ∀ l : List Node, (∀ n ∈ l, IsRead (w.env buf) st n) → l.flatMap withRecovered = l.map obs := by
    intro l
    induction l with
    | nil => intro _; rfl
    | cons n l ih =>
      intro hl
      rw [List.flatMap_cons, List.map_cons, ih (fun m hm => hl m (List.mem_cons_of_mem _ hm))]
      obtain ⟨gm, q, u, s, _, hrd⟩ := hl n List.mem_cons_self
      unfold withRecovered
      rw [reads_none (w.env buf) st hn gm q u s n hrd]
      rfl
  exact this live h5

/-- What `build` does once the file is as it is to be. -/
theorem build_opened (w : World) (b : Builder) (logs : List TransactionLog) (warn : Option Logs)
    (h : Hive Recovery) (st : State) (items : RegItemMap)
    (hlogs : TransactionLog.parse b.logs = .ok (logs, warn))
    (ho : openHive (w.analyze b.recover) (w.initItems b.recover) (w.scan b.recover) b.primary
      (some (.ok ({}, []))) logs = .ok (true, h)) (hoff : h.hbinOffset = 4096)
    (hrec : h.recovery = some (.ok (st, items))) :
    ∃ info, ∀ root, initRoot (w.env h.buffer) { st with info } = .ok (some root, st.rootOffset) →
      b.build w = some (.ok ⟨w.env h.buffer, h.baseBlock, { st with info }, some root⟩) := by
  refine ⟨(h.info.extend st.info).extend (warn.getD {}), fun root hr => ?_⟩
  unfold Builder.build
  rw [hlogs]
  simp only
  rw [ho]
  simp only
  rw [hrec]
  simp only [if_true]
  rw [hoff]
  unfold World.env at hr
  rw [hr]
  rfl

/-- C62, clean files: a hive whose sequence numbers agree and whose checksum is right is opened, whatever
logs are given with it, without any change to its bytes or its header, and the iteration shows exactly the
keys stored in it, in pre-order.  (The logs must be readable to the end: see `unreadable_log_violated`.) -/
theorem open_clean_lists (w : World) (b : Builder) (bb : BaseBlock) (rest : Bytes) (t : Tree)
    (hd : 0 < w.depth) (hrec : b.recover = false)
    (hlogs : ∃ x, TransactionLog.parse b.logs = .ok x)
    (hp : BaseBlock.fromBytes b.primary = .ok (bb, rest)) (hsup : bb.base.fileType ≠ .unknown)
    (hclean : bb.base.primarySeq = bb.base.secondarySeq)
    (hck : calculateChecksum (b.primary.take 512) = .ok bb.base.checksum)
    (ht : StoredTree w b.primary t) :
    ∃ p, b.build w = some (.ok p) ∧ p.env.fi = ⟨4096, b.primary⟩ ∧ p.header = bb ∧ p.root ≠ none ∧
      Lists p t := by
  obtain ⟨⟨logs, warn⟩, hlogs⟩ := hlogs
  obtain ⟨info, ho⟩ := open_clean (w.analyze b.recover) (w.initItems b.recover) (w.scan b.recover) b.primary
    (some (.ok ({}, []))) (some (.ok ({}, []))) logs bb rest hp hsup hclean hck (by rw [hrec, scan_false])
  obtain ⟨info2, hb⟩ := build_opened w b logs warn _ {} [] hlogs ho rfl rfl
  obtain ⟨root, hr, hl⟩ := plain_lists w b.primary bb { info := info2 } t hd (fun _ => rfl) ht
  exact ⟨_, hb root hr, rfl, rfl, nofun, hl⟩

/-- C62, dirty files (partial: the logs must be as Windows writes them, see `SoundLog`, the header of
the hive intact, and its secondary number not 0): with the logs given in any order, a consecutively numbered
run of their entries, starting in the first fresh log, is written over the hive, and the iteration shows
exactly the keys stored in the result, in pre-order; the header tells the number of the last entry.  If a
page of the run lies outside the file, opening fails. -/
theorem open_dirty_lists_partial (w : World) (b : Builder) (bb : BaseBlock) (rest : Bytes)
    (logs : List TransactionLog) (warn : Option Logs) (hd : 0 < w.depth) (hrec : b.recover = false)
    (hlogs : TransactionLog.parse b.logs = .ok (logs, warn))
    (hp : BaseBlock.fromBytes b.primary = .ok (bb, rest)) (hsup : bb.base.fileType ≠ .unknown)
    (hck : calculateChecksum (b.primary.take 512) = .ok bb.base.checksum)
    (hdirty : bb.base.primarySeq ≠ bb.base.secondarySeq) (hsec : 0 < bb.base.secondarySeq)
    (hsound : ∀ l ∈ logs, SoundLog l)
    (hfresh : ∃ l ∈ logs, bb.base.secondarySeq ≤ l.base.primarySeq) :
    ∃ used : List TransactionLog, used.Sublist logs ∧
      used.head? = logs.find? (fun l => decide (bb.base.secondarySeq ≤ l.base.primarySeq)) ∧
      Consecutive (used.flatMap (·.entries)) ∧
      (EntriesFit 4096 bb.base.hiveBinsDataSize (used.flatMap (·.entries)) b.primary.length →
        ∃ new last, Replayed b.primary (used.flatMap (·.entries)) new ∧
          (used.flatMap (·.entries)).getLast? = some last ∧
          ∀ t, StoredTree w new t →
            ∃ p, b.build w = some (.ok p) ∧ p.env.fi = ⟨4096, new⟩ ∧ p.root ≠ none ∧ Lists p t ∧
              p.header.base.primarySeq = last.seq ∧ p.header.base.secondarySeq = last.seq) ∧
      (¬ EntriesFit 4096 bb.base.hiveBinsDataSize (used.flatMap (·.entries)) b.primary.length →
        b.build w = some .err) := by
  obtain ⟨sup, bad, info', hi, hs, hbad⟩ := initBaseBlock_ok b.primary {} bb rest hp
  have hb0 : bad = false := by
    cases bad with
    | false => rfl
    | true => exact absurd hck (hbad.1 rfl).2
  have hs0 : sup = true := by rw [hs]; simp [hsup]
  subst hb0 hs0
  obtain ⟨hrest, hl4, _⟩ := baseBlock_frame _ _ _ hp
  let h : Hive Recovery := ⟨b.primary, 4096, bb, info', some (.ok ({}, []))⟩
  have hwf : h.Wf := ⟨by show BaseBlock.fromBytes b.primary = _; rw [hp, hrest], rfl, hl4⟩
  obtain ⟨used, _, h1, hne, h2, h3, h4⟩ := header_seq_partial (w.analyze false) (w.initItems false) h
    (some (.ok ({}, []))) logs hwf (by rw [initItems_false]) hdirty hsec hsound hfresh
  obtain ⟨e1, e2⟩ := applyAll_effect 4096 bb.base.hiveBinsDataSize (used.flatMap (·.entries)) b.primary
  have hopen : openHive (w.analyze b.recover) (w.initItems b.recover) (w.scan b.recover) b.primary
      (some (.ok ({}, []))) logs =
      match applyTransactionLogs (w.analyze false) (w.initItems false) h false logs with
      | .ok h => .ok (true, h)
      | .err => .err
      | .panic => .panic := by
    unfold openHive
    rw [hi, hrec, scan_false]
    simp only [Res.bind_ok, if_true]
    cases applyTransactionLogs (w.analyze false) (w.initItems false) h false logs <;> rfl
  refine ⟨used, h1, h2, h3, fun hfit => ?_, fun hfit => ?_⟩
  · obtain ⟨buf', hok, hlen, hb⟩ := e1 hfit
    have hok' : applyAll 4096 h.baseBlock.base.hiveBinsDataSize (used.flatMap (·.entries)) h.buffer = .ok buf' := hok
    rw [hok'] at h4
    obtain ⟨h', last, ha, hlast, hps, hss, _, hsame, hw', hl', _⟩ := h4
    rw [ha] at hopen
    simp only at hopen
    have hr' : h'.recovery = some (.ok ({}, [])) := by
      rw [hrec, analyze_false, initItems_false, scan_false] at hopen
      exact openHive_inv _ _ _ (· = some (.ok ({}, []))) (fun _ _ _ s h => h)
        (fun _ s s' h e => by cases e; exact h) (fun _ _ s s' h e => by cases e; exact h) _ _ _ _ _ rfl hopen
    refine ⟨h'.buffer, last, ⟨by omega, fun i hi h1 h2 => ?_⟩, hlast, fun t ht => ?_⟩
    · rw [hsame i h1 h2]
      exact hb i (by omega)
    · obtain ⟨info2, hbd⟩ := build_opened w b logs warn h' {} [] hlogs hopen hw'.2.1 hr'
      obtain ⟨root, hr, hl⟩ := plain_lists w h'.buffer h'.baseBlock { info := info2 } t hd (fun _ => rfl) ht
      exact ⟨_, hbd root hr, rfl, nofun, hl, hps, hss⟩
  · have herr : applyAll 4096 h.baseBlock.base.hiveBinsDataSize (used.flatMap (·.entries)) h.buffer = .err := e2 hfit
    rw [herr] at h4
    simp only at h4
    rw [h4] at hopen
    unfold Builder.build
    rw [hlogs]
    simp only
    rw [hopen]

/-! ### C63 -/

/-- C63 (partial: the conditions on what was recovered exclude the stack overflow of
`updateModifiedLists`, see C42).  Whenever opening with recovery succeeds, opening without succeeds and
gives the same file and the same header; and the keys listed with recovery that are not marked as recovered
are the keys listed without. -/
theorem recovery_only_adds_partial (w : World) (b : Builder) (p : HiveParser)
    (h : (b.recoverDeleted true).build w = some (.ok p)) :
    ∃ q, (b.recoverDeleted false).build w = some (.ok q) ∧ q.env = p.env ∧ q.header = p.header ∧
      (q.root.isSome = p.root.isSome) ∧
      ∀ t, StoredTree w p.env.fi.buffer t → p.root ≠ none → 1 < w.depth →
        (∀ path ds, p.state.deletedKeys path = some ds → path.length + 1 < w.depth ∧
          ∀ d ∈ ds, d.key.flagBits.testBit 2 = false) →
        ∀ gm anc, ∃ steps ns steps' ms, p.iterate steps {} false gm anc = some (.ok ns) ∧
          q.iterate steps' {} false gm anc = some (.ok ms) ∧ liveKeys ns = ms.map obs ∧
          ms.map obs = t.pre [] := by
  unfold Builder.build at h
  split at h
  · cases h
  · cases h
  · rename_i logs warn hlogs
    have hlogs' : TransactionLog.parse b.logs = .ok (logs, warn) := hlogs
    split at h
    · cases h
    · cases h
    · rename_i sup hv ho
      have ho' : openHive (w.analyze true) (w.initItems true) (w.scan true) b.primary
        (some (.ok ({}, []))) logs = .ok (sup, hv) := ho
      have hfiled := open_filed w true b.primary logs sup hv ho'
      have hplain := openHive_put _ _ _ _ _ (some (.ok ({}, [])) : Recovery) _ _ _ ho'
      have hbq : ∀ (info : Logs), info = (hv.info.extend {}).extend (warn.getD {}) →
          (b.recoverDeleted false).build w =
          if sup then
            match initRoot ⟨⟨hv.hbinOffset, hv.buffer⟩, w.hashFn, w.depth⟩ { info := info } with
            | .err => some .err
            | .panic => some .panic
            | .ok (root, ro) => some (.ok ⟨⟨⟨hv.hbinOffset, hv.buffer⟩, w.hashFn, w.depth⟩, hv.baseBlock,
                { info := info, rootOffset := ro }, root⟩)
          else some (.ok ⟨⟨⟨hv.hbinOffset, hv.buffer⟩, w.hashFn, w.depth⟩, hv.baseBlock, { info := info }, none⟩) := by
        intro info hinfo
        subst hinfo
        unfold Builder.build
        show (match TransactionLog.parse b.logs with
          | .err => _
          | .panic => _
          | .ok (logs, warn) => _) = _
        rw [hlogs']
        simp only
        show (match openHive (w.analyze false) (w.initItems false) (w.scan false) b.primary
            (some (.ok ({}, []))) logs with
          | .err => _
          | .panic => _
          | .ok (supported, h) => _) = _
        rw [analyze_false, initItems_false, scan_false, hplain]
        rfl
      split at h
      · cases h
      · cases h
      · cases h
      · rename_i st items hrec
        have hst := hfiled _ hrec
        simp only at h
        have hbq := hbq _ rfl
        cases sup with
        | false =>
          cases h
          exact ⟨_, hbq, rfl, rfl, rfl, fun t _ hr => absurd rfl hr⟩
        | true =>
          simp only [if_true] at h hbq
          cases hr : initRoot ⟨⟨hv.hbinOffset, hv.buffer⟩, w.hashFn, w.depth⟩
              { st with info := (hv.info.extend st.info).extend (warn.getD {}) } with
          | err => rw [hr] at h; cases h
          | panic => rw [hr] at h; cases h
          | ok x =>
            obtain ⟨root, ro⟩ := x
            rw [hr] at h
            cases h
            have hoff : hv.hbinOffset = 4096 := openHive_hbin _ _ _ _ _ _ _ _ ho'
            obtain ⟨hsome, hro, r2, hr2⟩ := initRoot_other _ _
              { info := (hv.info.extend ({} : Logs)).extend (warn.getD {}) } _ _ hr (fun _ => rfl)
            have hr2' := hr2
            rw [hr2] at hbq
            refine ⟨_, hbq, rfl, rfl, hsome.symm, ?_⟩
            intro t ht _ hdep hrecd gm anc
            rw [hoff] at hr hr2'
            have hatt : AttachOk (w.env hv.buffer)
                { st with info := (hv.info.extend st.info).extend (warn.getD {}) } := by
              intro k
              refine attach_ends _ (w.depth - 2) ?_ _ _ ?_ ?_
              · intro path ds hds
                obtain ⟨h1, h2⟩ := hrecd path ds hds
                refine ⟨fun _ => by omega, fun d hd => ⟨h2 d hd, ?_⟩⟩
                obtain ⟨_, _, nm, hnm⟩ := hst.1 path ds hds d hd
                rw [hnm, List.length_append, List.length_cons]
                omega
              · show w.depth - 2 + 1 < w.depth + _
                omega
              · show 0 < w.depth
                omega
            obtain ⟨root1, steps, ns, live, g1, g2, _, _, _, g6⟩ := iteration_preorder (w.env hv.buffer)
              { st with info := (hv.info.extend st.info).extend (warn.getD {}) } t gm anc
              ht.bin ht.top ht.tree ht.once hst.recorded.1 hatt
            obtain ⟨root2, k1, k2⟩ := plain_lists w hv.buffer hv.baseBlock
              { info := (hv.info.extend ({} : Logs)).extend (warn.getD {}) } t (by omega) (fun _ => rfl) ht
            obtain ⟨steps', ms, k3, k4⟩ := k2 gm anc
            have e1 : root = some root1 ∧ ro = st.rootOffset := by
              have := hr.symm.trans g1
              simp only [Res.ok.injEq, Prod.mk.injEq] at this
              exact this
            have e2 : r2 = root2 := by
              have := hr2'.symm.trans k1
              simp only [Res.ok.injEq, Prod.mk.injEq, Option.some.injEq] at this
              exact this.1
            refine ⟨steps, ns, steps', ms, ?_, ?_, ?_, k4⟩
            · rw [e1.1, e1.2, hoff]
              exact g2
            · rw [e2, hoff]
              exact k3
            · rw [k4, g6]

/-! ### The order in which the logs are given (C05, from the files to the parser) -/

theorem updateModifiedLists_info (st : State) (i : Logs) : ∀ fuel,
    updateModifiedLists { st with info := i } fuel = updateModifiedLists st fuel := by
  intro fuel
  induction fuel with
  | zero => rfl
  | succ fuel ih =>
    funext n
    rw [updateModifiedLists, updateModifiedLists, ih]
    rfl

theorem initRoot_info (env : Env) (st : State) (i : Logs) : initRoot env { st with info := i } = initRoot env st := by
  unfold initRoot readKey
  cases getFrom env.fi.buffer env.fi.hbin with
  | none => rfl
  | some input =>
    simp only
    cases HiveBinHeader.fromBytes env.fi.hbin input with
    | none => rfl
    | some x =>
      simp only
      cases getFrom env.fi.buffer (env.fi.buffer.length - x.2.length) with
      | none => rfl
      | some slice =>
        simp only [readFromSlice]
        cases KeyNode.fromBytes env.hashFn slice (env.fi.buffer.length - x.2.length) [] none with
        | err => rfl
        | panic => rfl
        | ok y =>
          simp only [filterStep]
          cases valuesStep env ⟨env.fi.buffer.length - x.2.length, [], none, true, none, true⟩ .iterate y.1 with
          | err => rfl
          | panic => rfl
          | ok k2 =>
            simp only [finishStep, updateModifiedLists_info]

/-- C05, on the level of the API: with usable logs of different sequence numbers, giving them in another order
makes no difference, with and without recovery, except to the warnings. -/
theorem build_log_order (w : World) (b : Builder) (files' : List Bytes) (hperm : files'.Perm b.logs)
    (hdist : (b.logs.filterMap usableLog).Pairwise (fun a b => a.base.primarySeq ≠ b.base.primarySeq)) (p : HiveParser)
    (h : b.build w = some (.ok p)) :
    ∃ info, { b with logs := files' }.build w = some (.ok { p with state := { p.state with info } }) := by
  unfold Builder.build at h
  split at h
  · cases h
  · cases h
  · rename_i logs warn hlogs
    obtain ⟨l1, _, l3⟩ := log_order _ _ _ hlogs
    have hd : logs.Pairwise (fun a b => a.base.primarySeq ≠ b.base.primarySeq) :=
      l1.symm.pairwise hdist (fun h => Ne.symm h)
    obtain ⟨w', hw'⟩ := l3 hd files' hperm
    unfold Builder.build
    simp only [hw']
    split at h
    · cases h
    · cases h
    · rename_i sup hv ho
      cases hrec : hv.recovery with
      | none => rw [hrec] at h; cases h
      | some r =>
        rw [hrec] at h
        cases r with
        | err => cases h
        | panic => cases h
        | ok x =>
          simp only at h ⊢
          rw [initRoot_info] at h ⊢
          by_cases hs : sup = true
          · rw [if_pos hs] at h ⊢
            cases hr : initRoot ⟨⟨hv.hbinOffset, hv.buffer⟩, w.hashFn, w.depth⟩ x.1 with
            | err => rw [hr] at h; cases h
            | panic => rw [hr] at h; cases h
            | ok y =>
              rw [hr] at h
              cases h
              exact ⟨_, rfl⟩
          · rw [if_neg hs] at h ⊢
            cases h
            exact ⟨_, rfl⟩

/-! ### C64 -/

/-- C64 is violated: whatever filter the builder is given, the parser it makes of a clean hive lists every
key of the hive. -/
theorem builder_filter_violated (w : World) (b : Builder) (f : Filter) (bb : BaseBlock) (rest : Bytes) (t : Tree)
    (hd : 0 < w.depth) (hrec : b.recover = false)
    (hlogs : ∃ x, TransactionLog.parse b.logs = .ok x)
    (hp : BaseBlock.fromBytes b.primary = .ok (bb, rest)) (hsup : bb.base.fileType ≠ .unknown)
    (hclean : bb.base.primarySeq = bb.base.secondarySeq)
    (hck : calculateChecksum (b.primary.take 512) = .ok bb.base.checksum)
    (ht : StoredTree w b.primary t) :
    ∃ p, (b.withFilter f).build w = some (.ok p) ∧ Lists p t := by
  obtain ⟨p, h1, _, _, _, h2⟩ := open_clean_lists w (b.withFilter f) bb rest t hd hrec hlogs hp hsup hclean hck ht
  exact ⟨p, h1, h2⟩

/-! ### Examples -/

/-- A hive header with right checksum: sequence numbers `p` and `s`, and `bins` bytes of hive bins. -/
def sampleHeader (p s bins : Nat) : Bytes :=
  let front : Bytes := regf ++ encLE 4 p ++ encLE 4 s ++ encLE 8 0 ++ encLE 4 1 ++ encLE 4 5 ++ encLE 4 0 ++
    encLE 4 1 ++ encLE 4 32 ++ encLE 4 bins ++ encLE 4 1 ++ List.replicate 460 0
  front ++ encLE 4 (xorDwords front)

/-- A hive bin of 381 bytes with the root key `RT`, its sub-keys named `n` and `b`, and a freed key `d`. -/
def sampleBin (n : UInt8) : Bytes :=
  hbinBytes 0 381 0 0 0 0 ++ (exampleCell 0x24 2 114 [0x52, 0x54]).encode ++
    leafCell .lf (-24) [(138, [0, 0, 0, 0]), (219, [0, 0, 0, 0])] ++
    (exampleCell 0x20 0 0 [n]).encode ++ (exampleCell 0x20 0 0 [0x62]).encode ++
    { exampleCell 0x20 0 0 [0x64] with size := 81 }.encode

/-- The hive with this bin, and anything behind it. -/
def sampleHive (p s bins : Nat) (n : UInt8) (tail : Bytes) : Bytes :=
  sampleHeader p s bins ++ List.replicate 3584 0 ++ (sampleBin n ++ tail)

/-- The tree of the hive. -/
def sampleTree (n : UInt8) : Tree :=
  .mk 4128 (exampleCell 0x24 2 114 [0x52, 0x54]) ['R', 'T']
    [.mk 4234 (exampleCell 0x20 0 0 [n]) (latin1 [n]) [], .mk 4315 (exampleCell 0x20 0 0 [0x62]) ['b'] []]

/-- Room for a few calls, some steps. -/
def sampleWorld : World := ⟨fun _ => [], 8, id, 1000⟩

theorem sampleTree_stored (w : World) (hd : 0 < w.depth) (n : UInt8) (hn : n = 0x61 ∨ n = 0x63) (buf : Bytes) (h : ∃ pre post,
    pre.length = 4096 ∧ buf = pre ++ (sampleBin n ++ post)) : StoredTree w buf (sampleTree n) := by
  obtain ⟨pre, post, hl, rfl⟩ := h
  have hcell : ∀ (off : Nat) (enc : Bytes), sampleBin n = (sampleBin n).take off ++ (enc ++ (sampleBin n).drop (off + enc.length)) →
      off ≤ 381 →
      pre ++ (sampleBin n ++ post) = (pre ++ (sampleBin n).take off) ++ (enc ++ ((sampleBin n).drop (off + enc.length) ++ post)) ∧
      (pre ++ (sampleBin n).take off).length = 4096 + off := by
    intro off enc he ho
    have hb : (sampleBin n).length = 381 := by rcases hn with rfl | rfl <;> decide +kernel
    constructor
    · conv => lhs; rw [he]
      simp
    · simp [hl, hb]; omega
  have hk : ∀ off c name, c.Fits → c.flags.testBit 5 = true → name = latin1 c.nameBytes →
      sampleBin n = (sampleBin n).take off ++ (c.encode ++ (sampleBin n).drop (off + c.encode.length)) → off ≤ 381 →
      KeyAt (pre ++ (sampleBin n ++ post)) (4096 + off) c name := by
    intro off c name h1 h2 h3 h4 h5
    obtain ⟨h6, h7⟩ := hcell off c.encode h4 h5
    exact ⟨h1, ⟨_, _, h6, h7⟩, .inl ⟨h2, h3⟩⟩
  have hc1 : sampleBin n = (sampleBin n).take 32 ++ ((exampleCell 0x24 2 114 [0x52, 0x54]).encode ++
      (sampleBin n).drop (32 + (exampleCell 0x24 2 114 [0x52, 0x54]).encode.length)) := by
    rcases hn with rfl | rfl <;> decide +kernel
  have hc2 : sampleBin n = (sampleBin n).take 138 ++ ((exampleCell 0x20 0 0 [n]).encode ++
      (sampleBin n).drop (138 + (exampleCell 0x20 0 0 [n]).encode.length)) := by
    rcases hn with rfl | rfl <;> decide +kernel
  have hc3 : sampleBin n = (sampleBin n).take 219 ++ ((exampleCell 0x20 0 0 [0x62]).encode ++
      (sampleBin n).drop (219 + (exampleCell 0x20 0 0 [0x62]).encode.length)) := by
    rcases hn with rfl | rfl <;> decide +kernel
  have hc4 : sampleBin n = (sampleBin n).take 114 ++ (leafCell .lf (-24) [(138, [0, 0, 0, 0]), (219, [0, 0, 0, 0])] ++
      (sampleBin n).drop (114 + (leafCell .lf (-24) [(138, [0, 0, 0, 0]), (219, [0, 0, 0, 0])]).length)) := by
    rcases hn with rfl | rfl <;> decide +kernel
  have hc5 : sampleBin n = hbinBytes 0 381 0 0 0 0 ++ (sampleBin n).drop 32 := by
    rcases hn with rfl | rfl <;> decide +kernel
  refine ⟨⟨0, 381, 0, 0, 0, 0, by decide, by decide, by decide, by decide, by decide, by decide,
    pre, (sampleBin n).drop 32 ++ post, ?_, hl⟩, rfl, ?_, ?_⟩
  · show pre ++ (sampleBin n ++ post) = _
    conv => lhs; rw [hc5]
    simp
  · unfold sampleTree
    rw [TreeAt.eq_def]
    obtain ⟨depth, hdep⟩ : ∃ depth, w.depth = depth + 1 := ⟨w.depth - 1, by omega⟩
    rw [hdep]
    refine ⟨hk 32 _ _ (exampleCell_fits _ _ _ _ (by decide) (by decide) (by decide) (by decide)) (by decide)
      (by decide) hc1 (by decide), .inr ⟨by decide, by decide, ?_⟩, ?_⟩
    · left
      obtain ⟨h6, h7⟩ := hcell 114 _ hc4 (by decide)
      exact ⟨.lf, -24, [(138, [0, 0, 0, 0]), (219, [0, 0, 0, 0])], by decide, by decide, by decide,
        ⟨_, _, h6, h7⟩, rfl⟩
    · rw [ForestAt, ForestAt, ForestAt]
      refine ⟨by simp only [Tree.off]; decide, ?_, by simp only [Tree.off]; decide, ?_, trivial⟩
      · rw [TreeAt, ForestAt]
        exact ⟨hk 138 _ _ (exampleCell_fits _ _ _ _ (by decide) (by decide) (by decide) (by simp)) (by simp only [exampleCell]; decide)
          rfl hc2 (by decide), .inl ⟨rfl, rfl⟩, trivial⟩
      · rw [TreeAt, ForestAt]
        exact ⟨hk 219 _ _ (exampleCell_fits _ _ _ _ (by decide) (by decide) (by decide) (by decide)) (by decide)
          (by decide) hc3 (by decide), .inl ⟨rfl, rfl⟩, trivial⟩
  · show ([4128, 4234, 4315] : List Nat).Nodup
    decide

/-- The header of such a hive, and its properties in the theorems above. -/
theorem sampleHive_header (p s bins : Nat) (n : UInt8) (tail : Bytes)
    (h : (match BaseBlock.fromBytes (sampleHive p s bins n tail) with
      | .ok (bb, _) => decide (bb.base.fileType ≠ .unknown ∧ bb.base.primarySeq = p ∧ bb.base.secondarySeq = s ∧
          bb.base.hiveBinsDataSize = bins ∧
          calculateChecksum ((sampleHive p s bins n tail).take 512) = .ok bb.base.checksum)
      | _ => false) = true) :
    ∃ bb rest, BaseBlock.fromBytes (sampleHive p s bins n tail) = .ok (bb, rest) ∧ bb.base.fileType ≠ .unknown ∧
      bb.base.primarySeq = p ∧ bb.base.secondarySeq = s ∧ bb.base.hiveBinsDataSize = bins ∧
      calculateChecksum ((sampleHive p s bins n tail).take 512) = .ok bb.base.checksum := by
  cases hb : BaseBlock.fromBytes (sampleHive p s bins n tail) with
  | err => rw [hb] at h; cases h
  | panic => rw [hb] at h; cases h
  | ok x =>
    rw [hb] at h
    exact ⟨x.1, x.2, rfl, of_decide_eq_true h⟩

theorem sampleHive_stored (p s bins : Nat) (n : UInt8) (tail : Bytes) (hn : n = 0x61 ∨ n = 0x63) :
    StoredTree sampleWorld (sampleHive p s bins n tail) (sampleTree n) :=
  sampleTree_stored sampleWorld (by decide) n hn _ ⟨sampleHeader p s bins ++ List.replicate 3584 0, tail,
    by rw [List.length_append, List.length_replicate]
       simp only [sampleHeader, List.length_append, length_encLE, List.length_replicate]
       rfl, rfl⟩

/-- The hypotheses of `open_clean_lists` and `builder_filter_violated`: the three keys are listed, whatever
filter the builder was given. -/
theorem sample_clean (f : Filter) : ∃ p,
    (({ primary := sampleHive 5 5 4477 0x61 [] } : Builder).withFilter f).build sampleWorld = some (.ok p) ∧ Lists p (sampleTree 0x61) := by
  obtain ⟨bb, rest, h1, h2, h3, h4, _, h5⟩ := sampleHive_header 5 5 4477 0x61 [] (by decide +kernel)
  exact builder_filter_violated sampleWorld { primary := sampleHive 5 5 4477 0x61 [] } f bb rest _ (by decide) rfl
    ⟨([], none), by decide +kernel⟩ h1 h2 (h3.trans h4.symm) h5 (sampleHive_stored _ _ _ _ _ (.inl rfl))

example : ((sampleTree 0x61).pre []).map (·.2) = ["\\RT".toList, "\\RT\\a".toList, "\\RT\\b".toList] ∧
    ((sampleTree 0x63).pre []).map (·.2) = ["\\RT".toList, "\\RT\\c".toList, "\\RT\\b".toList] := by decide +kernel

/-- A log entry which writes the name of the key `a` over by `c`, and a log file with it. -/
def sampleEntry : RawEntry :=
  let e0 : RawEntry := ⟨0, 4, 4096, 0, 0, [(218, [0x63])], []⟩
  let e1 := { e0 with hash1 := (marvin32 defaultSeed (e0.encode.drop 40)).toNat }
  { e1 with hash2 := (marvin32 defaultSeed (e1.encode.take 32)).toNat }

def sampleLog : Bytes := sampleHeader 4 4 4096 ++ ([sampleEntry].flatMap (·.encode) ++ [])

theorem parse_single (f : Bytes) (l : TransactionLog) (r : Bytes) (hne : f.isEmpty = false)
    (h : TransactionLog.fromBytes f = .ok (l, r)) : TransactionLog.parse [f] = .ok ([l], none) := by
  unfold TransactionLog.parse readLogs
  rw [hne, if_neg (by decide), h]
  simp only [readLogs, List.mergeSort_singleton]
  rfl

theorem sampleLog_parse : ∃ l, TransactionLog.parse [sampleLog] = .ok ([l], none) ∧ SoundLog l ∧
    l.base.primarySeq = 4 ∧ l.entries.flatMap (·.dirtyPages) = [⟨218, [0x63]⟩] ∧
    l.entries.map (·.hiveBinsDataSize) = [4096] ∧ l.entries.map (·.seq) = [4] := by
  have hh : (match BaseBlockBase.fromBytes (sampleHeader 4 4 4096) with
      | .ok (b, []) => decide (b.primarySeq = 4) | _ => false) = true := by decide +kernel
  cases hb : BaseBlockBase.fromBytes (sampleHeader 4 4 4096) with
  | err => rw [hb] at hh; cases hh
  | panic => rw [hb] at hh; cases hh
  | ok x =>
    obtain ⟨base, r⟩ := x
    rw [hb] at hh
    cases r with
    | cons a r => cases hh
    | nil =>
      have hp : base.primarySeq = 4 := of_decide_eq_true hh
      have hf := log_file_roundtrip _ base hb [sampleEntry]
        (by intro e he; cases List.mem_singleton.1 he; unfold RawEntry.Fits; decide +kernel) []
        (by intro pos; rw [LogEntry.fromBytes.eq_def]; rfl)
      have hes : (expectedEntries 512 [sampleEntry]).flatMap (·.dirtyPages) = [⟨218, [0x63]⟩] ∧
        (expectedEntries 512 [sampleEntry]).map (·.hiveBinsDataSize) = [4096] ∧
        (expectedEntries 512 [sampleEntry]).map (·.seq) = [4] ∧
        (expectedEntries 512 [sampleEntry]).map (·.hasValidHashes) = [true] := by decide +kernel
      generalize expectedEntries 512 [sampleEntry] = es at hf hes
      refine ⟨⟨base, sampleHeader 4 4 4096, es⟩, ?_, ?_, hp, hes.1, hes.2.1, hes.2.2.1⟩
      · exact parse_single _ _ _ (by decide +kernel) hf
      · obtain ⟨_, h2, h3, h4⟩ := hes
        obtain ⟨e, rfl⟩ : ∃ e, es = [e] :=
          List.length_eq_one_iff.1 (by have := congrArg List.length h2; simpa using this)
        simp at h2 h3 h4
        refine ⟨⟨e, rfl, by rw [hp]; exact h3⟩, ?_, trivial⟩
        intro x hx
        cases List.mem_singleton.1 hx
        exact ⟨h4, by omega, by omega⟩

/-- The hypotheses of `open_dirty_lists_partial`: the hive, marked dirty, with the log shows `c` in place of `a`,
and the sequence numbers of the log. -/
theorem sample_dirty : ∃ p, ({ primary := sampleHive 5 4 4477 0x61 [], logs := [sampleLog] } : Builder).build sampleWorld
    = some (.ok p) ∧ Lists p (sampleTree 0x63) ∧ p.header.base.primarySeq = 4 := by
  obtain ⟨bb, rest, h1, h2, h3, h4, hbins, h5⟩ := sampleHive_header 5 4 4477 0x61 [] (by decide +kernel)
  obtain ⟨l, hl, hs, hps, hpages, hsizes, hseqs⟩ := sampleLog_parse
  obtain ⟨used, hu1, hu2, _, hok, _⟩ := open_dirty_lists_partial sampleWorld
    { primary := sampleHive 5 4 4477 0x61 [], logs := [sampleLog] } bb rest [l] none (by decide) rfl hl h1 h2 h5
    (by omega) (by omega) (fun x hx => by cases List.mem_singleton.1 hx; exact hs) ⟨l, by simp, by omega⟩
  have hused : used = [l] := by
    have : used.head? = some l := by
      rw [hu2, List.find?_cons_of_pos (by simp; omega)]
    match used, hu1, this with
    | a :: us, hu1, this =>
      cases this
      have := hu1.length_le
      simp at this
      rw [this]
  subst hused
  have hflat : [l].flatMap (·.entries) = l.entries := by simp
  rw [hflat] at hok
  have hlen : (sampleHive 5 4 4477 0x61 []).length = 4477 := by decide +kernel
  have hes : ∃ e, l.entries = [e] ∧ e.dirtyPages = [⟨218, [0x63]⟩] ∧ e.hiveBinsDataSize = 4096 ∧ e.seq = 4 := by
    obtain ⟨e, he⟩ : ∃ e, l.entries = [e] :=
      List.length_eq_one_iff.1 (by have := congrArg List.length hseqs; simpa using this)
    rw [he] at hpages hsizes hseqs
    simp at hpages hsizes hseqs
    exact ⟨e, he, hpages, hsizes, hseqs⟩
  obtain ⟨e, he, hpg, hsz, hsq⟩ := hes
  rw [he] at hok
  obtain ⟨new, last, hrep, hlast, hp⟩ := hok (by
    refine ⟨?_, trivial⟩
    show pagesFit 4096 e.dirtyPages _
    rw [hpg, hsz, hbins, hlen]
    intro q hq
    cases List.mem_singleton.1 hq
    decide)
  cases hlast
  have hst : StoredTree sampleWorld new (sampleTree 0x63) := by
    refine sampleTree_stored _ (by decide) _ (.inr rfl) _ ⟨new.take 4096, new.drop 4477, ?_, ?_⟩
    · have := hrep.1
      rw [hlen] at this
      simp; omega
    · obtain ⟨hl', hb⟩ := hrep
      rw [hlen] at hl'
      have hset : sampleBin 0x63 = ((sampleHive 5 4 4477 0x61 []).drop 4096).set 218 0x63 := by decide +kernel
      have hmid : (new.drop 4096).take 381 = sampleBin 0x63 := by
        rw [hset]
        apply List.ext_getElem?
        intro i
        rw [List.getElem?_take, List.getElem?_drop, List.getElem?_set, List.getElem?_drop, List.length_drop, hlen]
        by_cases hi : i < 381
        · rw [if_pos hi]
          have := hb (4096 + i) (by omega) (by omega) (by omega)
          simp only [List.flatMap_cons, List.flatMap_nil, List.append_nil, hpg] at this
          rcases this with ⟨bef, q, aft, hq, hc, _, hv⟩ | ⟨hn, hv⟩
          · have : q = ⟨218, [0x63]⟩ := by
              have : q ∈ [(⟨218, [0x63]⟩ : DirtyPage)] := by rw [hq]; simp
              exact List.mem_singleton.1 this
            subst this
            have h1 := hc.1
            have h2 := hc.2
            simp at h1 h2
            have : i = 218 := by omega
            subst this
            rw [hv]; rfl
          · have : 218 ≠ i := by
              rintro rfl
              exact hn _ (List.mem_singleton.2 rfl) ⟨by decide, by decide⟩
            rw [if_neg this, hv, List.getElem?_eq_getElem (by omega)]
            rfl
        · rw [if_neg hi, if_neg (by omega), List.getElem?_eq_none (by omega)]
      have hd : new.drop 4477 = (new.drop 4096).drop 381 := by rw [List.drop_drop]
      rw [← hmid, hd, List.take_append_drop, List.take_append_drop]
  obtain ⟨p, hp1, _, _, hp2, hp3, _⟩ := hp (sampleTree 0x63) hst
  exact ⟨p, hp1, hp2, hp3.trans hsq⟩

/-- What a parser lists, by file offset. -/
def listedOffsets (p : Option (Res HiveParser)) : Option (List Nat) :=
  match p with
  | some (.ok p) => match p.iterate 100 {} false false false with
    | some (.ok ns) => some (ns.map (·.key.fileOffset))
    | _ => none
  | _ => none

/-- With recovery the deleted key is listed as well. -/
theorem sample_recovered :
    listedOffsets (({ primary := sampleHive 5 5 4477 0x61 [] } : Builder).build sampleWorld) = some [4128, 4234, 4315] ∧
    listedOffsets ((({ primary := sampleHive 5 5 4477 0x61 [] } : Builder).recoverDeleted true).build sampleWorld)
      = some [4128, 4396, 4234, 4315] := by
  constructor <;> decide +kernel

/-- The hypotheses of `recovery_only_adds_partial` hold for it. -/
example : (match (({ primary := sampleHive 5 5 4477 0x61 [] } : Builder).recoverDeleted true).build sampleWorld with
    | some (.ok p) => decide (p.root ≠ none ∧ p.env.fi.hbin = 4096)
    | _ => false) = true := by decide +kernel

/-- C63 is violated: eight zero bytes behind the last cell, within the size told by the header, and the hive, which
can be read without recovery, is refused with it. -/
theorem recovery_only_adds_violated :
    (({ primary := sampleHive 5 5 4485 0x61 (List.replicate 8 0) } : Builder).recoverDeleted true).build sampleWorld
      = some .err ∧
    ∃ p, ({ primary := sampleHive 5 5 4485 0x61 (List.replicate 8 0) } : Builder).build sampleWorld = some (.ok p) ∧
      Lists p (sampleTree 0x61) := by
  constructor
  · have gen : ∀ x : Option (Res HiveParser), (match x with | some .err => true | _ => false) = true → x = some .err := by
      intro x h
      split at h
      · rfl
      · cases h
    exact gen _ (by decide +kernel)
  · obtain ⟨bb, rest, h1, h2, h3, h4, _, h5⟩ := sampleHive_header 5 5 4485 0x61 (List.replicate 8 0) (by decide +kernel)
    obtain ⟨p, hp1, _, _, _, hp2⟩ := open_clean_lists sampleWorld { primary := sampleHive 5 5 4485 0x61 (List.replicate 8 0) }
      bb rest _ (by decide) rfl ⟨([], none), by decide +kernel⟩ h1 h2 (h3.trans h4.symm) h5
      (sampleHive_stored _ _ _ _ _ (.inl rfl))
    exact ⟨p, hp1, hp2⟩

/-- The hypotheses of `build_log_order`: two logs with different numbers. -/
example : (([sampleHeader 4 4 4096, sampleHeader 5 5 4096] : List Bytes).filterMap usableLog).Pairwise
    (fun a b => a.base.primarySeq ≠ b.base.primarySeq) := by
  have gen : ∀ n, (match BaseBlockBase.fromBytes (sampleHeader n n 4096) with
      | .ok (b, []) => decide (b.primarySeq = n) | _ => false) = true →
      (sampleHeader n n 4096).isEmpty = false →
      ∃ l, usableLog (sampleHeader n n 4096) = some l ∧ l.base.primarySeq = n := by
    intro n hh hne
    cases hb : BaseBlockBase.fromBytes (sampleHeader n n 4096) with
    | err => rw [hb] at hh; cases hh
    | panic => rw [hb] at hh; cases hh
    | ok x =>
      obtain ⟨base, r⟩ := x
      rw [hb] at hh
      cases r with
      | cons a r => cases hh
      | nil =>
        have hf := log_file_roundtrip _ base hb [] (fun _ h => absurd h List.not_mem_nil) []
          (by intro pos; rw [LogEntry.fromBytes.eq_def]; rfl)
        rw [show sampleHeader n n 4096 ++ (([] : List RawEntry).flatMap (·.encode) ++ []) = sampleHeader n n 4096 by simp] at hf
        have hp : base.primarySeq = n := of_decide_eq_true hh
        refine ⟨⟨base, sampleHeader n n 4096, expectedEntries 512 []⟩, ?_, hp⟩
        unfold usableLog
        rw [if_neg (fun h => by rw [h] at hne; cases hne), hf]
  obtain ⟨a, ha, ha'⟩ := gen 4 (by decide +kernel) (by decide +kernel)
  obtain ⟨b, hb, hb'⟩ := gen 5 (by decide +kernel) (by decide +kernel)
  rw [List.filterMap_cons_some ha, List.filterMap_cons_some hb]
  simp [ha', hb']

end Notatin
