import Verif.Lemmas.ScanMono
import Verif.Lemmas.SafeLogs
/-
Opening with recovery and logs comes to an end: from some number of rounds on, more rounds change nothing.
-/
namespace Notatin
open Spec

/-- From some number of rounds on, the result is `y`. -/
def Settles {α : Type} (f : Nat → α) (y : α) : Prop := ∃ N, ∀ s, N ≤ s → f s = y

theorem Settles.const {α : Type} (y : α) : Settles (fun _ => y) y := ⟨0, fun _ _ => rfl⟩

theorem Settles.max {α β : Type} {f : Nat → α} {g : Nat → β} {x : α} {y : β} (hf : Settles f x) (hg : Settles g y) :
    ∃ N, ∀ s, N ≤ s → f s = x ∧ g s = y := by
  obtain ⟨a, ha⟩ := hf
  obtain ⟨b, hb⟩ := hg
  exact ⟨Nat.max a b, fun s hs => ⟨ha s (Nat.le_trans (Nat.le_max_left a b) hs), hb s (Nat.le_trans (Nat.le_max_right a b) hs)⟩⟩

theorem list_settles (env : Env) {st : State} (hs : StateSafe env st) {x : Option Node} {ro : Nat}
    (hi : initRoot env st = .ok (x, ro)) (gm anc : Bool) :
    ∃ r, Settles (fun s => collect (nextPre env) s (.start { st with rootOffset := ro } x {} gm anc)) (some r) := by
  obtain ⟨_, i2⟩ := initRoot_safe_of env st hs
  obtain ⟨_, j2⟩ := i2 x ro hi
  obtain ⟨N, r, h, _⟩ := iteration_ends_partial env { st with rootOffset := ro } x {} gm anc (hs.at ro).del
    (fun r hr => (j2 r hr).1)
  exact ⟨r, N, fun s hN => collect_mono (fuelMono_pre env) _ _ _ _ h hN⟩

theorem getRegItems_settles (env : Env) {st : State} (hs : StateSafe env st) (seq : Nat) :
    ∃ r, Settles (fun s => getRegItems env s seq st) (some r) := by
  unfold getRegItems
  cases hi : initRoot env st with
  | err => exact ⟨_, .const _⟩
  | panic => exact ⟨_, .const _⟩
  | ok z =>
    obtain ⟨x, ro⟩ := z
    obtain ⟨r, N, h⟩ := list_settles env hs hi true false
    dsimp only at h
    simp only
    rcases r with ns | _ | _
    · cases hm : regItemsLoop seq (ns.flatMap seenOf) [] with
      | ok m => exact ⟨.ok (m, _), N, fun s hN => by dsimp only; simp only [h s hN, hm]; rfl⟩
      | err => exact ⟨.err, N, fun s hN => by dsimp only; simp only [h s hN, hm]⟩
      | panic => exact ⟨.panic, N, fun s hN => by dsimp only; simp only [h s hN, hm]⟩
    · exact ⟨_, N, fun s hN => by dsimp only; simp only [h s hN]; rfl⟩
    · exact ⟨_, N, fun s hN => by dsimp only; simp only [h s hN]; rfl⟩

theorem analyzeEntry_settles (prior env : Env) (order : RegItemMap → RegItemMap) (seq : Nat) (x : State × RegItemMap)
    (hs : StateSafe env x.1) : ∃ r, Settles (fun s => analyzeEntry prior env order s seq x) (some r) := by
  have key : ∃ r, Settles (fun s => getLatestRegItems prior env order s seq x.2 x.1) (some r) := by
    unfold getLatestRegItems
    cases hi : initRoot env x.1 with
    | err => exact ⟨_, .const _⟩
    | panic => exact ⟨_, .const _⟩
    | ok z =>
      obtain ⟨x, ro⟩ := z
      obtain ⟨r, N, h⟩ := list_settles env hs hi false false
      dsimp only at h
      simp only
      rcases r with ns | _ | _
      · exact ⟨_, N, fun s hN => by dsimp only; simp only [h s hN]; rfl⟩
      · exact ⟨_, N, fun s hN => by dsimp only; simp only [h s hN]; rfl⟩
      · exact ⟨_, N, fun s hN => by dsimp only; simp only [h s hN]; rfl⟩
  obtain ⟨r, N, h⟩ := key
  dsimp only at h
  unfold analyzeEntry
  rcases r with ⟨st, items, logs⟩ | _ | _
  · exact ⟨_, N, fun s hN => by dsimp only; simp only [h s hN]; rfl⟩
  · exact ⟨_, N, fun s hN => by dsimp only; simp only [h s hN]; rfl⟩
  · exact ⟨_, N, fun s hN => by dsimp only; simp only [h s hN]; rfl⟩

theorem analyze_settles (w : World) {B : Nat} (hd : B + 3 ≤ w.depth) (prior : Bytes) (seq : Nat) (new : Bytes)
    (r : Recovery) (hr : RecOk B r) (hn : r ≠ none) :
    ∃ r', r' ≠ none ∧ Settles (fun s => World.analyze { w with steps := s } true prior seq new r) r' := by
  rcases r with _ | x | _ | _
  · exact absurd rfl hn
  · unfold World.analyze
    simp only [if_true]
    obtain ⟨r', h⟩ := analyzeEntry_settles (w.env prior) (w.env new) w.order seq x
      ((hr.2 x rfl).1.1.safe (w.env new) hd)
    exact ⟨some r', by simp, h⟩
  · exact ⟨some Res.err, by simp, 0, fun _ _ => rfl⟩
  · exact ⟨some Res.panic, by simp, 0, fun _ _ => rfl⟩

/-- One step after the other. -/
theorem settles_ite {α : Type} {c : Prop} [Decidable c] {f g : Nat → α} (P : α → Prop)
    (hf : c → ∃ y, P y ∧ Settles f y) (hg : ¬ c → ∃ y, P y ∧ Settles g y) :
    ∃ y, P y ∧ Settles (fun s => if c then f s else g s) y := by
  by_cases h : c
  · simpa only [if_pos h] using hf h
  · simpa only [if_neg h] using hg h

theorem updateEntries_settles (w : World) (hord : ∀ m, (w.order m).Perm m) {B : Nat} (hd : B + 3 ≤ w.depth) {old : Bytes}
    {heads : List Bytes} {all : List LogEntry} (hc : Calm w B old heads all) (sec bins : Nat) (tail : List LogEntry) :
    ∀ (es done : List LogEntry) (x : ReplayState Recovery), (done ++ es ++ tail).Sublist all →
      Stage old heads done x.buffer → 4096 ≤ x.buffer.length → u32At x.buffer 40 = bins → RecOk B x.recovery →
      x.recovery ≠ none →
      ∃ y, (∀ z, y = Res.ok z → z.recovery ≠ none) ∧
        Settles (fun s => updateEntries (World.analyze { w with steps := s } true) 4096 sec bins es x) y := by
  intro es
  induction es with
  | nil =>
    intro done x _ _ _ _ _ hn
    exact ⟨.ok x, (by intro z hz; cases hz; exact hn), .const _⟩
  | cons e es ih =>
    intro done x hsub hst h4 hb hr hn
    have hskip : (done ++ es ++ tail).Sublist all := by
      refine List.Sublist.trans ?_ hsub
      exact List.Sublist.append_right (List.Sublist.append_left (List.sublist_cons_self e es) done) tail
    simp only [updateEntries]
    refine settles_ite _ (fun _ => settles_ite _ (fun _ => ?_) (fun _ => settles_ite _ (fun _ => ?_) (fun _ =>
      settles_ite _ (fun _ => ?_) (fun _ => settles_ite _ (fun _ => ?_) (fun _ => ?_))))) (fun _ => ?_)
    · exact ih done { x with info := x.info.add .WarningTransactionLog } hskip hst h4 hb hr hn
    · exact ⟨_, (by intro z hz; cases hz; exact hn), .const _⟩
    · exact ⟨_, (by intro z hz; cases hz), .const _⟩
    · exact ⟨_, (by intro z hz; cases hz; exact hn), .const _⟩
    · cases hap : applyEntry 4096 bins e x.buffer with
      | err => exact ⟨_, (by intro z hz; cases hz), .const _⟩
      | panic => exact ⟨_, (by intro z hz; cases hz), .const _⟩
      | ok buf =>
        simp only
        have hlow := applyEntry_low hap
        have hstage : Stage old heads (done ++ [e]) buf := by
          rcases Classical.em (pagesFit 4096 e.dirtyPages (x.buffer.length + (e.hiveBinsDataSize - bins))) with hf | hf
          · obtain ⟨b, hb1, hl, hp⟩ := (entry_effect 4096 bins e x.buffer).1 hf
            rw [hb1] at hap
            cases hap
            exact .write done x.buffer buf e hst (by rw [hb]; exact hl) hp
          · rw [(entry_effect 4096 bins e x.buffer).2 hf] at hap
            cases hap
        have hsub' : (done ++ [e] ++ es ++ tail).Sublist all := by simpa using hsub
        have hsubd : done.Sublist all := List.Sublist.trans (by simp) hsub
        have hsube : (done ++ [e]).Sublist all := List.Sublist.trans (by simp) hsub'
        obtain ⟨r', hn', N, hset⟩ := analyze_settles w hd (growBuffer bins e.hiveBinsDataSize x.buffer) e.seq buf x.recovery hr hn
        dsimp only at hset
        have hrec : RecOk B r' := by
          rw [← hset N (Nat.le_refl _)]
          obtain ⟨r1, r2⟩ := hr
          obtain ⟨c1, c2, c3⟩ := hc _ _ hsube hstage
          have hpo := orderly_grow bins e.hiveBinsDataSize (hc _ _ hsubd hst).1
          unfold World.analyze
          split
          · rename_i s z hz
            rw [if_pos rfl]
            exact analyzeEntry_fine { w with steps := N } hord hpo c1 c2 c3 hd e.seq z (r2 z hz)
          · exact ⟨r1, r2⟩
        obtain ⟨y, hy, M, hM⟩ := ih (done ++ [e]) { x with newSeq := e.seq, buffer := buf, recovery := r' } hsub' hstage
          (show 4096 ≤ buf.length from Nat.le_trans h4 hlow.1)
          (show u32At buf 40 = bins by rw [← hb]; exact u32At_low 40 (fun i hi => hlow.2 i (by omega) (by omega)))
          hrec hn'
        dsimp only at hM
        refine ⟨y, hy, Nat.max N M, fun s hs => ?_⟩
        have hs1 : N ≤ s := Nat.le_trans (Nat.le_max_left N M) hs
        have hs2 : M ≤ s := Nat.le_trans (Nat.le_max_right N M) hs
        dsimp only
        rw [hset s hs1]
        exact hM s hs2
    · exact ⟨_, (by intro z hz; cases hz; exact hn), .const _⟩

theorem applyLogs_settles (w : World) (hord : ∀ m, (w.order m).Perm m) {B : Nat} (hd : B + 3 ≤ w.depth) {old : Bytes}
    {heads : List Bytes} {all : List LogEntry} (hc : Calm w B old heads all) (sec : Nat) :
    ∀ (ls : List TransactionLog) (n : Nat) (done : List LogEntry) (h : Hive Recovery),
      (done ++ ls.flatMap (·.entries)).Sublist all → Stage old heads done h.buffer → h.Wf → RecOk B h.recovery →
      h.recovery ≠ none →
      ∃ y, (∀ z, y = Res.ok z → z.2.recovery ≠ none) ∧
        Settles (fun s => applyLogs (World.analyze { w with steps := s } true) sec ls n h) y := by
  intro ls
  induction ls with
  | nil => intro n done h _ _ _ _ hn; exact ⟨.ok (n, h), (by intro z hz; cases hz; exact hn), .const _⟩
  | cons l ls ih =>
    intro n done h hsub hst hw hr hn
    rw [List.flatMap_cons] at hsub
    have hskip : (done ++ ls.flatMap (·.entries)).Sublist all := by
      refine List.Sublist.trans ?_ hsub
      exact List.Sublist.append_left (List.sublist_append_right _ _) done
    simp only [applyLogs]
    refine settles_ite _ (fun _ => settles_ite _ (fun _ => ?_) (fun _ => settles_ite _ (fun _ => ?_) (fun _ => ?_))) (fun _ => ?_)
    · exact ⟨_, (by intro z hz; cases hz), .const _⟩
    · obtain ⟨y, hy, N, hN⟩ := updateEntries_settles w hord hd hc h.baseBlock.base.secondarySeq
        h.baseBlock.base.hiveBinsDataSize (ls.flatMap (·.entries)) l.entries
        done { newSeq := 0, buffer := h.buffer, info := h.info, recovery := h.recovery } (by simpa using hsub) hst hw.2.2
        (wf_bins hw).symm hr hn
      dsimp only at hN
      unfold updateParser
      rw [hw.2.1]
      rcases y with y | _ | _
      · obtain ⟨done', k1, k2, k3, k4, k5⟩ := updateEntries_fine { w with steps := N } hord hd hc _ _ (ls.flatMap (·.entries)) l.entries
          done _ y (by simpa using hsub) (by exact hst) hw.2.2 (wf_bins hw).symm (by exact hr) (hN N (Nat.le_refl _))
        have hlen : 4096 ≤ y.buffer.length := Nat.le_trans hw.2.2 k4
        obtain ⟨y', hy', M, hM⟩ := ih y.newSeq done' { h with buffer := y.buffer, hbinOffset := 4096, info := y.info, recovery := y.recovery } k1
          (by exact k2) ⟨(baseBlock_frame _ _ _ hw.1).2.2 y.buffer hlen k5, rfl, hlen⟩ (by exact k3) (by exact hy y rfl)
        refine ⟨y', hy', Nat.max N M, fun s hs => ?_⟩
        have hs1 : N ≤ s := Nat.le_trans (Nat.le_max_left N M) hs
        have hs2 : M ≤ s := Nat.le_trans (Nat.le_max_right N M) hs
        dsimp only
        rw [hN s hs1]
        exact hM s hs2
      · exact ⟨.err, (by intro z hz; cases hz), N, fun s hs => by dsimp only; simp only [hN s hs]⟩
      · exact ⟨.panic, (by intro z hz; cases hz), N, fun s hs => by dsimp only; simp only [hN s hs]⟩
    · exact ih n done { h with info := h.info.add .WarningTransactionLog } hskip hst hw hr hn
    · exact ih n done { h with info := h.info.add .WarningTransactionLog } hskip hst hw hr hn

theorem applyTransactionLogs_settles (w : World) (hord : ∀ m, (w.order m).Perm m) {B : Nat} (hd : B + 3 ≤ w.depth)
    {h : Hive Recovery} (hw : h.Wf) (hr : RecOk B h.recovery) (hn : h.recovery ≠ none) (bad : Bool) (logs : List TransactionLog)
    (hc : Calm w B h.buffer (logs.map (·.baseBlockBytes)) (logs.flatMap (·.entries))) :
    ∃ y, (∀ z, y = Res.ok z → z.recovery ≠ none) ∧
      Settles (fun s => applyTransactionLogs (World.analyze { w with steps := s } true)
        (World.initItems { w with steps := s } true) h bad logs) y := by
  unfold applyTransactionLogs
  refine settles_ite _ (fun _ => ⟨_, (by intro z hz; cases hz; exact hn), .const _⟩) (fun _ => ?_)
  cases hp : prepareLogs h bad logs with
  | err => exact ⟨.err, (by intro z hz; cases hz), .const _⟩
  | panic => exact ⟨.panic, (by intro z hz; cases hz), .const _⟩
  | ok y =>
    obtain ⟨b, h1, logs'⟩ := y
    obtain ⟨s1, s2, s3, s4⟩ := prepareLogs_stage hw bad hp
    rw [← s3] at hr hn
    cases b with
    | false => exact ⟨.ok h1, (by intro z hz; cases hz; exact hn), .const _⟩
    | true =>
      simp only
      obtain ⟨c1, c2, c3⟩ := hc [] h1.buffer (List.nil_sublist _) s1
      have hI : ∃ y, (∀ r, y = Res.ok r → r ≠ none ∧ RecOk B r) ∧
          Settles (fun s => World.initItems { w with steps := s } true h1.buffer h1.recovery) y := by
        cases hrc : h1.recovery with
        | none => exact absurd hrc hn
        | some r =>
          rw [hrc] at hr
          rcases r with z | _ | _
          · unfold World.initItems
            simp only [if_true]
            obtain ⟨r, N, hN⟩ := getRegItems_settles (w.env h1.buffer) ((hr.2 z rfl).1.1.safe (w.env h1.buffer) hd) 0
            obtain ⟨g1, g2⟩ := getRegItems_fine { w with steps := N } c1 c2 c3 hd 0 z.1 (hr.2 z rfl).1
            rw [show getRegItems (World.env { w with steps := N } h1.buffer) N 0 z.1 = some r from hN N (Nat.le_refl _)] at g1 g2
            rcases r with ⟨m, st⟩ | _ | _
            · refine ⟨.ok (some (.ok (st, m))), ?_, N, fun s hs => ?_⟩
              · intro r hr'
                cases hr'
                exact ⟨by simp, by simp, by intro x hx; cases hx; exact g2 _ _ rfl⟩
              · dsimp only; rw [show getRegItems (World.env { w with steps := s } h1.buffer) s 0 z.1 = _ from hN s hs]
            · refine ⟨.err, (by intro r hr'; cases hr'), N, fun s hs => ?_⟩
              dsimp only; rw [show getRegItems (World.env { w with steps := s } h1.buffer) s 0 z.1 = _ from hN s hs]
            · exact absurd rfl g1
          · exact ⟨.ok (some .err), (by intro r hr'; cases hr'; exact ⟨by simp, hr⟩), .const _⟩
          · exact absurd rfl hr.1
      obtain ⟨y, hy, N, hN⟩ := hI
      dsimp only at hN
      rcases y with r | _ | _
      · obtain ⟨n1, r1⟩ := hy r rfl
        obtain ⟨y', hy', M, hM⟩ := applyLogs_settles w hord hd hc h1.baseBlock.base.secondarySeq logs' 0 []
          { h1 with recovery := r } (by simpa using s4) s1 s2 r1 n1
        dsimp only at hM
        have both : ∀ s, Nat.max N M ≤ s → _ ∧ _ := fun s hs =>
          And.intro (hN s (Nat.le_trans (Nat.le_max_left N M) hs)) (hM s (Nat.le_trans (Nat.le_max_right N M) hs))
        rcases y' with ⟨k, h3⟩ | _ | _
        · refine ⟨updateHeader h3 k, ?_, Nat.max N M, fun s hs => ?_⟩
          · intro z hz
            rw [(updateHeader_kept hz).1]
            exact hy' _ rfl
          · dsimp only; rw [(both s hs).1]
            simp only
            rw [(both s hs).2]
        · refine ⟨.err, (by intro z hz; cases hz), Nat.max N M, fun s hs => ?_⟩
          dsimp only; rw [(both s hs).1]
          simp only
          rw [(both s hs).2]
        · refine ⟨.panic, (by intro z hz; cases hz), Nat.max N M, fun s hs => ?_⟩
          dsimp only; rw [(both s hs).1]
          simp only
          rw [(both s hs).2]
      · exact ⟨.err, (by intro z hz; cases hz), N, fun s hs => by dsimp only; simp only [hN s hs]⟩
      · exact ⟨.panic, (by intro z hz; cases hz), N, fun s hs => by dsimp only; simp only [hN s hs]⟩

theorem scan_settles (w : World) (buf : Bytes) (hd : buf.length < 24 * w.depth) (bb : BaseBlock) :
    ∃ y, y ≠ .ok none ∧ Settles (fun s => World.scan { w with steps := s } true buf bb (some (.ok ({}, [])))) y := by
  unfold World.scan
  simp only [if_true]
  obtain ⟨r, hr, _⟩ := recover_terminates_partial (w.env buf) hd bb.base.hiveBinsDataSize (buf.length + 1) (Nat.lt_succ_self _) {}
  have hset : ∀ s, buf.length + 1 ≤ s →
      initRecoverDeleted (World.env { w with steps := s } buf) s bb.base.hiveBinsDataSize {} = some r :=
    fun s hs => scanBins_before _ _ _ _ hs _ _ r hr
  rcases r with st | _ | _
  · exact ⟨.ok (some (.ok (st, []))), by simp, buf.length + 1, fun s hs => by dsimp only; simp only [hset s hs]⟩
  · exact ⟨.err, by simp, buf.length + 1, fun s hs => by dsimp only; simp only [hset s hs]⟩
  · exact ⟨.panic, by simp, buf.length + 1, fun s hs => by dsimp only; simp only [hset s hs]⟩

end Notatin
