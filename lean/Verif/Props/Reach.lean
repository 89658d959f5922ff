import Verif.Lemmas.ReachPost
/-
C89: whatever a file holds, every key that can be reached is listed, and a filter only takes keys away.
-/
namespace Notatin
open Spec

/-- The full claim of C89, of a list of keys: every key that can be reached is in it, and no one is in it twice. -/
def ListsAll (buf : Bytes) (levels : Nat) (ns : List Node) : Prop :=
  (∀ x, WidelyReachable buf levels x → ∃ n ∈ ns, n.key.cellState = .Allocated ∧ n.key.fileOffset = x) ∧
    (liveOffs ns).Nodup

theorem leadsTo_kidAt {w : World} {buf : Bytes} {o y : Nat} (h : LeadsTo buf w.depth o y) : KidAt (w.env buf) o y := by
  obtain ⟨h1, h2, ⟨keys, h3, h4, h5⟩, h6⟩ := h
  exact ⟨h1, h2, ⟨keys, sub_key_list_partial (w.env buf).fi _ _ _ h3 h4, h5⟩, h6⟩

/-- What an opened hive starts from. -/
theorem built_init (w : World) (b : Builder) (p : HiveParser) (h : b.build w = some (.ok p)) (hroot : p.root ≠ none) :
    p.env = w.env p.env.fi.buffer ∧ ∃ st ro r, p.state = { st with rootOffset := ro } ∧ p.root = some r ∧
      initRoot p.env st = .ok (some r, ro) := by
  unfold Builder.build at h
  split at h
  · cases h
  · cases h
  · rename_i logs warn hlogs
    split at h
    · cases h
    · cases h
    · rename_i sup hv ho
      have hoff : hv.hbinOffset = 4096 := openHive_hbin _ _ _ _ _ _ _ _ ho
      split at h
      · cases h
      · cases h
      · cases h
      · rename_i st items hr
        simp only at h
        cases sup with
        | false => cases h; exact absurd rfl hroot
        | true =>
          simp only [if_true] at h
          split at h
          · cases h
          · cases h
          · rename_i root ro hi
            cases h
            cases root with
            | none => exact absurd rfl hroot
            | some r => exact ⟨by unfold World.env; rw [hoff], _, ro, r, rfl, rfl, hi⟩

/-- The root of an opened hive, as it is in its cell. -/
theorem built_atCell (w : World) (b : Builder) (p : HiveParser) (h : b.build w = some (.ok p)) (hroot : p.root ≠ none)
    (hdel : StateDel p.state) :
    p.env = w.env p.env.fi.buffer ∧ ∃ r, p.root = some r ∧ r.key.fileOffset = 4128 ∧ r.key.cellState = .Allocated ∧
      AtCell p.env r := by
  obtain ⟨h1, st, ro, r, h2, h3, h4⟩ := built_init w b p h hroot
  rw [h2] at hdel
  obtain ⟨g1, g2, g3, _⟩ := initRoot_atCell p.env st hdel (by rw [h1]; rfl) r ro h4
  exact ⟨h1, r, h3, g1, g2, g3⟩

/-- What is listed without a filter: the root, and with every key all its sub-keys. -/
theorem listed_closed (w : World) (b : Builder) (p : HiveParser) (h : b.build w = some (.ok p)) (hroot : p.root ≠ none)
    (hdel : StateDel p.state) (steps : Nat) (gm anc : Bool) (ns : List Node)
    (hi : p.iterate steps {} false gm anc = some (.ok ns)) :
    4128 ∈ liveOffs ns ∧ (∀ x y, x ∈ liveOffs ns → KidAt p.env x y → y ∈ liveOffs ns) ∧ (liveOffs ns).Nodup := by
  obtain ⟨h1, r, h2, h3, h4, h5⟩ := built_atCell w b p h hroot hdel
  replace hi : collect (nextPre p.env) steps (.start p.state p.root {} gm anc) = some (.ok ns) := hi
  have hnd : (liveOffs ns).Nodup := by
    obtain ⟨s2, res, g1, _, g3⟩ := iteration_ends_partial p.env p.state p.root {} gm anc hdel
      (fun q hq => by rw [h2] at hq; cases hq; exact h5.del)
    refine g3 ns ?_
    have e1 := collect_mono (fuelMono_pre p.env) _ (max steps s2) _ _ hi (by omega)
    have e2 := collect_mono (fuelMono_pre p.env) _ (max steps s2) _ _ g1 (by omega)
    rw [e1] at e2
    cases e2
    rfl
  rw [h2] at hi
  obtain ⟨k1, k2⟩ := collect_reaches p.env steps (.start p.state (some r) {} gm anc) ns (fun _ => False) hdel rfl
    (by intro n hn; cases List.mem_singleton.1 hn; exact h5)
    (by
      intro x hx
      cases List.mem_singleton.1 hx
      exact .inl (mem_liveOffs.2 ⟨r, List.mem_singleton.2 rfl, h4, rfl⟩))
    (by intro n hn _; cases List.mem_singleton.1 hn; exact List.mem_singleton.2 rfl)
    (by intro x hx; cases hx) hi
  refine ⟨?_, ?_, hnd⟩
  · rcases k1 4128 (by show 4128 ∈ [r.key.fileOffset]; rw [h3]; exact List.mem_singleton.2 rfl) with hx | hx
    · cases hx
    · exact hx
  · intro x y hx hk
    rcases k2 x y (.inr hx) hk with hy | hy
    · cases hy
    · exact hy

/-- C89 for a hive opened in any way, as long as nothing that is in use is on record as deleted. -/
theorem reach_open (w : World) (b : Builder) (p : HiveParser) (h : b.build w = some (.ok p)) (hroot : p.root ≠ none)
    (hdel : StateDel p.state) (steps : Nat) (gm anc : Bool) (ns : List Node)
    (hi : p.iterate steps {} false gm anc = some (.ok ns)) :
    (∀ x, Reachable p.env.fi.buffer w.depth x → ∃ n ∈ ns, n.key.cellState = .Allocated ∧ n.key.fileOffset = x) ∧
    (liveOffs ns).Nodup ∧
    ∀ (f : Filter) (steps' : Nat) (gm' anc' : Bool) (ms : List Node), p.iterate steps' f false gm' anc' = some (.ok ms) →
      ∀ m ∈ ms, m.key.cellState = .Allocated →
        ∃ n ∈ ns, n.key.cellState = .Allocated ∧ n.key.fileOffset = m.key.fileOffset := by
  obtain ⟨c1, c2, c3⟩ := listed_closed w b p h hroot hdel steps gm anc ns hi
  obtain ⟨h1, r, h2, h3, h4, h5⟩ := built_atCell w b p h hroot hdel
  refine ⟨fun x hx => ?_, c3, fun f steps' gm' anc' ms hm m hmm ha => ?_⟩
  · rw [← mem_liveOffs]
    induction hx with
    | root => exact c1
    | step _ hl ih => exact c2 _ _ ih (by rw [h1]; exact leadsTo_kidAt hl)
  · rw [← mem_liveOffs]
    replace hm : collect (nextPre p.env) steps' (.start p.state p.root f gm' anc') = some (.ok ms) := hm
    rw [h2] at hm
    refine collect_within p.env (· ∈ liveOffs ns) c2 steps' _ ms hdel ?_ hm m hmm ha
    intro n hn
    cases List.mem_singleton.1 hn
    exact ⟨h5, fun _ => by rw [Option.getD_some, h3]; exact c1⟩

/-- C89, the other order: without a filter the same keys are listed in both orders, each once. -/
theorem both_orders_open (w : World) (b : Builder) (p : HiveParser) (h : b.build w = some (.ok p)) (hroot : p.root ≠ none)
    (hdel : StateDel p.state) (steps steps' : Nat) (gm gm' anc anc' : Bool) (ns ms : List Node)
    (hi : p.iterate steps {} false gm anc = some (.ok ns)) (hj : p.iterate steps' {} true gm' anc' = some (.ok ms)) :
    (liveOffs ms).Perm (liveOffs ns) := by
  obtain ⟨c1, c2, c3⟩ := listed_closed w b p h hroot hdel steps gm anc ns hi
  obtain ⟨h1, st, ro, r, h2, h3, h4⟩ := built_init w b p h hroot
  obtain ⟨g1, g2, g3, _⟩ := initRoot_atCell p.env st (by rw [h2] at hdel; exact hdel) (by rw [h1]; rfl) r ro h4
  have g4 : r.key.filterState ≠ some .None := by
    unfold initRoot at h4
    split at h4
    · cases h4
    · split at h4
      · cases h4
      · rw [readKey_unmarked _ _ _ _ none (.inl rfl) _ _ _ r ro h4]
        simp
  replace hj : collect (nextPost p.env) steps' (.start p.state p.root {} gm' anc') = some (.ok ms) := hj
  replace hi : collect (nextPre p.env) steps (.start p.state p.root {} gm anc) = some (.ok ns) := hi
  rw [h3] at hj hi
  have hlive : liveOffs [r] = [4128] := by rw [liveOffs_cons, if_pos g2, g1]; rfl
  have hseen : (IterCtx.start p.state (some r) {} gm' anc').seen = [4128] := by
    show [r.key.fileOffset] = _; rw [g1]
  have hstk : liveOffs (IterCtx.start p.state (some r) {} gm' anc').stack ++
      (liveOffs (IterCtx.start p.state (some r) {} gm' anc').ret ++ []) = [4128] := by
    show liveOffs [r] ++ ([] ++ []) = _; rw [hlive]; rfl
  have hinv : PostInv p.env (· ∈ liveOffs ns) (.start p.state (some r) {} gm' anc') [] := by
    refine ⟨hdel, rfl, ?_, ?_, ?_, ?_, ?_, ?_, ?_, ?_⟩
    · intro n hn
      cases List.mem_singleton.1 hn
      exact g3
    · intro n hn
      cases List.mem_singleton.1 hn
      exact g4
    · intro n hn
      cases hn
    · intro x hx
      rw [hstk]
      rw [hseen] at hx
      exact hx
    · intro x hx
      rw [hseen]
      rw [hstk] at hx
      exact hx
    · intro x hx
      cases hx
    · rw [hstk]
      simp
    · intro x hx
      rw [hseen] at hx
      cases List.mem_singleton.1 hx
      exact c1
  obtain ⟨E, e1, e2, e3, e4, e5⟩ := collect_post p.env (· ∈ liveOffs ns) c2 steps' _ [] ms hinv hj
  rw [List.append_nil] at e1
  refine (List.perm_ext_iff_of_nodup (e1.nodup_iff.1 e2) c3).2 fun x => ⟨fun hx => e4 x (e1.mem_iff.2 hx), fun hx => ?_⟩
  obtain ⟨n, hn, ha, rfl⟩ := mem_liveOffs.1 hx
  rw [← e1.mem_iff]
  refine collect_within p.env (· ∈ E) (fun o y ho hk => e5 o ho y hk) steps _ ns hdel ?_ hi n hn ha
  intro m hm
  cases List.mem_singleton.1 hm
  exact ⟨g3, fun _ => e3 _ (List.mem_singleton.2 rfl)⟩

theorem plain_stateDel (w : World) (b : Builder) (p : HiveParser) (hrec : b.recover = false)
    (h : b.build w = some (.ok p)) (hroot : p.root ≠ none) : StateDel p.state := by
  obtain ⟨_, h2, _, _⟩ := built_plain w b p hrec h hroot
  intro q ds hq
  have := h2.1 q
  rw [hq] at this
  cases this

/-- C89, partial: a hive opened without recovery, with or without logs, whatever its bytes.  The listing holds every key
that can be reached over lists that are in order, none of them twice, and what is listed with a filter is listed
without one.  Missing: lists of which only a part is in order (`broken_leaf_violated`), listings that crash (C08), and
the other order of listing. -/
theorem reach_listed_partial (w : World) (b : Builder) (p : HiveParser) (hrec : b.recover = false)
    (h : b.build w = some (.ok p)) (hroot : p.root ≠ none) (steps : Nat) (gm anc : Bool) (ns : List Node)
    (hi : p.iterate steps {} false gm anc = some (.ok ns)) :
    (∀ x, Reachable p.env.fi.buffer w.depth x → ∃ n ∈ ns, n.key.cellState = .Allocated ∧ n.key.fileOffset = x) ∧
    (liveOffs ns).Nodup ∧
    ∀ (f : Filter) (steps' : Nat) (gm' anc' : Bool) (ms : List Node), p.iterate steps' f false gm' anc' = some (.ok ms) →
      ∀ m ∈ ms, m.key.cellState = .Allocated →
        ∃ n ∈ ns, n.key.cellState = .Allocated ∧ n.key.fileOffset = m.key.fileOffset := by
  exact reach_open w b p h hroot (plain_stateDel w b p hrec h hroot) steps gm anc ns hi

/-- C89, partial: the same with recovery, for files whose log entries, if there are any, leave every state of the file
orderly. -/
theorem reach_recovered_partial (w : World) (hord : ∀ m, (w.order m).Perm m) (b : Builder) (p : HiveParser)
    (hrec : b.recover = true) (hs : b.primary.length < w.steps) (hl : ∀ f ∈ b.logs, SaneLog f)
    (hc : (b.primary.length < 24 * w.depth ∧ (b.logs = [] ∨ CleanHeader b.primary)) ∨
      ∀ logs warn, TransactionLog.parse b.logs = .ok (logs, warn) → CalmStages b.primary logs w.depth)
    (h : b.build w = some (.ok p)) (hroot : p.root ≠ none) (steps : Nat) (gm anc : Bool) (ns : List Node)
    (hi : p.iterate steps {} false gm anc = some (.ok ns)) :
    (∀ x, Reachable p.env.fi.buffer w.depth x → ∃ n ∈ ns, n.key.cellState = .Allocated ∧ n.key.fileOffset = x) ∧
    (liveOffs ns).Nodup ∧
    ∀ (f : Filter) (steps' : Nat) (gm' anc' : Bool) (ms : List Node), p.iterate steps' f false gm' anc' = some (.ok ms) →
      ∀ m ∈ ms, m.key.cellState = .Allocated →
        ∃ n ∈ ns, n.key.cellState = .Allocated ∧ n.key.fileOffset = m.key.fileOffset := by
  refine reach_open w b p h hroot ?_ steps gm anc ns hi
  rcases hc with ⟨hd, hn⟩ | hc
  · obtain ⟨r, e1, _, e3⟩ := build_scan_safe w b hrec hd hs hl hn
    rw [h] at e1
    cases e1
    exact (e3 p rfl).1.state.del
  · exact ((build_logs_safe w hord b hrec hs hl hc).2 p h).state.del

/-- Without logs and recovery, what is listed is read from the file itself. -/
theorem build_buffer (w : World) (b : Builder) (p : HiveParser) (hrec : b.recover = false) (hlogs : b.logs = [])
    (h : b.build w = some (.ok p)) : p.env.fi.buffer = b.primary := by
  have hp : TransactionLog.parse [] = .ok ([], none) := by decide +kernel
  have key : ∀ sup hv, openHive (w.analyze false) (w.initItems false) (w.scan false) b.primary (some (.ok ({}, []))) [] =
      .ok (sup, hv) → hv.buffer = b.primary := by
    intro sup hv ho
    cases hb : BaseBlock.fromBytes b.primary with
    | panic => exact absurd hb (baseBlock_no_panic _)
    | err => unfold openHive initBaseBlock at ho; rw [hb] at ho; cases ho
    | ok x =>
      obtain ⟨bb, rest⟩ := x
      by_cases hu : bb.base.fileType = .unknown
      · obtain ⟨info, e⟩ := open_unsupported (w.analyze false) (w.initItems false) (w.scan false) b.primary (some (.ok ({}, []))) [] bb rest hb hu
        rw [e] at ho
        cases ho
        rfl
      · obtain ⟨info, e, _⟩ := open_no_logs (w.analyze false) (w.initItems false) (w.scan false) b.primary (some (.ok ({}, [])))
          (some (.ok ({}, []))) bb rest hb hu (by rw [scan_false])
        rw [e] at ho
        cases ho
        rfl
  unfold Builder.build at h
  rw [hrec, hlogs, hp] at h
  simp only at h
  split at h
  · cases h
  · cases h
  · rename_i sup hv ho
    have := key _ _ ho
    split at h
    · cases h
    · cases h
    · cases h
    · cases sup with
      | false => cases h; exact this
      | true =>
        simp only [if_true] at h
        split at h
        · cases h
        · cases h
        · cases h; exact this

/-- The keys of the file with these bins behind the header. -/
def reachBuf (list rest : Bytes) (n total : Nat) : Bytes :=
  histPre ++ (hbinBytes 0 total 0 0 0 0 ++ (histRoot n).encode ++ list ++ rest)

theorem reach_at (list rest : Bytes) (n total : Nat)
    (hlen : (histPre ++ (hbinBytes 0 total 0 0 0 0 ++ (histRoot n).encode)).length = 4210) :
    At (reachBuf list rest n total) 4210 list :=
  ⟨histPre ++ (hbinBytes 0 total 0 0 0 0 ++ (histRoot n).encode), rest,
    by unfold reachBuf; simp only [List.append_assoc], hlen⟩

/-- The list of the root names what is behind the end of the file, the root itself, and the key `a`. -/
def tangledBuilder : Builder :=
  { primary := reachBuf (leafCell .lf (-32) [(61440, [0, 0, 0, 0]), (32, [0, 0, 0, 0]), (146, [0, 0, 0, 0])])
      (histA 0 1).encode 3 227 }

/-- C89, partial: without recovery, both orders of listing give the same keys, each once, whatever the bytes.  Missing:
recovery (`both_orders_open` says what is needed), and listings that crash. -/
theorem both_orders_partial (w : World) (b : Builder) (p : HiveParser) (hrec : b.recover = false)
    (h : b.build w = some (.ok p)) (hroot : p.root ≠ none) (steps steps' : Nat) (gm gm' anc anc' : Bool)
    (ns ms : List Node) (hi : p.iterate steps {} false gm anc = some (.ok ns))
    (hj : p.iterate steps' {} true gm' anc' = some (.ok ms)) : (liveOffs ms).Perm (liveOffs ns) ∧ (liveOffs ms).Nodup := by
  have hd := plain_stateDel w b p hrec h hroot
  have hp := both_orders_open w b p h hroot hd steps steps' gm gm' anc anc' ns ms hi hj
  exact ⟨hp, hp.nodup_iff.2 (listed_closed w b p h hroot hd steps gm anc ns hi).2.2⟩

/-- C89, partial: for every file, every root key, every filter and everything on record that is not in use, the
post-order listing comes to an end and no call fails; it does not crash when reading sub-keys does not (as the
pre-order listing, `iteration_ends_partial`).  Missing: reading sub-keys can crash (C08, C42). -/
theorem post_order_ends_partial (env : Env) (st : State) (root : Option Node) (filter : Filter) (gm anc : Bool)
    (hst : StateDel st) (hroot : ∀ r, root = some r → DelOk r) :
    ∃ steps res, collect (nextPost env) steps (.start st root filter gm anc) = some res ∧ res ≠ .err ∧
      (KidsSafe env st filter gm → res ≠ .panic) := by
  obtain ⟨res, ⟨steps, h1⟩, h2, h3⟩ := post_ends env _ _ _ (.start st root filter gm anc) rfl rfl rfl
    (start_inv st root filter gm anc hst hroot)
  exact ⟨steps, res, h1, h2, h3⟩

/-- The list of the root has two leaves; the second one is behind the end of the file. -/
def brokenBuilder : Builder :=
  { primary := reachBuf (riCell (-16) [130, 61440])
      (leafCell .lf (-16) [(146, [0, 0, 0, 0])] ++ (histA 0 1).encode) 1 227 }

theorem tangled_opens : (match tangledBuilder.build roomyWorld with
    | some (.ok p) => p.root.isSome &&
      (match p.iterate 1000 {} false true false with | some (.ok ns) => decide (liveOffs ns = [4128, 4242]) | _ => false)
    | _ => false) = true := by
  decide +kernel

theorem tangled_reach : Reachable tangledBuilder.primary roomyWorld.depth 4242 := by
  have hnum : u32At tangledBuilder.primary (4128 + 24) = 3 ∧ u32At tangledBuilder.primary (4128 + 32) = 114 ∧
      KeyReadable (tangledBuilder.primary.drop 4242) := by decide +kernel
  refine .step .root ⟨by rw [hnum.1]; omega, by rw [hnum.1]; omega, ⟨[61440 + 4096, 32 + 4096, 146 + 4096], ?_, by decide,
    by decide⟩, hnum.2.2⟩
  rw [hnum.2.1]
  refine .inl ⟨.lf, -32, [(61440, [0, 0, 0, 0]), (32, [0, 0, 0, 0]), (146, [0, 0, 0, 0])], by decide, by decide, by decide,
    reach_at _ _ _ _ (by decide +kernel), rfl⟩

/-- The key `a` of the tangled file can be reached and is listed. -/
example : ∃ p ns, tangledBuilder.build roomyWorld = some (.ok p) ∧ p.root ≠ none ∧
    p.iterate 1000 {} false true false = some (.ok ns) ∧ Reachable p.env.fi.buffer roomyWorld.depth 4242 ∧
    ∃ n ∈ ns, n.key.cellState = .Allocated ∧ n.key.fileOffset = 4242 := by
  have h := tangled_opens
  split at h
  · rename_i p hp
    rw [Bool.and_eq_true_iff] at h
    obtain ⟨h2, h3⟩ := h
    have h1 := build_buffer _ _ _ rfl rfl hp
    split at h3
    · rename_i ns hi
      have hroot : p.root ≠ none := by intro e; rw [e] at h2; cases h2
      have hre : Reachable p.env.fi.buffer roomyWorld.depth 4242 := by rw [h1]; exact tangled_reach
      exact ⟨p, ns, hp, hroot, hi, hre,
        (reach_listed_partial roomyWorld tangledBuilder p rfl hp hroot 1000 true false ns hi).1 4242 hre⟩
    · cases h3
  · cases h

theorem tangled_post : (match tangledBuilder.build roomyWorld with
    | some (.ok p) => p.root.isSome &&
      (match p.iterate 1000 {} false true false, p.iterate 1000 {} true true false with
        | some (.ok _), some (.ok ms) => decide (liveOffs ms = [4242, 4128])
        | _, _ => false)
    | _ => false) = true := by
  decide +kernel

/-- The tangled file in both orders. -/
example : ∃ p ns ms, tangledBuilder.build roomyWorld = some (.ok p) ∧ p.root ≠ none ∧
    p.iterate 1000 {} false true false = some (.ok ns) ∧ p.iterate 1000 {} true true false = some (.ok ms) ∧
    liveOffs ms = [4242, 4128] ∧ (liveOffs ms).Perm (liveOffs ns) := by
  have h := tangled_post
  split at h
  · rename_i p hp
    rw [Bool.and_eq_true_iff] at h
    obtain ⟨h2, h3⟩ := h
    split at h3
    · rename_i ns ms hi hj
      have hroot : p.root ≠ none := by intro e; rw [e] at h2; cases h2
      exact ⟨p, ns, ms, hp, hroot, hi, hj, of_decide_eq_true h3,
        (both_orders_partial roomyWorld tangledBuilder p rfl hp hroot 1000 1000 true true false false ns ms hi hj).1⟩
    · cases h3
  · cases h

/-- The hypotheses of `post_order_ends_partial`, of the tangled file. -/
example : ∃ steps res, collect (nextPost (roomyWorld.env tangledBuilder.primary)) steps
    (.start {} none {} true false) = some res ∧ res ≠ .err :=
  let ⟨s, r, h1, h2, _⟩ := post_order_ends_partial (roomyWorld.env tangledBuilder.primary) {} none {} true false
    (fun _ _ h => by cases h) (fun _ h => by cases h)
  ⟨s, r, h1, h2⟩

theorem hist_listed : (match histBuilder.build roomyWorld with
    | some (.ok p) => p.root.isSome &&
      (match p.iterate 1000 {} false true false with | some (.ok ns) => decide (liveOffs ns = [4128, 4226]) | _ => false)
    | _ => false) = true := by
  decide +kernel

/-- The hypotheses of `reach_recovered_partial`: a log that takes a key away. -/
example : ∃ p ns, histBuilder.build roomyWorld = some (.ok p) ∧ p.root ≠ none ∧
    p.iterate 1000 {} false true false = some (.ok ns) ∧ liveOffs ns = [4128, 4226] ∧
    ∀ x, Reachable p.env.fi.buffer roomyWorld.depth x → x = 4128 ∨ x = 4226 := by
  have h := hist_listed
  split at h
  · rename_i p hp
    rw [Bool.and_eq_true_iff] at h
    obtain ⟨h2, h3⟩ := h
    split at h3
    · rename_i ns hi
      have hroot : p.root ≠ none := by intro e; rw [e] at h2; cases h2
      have hl := of_decide_eq_true h3
      refine ⟨p, ns, hp, hroot, hi, hl, fun x hx => ?_⟩
      have := mem_liveOffs.2 ((reach_recovered_partial roomyWorld (fun m => List.Perm.refl m) histBuilder p rfl hist_short
        hist_sane (.inr (hist_calm 5000 (by decide))) hp hroot 1000 true false ns hi).1 x hx)
      rw [hl] at this
      simpa using this
    · cases h3
  · cases h

theorem broken_opens : (match brokenBuilder.build roomyWorld with
    | some (.ok p) =>
      (match p.iterate 1000 {} false true false with | some (.ok ns) => decide (liveOffs ns = [4128]) | _ => false)
    | _ => false) = true := by
  decide +kernel

theorem broken_reach : WidelyReachable brokenBuilder.primary roomyWorld.depth 4242 := by
  have hnum : u32At brokenBuilder.primary (4128 + 24) = 1 ∧ u32At brokenBuilder.primary (4128 + 32) = 114 ∧
      KeyReadable (brokenBuilder.primary.drop 4242) := by decide +kernel
  refine .step .root (by rw [hnum.1]; omega) (by rw [hnum.1]; omega) ?_ (by omega) hnum.2.2
  rw [hnum.2.1]
  refine .inr ⟨-16, [130, 61440], by decide, by decide, by decide, reach_at _ _ _ _ (by decide +kernel), 130,
    List.mem_cons_self, .inl ⟨.lf, -16, [(146, [0, 0, 0, 0])], by decide, by decide, by decide, ?_, _,
      List.mem_singleton.2 rfl, rfl⟩⟩
  refine ⟨histPre ++ (hbinBytes 0 227 0 0 0 0 ++ (histRoot 1).encode ++ riCell (-16) [130, 61440]), (histA 0 1).encode,
    ?_, by decide +kernel⟩
  show reachBuf _ _ _ _ = _
  unfold reachBuf
  simp only [List.append_assoc]

/-- C89, violated: one leaf of a list of sub-keys is missing.  The sub-keys named by the other leaves can be read, but
none of them is listed. -/
theorem broken_leaf_violated : ∃ p ns, brokenBuilder.build roomyWorld = some (.ok p) ∧
    p.iterate 1000 {} false true false = some (.ok ns) ∧ WidelyReachable p.env.fi.buffer roomyWorld.depth 4242 ∧
    liveOffs ns = [4128] ∧ ¬ ListsAll p.env.fi.buffer roomyWorld.depth ns := by
  have h := broken_opens
  split at h
  · rename_i p hp
    have h1 := build_buffer _ _ _ rfl rfl hp
    have h3 := h
    split at h3
    · rename_i ns hi
      have hre : WidelyReachable p.env.fi.buffer roomyWorld.depth 4242 := by rw [h1]; exact broken_reach
      have hl := of_decide_eq_true h3
      refine ⟨p, ns, hp, hi, hre, hl, fun hall => ?_⟩
      have := mem_liveOffs.2 (hall.1 4242 hre)
      rw [hl] at this
      revert this
      decide
    · cases h3
  · cases h

end Notatin
