import Verif.Props.Reach
/-
C83 and C89: listing in post-order does not crash, and what both listings of a sane file hold.
-/
namespace Notatin
open Spec

/-- A round of either iteration. -/
theorem round_safe (env : Env) (rn : Str) (c : Nat)
    (hc : ∀ rest, getRootPathOffset (asciiLower ('\\' :: rn ++ '\\' :: rest)) = c ∧
      c ≠ 0 ∧ dropBytes c (asciiLower ('\\' :: rn ++ '\\' :: rest)) ≠ none)
    (hlists : ∀ o, slice env.fi.buffer (o + 4) 2 = [0x6E, 0x6B] → 0 < u32At env.fi.buffer (o + 24) →
      u32At env.fi.buffer (o + 24) ≤ 1048576 →
      parseSubKeyList env.fi env.depth (u32At env.fi.buffer (o + 32)) ≠ .panic)
    (ctx : IterCtx) (h : CtxSafe env rn c ctx) (node : Node) (rest : List Node) (hs : ctx.stack = node :: rest) :
    pushKids env { ctx with stack := rest } node ≠ .panic ∧
      ∀ n' ctx', pushKids env { ctx with stack := rest } node = .ok (n', ctx') →
        CtxSafe env rn c (pushDeleted n' ctx').2 := by
  have hn : NodeSafe env rn node := h.stack node (by rw [hs]; exact List.mem_cons_self)
  have h0 : CtxSafe env rn c { ctx with stack := rest } :=
    ⟨h.state, h.ro, fun m hm => h.stack m (by rw [hs]; exact List.mem_cons_of_mem _ hm)⟩
  have hkids : pushKids env { ctx with stack := rest } node ≠ .panic ∧
      ∀ n' ctx', pushKids env { ctx with stack := rest } node = .ok (n', ctx') → CtxSafe env rn c ctx' ∧ DelOk n' := by
    unfold pushKids
    by_cases hk : 0 < node.key.nSubKeys
    · rw [if_pos hk]
      obtain ⟨r1, r2⟩ := readSubKeysInternal_safe env ctx.state rn c hc hlists h.state h.ro node hn
        ctx.filter ctx.getModified
      simp only
      cases hr : readSubKeysInternal env ctx.state node ctx.filter none ctx.getModified with
      | err => exact ⟨by simp, by intro n' ctx' he; cases he⟩
      | panic => exact absurd hr r1
      | ok r =>
        obtain ⟨q1, q2, q3⟩ := r2 r hr
        refine ⟨by simp, ?_⟩
        intro n' ctx' he
        cases he
        refine ⟨foldl_pushCheck_safe env rn c _ _ ⟨h.state.at _, q1, h0.stack⟩
          (fun m hm => q2 m (List.mem_reverse.1 hm)), ?_⟩
        cases hself : r.self with
        | mk k vs ds => rw [hself] at q3; exact q3
    · rw [if_neg hk]
      exact ⟨by simp, by intro n' ctx' he; cases he; exact ⟨h0, hn.plain⟩⟩
  refine ⟨hkids.1, fun n' ctx1 hp => ?_⟩
  obtain ⟨g1, g2⟩ := hkids.2 n' ctx1 hp
  refine ⟨g1.state, g1.ro, ?_⟩
  intro m hm
  rcases List.mem_append.1 hm with hm | hm
  · obtain ⟨d, hd, rfl⟩ := List.mem_map.1 (List.mem_reverse.1 hm)
    exact recovered_safe (inheritFilterState_allDel _ d (g2 d hd))
  · exact g1.stack m hm

theorem nextPost_safe (env : Env) (rn : Str) (c : Nat)
    (hc : ∀ rest, getRootPathOffset (asciiLower ('\\' :: rn ++ '\\' :: rest)) = c ∧
      c ≠ 0 ∧ dropBytes c (asciiLower ('\\' :: rn ++ '\\' :: rest)) ≠ none)
    (hlists : ∀ o, slice env.fi.buffer (o + 4) 2 = [0x6E, 0x6B] → 0 < u32At env.fi.buffer (o + 24) →
      u32At env.fi.buffer (o + 24) ≤ 1048576 →
      parseSubKeyList env.fi env.depth (u32At env.fi.buffer (o + 32)) ≠ .panic)
    : ∀ (steps : Nat) (ctx : IterCtx), CtxSafe env rn c ctx →
    nextPost env steps ctx ≠ some .panic ∧
      ∀ x ctx', nextPost env steps ctx = some (.ok (x, ctx')) → CtxSafe env rn c ctx' := by
  intro steps
  induction steps with
  | zero => intro ctx _; exact ⟨by simp [nextPost], by intro x ctx' h; cases h⟩
  | succ steps ih =>
    intro ctx h
    rw [nextPost]
    cases hs : ctx.stack with
    | nil =>
      simp only
      cases hr : ctx.ret with
      | nil => exact ⟨by simp, by intro x ctx' he; cases he; exact h⟩
      | cons n ns =>
        simp only
        split
        · exact ⟨by simp, by intro x ctx' he; cases he; exact ⟨h.state, h.ro, by intro m hm; cases hm⟩⟩
        · exact ⟨by simp, by intro x ctx' he; cases he; exact ⟨h.state, h.ro, by intro m hm; cases hm⟩⟩
    | cons node rest =>
      simp only
      obtain ⟨r1, r2⟩ := round_safe env rn c hc hlists ctx h node rest hs
      cases hp : popFinished ctx.ret with
      | some x =>
        exact ⟨by simp, by
          intro x ctx' he; cases he
          exact ⟨h.state, h.ro, fun m hm => h.stack m (by rw [hs]; exact hm)⟩⟩
      | none =>
        simp only
        cases hk : pushKids env { ctx with stack := rest } node with
        | err => exact ⟨by simp, by intro x ctx' he; cases he⟩
        | panic => exact absurd hk r1
        | ok y =>
          obtain ⟨n', ctx1⟩ := y
          have g := r2 n' ctx1 hk
          simp only
          exact ih _ ⟨g.state, g.ro, g.stack⟩

theorem collect_post_safe (env : Env) (rn : Str) (c : Nat)
    (hc : ∀ rest, getRootPathOffset (asciiLower ('\\' :: rn ++ '\\' :: rest)) = c ∧
      c ≠ 0 ∧ dropBytes c (asciiLower ('\\' :: rn ++ '\\' :: rest)) ≠ none)
    (hlists : ∀ o, slice env.fi.buffer (o + 4) 2 = [0x6E, 0x6B] → 0 < u32At env.fi.buffer (o + 24) →
      u32At env.fi.buffer (o + 24) ≤ 1048576 →
      parseSubKeyList env.fi env.depth (u32At env.fi.buffer (o + 32)) ≠ .panic)
    : ∀ (steps : Nat) (ctx : IterCtx), CtxSafe env rn c ctx →
    collect (nextPost env) steps ctx ≠ some .panic := by
  intro steps
  induction steps with
  | zero => intro ctx _; simp [collect]
  | succ steps ih =>
    intro ctx h
    obtain ⟨n1, n2⟩ := nextPost_safe env rn c hc hlists (steps + 1) ctx h
    rw [collect]
    cases hx : nextPost env (steps + 1) ctx with
    | none => simp
    | some r =>
      rcases r with ⟨x, ctx'⟩ | _ | _
      · cases x with
        | none => simp
        | some n =>
          simp only
          have := ih ctx' (n2 _ _ hx)
          split
          · simp
          · exact this
      · simp
      · exact absurd hx n1

theorem post_safe_of (w : World) (p : HiveParser) (ho : SafeOpen w p)
    (hs : SaneLists p.env.fi.buffer w.depth) (filter : Filter) (gm anc : Bool) :
    ∃ steps ns, p.iterate steps filter true gm anc = some (.ok ns) := by
  have hdep : p.env.depth = w.depth := by rw [ho.env]; rfl
  have hfi : p.env.fi = ⟨4096, p.env.fi.buffer⟩ := by
    conv => lhs; rw [ho.env]
    rfl
  have hlists : ∀ o, slice p.env.fi.buffer (o + 4) 2 = [0x6E, 0x6B] → 0 < u32At p.env.fi.buffer (o + 24) →
      u32At p.env.fi.buffer (o + 24) ≤ 1048576 →
      parseSubKeyList p.env.fi p.env.depth (u32At p.env.fi.buffer (o + 32)) ≠ .panic := by
    intro o h1 h2 h3
    rw [hdep, hfi]
    exact parseSubKeyList_safe _ _ _ (hs o h1 h2 h3)
  have hroot : ∃ rn, NodeSafe p.env rn (p.root.getD (.mk defaultKey [] [])) := by
    cases hr : p.root with
    | none => exact ⟨[], (by intro d hd; cases hd), fun _ h => absurd h (by decide), fun _ h => absurd h (by decide)⟩
    | some r =>
      obtain ⟨h1, o, h2, h3, h4, name, h5⟩ := ho.root r hr
      refine ⟨name, h1, ?_, fun _ _ => ⟨[], by simp [h5], .inl rfl⟩⟩
      intro _ g1 g2
      rw [Option.getD_some, h4]
      exact hlists o h2 (by rw [← h3]; exact g1) (by rw [← h3]; exact g2)
  obtain ⟨rn, hn⟩ := hroot
  obtain ⟨c, hc⟩ := root_part rn
  obtain ⟨steps, res, h1, h2, _⟩ := post_order_ends_partial p.env p.state p.root filter gm anc ho.state.del
    (fun r hr => (ho.root r hr).1)
  have hsafe := collect_post_safe p.env rn c hc hlists steps (.start p.state p.root filter gm anc)
    ⟨ho.state, .inl ho.offset, by intro n hn'; cases List.mem_singleton.1 hn'; exact hn⟩
  rcases res with ns | _ | _
  · exact ⟨steps, ns, by unfold HiveParser.iterate; simpa using h1⟩
  · exact absurd rfl h2
  · exact absurd h1 hsafe

/-- C83, listing in post-order (partial as `list_safe_partial`). -/
theorem post_list_safe_partial (w : World) (hd : 0 < w.depth) (b : Builder) (hrec : b.recover = false)
    (hl : ∀ f ∈ b.logs, SaneLog f) (p : HiveParser) (hp : b.build w = some (.ok p))
    (hs : SaneLists p.env.fi.buffer w.depth) (filter : Filter) (gm anc : Bool) :
    ∃ steps ns, p.iterate steps filter true gm anc = some (.ok ns) := by
  obtain ⟨r, h1, _, h3⟩ := build_safe w hd b hrec hl
  rw [hp] at h1
  exact post_safe_of w p ((h3 p (Option.some.inj h1).symm).safe hd) hs filter gm anc

/-- What both listings of a hive opened safely hold. -/
def ListedWhole (w : World) (p : HiveParser) : Prop :=
  ∀ gm gm' anc anc', ∃ steps steps' ns ms, p.iterate steps {} false gm anc = some (.ok ns) ∧
    p.iterate steps' {} true gm' anc' = some (.ok ms) ∧ (liveOffs ns).Nodup ∧ (liveOffs ms).Perm (liveOffs ns) ∧
    (∀ x, Reachable p.env.fi.buffer w.depth x → x ∈ liveOffs ns) ∧
    ∀ (f : Filter) (steps2 : Nat) (gm2 anc2 : Bool) (fs : List Node), p.iterate steps2 f false gm2 anc2 = some (.ok fs) →
      ∀ x ∈ liveOffs fs, x ∈ liveOffs ns

theorem all_listed_open (w : World) (b : Builder) (p : HiveParser) (hp : b.build w = some (.ok p)) (hroot : p.root ≠ none)
    (ho : SafeOpen w p) (hs : SaneLists p.env.fi.buffer w.depth) : ListedWhole w p := by
  intro gm gm' anc anc'
  obtain ⟨s1, ns, h1, h2⟩ := iterate_safe_of w p ho hs {} gm anc
  obtain ⟨s2, ms, h3⟩ := post_safe_of w p ho hs {} gm' anc'
  obtain ⟨r1, _, r3⟩ := reach_open w b p hp hroot ho.state.del s1 gm anc ns h1
  refine ⟨s1, s2, ns, ms, h1, h3, h2, both_orders_open w b p hp hroot ho.state.del s1 s2 gm gm' anc anc' ns ms h1 h3,
    fun x hx => mem_liveOffs.2 (r1 x hx), fun f s3 g3 a3 fs h4 x hx => ?_⟩
  obtain ⟨m, hm, ha, rfl⟩ := mem_liveOffs.1 hx
  exact mem_liveOffs.2 (r3 f s3 g3 a3 fs h4 m hm ha)

/-- C89, partial: whatever the bytes of the file and of its logs, as long as no sub-key list nests deeper than the stack
has room for.  When the hive can be opened (without recovery), both listings come to an end, they hold the same keys,
each once, every key that can be reached is among them, and no filter lists any other.  Missing: as in
`reach_listed_partial`, and filters in post-order (C48). -/
theorem all_listed_partial (w : World) (hd : 0 < w.depth) (b : Builder) (hrec : b.recover = false)
    (hl : ∀ f ∈ b.logs, SaneLog f) (p : HiveParser) (hp : b.build w = some (.ok p)) (hroot : p.root ≠ none)
    (hs : SaneLists p.env.fi.buffer w.depth) : ListedWhole w p := by
  obtain ⟨r, h1, _, h3⟩ := build_safe w hd b hrec hl
  rw [hp] at h1
  exact all_listed_open w b p hp hroot ((h3 p (Option.some.inj h1).symm).safe hd) hs

/-- C89, partial: the same with recovery, for files whose log entries, if there are any, leave every state of the file
orderly. -/
theorem all_recovered_partial (w : World) (hord : ∀ m, (w.order m).Perm m) (b : Builder) (p : HiveParser)
    (hrec : b.recover = true) (hs : b.primary.length < w.steps) (hl : ∀ f ∈ b.logs, SaneLog f)
    (hc : (b.primary.length < 24 * w.depth ∧ (b.logs = [] ∨ CleanHeader b.primary)) ∨
      ∀ logs warn, TransactionLog.parse b.logs = .ok (logs, warn) → CalmStages b.primary logs w.depth)
    (hp : b.build w = some (.ok p)) (hroot : p.root ≠ none) (hls : SaneLists p.env.fi.buffer w.depth) :
    ListedWhole w p := by
  refine all_listed_open w b p hp hroot ?_ hls
  rcases hc with ⟨hd, hn⟩ | hc
  · obtain ⟨r, e1, _, e3⟩ := build_scan_safe w b hrec hd hs hl hn
    rw [hp] at e1
    cases e1
    exact (e3 p rfl).1
  · exact (build_logs_safe w hord b hrec hs hl hc).2 p hp

/-! ### Examples -/

theorem tangled_sane (levels : Nat) : SaneLists tangledBuilder.primary (levels + 1) := by
  have hm : marks 0x6E 0x6B 0 tangledBuilder.primary = [4132, 4246] := by decide +kernel
  have hc : ∀ o ∈ [4128, 4242], 0 < u32At tangledBuilder.primary (o + 24) →
      slice tangledBuilder.primary (u32At tangledBuilder.primary (o + 32) + 4100) 2 = [0x6C, 0x66] ∧
      ∀ i, i < leNat (slice tangledBuilder.primary (u32At tangledBuilder.primary (o + 32) + 4102) 2) →
        u32At tangledBuilder.primary (u32At tangledBuilder.primary (o + 32) + 4104 + 8 * i) + 4096 < 4294967296 := by
    decide +kernel
  intro o h1 h2 _
  have hat : o ∈ [4128, 4242] := by
    have := marks_mem _ _ _ 0 (o + 4) h1
    rw [hm] at this
    simp at this ⊢
    omega
  obtain ⟨a, b⟩ := hc o hat h2
  rw [ListEnds, a]
  exact ⟨nofun, fun _ _ => b, nofun⟩

/-- The hypotheses of `post_list_safe_partial` and `all_listed_partial`: the tangled file. -/
example : ∃ p, tangledBuilder.build roomyWorld = some (.ok p) ∧ ListedWhole roomyWorld p ∧
    ∃ steps ns, p.iterate steps { query := some { keyPath := [.lit ['a']], hasRoot := false, children := true } } true
      = some (.ok ns) := by
  have h := tangled_opens
  split at h
  · rename_i p hp
    rw [Bool.and_eq_true_iff] at h
    have hroot : p.root ≠ none := by intro e; rw [e] at h; cases h.1
    have hs : SaneLists p.env.fi.buffer roomyWorld.depth := by rw [build_buffer _ _ _ rfl rfl hp]; exact tangled_sane 4999
    exact ⟨p, hp, all_listed_partial roomyWorld (by decide) tangledBuilder rfl nofun p hp hroot hs,
      post_list_safe_partial roomyWorld (by decide) tangledBuilder rfl nofun p hp hs _ true false⟩
  · cases h

/-- The hypotheses of `all_recovered_partial`: the log takes a key away. -/
example : ∃ p, histBuilder.build roomyWorld = some (.ok p) ∧ ListedWhole roomyWorld p := by
  have h := hist_listed
  have h' := hist_built
  split at h
  · rename_i p hp
    rw [hp] at h'
    rw [Bool.and_eq_true_iff] at h
    have hroot : p.root ≠ none := by intro e; rw [e] at h; cases h.1
    exact ⟨p, hp, all_recovered_partial roomyWorld (fun m => List.Perm.refl m) histBuilder p rfl hist_short hist_sane
      (.inr (hist_calm 5000 (by decide))) hp hroot (calm_of_check (of_decide_eq_true h').1 4999).2⟩
  · cases h

end Notatin
