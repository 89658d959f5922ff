import Verif.Spec.Reach
import Verif.Props.Ways
/-
What the iteration reaches, whatever the file holds.
-/
namespace Notatin
open Spec

/-- The key cell at `o` has the key cell at `y` in its list of sub-keys, as far as the reader can tell. -/
def KidAt (env : Env) (o y : Nat) : Prop :=
  0 < u32At env.fi.buffer (o + 24) ∧ u32At env.fi.buffer (o + 24) ≤ 1048576 ∧
  (∃ offs, parseSubKeyList env.fi env.depth (u32At env.fi.buffer (o + 32)) = .ok offs ∧ y ∈ offs) ∧
  KeyReadable (env.fi.buffer.drop y)

/-- A live key as it is in its cell, with nothing live recorded below it. -/
structure AtCell (env : Env) (n : Node) : Prop where
  del : DelOk n
  count : n.key.cellState = .Allocated → n.key.nSubKeys = u32At env.fi.buffer (n.key.fileOffset + 24)
  list : n.key.cellState = .Allocated → n.key.subKeysListOffset = u32At env.fi.buffer (n.key.fileOffset + 32)

theorem readKey_reads (env : Env) (st : State) (hst : StateDel st) (o : ReadOptions) (n : Node) (ro : Nat)
    (h : readKey env st o = .ok (some n, ro)) :
    n.key.fileOffset = o.offset ∧ n.key.cellState = .Allocated ∧ AtCell env n ∧
      KeyReadable (env.fi.buffer.drop o.offset) := by
  obtain ⟨h1, h2, h3, _⟩ := readKey_some env st o n ro h
  obtain ⟨d1, _, d3, d4, _⟩ := readKey_cell_del env st o n ro hst h
  refine ⟨h2, h3, ⟨d1, fun _ => by rw [h2]; exact d3, fun _ => by rw [h2]; exact d4⟩, ?_⟩
  by_cases hno : KeyReadable (env.fi.buffer.drop o.offset)
  · exact hno
  exfalso
  unfold readKey getFrom at h
  rw [if_pos h1] at h
  simp only at h
  unfold readFromSlice at h
  rw [(nk_accepts_iff env.hashFn (env.fi.buffer.drop o.offset) o.offset o.curPath o.seq).2 hno] at h
  cases h

/-- Without a filter every readable cell is read as a key, if the reading does not crash. -/
theorem readKey_readable (env : Env) (st : State) (off : Nat) (path : Str) (sm : Bool) (seq : Option Nat) (gm : Bool)
    (hr : KeyReadable (env.fi.buffer.drop off)) (hp : readKey env st ⟨off, path, none, sm, seq, gm⟩ ≠ .panic) :
    ∃ n ro, readKey env st ⟨off, path, none, sm, seq, gm⟩ = .ok (some n, ro) := by
  obtain ⟨⟨k, r⟩, hk⟩ := (nk_accepts_iff env.hashFn (env.fi.buffer.drop off) off path seq).1 hr
  have hle : off ≤ env.fi.buffer.length := by
    have h1 := hr.1
    have h2 := hr.2.1
    rw [List.length_drop] at h2
    omega
  obtain ⟨vs, lg, hv⟩ := valuesStep_ok env ⟨off, path, none, sm, seq, gm⟩ .iterate k
  unfold readKey getFrom at hp ⊢
  rw [if_pos hle] at hp ⊢
  simp only at hp ⊢
  unfold readFromSlice at hp ⊢
  rw [hk] at hp ⊢
  simp only [filterStep] at hp ⊢
  rw [if_neg (by decide), hv] at hp ⊢
  simp only at hp ⊢
  cases hf : finishStep env st ⟨off, path, none, sm, seq, gm⟩ .iterate { k with values := vs, logs := lg } with
  | ok n => exact ⟨n, _, rfl⟩
  | panic => rw [hf] at hp; exact absurd rfl hp
  | err =>
    exfalso
    simp only [finishStep_iterate] at hf
    split at hf
    · exact updateModifiedLists_no_err _ _ _ hf
    · cases hf

theorem loop_sound (env : Env) (st : State) (hst : StateDel st) (path : Str) (f : Filter) (sf : Option Filter)
    (sm : Bool) (seq : Option Nat) (gm : Bool) : ∀ (offs : List Nat) (ro : Nat) (lg : Logs) (ns : List Node) (fd : Bool)
    (lg' : Logs) (ro' : Nat),
    readSubKeysLoop env st path f sf sm seq gm offs ro lg = .ok (ns, fd, lg', ro') →
    ∀ n ∈ ns, n.key.fileOffset ∈ offs ∧ n.key.cellState = .Allocated ∧ AtCell env n ∧
      KeyReadable (env.fi.buffer.drop n.key.fileOffset) := by
  intro offs
  induction offs with
  | nil =>
    intro ro lg ns fd lg' ro' h n hn
    rw [readSubKeysLoop] at h
    cases h
    cases hn
  | cons o os ih =>
    intro ro lg ns fd lg' ro' h n hn
    rw [readSubKeysLoop] at h
    cases hr : readKey env { st with rootOffset := ro } ⟨o, path, sf, sm, seq, gm⟩ with
    | panic => rw [hr] at h; cases h
    | err =>
      rw [hr] at h
      obtain ⟨g1, g2⟩ := ih _ _ _ _ _ _ h n hn
      exact ⟨List.mem_cons_of_mem _ g1, g2⟩
    | ok x =>
      obtain ⟨on, ro1⟩ := x
      rw [hr] at h
      cases on with
      | none =>
        obtain ⟨g1, g2⟩ := ih _ _ _ _ _ _ h n hn
        exact ⟨List.mem_cons_of_mem _ g1, g2⟩
      | some c =>
        simp only at h
        cases hl : readSubKeysLoop env st path f sf sm seq gm os ro1 lg with
        | err => rw [hl] at h; cases h
        | panic => rw [hl] at h; cases h
        | ok y =>
          obtain ⟨ms, fd1, lg1, ro2⟩ := y
          rw [hl] at h
          cases h
          rcases List.mem_cons.1 hn with rfl | hn
          · obtain ⟨e1, e2, e3, e4⟩ := readKey_reads env { st with rootOffset := ro } hst _ c ro1 hr
            cases c
            refine ⟨?_, e2, ⟨e3.del, e3.count, e3.list⟩, ?_⟩
            · exact List.mem_cons.2 (.inl e1)
            · exact e1.symm ▸ e4
          · obtain ⟨g1, g2⟩ := ih _ _ _ _ _ _ hl n hn
            exact ⟨List.mem_cons_of_mem _ g1, g2⟩

theorem loop_complete (env : Env) (st : State) (path : Str) (f : Filter) (sf : Option Filter)
    (hf : sf = none ∨ sf = some {})
    (sm : Bool) (gm : Bool) : ∀ (offs : List Nat) (ro : Nat) (lg : Logs) (ns : List Node) (fd : Bool)
    (lg' : Logs) (ro' : Nat),
    readSubKeysLoop env st path f sf sm none gm offs ro lg = .ok (ns, fd, lg', ro') →
    ∀ y ∈ offs, KeyReadable (env.fi.buffer.drop y) → ∃ n ∈ ns, n.key.fileOffset = y := by
  intro offs
  induction offs with
  | nil =>
    intro ro lg ns fd lg' ro' h y hy
    cases hy
  | cons o os ih =>
    intro ro lg ns fd lg' ro' h y hy hread
    obtain ⟨e1, _⟩ := readKey_open_filter env { st with rootOffset := ro } o path sf hf sm none gm
    rw [readSubKeysLoop] at h
    cases hr : readKey env { st with rootOffset := ro } ⟨o, path, sf, sm, none, gm⟩ with
    | panic => rw [hr] at h; cases h
    | err =>
      rw [hr] at h
      rcases List.mem_cons.1 hy with rfl | hy
      · obtain ⟨n, ro2, hn⟩ := readKey_readable env { st with rootOffset := ro } y path sm none gm hread
          (by rw [← e1, hr]; simp)
        rw [← e1, hr] at hn
        cases hn
      · exact ih _ _ _ _ _ _ h y hy hread
    | ok x =>
      obtain ⟨on, ro1⟩ := x
      rw [hr] at h
      cases on with
      | none =>
        rcases List.mem_cons.1 hy with rfl | hy
        · obtain ⟨n, ro2, hn⟩ := readKey_readable env { st with rootOffset := ro } y path sm none gm hread
            (by rw [← e1, hr]; simp)
          rw [← e1, hr] at hn
          cases hn
        · exact ih _ _ _ _ _ _ h y hy hread
      | some c =>
        simp only at h
        cases hl : readSubKeysLoop env st path f sf sm none gm os ro1 lg with
        | err => rw [hl] at h; cases h
        | panic => rw [hl] at h; cases h
        | ok z =>
          obtain ⟨ms, fd1, lg1, ro2⟩ := z
          rw [hl] at h
          cases h
          rcases List.mem_cons.1 hy with rfl | hy
          · refine ⟨_, List.mem_cons_self, ?_⟩
            have := (readKey_some env _ _ c ro1 hr).2.1
            cases c
            exact this
          · obtain ⟨n, hn, hy⟩ := ih _ _ _ _ _ _ hl y hy hread
            exact ⟨n, List.mem_cons_of_mem _ hn, hy⟩

/-- After pushing, all keys offered are marked. -/
theorem foldl_pushCheck_seen (l : List Node) : ∀ ctx : IterCtx,
    (∀ x ∈ ctx.seen, x ∈ (l.foldl IterCtx.pushCheck ctx).seen) ∧
      ∀ n ∈ l, n.key.fileOffset ∈ (l.foldl IterCtx.pushCheck ctx).seen := by
  induction l with
  | nil => intro ctx; exact ⟨fun _ h => h, nofun⟩
  | cons a as ih =>
    intro ctx
    rw [List.foldl_cons]
    obtain ⟨h1, h2⟩ := ih (ctx.pushCheck a)
    have hx : (∀ x ∈ ctx.seen, x ∈ (ctx.pushCheck a).seen) ∧ a.key.fileOffset ∈ (ctx.pushCheck a).seen := by
      unfold IterCtx.pushCheck
      split
      · exact ⟨fun _ h => h, by assumption⟩
      · exact ⟨fun _ h => List.mem_cons_of_mem _ h, List.mem_cons_self⟩
    refine ⟨fun x h => h1 x (hx.1 x h), fun n hn => ?_⟩
    rcases List.mem_cons.1 hn with rfl | hn
    · exact h1 _ hx.2
    · exact h2 n hn

/-- One round, whatever the filter. -/
theorem pushKids_reach (env : Env) (ctx : IterCtx) (hst : StateDel ctx.state) (node node' : Node) (ctx' : IterCtx)
    (hn : AtCell env node) (h : pushKids env ctx node = .ok (node', ctx')) :
    (∃ ro news, ctx' = { ctx with state := { ctx.state with rootOffset := ro }, stack := news ++ ctx.stack, seen := news.map (·.key.fileOffset) ++ ctx.seen } ∧
      ∀ n ∈ news, n.key.cellState = .Allocated ∧ AtCell env n ∧ node.key.cellState = .Allocated ∧
        KidAt env node.key.fileOffset n.key.fileOffset) ∧
    (ctx.filter = {} → node.key.cellState = .Allocated → ∀ y, KidAt env node.key.fileOffset y → y ∈ ctx'.seen) := by
  unfold pushKids at h
  by_cases h0 : 0 < node.key.nSubKeys
  · rw [if_pos h0] at h
    cases hr : readSubKeysInternal env ctx.state node ctx.filter none ctx.getModified with
    | err => rw [hr] at h; cases h
    | panic => rw [hr] at h; cases h
    | ok r =>
      rw [hr] at h
      cases h
      obtain ⟨news, e, hm, _, _⟩ := foldl_pushCheck r.children.reverse
        { ctx with state := { ctx.state with rootOffset := r.rootOffset } }
      have hseen := (foldl_pushCheck_seen r.children.reverse
        { ctx with state := { ctx.state with rootOffset := r.rootOffset } }).2
      unfold readSubKeysInternal at hr
      simp only at hr
      by_cases ha : node.key.cellState = .Allocated
      · rw [if_pos ha] at hr
        have hc := hn.count ha
        have hl := hn.list ha
        by_cases hbig : node.key.nSubKeys > 1024 * 1024
        · rw [if_pos hbig] at hr
          cases hr
          refine ⟨⟨_, news, e, fun n hnn => absurd (hm n hnn) (by simp)⟩, fun _ _ y hk => ?_⟩
          have := hk.2.1
          rw [← hc] at this
          omega
        · rw [if_neg hbig, if_pos h0] at hr
          cases hp : parseSubKeyList env.fi env.depth node.key.subKeysListOffset with
          | panic => rw [hp] at hr; cases hr
          | err =>
            rw [hp] at hr
            cases hr
            refine ⟨⟨_, news, e, fun n hnn => absurd (hm n hnn) (by simp)⟩, fun _ _ y hk => ?_⟩
            obtain ⟨offs, ho, _⟩ := hk.2.2.1
            rw [← hl, hp] at ho
            cases ho
          | ok offs =>
            rw [hp] at hr
            simp only at hr
            split at hr
            · rename_i ms fd lg ro hloop
              cases hr
              refine ⟨⟨_, news, e, fun n hnn => ?_⟩, fun hf _ y hk => ?_⟩
              · obtain ⟨s1, s2, s3, s4⟩ := loop_sound env ctx.state hst _ _ _ _ _ _ _ _ _ _ _ _ _ hloop n
                  (List.mem_reverse.1 (hm n hnn))
                exact ⟨s2, s3, ha, by rw [← hc]; exact h0, by rw [← hc]; omega, ⟨offs, by rw [← hl]; exact hp, s1⟩, s4⟩
              · obtain ⟨offs', ho, hy⟩ := hk.2.2.1
                rw [← hl, hp] at ho
                cases ho
                obtain ⟨n, hnn, rfl⟩ := loop_complete env ctx.state _ _ _
                  (by rw [hf]; split; exact .inl rfl; exact .inr rfl) _ _ _ _ _ _ _ _ _ hloop y hy hk.2.2.2
                exact hseen n (List.mem_reverse.2 hnn)
            · cases hr
            · cases hr
      · rw [if_neg ha] at hr
        cases hr
        exact ⟨⟨_, news, e, fun n hnn => absurd (hm n hnn) (by simp)⟩, fun _ h => absurd h ha⟩
  · rw [if_neg h0] at h
    cases h
    refine ⟨⟨ctx.state.rootOffset, [], rfl, by simp⟩, fun _ ha y hk => ?_⟩
    have := hk.1
    rw [← hn.count ha] at this
    exact absurd this h0

/-- The same for a whole round: what is left to do. -/
theorem round_reach (env : Env) (ctx : IterCtx) (hst : StateDel ctx.state) (node node1 : Node) (ctx1 : IterCtx)
    (hn : AtCell env node) (h : pushKids env ctx node = .ok (node1, ctx1)) :
    let p := pushDeleted node1 ctx1
    StateDel p.2.state ∧ p.2.filter = ctx.filter ∧
    p.1.key.cellState = node.key.cellState ∧ p.1.key.fileOffset = node.key.fileOffset ∧
    (∃ news : List Node, (∀ x, x ∈ p.2.seen ↔ (∃ n ∈ news, n.key.fileOffset = x) ∨ x ∈ ctx.seen) ∧
      (∀ n ∈ news, n ∈ p.2.stack ∧ n.key.cellState = .Allocated ∧ AtCell env n ∧ node.key.cellState = .Allocated ∧
        KidAt env node.key.fileOffset n.key.fileOffset) ∧
      (∀ n ∈ ctx.stack, n ∈ p.2.stack) ∧
      ∀ n ∈ p.2.stack, n ∈ news ∨ n ∈ ctx.stack ∨ (n.key.cellState ≠ .Allocated ∧ AtCell env n)) ∧
    (ctx.filter = {} → node.key.cellState = .Allocated → ∀ y, KidAt env node.key.fileOffset y → y ∈ p.2.seen) := by
  obtain ⟨_, _, hf⟩ := pushKids_facts env ctx node
  obtain ⟨⟨lg, so, tr, e1⟩, _⟩ := hf node1 ctx1 h
  obtain ⟨⟨ro, news, rfl, hk⟩, hall⟩ := pushKids_reach env ctx hst node node1 ctx1 hn h
  subst e1
  refine ⟨hst, rfl, rfl, rfl, ⟨news, ?_, ?_, ?_, ?_⟩, hall⟩
  · intro x
    show x ∈ news.map (·.key.fileOffset) ++ ctx.seen ↔ _
    rw [List.mem_append, List.mem_map]
  · intro n hnn
    refine ⟨?_, hk n hnn⟩
    exact List.mem_append.2 (.inr (List.mem_append.2 (.inl hnn)))
  · intro n hnn
    exact List.mem_append.2 (.inr (List.mem_append.2 (.inr hnn)))
  · intro n hnn
    rcases List.mem_append.1 hnn with hnn | hnn
    · refine .inr (.inr ?_)
      obtain ⟨d, hd, rfl⟩ := List.mem_map.1 (List.mem_reverse.1 hnn)
      have := inheritFilterState_allDel node.key.filterState d (hn.del d hd)
      obtain ⟨a1, a2⟩ := (allDel_iff _).1 this
      exact ⟨a1, a2, fun ha => absurd ha a1, fun ha => absurd ha a1⟩
    · rcases List.mem_append.1 hnn with hnn | hnn
      · exact .inl hnn
      · exact .inr (.inl hnn)

theorem mem_liveOffs {ns : List Node} {x : Nat} :
    x ∈ liveOffs ns ↔ ∃ n ∈ ns, n.key.cellState = .Allocated ∧ n.key.fileOffset = x := by
  unfold liveOffs
  simp only [List.mem_map, List.mem_filter, decide_eq_true_eq, and_assoc]

/-- Whatever the filter: only what is in a set closed under sub-keys is listed. -/
theorem nextPre_within (env : Env) (R : Nat → Prop) (hR : ∀ o y, R o → KidAt env o y → R y) :
    ∀ (s : Nat) (ctx : IterCtx), StateDel ctx.state →
      (∀ n ∈ ctx.stack, AtCell env n ∧ (n.key.cellState = .Allocated → R n.key.fileOffset)) →
      ∀ n ctx', nextPre env s ctx = some (.ok (some n, ctx')) →
        (n.key.cellState = .Allocated → R n.key.fileOffset) ∧ StateDel ctx'.state ∧
        ∀ n ∈ ctx'.stack, AtCell env n ∧ (n.key.cellState = .Allocated → R n.key.fileOffset) := by
  intro s
  induction s with
  | zero => intro ctx _ _ n ctx' h; cases h
  | succ s ih =>
    intro ctx hst hs n ctx' h
    rw [nextPre] at h
    cases hstk : ctx.stack with
    | nil => rw [hstk] at h; cases h
    | cons node rest =>
      rw [hstk] at h
      simp only at h
      have hnode := hs node (by rw [hstk]; exact List.mem_cons_self)
      unfold preStep at h
      cases hk : pushKids env { ctx with stack := rest } node with
      | err => rw [hk] at h; cases h
      | panic => rw [hk] at h; cases h
      | ok x =>
        obtain ⟨node1, ctx1⟩ := x
        rw [hk] at h
        simp only at h
        obtain ⟨r1, _, r3, r4, ⟨news, _, r6, _, r8⟩, _⟩ :=
          round_reach env { ctx with stack := rest } hst node node1 ctx1 hnode.1 hk
        have hnew : ∀ n ∈ (pushDeleted node1 ctx1).2.stack,
            AtCell env n ∧ (n.key.cellState = .Allocated → R n.key.fileOffset) := by
          intro m hm
          rcases r8 m hm with hm | hm | hm
          · obtain ⟨_, _, q3, q4, q5⟩ := r6 m hm
            exact ⟨q3, fun _ => hR _ _ (hnode.2 q4) q5⟩
          · exact hs m (by rw [hstk]; exact List.mem_cons_of_mem _ hm)
          · exact ⟨hm.2, fun ha => absurd ha hm.1⟩
        generalize hpd : pushDeleted node1 ctx1 = q at *
        obtain ⟨n2, ctx2⟩ := q
        simp only at h
        split at h
        · cases h
        · cases h
        · rename_i heq
          split at heq
          · cases heq
            cases h
            exact ⟨fun ha => by rw [r4]; exact hnode.2 (by rw [← r3]; exact ha), r1, hnew⟩
          · cases heq
        · rename_i heq
          split at heq
          · cases heq
          · cases heq
            exact ih _ r1 hnew n ctx' h

theorem collect_within (env : Env) (R : Nat → Prop) (hR : ∀ o y, R o → KidAt env o y → R y) :
    ∀ (s : Nat) (ctx : IterCtx) (ns : List Node), StateDel ctx.state →
      (∀ n ∈ ctx.stack, AtCell env n ∧ (n.key.cellState = .Allocated → R n.key.fileOffset)) →
      collect (nextPre env) s ctx = some (.ok ns) → ∀ n ∈ ns, n.key.cellState = .Allocated → R n.key.fileOffset := by
  intro s
  induction s with
  | zero => intro ctx ns _ _ h; cases h
  | succ s ih =>
    intro ctx ns hst hs h
    rw [collect] at h
    split at h
    · cases h
    · cases h
    · cases h
    · cases h; intro n hn; cases hn
    · rename_i n ctx' hnext
      obtain ⟨g1, g2, g3⟩ := nextPre_within env R hR _ ctx hst hs n ctx' hnext
      split at h
      · rename_i ms hc
        cases h
        intro m hm
        rcases List.mem_cons.1 hm with rfl | hm
        · exact g1
        · exact ih ctx' ms g2 g3 hc m hm
      · rename_i hno
        exact absurd h (by intro h'; exact hno _ h')

/-- Without a filter: all that is marked is listed, and so is all below what is listed. -/
theorem collect_reaches (env : Env) :
    ∀ (s : Nat) (ctx : IterCtx) (ns : List Node) (D : Nat → Prop), StateDel ctx.state → ctx.filter = {} →
      (∀ n ∈ ctx.stack, AtCell env n) →
      (∀ x ∈ ctx.seen, x ∈ liveOffs ctx.stack ∨ D x) →
      (∀ n ∈ ctx.stack, n.key.cellState = .Allocated → n.key.fileOffset ∈ ctx.seen) →
      (∀ x, D x → ∀ y, KidAt env x y → y ∈ ctx.seen) →
      collect (nextPre env) s ctx = some (.ok ns) →
      (∀ x ∈ ctx.seen, D x ∨ x ∈ liveOffs ns) ∧
        ∀ x y, (D x ∨ x ∈ liveOffs ns) → KidAt env x y → D y ∨ y ∈ liveOffs ns := by
  intro s
  induction s with
  | zero => intro ctx ns D _ _ _ _ _ _ h; cases h
  | succ s ih =>
    intro ctx ns D hst hf hs hseen hmark hD h
    rw [collect, nextPre] at h
    cases hstk : ctx.stack with
    | nil =>
      rw [hstk] at h hseen
      cases h
      have h1 : ∀ x ∈ ctx.seen, D x ∨ x ∈ liveOffs [] := by
        intro x hx
        rcases hseen x hx with hx | hx
        · cases hx
        · exact .inl hx
      refine ⟨h1, fun x y hx hk => ?_⟩
      rcases hx with hx | hx
      · exact h1 y (hD x hx y hk)
      · cases hx
    | cons node rest =>
      rw [hstk] at h
      simp only at h
      have hnode := hs node (by rw [hstk]; exact List.mem_cons_self)
      unfold preStep at h
      cases hk : pushKids env { ctx with stack := rest } node with
      | err => rw [hk] at h; cases h
      | panic => rw [hk] at h; cases h
      | ok x =>
        obtain ⟨node1, ctx1⟩ := x
        rw [hk] at h
        simp only at h
        obtain ⟨r1, r2, r3, r4, ⟨news, r5, r6, r7, r8⟩, r9⟩ :=
          round_reach env { ctx with stack := rest } hst node node1 ctx1 hnode hk
        generalize hpd : pushDeleted node1 ctx1 = q at *
        obtain ⟨n2, ctx2⟩ := q
        simp only at h r1 r2 r3 r4 r5 r6 r7 r8 r9
        have hval : (ctx2.includeAncestors || !ctx2.filter.isValid || n2.key.isFilterMatchOrDescendent) = true := by
          rw [r2, hf]
          simp [Filter.isValid]
        rw [if_pos hval] at h
        simp only at h
        split at h
        · rename_i ms hc
          cases h
          have key := ih ctx2 ms (fun x => D x ∨ (node.key.cellState = .Allocated ∧ x = node.key.fileOffset))
            r1 (r2.trans hf) ?_ ?_ ?_ ?_ hc
          · have conv : ∀ x, ((D x ∨ (node.key.cellState = .Allocated ∧ x = node.key.fileOffset)) ∨ x ∈ liveOffs ms) ↔
                (D x ∨ x ∈ liveOffs (n2 :: ms)) := by
              intro x
              rw [mem_liveOffs, mem_liveOffs]
              constructor
              · rintro ((h | ⟨h1, h2⟩) | ⟨m, h1, h2⟩)
                · exact .inl h
                · exact .inr ⟨n2, List.mem_cons_self, by rw [r3]; exact h1, by rw [r4]; exact h2.symm⟩
                · exact .inr ⟨m, List.mem_cons_of_mem _ h1, h2⟩
              · rintro (h | ⟨m, h1, h2, h3⟩)
                · exact .inl (.inl h)
                · rcases List.mem_cons.1 h1 with rfl | h1
                  · exact .inl (.inr ⟨by rw [← r3]; exact h2, by rw [← r4]; exact h3.symm⟩)
                  · exact .inr ⟨m, h1, h2, h3⟩
            refine ⟨fun x hx => (conv x).1 (key.1 x ((r5 x).2 (.inr hx))), fun x y hx hkid => ?_⟩
            exact (conv y).1 (key.2 x y ((conv x).2 hx) hkid)
          · intro m hm
            rcases r8 m hm with hm | hm | hm
            · exact (r6 m hm).2.2.1
            · exact hs m (by rw [hstk]; exact List.mem_cons_of_mem _ hm)
            · exact hm.2
          · intro x hx
            rcases (r5 x).1 hx with ⟨m, hm, rfl⟩ | hx
            · exact .inl (mem_liveOffs.2 ⟨m, (r6 m hm).1, (r6 m hm).2.1, rfl⟩)
            · rcases hseen x hx with hx | hx
              · obtain ⟨m, hm, h2, h3⟩ := mem_liveOffs.1 hx
                rw [hstk] at hm
                rcases List.mem_cons.1 hm with rfl | hm
                · exact .inr (.inr ⟨h2, h3.symm⟩)
                · exact .inl (mem_liveOffs.2 ⟨m, r7 m hm, h2, h3⟩)
              · exact .inr (.inl hx)
          · intro m hm ha
            rw [r5]
            rcases r8 m hm with hm | hm | hm
            · exact .inl ⟨m, hm, rfl⟩
            · exact .inr (hmark m (by rw [hstk]; exact List.mem_cons_of_mem _ hm) ha)
            · exact absurd ha hm.1
          · intro x hx y hkid
            rcases hx with hx | ⟨h1, rfl⟩
            · exact (r5 y).2 (.inr (hD x hx y hkid))
            · exact r9 hf h1 y hkid
        · rename_i hno
          exact absurd h (by intro h'; exact hno _ h')

/-- The root of an opened hive. -/
theorem initRoot_atCell (env : Env) (st : State) (hst : StateDel st) (hb : env.fi.hbin = 4096) (r : Node) (ro : Nat)
    (h : initRoot env st = .ok (some r, ro)) :
    r.key.fileOffset = 4128 ∧ r.key.cellState = .Allocated ∧ AtCell env r ∧
      KeyReadable (env.fi.buffer.drop 4128) := by
  unfold initRoot at h
  split at h
  · cases h
  · rename_i input hg
    split at h
    · cases h
    · rename_i hd rest hh
      have hlen := hiveBinHeader_length hh
      unfold getFrom at hg
      split at hg
      case isFalse => cases hg
      case isTrue hle =>
      cases hg
      rw [List.length_drop] at hlen
      have e : env.fi.buffer.length - rest.length = 4128 := by omega
      obtain ⟨h1, h2, h3, h4⟩ := readKey_reads env st hst _ r ro h
      exact ⟨h1.trans e, h2, h3, by have := h4; simp only at this; rw [e] at this; exact this⟩

end Notatin
