import Verif.Lemmas.Reach
/-
What the post-order iteration reaches, whatever the file holds.
-/
namespace Notatin
open Spec

/-- Without a filter a key is read without a mark. -/
theorem readKey_unmarked (env : Env) (st : State) (off : Nat) (path : Str) (sf : Option Filter)
    (hf : sf = none ∨ sf = some {}) (sm : Bool) (seq : Option Nat) (gm : Bool) (n : Node) (ro : Nat)
    (h : readKey env st ⟨off, path, sf, sm, seq, gm⟩ = .ok (some n, ro)) : n.key.filterState = none := by
  rw [(readKey_open_filter env st off path sf hf sm seq gm).1] at h
  unfold readKey at h
  split at h
  · cases h
  · unfold readFromSlice at h
    split at h
    · cases h
    · cases h
    · rename_i k r hk
      obtain ⟨hfr, _⟩ := fromBytes_fresh _ _ _ _ _ _ _ hk
      simp only [filterStep] at h
      rw [if_neg (by decide)] at h
      obtain ⟨vs, lg, hv⟩ := valuesStep_ok env ⟨off, path, none, sm, seq, gm⟩ .iterate k
      rw [hv] at h
      simp only [finishStep_iterate] at h
      by_cases hg : gm = true
      · rw [if_pos hg] at h
        split at h
        · cases h
        · cases h
        · rename_i m hu
          cases h
          rw [updateModifiedLists_key _ _ _ _ hu]
          exact hfr.1
      · rw [if_neg hg] at h
        cases h
        exact hfr.1

/-- Without a filter no sub-key is marked as unwanted. -/
theorem loop_marks (env : Env) (st : State) (path : Str) (sf : Option Filter) (hf : sf = none ∨ sf = some {})
    (sm : Bool) (gm : Bool) : ∀ (offs : List Nat) (ro : Nat) (lg : Logs) (ns : List Node) (fd : Bool)
    (lg' : Logs) (ro' : Nat),
    readSubKeysLoop env st path {} sf sm none gm offs ro lg = .ok (ns, fd, lg', ro') →
    ∀ n ∈ ns, n.key.filterState ≠ some .None := by
  intro offs
  induction offs with
  | nil =>
    intro ro lg ns fd lg' ro' h n hn
    rw [readSubKeysLoop] at h
    cases h
    cases hn
  | cons o os ih =>
    intro ro lg ns fd lg' ro' h n hn
    rw [readSubKeysLoop] at h
    cases hr : readKey env { st with rootOffset := ro } ⟨o, path, sf, sm, none, gm⟩ with
    | panic => rw [hr] at h; cases h
    | err => rw [hr] at h; exact ih _ _ _ _ _ _ h n hn
    | ok x =>
      obtain ⟨on, ro1⟩ := x
      rw [hr] at h
      cases on with
      | none => exact ih _ _ _ _ _ _ h n hn
      | some c =>
        simp only at h
        cases hl : readSubKeysLoop env st path {} sf sm none gm os ro1 lg with
        | err => rw [hl] at h; cases h
        | panic => rw [hl] at h; cases h
        | ok y =>
          obtain ⟨ms, fd1, lg1, ro2⟩ := y
          rw [hl] at h
          cases h
          rcases List.mem_cons.1 hn with rfl | hn
          · have := readKey_unmarked env _ o path sf hf sm none gm c ro1 hr
            have e : childFilterState sm (Filter.isValid {}) none ≠ some .None := by
              cases sm <;> decide
            rw [← this] at e
            cases c
            exact e
          · exact ih _ _ _ _ _ _ hl n hn

/-- The sub-keys a round without a filter pushes are not marked as unwanted. -/
theorem pushKids_marks (env : Env) (ctx : IterCtx) (hf : ctx.filter = {}) (node node' : Node) (ctx' : IterCtx)
    (h : pushKids env ctx node = .ok (node', ctx')) : ∀ n ∈ ctx'.stack, n ∈ ctx.stack ∨ n.key.filterState ≠ some .None := by
  unfold pushKids at h
  by_cases h0 : 0 < node.key.nSubKeys
  · rw [if_pos h0] at h
    cases hr : readSubKeysInternal env ctx.state node ctx.filter none ctx.getModified with
    | err => rw [hr] at h; cases h
    | panic => rw [hr] at h; cases h
    | ok r =>
      rw [hr] at h
      cases h
      obtain ⟨news, e, hm, _, _⟩ := foldl_pushCheck r.children.reverse
        { ctx with state := { ctx.state with rootOffset := r.rootOffset } }
      have hkids : ∀ n ∈ r.children, n.key.filterState ≠ some .None := by
        unfold readSubKeysInternal at hr
        simp only at hr
        rw [hf] at hr
        by_cases ha : node.key.cellState = .Allocated
        · rw [if_pos ha] at hr
          by_cases hbig : node.key.nSubKeys > 1024 * 1024
          · rw [if_pos hbig] at hr
            cases hr
            exact nofun
          · rw [if_neg hbig, if_pos h0] at hr
            cases hp : parseSubKeyList env.fi env.depth node.key.subKeysListOffset with
            | panic => rw [hp] at hr; cases hr
            | err => rw [hp] at hr; cases hr; exact nofun
            | ok offs =>
              rw [hp] at hr
              simp only at hr
              split at hr
              · rename_i hloop
                cases hr
                exact loop_marks env ctx.state _ _ (by split; exact .inl rfl; exact .inr rfl) _ _ _ _ _ _ _ _ _ hloop
              · cases hr
              · cases hr
        · rw [if_neg ha] at hr
          cases hr
          exact nofun
      intro n hn
      rw [e] at hn
      rcases List.mem_append.1 hn with hn | hn
      · exact .inr (hkids n (List.mem_reverse.1 (hm n hn)))
      · exact .inl hn
  · rw [if_neg h0] at h
    cases h
    exact fun n hn => .inl hn

/-- What holds of the post-order iteration without a filter between two rounds, when the keys at `D` have been given.
`R` is any set of offsets that holds with every offset those of its sub-keys. -/
structure PostInv (env : Env) (R : Nat → Prop) (ctx : IterCtx) (D : List Nat) : Prop where
  state : StateDel ctx.state
  filter : ctx.filter = {}
  cells : ∀ n ∈ ctx.stack, AtCell env n
  marks : ∀ n ∈ ctx.stack, n.key.filterState ≠ some .None
  marksRet : ∀ n ∈ ctx.ret, n.key.filterState ≠ some .None
  seen : ∀ x ∈ ctx.seen, x ∈ liveOffs ctx.stack ++ (liveOffs ctx.ret ++ D)
  known : ∀ x ∈ liveOffs ctx.stack ++ (liveOffs ctx.ret ++ D), x ∈ ctx.seen
  closed : ∀ x ∈ liveOffs ctx.ret ++ D, ∀ y, KidAt env x y → y ∈ ctx.seen
  nodup : (liveOffs ctx.stack ++ (liveOffs ctx.ret ++ D)).Nodup
  within : ∀ x ∈ ctx.seen, R x

theorem bumpTop_keeps (ns : List Node) : liveOffs (bumpTop ns) = liveOffs ns ∧
    ((∀ n ∈ ns, n.key.filterState ≠ some .None) → ∀ n ∈ bumpTop ns, n.key.filterState ≠ some .None) := by
  cases ns with
  | nil => exact ⟨rfl, fun h => h⟩
  | cons a as =>
    cases a
    refine ⟨by rw [bumpTop, liveOffs_cons, liveOffs_cons]; rfl, fun h n hn => ?_⟩
    rcases List.mem_cons.1 hn with rfl | hn
    · have := h _ List.mem_cons_self
      exact this
    · exact h n (List.mem_cons_of_mem _ hn)

/-- Giving a key. -/
theorem PostInv.give {env R ctx D n ns} (h : PostInv env R ctx D) (hr : ctx.ret = n :: ns) :
    PostInv env R { ctx with ret := ns } (liveOffs [n] ++ D) := by
  have hsplit : liveOffs ctx.ret = liveOffs [n] ++ liveOffs ns := by rw [hr, ← liveOffs_append]; rfl
  have hmem : ∀ x, x ∈ liveOffs ns ++ (liveOffs [n] ++ D) ↔ x ∈ liveOffs ctx.ret ++ D := by
    intro x
    rw [hsplit]
    simp only [List.mem_append]
    grind
  have hmem2 : ∀ x, x ∈ liveOffs ctx.stack ++ (liveOffs ns ++ (liveOffs [n] ++ D)) ↔
      x ∈ liveOffs ctx.stack ++ (liveOffs ctx.ret ++ D) := by
    intro x
    rw [List.mem_append, hmem, ← List.mem_append]
  refine ⟨h.state, h.filter, h.cells, h.marks, fun m hm => h.marksRet m (by rw [hr]; exact List.mem_cons_of_mem _ hm),
    fun x hx => (hmem2 x).2 (h.seen x hx), fun x hx => h.known x ((hmem2 x).1 hx),
    fun x hx => h.closed x ((hmem x).1 hx), ?_, h.within⟩
  have hnd := h.nodup
  rw [hsplit] at hnd
  refine (List.Perm.nodup_iff ?_).1 hnd
  refine List.Perm.append_left _ ?_
  rw [List.append_assoc]
  exact List.perm_append_comm_assoc _ _ _

/-- Expanding a key. -/
theorem PostInv.expand {env R ctx D node rest node1 ctx1} (hR : ∀ o y, R o → KidAt env o y → R y)
    (h : PostInv env R ctx D) (hs : ctx.stack = node :: rest)
    (hk : pushKids env { ctx with stack := rest } node = .ok (node1, ctx1)) :
    PostInv env R { (pushDeleted node1 ctx1).2 with ret := (pushDeleted node1 ctx1).1 :: bumpTop (pushDeleted node1 ctx1).2.ret } D := by
  have hnode := h.cells node (by rw [hs]; exact List.mem_cons_self)
  have hmark := h.marks node (by rw [hs]; exact List.mem_cons_self)
  obtain ⟨_, _, hf⟩ := pushKids_facts env { ctx with stack := rest } node
  obtain ⟨⟨lg, so, tr, e1⟩, ro, news, e2, _, hnd, hns⟩ := hf node1 ctx1 hk
  obtain ⟨⟨ro', news', e2', hkids⟩, hall⟩ := pushKids_reach env { ctx with stack := rest } h.state node node1 ctx1 hnode hk
  have hmarks := pushKids_marks env { ctx with stack := rest } h.filter node node1 ctx1 hk
  have : news' = news := by
    have e := congrArg IterCtx.stack (e2'.symm.trans e2)
    exact List.append_cancel_right e
  subst this
  subst e2
  subst e1
  have hdel : ∀ n ∈ (node.deletedKeys.map (inheritFilterState node.key.filterState)).reverse, AllDel n := by
    intro n hn
    obtain ⟨d, hd, rfl⟩ := List.mem_map.1 (List.mem_reverse.1 hn)
    exact inheritFilterState_allDel _ d (hnode.del d hd)
  have hlive : liveOffs ((node.deletedKeys.map (inheritFilterState node.key.filterState)).reverse
      ++ (news' ++ rest)) = news'.map (·.key.fileOffset) ++ liveOffs rest := by
    rw [liveOffs_append, liveOffs_none _ (fun n hn => ((allDel_iff n).1 (hdel n hn)).1),
      liveOffs_append, liveOffs_all news' (fun n hn => (hkids n hn).1)]
    rfl
  have hstk : liveOffs ctx.stack = liveOffs [node] ++ liveOffs rest := by rw [hs, ← liveOffs_append]; rfl
  generalize hB : liveOffs (bumpTop ctx.ret) = B
  have hB' : liveOffs ctx.ret = B := by rw [← hB, (bumpTop_keeps ctx.ret).1]
  have hmem : ∀ x, x ∈ (news'.map (·.key.fileOffset) ++ liveOffs rest) ++ ((liveOffs [node] ++ B) ++ D) ↔
      x ∈ news'.map (·.key.fileOffset) ∨ x ∈ liveOffs ctx.stack ++ (liveOffs ctx.ret ++ D) := by
    intro x
    rw [hstk, hB']
    simp only [List.mem_append]
    grind
  have hret : ∀ x, x ∈ liveOffs [node] → node.key.cellState = .Allocated ∧ node.key.fileOffset = x := by
    intro x hx
    obtain ⟨m, hm, g⟩ := mem_liveOffs.1 hx
    cases List.mem_singleton.1 hm
    exact g
  have hl1 : ∀ k : Node, liveOffs (k :: bumpTop ctx.ret) = liveOffs [k] ++ B := by
    intro k; rw [← hB, ← liveOffs_append]; rfl
  have hl2 : liveOffs [(pushDeleted (node.setKey { node.key with logs := lg, subKeyOffsets := so, toReturn := tr })
      { ctx with state := { ctx.state with rootOffset := ro }, stack := news' ++ rest, seen := news'.map (·.key.fileOffset) ++ ctx.seen }).1]
      = liveOffs [node] := by
    rw [liveOffs_cons, liveOffs_cons]
    rfl
  refine ⟨h.state, h.filter, ?_, ?_, ?_, ?_, ?_, ?_, ?_, ?_⟩
  · intro n hn
    rcases List.mem_append.1 hn with hn | hn
    · obtain ⟨a1, a2⟩ := (allDel_iff _).1 (hdel n hn)
      exact ⟨a2, fun ha => absurd ha a1, fun ha => absurd ha a1⟩
    · rcases List.mem_append.1 hn with hn | hn
      · exact (hkids n hn).2.1
      · exact h.cells n (by rw [hs]; exact List.mem_cons_of_mem _ hn)
  · intro n hn
    rcases List.mem_append.1 hn with hn | hn
    · obtain ⟨d, hd, rfl⟩ := List.mem_map.1 (List.mem_reverse.1 hn)
      cases d
      exact hmark
    · rcases hmarks n hn with hn | hn
      · exact h.marks n (by rw [hs]; exact List.mem_cons_of_mem _ hn)
      · exact hn
  · intro n hn
    rcases List.mem_cons.1 hn with rfl | hn
    · exact hmark
    · exact (bumpTop_keeps ctx.ret).2 h.marksRet n hn
  · intro x hx
    show x ∈ liveOffs (_ ++ (news' ++ rest)) ++ (liveOffs (_ :: bumpTop ctx.ret) ++ D)
    refine Eq.mpr (congrArg (fun l => x ∈ l ++ (liveOffs (_ :: bumpTop ctx.ret) ++ D)) hlive) ?_
    rw [hl1, hl2, hmem]
    rcases List.mem_append.1 hx with hx | hx
    · exact .inl hx
    · exact .inr (h.seen x hx)
  · intro x hx
    replace hx : x ∈ liveOffs (_ ++ (news' ++ rest)) ++ (liveOffs (_ :: bumpTop ctx.ret) ++ D) := hx
    replace hx := Eq.mp (congrArg (fun l => x ∈ l ++ (liveOffs (_ :: bumpTop ctx.ret) ++ D)) hlive) hx
    rw [hl1, hl2, hmem] at hx
    rcases hx with hx | hx
    · exact List.mem_append.2 (.inl hx)
    · exact List.mem_append.2 (.inr (h.known x hx))
  · intro x hx y hy
    replace hx : x ∈ liveOffs (_ :: bumpTop ctx.ret) ++ D := hx
    rw [hl1, hl2] at hx
    rcases List.mem_append.1 hx with hx | hx
    · rcases List.mem_append.1 hx with hx | hx
      · obtain ⟨g1, rfl⟩ := hret x hx
        exact hall h.filter g1 y hy
      · exact List.mem_append.2 (.inr (h.closed x (List.mem_append.2 (.inl (by rw [hB']; exact hx))) y hy))
    · exact List.mem_append.2 (.inr (h.closed x (List.mem_append.2 (.inr hx)) y hy))
  · show (liveOffs (_ ++ (news' ++ rest)) ++ (liveOffs (_ :: bumpTop ctx.ret) ++ D)).Nodup
    refine Eq.mpr (congrArg (fun l => (l ++ (liveOffs (_ :: bumpTop ctx.ret) ++ D)).Nodup) hlive) ?_
    rw [hl1, hl2]
    have hold := h.nodup
    rw [hstk, hB'] at hold
    have hperm : ((liveOffs [node] ++ liveOffs rest) ++ (B ++ D)).Perm (liveOffs rest ++ ((liveOffs [node] ++ B) ++ D)) := by
      rw [List.append_assoc, List.append_assoc]
      exact List.perm_append_comm_assoc _ _ _
    have hnd2 := hperm.nodup_iff.1 hold
    rw [List.append_assoc, List.nodup_append]
    refine ⟨hnd, hnd2, ?_⟩
    intro a ha b hb hab
    subst hab
    obtain ⟨m, hm, rfl⟩ := List.mem_map.1 ha
    refine hns m hm (h.known _ ?_)
    rw [hstk, hB']
    exact hperm.mem_iff.2 hb
  · intro x hx
    rcases List.mem_append.1 hx with hx | hx
    · obtain ⟨m, hm, rfl⟩ := List.mem_map.1 hx
      obtain ⟨_, _, q3, q4⟩ := hkids m hm
      refine hR _ _ (h.within _ (h.known _ ?_)) q4
      rw [hstk]
      exact List.mem_append.2 (.inl (List.mem_append.2 (.inl (mem_liveOffs.2 ⟨node, List.mem_singleton.2 rfl, q3, rfl⟩))))
    · exact h.within x hx

/-- A call of `next`: a key is given, or nothing is left. -/
theorem nextPost_inv (env : Env) (R : Nat → Prop) (hR : ∀ o y, R o → KidAt env o y → R y) (D : List Nat) :
    ∀ (s : Nat) (ctx : IterCtx), PostInv env R ctx D →
      (∀ n ctx', nextPost env s ctx = some (.ok (some n, ctx')) → PostInv env R ctx' (liveOffs [n] ++ D)) ∧
      (∀ ctx', nextPost env s ctx = some (.ok (none, ctx')) → ctx'.stack = [] ∧ ctx'.ret = [] ∧ PostInv env R ctx' D ∧
        ∀ x ∈ ctx.seen, x ∈ ctx'.seen) ∧
      (∀ n ctx', nextPost env s ctx = some (.ok (some n, ctx')) → ∀ x ∈ ctx.seen, x ∈ ctx'.seen) := by
  intro s
  induction s with
  | zero => intro ctx _; exact ⟨nofun, nofun, nofun⟩
  | succ s ih =>
    intro ctx h
    rw [nextPost]
    cases hstk : ctx.stack with
    | nil =>
      simp only
      cases hr : ctx.ret with
      | nil =>
        simp only
        refine ⟨nofun, ?_, nofun⟩
        intro ctx' e
        cases e
        exact ⟨hstk, hr, h, fun _ hx => hx⟩
      | cons n ns =>
        simp only
        have : (ctx.includeAncestors || n.key.filterState != some .None) = true := by
          have := h.marksRet n (by rw [hr]; exact List.mem_cons_self)
          simp [this]
        rw [if_pos this]
        refine ⟨?_, nofun, ?_⟩
        · intro m ctx' e
          cases e
          have := h.give hr
          rw [hstk] at this
          exact this
        · intro m ctx' e
          cases e
          exact fun _ hx => hx
    | cons node rest =>
      simp only
      cases hp : popFinished ctx.ret with
      | some x =>
        obtain ⟨n, ns⟩ := x
        simp only
        have hr : ctx.ret = n :: ns := by
          cases hr : ctx.ret with
          | nil => rw [hr] at hp; cases hp
          | cons a as =>
            rw [hr, popFinished] at hp
            split at hp
            · cases hp; rfl
            · cases hp
        refine ⟨?_, nofun, ?_⟩
        · intro m ctx' e
          cases e
          exact hstk ▸ h.give hr
        · intro m ctx' e
          cases e
          exact fun _ hx => hx
      | none =>
        simp only
        cases hk : pushKids env { ctx with stack := rest } node with
        | err => exact ⟨nofun, nofun, nofun⟩
        | panic => exact ⟨nofun, nofun, nofun⟩
        | ok x =>
          obtain ⟨node1, ctx1⟩ := x
          simp only
          have hnew := h.expand hR hstk hk
          have hseen : ∀ x ∈ ctx.seen, x ∈ (pushDeleted node1 ctx1).2.seen := by
            obtain ⟨_, _, hf⟩ := pushKids_facts env { ctx with stack := rest } node
            obtain ⟨_, ro, news, e2, _⟩ := hf node1 ctx1 hk
            subst e2
            exact fun x hx => List.mem_append.2 (.inr hx)
          obtain ⟨i1, i2, i3⟩ := ih _ hnew
          refine ⟨i1, fun ctx' e => ?_, fun n ctx' e x hx => i3 n ctx' e x (hseen x hx)⟩
          obtain ⟨j1, j2, j3, j4⟩ := i2 ctx' e
          exact ⟨j1, j2, j3, fun x hx => j4 x (hseen x hx)⟩

/-- The whole post-order listing: all that is marked is given, once, and so are all sub-keys. -/
theorem collect_post (env : Env) (R : Nat → Prop) (hR : ∀ o y, R o → KidAt env o y → R y) :
    ∀ (s : Nat) (ctx : IterCtx) (D : List Nat) (ns : List Node), PostInv env R ctx D →
      collect (nextPost env) s ctx = some (.ok ns) →
      ∃ E : List Nat, E.Perm (liveOffs ns ++ D) ∧ E.Nodup ∧ (∀ x ∈ ctx.seen, x ∈ E) ∧ (∀ x ∈ E, R x) ∧
        ∀ x ∈ E, ∀ y, KidAt env x y → y ∈ E := by
  intro s
  induction s with
  | zero => intro ctx D ns _ h; cases h
  | succ s ih =>
    intro ctx D ns hinv h
    obtain ⟨g1, g2, g3⟩ := nextPost_inv env R hR D (s + 1) ctx hinv
    rw [collect] at h
    split at h
    · cases h
    · cases h
    · cases h
    · rename_i ctx' hnext
      cases h
      obtain ⟨k1, k2, k3, k4⟩ := g2 ctx' hnext
      have e : liveOffs ctx'.stack ++ (liveOffs ctx'.ret ++ D) = D := by rw [k1, k2]; rfl
      have e2 : liveOffs ctx'.ret ++ D = D := by rw [k2]; rfl
      refine ⟨D, List.Perm.refl _, ?_, ?_, ?_, ?_⟩
      · rw [← e]; exact k3.nodup
      · intro x hx; rw [← e]; exact k3.seen x (k4 x hx)
      · intro x hx; exact k3.within x (k3.known x (by rw [e]; exact hx))
      · intro x hx y hy
        have := k3.seen y (k3.closed x (by rw [e2]; exact hx) y hy)
        rw [e] at this
        exact this
    · rename_i n ctx' hnext
      split at h
      · rename_i ms hc
        cases h
        obtain ⟨E, h1, h2, h3, h4, h5⟩ := ih ctx' (liveOffs [n] ++ D) ms (g1 n ctx' hnext) hc
        refine ⟨E, h1.trans ?_, h2, fun x hx => h3 x (g3 n ctx' hnext x hx), h4, h5⟩
        have : liveOffs (n :: ms) = liveOffs [n] ++ liveOffs ms := by rw [← liveOffs_append]; rfl
        rw [this, List.append_assoc]
        exact List.perm_append_comm_assoc _ _ _
      · rename_i hno
        exact absurd h (by intro h'; exact hno _ h')

/-- Why the post-order iteration ends, with any filter: every round marks a new offset, or shrinks the stack, or gives a
key that is due. -/
theorem post_ends (env : Env) (u : Nat) : ∀ (w k : Nat) (ctx : IterCtx),
    unseen env.fi.buffer.length ctx.seen = u → weightAll ctx.stack = w → ctx.ret.length = k → IterInv ctx →
    ∃ res, Runs (nextPost env) ctx res ∧ res ≠ .err ∧
      (KidsSafe env ctx.state ctx.filter ctx.getModified → res ≠ .panic) := by
  induction u using Nat.strongRecOn with
  | ind u ihu =>
    intro w
    induction w using Nat.strongRecOn with
    | ind w ihw =>
      intro k
      induction k with
      | zero =>
        intro ctx hu hw hk hinv
        have hr : ctx.ret = [] := List.length_eq_zero_iff.1 hk
        cases hs : ctx.stack with
        | nil =>
          exact ⟨.ok [], ⟨1, by rw [collect, nextPost, hs, hr]⟩, by simp, by simp⟩
        | cons node rest => exact expand_ends hu hw hinv hs (by rw [hr]; rfl) ihu ihw
      | succ k ihk =>
        intro ctx hu hw hk hinv
        cases hr : ctx.ret with
        | nil => rw [hr] at hk; cases hk
        | cons n ns =>
          have hk' : ns.length = k := by rw [hr] at hk; simpa using hk
          obtain ⟨res, h1, h2, h3⟩ := ihk { ctx with ret := ns } hu hw hk' ⟨hinv.state, hinv.stackDel, hinv.nodup, hinv.marked⟩
          have hemit : (∃ s, nextPost env s ctx = some (.ok (some n, { ctx with ret := ns }))) →
              ∃ res, Runs (nextPost env) ctx res ∧ res ≠ .err ∧
                (KidsSafe env ctx.state ctx.filter ctx.getModified → res ≠ .panic) := by
            rintro ⟨s, hs⟩
            refine ⟨consRes n res, runs_emit (fuelMono_post env) s hs h1, ?_, fun hsafe => ?_⟩
            · cases res <;> simp [consRes] at h2 ⊢
            · have := h3 hsafe
              cases res <;> simp [consRes] at this ⊢
          cases hs : ctx.stack with
          | nil =>
            by_cases hc : (ctx.includeAncestors || n.key.filterState != some .None) = true
            · refine hemit ⟨1, ?_⟩
              rw [nextPost, hs, hr]
              simp only
              rw [if_pos hc]
            · refine ⟨.ok [], ⟨1, ?_⟩, by simp, by simp⟩
              rw [collect, nextPost, hs, hr]
              simp only
              rw [if_neg hc]
          | cons node rest =>
            cases hp : popFinished ctx.ret with
            | some x =>
              obtain ⟨n', ns'⟩ := x
              have : n' = n ∧ ns' = ns := by
                rw [hr, popFinished] at hp
                split at hp
                · cases hp; exact ⟨rfl, rfl⟩
                · cases hp
              obtain ⟨rfl, rfl⟩ := this
              refine hemit ⟨1, ?_⟩
              rw [nextPost, hs]
              simp only [hp]
            | none => exact expand_ends hu hw hinv hs hp ihu ihw
where
  expand_ends {env : Env} {u w : Nat} {ctx : IterCtx} {node : Node} {rest : List Node}
      (hu : unseen env.fi.buffer.length ctx.seen = u) (hw : weightAll ctx.stack = w) (hinv : IterInv ctx)
      (hs : ctx.stack = node :: rest) (hpop : popFinished ctx.ret = none)
      (ihu : ∀ m < u, ∀ (w k : Nat) (ctx : IterCtx), unseen env.fi.buffer.length ctx.seen = m → weightAll ctx.stack = w →
        ctx.ret.length = k → IterInv ctx → ∃ res, Runs (nextPost env) ctx res ∧ res ≠ .err ∧
          (KidsSafe env ctx.state ctx.filter ctx.getModified → res ≠ .panic))
      (ihw : ∀ m < w, ∀ (k : Nat) (ctx : IterCtx), unseen env.fi.buffer.length ctx.seen = u → weightAll ctx.stack = m →
        ctx.ret.length = k → IterInv ctx → ∃ res, Runs (nextPost env) ctx res ∧ res ≠ .err ∧
          (KidsSafe env ctx.state ctx.filter ctx.getModified → res ≠ .panic)) :
      ∃ res, Runs (nextPost env) ctx res ∧ res ≠ .err ∧
        (KidsSafe env ctx.state ctx.filter ctx.getModified → res ≠ .panic) := by
    obtain ⟨hne, hpan, _⟩ := pushKids_facts env { ctx with stack := rest } node
    cases hp : pushKids env { ctx with stack := rest } node with
    | err => exact absurd hp hne
    | panic =>
      refine ⟨.panic, ⟨1, ?_⟩, by simp, fun hk => absurd (hpan hp) (hk ctx.state.rootOffset node)⟩
      rw [collect, nextPost, hs]
      simp only [hpop, hp]
    | ok x =>
      obtain ⟨node', ctx'⟩ := x
      have hinv' := expand_inv env ctx node node' rest ctx' hinv hs hp
      have hstep : ∀ s, nextPost env (s + 1) ctx = nextPost env s { (pushDeleted node' ctx').2 with
          ret := (pushDeleted node' ctx').1 :: bumpTop (pushDeleted node' ctx').2.ret } := by
        intro s
        rw [nextPost, hs]
        simp only [hpop, hp]
      generalize pushDeleted node' ctx' = p at hinv' hstep
      obtain ⟨n2, ctx2⟩ := p
      simp only at hinv' hstep
      obtain ⟨hi, _, _, hfl, hgm, _, _, ⟨ro, hst⟩, _, _, hmeas⟩ := hinv'
      have hi2 : IterInv { ctx2 with ret := n2 :: bumpTop ctx2.ret } := ⟨hi.state, hi.stackDel, hi.nodup, hi.marked⟩
      have hrec : ∃ res, Runs (nextPost env) { ctx2 with ret := n2 :: bumpTop ctx2.ret } res ∧ res ≠ .err ∧
          (KidsSafe env ctx2.state ctx2.filter ctx2.getModified → res ≠ .panic) := by
        rcases hmeas with hm | ⟨hm, hm2⟩
        · exact ihu _ (hu ▸ hm) _ _ _ rfl rfl rfl hi2
        · exact ihw _ (hw ▸ hm2) _ _ (hm.trans hu) rfl rfl hi2
      obtain ⟨res, h1, h2, h3⟩ := hrec
      refine ⟨res, runs_skip (fuelMono_post env) hstep h1, h2, fun hk => h3 ?_⟩
      intro r nd
      rw [hst, hfl, hgm]
      exact hk r nd

end Notatin
