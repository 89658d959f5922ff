import Verif.Props.SafeLookup
/-
Looking up keys of a hive of which nothing more is known than that what is on record can be attached and is deleted:
the keys of the file are found, and the recovered ones have no sub-keys to be read (for C86, after log entries have
been applied).
-/
namespace Notatin
open Spec

/-- A key of the file, or one that is deleted; what is attached to it is deleted. -/
structure Known (env : Env) (n : Node) : Prop where
  nums : n.key.cellState = .Allocated → CellNums env n
  del : DelOk n

theorem Known.congr {env : Env} {n : Node} (h : Known env n) (k : KeyNode) (h0 : k.cellState = n.key.cellState)
    (h1 : k.nSubKeys = n.key.nSubKeys) (h2 : k.subKeysListOffset = n.key.subKeysListOffset) : Known env (n.setKey k) := by
  cases n
  exact ⟨fun hc => (h.nums (h0.symm.trans hc)).congr k h1 h2, h.del⟩

theorem readKey_known {env : Env} {st : State} {o : ReadOptions} {n : Node} {ro : Nat}
    (hst : StateSafe env st) (h : readKey env st o = .ok (some n, ro)) : Known env n := by
  obtain ⟨h1, h2, h3, h4, _⟩ := readKey_cell_del env st o n ro hst.del h
  exact ⟨fun _ => .inr ⟨o.offset, h2, h3, h4⟩, h1⟩

theorem readKey_live_safe (env : Env) (st : State) (o : ReadOptions) (hst : StateSafe env st)
    (hf : ∀ st k, filterStep st o.filter k ≠ .panic) : readKey env st o ≠ .panic :=
  (readKey_safe env st o (fun _ => True) hst.attach
    (fun k _ => ⟨hf st k, fun _ _ _ => trivial⟩)).1

theorem readSubKeysLoop_live (env : Env) (st : State) (hst : StateSafe env st)
    (path : Str) (f : Filter) (sf : Option Filter) (hf : ∀ st k, filterStep st sf k ≠ .panic) (sm : Bool)
    (seq : Option Nat) (gm : Bool) : ∀ (offs : List Nat) (ro : Nat) (logs : Logs),
    ∃ ns fd lg ro', readSubKeysLoop env st path f sf sm seq gm offs ro logs = .ok (ns, fd, lg, ro') ∧
      ∀ n ∈ ns, Known env n ∧ path.count '\\' + 1 ≤ n.key.path.count '\\' ∧
        ∃ (st : State) (k : KeyNode) (fl : FilterFlags) (r : Nat), filterStep st sf k = .ok (fl, r) ∧ fl ≠ .noMatch ∧ k.path = n.key.path := by
  intro offs
  induction offs with
  | nil => intro ro logs; exact ⟨_, _, _, _, by rw [readSubKeysLoop], by intro n hn; cases hn⟩
  | cons o os ih =>
    intro ro logs
    have hst' := hst.at ro
    have hsafe := readKey_live_safe env { st with rootOffset := ro } ⟨o, path, sf, sm, seq, gm⟩ hst' hf
    rw [readSubKeysLoop]
    cases hr : readKey env { st with rootOffset := ro } ⟨o, path, sf, sm, seq, gm⟩ with
    | panic => exact absurd hr hsafe
    | err => exact ih _ _
    | ok x =>
      obtain ⟨on, ro1⟩ := x
      cases on with
      | none => exact ih _ _
      | some n =>
        obtain ⟨ns, fd, lg, ro', h1, h2⟩ := ih ro1 logs
        simp only [h1]
        refine ⟨_, _, _, _, rfl, ?_⟩
        intro m hm
        rcases List.mem_cons.1 hm with rfl | hm
        · obtain ⟨_, _, _, _, name, hp⟩ := readKey_cell_of env _ _ n ro1 (fun _ => True) (fun _ => ⟨trivial, fun _ _ => trivial⟩) hr
          obtain ⟨k, fl, r, p1, p2, p3⟩ := readKey_passes env _ _ n ro1 hr
          refine ⟨(readKey_known hst' hr).congr _ rfl rfl rfl, ?_, _, k, fl, r, p1, p2, p3⟩
          show _ ≤ n.key.path.count '\\'
          rw [hp, List.count_append, List.count_cons_self]
          show path.count '\\' + 1 ≤ path.count '\\' + _
          omega
        · exact h2 m hm

/-- Reading the sub-keys of a key of the file: it ends well when the list does. -/
theorem readSubKeysInternal_live (env : Env) (st : State) (hst : StateSafe env st)
    (n : Node) (hn : Known env n)
    (hl : n.key.cellState = .Allocated → 0 < n.key.nSubKeys → n.key.nSubKeys ≤ 1048576 →
      parseSubKeyList env.fi env.depth n.key.subKeysListOffset ≠ .panic)
    (f : Filter) (hf : ∀ sf : Option Filter, (sf = some f ∨ sf = none ∧ f.returnSubKeys = true) → ∀ st k, filterStep st sf k ≠ .panic)
    (seq : Option Nat) (gm : Bool) :
    ∃ r, readSubKeysInternal env st n f seq gm = .ok r ∧ Known env r.self ∧ ∀ m ∈ r.children, Known env m ∧
      n.key.path.count '\\' + 1 ≤ m.key.path.count '\\' ∧ (f.returnSubKeys = false →
        ∃ (st : State) (k : KeyNode) (fl : FilterFlags) (r : Nat), filterStep st (some f) k = .ok (fl, r) ∧ fl ≠ .noMatch ∧ k.path = m.key.path) := by
  unfold readSubKeysInternal
  simp only
  by_cases h1 : n.key.cellState = .Allocated
  · rw [if_pos h1]
    by_cases h2 : n.key.nSubKeys > 1024 * 1024
    · rw [if_pos h2]
      exact ⟨_, rfl, hn.congr _ rfl rfl rfl, by intro m hm; cases hm⟩
    · rw [if_neg h2]
      by_cases h3 : 0 < n.key.nSubKeys
      · rw [if_pos h3]
        cases hp : parseSubKeyList env.fi env.depth n.key.subKeysListOffset with
        | panic => exact absurd hp (hl h1 h3 (by omega))
        | err => exact ⟨_, rfl, hn.congr _ rfl rfl rfl, by intro m hm; cases hm⟩
        | ok offs =>
          simp only
          have hsf : (if (n.key.isFilterMatchOrDescendent && f.returnSubKeys) = true then none else some f) = some f ∨
              (if (n.key.isFilterMatchOrDescendent && f.returnSubKeys) = true then none else some f) = none ∧
                f.returnSubKeys = true := by
            by_cases hx : (n.key.isFilterMatchOrDescendent && f.returnSubKeys) = true
            · rw [if_pos hx]; exact .inr ⟨rfl, (Bool.and_eq_true_iff.1 hx).2⟩
            · rw [if_neg hx]; exact .inl rfl
          obtain ⟨ns, fd, lg, ro', g1, g2⟩ := readSubKeysLoop_live env st hst n.key.path f _ (hf _ hsf)
            n.key.isFilterMatchOrDescendent seq gm offs st.rootOffset n.key.logs
          rw [g1]
          refine ⟨_, rfl, hn.congr _ rfl rfl rfl, ?_⟩
          intro m hm
          obtain ⟨a1, a2, a3⟩ := g2 m hm
          refine ⟨a1, a2, fun hns => ?_⟩
          rw [if_neg (by simp [hns])] at a3
          exact a3
      · rw [if_neg h3]
        exact ⟨_, rfl, hn, by intro m hm; cases hm⟩
  · rw [if_neg h1]
    exact ⟨_, rfl, hn, by intro m hm; cases hm⟩

/-- The search by path ends well when there is room for as many calls as the filter has components. -/
theorem getSubKeyInternal_live (env : Env)
    (hlists : ∀ o, slice env.fi.buffer (o + 4) 2 = [0x6E, 0x6B] → 0 < u32At env.fi.buffer (o + 24) →
      u32At env.fi.buffer (o + 24) ≤ 1048576 →
      parseSubKeyList env.fi env.depth (u32At env.fi.buffer (o + 32)) ≠ .panic)
    (f : Filter) (q : RegQuery) (hq : f.query = some q) (hr : q.hasRoot = true) (hch : q.children = false) :
    ∀ (fuel : Nat) (st : State) (n : Node), StateSafe env st → Known env n → 0 < fuel →
      q.keyPath.length ≤ fuel + n.key.path.count '\\' →
      ∃ x ro, getSubKeyInternal env f none fuel st n = .ok (x, ro) ∧ ∀ m, x = some m → Known env m := by
  have hret : f.returnSubKeys = false := by unfold Filter.returnSubKeys; rw [hq]; exact hch
  intro fuel
  induction fuel with
  | zero => intro st n _ _ h; exact absurd h (by omega)
  | succ fuel ih =>
    intro st n hst hn _ hlen
    rw [getSubKeyInternal]
    obtain ⟨r, h1, _, h2⟩ := readSubKeysInternal_live env st hst n hn
      (by
        intro al a b
        obtain c0 | ⟨o, c1, c2, c3⟩ := hn.nums al
        · omega
        rw [c3]
        rw [c2] at a b
        exact hlists o c1 a b)
      f (by
        rintro sf (rfl | ⟨_, h⟩) st k
        · obtain ⟨fl, ro, he, _⟩ := filterStep_rooted st f q hq hr k
          rw [he]; simp
        · rw [hret] at h; cases h) none false
    rw [h1]
    simp only
    by_cases hfd : r.found = true
    · rw [if_pos hfd]
      exact ⟨_, _, rfl, fun m hm => (h2 m (List.mem_of_mem_head? hm)).1⟩
    · rw [if_neg hfd]
      have hgo : ∀ (cs : List Node) (ro : Nat), (∀ m ∈ cs, m ∈ r.children) →
          ∃ x ro', getSubKeyInternal.goKids
            (fun ro c => getSubKeyInternal env f none fuel { st with rootOffset := ro } c) ro cs = .ok (x, ro') ∧
            ∀ m, x = some m → Known env m := by
        intro cs
        induction cs with
        | nil => intro ro _; exact ⟨_, _, by rw [getSubKeyInternal.goKids], by intro m hm; cases hm⟩
        | cons c cs ihc =>
          intro ro hmem
          obtain ⟨c1, c2, c3⟩ := h2 c (hmem c List.mem_cons_self)
          obtain ⟨st', k, fl, r', p1, p2, p3⟩ := c3 hret
          obtain ⟨fl', ro'', e1, e2⟩ := filterStep_rooted st' f q hq hr k
          rw [p1] at e1
          cases e1
          have e2 := e2 p2
          rw [p3] at e2
          obtain ⟨x, ro', i1, i2⟩ := ih { st with rootOffset := ro } c (hst.at ro) c1 (by omega) (by omega)
          rw [getSubKeyInternal.goKids]
          rw [i1]
          cases x with
          | none => exact ihc _ (fun m hm => hmem m (List.mem_cons_of_mem _ hm))
          | some m => exact ⟨_, _, rfl, i2⟩
      exact hgo r.children r.rootOffset (fun _ h => h)

theorem getSubKeyByPath_live (env : Env) (hd : 0 < env.depth)
    (hlists : ∀ o, slice env.fi.buffer (o + 4) 2 = [0x6E, 0x6B] → 0 < u32At env.fi.buffer (o + 24) →
      u32At env.fi.buffer (o + 24) ≤ 1048576 →
      parseSubKeyList env.fi env.depth (u32At env.fi.buffer (o + 32)) ≠ .panic)
    (st : State) (hst : StateSafe env st) (n : Node) (hn : Known env n) (sub : Str)
    (hlen : sub.count '\\' + 2 ≤ env.depth) :
    ∃ x ro, getSubKeyByPath env st n sub = .ok (x, ro) ∧ ∀ m, x = some m → Known env m := by
  unfold getSubKeyByPath
  by_cases hs : sub = []
  · rw [if_pos hs]
    exact ⟨_, _, rfl, by intro m hm; cases hm; exact hn⟩
  · rw [if_neg hs]
    obtain ⟨l1, l2⟩ := pushLit_length (splitBackslash (trimEndBackslash (n.key.path ++ '\\' :: sub))) {}
    have hb : ((({} : FilterBuilder).addKeyPath (n.key.path ++ '\\' :: sub)).keyPathHasRoot true).build =
        .ok { query := some {
          keyPath := (({} : FilterBuilder).addKeyPath (n.key.path ++ '\\' :: sub)).keyPath
          hasRoot := true
          children := (({} : FilterBuilder).addKeyPath (n.key.path ++ '\\' :: sub)).children } } := by
      unfold FilterBuilder.build
      rw [if_pos (by exact l2)]
      rfl
    rw [hb]
    have hch : ∀ (l : List Str) (b : FilterBuilder), (l.foldl FilterBuilder.pushLit b).children = b.children := by
      intro l
      induction l with
      | nil => intro b; rfl
      | cons a as ih => intro b; rw [List.foldl_cons, ih]; rfl
    refine getSubKeyInternal_live env hlists _ _ rfl rfl (hch _ _) env.depth st n hst hn hd ?_
    show (({} : FilterBuilder).addKeyPath (n.key.path ++ '\\' :: sub)).keyPath.length ≤ _
    unfold FilterBuilder.addKeyPath
    rw [l1, splitBackslash_length]
    have := trimEnd_count (n.key.path ++ '\\' :: sub)
    rw [List.count_append, List.count_cons_self] at this
    show 0 + _ ≤ _
    omega

/-- What the search by path finds is a key of the file. -/
theorem found_known (env : Env) (f : Filter) (fuel : Nat) (st : State) (self n : Node) (ro : Nat)
    (hst : StateSafe env st) (h : getSubKeyInternal env f none fuel st self = .ok (some n, ro)) :
    Known env n := by
  induction fuel generalizing st self n ro with
  | zero => rw [getSubKeyInternal] at h; cases h
  | succ fuel ih =>
    rw [getSubKeyInternal] at h
    cases hr : readSubKeysInternal env st self f none false with
    | err => rw [hr] at h; cases h
    | panic => rw [hr] at h; cases h
    | ok r =>
      rw [hr] at h
      simp only at h
      have hall := readSubKeysInternal_all env (Known env) (fun st => StateSafe env st) false
        (fun _ _ => True) (fun _ => True) (fun _ ro h => h.at ro)
        (fun st o n ro hst _ _ _ hr => readKey_known hst hr) (fun n sm v hn => hn.congr _ rfl rfl rfl)
        st self f none r hst ⟨trivial, trivial⟩ trivial hr
      by_cases hf : r.found = true
      · rw [if_pos hf] at h
        simp only [Res.ok.injEq, Prod.mk.injEq] at h
        exact hall n (List.mem_of_mem_head? h.1)
      · rw [if_neg hf] at h
        have hgo : ∀ (cs : List Node) (ro0 : Nat), getSubKeyInternal.goKids
            (fun ro c => getSubKeyInternal env f none fuel { st with rootOffset := ro } c) ro0 cs
            = .ok (some n, ro) → Known env n := by
          intro cs
          induction cs with
          | nil => intro ro0 h; rw [getSubKeyInternal.goKids] at h; cases h
          | cons c cs ihc =>
            intro ro0 h
            rw [getSubKeyInternal.goKids] at h
            cases hc : getSubKeyInternal env f none fuel { st with rootOffset := ro0 } c with
            | err => rw [hc] at h; cases h
            | panic => rw [hc] at h; cases h
            | ok x =>
              obtain ⟨on, ro1⟩ := x
              rw [hc] at h
              cases on with
              | none => exact ihc ro1 h
              | some m =>
                cases h
                exact ih { st with rootOffset := ro0 } c _ _ (hst.at ro0) hc
        exact hgo _ _ h

theorem get_key_known (w : World) (hd : 0 < w.depth) (p : HiveParser) (ho : SafeOpen w p)
    (hs : SaneLists p.env.fi.buffer w.depth) (hroot : 0 ≤ p.header.base.rootCellOffset) (ro : Nat) (path : Str)
    (hasRoot : Bool) (hlen : path.count '\\' + 2 ≤ w.depth) :
    ∃ x ro', getKey p.env (p.after ro) p.header.base.rootCellOffset path hasRoot = .ok (x, ro') ∧
      ∀ n, x = some n → Known p.env n := by
  have hdep : p.env.depth = w.depth := by rw [ho.env]; rfl
  have hfi : p.env.fi = ⟨4096, p.env.fi.buffer⟩ := by
    conv => lhs; rw [ho.env]
    rfl
  have hlists : ∀ o, slice p.env.fi.buffer (o + 4) 2 = [0x6E, 0x6B] → 0 < u32At p.env.fi.buffer (o + 24) →
      u32At p.env.fi.buffer (o + 24) ≤ 1048576 →
      parseSubKeyList p.env.fi p.env.depth (u32At p.env.fi.buffer (o + 32)) ≠ .panic := by
    intro o h1 h2 h3
    rw [hdep, hfi]
    exact parseSubKeyList_safe _ _ _ (hs o h1 h2 h3)
  have hst : StateSafe p.env (p.after ro) := ho.state.at ro
  have hr : getRootKey p.env (p.after ro) p.header.base.rootCellOffset ≠ .panic := by
    unfold getRootKey
    rw [if_neg (by omega)]
    exact readKey_live_safe _ _ _ hst (fun st k => filterStep_free st none nofun k)
  unfold getKey
  cases hg : getRootKey p.env (p.after ro) p.header.base.rootCellOffset with
  | panic => exact absurd hg hr
  | err => exact ⟨_, _, rfl, nofun⟩
  | ok x =>
    obtain ⟨on, ro1⟩ := x
    cases on with
    | none => exact ⟨_, _, rfl, nofun⟩
    | some n =>
      simp only
      have hn : Known p.env n := by
        unfold getRootKey at hg
        rw [if_neg (by omega)] at hg
        exact readKey_known hst hg
      have := lookupPath_count path hasRoot
      exact getSubKeyByPath_live p.env (by rw [hdep]; exact hd) hlists (p.after ro1) (ho.state.at ro1) n hn (lookupPath path hasRoot) (by rw [hdep]; omega)

theorem getSubKeyByIndex_known (env : Env)
    (hlists : ∀ o, slice env.fi.buffer (o + 4) 2 = [0x6E, 0x6B] → 0 < u32At env.fi.buffer (o + 24) →
      parseSubKeyList env.fi env.depth (u32At env.fi.buffer (o + 32)) ≠ .panic)
    (st : State) (hst : StateSafe env st) (n : Node) (hn : Known env n) (i : Nat) :
    (n.key.cellState = .Allocated → ∃ x n', getSubKeyByIndex env st n i = .ok (x, n')) ∧
    ∀ x n', getSubKeyByIndex env st n i = .ok (x, n') → Known env n' ∧ ∀ m, x = some m → Known env m := by
  unfold getSubKeyByIndex
  simp only
  by_cases h0 : 0 < n.key.nSubKeys
  · rw [if_pos h0]
    have hl : n.key.cellState = .Allocated → parseSubKeyList env.fi env.depth n.key.subKeysListOffset ≠ .panic := by
      intro al
      obtain c0 | ⟨o, c1, c2, c3⟩ := hn.nums al
      · omega
      rw [c3]
      exact hlists o c1 (by omega)
    cases hp : parseSubKeyList env.fi env.depth n.key.subKeysListOffset with
    | panic => exact ⟨fun al => absurd hp (hl al), nofun⟩
    | err => exact ⟨fun _ => ⟨_, _, rfl⟩, by rintro x n' h; cases h; exact ⟨hn.congr _ rfl rfl rfl, nofun⟩⟩
    | ok offs =>
      simp only
      cases offs[i]? with
      | none => exact ⟨fun _ => ⟨_, _, rfl⟩, by rintro x n' h; cases h; exact ⟨hn, nofun⟩⟩
      | some off =>
        simp only
        have hr := readKey_live_safe env st ⟨off, n.key.path, none, n.key.isFilterMatchOrDescendent, none, true⟩ hst
          (fun st k => filterStep_free st none nofun k)
        cases hk : readKey env st ⟨off, n.key.path, none, n.key.isFilterMatchOrDescendent, none, true⟩ with
        | panic => exact absurd hk hr
        | err => exact ⟨fun _ => ⟨_, _, rfl⟩, by rintro x n' h; cases h; exact ⟨hn.congr _ rfl rfl rfl, nofun⟩⟩
        | ok x =>
          obtain ⟨on, ro⟩ := x
          cases on with
          | none => exact ⟨fun _ => ⟨_, _, rfl⟩, by rintro x n' h; cases h; exact ⟨hn, nofun⟩⟩
          | some m =>
            exact ⟨fun _ => ⟨_, _, rfl⟩, by
              rintro x n' h; cases h; exact ⟨hn, by intro m' hm; cases hm; exact readKey_known hst hk⟩⟩
  · rw [if_neg h0]
    exact ⟨fun _ => ⟨_, _, rfl⟩, by rintro x n' h; cases h; exact ⟨hn, nofun⟩⟩

theorem nextSubKey_known (env : Env)
    (hlists : ∀ o, slice env.fi.buffer (o + 4) 2 = [0x6E, 0x6B] → 0 < u32At env.fi.buffer (o + 24) →
      parseSubKeyList env.fi env.depth (u32At env.fi.buffer (o + 32)) ≠ .panic)
    (st : State) (hst : StateSafe env st) (n : Node) (hn : Known env n) :
    (n.key.cellState = .Allocated → ∃ x n', nextSubKey env st n = .ok (x, n')) ∧
    ∀ x n', nextSubKey env st n = .ok (x, n') → Known env n' ∧ ∀ m, x = some m → Known env m := by
  obtain ⟨h1, h2⟩ := getSubKeyByIndex_known env hlists st hst n hn n.key.iterIndex
  unfold nextSubKey
  cases hg : getSubKeyByIndex env st n n.key.iterIndex with
  | panic =>
    refine ⟨fun al => ?_, nofun⟩
    obtain ⟨x, n', e⟩ := h1 al
    rw [hg] at e
    cases e
  | err =>
    refine ⟨fun al => ?_, nofun⟩
    obtain ⟨x, n', e⟩ := h1 al
    rw [hg] at e
    cases e
  | ok y =>
    obtain ⟨x, n'⟩ := y
    obtain ⟨h3, h4⟩ := h2 x n' hg
    cases x with
    | none => exact ⟨fun _ => ⟨_, _, rfl⟩, by rintro x n' h; cases h; exact ⟨h3, nofun⟩⟩
    | some m =>
      exact ⟨fun _ => ⟨_, _, rfl⟩, by
        rintro x n' h; cases h; exact ⟨h3.congr _ rfl rfl rfl, h4⟩⟩

theorem readSubKeys_known (env : Env)
    (hlists : ∀ o, slice env.fi.buffer (o + 4) 2 = [0x6E, 0x6B] → 0 < u32At env.fi.buffer (o + 24) →
      parseSubKeyList env.fi env.depth (u32At env.fi.buffer (o + 32)) ≠ .panic)
    (st : State) (hst : StateSafe env st) (n : Node) (hn : Known env n) :
    ∃ ms, readSubKeys env st n = .ok ms ∧ ∀ m ∈ ms, Known env m := by
  obtain ⟨r, h1, _, h2⟩ := readSubKeysInternal_live env st hst n hn
    (by
      intro al h0 _
      obtain c0 | ⟨o, c1, c2, c3⟩ := hn.nums al
      · omega
      rw [c3]
      exact hlists o c1 (by omega))
    {} (by
      rintro sf (rfl | ⟨rfl, _⟩) st k
      · exact filterStep_free st _ (by intro g hg; cases hg; rfl) k
      · exact filterStep_free st none nofun k) none true
  unfold readSubKeys
  rw [h1]
  exact ⟨_, rfl, fun m hm => (h2 m hm).1⟩

theorem getParentKey_known (env : Env) (st : State) (hst : StateSafe env st) (n : Node) :
    (0 ≤ n.key.parentOffset → getParentKey env st n ≠ .panic) ∧
      ∀ m ro, getParentKey env st n = .ok (some m, ro) → Known env m := by
  unfold getParentKey
  by_cases h : n.key.parentOffset < 0
  · rw [if_pos h]
    exact ⟨by intro h'; omega, nofun⟩
  · rw [if_neg h]
    exact ⟨fun _ => readKey_live_safe _ _ _ hst (fun st k => filterStep_free st none nofun k),
      fun m ro hm => readKey_known hst hm⟩

/-- The keys of a listing. -/
theorem iterate_known (w : World) (p : HiveParser) (ho : SafeOpen w p) (steps : Nat) (filter : Filter) (gm anc : Bool)
    (ns : List Node) (h : p.iterate steps filter false gm anc = some (.ok ns)) : ∀ n ∈ ns, Known p.env n := by
  unfold HiveParser.iterate at h
  simp only [Bool.false_eq_true, if_false] at h
  refine collect_all p.env (Known p.env) (fun st => StateSafe p.env st) gm (fun _ _ => True) (fun _ => True)
    (fun _ ro h => h.at ro) ?_ ?_ ?_ ?_ filter ⟨trivial, trivial⟩ (fun _ _ => trivial) steps _ ns rfl rfl ho.state ?_ h
  · intro st o n ro hst _ _ _ hr
    exact readKey_known hst hr
  · intro n sm v hn; exact hn.congr _ rfl rfl rfl
  · intro n lg so tr hn; exact hn.congr _ rfl rfl rfl
  · intro n hn
    have hdel : ∀ fs, ∀ d ∈ n.deletedKeys, AllDel (inheritFilterState fs d) :=
      fun fs d hd => inheritFilterState_allDel fs d (hn.del d hd)
    refine ⟨fun d hd => ?_, hn.nums, ?_⟩
    · obtain ⟨h1, h2⟩ := (allDel_iff _).1 (hdel n.key.filterState d hd)
      exact ⟨fun al => absurd al h1, h2⟩
    · intro d hd
      obtain ⟨d', hd', rfl⟩ := List.mem_map.1 hd
      exact hdel _ d' hd'
  · intro n hn
    cases List.mem_singleton.1 hn
    cases hr : p.root with
    | none => exact ⟨fun _ => .inl rfl, nofun⟩
    | some r =>
      obtain ⟨h1, o, h2, h3, h4, _⟩ := ho.root r hr
      exact ⟨fun _ => .inr ⟨o, h2, h3, h4⟩, h1⟩

/-- Whatever way a key was obtained, it is one of the file. -/
theorem obtained_known (w : World) (hd : 0 < w.depth) (p : HiveParser) (ho : SafeOpen w p)
    (hs : SaneKeyLists p.env.fi.buffer w.depth) (n : Node) (h : Obtained p n) : Known p.env n := by
  have hdep : p.env.depth = w.depth := by rw [ho.env]; rfl
  have hfi : p.env.fi = ⟨4096, p.env.fi.buffer⟩ := by
    conv => lhs; rw [ho.env]
    rfl
  have hd' : 0 < p.env.depth := by rw [hdep]; exact hd
  have hlists : ∀ o, slice p.env.fi.buffer (o + 4) 2 = [0x6E, 0x6B] → 0 < u32At p.env.fi.buffer (o + 24) →
      parseSubKeyList p.env.fi p.env.depth (u32At p.env.fi.buffer (o + 32)) ≠ .panic := by
    intro o h1 h2
    rw [hdep, hfi]
    exact parseSubKeyList_safe _ _ _ (hs o h1 h2)
  have hst : ∀ ro, StateSafe p.env (p.after ro) := ho.state.at
  have hpath : ∀ (st : State), StateSafe p.env st → ∀ n sub m ro, Known p.env n →
      getSubKeyByPath p.env st n sub = .ok (some m, ro) → Known p.env m := by
    intro st hst n sub m ro hn h
    unfold getSubKeyByPath at h
    by_cases hs : sub = []
    · rw [if_pos hs] at h
      cases h
      exact hn
    · rw [if_neg hs] at h
      refine found_known p.env _ _ st n m ro hst h
  induction h with
  | @byPath ro path hasRoot n ro' h =>
    unfold getKey at h
    cases hg : getRootKey p.env (p.after ro) p.header.base.rootCellOffset with
    | panic => rw [hg] at h; cases h
    | err => rw [hg] at h; cases h
    | ok x =>
      obtain ⟨on, ro1⟩ := x
      rw [hg] at h
      cases on with
      | none => cases h
      | some r =>
        refine hpath _ (hst ro1) r _ n ro' ?_ h
        unfold getRootKey at hg
        split at hg
        · cases hg
        · exact readKey_known (hst ro) hg
  | listed h hn => exact iterate_known w p ho _ _ _ _ _ h _ hn
  | @byIndex n ro i m n' _ h ih => exact ((getSubKeyByIndex_known p.env hlists _ (hst ro) n ih i).2 _ _ h).2 m rfl
  | @next n ro m n' _ h ih => exact ((nextSubKey_known p.env hlists _ (hst ro) n ih).2 _ _ h).2 m rfl
  | @nextSelf n ro x n' _ h ih => exact ((nextSubKey_known p.env hlists _ (hst ro) n ih).2 _ _ h).1
  | restart _ ih => exact ih.congr _ rfl rfl rfl
  | @subKeys n ro ms m _ h hm ih =>
    obtain ⟨ms', h1, h2⟩ := readSubKeys_known p.env hlists _ (hst ro) n ih
    rw [h] at h1
    cases h1
    exact h2 m hm
  | @under n ro sub m ro' _ h ih => exact hpath _ (hst ro) n sub m ro' ih h
  | @parent n ro m ro' _ h ih => exact (getParentKey_known p.env _ (hst ro) n).2 m ro' h

/-- What can be done with a key at hand. -/
theorem obtained_live (w : World) (hd : 0 < w.depth) (p : HiveParser) (ho : SafeOpen w p)
    (hs : SaneKeyLists p.env.fi.buffer w.depth) (n : Node) (hn : Obtained p n) (ro : Nat) :
    (n.key.cellState = .Allocated → ∀ i, ∃ x n', getSubKeyByIndex p.env (p.after ro) n i = .ok (x, n')) ∧
    (n.key.cellState = .Allocated → ∃ x n', nextSubKey p.env (p.after ro) n = .ok (x, n')) ∧
    (∃ ms, readSubKeys p.env (p.after ro) n = .ok ms) ∧
    (∀ sub, sub.count '\\' + 2 ≤ w.depth → ∃ x ro', getSubKeyByPath p.env (p.after ro) n sub = .ok (x, ro')) ∧
    (0 ≤ n.key.parentOffset → getParentKey p.env (p.after ro) n ≠ .panic) := by
  have hcell := obtained_known w hd p ho hs n hn
  have hdep : p.env.depth = w.depth := by rw [ho.env]; rfl
  have hfi : p.env.fi = ⟨4096, p.env.fi.buffer⟩ := by
    conv => lhs; rw [ho.env]
    rfl
  have hd' : 0 < p.env.depth := by rw [hdep]; exact hd
  have hlists : ∀ o, slice p.env.fi.buffer (o + 4) 2 = [0x6E, 0x6B] → 0 < u32At p.env.fi.buffer (o + 24) →
      parseSubKeyList p.env.fi p.env.depth (u32At p.env.fi.buffer (o + 32)) ≠ .panic := by
    intro o h1 h2
    rw [hdep, hfi]
    exact parseSubKeyList_safe _ _ _ (hs o h1 h2)
  have hst : StateSafe p.env (p.after ro) := ho.state.at ro
  refine ⟨fun al i => ?_, fun al => ?_, ?_, fun sub hsub => ?_, (getParentKey_known p.env _ hst n).1⟩
  · exact (getSubKeyByIndex_known p.env hlists _ hst n hcell i).1 al
  · exact (nextSubKey_known p.env hlists _ hst n hcell).1 al
  · obtain ⟨ms, h, _⟩ := readSubKeys_known p.env hlists _ hst n hcell
    exact ⟨ms, h⟩
  · obtain ⟨x, ro', h, _⟩ := getSubKeyByPath_live p.env hd' (fun o a b _ => hlists o a b) _ hst n hcell sub
      (by rw [hdep]; exact hsub)
    exact ⟨x, ro', h⟩

end Notatin
