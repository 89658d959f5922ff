import Verif.Lemmas.Filter
import Verif.Props.Order
/-
C11: a filter returns exactly the keys it asks for.
-/
namespace Notatin
open Spec

/-! ### Building filters -/

theorem foldl_pushLit (b : FilterBuilder) (segs : List Str) :
    segs.foldl FilterBuilder.pushLit b
      = { b with keyPath := b.keyPath ++ (segs.map Seg.lit).map Seg.component } := by
  induction segs generalizing b with
  | nil => simp
  | cons s segs ih =>
    rw [List.foldl_cons, ih]
    simp [FilterBuilder.pushLit, Seg.component]

theorem trimEnd_ends (p : Str) (k : Nat) (h : p = [] ∨ ∃ a c, p = a ++ [c] ∧ c ≠ '\\') :
    trimEndBackslash (p ++ List.replicate k '\\') = p := by
  unfold trimEndBackslash
  rw [List.reverse_append, List.reverse_replicate]
  have : ∀ l : Str, (List.replicate k '\\' ++ l).dropWhile (· == '\\') = l.dropWhile (· == '\\') := by
    intro l
    induction k with
    | zero => rfl
    | succ k ih => rw [List.replicate_succ, List.cons_append, List.dropWhile_cons, if_pos (by decide), ih]
  rw [this]
  rcases h with rfl | ⟨a, c, rfl, hc⟩
  · rfl
  · rw [List.reverse_append, List.reverse_singleton, List.singleton_append, List.dropWhile_cons,
      if_neg (by simpa using hc)]
    simp

/-- The segments joined with backslashes. -/
def Spec.joined : List Str → Str
  | [] => []
  | [n] => n
  | n :: m :: ns => n ++ '\\' :: joined (m :: ns)

theorem joined_eq (n : Str) (ns : List Str) : joined (n :: ns) = n ++ flat ns := by
  induction ns generalizing n with
  | nil => simp [joined, flat]
  | cons m ns ih => rw [joined, ih, flat]; rfl

/-- C11: `add_key_path` of segments joined with backslashes (trailing backslashes allowed) adds
exactly these segments as literals. -/
theorem key_path_segments (b : FilterBuilder) (n : Str) (ns : List Str) (k : Nat)
    (hbs : ∀ m ∈ n :: ns, '\\' ∉ m) (hlast : (n :: ns).getLast (by simp) ≠ []) :
    b.addKeyPath (joined (n :: ns) ++ List.replicate k '\\')
      = { b with keyPath := b.keyPath ++ ((n :: ns).map Seg.lit).map Seg.component } := by
  unfold FilterBuilder.addKeyPath
  rw [trimEnd_ends, joined_eq, splitBackslash_join _ _ hbs, foldl_pushLit]
  right
  have : ∀ (ns : List Str) (n : Str), (∀ m ∈ n :: ns, '\\' ∉ m) → (n :: ns).getLast (by simp) ≠ [] →
      ∃ a c, n ++ flat ns = a ++ [c] ∧ c ≠ '\\' := by
    intro ns
    induction ns with
    | nil =>
      intro n h1 h2
      simp only [List.getLast_singleton] at h2
      refine ⟨n.dropLast, n.getLast h2, ?_, ?_⟩
      · rw [flat, List.append_nil, List.dropLast_concat_getLast]
      · intro e
        exact h1 n List.mem_cons_self (e ▸ List.getLast_mem h2)
    | cons m ns ih =>
      intro n h1 h2
      rw [List.getLast_cons (by simp)] at h2
      obtain ⟨a, c, h3, h4⟩ := ih m (fun x hx => h1 x (List.mem_cons_of_mem _ hx)) h2
      exact ⟨n ++ '\\' :: a, c, by rw [flat, List.cons_append, h3]; simp, h4⟩
  rw [joined_eq]
  exact this ns n hbs hlast

/-- C11: a literal segment is added as it is, a pattern that compiles is added, one that does not
makes the build fail. -/
theorem segments_added (compile : Str → Option (Str → Bool)) (b : FilterBuilder) :
    (∀ s, '\\' ∉ s → b.addLiteralSegment s = { b with keyPath := b.keyPath ++ [(Seg.lit s).component] }) ∧
    (∀ r m, compile (lowerAscii r) = some m →
      b.addRegexSegment compile r = { b with keyPath := b.keyPath ++ [(Seg.pat m).component] }) ∧
    (∀ r, compile (lowerAscii r) = none → (b.addRegexSegment compile r).build = .err) := by
  refine ⟨?_, ?_, ?_⟩
  · intro s hs
    have h1 : trimStartBackslash s = s := by
      cases s with
      | nil => rfl
      | cons c s =>
        unfold trimStartBackslash
        rw [List.dropWhile_cons, if_neg]
        intro h
        exact hs (by rw [beq_iff_eq] at h; rw [h]; exact List.mem_cons_self)
    have h2 : trimEndBackslash s = s := by
      have := trimEnd_ends s 0 (by
        rcases List.eq_nil_or_concat s with rfl | ⟨a, c, rfl⟩
        · exact .inl rfl
        · refine .inr ⟨a, c, by simp, ?_⟩
          intro e; subst e; exact hs (by simp))
      simpa using this
    unfold FilterBuilder.addLiteralSegment
    rw [h1, h2]; rfl
  · intro r m h
    unfold FilterBuilder.addRegexSegment
    rw [← lowerAscii_eq, h]; rfl
  · intro r h
    unfold FilterBuilder.addRegexSegment
    rw [← lowerAscii_eq, h]
    unfold FilterBuilder.build
    rw [if_neg (by simp)]

example : ({} : FilterBuilder).addKeyPath "Control Panel\\Desktop\\".toList
    = { keyPath := [.lit "control panel".toList, .lit "desktop".toList] } := by rfl

/-! ### Iterating -/

/-- C11, the full claim: for every filter, iterating yields exactly the wanted keys, in pre-order,
each followed by the keys recovered below it. -/
def FilterOk : Prop :=
  ∀ (env : Env) (st : State) (t : Tree) (P : List Seg) (q : RegQuery) (root : Node) (gm anc : Bool),
    q.keyPath = P.map Seg.component → FirstBin env.fi → t.off = env.fi.hbin + 32 →
    TreeAt env.fi.buffer env.fi.hbin env.depth t → t.offs.Nodup → StateDel st → AttachOk env st →
    (st.rootOffset = 0 ∨ st.rootOffset = utf8Len t.name + 2) → t.Every (fun u => '\\' ∉ u.name) →
    initRoot env st = .ok (some root, st.rootOffset) →
    ∃ (steps : Nat) (ns live : List Node),
      collect (nextPre env) steps (.start st (some root) ⟨some q⟩ gm anc) = some (.ok ns) ∧
      live.map obs = filtered P q.hasRoot q.children anc t ∧ ns.map obs = live.flatMap withRecovered

theorem everyAll_and {p r : Tree → Prop} : ∀ (ts : List Tree), EveryAll p ts → EveryAll r ts →
    EveryAll (fun u => p u ∧ r u) ts := by
  have key : ∀ t : Tree, t.Every p → t.Every r → t.Every (fun u => p u ∧ r u) := by
    intro t
    apply Tree.rec (motive_1 := fun t => t.Every p → t.Every r → t.Every (fun u => p u ∧ r u))
      (motive_2 := fun ts => EveryAll p ts → EveryAll r ts → EveryAll (fun u => p u ∧ r u) ts)
    · intro off c name kids ih h1 h2
      rw [Tree.Every] at *
      exact ⟨⟨h1.1, h2.1⟩, ih h1.2 h2.2⟩
    · intro _ _; exact trivial
    · intro t ts ih1 ih2 h1 h2
      rw [EveryAll] at *
      exact ⟨ih1 h1.1 h2.1, ih2 h1.2 h2.2⟩
  intro ts
  induction ts with
  | nil => intro _ _; exact trivial
  | cons t ts ih =>
    intro h1 h2
    rw [EveryAll] at *
    exact ⟨key t h1.1 h2.1, ih h1.2 h2.2⟩

theorem every_imp {p r : Tree → Prop} (h : ∀ t, p t → r t) (t : Tree) : t.Every p → t.Every r := by
  apply Tree.rec (motive_1 := fun t => t.Every p → t.Every r)
    (motive_2 := fun ts => EveryAll p ts → EveryAll r ts)
  · intro off c name kids ih h1
    rw [Tree.Every] at *
    exact ⟨h _ h1.1, ih h1.2⟩
  · intro _; exact trivial
  · intro t ts ih1 ih2 h1
    rw [EveryAll] at *
    exact ⟨ih1 h1.1, ih2 h1.2⟩

theorem everyAll_true {p : Tree → Prop} (h : ∀ t, p t) : ∀ ts, EveryAll p ts := by
  have key : ∀ t : Tree, t.Every p := by
    intro t
    apply Tree.rec (motive_1 := fun t => t.Every p) (motive_2 := fun ts => EveryAll p ts)
    · intro off c name kids ih; rw [Tree.Every]; exact ⟨h _, ih⟩
    · exact trivial
    · intro t ts h1 h2; rw [EveryAll]; exact ⟨h1, h2⟩
  intro ts
  induction ts with
  | nil => exact trivial
  | cons t ts ih => rw [EveryAll]; exact ⟨key t, ih⟩

/-- The sub-keys of the root are covered. -/
theorem covered_kids (q : RegQuery) (t : Tree) (hnames : t.Every (fun u => '\\' ∉ u.name))
    (hflags : q.hasRoot = false → EveryAll (fun u => u.cell.flags.testBit 2 = false) t.kids) :
    ∀ kid ∈ t.kids, Covered q t.name ([] ++ '\\' :: t.name) kid := by
    intro kid hk
    refine ⟨⟨[], by simp [flat], by simp⟩, ?_⟩
    have : EveryAll (fun u => '\\' ∉ u.name ∧ (q.hasRoot = false → u.cell.flags.testBit 2 = false)) t.kids := by
      apply everyAll_and
      · exact every_kids hnames
      · by_cases h : q.hasRoot = false
        · have := hflags h
          have hh : ∀ ts, EveryAll (fun u => u.cell.flags.testBit 2 = false) ts →
              EveryAll (fun u => q.hasRoot = false → u.cell.flags.testBit 2 = false) ts := by
            intro ts
            induction ts with
            | nil => intro _; exact trivial
            | cons a as ih =>
              intro h
              rw [EveryAll] at *
              exact ⟨every_imp (fun _ h _ => h) a h.1, ih h.2⟩
          exact hh _ this
        · exact everyAll_true (fun _ h' => absurd h' h) _
    exact every_mem this kid hk

/-- The iteration with a filter, in full: also, how the wanted keys are yielded. -/
theorem filter_shown (env : Env) (st : State) (t : Tree) (P : List Seg) (q : RegQuery)
    (gm anc : Bool) (hq : q.keyPath = P.map Seg.component)
    (hbin : FirstBin env.fi) (hoff : t.off = env.fi.hbin + 32)
    (ht : TreeAt env.fi.buffer env.fi.hbin env.depth t) (hnd : t.offs.Nodup)
    (hdel : StateDel st) (hatt : AttachOk env st)
    (hro : st.rootOffset = 0 ∨ st.rootOffset = utf8Len t.name + 2)
    (hnames : t.Every (fun u => '\\' ∉ u.name))
    (hflags : q.hasRoot = false → EveryAll (fun u => u.cell.flags.testBit 2 = false) t.kids)
    (hroot : OnTheWay P (segments q.hasRoot [t.name]) ∨
      (anc = false ∧ (segments q.hasRoot [t.name]).length < P.length)) :
    ∃ (root : Node) (steps : Nat) (ns live : List Node),
      initRoot env st = .ok (some root, st.rootOffset) ∧
      collect (nextPre env) steps (.start st (some root) ⟨some q⟩ gm anc) = some (.ok ns) ∧
      live.map obs = filtered P q.hasRoot q.children anc t ∧
      ns.map obs = live.flatMap withRecovered ∧ (∀ n ∈ live, IsRead env st n) ∧
      liveKeys ns = live.map obs ∧
      ∀ n ∈ ns, n.key.cellState = .Allocated → ∃ u ∈ t.nodes, IsShown env st (!anc) u n := by
  obtain ⟨root, hr, hreads⟩ := initRoot_reads env st t hbin (treeAt_keyAt ht) hoff hatt
  have hnd' : (offsAll t.kids).Nodup ∧ t.off ∉ offsAll t.kids := by
    cases t; rw [Tree.offs, List.nodup_cons] at hnd; exact ⟨hnd.2, hnd.1⟩
  have hR := every_self hnames
  have hcov := covered_kids q t hnames hflags
  obtain ⟨live, out, seen', ro', _, he, _, ho, hl, hread, hlk, hsho, _⟩ := emits_tree env st hdel ⟨some q⟩ gm anc
    (fun _ => hatt) (fun ro => ro = 0 ∨ ro = utf8Len t.name + 2) (Covered q t.name)
    (hereditary_covered q t.name) (saysOf q) (filterSays_query st q t.name hR)
    true (fun _ => rfl) true (fun _ => rfl) (fun _ => rfl) t [] none root (.start st (some root) ⟨some q⟩ gm anc) [] st.rootOffset rfl
    hro rfl rfl rfl hcov ht hreads (fun _ => by simp) hnd'.1
    (by
      intro x hx hmem
      have hmem : x ∈ [root.key.fileOffset] := hmem
      rw [List.mem_singleton, hreads.facts.1] at hmem
      exact hnd'.2 (hmem ▸ hx)) rfl
  obtain ⟨steps, hs⟩ := he _ (runs_pre_nil env _ rfl)
  rw [foldr_consRes] at hs
  refine ⟨root, steps, out, live, hr, hs, ?_, ho, hread, by rw [hlk, hl], fun n hn ha => ?_⟩
  rotate_left
  · obtain ⟨u, hu, g, q, s, m, so, tr, h0, h1, h2, h3, h4, h5⟩ := hsho n hn ha
    exact ⟨u, hu, g, q, s, m, so, tr, h0, h1, h2, h3, h4, fun h => h5 (Bool.or_eq_true_iff.2 (.inl h))⟩
  rw [hl]
  have hlen : (segments q.hasRoot [t.name]).length < P.length := by
    rcases hroot with h | h
    · exact way_length h
    · exact h.2
  have h1 : ¬ Exact P (segments q.hasRoot [t.name]) := fun h => by have := exact_length h; omega
  have h2 : ¬ Under P (segments q.hasRoot [t.name]) := fun h => by have := under_length h; omega
  exact walk_wanted P q hq anc t.name hR t [] [] [] none (by simp [flat]) rfl (by simp) (every_kids hnames)
    ⟨(by intro h; cases h), fun _ => ⟨h1, h2⟩⟩ (by
      constructor
      · rintro (h | h)
        · rcases hroot with hw | hw
          · exact .inr (.inr ⟨h, hw⟩)
          · rw [hw.1] at h; cases h
        · cases h
      · rintro (h | ⟨_, h⟩ | ⟨h, _⟩)
        · exact absurd h h1
        · exact absurd h h2
        · exact .inl h)

/-- C11, partial: on a hive whose key cells form a tree, iterating with any filter (literals and
patterns, with or without root, child keys, ancestors) yields exactly the wanted keys, in
pre-order, each followed by the keys recovered below it.  Missing: filters that match the root
itself or not even the root (`filter_violated`), and, for filters without root, trees with a root
flag below the root (`filter_root_flag_violated`). -/
theorem filter_listing_partial (env : Env) (st : State) (t : Tree) (P : List Seg) (q : RegQuery)
    (gm anc : Bool) (hq : q.keyPath = P.map Seg.component)
    (hbin : FirstBin env.fi) (hoff : t.off = env.fi.hbin + 32)
    (ht : TreeAt env.fi.buffer env.fi.hbin env.depth t) (hnd : t.offs.Nodup)
    (hdel : StateDel st) (hatt : AttachOk env st)
    (hro : st.rootOffset = 0 ∨ st.rootOffset = utf8Len t.name + 2)
    (hnames : t.Every (fun u => '\\' ∉ u.name))
    (hflags : q.hasRoot = false → EveryAll (fun u => u.cell.flags.testBit 2 = false) t.kids)
    (hroot : OnTheWay P (segments q.hasRoot [t.name]) ∨
      (anc = false ∧ (segments q.hasRoot [t.name]).length < P.length)) :
    ∃ (root : Node) (steps : Nat) (ns live : List Node),
      initRoot env st = .ok (some root, st.rootOffset) ∧
      collect (nextPre env) steps (.start st (some root) ⟨some q⟩ gm anc) = some (.ok ns) ∧
      live.map obs = filtered P q.hasRoot q.children anc t ∧
      ns.map obs = live.flatMap withRecovered ∧ (∀ n ∈ live, IsRead env st n) ∧
      liveKeys ns = live.map obs := by
  obtain ⟨root, steps, ns, live, h1, h2, h3, h4, h5, h6, _⟩ :=
    filter_shown env st t P q gm anc hq hbin hoff ht hnd hdel hatt hro hnames hflags hroot
  exact ⟨root, steps, ns, live, h1, h2, h3, h4, h5, h6⟩

/-! ### Examples and violations -/

/-- The filter `a` on the example hive: the hypotheses hold, the key `\RT\a` is wanted. -/
example : ∃ (root : Node) (steps : Nat) (ns live : List Node),
    initRoot exampleEnv {} = .ok (some root, 0) ∧
    collect (nextPre exampleEnv) steps
      (.start {} (some root) ⟨some ⟨[Seg.component (.lit ['A'])], false, true⟩⟩ true false) = some (.ok ns) ∧
    live.map obs = [(138, "\\RT\\a".toList)] ∧
    ns.map obs = live.flatMap withRecovered ∧ (∀ n ∈ live, IsRead exampleEnv {} n) ∧
    liveKeys ns = live.map obs :=
  filter_listing_partial exampleEnv {} exampleTree [.lit ['A']] ⟨_, false, true⟩ true false rfl
    exampleHive_bin rfl (exampleHive_tree 1) (by decide) (by intro p ds h; cases h)
    (attachOk_empty exampleEnv {} (by decide) (fun _ => rfl)) (.inl rfl)
    (by simp only [exampleTree, Tree.Every, EveryAll, Tree.name]; decide)
    (by intro _; simp only [exampleTree, Tree.Every, EveryAll, Tree.kids, Tree.cell]; decide)
    (.inl (by decide))

/-- C11: the filter `\RT` including the root asks for the root key `RT` of the example hive, but
nothing is returned. -/
theorem filter_root_missed :
    filtered [.lit [], .lit ['R', 'T']] true false false exampleTree = [(32, "\\RT".toList)] ∧
    (match initRoot exampleEnv {} with
    | .ok (some root, _) => (collect (nextPre exampleEnv) 9 (.start {} (some root)
          ⟨some ⟨[Seg.component (.lit []), Seg.component (.lit ['R', 'T'])], true, false⟩⟩ true false)).map
        fun r => match r with | .ok ns => some (ns.map (·.key.fileOffset)) | _ => none
    | _ => none) = some (some []) := by decide +kernel

/-- C11: the filter `\XX\a` including the root matches no key of the example hive, but with
ancestors the root `RT` is returned. -/
theorem filter_root_shown :
    filtered [.lit [], .lit ['X', 'X'], .lit ['a']] true false true exampleTree = [] ∧
    (match initRoot exampleEnv {} with
    | .ok (some root, _) => (collect (nextPre exampleEnv) 9 (.start {} (some root)
          ⟨some ⟨[Seg.component (.lit []), Seg.component (.lit ['X', 'X']), Seg.component (.lit ['a'])], true, false⟩⟩
            true true)).map
        fun r => match r with | .ok ns => some (ns.map (·.key.fileOffset)) | _ => none
    | _ => none) = some (some [32]) := by decide +kernel

/-- The example hive with the root flag also on the key `b`. -/
def rootFlagHive : FileInfo :=
  ⟨0, hbinBytes 0 300 0 0 0 0 ++ (exampleCell 0x24 2 114 [0x52, 0x54]).encode ++
    leafCell .lf (-24) [(138, [0, 0, 0, 0]), (219, [0, 0, 0, 0])] ++
    (exampleCell 0x20 0 0 [0x61]).encode ++ (exampleCell 0x24 0 0 [0x62]).encode⟩

/-- C11: a cell below the root that carries the root flag is traversed whatever its name, and
reported when ancestors were requested: the filter `a` returns `\RT\b`. -/
theorem filter_root_flag_violated :
    (match initRoot ⟨rootFlagHive, fun _ => [], 2⟩ {} with
    | .ok (some root, _) => (collect (nextPre ⟨rootFlagHive, fun _ => [], 2⟩) 9 (.start {} (some root)
          ⟨some ⟨[Seg.component (.lit ['a'])], false, false⟩⟩ true true)).map
        fun r => match r with | .ok ns => some (ns.map obs) | _ => none
    | _ => none) = some (some [(32, "\\RT".toList), (138, "\\RT\\a".toList), (219, "\\RT\\b".toList)]) ∧
    ¬ Wanted [.lit ['a']] false true (segments false [['R', 'T'], ['b']]) := by decide +kernel

/-- C11: patterns are lower-cased before they are compiled, so `\D` (no digit) is compiled as `\d`
(a digit), whatever the regex engine. -/
theorem pattern_lowered_violated (compile : Str → Option (Str → Bool)) (b : FilterBuilder) :
    b.addRegexSegment compile "\\D".toList = b.addRegexSegment compile "\\d".toList := by
  unfold FilterBuilder.addRegexSegment
  rw [show asciiLower "\\D".toList = asciiLower "\\d".toList from by decide]

/-- C11: the code violates the claim. -/
theorem filter_violated : ¬ FilterOk := by
  intro h
  have hatt := attachOk_empty exampleEnv {} (by decide) (fun _ => rfl)
  obtain ⟨root, hr, _⟩ := initRoot_reads exampleEnv {} exampleTree exampleHive_bin
    (treeAt_keyAt (exampleHive_tree 1)) rfl hatt
  obtain ⟨steps, ns, live, h1, h2, h3⟩ := h exampleEnv {} exampleTree [.lit [], .lit ['R', 'T']]
    ⟨_, true, false⟩ root true false rfl exampleHive_bin rfl
    (exampleHive_tree 1) (by decide) (by intro p ds h; cases h) hatt (.inl rfl)
    (by simp only [exampleTree, Tree.Every, EveryAll, Tree.name]; decide) hr
  obtain ⟨hw, hc⟩ := filter_root_missed
  rw [hr] at hc
  simp only at hc
  cases hx : collect (nextPre exampleEnv) 9 (.start {} (some root)
      ⟨some ⟨[Seg.component (.lit []), Seg.component (.lit ['R', 'T'])], true, false⟩⟩ true false) with
  | none => rw [hx] at hc; cases hc
  | some r =>
    rw [hx] at hc
    have := collect_unique (fuelMono_pre _) _ _ _ _ _ hx h1
    subst this
    have hns : ns.map (·.key.fileOffset) = [] := by simpa using hc
    rw [List.map_eq_nil_iff] at hns
    subst hns
    rw [hw] at h2
    cases live with
    | nil => cases h2
    | cons n live => simp [withRecovered] at h3

/-! ### Post-order with a filter (C48) -/

mutual
theorem namedPost_above : ∀ (t : Tree) (path : Str) (above : List Str) (x : Nat × Str × List Str),
    x ∈ t.namedPost path above → ∃ L, x.2.2 = above ++ [t.name] ++ L
  | .mk off c name kids, path, above, x, hx => by
    rw [Tree.namedPost] at hx
    rcases List.mem_append.1 hx with hx | hx
    · obtain ⟨L, h⟩ := namedPostAll_above kids _ _ x hx
      exact ⟨L, h⟩
    · rw [List.mem_singleton.1 hx]
      exact ⟨[], by simp [Tree.name]⟩
theorem namedPostAll_above : ∀ (ts : List Tree) (path : Str) (above : List Str) (x : Nat × Str × List Str),
    x ∈ namedPostAll path above ts → ∃ L, x.2.2 = above ++ L
  | [], path, above, x, hx => by rw [namedPostAll] at hx; cases hx
  | t :: ts, path, above, x, hx => by
    rw [namedPostAll] at hx
    rcases List.mem_append.1 hx with hx | hx
    · obtain ⟨L, h⟩ := namedPost_above t path above x hx
      exact ⟨[t.name] ++ L, by rw [h, List.append_assoc]⟩
    · exact namedPostAll_above ts path above x hx
end

mutual
theorem postWalk_wanted (P : List Seg) (q : RegQuery) (hq : q.keyPath = P.map Seg.component)
    (R : Str) (hR : '\\' ∉ R) : ∀ (t : Tree) (path : Str) (up above : List Str)
    (s : Option FilterMatchState), path ++ '\\' :: t.name = flat (R :: above) →
    up ++ [t.name] = R :: above → (∀ n ∈ above, '\\' ∉ n) →
    EveryAll (fun u => '\\' ∉ u.name) t.kids →
    StateOk P q (R :: above) s → ShownOk P q true (R :: above) s →
    postWalk true (saysOf q) s path t =
      ((t.namedPost path up).filter fun x =>
        decide (Wanted P q.children true (segments q.hasRoot x.2.2))).map entryOf
  | .mk off c name kids, path, up, above, s, hpath, hup, hab, hev, hs, hw => by
    simp only [Tree.name, Tree.kids] at hpath hev hup
    rw [postWalk, Tree.namedPost, List.filter_append, List.map_append, hup, hpath]
    rw [postWalkAll_wanted P q hq R hR kids above s hab hev hs]
    congr 1
    rw [List.filter_cons, if_pos (decide_eq_true (hw.1 (.inl rfl)))]
    rfl
theorem postWalkAll_wanted (P : List Seg) (q : RegQuery) (hq : q.keyPath = P.map Seg.component)
    (R : Str) (hR : '\\' ∉ R) : ∀ (ts : List Tree) (above : List Str)
    (s : Option FilterMatchState), (∀ n ∈ above, '\\' ∉ n) → EveryAll (fun u => '\\' ∉ u.name) ts →
    StateOk P q (R :: above) s →
    postWalkAll true (saysOf q) s (flat (R :: above)) ts =
      ((namedPostAll (flat (R :: above)) (R :: above) ts).filter fun x =>
        decide (Wanted P q.children true (segments q.hasRoot x.2.2))).map entryOf
  | [], above, s, hab, hev, hs => by rw [postWalkAll, namedPostAll]; rfl
  | t :: ts, above, s, hab, hev, hs => by
    rw [EveryAll] at hev
    rw [postWalkAll, namedPostAll, List.filter_append, List.map_append,
      postWalkAll_wanted P q hq R hR ts above s hab hev.2 hs]
    congr 1
    rcases kid_step P q hq true R hR t above s hab (every_self hev.1) hs with ⟨h1, h2⟩ | ⟨h1, h2, h3⟩
    · rw [if_pos h1]
      symm
      apply filter_empty (fun n => Wanted P q.children true (segments q.hasRoot n))
      intro x hx
      obtain ⟨L, h⟩ := namedPost_above t _ _ x hx
      rw [h]
      exact h2 L
    · rw [if_neg h1]
      refine postWalk_wanted P q hq R hR t (flat (R :: above)) (R :: above) (above ++ [t.name]) _ ?_ rfl ?_
        (every_kids hev.1) h2 h3
      · rw [← List.cons_append, flat_snoc]
      · intro n hn
        rcases List.mem_append.1 hn with hn | hn
        · exact hab n hn
        · rw [List.mem_singleton.1 hn]; exact every_self hev.1
end

mutual
/-- The post-order listing has the same keys as the pre-order listing. -/
theorem namedPost_perm : ∀ (t : Tree) (path : Str) (above : List Str),
    (t.namedPost path above).Perm (t.named path above)
  | .mk off c name kids, path, above => by
    rw [Tree.namedPost, Tree.named]
    exact (List.perm_append_singleton _ _).trans ((namedPostAll_perm kids _ _).cons _)
theorem namedPostAll_perm : ∀ (ts : List Tree) (path : Str) (above : List Str),
    (namedPostAll path above ts).Perm (namedAll path above ts)
  | [], path, above => by rw [namedPostAll, namedAll]
  | t :: ts, path, above => by
    rw [namedPostAll, namedAll]
    exact (namedPost_perm t path above).append (namedPostAll_perm ts path above)
end

/-- C48: the wanted keys in post-order are the wanted keys in pre-order, in another order. -/
theorem filteredPost_perm (P : List Seg) (hasRoot children anc : Bool) (t : Tree) :
    (filteredPost P hasRoot children anc t).Perm (filtered P hasRoot children anc t) :=
  ((namedPost_perm t [] []).filter _).map _

/-- C48, the full claim: post-order iteration with a filter yields exactly the wanted keys, in
post-order. -/
def PostFilterOk (anc : Bool) : Prop :=
  ∀ (env : Env) (st : State) (t : Tree) (P : List Seg) (q : RegQuery) (root : Node) (gm : Bool),
    q.keyPath = P.map Seg.component → FirstBin env.fi → t.off = env.fi.hbin + 32 →
    TreeAt env.fi.buffer env.fi.hbin env.depth t → t.offs.Nodup →
    (∀ p, st.deletedKeys p = none) → 0 < env.depth →
    (st.rootOffset = 0 ∨ st.rootOffset = utf8Len t.name + 2) → t.Every (fun u => '\\' ∉ u.name) →
    (q.hasRoot = false → EveryAll (fun u => u.cell.flags.testBit 2 = false) t.kids) →
    OnTheWay P (segments q.hasRoot [t.name]) →
    initRoot env st = .ok (some root, st.rootOffset) →
    ∃ (steps : Nat) (ns : List Node),
      collect (nextPost env) steps (.start st (some root) ⟨some q⟩ gm anc) = some (.ok ns) ∧
      ns.map obs = filteredPost P q.hasRoot q.children anc t

/-- C48, partial: proved when ancestors are requested and nothing was recovered (and for the trees
and filters of `filter_listing_partial`).  Missing: iterating without ancestors, where keys on the
way are returned nevertheless (`postorder_filter_violated`). -/
theorem postorder_filter_partial : PostFilterOk true := by
  intro env st t P q root gm hq hbin hoff ht hnd hdel hdepth hro hnames hflags hroot hr
  have hatt := attachOk_empty env st hdepth hdel
  obtain ⟨root', hr', hreads⟩ := initRoot_reads env st t hbin (treeAt_keyAt ht) hoff hatt
  rw [hr] at hr'
  cases hr'
  have hnd' : (offsAll t.kids).Nodup ∧ t.off ∉ offsAll t.kids := by
    cases t; rw [Tree.offs, List.nodup_cons] at hnd; exact ⟨hnd.2, hnd.1⟩
  have hR := every_self hnames
  have hcov := covered_kids q t hnames hflags
  obtain ⟨out, seen', ro', _, he, _, ho⟩ := post_tree env st ⟨some q⟩ gm true (.inl rfl) (fun _ => hatt)
    (fun p t s n h => reads_none env st hdel gm p t s n h)
    (fun ro => ro = 0 ∨ ro = utf8Len t.name + 2) (Covered q t.name)
    (hereditary_covered q t.name) (saysOf q) (filterSays_query st q t.name hR) t [] none root true
    (.start st (some root) ⟨some q⟩ gm true) [] st.rootOffset rfl hro rfl rfl rfl (.inl rfl)
    hcov ht hreads
    (reads_none env st hdel true [] t none root hreads) hnd'.1
    (by
      intro x hx hmem
      have hmem : x ∈ [root.key.fileOffset] := hmem
      rw [List.mem_singleton, hreads.facts.1] at hmem
      exact hnd'.2 (hmem ▸ hx)) rfl rfl
  have hend : Runs (nextPost env) { (IterCtx.start st (some root) ⟨some q⟩ gm true) with
      stack := [], seen := seen', state := { st with rootOffset := ro' }, ret := bumpTop [] } (.ok []) := by
    refine ⟨1, ?_⟩
    rw [collect, nextPost]
    simp only [bumpTop]
  obtain ⟨steps, hs⟩ := he _ hend
  rw [foldr_consRes] at hs
  refine ⟨steps, out, hs, ho.trans ?_⟩
  have hlen := way_length hroot
  have h1 : ¬ Exact P (segments q.hasRoot [t.name]) := fun h => by have := exact_length h; omega
  have h2 : ¬ Under P (segments q.hasRoot [t.name]) := fun h => by have := under_length h; omega
  exact postWalk_wanted P q hq t.name hR t [] [] [] none (by simp [flat]) rfl (by simp) (every_kids hnames)
    ⟨(by intro h; cases h), fun _ => ⟨h1, h2⟩⟩ ⟨fun _ => .inr (.inr ⟨rfl, hroot⟩), fun _ => .inl rfl⟩

/-- C48: the filter `a` without ancestors asks for `\RT\a` only, but post-order also returns the
root. -/
theorem postorder_filter_example :
    filteredPost [.lit ['a']] false false false exampleTree = [(138, "\\RT\\a".toList)] ∧
    (match initRoot exampleEnv {} with
    | .ok (some root, _) => (collect (nextPost exampleEnv) 9 (.start {} (some root)
          ⟨some ⟨[Seg.component (.lit ['a'])], false, false⟩⟩ true false)).map
        fun r => match r with | .ok ns => some (ns.map (·.key.fileOffset)) | _ => none
    | _ => none) = some (some [138, 32]) := by decide +kernel

/-- C48: the code violates the claim without ancestors. -/
theorem postorder_filter_violated : ¬ PostFilterOk false := by
  intro h
  have hatt := attachOk_empty exampleEnv {} (by decide) (fun _ => rfl)
  obtain ⟨root, hr, _⟩ := initRoot_reads exampleEnv {} exampleTree exampleHive_bin
    (treeAt_keyAt (exampleHive_tree 1)) rfl hatt
  obtain ⟨steps, ns, h1, h2⟩ := h exampleEnv {} exampleTree [.lit ['a']] ⟨_, false, false⟩ root true rfl
    exampleHive_bin rfl (exampleHive_tree 1) (by decide) (fun _ => rfl) (by decide) (.inl rfl)
    (by simp only [exampleTree, Tree.Every, EveryAll, Tree.name]; decide)
    (by intro _; simp only [exampleTree, Tree.Every, EveryAll, Tree.kids, Tree.cell]; decide)
    (by decide) hr
  obtain ⟨hw, hc⟩ := postorder_filter_example
  rw [hr] at hc
  simp only at hc
  cases hx : collect (nextPost exampleEnv) 9 (.start {} (some root)
      ⟨some ⟨[Seg.component (.lit ['a'])], false, false⟩⟩ true false) with
  | none => rw [hx] at hc; cases hc
  | some r =>
    rw [hx] at hc
    have := collect_unique (fuelMono_post _) _ _ _ _ _ hx h1
    subst this
    have hns : ns.map (·.key.fileOffset) = [138, 32] := by simpa using hc
    have := congrArg List.length (h2.trans hw)
    rw [List.length_map] at this
    have h3 := congrArg List.length hns
    rw [List.length_map] at h3
    rw [h3] at this
    cases this

end Notatin
