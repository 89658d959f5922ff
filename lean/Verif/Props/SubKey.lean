import Verif.Props.Lookup
/-
C12, continued (the lookup follows the names one by one), and C43 (lookup of a direct sub-key).
-/
namespace Notatin
open Spec

/-! ### C12: the segment-by-segment walk -/

/-- Follow the names one by one, at each step taking the first sub-key with that name. -/
def Spec.walkTo : List Str → Str → Tree → Option (Nat × Str)
  | [], path, t => some (t.off, path ++ '\\' :: t.name)
  | s :: segs, path, t =>
    (t.kids.find? fun kid => decide (SameIgnoringCase s kid.name)).bind
      (walkTo segs (path ++ '\\' :: t.name))

/-- No two keys of the list have the same name up to case. -/
def Spec.NamesDistinct (ts : List Tree) : Prop :=
  ts.Pairwise fun a b => ¬ ∃ s, SameIgnoringCase s a.name ∧ SameIgnoringCase s b.name

/-- The entries with the given names, relative to the first `k` names. -/
def hits (segs : List Str) (k : Nat) (xs : List (Nat × Str × List Str)) : List (Nat × Str) :=
  (xs.filter fun x => decide (Pairwise2 SameIgnoringCase segs (x.2.2.drop k))).map fun x => (x.1, x.2.1)

theorem hits_append (segs : List Str) (k : Nat) (xs ys : List (Nat × Str × List Str)) :
    hits segs k (xs ++ ys) = hits segs k xs ++ hits segs k ys := by
  simp [hits]

theorem hits_cons (segs : List Str) (k : Nat) (x : Nat × Str × List Str) (xs : List (Nat × Str × List Str)) :
    hits segs k (x :: xs) =
      (if Pairwise2 SameIgnoringCase segs (x.2.2.drop k) then [(x.1, x.2.1)] else []) ++ hits segs k xs := by
  unfold hits
  rw [List.filter_cons]
  by_cases h : Pairwise2 SameIgnoringCase segs (x.2.2.drop k)
  · rw [if_pos (decide_eq_true h), if_pos h]; rfl
  · rw [if_neg (by simpa using h), if_neg h]; rfl

theorem hits_nil_of (segs : List Str) (k : Nat) (xs : List (Nat × Str × List Str))
    (h : ∀ x ∈ xs, ¬ Pairwise2 SameIgnoringCase segs (x.2.2.drop k)) : hits segs k xs = [] := by
  unfold hits
  rw [List.filter_eq_nil_iff.2 (by simpa using h)]
  rfl

/-- Below a key with the right name, the remaining names count. -/
theorem hits_below (s : Str) (segs : List Str) (name : Str) (hs : SameIgnoringCase s name)
    (above : List Str) (path : Str) (ts : List Tree) :
    hits (s :: segs) above.length (namedAll path (above ++ [name]) ts)
      = hits segs (above ++ [name]).length (namedAll path (above ++ [name]) ts) := by
  unfold hits
  congr 1
  apply List.filter_congr
  intro x hx
  obtain ⟨L, _, e⟩ := namedAll_above ts _ _ x hx
  rw [decide_eq_decide, e, List.drop_left, List.append_assoc, List.drop_left, List.singleton_append,
    Pairwise2]
  exact ⟨fun h => h.2, fun h => ⟨hs, h⟩⟩

/-- Keys with another name, and everything below them, do not count. -/
theorem hits_other (s : Str) (segs : List Str) (above : List Str) (path : Str) (t : Tree)
    (hs : ¬ SameIgnoringCase s t.name) : hits (s :: segs) above.length (t.named path above) = [] := by
  cases t with
  | mk off c name kids =>
  apply hits_nil_of
  intro x hx h
  rw [Tree.named] at hx
  rcases List.mem_cons.1 hx with rfl | hx
  · rw [List.drop_left] at h
    exact hs h.1
  · obtain ⟨L, _, e⟩ := namedAll_above kids _ _ x hx
    rw [e, List.append_assoc, List.drop_left] at h
    exact hs h.1

theorem hits_walk (segs : List Str) : ∀ (t : Tree) (path : Str) (above : List Str),
    t.Every (fun u => NamesDistinct u.kids) →
    (hits segs (above ++ [t.name]).length (t.named path above)).head? = walkTo segs path t := by
  induction segs with
  | nil =>
    intro t path above _
    cases t with
    | mk off c name kids =>
    unfold hits
    rw [Tree.named, List.filter_cons, if_pos (by simp [Pairwise2, Tree.name])]
    rfl
  | cons s segs ih =>
    intro t path above hev
    cases t with
    | mk off c name kids =>
    have hd : NamesDistinct kids := every_self hev
    rw [Tree.Every] at hev
    have hk := hev.2
    have hself : ¬ Pairwise2 SameIgnoringCase (s :: segs) ((above ++ [name]).drop (above ++ [name]).length) := by
      rw [List.drop_length]; simp [Pairwise2]
    show _ = (kids.find? fun kid => decide (SameIgnoringCase s kid.name)).bind
      (walkTo segs (path ++ '\\' :: name))
    show (hits (s :: segs) (above ++ [name]).length _).head? = _
    have hcons : hits (s :: segs) (above ++ [name]).length (Tree.named path above (.mk off c name kids))
        = hits (s :: segs) (above ++ [name]).length (namedAll (path ++ '\\' :: name) (above ++ [name]) kids) := by
      unfold hits
      rw [Tree.named, List.filter_cons, if_neg (by simpa using hself)]
    rw [hcons]
    generalize above ++ [name] = A
    generalize path ++ '\\' :: name = p
    clear hcons hself hev
    induction kids with
    | nil => simp [hits, namedAll]
    | cons kid kids ihk =>
      rw [EveryAll] at hk
      rw [namedAll, hits_append, head?_flatten_cons, List.find?_cons]
      by_cases hs : SameIgnoringCase s kid.name
      · rw [decide_eq_true hs]
        simp only [Option.bind_some]
        rw [← ih kid p A hk.1]
        have h1 : hits (s :: segs) A.length (kid.named p A) = hits segs (A ++ [kid.name]).length (kid.named p A) := by
          cases kid with
          | mk o c2 nm ks =>
          have hb := hits_below s segs nm hs A (p ++ '\\' :: nm) ks
          show hits (s :: segs) A.length (Tree.named p A (.mk o c2 nm ks))
            = hits segs (A ++ [nm]).length (Tree.named p A (.mk o c2 nm ks))
          rw [Tree.named, hits_cons, hits_cons, hb]
          have hd : Pairwise2 SameIgnoringCase (s :: segs) ((A ++ [nm]).drop A.length)
              ↔ Pairwise2 SameIgnoringCase segs ((A ++ [nm]).drop (A ++ [nm]).length) := by
            rw [List.drop_left, List.drop_length, Pairwise2]
            exact ⟨fun h => h.2, fun h => ⟨hs, h⟩⟩
          by_cases hx : Pairwise2 SameIgnoringCase segs ((A ++ [nm]).drop (A ++ [nm]).length)
          · rw [if_pos (hd.2 hx), if_pos hx]
          · rw [if_neg (mt hd.1 hx), if_neg hx]
        have h2 : hits (s :: segs) A.length (namedAll p A kids) = [] := by
          have hdis := (List.pairwise_cons.1 hd).1
          have : ∀ ts : List Tree, (∀ u ∈ ts, u ∈ kids) → hits (s :: segs) A.length (namedAll p A ts) = [] := by
            intro ts
            induction ts with
            | nil => intro _; simp [hits, namedAll]
            | cons u us ihu =>
              intro hu
              rw [namedAll, hits_append, ihu (fun v hv => hu v (List.mem_cons_of_mem _ hv)),
                hits_other _ _ _ _ _ (fun h => hdis u (hu u List.mem_cons_self) ⟨s, hs, h⟩)]
              rfl
          exact this kids (fun _ h => h)
        rw [h1, h2, List.head?_nil, Option.or_none]
      · rw [decide_eq_false hs, hits_other _ _ _ _ _ hs, List.head?_nil, Option.none_or]
        exact ihk (List.pairwise_cons.1 hd).2 hk.2

/-- C12: when no two sub-keys of a key have the same name, the key `get_key` finds is the one
reached by following the names one by one. -/
theorem first_at_walk (segs : List Str) (t : Tree) (h : t.Every (fun u => NamesDistinct u.kids)) :
    firstAt segs t = walkTo segs [] t := by
  have := hits_walk segs t [] [] h
  simpa [hits, firstAt] using this

example : exampleTree.Every (fun u => NamesDistinct u.kids) ∧
    walkTo [['B']] [] exampleTree = some (219, "\\RT\\b".toList) := by
  refine ⟨?_, by decide +kernel⟩
  simp only [exampleTree, Tree.Every, EveryAll, NamesDistinct, Tree.kids, List.pairwise_cons,
    List.Pairwise.nil, List.not_mem_nil, false_imp_iff, implies_true, and_true, List.mem_singleton,
    forall_eq, Tree.name]
  rintro ⟨s, h1, h2⟩
  have h1 := (asciiLower_eq_iff _ _).2 h1
  have h2 := (asciiLower_eq_iff _ _).2 h2
  rw [h1] at h2
  exact absurd h2 (by decide)

/-! ### C43 -/

/-- The first sub-key with the given name (up to case): its offset and path. -/
def Spec.subKeyNamed (name : Str) (path : Str) (t : Tree) : Option (Nat × Str) :=
  (t.kids.find? fun kid => decide (SameIgnoringCase name kid.name)).map
    fun kid => (kid.off, path ++ '\\' :: t.name ++ '\\' :: kid.name)

/-- The children kept by the filter, when it keeps exactly the sub-keys with property `p`. -/
theorem head_kept (R : Tree → Node → Prop) (p q : Tree → Bool) (g : Tree → Nat × Str)
    (hR : ∀ kid c, R kid c → obs c = g kid) (ts : List Tree) (hpq : ∀ kid ∈ ts, p kid = q kid)
    (ns : List Node) (h : Pairwise2 R (ts.filter p) ns) :
    ns.head?.map obs = (ts.find? q).map g := by
  induction ts generalizing ns with
  | nil => cases ns with
    | nil => rfl
    | cons => exact absurd h (by simp [Pairwise2])
  | cons t ts ih =>
    rw [List.find?_cons, ← hpq t List.mem_cons_self]
    rw [List.filter_cons] at h
    cases hp : p t with
    | false =>
      rw [hp, if_neg (by decide)] at h
      exact ih (fun k hk => hpq k (List.mem_cons_of_mem _ hk)) ns h
    | true =>
      rw [hp, if_pos rfl] at h
      cases ns with
      | nil => exact absurd h (by simp [Pairwise2])
      | cons n ns => simp [hR t n h.1]

/-- C43 for a key below the root: `get_sub_key` returns the first sub-key with that name, none iff
there is none. -/
theorem get_sub_key_partial (env : Env) (st : State) (R a : Str) (as : List Str) (path : Str) (t : Tree)
    (s : Option FilterMatchState) (self : Node) (gm0 : Bool) (st0 : State)
    (hpath : path ++ '\\' :: t.name = flat (R :: a :: as)) (hbs : ∀ n ∈ R :: a :: as, '\\' ∉ n)
    (ht : TreeAt env.fi.buffer env.fi.hbin env.depth t) (hself : Reads env st0 gm0 none path t s self)
    (hro : st.rootOffset = 0 ∨ st.rootOffset = utf8Len R + 2)
    (hkids : EveryAll (fun u => '\\' ∉ u.name ∧ u.cell.flags.testBit 2 = false) t.kids)
    (name : Str) (hname : '\\' ∉ name ∧ name ≠ []) :
    ∃ r ro', getSubKey env st self name = .ok (r, ro') ∧ r.map obs = subKeyNamed name path t := by
  have hR : '\\' ∉ R := hbs R List.mem_cons_self
  have hsp : self.key.path = '\\' :: R ++ '\\' :: joined (a :: as) := by
    rw [hself.facts.2.1, hpath, joined_eq]; simp [flat]
  have hoff : cachedRootOffset st.rootOffset self.key.path = utf8Len R + 2 := by
    unfold cachedRootOffset
    rw [hsp, getRootPathOffset_eq R _ hR]
    rcases hro with h | h
    · rw [if_pos h]
    · rw [if_neg (by omega), h]
  have hdrop : dropBytes (utf8Len R + 2) self.key.path = some (joined (a :: as)) := by
    have := root_prefix_stripped R (joined (a :: as)) hR
    rw [getRootPathOffset_eq R _ hR] at this
    rw [hsp]; exact this
  let P : List Seg := (a :: as ++ [name]).map Seg.lit
  let q : RegQuery := ⟨P.map Seg.component, false, false⟩
  have hb : (({} : FilterBuilder).addKeyPath (joined (a :: as) ++ '\\' :: name)).build = .ok ⟨some q⟩ := by
    have e : joined (a :: as) ++ '\\' :: name = joined (a :: (as ++ [name])) ++ List.replicate 0 '\\' := by
      rw [joined_eq, joined_eq, flat_append]; simp [flat]
    rw [e, key_path_segments _ _ _ _ (by
      intro m hm
      rcases List.mem_cons.1 hm with rfl | hm
      · exact hbs _ (by simp)
      · rcases List.mem_append.1 hm with hm | hm
        · exact hbs _ (by simp [hm])
        · rw [List.mem_singleton.1 hm]; exact hname.1) (by
      rw [List.getLast_cons (by simp), List.getLast_concat]; exact hname.2)]
    rfl
  unfold getSubKey
  simp only
  rw [hoff, hdrop]
  simp only
  rw [hb]
  simp only
  have hfs := filterSays_query st q R hR
  obtain ⟨r, hr, _, _, hp, _⟩ := readSubKeysInternal_kids env { st with rootOffset := utf8Len R + 2 } ⟨some q⟩
    none false gm0 none st0 (by intro h; cases h) path t ht s self hself
    (fun ro => ro = 0 ∨ ro = utf8Len R + 2) (.inr rfl) (saysOf q s (flat (R :: a :: as)))
    (by
      intro kid hk ro1 hg1
      have hcov : Covered q R (flat (R :: a :: as)) kid := by
        refine ⟨⟨a :: as, rfl, fun n hn => hbs n (List.mem_cons_of_mem _ hn)⟩, ?_⟩
        exact every_imp (fun u h => ⟨h.1, fun _ => h.2⟩) _ (every_mem hkids kid hk)
      obtain ⟨ro2, hg2, h2⟩ := hfs s _ kid ro1 hcov hg1
      refine ⟨ro2, hg2, fun k h3 h4 => h2 k h3 ?_⟩
      rw [h4, hpath])
  rw [hr]
  refine ⟨_, _, rfl, ?_⟩
  unfold subKeyNamed
  refine head_kept _ _ _ _ ?_ t.kids ?_ _ hp
  · intro kid c hc
    rw [obs, hc.facts.1, hc.facts.2.1]
  · intro kid hk
    rw [decide_eq_decide]
    have hkn : '\\' ∉ kid.name := (every_self (every_mem hkids kid hk)).1
    have hsays : saysOf q s (flat (R :: a :: as)) kid
        = matchSegments (P.map Seg.component) (a :: as ++ [kid.name]) := by
      unfold saysOf
      rw [show (matchedState s && q.children) = false from by simp [q], if_neg (by decide), ← flat_snoc,
        names_split _ (by
          intro n hn
          rcases List.mem_append.1 hn with hn | hn
          · exact hbs n hn
          · rw [List.mem_singleton.1 hn]; exact hkn)]
      rfl
    have hex : Exact P (a :: as ++ [kid.name]) ↔ SameIgnoringCase name kid.name := by
      rw [show P = (a :: as ++ [name]).map Seg.lit from rfl, exact_lits]
      generalize a :: as = pre
      induction pre with
      | nil => simp [Pairwise2]
      | cons x pre ih =>
        rw [List.cons_append, List.cons_append, Pairwise2, ih]
        exact ⟨fun h => h.2, fun h => ⟨sameIgnoringCase_refl x, h⟩⟩
    rw [hsays, ← hex, ← matchSegments_exact]
    have hni : matchSegments (P.map Seg.component) (a :: as ++ [kid.name]) ≠ .iterate := by
      rw [Ne, matchSegments_way]
      intro h
      have := way_length h
      simp [P] at this
    revert hni
    cases matchSegments (P.map Seg.component) (a :: as ++ [kid.name]) <;> simp

/-- C43 for the root key: asked before anything else, `get_sub_key` finds none of its sub-keys
(unless they have an empty name). -/
theorem get_sub_key_root_none (env : Env) (st : State) (t : Tree) (s : Option FilterMatchState)
    (self : Node) (gm0 : Bool) (st0 : State) (hR : '\\' ∉ t.name)
    (ht : TreeAt env.fi.buffer env.fi.hbin env.depth t) (hself : Reads env st0 gm0 none [] t s self)
    (hro : st.rootOffset = 0)
    (hkids : EveryAll (fun u => '\\' ∉ u.name ∧ u.cell.flags.testBit 2 = false) t.kids)
    (hne : ∀ kid ∈ t.kids, kid.name ≠ []) (name : Str) (hname : '\\' ∉ name ∧ name ≠ []) :
    ∃ ro', getSubKey env st self name = .ok (none, ro') := by
  have hsp : self.key.path = '\\' :: t.name := hself.facts.2.1
  obtain ⟨h0, hdrop⟩ := root_prefix_absent self.key.path (.inl ⟨t.name, hsp, hR⟩)
  have hoff : cachedRootOffset st.rootOffset self.key.path = 0 := by
    unfold cachedRootOffset
    rw [if_pos hro, h0]
  rw [h0] at hdrop
  let P : List Seg := [[], t.name, name].map Seg.lit
  let q : RegQuery := ⟨P.map Seg.component, false, false⟩
  have hb : (({} : FilterBuilder).addKeyPath (self.key.path ++ '\\' :: name)).build = .ok ⟨some q⟩ := by
    have e : self.key.path ++ '\\' :: name = joined [[], t.name, name] ++ List.replicate 0 '\\' := by
      rw [hsp, joined_eq]; simp [flat]
    rw [e, key_path_segments {} [] [t.name, name] 0 (by
      intro m hm
      simp only [List.mem_cons, List.not_mem_nil, or_false] at hm
      rcases hm with rfl | rfl | rfl
      · simp
      · exact hR
      · exact hname.1) hname.2]
    rfl
  unfold getSubKey
  simp only
  rw [hoff, hdrop]
  simp only
  rw [hb]
  simp only
  have hfs := filterSays_query st q t.name hR
  obtain ⟨r, hr, _, _, hp, _⟩ := readSubKeysInternal_kids env { st with rootOffset := 0 } ⟨some q⟩
    none false gm0 none st0 (by intro h; cases h) [] t ht s self hself
    (fun ro => ro = 0 ∨ ro = utf8Len t.name + 2) (.inl rfl) (saysOf q s (flat [t.name]))
    (by
      intro kid hk ro1 hg1
      have hcov : Covered q t.name (flat [t.name]) kid :=
        ⟨⟨[], rfl, by simp⟩, every_imp (fun u h => ⟨h.1, fun _ => h.2⟩) _ (every_mem hkids kid hk)⟩
      obtain ⟨ro2, hg2, h2⟩ := hfs s _ kid ro1 hcov hg1
      refine ⟨ro2, hg2, fun k h3 h4 => h2 k h3 ?_⟩
      rw [h4]; simp [flat])
  rw [hr]
  have hnone : (t.kids.filter fun kid => decide (saysOf q s (flat [t.name]) kid ≠ .noMatch)) = [] := by
    rw [List.filter_eq_nil_iff]
    intro kid hk
    have hkn : '\\' ∉ kid.name := (every_self (every_mem hkids kid hk)).1
    have hsays : saysOf q s (flat [t.name]) kid = matchSegments (P.map Seg.component) [kid.name] := by
      unfold saysOf
      rw [show (matchedState s && q.children) = false from by simp [q], if_neg (by decide), ← flat_snoc,
        names_split _ (by
          intro n hn
          simp only [List.cons_append, List.nil_append, List.mem_cons, List.not_mem_nil, or_false] at hn
          rcases hn with rfl | rfl
          · exact hR
          · exact hkn)]
      rfl
    have h1 : matchSegments (P.map Seg.component) [kid.name] ≠ .keyMatch := by
      rw [Ne, matchSegments_exact]
      intro h
      have := exact_length h
      simp [P] at this
    have h2 : matchSegments (P.map Seg.component) [kid.name] ≠ .iterate := by
      rw [Ne, matchSegments_way]
      rintro ⟨k, hk1, hk2⟩
      cases k with
      | zero => simp [Exact, Pairwise2] at hk2
      | succ k =>
        have h3 : SameIgnoringCase [] kid.name := hk2.1
        have := hne kid hk
        cases hn : kid.name with
        | nil => exact this hn
        | cons => rw [hn] at h3; simp [SameIgnoringCase, Pairwise2] at h3
    rw [hsays]
    revert h1 h2
    cases matchSegments (P.map Seg.component) [kid.name] <;> simp
  rw [hnone] at hp
  cases hc : r.children with
  | nil => exact ⟨r.rootOffset, by simp [hc]⟩
  | cons => rw [hc] at hp; exact absurd hp (by simp [Pairwise2])

/-- C43 for the root key: once a path below the root was compared with a filter, `get_sub_key` on
the root panics. -/
theorem get_sub_key_root_panics (env : Env) (st : State) (self : Node) (R : Str)
    (hsp : self.key.path = '\\' :: R) (hro : st.rootOffset = utf8Len R + 2) (name : Str) :
    getSubKey env st self name = .panic := by
  have hdrop : dropBytes (utf8Len R + 2) ('\\' :: R) = none := by
    have : ∀ (s : Str) (n : Nat), utf8Len s < n → dropBytes n s = none := by
      intro s
      induction s with
      | nil => intro n h; cases n with
        | zero => simp [utf8Len] at h
        | succ n => rw [dropBytes]
      | cons c s ih =>
        intro n h
        have hlen : utf8Len (c :: s) = c.utf8Size + utf8Len s := by simp [utf8Len]
        cases n with
        | zero => omega
        | succ n =>
          rw [dropBytes]
          split
          · exact ih _ (by omega)
          · rfl
    apply this
    simp [utf8Len, show '\\'.utf8Size = 1 from rfl]
    omega
  unfold getSubKey
  simp only
  rw [show cachedRootOffset st.rootOffset self.key.path = utf8Len R + 2 from by
    unfold cachedRootOffset; rw [if_neg (by omega), hro], hsp, hdrop]

/-- C43, the full claim. -/
def SubKeyOk : Prop :=
  ∀ (env : Env) (st : State) (path : Str) (t : Tree) (s : Option FilterMatchState) (self : Node)
    (name : Str), TreeAt env.fi.buffer env.fi.hbin env.depth t → Reads env st true none path t s self →
    st.rootOffset = 0 → '\\' ∉ name ∧ name ≠ [] →
    ∃ r ro', getSubKey env st self name = .ok (r, ro') ∧ r.map obs = subKeyNamed name path t

/-- The root of the example hive. -/
theorem example_root : ∃ root, getRootKey exampleEnv {} 32 = .ok (some root, 0) ∧
    Reads exampleEnv {} true none [] exampleTree none root := by
  unfold getRootKey
  rw [if_neg (by omega)]
  exact readKey_unfiltered exampleEnv {} ⟨(32 : Int).toNat + exampleEnv.fi.hbin, [], none, true, none, true⟩
    exampleTree (treeAt_keyAt (exampleHive_tree 1)) rfl
    (fun _ => attachOk_empty exampleEnv {} (by decide) (fun _ => rfl)) rfl

theorem example_kids : EveryAll (fun u => '\\' ∉ u.name ∧ u.cell.flags.testBit 2 = false) exampleTree.kids := by
  simp only [exampleTree, Tree.kids, EveryAll, Tree.Every, Tree.name, Tree.cell]
  decide

/-- C43 fails on the root key: the sub-key `a` of the example's root is not found. -/
theorem get_sub_key_violated : ¬ SubKeyOk := by
  intro h
  obtain ⟨root, _, hreads⟩ := example_root
  obtain ⟨r, ro', h1, h2⟩ := h exampleEnv {} [] exampleTree none root ['a'] (exampleHive_tree 1) hreads rfl
    (by decide)
  obtain ⟨ro2, h3⟩ := get_sub_key_root_none exampleEnv {} exampleTree none root true {} (by decide)
    (exampleHive_tree 1) hreads rfl example_kids (by decide) ['a'] (by decide)
  rw [h3] at h1
  cases h1
  exact absurd h2 (by decide +kernel)

/-- The key `\X\RT` (the cells of the example, read below another root): its sub-key `B` is `b`. -/
example : ∃ self r ro', Reads exampleEnv {} true none "\\X".toList exampleTree none self ∧
    getSubKey exampleEnv {} self ['B'] = .ok (r, ro') ∧ r.map obs = some (219, "\\X\\RT\\b".toList) := by
  obtain ⟨self, _, hreads⟩ := readKey_unfiltered exampleEnv {} ⟨32, "\\X".toList, none, true, none, true⟩
    exampleTree (treeAt_keyAt (exampleHive_tree 1)) rfl
    (fun _ => attachOk_empty exampleEnv {} (by decide) (fun _ => rfl)) rfl
  obtain ⟨r, ro', h1, h2⟩ := get_sub_key_partial exampleEnv {} ['X'] ['R', 'T'] [] "\\X".toList exampleTree none
    self true {} (by decide) (by decide) (exampleHive_tree 1) hreads (.inl rfl) example_kids ['B'] (by decide)
  exact ⟨self, r, ro', hreads, h1, h2.trans (by decide +kernel)⟩

end Notatin
