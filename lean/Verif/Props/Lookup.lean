import Verif.Props.Filter
/-
C12 (lookup by path) and C43 (lookup of a direct sub-key).
-/
namespace Notatin
open Spec

/-! ### C12 -/

/-- The first key, in listing order, whose names below the root are the given ones (up to case):
its offset and path. -/
def Spec.firstAt (segs : List Str) (t : Tree) : Option (Nat × Str) :=
  (((t.named [] []).filter fun x => decide (Pairwise2 SameIgnoringCase segs (x.2.2.drop 1))).map
    fun x => (x.1, x.2.1)).head?

theorem exact_lits (segs names : List Str) :
    Exact (segs.map Seg.lit) names ↔ Pairwise2 SameIgnoringCase segs names := by
  unfold Exact
  induction segs generalizing names with
  | nil => cases names <;> simp [Pairwise2]
  | cons s segs ih => cases names with
    | nil => simp [Pairwise2]
    | cons n names =>
      rw [List.map_cons, Pairwise2, Pairwise2, ih]
      rfl

theorem head?_flatten_cons (a : List α) (b : List α) : (a ++ b).head? = a.head?.or b.head? := by
  cases a <;> simp

/-- The exact matches below a list of trees. -/
def exactAll (P : List Seg) (q : RegQuery) (names : List Str) (ts : List Tree) : List (Nat × Str) :=
  ((namedAll (flat names) names ts).filter fun x =>
    decide (Wanted P q.children false (segments q.hasRoot x.2.2))).map entryOf

theorem exactAll_cons (P : List Seg) (q : RegQuery) (names : List Str) (t : Tree) (ts : List Tree) :
    exactAll P q names (t :: ts) =
      (if Wanted P q.children false (segments q.hasRoot (names ++ [t.name])) then
        [(t.off, flat names ++ '\\' :: t.name)] else []) ++
      exactAll P q (names ++ [t.name]) t.kids ++ exactAll P q names ts := by
  cases t with
  | mk off c name kids =>
  unfold exactAll
  rw [namedAll, Tree.named, List.filter_append, List.map_append, List.filter_cons, flat_snoc]
  simp only [Tree.name, Tree.kids, Tree.off]
  split <;> simp_all [entryOf]

/-- Nothing is wanted below a list of trees that is cut off. -/
theorem exactAll_dead (P : List Seg) (q : RegQuery) (names : List Str) (ts : List Tree)
    (h : ∀ L, ¬ Wanted P q.children false (segments q.hasRoot (names ++ L))) :
    exactAll P q names ts = [] := by
  unfold exactAll
  apply filter_empty (fun n => Wanted P q.children false (segments q.hasRoot n))
  intro x hx
  obtain ⟨L, _, e⟩ := namedAll_above ts _ _ x hx
  rw [e]
  exact h L

/-- `goKids` over the children that read the kept trees. -/
theorem goKids_find (env : Env) (P : List Seg) (q : RegQuery) (names : List Str)
    (Good : Nat → Prop) (f : Nat → Node → Res (Option Node × Nat)) (R' : Tree → Node → Prop)
    (keep : Tree → Bool) (Ok : Node → Prop)
    (hkeep : ∀ t, keep t = true → ∀ n ro, R' t n → Good ro →
      ∃ r ro', Good ro' ∧ f ro n = .ok (r, ro') ∧
        r.map obs = (exactAll P q (names ++ [t.name]) t.kids).head? ∧ ∀ m, r = some m → Ok m)
    (ts : List Tree)
    (hno : ∀ t ∈ ts, ¬ Wanted P q.children false (segments q.hasRoot (names ++ [t.name])))
    (hdrop : ∀ t ∈ ts, keep t = false → exactAll P q (names ++ [t.name]) t.kids = [])
    (nodes : List Node) (hn : Pairwise2 R' (ts.filter keep) nodes) (ro : Nat) (hro : Good ro) :
    ∃ r ro', Good ro' ∧ getSubKeyInternal.goKids f ro nodes = .ok (r, ro') ∧
      r.map obs = (exactAll P q names ts).head? ∧ ∀ m, r = some m → Ok m := by
  induction ts generalizing nodes ro with
  | nil =>
    cases nodes with
    | cons => exact absurd hn (by simp [Pairwise2])
    | nil => exact ⟨none, ro, hro, rfl, by simp [exactAll, namedAll], by simp⟩
  | cons t ts ih =>
    rw [exactAll_cons, if_neg (hno t List.mem_cons_self), List.nil_append, head?_flatten_cons]
    cases hk : keep t with
    | false =>
      rw [List.filter_cons, if_neg (by simp [hk])] at hn
      rw [hdrop t List.mem_cons_self hk]
      exact ih (fun t h => hno t (List.mem_cons_of_mem _ h)) (fun t h => hdrop t (List.mem_cons_of_mem _ h))
        nodes hn ro hro
    | true =>
      rw [List.filter_cons, if_pos hk] at hn
      cases nodes with
      | nil => exact absurd hn (by simp [Pairwise2])
      | cons n nodes =>
        obtain ⟨r, ro1, h1, h2, h3, h4⟩ := hkeep t hk n ro hn.1 hro
        rw [getSubKeyInternal.goKids, h2, ← h3]
        cases r with
        | some m => exact ⟨some m, ro1, h1, rfl, rfl, h4⟩
        | none =>
          simp only [Option.map_none, Option.none_or]
          exact ih (fun t h => hno t (List.mem_cons_of_mem _ h))
            (fun t h => hdrop t (List.mem_cons_of_mem _ h)) nodes hn.2 ro1 h1

/-- A node read from the file (without recovered items) that is what was searched. -/
def IsPlainRead (env : Env) (st : State) (n : Node) : Prop :=
  ∃ path t, KeyAt env.fi.buffer t.off t.cell t.name ∧ Reads env st false none path t (some .Exact) n

/-- The search below a key that is on the way. -/
theorem find_below (env : Env) (st : State) (P : List Seg) (q : RegQuery)
    (hq : q.keyPath = P.map Seg.component) (hch : q.children = false) (R : Str) (hR : '\\' ∉ R)
    (fuel : Nat) : ∀ (gm0 : Bool) (st0 : State) (t : Tree) (path : Str) (above : List Str)
    (s : Option FilterMatchState) (n : Node) (ro : Nat), (ro = 0 ∨ ro = utf8Len R + 2) →
    path ++ '\\' :: t.name = flat (R :: above) → (∀ n ∈ above, '\\' ∉ n) →
    (∀ kid ∈ t.kids, Covered q R (flat (R :: above)) kid) →
    TreeAt env.fi.buffer env.fi.hbin env.depth t →
    Reads env st0 gm0 none path t s n → matchedState s = false → StateOk P q (R :: above) s →
    P.length ≤ (segments q.hasRoot (R :: above)).length + fuel →
    OnTheWay P (segments q.hasRoot (R :: above)) →
    ∃ r ro', (ro' = 0 ∨ ro' = utf8Len R + 2) ∧
      getSubKeyInternal env ⟨some q⟩ none fuel { st with rootOffset := ro } n = .ok (r, ro') ∧
      r.map obs = (exactAll P q (R :: above) t.kids).head? ∧
      ∀ m, r = some m → IsPlainRead env st m := by
  induction fuel with
  | zero =>
    intro gm0 st0 t path above s n ro _ _ _ _ _ _ _ _ hfu hway
    have := way_length hway
    omega
  | succ fuel ih =>
    intro gm0 st0 t path above s n ro hro hpath hab hcov ht hn hms hso hfu hway
    have hfs := filterSays_query st q R hR
    have hnames : ∀ kid ∈ t.kids, '\\' ∉ kid.name := fun kid hk => (every_self (hcov kid hk).2).1
    obtain ⟨r, hr, hg, hfound, hp, _⟩ := readSubKeysInternal_kids env { st with rootOffset := ro } ⟨some q⟩
      none false gm0 none st0 (by intro h; cases h) path t ht s n hn
      (fun ro => ro = 0 ∨ ro = utf8Len R + 2) hro (saysOf q s (flat (R :: above)))
      (by
        intro kid hk ro1 hg1
        obtain ⟨ro2, hg2, h2⟩ := hfs s _ kid ro1 (hcov kid hk) hg1
        refine ⟨ro2, hg2, fun k h3 h4 => h2 k h3 ?_⟩
        rw [h4, hpath])
    rw [getSubKeyInternal, hr]
    simp only
    rw [hpath] at hp
    have hpl : ∀ kid c, Reads env { st with rootOffset := ro } false none (flat (R :: above)) kid
        (kidState (matchedState s) (Filter.isValid ⟨some q⟩) (saysOf q s (flat (R :: above)) kid)) c →
        Reads env st false none (flat (R :: above)) kid
        (kidState (matchedState s) true (saysOf q s (flat (R :: above)) kid)) c :=
      fun kid c h => h.rootOffset
    -- what the filter says about each sub-key
    have hstep : ∀ kid ∈ t.kids, _ := fun kid hk =>
      kid_step P q hq false R hR kid above s hab (hnames kid hk) hso
    have hsegl : ∀ name : Str, (segments q.hasRoot (R :: above ++ [name])).length
        = (segments q.hasRoot (R :: above)).length + 1 := by
      intro name; rw [segments_append, List.length_append]; rfl
    have hwl := way_length hway
    have hsaysM : ∀ kid ∈ t.kids, saysOf q s (flat (R :: above)) kid
        = matchSegments (P.map Seg.component) (segments q.hasRoot (R :: above ++ [kid.name])) := by
      intro kid hk
      unfold saysOf
      rw [hms, Bool.false_and, if_neg (by decide), ← flat_snoc, names_split _ (by
        intro n hn
        rcases List.mem_append.1 hn with hn | hn
        · rcases List.mem_cons.1 hn with rfl | hn
          · exact hR
          · exact hab n hn
        · rw [List.mem_singleton.1 hn]; exact hnames kid hk), List.drop_succ_cons, List.drop_zero, hq]
    have hwanted : ∀ K, Wanted P q.children false K ↔ Exact P K := by
      intro K
      constructor
      · rintro (h | ⟨h, _⟩ | ⟨h, _⟩)
        · exact h
        · rw [hch] at h; cases h
        · cases h
      · exact .inl
    by_cases hlast : P.length = (segments q.hasRoot (R :: above)).length + 1
    · -- the sub-keys have as many segments as the filter
      have hiff : ∀ kid ∈ t.kids, (saysOf q s (flat (R :: above)) kid ≠ .noMatch ↔
          Wanted P q.children false (segments q.hasRoot (R :: above ++ [kid.name]))) := by
        intro kid hk
        rw [hsaysM kid hk, hwanted, ← matchSegments_exact]
        have : matchSegments (P.map Seg.component) (segments q.hasRoot (R :: above ++ [kid.name])) ≠ .iterate := by
          rw [Ne, matchSegments_way]
          intro h
          have := way_length h
          rw [hsegl] at this
          omega
        revert this
        cases matchSegments (P.map Seg.component) (segments q.hasRoot (R :: above ++ [kid.name])) <;> simp
      have hbelow : ∀ kid : Tree, exactAll P q (R :: above ++ [kid.name]) kid.kids = [] := by
        intro kid
        unfold exactAll
        apply filter_empty (fun n => Wanted P q.children false (segments q.hasRoot n))
        intro x hx
        obtain ⟨L, hL, e⟩ := namedAll_above kid.kids _ _ x hx
        rw [e, hwanted]
        intro h
        have := exact_length h
        rw [List.cons_append, segments_append, List.length_append, ← List.cons_append, hsegl] at this
        have : 0 < L.length := List.length_pos_iff.2 hL
        omega
      have hhead : ∀ (ts : List Tree) (nodes : List Node), (∀ kid ∈ ts, kid ∈ t.kids) →
          Pairwise2 (fun kid c => Reads env { st with rootOffset := ro } false none (flat (R :: above)) kid
            (kidState (matchedState s) (Filter.isValid ⟨some q⟩) (saysOf q s (flat (R :: above)) kid)) c)
          (ts.filter fun kid => decide (saysOf q s (flat (R :: above)) kid ≠ .noMatch)) nodes →
          nodes.head?.map obs = (exactAll P q (R :: above) ts).head? ∧
          ∀ m, nodes.head? = some m → IsPlainRead env st m := by
        intro ts
        induction ts with
        | nil =>
          intro nodes _ h
          cases nodes with
          | nil => exact ⟨by simp [exactAll, namedAll], by simp⟩
          | cons => exact absurd h (by simp [Pairwise2])
        | cons a as iht =>
          intro nodes hsub h
          rw [exactAll_cons, hbelow, List.append_nil]
          by_cases hw : saysOf q s (flat (R :: above)) a ≠ .noMatch
          · rw [if_pos ((hiff a (hsub a List.mem_cons_self)).1 hw)]
            rw [List.filter_cons, if_pos (by simpa using hw)] at h
            cases nodes with
            | nil => exact absurd h (by simp [Pairwise2])
            | cons m nodes =>
              have hm := hpl a m h.1
              refine ⟨?_, ?_⟩
              · simp only [List.head?_cons, Option.map_some, List.cons_append]
                rw [obs, hm.facts.1, hm.facts.2.1]
              · intro m' hm'
                cases hm'
                have hex : saysOf q s (flat (R :: above)) a = .keyMatch := by
                  have := (hiff a (hsub a List.mem_cons_self)).1 hw
                  rwa [hwanted, ← matchSegments_exact, ← hsaysM a (hsub a List.mem_cons_self)] at this
                rw [hex] at hm
                refine ⟨_, _, ?_, hm⟩
                cases t with
                | mk o c' nm ks =>
                rw [TreeAt] at ht
                exact treeAt_keyAt (forestAt_mem ht.2.2 a (hsub a List.mem_cons_self)).2
          · rw [if_neg (mt (hiff a (hsub a List.mem_cons_self)).2 hw), List.nil_append]
            rw [List.filter_cons, if_neg (by simpa using hw)] at h
            exact iht nodes (fun k hk => hsub k (List.mem_cons_of_mem _ hk)) h
      have hh := hhead t.kids r.children (fun _ h => h) hp
      by_cases hf : r.found = true
      · rw [if_pos hf]
        exact ⟨_, _, hg, rfl, hh.1, hh.2⟩
      · rw [if_neg hf]
        have hnil : r.children = [] := by
          have hnone : (t.kids.filter fun kid => decide (saysOf q s (flat (R :: above)) kid ≠ .noMatch)) = [] := by
            rw [List.filter_eq_nil_iff]
            intro kid hk
            have hnf : saysOf q s (flat (R :: above)) kid ≠ .keyMatch := by
              intro h
              apply hf
              rw [hfound]
              exact List.any_eq_true.2 ⟨kid, hk, by rw [decide_eq_true_iff]; exact h⟩
            have hiff' := hiff kid hk
            rw [hwanted, ← matchSegments_exact, ← hsaysM kid hk] at hiff'
            simpa using fun h => hnf (hiff'.1 h)
          rw [hnone] at hp
          cases hc : r.children with
          | nil => rfl
          | cons => rw [hc] at hp; exact absurd hp (by simp [Pairwise2])
        rw [hnil]
        rw [hnil] at hh
        exact ⟨none, _, hg, rfl, hh.1, by simp⟩
    · -- the search goes on below the sub-keys
      have hne : ∀ kid ∈ t.kids, ¬ Wanted P q.children false (segments q.hasRoot (R :: above ++ [kid.name])) := by
        intro kid _
        rw [hwanted]
        intro h
        have := exact_length h
        rw [hsegl] at this
        omega
      have hf : ¬ r.found = true := by
        rw [hfound]
        intro h
        obtain ⟨kid, hk, h⟩ := List.any_eq_true.1 h
        rw [decide_eq_true_iff] at h
        have h : saysOf q s (flat (R :: above)) kid = .keyMatch := h
        rw [hsaysM kid hk, matchSegments_exact] at h
        exact hne kid hk (.inl h)
      rw [if_neg hf]
      have hp' : Pairwise2 (fun kid c => kid ∈ t.kids ∧ Reads env st false none (flat (R :: above)) kid
          (kidState (matchedState s) true (saysOf q s (flat (R :: above)) kid)) c)
          (t.kids.filter fun kid => decide (saysOf q s (flat (R :: above)) kid ≠ .noMatch)) r.children := by
        have conv : ∀ (as : List Tree) (bs : List Node), (∀ a ∈ as, a ∈ t.kids) →
            Pairwise2 (fun kid c => Reads env { st with rootOffset := ro } false none (flat (R :: above)) kid
              (kidState (matchedState s) (Filter.isValid ⟨some q⟩) (saysOf q s (flat (R :: above)) kid)) c) as bs →
            Pairwise2 (fun kid c => kid ∈ t.kids ∧ Reads env st false none (flat (R :: above)) kid
              (kidState (matchedState s) true (saysOf q s (flat (R :: above)) kid)) c) as bs := by
          intro as
          induction as with
          | nil => intro bs _ h; cases bs with
            | nil => trivial
            | cons => exact absurd h (by simp [Pairwise2])
          | cons a as ih => intro bs hs h; cases bs with
            | nil => exact absurd h (by simp [Pairwise2])
            | cons b bs => exact ⟨⟨hs a List.mem_cons_self, hpl a b h.1⟩, ih bs (fun x hx => hs x (List.mem_cons_of_mem _ hx)) h.2⟩
        exact conv _ _ (fun a ha => (List.mem_filter.1 ha).1) hp
      refine goKids_find env P q (R :: above) (fun ro => ro = 0 ∨ ro = utf8Len R + 2) _ _ _
        (IsPlainRead env st) ?_ t.kids hne ?_ r.children hp' r.rootOffset hg
      · rintro kid hkeep c ro1 ⟨hkm, hc⟩ hro1
        rcases hstep kid hkm with ⟨h1, _⟩ | ⟨h1, h2, h3⟩
        · exact absurd h1 (by simpa using hkeep)
        · have hway' : OnTheWay P (segments q.hasRoot (R :: above ++ [kid.name])) := by
            rw [← matchSegments_way, ← hsaysM kid hkm]
            have h4 : saysOf q s (flat (R :: above)) kid ≠ .keyMatch := by
              rw [hsaysM kid hkm, Ne, matchSegments_exact]
              exact fun h => hne kid hkm (.inl h)
            revert h1 h4
            cases saysOf q s (flat (R :: above)) kid <;> simp
          refine ih false st kid (flat (R :: above)) (above ++ [kid.name]) _ c ro1 hro1 ?_ ?_ ?_ ?_ hc ?_ h2 ?_ hway'
          · rw [← List.cons_append, flat_snoc]
          · intro n hn
            rcases List.mem_append.1 hn with hn | hn
            · exact hab n hn
            · rw [List.mem_singleton.1 hn]; exact hnames kid hkm
          · intro k2 hk2
            have := hereditary_covered q R (flat (R :: above)) kid (hcov kid hkm) k2 hk2
            rw [← flat_snoc] at this
            exact this
          · cases t with
            | mk o c' nm ks =>
            rw [TreeAt] at ht
            exact (forestAt_mem ht.2.2 kid hkm).2
          · cases hm : matchedState (kidState (matchedState s) true (saysOf q s (flat (R :: above)) kid)) with
            | false => rfl
            | true => exact absurd (h3.1 (.inr hm)) (hne kid hkm)
          · have := hsegl kid.name
            rw [List.cons_append] at this
            omega
      · intro kid hk hdrop
        rcases hstep kid hk with ⟨_, h2⟩ | ⟨h1, _⟩
        · exact exactAll_dead P q _ _ h2
        · exact absurd hdrop (by simpa using h1)

theorem dropWhile_replicate (k : Nat) (s : Str) (h : ∀ c r, s = c :: r → c ≠ '\\') :
    trimStartBackslash (List.replicate k '\\' ++ s) = s := by
  unfold trimStartBackslash
  induction k with
  | zero =>
    cases s with
    | nil => rfl
    | cons c r =>
      rw [List.replicate_zero, List.nil_append, List.dropWhile_cons, if_neg (by simpa using h c r rfl)]
  | succ k ih =>
    rw [List.replicate_succ, List.cons_append, List.dropWhile_cons, if_pos (by decide), ih]

/-- C12: the path of the lookup: leading backslashes are ignored, with `has_root` also the first
segment. -/
theorem lookup_path (k : Nat) (root rest : Str) (hroot : '\\' ∉ root) (hne : root ≠ []) :
    lookupPath (List.replicate k '\\' ++ root ++ '\\' :: rest) true = rest ∧
    lookupPath (List.replicate k '\\' ++ root ++ '\\' :: rest) false = root ++ '\\' :: rest ∧
    lookupPath (List.replicate k '\\' ++ root) true = [] ∧
    lookupPath (List.replicate k '\\' ++ root) false = root ∧
    lookupPath (List.replicate k '\\') true = [] ∧ lookupPath (List.replicate k '\\') false = [] := by
  have hc : ∀ tail : Str, ∀ c r, root ++ tail = c :: r → c ≠ '\\' := by
    intro tail c r h
    cases root with
    | nil => exact absurd rfl hne
    | cons a as => cases h; intro e; exact hroot (e ▸ List.mem_cons_self)
  have h1 : trimStartBackslash (List.replicate k '\\' ++ root ++ '\\' :: rest) = root ++ '\\' :: rest := by
    rw [List.append_assoc, dropWhile_replicate _ _ (hc _)]
  have h2 : trimStartBackslash (List.replicate k '\\' ++ root) = root := by
    have := hc []
    rw [List.append_nil] at this
    exact dropWhile_replicate _ _ this
  have h3 : trimStartBackslash (List.replicate k '\\') = [] := by
    have := dropWhile_replicate k [] (by intro c r h; cases h)
    rwa [List.append_nil] at this
  unfold lookupPath
  simp only [h1, h2, h3]
  have hdw : ∀ tail : Str, (root ++ '\\' :: tail).dropWhile (· != '\\') = '\\' :: tail := by
    intro tail
    clear h1 h2 h3 hc hne
    induction root with
    | nil => simp
    | cons a as ih =>
      rw [List.mem_cons, not_or] at hroot
      rw [List.cons_append, List.dropWhile_cons, if_pos (by simpa using fun h => hroot.1 h.symm), ih hroot.2]
  simp [hroot, hdw]

/-- C12: looking up the path with the segments `segs` (joined with backslashes, any number of them
at the end) from a root key that reads the tree `t`: the first key in listing order with these
names, none iff there is none. -/
theorem sub_key_by_path (env : Env) (st : State) (t : Tree) (root : Node) (gm0 : Bool) (st0 : State)
    (ht : TreeAt env.fi.buffer env.fi.hbin env.depth t) (hreads : Reads env st0 gm0 none [] t none root)
    (hro : st.rootOffset = 0 ∨ st.rootOffset = utf8Len t.name + 2)
    (hnames : t.Every (fun u => '\\' ∉ u.name))
    (s0 : Str) (segs : List Str) (hsegs : ∀ s ∈ s0 :: segs, '\\' ∉ s ∧ s ≠ [])
    (hdepth : segs.length < env.depth) (k : Nat) :
    ∃ r ro', getSubKeyByPath env st root (joined (s0 :: segs) ++ List.replicate k '\\') = .ok (r, ro') ∧
      (ro' = 0 ∨ ro' = utf8Len t.name + 2) ∧
      r.map obs = firstAt (s0 :: segs) t ∧ ∀ n, r = some n → IsPlainRead env st n := by
  have hR := every_self hnames
  have hpath : root.key.path = '\\' :: t.name := hreads.facts.2.1
  have hbs : ∀ m ∈ [] :: t.name :: s0 :: segs, '\\' ∉ m := by
    intro m hm
    rcases List.mem_cons.1 hm with rfl | hm
    · simp
    · rcases List.mem_cons.1 hm with rfl | hm
      · exact hR
      · exact (hsegs m hm).1
  let P : List Seg := ([] :: t.name :: s0 :: segs).map Seg.lit
  have hb : ((({} : FilterBuilder).addKeyPath (root.key.path ++ '\\' ::
      (joined (s0 :: segs) ++ List.replicate k '\\'))).keyPathHasRoot true).build
      = .ok ⟨some ⟨P.map Seg.component, true, false⟩⟩ := by
    have e : root.key.path ++ '\\' :: (joined (s0 :: segs) ++ List.replicate k '\\')
        = joined ([] :: t.name :: s0 :: segs) ++ List.replicate k '\\' := by
      rw [hpath, joined_eq, joined_eq, List.nil_append, flat, flat]
      simp
    rw [e, key_path_segments _ _ _ _ hbs (by
      rw [List.getLast_cons (by simp), List.getLast_cons (by simp)]
      exact (hsegs _ (List.getLast_mem (by simp))).2)]
    rfl
  unfold getSubKeyByPath
  have hne : joined (s0 :: segs) ++ List.replicate k '\\' ≠ [] := by
    rw [joined_eq]
    have := (hsegs s0 List.mem_cons_self).2
    intro h
    rw [List.append_eq_nil_iff, List.append_eq_nil_iff] at h
    exact this h.1.1
  rw [if_neg hne, hb]
  simp only
  have hway : OnTheWay P (segments true [t.name]) := by
    refine ⟨2, by simp [P], ?_⟩
    refine ⟨?_, ?_, trivial⟩
    · exact sameIgnoringCase_refl _
    · exact sameIgnoringCase_refl _
  have hlen := way_length hway
  have h1 : ¬ Exact P (segments true [t.name]) := fun h => by have := exact_length h; omega
  have h2 : ¬ Under P (segments true [t.name]) := fun h => by have := under_length h; omega
  obtain ⟨r, ro', hg, hr, hobs, hread⟩ := find_below env st P ⟨P.map Seg.component, true, false⟩ rfl rfl t.name hR
    env.depth gm0 st0 t [] [] none root st.rootOffset hro (by simp [flat]) (by simp)
    (by
      have := covered_kids ⟨P.map Seg.component, true, false⟩ t hnames (by intro h; cases h)
      simpa [flat] using this)
    ht hreads rfl ⟨(by intro h; cases h), fun _ => ⟨h1, h2⟩⟩
    (by simp [P, segments]; omega) hway
  refine ⟨r, ro', hr, hg, ?_, hread⟩
  rw [hobs]
  unfold firstAt exactAll
  have hw : ∀ x ∈ t.named [] [], (Wanted P false false (segments true x.2.2) ↔
      Pairwise2 SameIgnoringCase (s0 :: segs) (x.2.2.drop 1)) := by
    intro x hx
    cases t with
    | mk off c name kids =>
    have hx' : ∃ L, x.2.2 = name :: L := by
      rw [Tree.named] at hx
      rcases List.mem_cons.1 hx with rfl | hx
      · exact ⟨[], rfl⟩
      · obtain ⟨L, _, e⟩ := namedAll_above kids _ _ x hx
        exact ⟨L, e⟩
    obtain ⟨L, e⟩ := hx'
    rw [e, List.drop_succ_cons, List.drop_zero, ← exact_lits]
    constructor
    · rintro (h | ⟨h, _⟩ | ⟨h, _⟩)
      · exact h.2.2
      · cases h
      · cases h
    · intro h
      left
      exact ⟨sameIgnoringCase_refl _, sameIgnoringCase_refl _, h⟩
  have hfe : (t.named [] []).filter (fun x => decide (Pairwise2 SameIgnoringCase (s0 :: segs) (x.2.2.drop 1)))
      = (t.named [] []).filter (fun x => decide (Wanted P false false (segments true x.2.2))) := by
    apply List.filter_congr
    intro x hx
    rw [decide_eq_decide]
    exact (hw x hx).symm
  rw [hfe]
  cases t with
  | mk off c name kids =>
  have hn0 : ¬ Wanted P false false (segments true [name]) := by
    rintro (h | ⟨h, _⟩ | ⟨h, _⟩)
    · exact h1 h
    · cases h
    · cases h
  rw [Tree.named, List.filter_cons, if_neg (by simpa using hn0)]
  simp only [Tree.name, Tree.kids, flat, List.nil_append, List.append_nil]
  rfl

/-- C12: `get_key`, with what is known about the key found and the cached root offset. -/
theorem get_key_found (env : Env) (st : State) (t : Tree) (rco : Int) (hrco : 0 ≤ rco)
    (hoff : t.off = rco.toNat + env.fi.hbin)
    (ht : TreeAt env.fi.buffer env.fi.hbin env.depth t) (hatt : AttachOk env st)
    (hro : st.rootOffset = 0 ∨ st.rootOffset = utf8Len t.name + 2)
    (hnames : t.Every (fun u => '\\' ∉ u.name))
    (segs : List Str) (hsegs : ∀ s ∈ segs, '\\' ∉ s ∧ s ≠ []) (hdepth : segs.length ≤ env.depth)
    (j k : Nat) (hk : segs = [] → k = 0) (rootSeg : Str) (hrs : '\\' ∉ rootSeg ∧ rootSeg ≠ []) :
    (∃ r ro', getKey env st rco (List.replicate j '\\' ++ joined segs ++ List.replicate k '\\') false = .ok (r, ro') ∧
      (ro' = 0 ∨ ro' = utf8Len t.name + 2) ∧ r.map obs = firstAt segs t ∧
        ∀ n, r = some n → IsPlainRead env st n ∨ getRootKey env st rco = .ok (some n, st.rootOffset)) ∧
    (∃ r ro', getKey env st rco (List.replicate j '\\' ++ joined (rootSeg :: segs) ++ List.replicate k '\\') true
        = .ok (r, ro') ∧
      (ro' = 0 ∨ ro' = utf8Len t.name + 2) ∧ r.map obs = firstAt segs t ∧
        ∀ n, r = some n → IsPlainRead env st n ∨ getRootKey env st rco = .ok (some n, st.rootOffset)) := by
  have hroot : ∃ root, getRootKey env st rco = .ok (some root, st.rootOffset) ∧
      Reads env st true none [] t none root := by
    unfold getRootKey
    rw [if_neg (by omega)]
    exact readKey_unfiltered env st ⟨rco.toNat + env.fi.hbin, [], none, true, none, true⟩ t
      (treeAt_keyAt ht) hoff.symm (fun _ => hatt) rfl
  obtain ⟨root, hr, hreads⟩ := hroot
  -- the path after `lookup_path`
  have hcore : ∀ r, r = joined segs ++ List.replicate k '\\' →
      ∃ x ro', getSubKeyByPath env st root r = .ok (x, ro') ∧
        (ro' = 0 ∨ ro' = utf8Len t.name + 2) ∧ x.map obs = firstAt segs t ∧
        ∀ n, x = some n → IsPlainRead env st n ∨ getRootKey env st rco = .ok (some n, st.rootOffset) := by
    rintro _ rfl
    cases segs with
    | nil =>
      rw [hk rfl]
      refine ⟨some root, st.rootOffset, ?_, hro, ?_, ?_⟩
      · unfold getSubKeyByPath
        rw [if_pos (by simp [joined])]
      · cases t with
        | mk off c name kids =>
        unfold firstAt
        rw [Tree.named, List.filter_cons, if_pos (by simp [Pairwise2])]
        simp only [Option.map_some, List.map_cons, List.head?_cons, obs]
        rw [hreads.facts.1, hreads.facts.2.1]
        rfl
      · intro n hn; cases hn; exact .inr hr
    | cons s0 segs =>
      obtain ⟨x, ro', h1, h0, h2, h3⟩ := sub_key_by_path env st t root true st ht hreads hro hnames s0 segs hsegs
        (by rw [List.length_cons] at hdepth; omega) k
      exact ⟨x, ro', h1, h0, h2, fun n hn => .inl (h3 n hn)⟩
  have hkey : ∀ p hasRoot, lookupPath p hasRoot = joined segs ++ List.replicate k '\\' →
      ∃ x ro', getKey env st rco p hasRoot = .ok (x, ro') ∧
        (ro' = 0 ∨ ro' = utf8Len t.name + 2) ∧ x.map obs = firstAt segs t ∧
        ∀ n, x = some n → IsPlainRead env st n ∨ getRootKey env st rco = .ok (some n, st.rootOffset) := by
    intro p hasRoot h
    obtain ⟨x, ro', h1, h2⟩ := hcore _ h
    refine ⟨x, ro', ?_, h2⟩
    unfold getKey
    rw [hr]
    exact h1
  constructor
  · apply hkey
    cases segs with
    | nil =>
      rw [hk rfl]
      have := (lookup_path j ['x'] [] (by decide) (by simp)).2.2.2.2.2
      simpa [joined] using this
    | cons s0 segs =>
      obtain ⟨hs0, hs0n⟩ := hsegs s0 List.mem_cons_self
      rw [joined_eq]
      have hform : ∀ tail : Str, (tail = [] ∨ ∃ r, tail = '\\' :: r) →
          lookupPath (List.replicate j '\\' ++ s0 ++ tail) false = s0 ++ tail := by
        rintro tail (rfl | ⟨r, rfl⟩)
        · rw [List.append_nil, List.append_nil]
          exact (lookup_path j s0 [] hs0 hs0n).2.2.2.1
        · exact (lookup_path j s0 r hs0 hs0n).2.1
      have := hform (flat segs ++ List.replicate k '\\') (by
        cases segs with
        | nil =>
          cases k with
          | zero => left; rfl
          | succ k => right; exact ⟨_, rfl⟩
        | cons a as => right; exact ⟨_, rfl⟩)
      simpa only [List.append_assoc] using this
  · apply hkey
    cases segs with
    | nil =>
      rw [hk rfl]
      have := (lookup_path j rootSeg [] hrs.1 hrs.2).2.2.1
      simpa [joined] using this
    | cons s0 segs =>
      have e : List.replicate j '\\' ++ joined (rootSeg :: s0 :: segs) ++ List.replicate k '\\'
          = List.replicate j '\\' ++ rootSeg ++ '\\' :: (joined (s0 :: segs) ++ List.replicate k '\\') := by
        rw [joined_eq, joined_eq, flat]
        simp
      rw [e]
      exact (lookup_path j rootSeg _ hrs.1 hrs.2).1

/-- C12: `get_key` on a hive whose root cell offset points to a tree: leading and trailing
backslashes are ignored (with `has_root` also the first segment); the result is the first key in
listing order with the given names, none iff there is none; the empty path gives the root. -/
theorem get_key_partial (env : Env) (st : State) (t : Tree) (rco : Int) (hrco : 0 ≤ rco)
    (hoff : t.off = rco.toNat + env.fi.hbin)
    (ht : TreeAt env.fi.buffer env.fi.hbin env.depth t) (hatt : AttachOk env st)
    (hro : st.rootOffset = 0 ∨ st.rootOffset = utf8Len t.name + 2)
    (hnames : t.Every (fun u => '\\' ∉ u.name))
    (segs : List Str) (hsegs : ∀ s ∈ segs, '\\' ∉ s ∧ s ≠ []) (hdepth : segs.length ≤ env.depth)
    (j k : Nat) (hk : segs = [] → k = 0) (rootSeg : Str) (hrs : '\\' ∉ rootSeg ∧ rootSeg ≠ []) :
    (∃ r ro', getKey env st rco (List.replicate j '\\' ++ joined segs ++ List.replicate k '\\') false = .ok (r, ro') ∧
      r.map obs = firstAt segs t ∧ ∀ n, r = some n → IsRead env st n) ∧
    (∃ r ro', getKey env st rco (List.replicate j '\\' ++ joined (rootSeg :: segs) ++ List.replicate k '\\') true
        = .ok (r, ro') ∧
      r.map obs = firstAt segs t ∧ ∀ n, r = some n → IsRead env st n) := by
  obtain ⟨h1, h2⟩ := get_key_found env st t rco hrco hoff ht hatt hro hnames segs hsegs hdepth j k hk
    rootSeg hrs
  have hread : ∀ n, IsPlainRead env st n ∨ getRootKey env st rco = .ok (some n, st.rootOffset) →
      IsRead env st n := by
    rintro n (⟨p, t, hk, h⟩ | h)
    · exact ⟨false, p, t, _, hk, h⟩
    · unfold getRootKey at h
      rw [if_neg (by omega)] at h
      obtain ⟨m, hm, hreads⟩ := readKey_unfiltered env st ⟨rco.toNat + env.fi.hbin, [], none, true, none, true⟩ t
        (treeAt_keyAt ht) hoff.symm (fun _ => hatt) rfl
      rw [hm] at h
      cases h
      exact ⟨true, [], t, none, treeAt_keyAt ht, hreads⟩
  obtain ⟨r, ro', e, _, ho, hn⟩ := h1
  obtain ⟨r2, ro2, e2, _, ho2, hn2⟩ := h2
  exact ⟨⟨r, ro', e, ho, fun n h => hread n (hn n h)⟩, ⟨r2, ro2, e2, ho2, fun n h => hread n (hn2 n h)⟩⟩

/-- `get_key("\\B")` on the example hive finds `\RT\b`. -/
example : ∃ r ro', getKey exampleEnv {} 32 "\\\\B".toList false = .ok (r, ro') ∧
    r.map obs = some (219, "\\RT\\b".toList) ∧ ∀ n, r = some n → IsRead exampleEnv {} n :=
  (get_key_partial exampleEnv {} exampleTree 32 (by decide) rfl (exampleHive_tree 1)
    (attachOk_empty exampleEnv {} (by decide) (fun _ => rfl)) (.inl rfl)
    (by simp only [exampleTree, Tree.Every, EveryAll, Tree.name]; decide) [['B']] (by decide) (by decide)
    2 0 (by simp) ['x'] (by decide)).1

end Notatin
