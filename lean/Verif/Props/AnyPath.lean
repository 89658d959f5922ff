import Verif.Props.LookupNames
import Verif.Lemmas.SafeLookup
/-
C12 for every path, with empty segments.
-/
namespace Notatin
open Spec

/-- The path `p` asks for the names `segs`: they are what is between its backslashes, those at both ends set aside. -/
def Spec.AsksFor (p : Str) (segs : List Str) : Prop :=
  (∀ s ∈ segs, '\\' ∉ s) ∧ segs.head? ≠ some [] ∧ segs.getLast? ≠ some [] ∧
  ∃ j k, p = List.replicate j '\\' ++ joined segs ++ List.replicate k '\\' ∧ (segs = [] → k = 0)

/-- With the name of the root in front, whatever it is. -/
def Spec.AsksBelow (p : Str) (segs : List Str) : Prop :=
  (∀ s ∈ segs, '\\' ∉ s) ∧ segs.getLast? ≠ some [] ∧
  ∃ j k root, '\\' ∉ root ∧ root ≠ [] ∧ p = List.replicate j '\\' ++ joined (root :: segs) ++ List.replicate k '\\' ∧
    (segs = [] → k ≤ 1)

theorem split_joined (s : Str) : joined (splitBackslash s) = s := by
  induction s with
  | nil => rfl
  | cons c s ih =>
    rw [splitBackslash]
    have hne : splitBackslash s ≠ [] := by
      intro h
      have := splitBackslash_length s
      rw [h] at this
      cases this
    cases hs : splitBackslash s with
    | nil => exact absurd hs hne
    | cons a as =>
      rw [hs] at ih
      by_cases hc : c = '\\'
      · rw [if_pos hc, joined_eq, flat]
        rw [joined_eq] at ih
        rw [hc, ← ih]
        rfl
      · rw [if_neg hc, joined_eq]
        rw [joined_eq] at ih
        rw [List.cons_append, ih]

theorem split_plain (s : Str) : ∀ x ∈ splitBackslash s, '\\' ∉ x := by
  induction s with
  | nil => intro x hx; cases List.mem_singleton.1 hx; simp
  | cons c s ih =>
    rw [splitBackslash]
    by_cases hc : c = '\\'
    · rw [if_pos hc]
      intro x hx
      rcases List.mem_cons.1 hx with rfl | hx
      · simp
      · exact ih x hx
    · rw [if_neg hc]
      cases hs : splitBackslash s with
      | nil =>
        intro x hx
        cases List.mem_singleton.1 hx
        intro h
        exact hc (List.mem_singleton.1 h).symm
      | cons a as =>
        rw [hs] at ih
        intro x hx
        rcases List.mem_cons.1 hx with rfl | hx
        · intro h
          rcases List.mem_cons.1 h with h | h
          · exact hc h.symm
          · exact ih a List.mem_cons_self h
        · exact ih x (List.mem_cons_of_mem _ hx)

theorem split_first (c : Char) (s : Str) (hc : c ≠ '\\') : (splitBackslash (c :: s)).head? ≠ some [] := by
  rw [splitBackslash, if_neg hc]
  cases splitBackslash s with
  | nil => simp
  | cons a as => simp

theorem split_last (s : Str) (hs : s ≠ []) (h : s.getLast hs ≠ '\\') : (splitBackslash s).getLast? ≠ some [] := by
  induction s with
  | nil => exact absurd rfl hs
  | cons c s ih =>
    rw [splitBackslash]
    cases s with
    | nil =>
      rw [List.getLast_singleton] at h
      rw [if_neg h]
      simp [splitBackslash]
    | cons d s =>
      have ih := ih (by simp) (by rw [List.getLast_cons (by simp)] at h; exact h)
      have hne : splitBackslash (d :: s) ≠ [] := by
        intro h
        have := splitBackslash_length (d :: s)
        rw [h] at this
        cases this
      cases hsp : splitBackslash (d :: s) with
      | nil => exact absurd hsp hne
      | cons a as =>
        rw [hsp] at ih
        by_cases hc : c = '\\'
        · rw [if_pos hc, List.getLast?_cons_cons]
          exact ih
        · rw [if_neg hc]
          cases as with
          | nil => simp
          | cons b bs =>
            simp only
            rw [List.getLast?_cons_cons] at ih ⊢
            exact ih

theorem lead_form (s : Str) : ∃ j r, s = List.replicate j '\\' ++ r ∧ ∀ c t, r = c :: t → c ≠ '\\' := by
  induction s with
  | nil => exact ⟨0, [], rfl, nofun⟩
  | cons c s ih =>
    by_cases hc : c = '\\'
    · obtain ⟨j, r, h1, h2⟩ := ih
      exact ⟨j + 1, r, by rw [List.replicate_succ, List.cons_append, ← h1, hc], h2⟩
    · exact ⟨0, c :: s, rfl, fun c' t h => by cases h; exact hc⟩

theorem trail_form (s : Str) : ∃ r k, s = r ++ List.replicate k '\\' ∧ ∀ h : r ≠ [], r.getLast h ≠ '\\' := by
  obtain ⟨j, r, h1, h2⟩ := lead_form s.reverse
  refine ⟨r.reverse, j, ?_, fun h => ?_⟩
  · have := congrArg List.reverse h1
    rw [List.reverse_reverse, List.reverse_append, List.reverse_replicate] at this
    exact this
  · cases r with
    | nil => exact absurd rfl h
    | cons c t =>
      rw [List.getLast_reverse]
      exact h2 c t rfl

/-- Every path asks for some names. -/
theorem asks_for (p : Str) : ∃ segs, AsksFor p segs := by
  obtain ⟨j, q, h1, h2⟩ := lead_form p
  obtain ⟨r, k, h3, h4⟩ := trail_form q
  cases r with
  | nil =>
    rw [List.nil_append] at h3
    have hk : k = 0 := by
      cases k with
      | zero => rfl
      | succ k => exact absurd rfl (h2 '\\' _ h3)
    refine ⟨[], nofun, by simp, by simp, j, 0, ?_, fun _ => rfl⟩
    rw [h1, h3, hk]
    simp [joined]
  | cons c t =>
    refine ⟨splitBackslash (c :: t), split_plain _, split_first c t (h2 c _ h3), split_last _ (by simp) (h4 (by simp)), j, k, ?_, ?_⟩
    · rw [split_joined, h1, h3, List.append_assoc]
    · intro h
      have := splitBackslash_length (c :: t)
      rw [h] at this
      cases this

/-- `sub_key_by_path` with empty names in between. -/
theorem sub_key_by_names (env : Env) (st : State) (t : Tree) (root : Node) (gm0 : Bool) (st0 : State)
    (ht : TreeAt env.fi.buffer env.fi.hbin env.depth t) (hreads : Reads env st0 gm0 none [] t none root)
    (hro : st.rootOffset = 0 ∨ st.rootOffset = utf8Len t.name + 2)
    (hnames : t.Every (fun u => '\\' ∉ u.name))
    (s0 : Str) (segs : List Str) (hsegs : ∀ s ∈ s0 :: segs, '\\' ∉ s)
    (hlast : (s0 :: segs).getLast (by simp) ≠ [])
    (hdepth : segs.length < env.depth) (k : Nat) :
    ∃ r ro', getSubKeyByPath env st root (joined (s0 :: segs) ++ List.replicate k '\\') = .ok (r, ro') ∧
      (ro' = 0 ∨ ro' = utf8Len t.name + 2) ∧
      r.map obs = firstAt (s0 :: segs) t ∧ ∀ n, r = some n → IsPlainRead env st n := by
  have hR := every_self hnames
  have hpath : root.key.path = '\\' :: t.name := hreads.facts.2.1
  have hbs : ∀ m ∈ [] :: t.name :: s0 :: segs, '\\' ∉ m := by
    intro m hm
    rcases List.mem_cons.1 hm with rfl | hm
    · simp
    · rcases List.mem_cons.1 hm with rfl | hm
      · exact hR
      · exact hsegs m hm
  let P : List Seg := ([] :: t.name :: s0 :: segs).map Seg.lit
  have hb : ((({} : FilterBuilder).addKeyPath (root.key.path ++ '\\' ::
      (joined (s0 :: segs) ++ List.replicate k '\\'))).keyPathHasRoot true).build
      = .ok ⟨some ⟨P.map Seg.component, true, false⟩⟩ := by
    have e : root.key.path ++ '\\' :: (joined (s0 :: segs) ++ List.replicate k '\\')
        = joined ([] :: t.name :: s0 :: segs) ++ List.replicate k '\\' := by
      rw [hpath, joined_eq, joined_eq, List.nil_append, flat, flat]
      simp
    rw [e, key_path_segments _ _ _ _ hbs (by
      rw [List.getLast_cons (by simp), List.getLast_cons (by simp)]
      exact hlast)]
    rfl
  unfold getSubKeyByPath
  have hne : joined (s0 :: segs) ++ List.replicate k '\\' ≠ [] := by
    rw [joined_eq]
    intro h
    rw [List.append_eq_nil_iff, List.append_eq_nil_iff] at h
    obtain ⟨⟨rfl, h⟩, _⟩ := h
    cases segs with
    | nil => exact hlast rfl
    | cons a as => cases h
  rw [if_neg hne, hb]
  simp only
  have hway : OnTheWay P (segments true [t.name]) := by
    refine ⟨2, by simp [P], ?_⟩
    refine ⟨?_, ?_, trivial⟩
    · exact sameIgnoringCase_refl _
    · exact sameIgnoringCase_refl _
  have hlen := way_length hway
  have h1 : ¬ Exact P (segments true [t.name]) := fun h => by have := exact_length h; omega
  have h2 : ¬ Under P (segments true [t.name]) := fun h => by have := under_length h; omega
  obtain ⟨r, ro', hg, hr, hobs, hread⟩ := find_below env st P ⟨P.map Seg.component, true, false⟩ rfl rfl t.name hR
    env.depth gm0 st0 t [] [] none root st.rootOffset hro (by simp [flat]) (by simp)
    (by
      have := covered_kids ⟨P.map Seg.component, true, false⟩ t hnames (by intro h; cases h)
      simpa [flat] using this)
    ht hreads rfl ⟨(by intro h; cases h), fun _ => ⟨h1, h2⟩⟩
    (by simp [P, segments]; omega) hway
  refine ⟨r, ro', hr, hg, ?_, hread⟩
  rw [hobs]
  unfold firstAt exactAll
  have hw : ∀ x ∈ t.named [] [], (Wanted P false false (segments true x.2.2) ↔
      Pairwise2 SameIgnoringCase (s0 :: segs) (x.2.2.drop 1)) := by
    intro x hx
    cases t with
    | mk off c name kids =>
    have hx' : ∃ L, x.2.2 = name :: L := by
      rw [Tree.named] at hx
      rcases List.mem_cons.1 hx with rfl | hx
      · exact ⟨[], rfl⟩
      · obtain ⟨L, _, e⟩ := namedAll_above kids _ _ x hx
        exact ⟨L, e⟩
    obtain ⟨L, e⟩ := hx'
    rw [e, List.drop_succ_cons, List.drop_zero, ← exact_lits]
    constructor
    · rintro (h | ⟨h, _⟩ | ⟨h, _⟩)
      · exact h.2.2
      · cases h
      · cases h
    · intro h
      left
      exact ⟨sameIgnoringCase_refl _, sameIgnoringCase_refl _, h⟩
  have hfe : (t.named [] []).filter (fun x => decide (Pairwise2 SameIgnoringCase (s0 :: segs) (x.2.2.drop 1)))
      = (t.named [] []).filter (fun x => decide (Wanted P false false (segments true x.2.2))) := by
    apply List.filter_congr
    intro x hx
    rw [decide_eq_decide]
    exact (hw x hx).symm
  rw [hfe]
  cases t with
  | mk off c name kids =>
  have hn0 : ¬ Wanted P false false (segments true [name]) := by
    rintro (h | ⟨h, _⟩ | ⟨h, _⟩)
    · exact h1 h
    · cases h
    · cases h
  rw [Tree.named, List.filter_cons, if_neg (by simpa using hn0)]
  simp only [Tree.name, Tree.kids, flat, List.nil_append, List.append_nil]
  rfl

theorem joined_ends (segs : List Str) (hs : ∀ s ∈ segs, '\\' ∉ s) (hne : segs ≠ []) (h : segs.getLast hne ≠ []) :
    ∃ a c, joined segs = a ++ [c] ∧ c ≠ '\\' := by
  induction segs with
  | nil => exact absurd rfl hne
  | cons s segs ih =>
    cases segs with
    | nil =>
      rw [List.getLast_singleton] at h
      refine ⟨s.dropLast, s.getLast h, ?_, fun e => ?_⟩
      · rw [List.dropLast_concat_getLast]; rfl
      · exact hs s List.mem_cons_self (e ▸ List.getLast_mem h)
    | cons b bs =>
      obtain ⟨a, c, h1, h2⟩ := ih (fun x hx => hs x (List.mem_cons_of_mem _ hx)) (by simp)
        (by rw [List.getLast_cons (by simp)] at h; exact h)
      refine ⟨s ++ '\\' :: a, c, ?_, h2⟩
      rw [joined_eq] at h1 ⊢
      rw [flat, List.cons_append, h1]
      simp

theorem last_of {segs : List Str} (h : segs.getLast? ≠ some []) (hne : segs ≠ []) : segs.getLast hne ≠ [] := by
  intro e
  rw [List.getLast?_eq_some_getLast hne, e] at h
  exact h rfl

/-- C12, partial: whatever path is looked up, backslashes at its ends and empty segments included: the answer is the first
key in listing order that has the names asked for, none iff there is none; no names give the root.  With the root in the
path its first name is set aside.  Missing: names of keys that have a backslash in them (`get_key_backslash_violated`), and paths with
the root in them that have nothing but two or more backslashes after it (`get_key_root_ends_violated`). -/
theorem get_key_any_partial (env : Env) (st : State) (t : Tree) (rco : Int) (hrco : 0 ≤ rco)
    (hoff : t.off = rco.toNat + env.fi.hbin)
    (ht : TreeAt env.fi.buffer env.fi.hbin env.depth t) (hatt : AttachOk env st)
    (hro : st.rootOffset = 0 ∨ st.rootOffset = utf8Len t.name + 2)
    (hnames : t.Every (fun u => '\\' ∉ u.name)) (p : Str) :
    (∃ segs, AsksFor p segs) ∧
    (∀ segs, AsksFor p segs → segs.length ≤ env.depth →
      ∃ r ro', getKey env st rco p false = .ok (r, ro') ∧ r.map obs = firstAt segs t) ∧
    ∀ segs, AsksBelow p segs → segs.length ≤ env.depth →
      ∃ r ro', getKey env st rco p true = .ok (r, ro') ∧ r.map obs = firstAt segs t := by
  have hroot : ∃ root, getRootKey env st rco = .ok (some root, st.rootOffset) ∧
      Reads env st true none [] t none root := by
    unfold getRootKey
    rw [if_neg (by omega)]
    exact readKey_unfiltered env st ⟨rco.toNat + env.fi.hbin, [], none, true, none, true⟩ t
      (treeAt_keyAt ht) hoff.symm (fun _ => hatt) rfl
  obtain ⟨root, hr, hreads⟩ := hroot
  have hkey : ∀ hasRoot segs k, (∀ s ∈ segs, '\\' ∉ s) → segs.getLast? ≠ some [] → segs.length ≤ env.depth → (segs = [] → k = 0) →
      lookupPath p hasRoot = joined segs ++ List.replicate k '\\' →
      ∃ x ro', getKey env st rco p hasRoot = .ok (x, ro') ∧ x.map obs = firstAt segs t := by
    intro hasRoot segs k hsegs hlast hdepth hk h
    unfold getKey
    rw [hr]
    simp only
    rw [h]
    cases segs with
    | nil =>
      rw [hk rfl]
      refine ⟨some root, st.rootOffset, ?_, ?_⟩
      · unfold getSubKeyByPath
        rw [if_pos (by simp [joined])]
      · cases t with
        | mk off c name kids =>
        unfold firstAt
        rw [Tree.named, List.filter_cons, if_pos (by simp [Pairwise2])]
        simp only [Option.map_some, List.map_cons, List.head?_cons, obs]
        rw [hreads.facts.1, hreads.facts.2.1]
        rfl
    | cons s0 segs =>
      obtain ⟨x, ro', h1, _, h2, _⟩ := sub_key_by_names env st t root true st ht hreads hro hnames s0 segs hsegs
        (last_of hlast (by simp)) (by rw [List.length_cons] at hdepth; omega) k
      exact ⟨x, ro', h1, h2⟩
  refine ⟨asks_for p, ?_, ?_⟩
  · rintro segs ⟨h1, h2, h3, j, k, hp, hk⟩ hdepth
    refine hkey false segs k h1 h3 hdepth hk ?_
    rw [hp, List.append_assoc]
    unfold lookupPath
    simp only [Bool.false_eq_true, if_false]
    refine dropWhile_replicate j _ ?_
    intro c r hc
    cases segs with
    | nil =>
      rw [hk rfl] at hc
      cases hc
    | cons s0 segs =>
      rw [joined_eq] at hc
      cases s0 with
      | nil => exact absurd rfl h2
      | cons a as =>
        cases hc
        intro e
        exact h1 _ List.mem_cons_self (e ▸ List.mem_cons_self)
  · rintro segs ⟨h1, h3, j, k, rs, hrs, hrn, hp, hk⟩ hdepth
    cases segs with
    | nil =>
      refine hkey true [] 0 h1 h3 hdepth (fun _ => rfl) ?_
      have hk := hk rfl
      rw [hp]
      obtain ⟨l1, _, l3, _⟩ := lookup_path j rs [] hrs hrn
      have : k = 0 ∨ k = 1 := by omega
      rcases this with rfl | rfl
      · simpa [joined] using l3
      · simpa [joined] using l1
    | cons s0 segs =>
      refine hkey true (s0 :: segs) k h1 h3 hdepth (by simp) ?_
      have e : List.replicate j '\\' ++ joined (rs :: s0 :: segs) ++ List.replicate k '\\'
          = List.replicate j '\\' ++ rs ++ '\\' :: (joined (s0 :: segs) ++ List.replicate k '\\') := by
        rw [joined_eq, joined_eq, flat]
        simp
      rw [hp, e]
      exact (lookup_path j rs _ hrs hrn).1

/-- The names a path asks for are determined by it. -/
theorem asks_once (p : Str) (as bs : List Str) (ha : AsksFor p as) (hb : AsksFor p bs) : as = bs := by
  have key : ∀ segs, AsksFor p segs → segs = if trimEndBackslash (trimStartBackslash p) = [] then []
      else splitBackslash (trimEndBackslash (trimStartBackslash p)) := by
    rintro segs ⟨h1, h2, h3, j, k, rfl, hk⟩
    cases segs with
    | nil =>
      rw [hk rfl]
      have e : trimStartBackslash (List.replicate j '\\' ++ joined [] ++ List.replicate 0 '\\') = [] := by
        have := dropWhile_replicate j [] (by intro c r h; cases h)
        simpa [joined] using this
      rw [e]
      rfl
    | cons s0 segs =>
      have hlast := last_of h3 (by simp)
      have e1 : trimStartBackslash (List.replicate j '\\' ++ joined (s0 :: segs) ++ List.replicate k '\\')
          = joined (s0 :: segs) ++ List.replicate k '\\' := by
        rw [List.append_assoc]
        refine dropWhile_replicate j _ ?_
        intro c r hc
        rw [joined_eq] at hc
        cases s0 with
        | nil => exact absurd rfl h2
        | cons a as =>
          cases hc
          intro e
          exact h1 _ List.mem_cons_self (e ▸ List.mem_cons_self)
      have hne : joined (s0 :: segs) ≠ [] := by
        rw [joined_eq]
        cases s0 with
        | nil => exact absurd rfl h2
        | cons a as => simp
      have e2 : trimEndBackslash (joined (s0 :: segs) ++ List.replicate k '\\') = joined (s0 :: segs) := by
        exact trimEnd_ends _ k (.inr (joined_ends _ h1 (by simp) hlast))
      rw [e1, e2, if_neg hne, joined_eq, splitBackslash_join s0 segs h1]
  rw [key as ha, key bs hb]

/-- C12 is violated for the root when it is in the path: backslashes at the end of a path do not matter below the root
(`get_key_any_partial`), nor does one after the name of the root, but with two the root is not found. -/
theorem get_key_root_ends_violated : ∃ (env : Env) (t : Tree), TreeAt env.fi.buffer env.fi.hbin env.depth t ∧
    t.off = 32 + env.fi.hbin ∧ firstAt [] t = some (t.off, "\\RT".toList) ∧
    found (getKey env {} 32 "RT".toList true) = firstAt [] t ∧
    found (getKey env {} 32 "RT\\".toList true) = firstAt [] t ∧
    found (getKey env {} 32 "RT\\b\\\\".toList true) = firstAt [['b']] t ∧ firstAt [['b']] t ≠ none ∧
    found (getKey env {} 32 "\\\\".toList false) = firstAt [] t ∧
    (match getKey env {} 32 "RT\\\\".toList true with | .ok (none, _) => true | _ => false) = true :=
  ⟨exampleEnv, exampleTree, exampleHive_tree 1, rfl, by decide +kernel, by decide +kernel, by decide +kernel,
    by decide +kernel, by decide +kernel, by decide +kernel, by decide +kernel⟩

/-! ### Examples -/

/-- `get_key("\\\\B\\")` on the example hive finds `\RT\b`; with an empty name in front of it, below the root, nothing is
found. -/
example : (∃ r ro', getKey exampleEnv {} 32 "\\\\B\\".toList false = .ok (r, ro') ∧
      r.map obs = some (219, "\\RT\\b".toList)) ∧
    ∃ r ro', getKey exampleEnv {} 32 "x\\\\B".toList true = .ok (r, ro') ∧ r.map obs = firstAt [[], ['B']] exampleTree := by
  have h := get_key_any_partial exampleEnv {} exampleTree 32 (by decide) rfl (exampleHive_tree 1)
    (attachOk_empty exampleEnv {} (by decide) (fun _ => rfl)) (.inl rfl)
    (by simp only [exampleTree, Tree.Every, EveryAll, Tree.name]; decide)
  constructor
  · exact (h "\\\\B\\".toList).2.1 [['B']] ⟨by decide, by decide, by decide, 2, 1, by decide, by simp⟩ (by decide)
  · exact (h "x\\\\B".toList).2.2 [[], ['B']] ⟨by decide, by decide, 0, 0, ['x'], by decide, by decide, by decide, by simp⟩
      (by decide)

end Notatin
