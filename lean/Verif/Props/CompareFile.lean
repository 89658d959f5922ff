import Verif.Props.Compare
import Verif.Props.SubKey
import Verif.Props.Order
import Verif.Lemmas.SameRead
/-
C30, on hives: looking up the keys of the base finds them.
-/
namespace Notatin
open Spec

/-! ### The names lead to the key -/

mutual
theorem named_pre : ∀ (t : Tree) (path : Str) (above : List Str),
    (t.named path above).map entryOf = t.pre path
  | .mk off c name kids, path, above => by
    rw [Tree.named, Tree.pre, List.map_cons, namedAll_pre kids]
    rfl
theorem namedAll_pre : ∀ (ts : List Tree) (path : Str) (above : List Str),
    (namedAll path above ts).map entryOf = preAll path ts
  | [], path, above => by rw [namedAll, preAll]; rfl
  | t :: ts, path, above => by
    rw [namedAll, preAll, List.map_append, named_pre t, namedAll_pre ts]
end

mutual
theorem pre_offs : ∀ (t : Tree) (path : Str), (t.pre path).map Prod.fst = t.offs
  | .mk off c name kids, path => by
    rw [Tree.pre, Tree.offs, List.map_cons, preAll_offs kids]
theorem preAll_offs : ∀ (ts : List Tree) (path : Str), (preAll path ts).map Prod.fst = offsAll ts
  | [], path => by rw [preAll, offsAll]; rfl
  | t :: ts, path => by
    rw [preAll, offsAll, List.map_append, pre_offs t, preAll_offs ts]
end

/-- A key of the list with the name, where names are distinct, is the first with the name. -/
theorem find_distinct {kids : List Tree} (hd : NamesDistinct kids) {kid : Tree} (hk : kid ∈ kids) :
    kids.find? (fun u => decide (SameIgnoringCase kid.name u.name)) = some kid := by
  induction kids with
  | nil => cases hk
  | cons a as ih =>
    unfold NamesDistinct at hd ih
    rw [List.pairwise_cons] at hd
    rw [List.find?_cons]
    rcases List.mem_cons.1 hk with rfl | hk
    · rw [decide_eq_true (sameIgnoringCase_refl _)]
    · rw [decide_eq_false (fun h => hd.1 kid hk ⟨kid.name, h, sameIgnoringCase_refl _⟩)]
      exact ih hd.2 hk

mutual
theorem walkTo_named : ∀ (t : Tree) (path : Str) (above : List Str) (x : Nat × Str × List Str),
    t.Every (fun u => NamesDistinct u.kids) → x ∈ t.named path above →
    ∃ L, x.2.2 = above ++ t.name :: L ∧ walkTo L path t = some (entryOf x)
  | .mk off c name kids, path, above, x, hev, hx => by
    rw [Tree.named] at hx
    rcases List.mem_cons.1 hx with rfl | hx
    · exact ⟨[], rfl, rfl⟩
    · have hd : NamesDistinct kids := every_self hev
      rw [Tree.Every] at hev
      obtain ⟨kid, hk, L, h1, h2⟩ := walkTo_namedAll kids _ _ x hev.2 hx
      refine ⟨kid.name :: L, by rw [h1]; simp [Tree.name], ?_⟩
      show (kids.find? fun u => decide (SameIgnoringCase kid.name u.name)).bind
        (walkTo L (path ++ '\\' :: name)) = _
      rw [find_distinct hd hk]
      exact h2
theorem walkTo_namedAll : ∀ (ts : List Tree) (path : Str) (above : List Str) (x : Nat × Str × List Str),
    EveryAll (fun u => NamesDistinct u.kids) ts → x ∈ namedAll path above ts →
    ∃ kid ∈ ts, ∃ L, x.2.2 = above ++ kid.name :: L ∧ walkTo L path kid = some (entryOf x)
  | [], path, above, x, hev, hx => by rw [namedAll] at hx; cases hx
  | t :: ts, path, above, x, hev, hx => by
    rw [namedAll] at hx
    rw [EveryAll] at hev
    rcases List.mem_append.1 hx with hx | hx
    · exact ⟨t, List.mem_cons_self, walkTo_named t path above x hev.1 hx⟩
    · obtain ⟨kid, hk, h⟩ := walkTo_namedAll ts path above x hev.2 hx
      exact ⟨kid, List.mem_cons_of_mem _ hk, h⟩
end

mutual
theorem named_names (p : Str → Prop) : ∀ (t : Tree) (path : Str) (above : List Str)
    (x : Nat × Str × List Str), t.Every (fun u => p u.name) → x ∈ t.named path above →
    path = flat above → (∀ n ∈ above, p n) → x.2.1 = flat x.2.2 ∧ ∀ n ∈ x.2.2, p n
  | .mk off c name kids, path, above, x, hev, hx, hp, ha => by
    have hs : p name := every_self hev
    rw [Tree.Every] at hev
    rw [Tree.named] at hx
    have hp' : path ++ '\\' :: name = flat (above ++ [name]) := by
      rw [flat_append, hp]; simp [flat]
    have ha' : ∀ n ∈ above ++ [name], p n := by
      intro n hn
      rcases List.mem_append.1 hn with hn | hn
      · exact ha n hn
      · rw [List.mem_singleton.1 hn]; exact hs
    rcases List.mem_cons.1 hx with rfl | hx
    · exact ⟨hp', ha'⟩
    · exact namedAll_names p kids _ _ x hev.2 hx hp' ha'
theorem namedAll_names (p : Str → Prop) : ∀ (ts : List Tree) (path : Str) (above : List Str)
    (x : Nat × Str × List Str), EveryAll (fun u => p u.name) ts → x ∈ namedAll path above ts →
    path = flat above → (∀ n ∈ above, p n) → x.2.1 = flat x.2.2 ∧ ∀ n ∈ x.2.2, p n
  | [], path, above, x, hev, hx, hp, ha => by rw [namedAll] at hx; cases hx
  | t :: ts, path, above, x, hev, hx, hp, ha => by
    rw [namedAll] at hx
    rw [EveryAll] at hev
    rcases List.mem_append.1 hx with hx | hx
    · exact named_names p t path above x hev.1 hx hp ha
    · exact namedAll_names p ts path above x hev.2 hx hp ha
end

mutual
theorem every_mono {p q : Tree → Prop} (h : ∀ u, p u → q u) : ∀ t : Tree, t.Every p → t.Every q
  | .mk off c name kids, hp => by
    rw [Tree.Every] at hp ⊢
    exact ⟨h _ hp.1, everyAll_mono h kids hp.2⟩
theorem everyAll_mono {p q : Tree → Prop} (h : ∀ u, p u → q u) :
    ∀ ts : List Tree, EveryAll p ts → EveryAll q ts
  | [], _ => by rw [EveryAll]; trivial
  | t :: ts, hp => by
    rw [EveryAll] at hp ⊢
    exact ⟨every_mono h t hp.1, everyAll_mono h ts hp.2⟩
end

/-- The base: a hive whose key cells form a tree, opened without recovery; the header names the key
the iteration starts at; key names are not empty, do not contain a backslash and differ from their
siblings' in more than case; the stack has room for the tree. -/
structure PlainBase (p : Opened) (t : Tree) : Prop where
  bin : FirstBin p.env.fi
  off : t.off = p.env.fi.hbin + 32
  rco : p.rootCellOffset = 32
  tree : TreeAt p.env.fi.buffer p.env.fi.hbin p.env.depth t
  once : t.offs.Nodup
  nothing : NothingRecorded p.st
  fresh : p.st.rootOffset = 0
  root : initRoot p.env p.st = .ok (p.root, 0)
  names : t.Every fun u => '\\' ∉ u.name ∧ u.name ≠ []
  distinct : t.Every fun u => NamesDistinct u.kids
  depth : ∀ x ∈ t.named [] [], x.2.2.length ≤ p.env.depth

theorem attachOk_nothing {env : Env} {st : State} (h : NothingRecorded st) (hd : 0 < env.depth) :
    AttachOk env st := by
  intro k hp
  obtain ⟨d, hd⟩ : ∃ d, env.depth = d + 1 := ⟨env.depth - 1, by omega⟩
  rw [hd, updateModifiedLists] at hp
  simp only [(h.1 _).1, updateModifiedLists.attachDeleted] at hp
  split at hp <;> cases hp

theorem plain_listing {p : Opened} {t : Tree} (h : PlainBase p t) {steps : Nat} {bs : List Node}
    (hk : p.keys steps {} = some (.ok bs)) :
    bs.map obs = t.pre [] ∧ ∀ b ∈ bs, FromCell p.env True b := by
  have hdep : 0 < p.env.depth := by
    cases t with
    | mk off c name kids =>
    have := h.depth (off, [] ++ '\\' :: name, [] ++ [name]) (by rw [Tree.named]; exact List.mem_cons_self)
    exact this
  have hatt := attachOk_nothing h.nothing hdep
  have hsd : StateDel p.st := by
    intro q l hl
    rw [(h.nothing.1 q).1] at hl
    cases hl
  obtain ⟨root, steps', ns, live, h1, h2, h3, h4, h5, _⟩ := iteration_preorder p.env p.st t true false
    h.bin h.off h.tree h.once hsd hatt
  rw [h.root] at h1
  simp only [Res.ok.injEq, Prod.mk.injEq] at h1
  unfold Opened.keys at hk
  rw [h1.1] at hk
  have := collect_unique (fuelMono_pre p.env) _ _ _ _ _ hk h2
  cases this
  constructor
  · rw [h4, ← h3]
    have : live.flatMap withRecovered = live.flatMap fun n => [obs n] := by
      rw [List.flatMap_def, List.flatMap_def]
      congr 1
      apply List.map_congr_left
      intro n hn
      obtain ⟨gm, q, u, s, _, hr⟩ := h5 n hn
      unfold withRecovered
      rw [reads_none p.env p.st (fun q => (h.nothing.1 q).1) gm q u s n hr]
      rfl
    rw [this]
    clear h2 h3 h4 h5 this hk
    induction live with
    | nil => rfl
    | cons a as ih => rw [List.flatMap_cons, ih]; rfl
  · refine collect_fromCell p.env steps' (.start p.st (some root) {} true false) bs h.nothing rfl ?_ h2
    intro n hn
    have hn : n ∈ [root] := hn
    rw [List.mem_singleton] at hn
    subst hn
    have hr := h.root
    unfold initRoot at hr
    split at hr
    · cases hr
    · split at hr
      · cases hr
      · rw [h1.1] at hr
        exact (readKey_fromCell _ _ _ _ _ h.nothing rfl hr).mono fun _ => .inl (.inl rfl)

theorem getKey_fromCell {env : Env} {st : State} {rco : Int} {path : Str} {hr : Bool} {n : Node} {ro : Nat}
    (hst : NothingRecorded st) (h : getKey env st rco path hr = .ok (some n, ro)) :
    FromCell env True n ∨ FromCell env (n.key.filterState = some .Exact) n := by
  unfold getKey at h
  cases hrt : getRootKey env st rco with
  | err => rw [hrt] at h; cases h
  | panic => rw [hrt] at h; cases h
  | ok x =>
    obtain ⟨on, ro1⟩ := x
    rw [hrt] at h
    cases on with
    | none => cases h
    | some root =>
      simp only at h
      unfold getSubKeyByPath at h
      by_cases hp : lookupPath path hr = []
      · rw [if_pos hp] at h
        simp only [Res.ok.injEq, Prod.mk.injEq, Option.some.injEq] at h
        left
        rw [← h.1]
        unfold getRootKey at hrt
        split at hrt
        · cases hrt
        · exact (readKey_fromCell _ _ _ _ _ hst rfl hrt).mono fun _ => .inl (.inl rfl)
      · rw [if_neg hp] at h
        right
        exact getSubKeyInternal_fromCell env _ _ { st with rootOffset := ro1 } _ _ _ hst h

/-- Looking up the keys of the base finds them. -/
theorem plain_finds {p : Opened} {t : Tree} (h : PlainBase p t) {steps : Nat} {bs : List Node}
    (hk : p.keys steps {} = some (.ok bs)) :
    Finds p.lookup (fun ro => ro = 0 ∨ ro = utf8Len t.name + 2) bs ∧
      bs.Pairwise (fun a b => a.key.path ≠ b.key.path) := by
  obtain ⟨hobs, hcell⟩ := plain_listing h hk
  have hnm : ∀ x ∈ t.named [] [], x.2.1 = flat x.2.2 ∧ ∀ n ∈ x.2.2, '\\' ∉ n ∧ n ≠ [] := fun x hx =>
    named_names (fun n => '\\' ∉ n ∧ n ≠ []) t [] [] x h.names hx rfl (by simp)
  have hmem : ∀ b ∈ bs, ∃ x ∈ t.named [] [], entryOf x = obs b := by
    intro b hb
    have : obs b ∈ t.pre [] := by rw [← hobs]; exact List.mem_map.2 ⟨b, hb, rfl⟩
    rw [← named_pre t [] []] at this
    obtain ⟨x, hx, e⟩ := List.mem_map.1 this
    exact ⟨x, hx, e⟩
  have hdep : 0 < p.env.depth := by
    cases t with
    | mk off c name kids =>
    have := h.depth (off, [] ++ '\\' :: name, [] ++ [name]) (by rw [Tree.named]; exact List.mem_cons_self)
    exact this
  constructor
  · intro ro hro b hb
    obtain ⟨x, hx, e⟩ := hmem b hb
    obtain ⟨L, h1, h2⟩ := walkTo_named t [] [] x h.distinct hx
    obtain ⟨h3, h4⟩ := hnm x hx
    have hpath : b.key.path = '\\' :: joined (t.name :: L) := by
      have : b.key.path = x.2.1 := (congrArg Prod.snd e).symm
      rw [this, h3, h1, joined_eq]
      rfl
    have hlen := h.depth x hx
    rw [h1] at hlen h4
    have hev : t.Every (fun u => '\\' ∉ u.name) := every_mono (fun u hu => hu.1) t h.names
    obtain ⟨_, r, ro', g1, g2, g3, g4⟩ := get_key_found p.env { p.st with rootOffset := ro } t p.rootCellOffset
      (by rw [h.rco]; decide) (by rw [h.rco, h.off]; exact Nat.add_comm _ _) h.tree
      (attachOk_nothing (st := { p.st with rootOffset := ro }) h.nothing hdep) hro hev L
      (fun s hs => h4 s (by simp [hs])) (by simp at hlen; omega) 1 0 (fun _ => rfl) t.name
      (h4 t.name (by simp))
    rw [first_at_walk L t h.distinct, h2, e] at g3
    cases r with
    | none => cases g3
    | some o =>
      simp only [Option.map_some, Option.some.injEq, obs, Prod.mk.injEq] at g3
      refine ⟨o, ro', ?_, g2, ?_⟩
      · unfold Opened.lookup
        rw [hpath]
        simpa using g1
      · have hfull : FromCell p.env True o := by
          rcases g4 o rfl with ⟨q, u, _, hr⟩ | hr
          · rcases getKey_fromCell (st := { p.st with rootOffset := ro }) h.nothing g1 with h' | h'
            · exact h'
            · exact h'.mono fun _ => hr.facts.2.2.2.2.2.1
          · unfold getRootKey at hr
            split at hr
            · cases hr
            · exact (readKey_fromCell _ { p.st with rootOffset := ro } _ _ _ h.nothing rfl hr).mono
                fun _ => .inl (.inl rfl)
        exact hfull.same (hcell b hb) trivial trivial g3.1 g3.2
  · have hpw : (t.named [] []).Pairwise fun x y => x.2.1 ≠ y.2.1 := by
      have hnd : ((t.named [] []).map fun x => x.1).Nodup := by
        have := h.once
        rw [← pre_offs t [], ← named_pre t [] [], List.map_map] at this
        exact this
      rw [List.Nodup, List.pairwise_map] at hnd
      refine hnd.imp_of_mem ?_
      intro x y hx hy hne e
      apply hne
      obtain ⟨L, h1, h2⟩ := walkTo_named t [] [] x h.distinct hx
      obtain ⟨M, g1, g2⟩ := walkTo_named t [] [] y h.distinct hy
      have hxy : x.2.2 = y.2.2 := by
        have ex := names_split x.2.2 (fun n hn => ((hnm x hx).2 n hn).1)
        have ey := names_split y.2.2 (fun n hn => ((hnm y hy).2 n hn).1)
        rw [← (hnm x hx).1, e, (hnm y hy).1, ey] at ex
        exact (List.cons.inj ex).2.symm
      have hLM : L = M := by
        rw [h1, g1] at hxy
        simpa using hxy
      rw [hLM, g2] at h2
      exact (congrArg Prod.fst (Option.some.inj h2)).symm
    have : (bs.map obs).Pairwise fun x y => x.2 ≠ y.2 := by
      rw [hobs, ← named_pre t [] [], List.pairwise_map]
      exact hpw
    rw [List.pairwise_map] at this
    exact this

/-- C30: comparing a hive of this kind with any hive whose listing has no duplicates: the comparison
does not fail and reports exactly the differences between the two listings.

Partial: without a filter, without recovery, and for a base of this kind only: see
`compare_backslash_violated`, `compare_case_violated` and `compare_root_violated`. -/
theorem hives_compared_partial (order : HashIndex → HashIndex) (horder : ∀ m, (order m).Perm m)
    (steps : Nat) (base comp : Opened) (t : Tree) (h : PlainBase base t) (bs cs : List Node)
    (hb : base.keys steps {} = some (.ok bs)) (hc : comp.keys steps {} = some (.ok cs))
    (hcu : CaseUnique bs) (huc : Unique cs) :
    ∃ d, regCompare order steps {} base comp = some (.ok d) ∧ Reported bs cs d := by
  obtain ⟨hf, hp⟩ := plain_finds h hb
  have hub : Unique bs := ⟨hp, fun n hn => (hcu n hn).imp fun {a b} h (e : a.val.name = b.val.name) => h (by rw [e]; exact sameIgnoringCase_refl _)⟩
  obtain ⟨d, h1, h2⟩ := compare_reported_partial base.lookup _ order horder base.st.rootOffset
    (.inl h.fresh) bs cs hub huc hf hcu
  refine ⟨d, ?_, h2⟩
  unfold regCompare
  rw [hb, hc]
  simp only
  rw [h1]

/-! ### Examples and violations -/

/-- A hive as `exampleHive` whose sub-keys have the given one-letter names. -/
def pairHive (a b : UInt8) (root : UInt8 := 0x54) : FileInfo :=
  ⟨0, hbinBytes 0 300 0 0 0 0 ++ (exampleCell 0x24 2 114 [0x52, root]).encode ++
    leafCell .lf (-24) [(138, [0, 0, 0, 0]), (219, [0, 0, 0, 0])] ++
    (exampleCell 0x20 0 0 [a]).encode ++ (exampleCell 0x20 0 0 [b]).encode⟩

/-- The hive opened without recovery. -/
def openPair (fi : FileInfo) (rco : Int := 32) : Opened :=
  let env : Env := ⟨fi, id, 2⟩
  ⟨env, {}, (match initRoot env {} with | .ok (r, _) => r | _ => none), rco⟩

theorem pairHive_example : pairHive 0x61 0x62 = exampleHive := rfl

theorem openPair_plain : PlainBase (openPair exampleHive) exampleTree where
  bin := exampleHive_bin
  off := rfl
  rco := rfl
  tree := exampleHive_tree 1
  once := by decide
  nothing := ⟨fun _ => ⟨rfl, rfl, rfl⟩, fun _ => rfl⟩
  fresh := rfl
  root := by
    have h : (match initRoot ⟨exampleHive, id, 2⟩ {} with | .ok (_, 0) => true | _ => false) = true := by
      decide +kernel
    unfold openPair
    simp only
    generalize initRoot ⟨exampleHive, id, 2⟩ {} = r at h
    split at h
    · rfl
    · cases h
  names := by simp only [exampleTree, Tree.Every, EveryAll, Tree.name]; decide
  distinct := by
    simp only [exampleTree, Tree.Every, EveryAll, NamesDistinct, Tree.kids, List.pairwise_cons,
      List.Pairwise.nil, List.not_mem_nil, false_imp_iff, implies_true, and_true, List.mem_singleton,
      forall_eq, Tree.name]
    rintro ⟨s, h1, h2⟩
    have h1 := (asciiLower_eq_iff _ _).2 h1
    have h2 := (asciiLower_eq_iff _ _).2 h2
    rw [h1] at h2
    exact absurd h2 (by decide)
  depth := by decide

/-- The paths the comparison reports: deleted, added, modified keys. -/
def reportedPaths (r : Option (Res Differences)) : Option (List Str × List Str × List Str) :=
  match r with
  | some (.ok d) => some (d.keysDeleted.map (·.key.path), d.keysAdded.map (·.key.path),
      d.keysModified.map (·.2.key.path))
  | _ => none

/-- A listing with its values. -/
def listed (r : Option (Res (List Node))) : Option (List (Str × Nat)) :=
  match r with
  | some (.ok ns) => some (ns.map fun n => (n.key.path, n.key.values.length))
  | _ => none

theorem listed_unique {r : Option (Res (List Node))} {ps : List (Str × Nat)} (h : listed r = some ps)
    (hp : (ps.map Prod.fst).Nodup) (hv : ∀ x ∈ ps, x.2 = 0) :
    ∃ ns, r = some (.ok ns) ∧ Unique ns ∧ CaseUnique ns ∧ ns.map (fun n => n.key.path) = ps.map Prod.fst := by
  unfold listed at h
  split at h
  · rename_i ns
    cases h
    have h0 : ∀ n ∈ ns, n.key.values = [] := fun n hn =>
      List.length_eq_zero_iff.1 (hv _ (List.mem_map.2 ⟨n, hn, rfl⟩))
    rw [List.map_map] at hp ⊢
    refine ⟨ns, rfl, ⟨?_, ?_⟩, ?_, rfl⟩
    · exact List.pairwise_map.1 hp
    · intro n hn; rw [h0 n hn]; exact .nil
    · intro n hn; rw [h0 n hn]; exact .nil
  · cases h

example : ∃ bs cs d, (openPair exampleHive).keys 9 {} = some (.ok bs) ∧
    (openPair (pairHive 0x61 0x63)).keys 9 {} = some (.ok cs) ∧
    regCompare id 9 {} (openPair exampleHive) (openPair (pairHive 0x61 0x63)) = some (.ok d) ∧
    Reported bs cs d ∧ bs.map (fun n => n.key.path) = ["\\RT".toList, "\\RT\\a".toList, "\\RT\\b".toList] ∧
    cs.map (fun n => n.key.path) = ["\\RT".toList, "\\RT\\a".toList, "\\RT\\c".toList] := by
  obtain ⟨bs, hb, _, hcu, hbp⟩ := listed_unique (r := (openPair exampleHive).keys 9 {})
    (ps := [("\\RT".toList, 0), ("\\RT\\a".toList, 0), ("\\RT\\b".toList, 0)]) (by decide +kernel)
    (by decide) (by decide)
  obtain ⟨cs, hc, huc, _, hcp⟩ := listed_unique (r := (openPair (pairHive 0x61 0x63)).keys 9 {})
    (ps := [("\\RT".toList, 0), ("\\RT\\a".toList, 0), ("\\RT\\c".toList, 0)]) (by decide +kernel)
    (by decide) (by decide)
  obtain ⟨d, h1, h2⟩ := hives_compared_partial id (fun _ => .rfl) 9 _ _ _ openPair_plain bs cs hb hc hcu huc
  exact ⟨bs, cs, d, hb, hc, h1, h2, hbp, hcp⟩

example : reportedPaths (regCompare id 9 {} (openPair (pairHive 0x61 0x62)) (openPair (pairHive 0x61 0x63)))
    = some (["\\RT\\b".toList], ["\\RT\\c".toList], []) := by decide +kernel

example : regCompare id 9 {} (openPair exampleHive) (openPair exampleHive) = some (.ok {}) := by
  obtain ⟨bs, hb, hu, _⟩ := listed_unique (r := (openPair exampleHive).keys 9 {})
    (ps := [("\\RT".toList, 0), ("\\RT\\a".toList, 0), ("\\RT\\b".toList, 0)]) (by decide +kernel)
    (by decide) (by decide)
  exact compare_self id (fun _ => .rfl) 9 {} _ _ hb hu

/-- Whether the comparison panics. -/
def panics (r : Option (Res Differences)) : Bool :=
  match r with
  | some .panic => true
  | _ => false

theorem panics_eq {r : Option (Res Differences)} (h : panics r = true) : r = some .panic := by
  unfold panics at h
  split at h
  · rfl
  · cases h

/-- C30 does not hold for every hive: the listings of both hives have no duplicates, but a key of the
base that was deleted has a name with a backslash, and the comparison panics instead of reporting
it. -/
theorem compare_backslash_violated : ∃ base comp bs cs,
    base.keys 9 {} = some (.ok bs) ∧ comp.keys 9 {} = some (.ok cs) ∧ Unique bs ∧ Unique cs ∧
    regCompare id 9 {} base comp = some .panic := by
  obtain ⟨bs, hb, hub, _⟩ := listed_unique (r := (openPair (pairHive 0x61 0x5c)).keys 9 {})
    (ps := [("\\RT".toList, 0), ("\\RT\\a".toList, 0), ("\\RT\\\\".toList, 0)]) (by decide +kernel)
    (by decide) (by decide)
  obtain ⟨cs, hc, huc, _⟩ := listed_unique (r := (openPair (pairHive 0x61 0x63)).keys 9 {})
    (ps := [("\\RT".toList, 0), ("\\RT\\a".toList, 0), ("\\RT\\c".toList, 0)]) (by decide +kernel)
    (by decide) (by decide)
  exact ⟨_, _, bs, cs, hb, hc, hub, huc, panics_eq (by decide +kernel)⟩

/-- C30 does not hold for every hive: the listings have no duplicates, but two keys of the base differ
only in case.  `\RT\A` was deleted; the comparison reports that `\RT\a` was, which both hives
have. -/
theorem compare_case_violated : ∃ base comp bs cs d,
    base.keys 9 {} = some (.ok bs) ∧ comp.keys 9 {} = some (.ok cs) ∧ Unique bs ∧ Unique cs ∧
    regCompare id 9 {} base comp = some (.ok d) ∧ ¬ Reported bs cs d ∧
    d.keysDeleted.map (fun n => n.key.path) = ["\\RT\\a".toList] ∧
    HasKey bs "\\RT\\a".toList ∧ HasKey cs "\\RT\\a".toList := by
  obtain ⟨bs, hb, hub, _, hbp⟩ := listed_unique (r := (openPair (pairHive 0x61 0x41)).keys 9 {})
    (ps := [("\\RT".toList, 0), ("\\RT\\a".toList, 0), ("\\RT\\A".toList, 0)]) (by decide +kernel)
    (by decide) (by decide)
  obtain ⟨cs, hc, huc, _, hcp⟩ := listed_unique (r := (openPair (pairHive 0x61 0x63)).keys 9 {})
    (ps := [("\\RT".toList, 0), ("\\RT\\a".toList, 0), ("\\RT\\c".toList, 0)]) (by decide +kernel)
    (by decide) (by decide)
  have hr : reportedPaths (regCompare id 9 {} (openPair (pairHive 0x61 0x41))
      (openPair (pairHive 0x61 0x63))) = some (["\\RT\\a".toList], ["\\RT\\c".toList], []) := by
    decide +kernel
  have hin : ∀ {ns : List Node} {p : Str}, p ∈ ns.map (fun n => n.key.path) → HasKey ns p := by
    intro ns p h
    obtain ⟨n, hn, e⟩ := List.mem_map.1 h
    exact ⟨n, hn, e⟩
  have hac : HasKey cs "\\RT\\a".toList := hin (hcp ▸ by decide)
  generalize hg : regCompare id 9 {} (openPair (pairHive 0x61 0x41)) (openPair (pairHive 0x61 0x63)) = r
    at hr
  unfold reportedPaths at hr
  split at hr
  · rename_i d
    cases hd : d.keysDeleted with
    | nil => rw [hd] at hr; simp at hr
    | cons n rest =>
      rw [hd] at hr
      simp only [List.map_cons, Option.some.injEq, Prod.mk.injEq, List.cons.injEq] at hr
      have hrest : rest = [] := List.map_eq_nil_iff.1 hr.1.2
      refine ⟨_, _, bs, cs, d, hb, hc, hub, huc, hg, ?_, by rw [hd, hrest]; simp [hr.1.1],
        hin (hbp ▸ by decide), hac⟩
      intro hrep
      obtain ⟨del, hperm, h2⟩ := hrep.keysDeleted
      rw [hd] at h2
      cases del with
      | nil => cases h2
      | cons b del =>
        have := (List.mem_filter.1 (hperm.subset List.mem_cons_self)).2
        rw [← h2.1.1, hr.1.1] at this
        rw [Bool.not_eq_true', decide_eq_false_iff_not] at this
        exact this hac
  · cases hr

/-- C30 does not hold for every hive: if the header names another cell as the root than the first one
of the first bin, iteration and lookup start at different cells, and the comparison panics. -/
theorem compare_root_violated : ∃ base comp bs cs,
    base.keys 9 {} = some (.ok bs) ∧ comp.keys 9 {} = some (.ok cs) ∧ Unique bs ∧ Unique cs ∧
    base.rootCellOffset = 138 ∧ regCompare id 9 {} base comp = some .panic := by
  obtain ⟨bs, hb, hub, _⟩ := listed_unique (r := (openPair exampleHive 138).keys 9 {})
    (ps := [("\\RT".toList, 0), ("\\RT\\a".toList, 0), ("\\RT\\b".toList, 0)]) (by decide +kernel)
    (by decide) (by decide)
  obtain ⟨cs, hc, huc, _⟩ := listed_unique (r := (openPair (pairHive 0x61 0x63)).keys 9 {})
    (ps := [("\\RT".toList, 0), ("\\RT\\a".toList, 0), ("\\RT\\c".toList, 0)]) (by decide +kernel)
    (by decide) (by decide)
  exact ⟨_, _, bs, cs, hb, hc, hub, huc, rfl, panics_eq (by decide +kernel)⟩

end Notatin
