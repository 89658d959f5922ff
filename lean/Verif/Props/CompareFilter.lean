import Verif.Lemmas.CompareFilter
import Verif.Props.CompareTells
/-
Property theorems C81: what `reg_compare` writes with the option `-f`.
-/
namespace Notatin
open Spec

/-- The filter `-f` makes of names. -/
def namesFilter (segs : List Str) : Filter := ⟨some ⟨(segs.map Seg.lit).map Seg.component, false, true⟩⟩

theorem pre_distinct {p : Opened} {t : Tree} (h : PlainBase p t) {steps : Nat} {bs : List Node}
    (hk : p.keys steps {} = some (.ok bs)) : (t.pre []).Pairwise fun a b => a.2 ≠ b.2 := by
  have := (List.pairwise_map (f := obs) (R := fun a b : Nat × Str => a.2 ≠ b.2)).2 (plain_finds h hk).2
  rwa [(plain_listing h hk).1] at this

theorem listed_caseUnique {w : World} {buf : Bytes} {t : Tree} {vals : Nat → List FlaggedVal}
    {hash : Bytes → Bytes} {bs : List Node} {ks : List (Str × Tree)} (ht : ComparedHive w buf t vals)
    (hs : ∀ x ∈ ks, x.2 ∈ t.nodes) (hl : Pairwise2 (ListedKey hash vals) bs ks) : CaseUnique bs := by
  intro n hn
  obtain ⟨x, hx, hlx⟩ := pairwise2_mem_left hl n hn
  have hd := every_nodes t ht.valueNames x.2 (hs x hx)
  have e1 := pairwise2_map_eq (f := fun v : Value => v.val.name) (g := fun y : FlaggedVal => y.val.name)
    (fun v y (hv : ListedVal hash v y) => (congrArg Val.name hv.1).symm) hlx.2.2.2
  have := (List.pairwise_map (f := fun y : FlaggedVal => y.val.name)
    (R := fun a b => ¬ SameIgnoringCase a b)).2 hd
  rw [e1, List.pairwise_map] at this
  exact this

/-- What the listing of an opened hive with a filter shows. -/
theorem compared_filtered {w : World} {b : Builder} {p : HiveParser} {t : Tree} {vals : Nat → List FlaggedVal}
    (hd : 0 < w.depth) (hrec : b.recover = false) (h : b.build w = some (.ok p)) (hroot : p.root ≠ none)
    (ht : ComparedHive w p.env.fi.buffer t vals)
    (hflags : EveryAll (fun u => u.cell.flags.testBit 2 = false) t.kids) (seg : Str) (segs : List Str) :
    ∃ steps bs, (∀ m, steps ≤ m → p.opened.keys m (namesFilter (seg :: segs)) = some (.ok bs)) ∧
      Pairwise2 (ListedKey w.hashFn vals) bs (t.keysUnder [] (seg :: segs)) ∧ CaseUnique bs ∧ Unique bs ∧
      (p.header.base.rootCellOffset = 32 →
        Finds p.opened.lookup (fun ro => ro = 0 ∨ ro = utf8Len t.name + 2) bs) := by
  have hplain := compared_plain hrec h hroot ht
  obtain ⟨h1, h2, h0, h3⟩ := built_plain w b p hrec h hroot
  have hbin : p.env.fi.hbin = 4096 := by rw [h1]; rfl
  have hdep : p.env.depth = w.depth := by rw [h1]; rfl
  have hhash : p.env.hashFn = w.hashFn := by rw [h1]; rfl
  have hatt : AttachOk p.env p.state := attachOk_empty _ _ (by rw [hdep]; exact hd) h2.1
  have hdel : StateDel p.state := by
    intro q ds hds
    rw [h2.1] at hds; cases hds
  obtain ⟨steps0, bs0, k0, l0, c0, q0⟩ := compared_listing hd hrec h hroot ht
  have hk0 : (Opened.mk p.env p.state p.root 32).keys steps0 {} = some (.ok bs0) := k0 _ (Nat.le_refl _)
  obtain ⟨root, steps, ns, live, e1, e2, e3, e4, e5, e6, e7⟩ := filter_shown p.env p.state t
    ((seg :: segs).map Seg.lit) ⟨((seg :: segs).map Seg.lit).map Seg.component, false, true⟩ true false rfl
    hplain.bin hplain.off hplain.tree ht.once hdel hatt
    (.inl h0) (every_mono (fun u hu => hu.1) t ht.names) (fun _ => hflags) (.inr ⟨rfl, by simp [segments]⟩)
  rw [h3] at e1
  have hr : p.root = some root := by
    have := congrArg (fun r : Res (Option Node × Nat) => match r with | .ok x => x.1 | _ => none) e1
    exact this
  have hflat : ∀ l : List Node, (∀ n ∈ l, IsRead p.env p.state n) → l.flatMap withRecovered = l.map obs := by
    intro l
    induction l with
    | nil => intro _; rfl
    | cons n l ih =>
      intro hl
      rw [List.flatMap_cons, List.map_cons, ih (fun m hm => hl m (List.mem_cons_of_mem _ hm))]
      obtain ⟨gm, q, u, s, _, hrd⟩ := hl n List.mem_cons_self
      unfold withRecovered
      rw [reads_none p.env p.state h2.1 gm q u s n hrd]
      rfl
  rw [hflat live e5] at e4
  have hall := liveKeys_all (e6.trans e4.symm)
  rw [← e4, filtered_under] at e3
  -- the keys are the stored ones
  have hrootCell : FromCell p.env True root := by
    have hr' := h3
    rw [hr] at hr'
    unfold initRoot at hr'
    split at hr'
    · cases hr'
    · split at hr'
      · cases hr'
      · exact (readKey_fromCell _ _ _ _ _ hplain.nothing rfl hr').mono fun _ => .inl (.inl rfl)
  have hcell : ∀ n ∈ ns, FromCell p.env True n := by
    intro n hn
    have hf := collect_fromCell_any p.env steps _ ns hplain.nothing (by
      intro n hn
      have hn : n ∈ [root] := hn
      rw [List.mem_singleton.1 hn]
      exact hrootCell.mono fun h => h.elim) e2 n hn
    obtain ⟨u, _, hu⟩ := e7 n hn (hall n hn)
    exact shown_full hplain.nothing hu hf
  have hmem : ∀ x ∈ t.keysUnder [] (seg :: segs), x.2 ∈ t.nodes :=
    fun x hx => keys_mem x (keysUnder_sub _ t [] x hx)
  have hl : Pairwise2 (ListedKey w.hashFn vals) ns (t.keysUnder [] (seg :: segs)) := by
    rw [← hhash]
    refine listed_stored vals (nodes_at t ht.tree) (every_nodes t ?_) ?_ hcell hmem
    · rw [hbin]; exact ht.values
    · exact e3
  have hcu := listed_caseUnique ht hmem hl
  have hpaths : ns.Pairwise fun a b => a.key.path ≠ b.key.path := by
    have hp := pre_distinct hplain hk0
    have hsub : (ns.map obs).Sublist (t.pre []) := by
      rw [e3, ← filtered_under, ← named_pre t [] []]
      unfold filtered
      exact (List.filter_sublist).map _
    exact (List.pairwise_map (f := obs) (R := fun a b : Nat × Str => a.2 ≠ b.2)).1 (hp.sublist hsub)
  refine ⟨steps, ns, fun m hm => ?_, hl, hcu, ⟨hpaths, fun n hn => (hcu n hn).imp fun {a b} h (e : a.val.name = b.val.name) =>
    h (by rw [e]; exact sameIgnoringCase_refl _)⟩, fun hrco ro hro n hn => ?_⟩
  · refine collect_mono (fuelMono_pre p.env) steps m _ _ ?_ hm
    show collect (nextPre p.env) steps (.start p.state p.root _ true false) = _
    rw [hr]
    exact e2
  · have hmemn : obs n ∈ bs0.map obs := by
      rw [(plain_listing hplain hk0).1, ← named_pre t [] []]
      have : obs n ∈ ns.map obs := List.mem_map.2 ⟨n, hn, rfl⟩
      rw [e3, ← filtered_under] at this
      exact (List.filter_sublist.map _).subset this
    obtain ⟨b0, hb0, e⟩ := List.mem_map.1 hmemn
    have hf0 := (plain_listing hplain hk0).2 b0 hb0
    have hsame : SameEntry b0 n := hf0.same (hcell n hn) trivial trivial (congrArg Prod.fst e) (congrArg Prod.snd e)
    have hpl := hplain
    rw [← hrco] at hpl
    obtain ⟨o, ro', g1, g2, g3⟩ := (plain_finds hpl (steps := steps0) (bs := bs0) hk0).1 ro hro b0 hb0
    refine ⟨o, ro', ?_, g2, ?_⟩
    · rw [← hsame.1]; exact g1
    · obtain ⟨a1, a2, a3, a4, a5, a6, a7⟩ := g3
      obtain ⟨b1, b2, b3, b4, b5, b6, b7⟩ := hsame
      exact ⟨a1.trans b1, a2.trans b2, a3.trans b3, a4.trans b4, a5.trans b5, a6.trans b6, a7.trans b7⟩

/-- C81: with the option `-f`, the report (or the diff) says exactly which keys at and below the path (names up to
the case of ASCII letters) and which of their values were deleted, added and modified.

Partial: as `compare_tells_partial`; the flag of hive entry points only at the root (the condition of C11); and
the path has to be given without a backslash in front (`compare_filter_violated`). -/
theorem compare_filter_tells_partial (w : World) (order : HashIndex → HashIndex) (horder : ∀ m, (order m).Perm m)
    (u : Prints) (shown : List Str → Str) (diff : Bool) (disk : Disk)
    (base : List Str) (baseLogs : Option (List (List Str))) (comp : List Str) (compLogs : Option (List (List Str)))
    (p1 p2 : HiveParser) (t1 t2 : Tree) (v1 v2 : Nat → List FlaggedVal) (hd : 0 < w.depth)
    (h1 : buildFromPath w disk base (baseLogs.getD []) false false = some (.ok p1)) (hr1 : p1.root ≠ none)
    (h2 : buildFromPath w disk comp (compLogs.getD []) false false = some (.ok p2)) (hr2 : p2.root ≠ none)
    (ht1 : ComparedHive w p1.env.fi.buffer t1 v1) (ht2 : ComparedHive w p2.env.fi.buffer t2 v2)
    (hrco : p1.header.base.rootCellOffset = 32) (hh : HashTells w.hashFn t1 v1 t2 v2)
    (hf1 : '\n' ∉ filenames u shown base baseLogs) (hf2 : '\n' ∉ filenames u shown comp compLogs)
    (hfl1 : EveryAll (fun u => u.cell.flags.testBit 2 = false) t1.kids)
    (hfl2 : EveryAll (fun u => u.cell.flags.testBit 2 = false) t2.kids)
    (seg : Str) (segs : List Str) (k : Nat) (hbs : ∀ m ∈ seg :: segs, '\\' ∉ m)
    (hlast : (seg :: segs).getLast (by simp) ≠ []) :
    ∃ filter, dumpFilter (some (joined (seg :: segs) ++ List.replicate k '\\')) = .ok (some filter) ∧
    ∃ steps text, compareReport w order steps u shown (some filter) diff base baseLogs comp compLogs disk = some (.ok text) ∧
      CompareSays diff FitsNanos (filenames u shown base baseLogs) (filenames u shown comp compLogs)
        (t1.keysUnder [] (seg :: segs)) v1 (t2.keysUnder [] (seg :: segs)) v2 text := by
  refine ⟨namesFilter (seg :: segs), ?_, ?_⟩
  · unfold dumpFilter
    simp only
    rw [key_path_segments {} seg segs k hbs hlast]
    rfl
  have hb : ∀ {path logs p}, buildFromPath w disk path logs false false = some (.ok p) →
      ∃ b : Builder, b.recover = false ∧ b.build w = some (.ok p) := by
    intro path logs p h
    unfold buildFromPath at h
    split at h
    · cases h
    · split at h
      · cases h
      · exact ⟨_, rfl, h⟩
  obtain ⟨b1, hb1, hb1'⟩ := hb h1
  obtain ⟨b2, hb2, hb2'⟩ := hb h2
  obtain ⟨s1, bs, k1, l1, c1, q1, f1⟩ := compared_filtered hd hb1 hb1' hr1 ht1 hfl1 seg segs
  obtain ⟨s2, cs, k2, l2, c2, q2, _⟩ := compared_filtered hd hb2 hb2' hr2 ht2 hfl2 seg segs
  have hp := compared_plain hb1 hb1' hr1 ht1
  obtain ⟨d, hd1, hd2⟩ := compare_reported_partial p1.opened.lookup _ order horder p1.opened.st.rootOffset
    (.inl hp.fresh) bs cs q1 q2 (f1 hrco) c1
  have hreg : regCompare order (max s1 s2) (namesFilter (seg :: segs)) p1.opened p2.opened = some (.ok d) := by
    unfold regCompare
    rw [k1 _ (Nat.le_max_left ..), k2 _ (Nat.le_max_right ..)]
    simp only
    rw [hd1]
  obtain ⟨text, h⟩ := compared_says (filter := some (namesFilter (seg :: segs))) u shown diff h1 h2 ht1 ht2
    (keysUnder_sub _ t1 []) (keysUnder_sub _ t2 []) hh hf1 hf2 hreg hd2 l1 l2 q1
  exact ⟨_, text, h⟩

/-- No key is at or below a path that begins with an empty name, if no key has an empty name. -/
theorem keysUnder_backslash (segs : List Str) (t : Tree) (h : t.Every fun u => '\\' ∉ u.name ∧ u.name ≠ []) :
    t.keysUnder [] ([] :: segs) = [] := by
  have := filtered_backslash segs t (every_mono (fun u hu => hu.2) t h)
  rw [filtered_under] at this
  exact List.map_eq_nil_iff.1 this

/-- C81, violated: with the path as the reports print it, with a backslash in front, the report counts no change,
whatever the two hives. -/
theorem compare_filter_violated (w : World) (order : HashIndex → HashIndex) (horder : ∀ m, (order m).Perm m)
    (u : Prints) (shown : List Str → Str) (disk : Disk)
    (base : List Str) (baseLogs : Option (List (List Str))) (comp : List Str) (compLogs : Option (List (List Str)))
    (p1 p2 : HiveParser) (t1 t2 : Tree) (v1 v2 : Nat → List FlaggedVal) (hd : 0 < w.depth)
    (h1 : buildFromPath w disk base (baseLogs.getD []) false false = some (.ok p1)) (hr1 : p1.root ≠ none)
    (h2 : buildFromPath w disk comp (compLogs.getD []) false false = some (.ok p2)) (hr2 : p2.root ≠ none)
    (ht1 : ComparedHive w p1.env.fi.buffer t1 v1) (ht2 : ComparedHive w p2.env.fi.buffer t2 v2)
    (hrco : p1.header.base.rootCellOffset = 32) (hh : HashTells w.hashFn t1 v1 t2 v2)
    (hf1 : '\n' ∉ filenames u shown base baseLogs) (hf2 : '\n' ∉ filenames u shown comp compLogs)
    (hfl1 : EveryAll (fun u => u.cell.flags.testBit 2 = false) t1.kids)
    (hfl2 : EveryAll (fun u => u.cell.flags.testBit 2 = false) t2.kids)
    (segs : List Str) (hbs : ∀ m ∈ segs, '\\' ∉ m) (hlast : segs.getLast? ≠ none ∧ segs.getLast? ≠ some []) :
    ∃ filter, dumpFilter (some ('\\' :: joined segs)) = .ok (some filter) ∧
    ∃ steps text, compareReport w order steps u shown (some filter) false base baseLogs comp compLogs disk = some (.ok text) ∧
      "Total changes: 0".toList ∈ lines text := by
  cases hs : segs with
  | nil => rw [hs] at hlast; exact absurd rfl hlast.1
  | cons seg ss =>
  rw [← hs]
  have hj : joined ([] :: segs) ++ List.replicate 0 '\\' = '\\' :: joined segs := by
    rw [hs]; simp [joined]
  have hl : ([] :: segs).getLast (by simp) ≠ [] := by
    intro e
    apply hlast.2
    rw [← e, ← List.getLast?_eq_some_getLast, hs, List.getLast?_cons_cons]
  obtain ⟨filter, e1, steps, text, e2, kd, ka, km, vd, va, vm, hd, kdr, kar, kmr, vdr, var, vmr, g1, g2, g3, g4, g5,
      g6, g7⟩ := compare_filter_tells_partial w order horder u shown false disk base
    baseLogs comp compLogs p1 p2 t1 t2 v1 v2 hd h1 hr1 h2 hr2 ht1 ht2 hrco hh hf1 hf2 hfl1 hfl2 [] segs 0
    (fun m hm => by
      rcases List.mem_cons.1 hm with rfl | hm
      · exact List.not_mem_nil
      · exact hbs m hm) hl
  rw [hj] at e1
  refine ⟨filter, e1, steps, text, e2, ?_⟩
  rw [keysUnder_backslash segs t1 ht1.names, keysUnder_backslash segs t2 ht2.names] at hd
  obtain ⟨a1, a2, a3, a4, a5, a6⟩ := hd
  have n1 : kd.length = 0 := a1.length_eq
  have n2 : ka.length = 0 := by rw [a2]; rfl
  have n3 : km.length = 0 := by rw [a3]; rfl
  have n4 : vd.length = 0 := a4.length_eq
  have n5 : va.length = 0 := by rw [a5]; rfl
  have n6 : vm.length = 0 := by rw [a6]; rfl
  rw [pairwise2_length g1] at n1
  rw [pairwise2_length g2] at n2
  rw [pairwise2_length g3] at n3
  rw [pairwise2_length g4] at n4
  rw [pairwise2_length g5] at n5
  rw [pairwise2_length g6] at n6
  have g7 : lines text = _ := g7
  rw [g7, n1, n2, n3, n4, n5, n6]
  refine List.mem_append_right _ ?_
  unfold reportSection
  exact List.mem_append_left _ (by decide +kernel)

/-! ### A case -/

/-- Two hives with the keys `a`, `b` and `c`, `b` below the root. -/
def siblingDisk : Disk := fun path =>
  if path = [['A']] then some (sampleHive 5 5 4477 0x61 [])
  else if path = [['B']] then some (sampleHive 5 5 4477 0x63 []) else none

theorem sample_compared {n : UInt8} (hn : n = 0x61 ∨ n = 0x63) :
    ComparedHive tellingWorld (sampleHive 5 5 4477 n []) (sampleTree n) (fun _ => []) := by
  have hs : ∀ {q : Tree → Prop}, q (sampleTree n) → (∀ u ∈ (sampleTree n).kids, q u) → (sampleTree n).Every q := by
    intro q hq hk
    unfold sampleTree at hq hk ⊢
    simp only [Tree.Every, EveryAll]
    exact ⟨hq, ⟨hk _ List.mem_cons_self, trivial⟩, ⟨hk _ (List.mem_cons_of_mem _ List.mem_cons_self), trivial⟩, trivial⟩
  have hv : (sampleTree n).Every fun u => u.cell.nValues = 0 := by
    rcases hn with rfl | rfl <;> exact hs (by decide) (by decide)
  have hstored := sampleTree_stored tellingWorld (by decide) n hn (sampleHive 5 5 4477 n []) ⟨sampleHeader 5 5 4477 ++ List.replicate 3584 0, [],
    by rw [List.length_append, List.length_replicate]
       simp only [sampleHeader, List.length_append, length_encLE, List.length_replicate]
       rfl, rfl⟩
  refine ⟨hstored, every_mono (fun u hu => ⟨hu, by simp, .inl rfl⟩) _ hv, ?_, ?_, every_mono (fun u hu => List.Pairwise.nil) _ hv,
    ?_, ?_, every_mono (fun u hu x hx => absurd hx List.not_mem_nil) _ hv⟩
  · rcases hn with rfl | rfl <;> exact hs (by decide) (by decide)
  · refine hs ?_ ?_
    · simp only [sampleTree, NamesDistinct, Tree.kids, List.pairwise_cons,
        List.Pairwise.nil, List.not_mem_nil, false_imp_iff, implies_true, and_true, List.mem_singleton,
        forall_eq, Tree.name]
      rintro ⟨s, h1, h2⟩
      have h1 := (asciiLower_eq_iff _ _).2 h1
      have h2 := (asciiLower_eq_iff _ _).2 h2
      rw [h1] at h2
      rcases hn with rfl | rfl <;> exact absurd h2 (by decide)
    · intro u hu
      have : u.kids = [] := by
        simp only [sampleTree, Tree.kids, List.mem_cons, List.not_mem_nil, or_false] at hu
        rcases hu with rfl | rfl <;> rfl
      rw [this]
      exact List.Pairwise.nil
  · rcases hn with rfl | rfl <;> decide
  · rcases hn with rfl | rfl <;> exact hs (by decide) (by decide)

theorem sibling_opens {path : List Str} {n : UInt8} (hn : n = 0x61 ∨ n = 0x63)
    (h : siblingDisk path = some (sampleHive 5 5 4477 n [])) :
    ∃ p, buildFromPath tellingWorld siblingDisk path [] false false = some (.ok p) ∧ p.root ≠ none ∧
      ComparedHive tellingWorld p.env.fi.buffer (sampleTree n) (fun _ => []) ∧ p.header.base.rootCellOffset = 32 := by
  have hst := sample_compared hn
  have hh : (match BaseBlock.fromBytes (sampleHive 5 5 4477 n []) with
      | .ok (bb, _) => decide (bb.base.fileType ≠ .unknown ∧ bb.base.primarySeq = bb.base.secondarySeq ∧
          calculateChecksum ((sampleHive 5 5 4477 n []).take 512) = .ok bb.base.checksum ∧ bb.base.rootCellOffset = 32)
      | _ => false) = true := by
    rcases hn with rfl | rfl <;> decide +kernel
  cases hb : BaseBlock.fromBytes (sampleHive 5 5 4477 n []) with
  | err => rw [hb] at hh; cases hh
  | panic => rw [hb] at hh; cases hh
  | ok x =>
    rw [hb] at hh
    obtain ⟨h1, h2, h3, h7⟩ := of_decide_eq_true hh
    obtain ⟨p, h4, h5, h8, h6, _⟩ := open_clean_lists tellingWorld ⟨sampleHive 5 5 4477 n [], [], none, false, false⟩ x.1 x.2
      (sampleTree n) (by decide) rfl ⟨([], none), (by decide +kernel : TransactionLog.parse [] = .ok ([], none))⟩ hb h1 h2 h3 hst.toStoredTree
    refine ⟨p, ?_, h6, by rw [h5]; exact hst, by rw [h8]; exact h7⟩
    unfold buildFromPath
    rw [h]
    exact h4

theorem sibling_hash : HashTells tellingWorld.hashFn (sampleTree 0x61) (fun _ => []) (sampleTree 0x63) (fun _ => []) :=
  ⟨fun _ _ _ _ h => h, fun _ _ _ _ _ _ _ _ h => h⟩

theorem sample_flags (n : UInt8) : EveryAll (fun u => u.cell.flags.testBit 2 = false) (sampleTree n).kids := by
  simp only [sampleTree, Tree.Every, EveryAll, Tree.kids, Tree.cell]
  refine ⟨⟨?_, trivial⟩, ⟨?_, trivial⟩, trivial⟩ <;> (show (0x20 : Nat).testBit 2 = false; decide)

/-- The hypotheses of `compare_filter_tells_partial`: with the path `A` the report says that `\RT\a` was deleted,
and nothing of the key `c`, which is not below that path. -/
example : ∃ filter, dumpFilter (some ['A']) = .ok (some filter) ∧
    ∃ steps text, compareReport tellingWorld id steps someTexts (fun p => p.flatten) (some filter) false [['A']] none
      [['B']] none siblingDisk = some (.ok text) ∧ "Keys deleted: 1".toList ∈ lines text ∧
      "Total changes: 1".toList ∈ lines text := by
  obtain ⟨p1, a1, a2, a3, a4⟩ := sibling_opens (path := [['A']]) (.inl rfl) rfl
  obtain ⟨p2, b1, b2, b3, b4⟩ := sibling_opens (path := [['B']]) (.inr rfl) rfl
  obtain ⟨filter, e1, steps, text, e2, kd, ka, km, vd, va, vm, hd, kdr, kar, kmr, vdr, var, vmr, g1, g2, g3, g4, g5,
      g6, g7⟩ := compare_filter_tells_partial tellingWorld id (fun _ => .refl _) someTexts (fun p => p.flatten) false siblingDisk
    [['A']] none [['B']] none p1 p2 _ _ _ _ (by decide) a1 a2 b1 b2 a3 b3 a4 sibling_hash
    (by decide) (by decide) (sample_flags _) (sample_flags _) ['A'] [] 0 (by decide) (by decide)
  refine ⟨filter, e1, steps, text, e2, ?_⟩
  obtain ⟨c1, c2, c3, c4, c5, c6⟩ := hd
  have n1 : kd.length = 1 := c1.length_eq.trans (by decide +kernel)
  have n2 : ka.length = 0 := by rw [c2]; decide +kernel
  have n3 : km.length = 0 := by rw [c3]; decide +kernel
  have n4 : vd.length = 0 := c4.length_eq.trans (by decide +kernel)
  have n5 : va.length = 0 := by rw [c5]; decide +kernel
  have n6 : vm.length = 0 := by rw [c6]; decide +kernel
  rw [pairwise2_length g1] at n1
  rw [pairwise2_length g2] at n2
  rw [pairwise2_length g3] at n3
  rw [pairwise2_length g4] at n4
  rw [pairwise2_length g5] at n5
  rw [pairwise2_length g6] at n6
  have g7 : lines text = _ := g7
  rw [g7, n1, n2, n3, n4, n5, n6]
  simp only [List.mem_append]
  exact ⟨.inl (.inl (.inl (.inl (.inl (.inl (.inr (by unfold reportSection; exact List.mem_append_left _ (by decide +kernel)))))))),
    .inr (by unfold reportSection; exact List.mem_append_left _ (by decide +kernel))⟩

/-- The hypotheses of `compare_filter_violated`: with the path as it was printed, `\RT\a`, nothing has changed. -/
example : ∃ filter, dumpFilter (some "\\RT\\a".toList) = .ok (some filter) ∧
    ∃ steps text, compareReport tellingWorld id steps someTexts (fun p => p.flatten) (some filter) false [['A']] none
      [['B']] none siblingDisk = some (.ok text) ∧ "Total changes: 0".toList ∈ lines text := by
  obtain ⟨p1, a1, a2, a3, a4⟩ := sibling_opens (path := [['A']]) (.inl rfl) rfl
  obtain ⟨p2, b1, b2, b3, b4⟩ := sibling_opens (path := [['B']]) (.inr rfl) rfl
  exact compare_filter_violated tellingWorld id (fun _ => .refl _) someTexts (fun p => p.flatten) siblingDisk
    [['A']] none [['B']] none p1 p2 _ _ _ _ (by decide) a1 a2 b1 b2 a3 b3 a4 sibling_hash
    (by decide) (by decide) (sample_flags _) (sample_flags _) [['R', 'T'], ['a']] (by decide) (by decide)

end Notatin
