import Verif.Props.Recovered
/-
C85: the counts of keys and values are those of the keys and values stored, and with recovery those found in free
and unused space are counted, too.
-/
namespace Notatin
open Spec

/-- How many values the keys of the tree have. -/
def Spec.Tree.valueCount (t : Tree) (vals : Nat → List Val) : Nat := (t.nodes.map fun u => (vals u.off).length).sum

/-! ### The loops -/

theorem countKeysValues_eq (ns : List Node) :
    countKeysValues ns = (ns.length, (ns.map fun n => n.key.values.length).sum) := by
  have h : ∀ (ns : List Node) (a b : Nat), ns.foldl (fun (k, v) n => (k + 1, v + n.key.values.length)) (a, b) =
      (a + ns.length, b + (ns.map fun n => n.key.values.length).sum) := by
    intro ns
    induction ns with
    | nil => intro a b; rfl
    | cons n ns ih =>
      intro a b
      rw [List.foldl_cons, ih, List.length_cons, List.map_cons, List.sum_cons]
      congr 1 <;> omega
  have := h ns 0 0
  rw [Nat.zero_add, Nat.zero_add] at this
  exact this

theorem countVals_eq : ∀ (vs : List Value) (c : ModifiedCounts), vs.foldl ModifiedCounts.value c =
    { c with
      values := c.values + (vs.filter fun v => !v.val.cellState.isDeleted).length
      valuesVersions := c.valuesVersions + (vs.map fun v => v.versions.length).sum
      valuesDeleted := c.valuesDeleted + (vs.filter fun v => v.val.cellState.isDeleted).length } := by
  intro vs
  induction vs with
  | nil => intro c; rfl
  | cons v vs ih =>
    intro c
    rw [List.foldl_cons, ih]
    unfold ModifiedCounts.value
    cases hd : v.val.cellState.isDeleted <;>
      simp [hd] <;> omega

theorem countMods_eq : ∀ (ns : List Node) (c : ModifiedCounts), ns.foldl ModifiedCounts.key c =
    { keys := c.keys + (ns.filter fun n => !n.key.cellState.isDeleted).length
      keysVersions := c.keysVersions + (ns.map fun n => n.versions.length).sum
      keysDeleted := c.keysDeleted + (ns.filter fun n => n.key.cellState.isDeleted).length
      values := c.values + (ns.map fun n => (n.key.values.filter fun v => !v.val.cellState.isDeleted).length).sum
      valuesVersions := c.valuesVersions + (ns.map fun n => (n.key.values.map fun v => v.versions.length).sum).sum
      valuesDeleted := c.valuesDeleted + (ns.map fun n => (n.key.values.filter fun v => v.val.cellState.isDeleted).length).sum } := by
  intro ns
  induction ns with
  | nil => intro c; rfl
  | cons n ns ih =>
    intro c
    rw [List.foldl_cons, ih]
    unfold ModifiedCounts.key
    rw [countVals_eq]
    cases hd : n.key.cellState.isDeleted <;>
      simp [hd] <;> omega

theorem told_plain {v : Value} (h : PlainValue v) : v.val.cellState = .Allocated ∧ v.versions = [] := ⟨h.2.2.2.2, h.2.1⟩

theorem sum_zero {α : Type} (f : α → Nat) : ∀ (l : List α), (∀ x ∈ l, f x = 0) → (l.map f).sum = 0
  | [], _ => rfl
  | x :: l, h => by
    rw [List.map_cons, List.sum_cons, h x List.mem_cons_self, sum_zero f l (fun y hy => h y (List.mem_cons_of_mem _ hy))]

theorem filter_no_len {α : Type} (p : α → Bool) (l : List α) (h : ∀ x ∈ l, p x = false) : (l.filter p).length = 0 := by
  rw [List.length_eq_zero_iff, List.filter_eq_nil_iff]
  intro a ha
  rw [h a ha]
  exact Bool.false_ne_true

theorem filter_all_len {α : Type} (p : α → Bool) (l : List α) (h : ∀ x ∈ l, p x = true) : (l.filter p).length = l.length := by
  rw [List.filter_eq_self.2 h]

/-! ### Without recovery -/

/-- The counts of a listing that shows what is stored. -/
theorem counts_told {ns : List Node} {es : List (Nat × Str)} {vals : Nat → List Val}
    (h1 : ns.map (fun n => (obs n, n.key.values.map obsVal)) = es.map (fun e => (e, vals e.1)))
    (h2 : ∀ n ∈ ns, ∃ u xs, KeyTold u xs n) :
    countKeysValues ns = (es.length, (es.map fun e => (vals e.1).length).sum) ∧
      ns.foldl ModifiedCounts.key {} = { keys := es.length, values := (es.map fun e => (vals e.1).length).sum } := by
  have hlen : ns.length = es.length := by simpa using congrArg List.length h1
  have hvals : (ns.map fun n => n.key.values.length) = es.map fun e => (vals e.1).length := by
    have := congrArg (List.map fun x : (Nat × Str) × List Val => x.2.length) h1
    simpa [List.map_map, Function.comp_def] using this
  have hplain : ∀ n ∈ ns, n.key.cellState = .Allocated ∧ n.versions = [] ∧
      ∀ v ∈ n.key.values, v.val.cellState = .Allocated ∧ v.versions = [] := by
    intro n hn
    obtain ⟨u, xs, _, _, _, _, _, _, a, _, b, _, c⟩ := h2 n hn
    exact ⟨a, b, fun v hv => told_plain (c v hv).2⟩
  refine ⟨by rw [countKeysValues_eq, hlen, hvals], ?_⟩
  rw [countMods_eq]
  have e1 : (ns.filter fun n => !n.key.cellState.isDeleted).length = es.length := by
    rw [filter_all_len _ _ (by intro n hn; rw [(hplain n hn).1]; rfl), hlen]
  have e2 : (ns.map fun n => n.versions.length).sum = 0 :=
    sum_zero _ _ (by intro n hn; rw [(hplain n hn).2.1]; rfl)
  have e3 : (ns.filter fun n => n.key.cellState.isDeleted).length = 0 :=
    filter_no_len _ _ (by intro n hn; rw [(hplain n hn).1]; rfl)
  have e4 : (ns.map fun n => (n.key.values.filter fun v => !v.val.cellState.isDeleted).length) = es.map fun e => (vals e.1).length := by
    rw [← hvals]
    refine List.map_congr_left fun n hn => filter_all_len _ _ ?_
    intro v hv
    rw [((hplain n hn).2.2 v hv).1]; rfl
  have e5 : (ns.map fun n => (n.key.values.map fun v => v.versions.length).sum).sum = 0 :=
    sum_zero _ _ (fun n hn => sum_zero _ _ (by intro v hv; rw [((hplain n hn).2.2 v hv).2]; rfl))
  have e6 : (ns.map fun n => (n.key.values.filter fun v => v.val.cellState.isDeleted).length).sum = 0 :=
    sum_zero _ _ (fun n hn => filter_no_len _ _ (by intro v hv; rw [((hplain n hn).2.2 v hv).1]; rfl))
  rw [e1, e2, e3, e4, e5, e6]
  simp

theorem pre_counts (t : Tree) (vals : Nat → List Val) : (t.pre []).length = t.nodes.length ∧
    ((t.pre []).map fun e => (vals e.1).length).sum = t.valueCount vals := by
  have h : (t.pre []).map Prod.fst = t.nodes.map Tree.off := by rw [pre_offs, nodes_offs]
  constructor
  · simpa using congrArg List.length h
  · unfold Spec.Tree.valueCount
    have := congrArg (List.map fun o => (vals o).length) h
    simp only [List.map_map, Function.comp_def] at this
    rw [this]

/-- C85, without recovery: the keys and the values counted are those stored in the file; none of them is counted as
deleted, and no former contents are. -/
theorem count_stored (w : World) (b : Builder) (p : HiveParser) (t : Tree) (vals : Nat → List Val)
    (hd : 0 < w.depth) (hrec : b.recover = false) (h : b.build w = some (.ok p)) (hroot : p.root ≠ none)
    (ht : StoredHive w p.env.fi.buffer t vals) :
    ∃ steps, p.countAll steps none = some (.ok (t.nodes.length, t.valueCount vals)) ∧
      p.countModified steps none = some (.ok { keys := t.nodes.length, values := t.valueCount vals }) := by
  obtain ⟨steps, ns, h1, h2, h3⟩ := opened_tells w b p t vals hd hrec h hroot ht true false
  obtain ⟨c1, c2⟩ := counts_told h2 (fun n hn => by obtain ⟨u, _, hu⟩ := h3 n hn; exact ⟨u, _, hu⟩)
  obtain ⟨g1, g2⟩ := pre_counts t vals
  rw [g1, g2] at c1 c2
  refine ⟨steps, ?_, ?_⟩
  · unfold HiveParser.countAll
    rw [Option.getD_none, h1]
    show some (Res.ok _) = _
    rw [c1]
  · unfold HiveParser.countModified
    rw [Option.getD_none, h1]
    show some (Res.ok (ns.foldl ModifiedCounts.key {})) = _
    rw [c2]

/-- C85 with a filter (partial: the conditions of C11 on the names and the filter): the keys the filter asks for
are counted, and all of their values. -/
theorem count_filter_partial (w : World) (b : Builder) (p : HiveParser) (t : Tree)
    (vals : Nat → List Val) (hd : 0 < w.depth) (hrec : b.recover = false) (h : b.build w = some (.ok p))
    (hroot : p.root ≠ none) (ht : StoredHive w p.env.fi.buffer t vals)
    (P : List Seg) (q : RegQuery) (hq : q.keyPath = P.map Seg.component)
    (hnames : t.Every (fun u => '\\' ∉ u.name))
    (hflags : q.hasRoot = false → EveryAll (fun u => u.cell.flags.testBit 2 = false) t.kids)
    (hlong : (segments q.hasRoot [t.name]).length < P.length) :
    ∃ steps, p.countAll steps (some ⟨some q⟩) = some (.ok ((filtered P q.hasRoot q.children false t).length,
      ((filtered P q.hasRoot q.children false t).map fun e => (vals e.1).length).sum)) := by
  obtain ⟨steps, ns, h1, h2, h3⟩ := opened_filter_tells_partial w b p t vals hd hrec h hroot ht P q true hq hnames hflags hlong
  obtain ⟨c1, _⟩ := counts_told h2 (fun n hn => by obtain ⟨u, _, hu⟩ := h3 n hn; exact ⟨u, _, hu⟩)
  refine ⟨steps, ?_⟩
  unfold HiveParser.countAll
  rw [Option.getD_some, h1]
  show some (Res.ok _) = _
  rw [c1]

/-! ### With recovery -/

/-- C85, with recovery, clean files (partial: as `deleted_listed_partial`).  Counted are the keys and values stored and
those found in free and unused space (with the values such keys still have); with the deleted ones counted apart,
the numbers of keys are those of the stored and of the found ones.  The values of the found keys are counted with
those of the stored ones (see `deleted_values_marked_violated`). -/
theorem count_recovered_partial (w : World) (b : Builder) (bb : BaseBlock) (bins : List (Nat × List Nat)) (t : Tree)
    (vals : Nat → List Val) (hrec : b.recover = true) (hc : CleanHive b bb) (hst : StoredHive w b.primary t vals)
    (hroot : RootMarked t) (hb : Bins b.primary 4096 (4096 + bb.base.hiveBinsDataSize) bins)
    (he : 4096 + bb.base.hiveBinsDataSize ≤ b.primary.length) (hd : b.primary.length < 24 * w.depth) :
    ∀ steps, b.primary.length < steps → ∃ p, b.build { w with steps } = some (.ok p) ∧
      ∃ (keys : List Node) (values : List Value), (∀ y ∈ keys, FromFreeKey b.primary y) ∧
        (∀ x ∈ values, FromFreeValue b.primary x) ∧
        ListsFree b.primary bins bb.base.hiveBinsDataSize keys values ∧
        (values.map (fun x => x.val.fileOffset) ++ keys.map fun y => y.key.fileOffset).Nodup ∧
        ∃ N, p.countAll N none = some (.ok (t.nodes.length + keys.length,
            t.valueCount vals + values.length + (keys.map fun y => y.key.values.length).sum)) ∧
          p.countModified N none = some (.ok {
            keys := t.nodes.length, keysDeleted := keys.length
            values := t.valueCount vals + (keys.map fun y => y.key.values.length).sum, valuesDeleted := values.length }) := by
  intro steps hs
  obtain ⟨p, hp, hl⟩ := deleted_listed_partial w b bb bins t vals hrec hc hst hroot hb he hd steps hs
  obtain ⟨N, root, keys, rest, values, hi, h⟩ := hl false
  refine ⟨p, hp, keys, values, h.fromKeys, h.fromValues, h.complete, h.once, N, ?_⟩
  obtain ⟨g1, g2⟩ := pre_counts t vals
  have hlen : (root :: rest).length = t.nodes.length := by
    rw [← g1, ← h.live, List.length_map]
  obtain ⟨r1, r2, own, r3, r4, r5⟩ := h.root
  have hown : own.length = (vals root.key.fileOffset).length := by rw [← r4, List.length_map]
  have hrest : ∀ y ∈ rest, y.key.values.length = (vals y.key.fileOffset).length ∧ y.key.cellState = .Allocated ∧
      y.versions = [] ∧ ∀ v ∈ y.key.values, v.val.cellState = .Allocated ∧ v.versions = [] := by
    intro y hy
    obtain ⟨a1, a2, o, a3, a4, a5⟩ := h.others y hy
    rw [List.append_nil] at a3
    refine ⟨by rw [a3, ← a4, List.length_map], a1, a2, ?_⟩
    intro v hv
    rw [a3] at hv
    exact told_plain (a5 v hv).2
  have hsum : own.length + (rest.map fun y => y.key.values.length).sum = t.valueCount vals := by
    rw [← g2, ← h.live, List.map_cons, List.map_cons, List.sum_cons, List.map_map, hown]
    congr 2
    exact List.map_congr_left fun y hy => (hrest y hy).1
  have hkeys : ∀ y ∈ keys, y.key.cellState.isDeleted = true ∧ y.versions = [] ∧
      ∀ v ∈ y.key.values, v.val.cellState = .Allocated ∧ v.versions = [] := by
    intro y hy
    have hf := h.fromKeys y hy
    refine ⟨?_, hf.versions, fun v hv => ⟨(hf.contents v hv).2.2, (hf.contents v hv).2.1⟩⟩
    rcases hf.why with ⟨e, _⟩ | e <;> rw [e] <;> rfl
  have hvalues : ∀ x ∈ values, x.val.cellState.isDeleted = true ∧ x.versions = [] := by
    intro x hx
    have hf := h.fromValues x hx
    refine ⟨?_, hf.versions⟩
    rcases hf.why with ⟨e, _⟩ | e <;> rw [e] <;> rfl
  have hownp : ∀ v ∈ own, v.val.cellState = .Allocated ∧ v.versions = [] := fun v hv => told_plain (r5 v hv).2
  constructor
  · unfold HiveParser.countAll
    rw [Option.getD_none, hi]
    show some (Res.ok _) = _
    rw [countKeysValues_eq]
    simp only [List.length_cons, List.length_append, List.map_cons, List.map_append, List.sum_cons, List.sum_append, r3] at hlen ⊢
    congr 3 <;> omega
  · unfold HiveParser.countModified
    rw [Option.getD_none, hi]
    show some (Res.ok ((root :: (keys ++ rest)).foldl ModifiedCounts.key {})) = _
    rw [countMods_eq]
    have z1 : ((root :: (keys ++ rest)).filter fun n => !n.key.cellState.isDeleted).length = t.nodes.length := by
      rw [List.filter_cons_of_pos (by rw [r1]; rfl), List.length_cons, List.filter_append, List.length_append,
        filter_no_len _ keys (by intro y hy; rw [(hkeys y hy).1]; rfl),
        filter_all_len _ rest (by intro y hy; rw [(hrest y hy).2.1]; rfl)]
      rw [List.length_cons] at hlen
      omega
    have z2 : ((root :: (keys ++ rest)).map fun n => n.versions.length).sum = 0 := by
      refine sum_zero _ _ ?_
      intro y hy
      rcases List.mem_cons.1 hy with rfl | hy
      · rw [r2]; rfl
      · rcases List.mem_append.1 hy with hy | hy
        · rw [(hkeys y hy).2.1]; rfl
        · rw [(hrest y hy).2.2.1]; rfl
    have z3 : ((root :: (keys ++ rest)).filter fun n => n.key.cellState.isDeleted).length = keys.length := by
      rw [List.filter_cons_of_neg (by rw [r1]; exact Bool.false_ne_true), List.filter_append, List.length_append,
        filter_all_len _ keys (by intro y hy; exact (hkeys y hy).1),
        filter_no_len _ rest (by intro y hy; rw [(hrest y hy).2.1]; rfl)]
      rfl
    have z4 : ((root :: (keys ++ rest)).map fun n => (n.key.values.filter fun v => !v.val.cellState.isDeleted).length).sum =
        t.valueCount vals + (keys.map fun y => y.key.values.length).sum := by
      rw [List.map_cons, List.sum_cons, List.map_append, List.sum_append, r3, List.filter_append, List.length_append,
        filter_all_len _ own (by intro v hv; rw [(hownp v hv).1]; rfl),
        filter_no_len _ values (by intro v hv; rw [(hvalues v hv).1]; rfl),
        List.map_congr_left (l := keys) (g := fun y => y.key.values.length)
          (fun y hy => filter_all_len _ _ (by intro v hv; rw [((hkeys y hy).2.2 v hv).1]; rfl)),
        List.map_congr_left (l := rest) (g := fun y => y.key.values.length)
          (fun y hy => filter_all_len _ _ (by intro v hv; rw [((hrest y hy).2.2.2 v hv).1]; rfl))]
      omega
    have z5 : ((root :: (keys ++ rest)).map fun n => (n.key.values.map fun v => v.versions.length).sum).sum = 0 := by
      refine sum_zero _ _ ?_
      intro y hy
      refine sum_zero _ _ ?_
      intro v hv
      rcases List.mem_cons.1 hy with rfl | hy
      · rw [r3] at hv
        rcases List.mem_append.1 hv with hv | hv
        · rw [(hownp v hv).2]; rfl
        · rw [(hvalues v hv).2]; rfl
      · rcases List.mem_append.1 hy with hy | hy
        · rw [((hkeys y hy).2.2 v hv).2]; rfl
        · rw [((hrest y hy).2.2.2 v hv).2]; rfl
    have z6 : ((root :: (keys ++ rest)).map fun n => (n.key.values.filter fun v => v.val.cellState.isDeleted).length).sum =
        values.length := by
      rw [List.map_cons, List.sum_cons, r3, List.filter_append, List.length_append,
        filter_no_len _ own (by intro v hv; rw [(hownp v hv).1]; rfl),
        filter_all_len _ values (by intro v hv; exact (hvalues v hv).1),
        sum_zero _ (keys ++ rest) (by
          intro y hy
          refine filter_no_len _ _ ?_
          intro v hv
          rcases List.mem_append.1 hy with hy | hy
          · rw [((hkeys y hy).2.2 v hv).1]; rfl
          · rw [((hrest y hy).2.2.2 v hv).1]; rfl)]
      omega
    rw [z1, z2, z3, z4, z5, z6]
    simp

/-! ### Examples -/

/-- The hypotheses of `count_recovered_partial`: in a hive with three keys and no values, with a free key and a free
value, at least four keys and one value are counted. -/
example : ∃ p, freeHive.build freeWorld = some (.ok p) ∧
    ∃ N a b, p.countAll N none = some (.ok (a, b)) ∧ 4 ≤ a ∧ 1 ≤ b := by
  obtain ⟨bb, rest, h1, h2, h3, h4, h5, h6⟩ := sampleHive_header 5 5 8192 0x61 freeTail (by decide +kernel)
  have hl : freeHive.primary.length = 12288 := by decide +kernel
  obtain ⟨p, hp, keys, values, _, _, hf, _, N, hc, _⟩ := count_recovered_partial freeWorld freeHive bb
    [(4096, [4128, 4210, 4234, 4315, 4396]), (4477, [4509, 4534])] (sampleTree 0x61) (fun _ => []) rfl
    ⟨⟨([], none), by decide +kernel⟩, ⟨rest, h1⟩, h2, h3.trans h4.symm, h6⟩
    (sample_storedHive _ (by decide) _ _ _ _) sample_rootMarked (by rw [h5]; exact freeHive_bins)
    (by rw [h5, hl]; decide) (by rw [hl]; decide) 20000 (by rw [hl]; decide)
  rw [h5] at hf
  obtain ⟨y, hy, _⟩ := (hf _ List.mem_cons_self (by decide) 4396 (by decide) (by decide +kernel)).1 (by decide +kernel)
  obtain ⟨x, hx, _⟩ := (hf _ (List.mem_cons_of_mem _ List.mem_cons_self) (by decide) 4509 (by decide)
    (by decide +kernel)).2 (by decide +kernel)
  refine ⟨p, hp, N, _, _, hc, ?_, ?_⟩
  · have h1 : (sampleTree 0x61).nodes.length = 3 := rfl
    have := List.length_pos_of_mem hy
    omega
  · have := List.length_pos_of_mem hx
    omega

/-- The hypotheses of `count_stored`: the three keys of that hive, without recovery. -/
example : ∃ p steps, ({ primary := sampleHive 5 5 4477 0x61 [] } : Builder).build sampleWorld = some (.ok p) ∧
    p.countAll steps none = some (.ok (3, 0)) := by
  obtain ⟨bb, rest, h1, h2, h3, h4, _, h5⟩ := sampleHive_header 5 5 4477 0x61 [] (by decide +kernel)
  obtain ⟨p, hb, hfi, _, hr, _⟩ := open_clean_lists sampleWorld { primary := sampleHive 5 5 4477 0x61 [] } bb rest _
    (by decide) rfl ⟨([], none), by decide +kernel⟩ h1 h2 (h3.trans h4.symm) h5 (sampleHive_stored 5 5 4477 0x61 [] (.inl rfl))
  obtain ⟨steps, hc, _⟩ := count_stored sampleWorld _ p (sampleTree 0x61) (fun _ => []) (by decide) rfl hb hr
    (by rw [hfi]; exact sample_storedHive _ (by decide) _ _ _ _)
  exact ⟨p, steps, hb, hc⟩

end Notatin
