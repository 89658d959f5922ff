import Verif.Spec.DumpPast
import Verif.Props.Dump
import Verif.Props.Overwritten
/-
C78: what `reg_dump -r` writes tells what the transaction logs have deleted and overwritten, from the bytes of the
hive and its logs to the rows of the table.
-/
namespace Notatin
open Spec

/-! ### The listing -/

/-- What the listing of a hive tells of its history. -/
structure ListsHistory (w : World) (a : FullState) (later : List FullState) (last : FullState) (ns : List Node) :
    Prop where
  isLast : last = (a :: later).getLast (by simp)
  sound : Sound w last
  noReturn : NoReturn ((a :: later).map FullState.plain)
  live : liveKeys ns = last.plain.keys
  shown : ∀ n ∈ ns, n.key.cellState = .Allocated → ∃ u ∈ last.tree.nodes, KeyShown u n
  tells : ∀ n ∈ ns, if n.key.path = '\\' :: last.tree.name then TellsPresent last n
    else TellsPast last (events (a :: later).reverse) n
  gone : ∀ y ∈ ns, y.key.cellState ≠ .Allocated → ∃ q ∈ steps ((a :: later).map FullState.plain), ∃ key,
    Lost q.1 q.2 key ∧ BelowSurvivor last.plain key.2 ∧ TellsLost q.1 q.2 key y
  lost : ∀ q ∈ steps ((a :: later).map FullState.plain), ∀ key, Lost q.1 q.2 key → BelowSurvivor last.plain key.2 →
    ∃ y ∈ ns, TellsLost q.1 q.2 key y
  once : (ns.map fun y => y.key.path).Nodup

theorem history_listed (w : World) (b : Builder) (a : FullState) (later : List FullState)
    (hd : 1 < w.depth) (hord : ∀ m, (w.order m).Perm m) (hist : FullHistory w b a later) :
    ∃ N, ∀ steps, N ≤ steps → ∃ p, b.build { w with steps } = some (.ok p) ∧ ∀ anc, ∃ M ns,
      p.iterate M {} false true anc = some (.ok ns) ∧
        ListsHistory w a later ((a :: later).getLast (by simp)) ns := by
  obtain ⟨N1, h1⟩ := lost_keys_listed_partial w b a.plain (later.map FullState.plain) hd hord hist.history
  obtain ⟨N2, h2⟩ := overwritten_told_partial w b a later hd hord hist
  refine ⟨max N1 N2, fun steps hs => ?_⟩
  obtain ⟨p, e1, h1⟩ := h1 steps (by omega)
  obtain ⟨p', e2, h2⟩ := h2 steps (by omega)
  have : p = p' := by
    have := e1.symm.trans e2
    cases this; rfl
  subst this
  refine ⟨p, e1, fun anc => ?_⟩
  obtain ⟨M1, ns, i1, l1, l2, l3, l4⟩ := h1 anc
  obtain ⟨M2, ns', i2, k1, k2, k3⟩ := h2 anc
  have hns : ns = ns' := by
    have := collect_unique (fuelMono_pre p.env) _ _ _ _ _ i1 i2
    cases this; rfl
  subst hns
  have hlast : (a.plain :: later.map FullState.plain).getLast (by simp) =
      ((a :: later).getLast (by simp)).plain := List.getLast_map (f := FullState.plain) (l := a :: later) (by simp)
  rw [hlast] at l2 l3
  have hm : (a :: later).getLast (by simp) ∈ a :: later := List.getLast_mem _
  exact ⟨M1, ns, i1, rfl, ⟨(hist.history.states _ (List.mem_map.2 ⟨_, hm, rfl⟩ : _ ∈ (a :: later).map FullState.plain)).1,
    hist.flags _ hm⟩, hist.history.noReturn, k1, k2, k3, l2, l3, l4⟩

/-- A key that is there at some time and not in the end is lost at some step. -/
theorem lost_sometime : ∀ (l : List FileState) (s last : FileState) (key : Nat × Str), s ∈ l → l.getLast? = some last →
    key ∈ s.keys → key.2 ∉ last.paths → ∃ q ∈ steps l, ∃ key', Lost q.1 q.2 key' ∧ key'.2 = key.2
  | [], _, _, _, hs, _, _, _ => absurd hs List.not_mem_nil
  | [a], s, last, key, hs, hl, hk, hn => by
    rw [List.mem_singleton] at hs
    subst hs
    have : s = last := Option.some.inj hl
    subst this
    exact absurd (List.mem_map.2 ⟨key, hk, rfl⟩) hn
  | a :: b :: rest, s, last, key, hs, hl, hk, hn => by
    rw [List.getLast?_cons_cons] at hl
    rw [steps]
    have next : ∀ s key', s ∈ b :: rest → key' ∈ s.keys → key'.2 = key.2 →
        ∃ q ∈ (a, b) :: steps (b :: rest), ∃ key', Lost q.1 q.2 key' ∧ key'.2 = key.2 := by
      intro s key' hs hk' he
      obtain ⟨q, hq, k, h1, h2⟩ := lost_sometime (b :: rest) s last key' hs hl hk' (by rw [he]; exact hn)
      exact ⟨q, List.mem_cons_of_mem _ hq, k, h1, h2.trans he⟩
    rcases List.mem_cons.1 hs with rfl | hs
    · by_cases hb : key.2 ∈ b.paths
      · obtain ⟨key', hk', he⟩ := List.mem_map.1 hb
        exact next b key' List.mem_cons_self hk' he
      · exact ⟨_, List.mem_cons_self, key, ⟨hk, hb⟩, rfl⟩
    · exact next s key hs hk rfl

theorem events_mem : ∀ (l : List FullState) (e : Event), e ∈ events l → ∃ s rest, e.1 = s :: rest ∧ s ∈ l
  | [], e, h => absurd h List.not_mem_nil
  | [a], e, h => absurd h List.not_mem_nil
  | b :: a :: older, e, h => by
    rw [events] at h
    rcases List.mem_cons.1 h with rfl | h
    · exact ⟨a, older, rfl, List.mem_cons_of_mem _ List.mem_cons_self⟩
    · obtain ⟨s, rest, h1, h2⟩ := events_mem (a :: older) e h
      exact ⟨s, rest, h1, List.mem_cons_of_mem _ h2⟩

theorem item_mem {s : FullState} {k : Str × Option Str} {c : Tree ⊕ FlaggedVal} (h : s.item k = some c) :
    (k, c) ∈ s.items := by
  unfold FullState.item at h
  rw [Option.map_eq_some_iff] at h
  obtain ⟨x, hx, rfl⟩ := h
  have h2 := List.find?_some hx
  rw [← eq_of_beq h2]
  exact List.mem_of_find?_eq_some hx

theorem item_path {s : FullState} {k : Str × Option Str} {c : Tree ⊕ FlaggedVal} (h : s.item k = some c) :
    ∃ key ∈ s.plain.keys, key.2 = k.1 := by
  rcases item_kind (item_mem h) with ⟨u, _, h1, _⟩ | ⟨u, _, h1, _⟩
  all_goals
    rw [← keys_plain]
    exact ⟨_, List.mem_map.2 ⟨_, h1, rfl⟩, rfl⟩

theorem was_value {e : Event} {path name : Str} {y : FlaggedVal} (h : e.was (path, some name) = some (.inr y)) :
    y.val.name = name := by
  obtain ⟨l, b⟩ := e
  cases l with
  | nil => cases h
  | cons s rest =>
    have h : s.item (path, some name) = some (.inr y) := h
    rcases item_kind (item_mem h) with ⟨u, _, _, h1, _⟩ | ⟨u, _, _, y', _, h1, h2⟩
    · cases h1
    · cases h2
      exact (Option.some.inj h1).symm

/-- The key with a path that is reached is listed with all its past. -/
theorem ListsHistory.reached {w : World} {a : FullState} {later : List FullState} {last : FullState}
    {ns : List Node} (h : ListsHistory w a later last ns) {path : Str} (hr : Reached last.plain path)
    (hs : ∃ s ∈ a :: later, ∃ key ∈ s.plain.keys, key.2 = path) :
    ∃ n ∈ ns, n.key.path = path ∧ TellsPast last (events (a :: later).reverse) n := by
  obtain ⟨hne, hr⟩ := hr
  have tells : ∀ n ∈ ns, n.key.path = path → ∃ n ∈ ns, n.key.path = path ∧
      TellsPast last (events (a :: later).reverse) n := by
    intro n hn hp
    have := h.tells n hn
    rw [if_neg (by rw [hp]; exact hne)] at this
    exact ⟨n, hn, hp, this⟩
  by_cases hp : path ∈ last.plain.paths
  · unfold FileState.paths at hp
    rw [← h.live] at hp
    obtain ⟨x, hx, e⟩ := List.mem_map.1 hp
    obtain ⟨n, hn, rfl⟩ := List.mem_map.1 hx
    exact tells n (List.mem_filter.1 hn).1 e
  · have hb : BelowSurvivor last.plain path := hr.resolve_left hp
    obtain ⟨s, hs, key, hk, rfl⟩ := hs
    obtain ⟨q, hq, key', hl, he⟩ := lost_sometime ((a :: later).map FullState.plain) s.plain last.plain key
      (List.mem_map.2 ⟨s, hs, rfl⟩)
      (by rw [List.getLast?_map, h.isLast, List.getLast?_eq_some_getLast (by simp)]; rfl) hk hp
    obtain ⟨n, hn, ht⟩ := h.lost q hq key' hl (by rw [he]; exact hb)
    exact tells n hn (by rw [ht.2.2.1, he])

/-- A listed key that is marked as recovered is not stored in the end. -/
theorem ListsHistory.away {w : World} {a : FullState} {later : List FullState} {last : FullState}
    {ns : List Node} (h : ListsHistory w a later last ns) {n : Node} (hn : n ∈ ns)
    (hs : n.key.cellState ≠ .Allocated) : n.key.path ∉ last.plain.paths := by
  obtain ⟨q, hq, key, h1, _, h3⟩ := h.gone n hn hs
  have := lost_stays (later.map FullState.plain) a.plain h.noReturn q hq key h1
  rw [h3.2.2.1]
  have hlast : (a.plain :: later.map FullState.plain).getLast (by simp) = last.plain := by
    rw [h.isLast]; exact List.getLast_map (f := FullState.plain) (l := a :: later) (by simp)
  rwa [hlast] at this

/-! ### The items -/

/-- The items of a listed key: the key and its versions. -/
theorem withVersions_mem {n : Node} (hv : ∀ m ∈ n.versions, m.versions = []) :
    withVersions n = (n :: n.versions).map .key := by
  have go : ∀ ms : List Node, (∀ m ∈ ms, m.versions = []) → withVersionsAll ms = ms.map .key := by
    intro ms
    induction ms with
    | nil => intro _; rw [withVersionsAll]; rfl
    | cons m ms ih =>
      intro h
      rw [withVersionsAll, ih fun x hx => h x (List.mem_cons_of_mem _ hx)]
      have hm := h m List.mem_cons_self
      cases m with
      | mk k vs ds =>
        have hm : vs = [] := hm
        subst hm
        rw [withVersions, withVersionsAll]
        rfl
  cases n with
  | mk k vs ds =>
    rw [withVersions, go vs hv]
    rfl

/-- The items a listed key stands for. -/
inductive Tale (a : FullState) (later : List FullState) (last : FullState) (n : Node) : ExportItem → Prop
  | stored (u : Tree) (h : (n.key.path, u) ∈ last.tree.keys []) (hs : KeyShown u n) : Tale a later last n (.key n)
  | lost (q : FileState × FileState) (hq : q ∈ steps ((a :: later).map FullState.plain)) (key : Nat × Str)
      (hl : Lost q.1 q.2 key) (hb : BelowSurvivor last.plain key.2) (ht : TellsLost q.1 q.2 key n) :
      Tale a later last n (.key n)
  | oldKey (e : Event) (he : e ∈ events (a :: later).reverse) (hc : e.changes (n.key.path, none)) (m : Node)
      (ht : TellsOldKey n.key.path e m) : Tale a later last n (.key m)
  | value (u : Tree) (h : (n.key.path, u) ∈ last.tree.keys []) (y : FlaggedVal) (hy : y ∈ last.vals u.off) (v : Value)
      (ht : NowShows v y) : Tale a later last n (.value n v)
  | oldValue (e : Event) (he : e ∈ events (a :: later).reverse) (name : Str)
      (hc : e.changes (n.key.path, some name)) (v : Value)
      (ht : TellsOldValue n.key.path name .ModifiedTransactionLog e v) : Tale a later last n (.value n v)
  | removed (e : Event) (name : Str) (hc : Removal (events (a :: later).reverse) (n.key.path, some name) e) (v : Value)
      (ht : TellsOldValue n.key.path name .DeletedTransactionLog e v) : Tale a later last n (.value n v)

/-- The key of the last state with the path and offset of a listed one. -/
theorem ListsHistory.stored {w : World} {a : FullState} {later : List FullState} {last : FullState}
    {ns : List Node} (h : ListsHistory w a later last ns) {n : Node} (hn : n ∈ ns)
    (hs : n.key.cellState = .Allocated) : ∃ u, (n.key.path, u) ∈ last.tree.keys [] ∧ KeyShown u n := by
  obtain ⟨u, hu, hk⟩ := h.shown n hn hs
  have hm : obs n ∈ last.plain.keys := by
    rw [← h.live]
    exact List.mem_map.2 ⟨n, List.mem_filter.2 ⟨hn, by simpa using hs⟩, rfl⟩
  rw [← keys_plain] at hm
  obtain ⟨x, hx, e⟩ := List.mem_map.1 hm
  have hx2 : x.2 ∈ last.tree.nodes := by
    rw [← keys_nodes last.tree []]; exact List.mem_map.2 ⟨x, hx, rfl⟩
  have e1 : x.2.off = n.key.fileOffset := congrArg Prod.fst e
  have e2 : x.1 = n.key.path := congrArg Prod.snd e
  have honce := h.sound.ordinary.stored.once
  have : x.2 = u := map_inj_of_nodup Tree.off last.tree.nodes (by rw [nodes_offs]; exact honce) _ hx2 _ hu
    (by rw [e1, hk.off])
  refine ⟨u, ?_, hk⟩
  rw [← this, ← e2]
  exact hx

/-- The versions of listed keys have no versions. -/
theorem ListsHistory.versions {w : World} {a : FullState} {later : List FullState} {last : FullState}
    {ns : List Node} (h : ListsHistory w a later last ns) {n : Node} (hn : n ∈ ns) :
    ∀ m ∈ n.versions, m.versions = [] := by
  intro m hm
  have ht := h.tells n hn
  split at ht
  · rw [ht.versions] at hm; cases hm
  · obtain ⟨e, _, he⟩ := pairwise2_mem_right ht.versions m hm
    exact he.2.2.2.2.2

/-- Every item of a listed key is one of those it stands for. -/
theorem ListsHistory.tale {w : World} {a : FullState} {later : List FullState} {last : FullState}
    {ns : List Node} (h : ListsHistory w a later last ns) {n : Node} (hn : n ∈ ns) :
    ∀ x ∈ withVersions n ++ n.key.values.flatMap (fun v => (v :: v.versions).map (.value n)),
      Tale a later last n x := by
  have ht := h.tells n hn
  have live : ∀ (v : Value) (y : FlaggedVal), y ∈ last.valuesOf n.key.path → NowShows v y →
      Tale a later last n (.value n v) := by
    intro v y hy hv
    by_cases hs : n.key.cellState = .Allocated
    · obtain ⟨u, hu, _⟩ := h.stored hn hs
      rw [valuesOf_key h.sound hu] at hy
      exact .value u hu y hy v hv
    · rw [valuesOf_none (h.away hn hs)] at hy
      cases hy
  intro x hx
  rcases List.mem_append.1 hx with hx | hx
  · rw [withVersions_mem (h.versions hn)] at hx
    obtain ⟨m, hm, rfl⟩ := List.mem_map.1 hx
    rcases List.mem_cons.1 hm with rfl | hm
    · by_cases hs : m.key.cellState = .Allocated
      · obtain ⟨u, hu, hk⟩ := h.stored hn hs
        exact .stored u hu hk
      · obtain ⟨q, hq, key, h1, h2, h3⟩ := h.gone m hn hs
        exact .lost q hq key h1 h2 h3
    · split at ht
      · rw [ht.versions] at hm; cases hm
      · obtain ⟨e, he, h1⟩ := pairwise2_mem_right ht.versions m hm
        obtain ⟨he, hc⟩ := List.mem_filter.1 he
        exact .oldKey e he hc m h1
  · obtain ⟨v, hv, hx⟩ := List.mem_flatMap.1 hx
    obtain ⟨v', hv', rfl⟩ := List.mem_map.1 hx
    split at ht
    · obtain ⟨y, hy, h1, h2⟩ := pairwise2_mem_left ht.values v hv
      rw [h2, List.mem_singleton] at hv'
      subst hv'
      exact live v' y hy h1
    · obtain ⟨own, gone, e, h1, h2, _, _⟩ := ht.values
      rw [e] at hv
      rcases List.mem_append.1 hv with hv | hv
      · obtain ⟨y, hy, h3, h4⟩ := pairwise2_mem_left h1 v hv
        rcases List.mem_cons.1 hv' with rfl | hv'
        · exact live v' y hy h3
        · obtain ⟨e, he, h5⟩ := pairwise2_mem_right h4 v' hv'
          obtain ⟨he, hc⟩ := List.mem_filter.1 he
          exact .oldValue e he _ hc v' h5
      · obtain ⟨h3, e, h4, h5⟩ := h2 v hv
        rw [h3, List.mem_singleton] at hv'
        subst hv'
        exact .removed e _ h4 v' h5

/-! ### The rows -/

/-- The row of a value tells its content. -/
theorem row_content {row : List Str} {v : Value} {x : Val}
    (h : ∃ type data content warnings, column row "Value Type" = some type ∧ column row "Value Data" = some data ∧
      getContent v.val.dataType v.val.valueBytes = .ok (content, warnings) ∧ readContent type data = some content)
    (h1 : v.val.name = x.name) (h2 : v.val.dataTypeRaw = x.type) (h3 : v.val.valueBytes = some x.data)
    (h4 : v.val.dataType = DataType.ofRaw x.type) :
    ∃ type data c, column row "Value Type" = some type ∧ column row "Value Data" = some data ∧
      readContent type data = some c ∧ ContentOf x.type x.data c := by
  obtain ⟨type, data, c, w, c1, c2, c3, c4⟩ := h
  refine ⟨type, data, c, c1, c2, c4, ?_⟩
  have := content_of v (by rw [h3]; simp) (by rw [h4, h2]) c w c3
  unfold obsVal at this
  rw [h2, h3] at this
  exact this

theorem says_key {times : TimeRange} {row : List Str} {u : Tree} {n : Node} (h : RowTells times row (.key n))
    (hk : KeyShown u n) : RowSays times row (.key u n.key.path) := by
  obtain ⟨a, b, c, d, e, f, g, g', g'', _⟩ := h
  rw [hk.subKeys] at b
  rw [hk.written] at c
  rw [hk.state] at d
  rw [hk.flags] at e
  rw [hk.access] at f
  exact ⟨a, b, c, d, e, f, g, g', g''⟩

theorem says_value {times : TimeRange} {row : List Str} {u : Tree} {n : Node} {v : Value} {y : FlaggedVal}
    (h : RowTells times row (.value n v)) (hk : NowShows v y) : RowSays times row (.value u n.key.path y.val) := by
  obtain ⟨a, b, c, d, _⟩ := h
  obtain ⟨k1, k2, k3, _, k5, k6⟩ := hk
  rw [k5] at d
  refine ⟨a, ?_, row_content c k1 k2 k3 k6, d⟩
  rw [b, k1]
  rfl

theorem says_lost {times : TimeRange} {row : List Str} {a b : FileState} {key : Nat × Str} {n : Node}
    (h : RowTells times row (.key n)) (hk : TellsLost a b key n) : SaysLost times a b key row := by
  obtain ⟨r1, _, r3, r4, r5, r6, r7, r7', r7'', _, r9⟩ := h
  obtain ⟨⟨u, hu, h1, h2, h3, h4, h5⟩, _, h7, h8, h9⟩ := hk
  rw [h7] at r1
  rw [h3] at r3
  rw [h8] at r4
  rw [h4] at r5
  rw [h5] at r6
  rw [h9] at r9
  exact ⟨⟨u, hu, h1, r1, r3, r4, r5, r6, r7, r7', r7''⟩, r9⟩

theorem says_oldKey {times : TimeRange} {row : List Str} {path : Str} {e : Event} {n : Node}
    (h : RowTells times row (.key n)) (hk : TellsOldKey path e n) : SaysOldKey times path e row := by
  obtain ⟨r1, _, r3, r4, r5, r6, r7, r7', r7'', r8, r9⟩ := h
  obtain ⟨⟨u, hu, _, _, h3, h4, h5⟩, h6, h7, h8, h9, _⟩ := hk
  rw [h6] at r1
  rw [h3] at r3
  rw [h7] at r4
  rw [h4] at r5
  rw [h5] at r6
  rw [h8] at r8
  rw [h9] at r9
  exact ⟨⟨u, hu, r1, r3, r4, r5, r6, r7, r7', r7''⟩, r8, r9⟩

theorem says_oldValue {times : TimeRange} {row : List Str} {name : Str} {cs : CellState} {e : Event}
    {n : Node} {v : Value} (h : RowTells times row (.value n v)) (hk : TellsOldValue n.key.path name cs e v) :
    SaysOldValue n.key.path name (stateName cs) e row := by
  obtain ⟨r1, r2, r3, r4, _, _, _, r8, r9⟩ := h
  obtain ⟨⟨y, hy, h1, h2, h3, _, h5⟩, h6, h7, h8⟩ := hk
  rw [h6] at r4
  rw [h7] at r8
  rw [h8] at r9
  refine ⟨⟨y, hy, was_value hy, r1, ?_, row_content r3 h1 h2 h3 h5, r4⟩, r8, r9⟩
  rw [r2, h1]
  rfl

/-- The state of the item of a row. -/
def Spec.ExportItem.state : ExportItem → CellState
  | .key n => n.key.cellState
  | .value _ v => v.val.cellState

theorem row_status {times : TimeRange} {row : List Str} {x : ExportItem} (h : RowTells times row x) :
    status row = (stateName x.state).toList := by
  unfold status
  cases x with
  | key n => rw [h.2.2.2.1]; rfl
  | value n v => rw [h.2.2.2.1]; rfl

theorem status_allocated (cs : CellState) : (stateName cs).toList = "Allocated".toList ↔ cs = .Allocated := by
  cases cs <;> decide

/-- An item that is not marked as recovered. -/
def Spec.ExportItem.isLive (x : ExportItem) : Bool := decide (x.state = .Allocated)

/-- The rows of the items. -/
theorem rows_tell (u : Prints) : ∀ (i : Nat) (xs : List ExportItem),
    Pairwise2 (RowTells FitsNanos) (itemRecords u.tsv i xs) xs
  | _, [] => trivial
  | i, x :: xs => ⟨fields_tell u _ x, rows_tell u (i + 1) xs⟩

/-- The items of a listed key that are not marked as recovered: the key and its values. -/
theorem ListsHistory.liveItems {w : World} {a : FullState} {later : List FullState} {last : FullState}
    {ns : List Node} (h : ListsHistory w a later last ns) {n : Node} (hn : n ∈ ns) :
    (withVersions n ++ n.key.values.flatMap (fun v : Value => (v :: v.versions).map (ExportItem.value n))).filter
        ExportItem.isLive =
      if n.key.cellState = .Allocated then
        .key n :: (n.key.values.filter fun v => decide (v.val.cellState = .Allocated)).map (.value n)
      else [] := by
  have ht := h.tells n hn
  have dead : ∀ m : Node, m ∈ n.versions → m.key.cellState ≠ .Allocated := by
    intro m hm
    split at ht
    · rw [ht.versions] at hm; cases hm
    · obtain ⟨e, _, he⟩ := pairwise2_mem_right ht.versions m hm
      rw [he.2.2.1]; simp
  have deadv : ∀ v : Value, v ∈ n.key.values → ∀ v' ∈ v.versions, v'.val.cellState ≠ .Allocated := by
    intro v hv v' hv'
    split at ht
    · obtain ⟨y, hy, h1, h2⟩ := pairwise2_mem_left ht.values v hv
      rw [h2] at hv'; cases hv'
    · obtain ⟨own, gone, e, h1, h2, _, _⟩ := ht.values
      rw [e] at hv
      rcases List.mem_append.1 hv with hv | hv
      · obtain ⟨y, hy, h3, h4⟩ := pairwise2_mem_left h1 v hv
        obtain ⟨e, he, h5⟩ := pairwise2_mem_right h4 v' hv'
        rw [h5.2.1]; simp
      · rw [(h2 v hv).1] at hv'; cases hv'
  have none : n.key.cellState ≠ .Allocated → ∀ v ∈ n.key.values, v.val.cellState ≠ .Allocated := by
    intro hs v hv hc
    have hno := valuesOf_none (h.away hn hs)
    have hx := h.tale hn (.value n v) (List.mem_append_right _ (List.mem_flatMap.2 ⟨v, hv, by simp⟩))
    cases hx with
    | value u hu y hy v ht =>
      apply h.away hn hs
      have : (u.off, n.key.path) ∈ last.plain.keys := by
        rw [← keys_plain]; exact List.mem_map.2 ⟨_, hu, rfl⟩
      exact List.mem_map.2 ⟨_, this, rfl⟩
    | oldValue e he name hc' v ht => rw [ht.2.1] at hc; cases hc
    | removed e name hc' v ht => rw [ht.2.1] at hc; cases hc
  have hvs : ∀ vs : List Value, (∀ v ∈ vs, v ∈ n.key.values) →
      (vs.flatMap (fun v => (v :: v.versions).map (ExportItem.value n))).filter ExportItem.isLive =
        (vs.filter fun v => decide (v.val.cellState = .Allocated)).map (.value n) := by
    intro vs
    induction vs with
    | nil => intro _; rfl
    | cons v vs ih =>
      intro hm
      rw [List.flatMap_cons, List.filter_append, ih fun x hx => hm x (List.mem_cons_of_mem _ hx), List.map_cons,
        List.filter_cons, List.filter_cons]
      have hnil : ((v.versions).map (ExportItem.value n)).filter ExportItem.isLive = [] := by
        rw [List.filter_eq_nil_iff]
        intro x hx
        obtain ⟨v', hv', rfl⟩ := List.mem_map.1 hx
        exact fun hc => deadv v (hm v List.mem_cons_self) v' hv' (of_decide_eq_true hc)
      rw [hnil]
      by_cases hc : v.val.cellState = .Allocated
      · have hl : (ExportItem.value n v).isLive = true := decide_eq_true hc
        rw [if_pos hl, if_pos (decide_eq_true hc)]; rfl
      · have hl : ¬ (ExportItem.value n v).isLive = true := fun hx => hc (of_decide_eq_true hx)
        rw [if_neg hl, if_neg (fun hx => hc (of_decide_eq_true hx))]; rfl
  rw [List.filter_append, withVersions_mem (h.versions hn), hvs _ fun _ h => h, List.map_cons, List.filter_cons]
  have hnil : ((n.versions).map ExportItem.key).filter ExportItem.isLive = [] := by
    rw [List.filter_eq_nil_iff]
    intro x hx
    obtain ⟨m, hm, rfl⟩ := List.mem_map.1 hx
    exact fun hc => dead m hm (of_decide_eq_true hc)
  rw [hnil]
  by_cases hc : n.key.cellState = .Allocated
  · have hl : (ExportItem.key n).isLive = true := decide_eq_true hc
    rw [if_pos hl, if_pos hc]; rfl
  · have hl : ¬ (ExportItem.key n).isLive = true := fun hx => hc (of_decide_eq_true hx)
    rw [if_neg hl, if_neg hc, List.nil_append,
      List.map_eq_nil_iff, List.filter_eq_nil_iff]
    intro v hv
    simpa using none hc v hv

/-- An item that is not marked as recovered and what is stored. -/
def SameNow : ExportItem → StoredItem → Prop
  | .key n, .key u path => n.key.path = path ∧ KeyShown u n
  | .value n v, .value _ path x => n.key.path = path ∧ ∃ y, NowShows v y ∧ y.val = x
  | _, _ => False

/-- The values of a listed key that are not marked as recovered. -/
theorem ListsHistory.liveValues {w : World} {a : FullState} {later : List FullState} {last : FullState}
    {ns : List Node} (h : ListsHistory w a later last ns) {n : Node} (hn : n ∈ ns) :
    Pairwise2 NowShows (n.key.values.filter fun v => decide (v.val.cellState = .Allocated))
      (last.valuesOf n.key.path) := by
  have ht := h.tells n hn
  have all : ∀ vs ys, Pairwise2 NowShows vs ys →
      vs.filter (fun v : Value => decide (v.val.cellState = .Allocated)) = vs := by
    intro vs ys hp
    rw [List.filter_eq_self]
    intro v hv
    obtain ⟨y, _, hy⟩ := pairwise2_mem_left hp v hv
    simpa using hy.2.2.2.2.1
  split at ht
  · have hp : Pairwise2 NowShows n.key.values (last.valuesOf n.key.path) :=
      pairwise2_imp (fun _ _ _ _ hx => hx.1) ht.values
    rw [all _ _ hp]; exact hp
  · obtain ⟨own, gone, e, h1, h2, _, _⟩ := ht.values
    have hp : Pairwise2 NowShows own (last.valuesOf n.key.path) := pairwise2_imp (fun _ _ _ _ hx => hx.1) h1
    have hnil : gone.filter (fun v : Value => decide (v.val.cellState = .Allocated)) = [] := by
      rw [List.filter_eq_nil_iff]
      intro v hv
      obtain ⟨_, e, _, h5⟩ := h2 v hv
      rw [h5.2.1]; simp
    rw [e, List.filter_append, hnil, List.append_nil, all _ _ hp]
    exact hp

/-- The items that are not marked as recovered are the stored ones, in order. -/
theorem ListsHistory.present {w : World} {a : FullState} {later : List FullState} {last : FullState}
    {ns : List Node} (h : ListsHistory w a later last ns) :
    Pairwise2 SameNow ((allItems ns).filter ExportItem.isLive)
      (storedItems last.plain.keys last.tree.nodes last.plain.vals) := by
  have e1 : storedItems last.plain.keys last.tree.nodes last.plain.vals =
      (last.tree.keys []).flatMap fun x =>
        .key x.2 x.1 :: (last.plain.vals x.2.off).map (.value x.2 x.1) := by
    unfold storedItems
    rw [← keys_plain, ← keys_nodes last.tree [], List.zip_map', List.flatMap_map]
  have hsub : ∀ ms : List Node, (∀ m ∈ ms, m ∈ ns) → ∀ xs : List (Str × Tree), (∀ x ∈ xs, x ∈ last.tree.keys []) →
      (ms.filter fun n => decide (n.key.cellState = .Allocated)).map obs = xs.map (fun x => (x.2.off, x.1)) →
      Pairwise2 SameNow ((allItems ms).filter ExportItem.isLive)
        (xs.flatMap fun x => .key x.2 x.1 :: (last.plain.vals x.2.off).map (.value x.2 x.1)) := by
    intro ms
    induction ms with
    | nil =>
      intro _ xs _ e
      cases xs with
      | nil => trivial
      | cons x xs => cases e
    | cons n ms ih =>
      intro hm xs hx e
      have hn := hm n List.mem_cons_self
      have hm' : ∀ m ∈ ms, m ∈ ns := fun m h => hm m (List.mem_cons_of_mem _ h)
      unfold allItems
      rw [List.flatMap_cons, List.filter_append, h.liveItems hn]
      rw [List.filter_cons] at e
      by_cases hs : n.key.cellState = .Allocated
      · rw [if_pos (by simpa using hs)] at e
        rw [if_pos hs]
        cases xs with
        | nil => cases e
        | cons x xs =>
          rw [List.map_cons, List.map_cons] at e
          injection e with e2 e3
          rw [List.flatMap_cons]
          refine pairwise2_append ?_ (ih hm' xs (fun y hy => hx y (List.mem_cons_of_mem _ hy)) e3)
          obtain ⟨u, hu, hk⟩ := h.stored hn hs
          have hxk := hx x List.mem_cons_self
          have ep : x.1 = n.key.path := (congrArg Prod.snd e2).symm
          have eo : x.2.off = n.key.fileOffset := (congrArg Prod.fst e2).symm
          have eu : x.2 = u := map_inj_of_nodup Tree.off last.tree.nodes
            (by rw [nodes_offs]; exact h.sound.ordinary.stored.once) _
            (by rw [← keys_nodes last.tree []]; exact List.mem_map.2 ⟨x, hxk, rfl⟩) _
            (by rw [← keys_nodes last.tree []]; exact List.mem_map.2 ⟨_, hu, rfl⟩) (by rw [eo, hk.off])
          refine ⟨⟨ep.symm, by rw [eu]; exact hk⟩, ?_⟩
          have hv := h.liveValues hn
          rw [valuesOf_key h.sound hu, ← eu] at hv
          show Pairwise2 SameNow _ (((last.vals x.2.off).map FlaggedVal.val).map (.value x.2 x.1))
          rw [List.map_map]
          exact pairwise2_map_map _ _ (fun v y hvy => ⟨ep.symm, y, hvy, rfl⟩) hv
      · rw [if_neg (by simpa using hs)] at e
        rw [if_neg hs, List.nil_append]
        exact ih hm' xs hx e
  rw [e1]
  exact hsub ns (fun _ h => h) _ (fun _ h => h) (by rw [keys_plain]; exact h.live)

/-- The path of the key of an item. -/
def itemPath : ExportItem → Str
  | .key n => n.key.path
  | .value n _ => n.key.path

/-- The item is a key, but not a former version of one. -/
def isKeyItem : ExportItem → Bool
  | .key n => decide (n.key.cellState ≠ .ModifiedTransactionLog)
  | .value _ _ => false

theorem row_ofKey {times : TimeRange} {row : List Str} {x : ExportItem} (h : RowTells times row x) :
    keyRow row = isKeyItem x := by
  unfold keyRow
  rw [row_status h]
  cases x with
  | key n =>
    rw [h.2.2.2.2.2.2.2.2.1]
    show (some [] == some ([] : Str) && (stateName n.key.cellState).toList != "ModifiedTransactionLog".toList) =
      decide (n.key.cellState ≠ .ModifiedTransactionLog)
    cases n.key.cellState <;> decide
  | value n v =>
    obtain ⟨type, data, c, _, h1, _, _, h2⟩ := h.2.2.1
    have : type ≠ [] := by
      rintro rfl
      simp [readContent] at h2
    rw [h1, beq_eq_false_iff_ne.2 fun e => this (Option.some.inj e)]
    rfl

/-- The items that are keys and no former versions are the listed keys. -/
theorem ListsHistory.ofKeys {w : World} {a : FullState} {later : List FullState} {last : FullState}
    {ns : List Node} (h : ListsHistory w a later last ns) : (allItems ns).filter isKeyItem = ns.map .key := by
  have one : ∀ n ∈ ns, (withVersions n ++ n.key.values.flatMap fun v : Value => (v :: v.versions).map (ExportItem.value n)).filter
      isKeyItem = [.key n] := by
    intro n hn
    have hv : (n.key.values.flatMap fun v => (v :: v.versions).map (ExportItem.value n)).filter
        isKeyItem = [] := by
      rw [List.filter_eq_nil_iff]
      intro x hx
      obtain ⟨v, _, hx⟩ := List.mem_flatMap.1 hx
      obtain ⟨v', _, rfl⟩ := List.mem_map.1 hx
      simp [isKeyItem]
    have hk : (n.versions.map ExportItem.key).filter isKeyItem = [] := by
      rw [List.filter_eq_nil_iff]
      intro x hx
      obtain ⟨m, hm, rfl⟩ := List.mem_map.1 hx
      have ht := h.tells n hn
      split at ht
      · rw [ht.versions] at hm; cases hm
      · obtain ⟨e, _, he⟩ := pairwise2_mem_right ht.versions m hm
        simp [isKeyItem, he.2.2.1]
    have hn' : isKeyItem (.key n) = true := by
      show decide (n.key.cellState ≠ .ModifiedTransactionLog) = true
      by_cases hs : n.key.cellState = .Allocated
      · rw [hs]; rfl
      · obtain ⟨q, _, key, _, _, h3⟩ := h.gone n hn hs
        rw [h3.2.2.2.1]; rfl
    rw [List.filter_append, hv, withVersions_mem (h.versions hn), List.map_cons, List.filter_cons, if_pos hn', hk]
    rfl
  unfold allItems
  clear h
  induction ns with
  | nil => rfl
  | cons n ns ih =>
    rw [List.flatMap_cons, List.filter_append, one n List.mem_cons_self,
      ih fun m hm => one m (List.mem_cons_of_mem _ hm)]
    rfl

/-- What the rows of the exported items tell. -/
theorem ListsHistory.rows {w : World} {a : FullState} {later : List FullState} {last : FullState}
    {ns : List Node} (h : ListsHistory w a later last ns) (u : Prints) (ro : Bool) :
    RowsTellPast FitsNanos ro a later last (itemRecords u.tsv 1 (exported ro ns)) := by
  have hrows := rows_tell u 1 (exported ro ns)
  have hmem : ∀ x ∈ exported ro ns, x ∈ allItems ns := by
    intro x hx
    unfold exported at hx
    split at hx
    · exact (List.mem_filter.1 hx).1
    · exact hx
  have hrec : ∀ x ∈ allItems ns, x.state ≠ .Allocated → x ∈ exported ro ns := by
    intro x hx hs
    unfold exported
    split
    · refine List.mem_filter.2 ⟨hx, ?_⟩
      cases x with
      | key n =>
        have hs : n.key.cellState ≠ .Allocated := hs
        unfold ExportItem.recovered
        cases hc : n.key.cellState <;> first | exact absurd hc hs | simp [hc, Spec.recoveredState]
      | value n v =>
        have hs : v.val.cellState ≠ .Allocated := hs
        unfold ExportItem.recovered
        cases hc : v.val.cellState <;> first | exact absurd hc hs | simp [hc, Spec.recoveredState]
    · exact hx
  have row : ∀ x ∈ allItems ns, x.state ≠ .Allocated → ∃ r ∈ itemRecords u.tsv 1 (exported ro ns),
      RowTells FitsNanos r x := fun x hx hs => pairwise2_mem_right hrows x (hrec x hx hs)
  have tale : ∀ x ∈ allItems ns, ∃ n ∈ ns, Tale a later last n x := by
    intro x hx
    unfold allItems at hx
    obtain ⟨n, hn, hx⟩ := List.mem_flatMap.1 hx
    exact ⟨n, hn, h.tale hn x hx⟩
  have inn : ∀ n ∈ ns, ∀ x ∈ withVersions n ++ n.key.values.flatMap (fun v => (v :: v.versions).map (.value n)),
      x ∈ allItems ns := fun n hn x hx => List.mem_flatMap.2 ⟨n, hn, hx⟩
  have was : ∀ e ∈ events (a :: later).reverse, ∀ k c, e.was k = some c →
      ∃ s ∈ a :: later, ∃ key ∈ s.plain.keys, key.2 = k.1 := by
    intro e he k c hc
    obtain ⟨s, rest, h1, h2⟩ := events_mem _ e he
    unfold Event.was at hc
    rw [h1] at hc
    have hc : s.item k = some c := hc
    exact ⟨s, List.mem_reverse.1 h2, item_path hc⟩
  have chg : ∀ e : Event, ∀ k, e.changes k = true → ∃ c, e.was k = some c := by
    intro e k hc
    unfold Event.changes at hc
    unfold Event.was
    cases hh : e.1.head? with
    | none => rw [hh] at hc; simp at hc
    | some s =>
      rw [hh] at hc
      show ∃ c, s.item k = some c
      cases hi : s.item k with
      | some c => exact ⟨c, rfl⟩
      | none =>
        have : s.facts k = none := facts_none hi
        simp [this] at hc
  constructor
  · intro i r hr
    have hlen : i < (exported ro ns).length := by
      have := (List.getElem?_eq_some_iff.1 hr).1
      rwa [itemRecords_length] at this
    rw [itemRecords_get u.tsv 1 _ i _ (List.getElem?_eq_getElem hlen)] at hr
    cases hr
    have hc := column_idx
    simp only [List.map_cons, List.map_nil, List.cons.injEq, and_true] at hc
    unfold column
    rw [hc.1, Nat.add_comm 1]
    rfl
  · intro r hr hs
    obtain ⟨x, hx, hrx⟩ := pairwise2_mem_left hrows r hr
    rw [row_status hrx, status_allocated] at hs
    have hlive : x ∈ (allItems ns).filter ExportItem.isLive :=
      List.mem_filter.2 ⟨hmem x hx, by simpa [ExportItem.isLive] using hs⟩
    obtain ⟨y, hy, hxy⟩ := pairwise2_mem_left h.present x hlive
    refine ⟨y, hy, ?_⟩
    cases x with
    | key n => cases y with
      | value => exact hxy.elim
      | key t path =>
        obtain ⟨rfl, hk⟩ := hxy
        exact says_key hrx hk
    | value n v => cases y with
      | key => exact hxy.elim
      | value t path x =>
        obtain ⟨rfl, y, hk, rfl⟩ := hxy
        exact says_value hrx hk
  · intro hro
    subst hro
    have he : exported false ns = allItems ns := rfl
    rw [he] at hrows ⊢
    refine pairwise2_trans ?_ (pairwise2_filter _ ExportItem.isLive ?_ hrows) h.present
    · intro r x y hrx hxy
      cases x with
      | key n => cases y with
        | value => exact hxy.elim
        | key t path =>
          obtain ⟨rfl, hk⟩ := hxy
          exact says_key hrx hk
      | value n v => cases y with
        | key => exact hxy.elim
        | value t path x =>
          obtain ⟨rfl, y, hk, rfl⟩ := hxy
          exact says_value hrx hk
    · intro r _ x _ hrx
      rw [row_status hrx]
      unfold ExportItem.isLive
      have := status_allocated x.state
      by_cases hs : x.state = .Allocated
      · rw [hs]; rfl
      · rw [decide_eq_false hs, beq_eq_false_iff_ne]
        exact fun e => hs (this.1 e)
  · intro r hr hs
    obtain ⟨x, hx, hrx⟩ := pairwise2_mem_left hrows r hr
    rw [row_status hrx, ne_eq, status_allocated] at hs
    obtain ⟨n, hn, ht⟩ := tale x (hmem x hx)
    cases ht with
    | stored t hu hk => exact absurd hk.state hs
    | lost q hq key hl hb ht => exact .inl ⟨q, hq, key, hl, hb, says_lost hrx ht⟩
    | oldKey e he hc m ht => exact .inr (.inl ⟨e, he, _, hc, says_oldKey hrx ht⟩)
    | value t hu y hy v ht => exact absurd ht.2.2.2.2.1 hs
    | oldValue e he name hc v ht => exact .inr (.inr (.inl ⟨e, he, _, name, hc, says_oldValue hrx ht⟩))
    | removed e name hc v ht => exact .inr (.inr (.inr ⟨e, _, name, hc, says_oldValue hrx ht⟩))
  · intro q hq key hl hb
    obtain ⟨n, hn, ht⟩ := h.lost q hq key hl hb
    obtain ⟨r, hr, hrx⟩ := row (.key n) (inn n hn _ (List.mem_append_left _ (by
      rw [withVersions_mem (h.versions hn)]; exact List.mem_cons_self))) (by
        show n.key.cellState ≠ _; rw [ht.2.2.2.1]; simp)
    exact ⟨r, hr, says_lost hrx ht⟩
  · intro e he path hp hc
    obtain ⟨c, hw⟩ := chg e _ hc
    obtain ⟨n, hn, rfl, ht⟩ := h.reached hp (was e he _ c hw)
    obtain ⟨m, hm, h1⟩ := pairwise2_mem_left ht.versions e (List.mem_filter.2 ⟨he, hc⟩)
    obtain ⟨r, hr, hrx⟩ := row (.key m) (inn n hn _ (List.mem_append_left _ (by
      rw [withVersions_mem (h.versions hn)]
      exact List.mem_map.2 ⟨m, List.mem_cons_of_mem _ hm, rfl⟩))) (by
        show m.key.cellState ≠ _; rw [h1.2.2.1]; simp)
    exact ⟨r, hr, says_oldKey hrx h1⟩
  · intro e he path name hne hi hc
    obtain ⟨c, hi⟩ := Option.ne_none_iff_exists'.1 hi
    have hpath : path ∈ last.plain.paths := by
      obtain ⟨key, h1, h2⟩ := item_path hi
      exact List.mem_map.2 ⟨key, h1, h2⟩
    have hlast : last ∈ a :: later := by rw [h.isLast]; exact List.getLast_mem _
    obtain ⟨n, hn, rfl, ht⟩ := h.reached ⟨hne, .inl hpath⟩ ⟨last, hlast, item_path hi⟩
    rcases item_kind (item_mem hi) with ⟨t, _, _, h1, _⟩ | ⟨t, _, hu, y, hy, h1, _⟩
    · cases h1
    have h1 : name = y.val.name := Option.some.inj h1
    obtain ⟨own, gone, ev, h2, _⟩ := ht.values
    rw [valuesOf_key h.sound hu] at h2
    obtain ⟨v, hv, h3, h4⟩ := pairwise2_mem_right h2 y hy
    have hname : v.val.name = name := by rw [h3.1, h1]
    rw [hname] at h4
    obtain ⟨v', hv', h5⟩ := pairwise2_mem_left h4 e (List.mem_filter.2 ⟨he, hc⟩)
    obtain ⟨r, hr, hrx⟩ := row (.value n v') (inn n hn _ (List.mem_append_right _ (List.mem_flatMap.2
      ⟨v, by rw [ev]; exact List.mem_append_left _ hv, List.mem_map.2 ⟨v', List.mem_cons_of_mem _ hv', rfl⟩⟩))) (by
        show v'.val.cellState ≠ _; rw [h5.2.1]; simp)
    exact ⟨r, hr, says_oldValue hrx h5⟩
  · intro e he path name hp hc haway
    obtain ⟨c, hw⟩ := Option.ne_none_iff_exists'.1 hc.1
    obtain ⟨n, hn, rfl, ht⟩ := h.reached hp (was e he _ c hw)
    obtain ⟨own, gone, ev, _, _, h2, _⟩ := ht.values
    obtain ⟨v, hv, h3⟩ := h2 e he name hc haway
    obtain ⟨r, hr, hrx⟩ := row (.value n v) (inn n hn _ (List.mem_append_right _ (List.mem_flatMap.2
      ⟨v, by rw [ev]; exact List.mem_append_right _ hv, by simp⟩))) (by
        show v.val.cellState ≠ _; rw [h3.2.1]; simp)
    exact ⟨r, hr, says_oldValue hrx h3⟩
  · rw [← pairwise2_map_eq (fun r => column r "Key Path") (fun x : ExportItem => some (itemPath x)) (fun r x hrx => by
      cases x with
      | key n => exact hrx.1.symm
      | value n v => exact hrx.1.symm) (pairwise2_filter keyRow isKeyItem
        (fun r _ x _ hrx => row_ofKey hrx) hrows)]
    have hsub : ((exported ro ns).filter isKeyItem).Sublist ((allItems ns).filter isKeyItem) := by
      refine List.Sublist.filter _ ?_
      unfold exported
      split
      · exact List.filter_sublist
      · exact List.Sublist.refl _
    refine List.Nodup.sublist (hsub.map _) ?_
    rw [h.ofKeys, List.map_map]
    have := h.once
    rw [List.Nodup, List.pairwise_map] at this ⊢
    exact this.imp fun hne e => hne (Option.some.inj e)

/-! ### The tables -/

/-- The table that is written has the rows of the exported items. -/
theorem table_rows (u : Prints) (hpr : ∀ c, u.printed c = true → XmlChar c) (o : DumpOptions)
    (hty : o.type = .Tsv ∨ o.type = .Xlsx) (logs : List (Str × Str)) (ns : List Node) (d : Dumped)
    (h : writeDump u o logs ns = .ok d) :
    HasRows o.type d (itemRecords u.tsv 1 (exported o.recoveredOnly ns)) := by
  unfold writeDump at h
  rcases hty with hty | hty
  · rw [hty] at h ⊢
    simp only at h
    cases h
    refine ⟨fileText ("\nLogs\n-----------".toList :: logRecords logs), ?_, ⟨_, rfl⟩⟩
    rw [itemRecords_length]
    exact tsv_read_back u.tsv (tsv_plain u) o.recoveredOnly (logRecords logs) ns
  · rw [hty] at h ⊢
    simp only at h
    cases hx : writeXlsx u.xlsx o.recoveredOnly logs ns with
    | err => rw [hx] at h; cases h
    | panic => rw [hx] at h; cases h
    | ok s =>
      rw [hx] at h
      simp only at h
      cases h
      have h1 := xlsx_rows u.xlsx (xlsx_plain u hpr) o.recoveredOnly logs ns
        (items := s.1) (l := s.2.1) (o := s.2.2) hx
      refine ⟨h1.1, fun i row hr c => ?_, fun i hi c => h1.2.2.1 i (by rwa [itemRecords_length] at hi) c⟩
      have hlen : i < (exported o.recoveredOnly ns).length := by
        have := (List.getElem?_eq_some_iff.1 hr).1
        rwa [itemRecords_length] at this
      have hg := List.getElem?_eq_getElem hlen
      rw [itemRecords_get u.tsv 1 _ i _ hg] at hr
      cases hr
      have h2 := h1.2.1 i _ hg c
      have e : (itemRow u.xlsx (i + 1) (exported o.recoveredOnly ns)[i])[c]?.getD [] =
          cleaned ((Nat.toDigits 10 (1 + i) :: (exported o.recoveredOnly ns)[i].fields u.tsv)[c]?.getD []) := by
        unfold itemRow
        have ht : u.xlsx.tsv = u.tsv := rfl
        rw [ht, Nat.add_comm 1]
        cases c with
        | zero =>
          simp only [List.getElem?_cons_zero, Option.getD_some]
          exact (cleaned_legal_eq (legal_decimal (i + 1))).symm
        | succ c =>
          simp only [List.getElem?_cons_succ, List.getElem?_map]
          cases ((exported o.recoveredOnly ns)[i].fields u.tsv)[c]? <;> rfl
      rw [← e]
      exact h2

/-- C78: `reg_dump` with recovery, for a dirty hive with whatever history: the table it writes has the rows of what is
stored after the logs were applied, and rows for what the logs have deleted and overwritten, each with what was
there before and the number of the entry that changed it.  A text is always written.

Partial: the conditions of C75 and C76 (no deleted items in the hive as given, what is lost does not come back, the
hash tells contents apart; nothing about the root key, about keys that are lost directly below it, and about the
contents a removed value had before); times as in C58; a spreadsheet only when it is finished (C53); the format
JSONL leaves out the former contents of keys (`jsonl_versions_violated`). -/
theorem dump_tells_past_partial (w : World) (u : Prints) (hpr : ∀ c, u.printed c = true → XmlChar c) (disk : Disk)
    (o : DumpOptions) (hf : o.filter = none) (hty : o.type = .Tsv ∨ o.type = .Xlsx) (folder : List Str) (name : Str)
    (primary : Bytes) (hin : disk (folder ++ [name]) = some primary)
    (bs : List Bytes) (hbs : openLogs disk (logsOf disk o name (folder ++ [name])) = some bs)
    (a : FullState) (later : List FullState) (hd : 1 < w.depth) (hord : ∀ m, (w.order m).Perm m)
    (hist : FullHistory w ⟨primary, bs, none, o.recover, o.full⟩ a later) :
    ∃ N, ∀ steps, N ≤ steps →
      (o.type = .Tsv → ∃ M d, dumpFile { w with steps } M u disk o (folder ++ [name]) = some (.ok d)) ∧
      ∀ M d, dumpFile { w with steps } M u disk o (folder ++ [name]) = some (.ok d) →
        ∃ rows, HasRows o.type d rows ∧
          RowsTellPast FitsNanos o.recoveredOnly a later ((a :: later).getLast (by simp)) rows := by
  obtain ⟨N, h⟩ := history_listed w _ a later hd hord hist
  refine ⟨N, fun steps hs => ?_⟩
  obtain ⟨p, h1, h2⟩ := h steps hs
  obtain ⟨M, ns, h3, h4⟩ := h2 false
  have e : ∀ M, dumpFile { w with steps } M u disk o (folder ++ [name]) =
      regDump { w with steps } M u disk o none (folder ++ [name])
        (getLogFiles disk.files o.skipLogs name (folder ++ [name])) := by
    intro M
    unfold dumpFile
    rw [hf]
    simp only [dumpFilter]
    unfold processFile
    rw [List.getLast?_concat]
  have hb : buildFromPath { w with steps } disk (folder ++ [name])
      ((getLogFiles disk.files o.skipLogs name (folder ++ [name])).getD []) o.recover o.full = some (.ok p) := by
    unfold buildFromPath; unfold logsOf at hbs; rw [hbs]; simp only; rw [hin]; exact h1
  refine ⟨fun ht => ?_, fun M' d hdump => ?_⟩
  · refine ⟨M, ?_⟩
    rw [e, regDump_of _ M u disk o none _ _ p ns hb h3]
    unfold writeDump
    rw [ht]
    exact ⟨_, rfl⟩
  · rw [e] at hdump
    unfold regDump at hdump
    rw [hb] at hdump
    simp only at hdump
    cases hi : p.iterate M' ((none : Option Filter).getD {}) with
    | none => rw [hi] at hdump; cases hdump
    | some r =>
      have := collect_unique (fuelMono_pre p.env) _ _ _ _ _ hi h3
      subst this
      rw [hi] at hdump
      exact ⟨_, table_rows u hpr o hty _ ns d (Option.some.inj hdump), h4.rows u o.recoveredOnly⟩

/-! ### A case -/

/-- The hive of Props/Overwritten and its log. -/
def pastDisk : Disk := fun path =>
  if path = [['A']] then some pastBuilder.primary
  else if path = ["A.LOG1".toList] then some (histLog pastEntries) else none

theorem past_logs : openLogs pastDisk (logsOf pastDisk { recover := true, type := .Tsv } ['A'] [['A']]) =
    some [histLog pastEntries] := by
  have h1 : logsOf pastDisk { recover := true, type := .Tsv } ['A'] [['A']] = [["A.LOG1".toList]] := by decide +kernel
  rw [h1]; rfl

/-- The hypotheses of `dump_tells_past_partial`; the table has a row with the value `a` of the key `a` as the last entry
found it when it removed it. -/
example : ∃ N, ∀ steps, N ≤ steps → ∃ M d, dumpFile { pastWorld with steps } M someTexts pastDisk
      { recover := true, type := .Tsv } [['A']] = some (.ok d) ∧ ∃ rows, HasRows .Tsv d rows ∧
        RowsTellPast FitsNanos false pastFirst pastLater (pastState 6 2 0 6) rows ∧
        ∃ row ∈ rows, SaysOldValue "\\RT\\a".toList ['a'] "DeletedTransactionLog"
          ([pastState 5 2 1 6, pastState 4 1 1 6, pastFirst], pastState 6 2 0 6) row := by
  obtain ⟨N, h⟩ := dump_tells_past_partial pastWorld someTexts someTexts_legal pastDisk
    { recover := true, type := .Tsv } rfl (.inl rfl) [] ['A'] pastBuilder.primary rfl _ past_logs pastFirst pastLater
    (by decide) (fun m => List.Perm.refl m) past_full
  refine ⟨N, fun steps hs => ?_⟩
  obtain ⟨M, d, hd⟩ := (h steps hs).1 rfl
  obtain ⟨rows, h1, h2⟩ := (h steps hs).2 M d hd
  refine ⟨M, d, hd, rows, h1, h2, h2.removed _ List.mem_cons_self _ _ ⟨by decide +kernel, .inl ?_⟩ ⟨?_, ?_⟩ ?_⟩
  · exact (by decide +kernel : "\\RT\\a".toList ∈ [(4128, "\\RT".toList), (4226, "\\RT\\a".toList)].map Prod.snd)
  · exact (fun e => absurd (congrArg Option.isSome e) (by decide +kernel))
  · exact Option.isNone_iff_eq_none.1 (by decide +kernel)
  · intro e he hlt
    simp only [pastFirst, pastLater, List.reverse_cons, List.reverse_nil, List.nil_append, List.cons_append, events,
      List.mem_cons, List.not_mem_nil, or_false] at he
    rcases he with rfl | rfl | rfl <;> exact absurd hlt (by decide)

end Notatin
