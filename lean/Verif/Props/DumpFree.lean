import Verif.Spec.DumpFree
import Verif.Props.Recovered
import Verif.Props.DumpPast
import Verif.Props.JsonPast
/-
C79: what `reg_dump -r` writes of a clean hive tells the keys and values in its free and unused space, from the bytes
of the hive to the output.
-/
namespace Notatin
open Spec

/-! ### The items of the listing -/

theorem pairwise2_blocks {α β γ : Type} {R : α → β → Prop} (f : γ → List β) : ∀ (ys : List γ) (rs : List α),
    Pairwise2 R rs (ys.flatMap f) → ∃ bs, rs = bs.flatten ∧ Pairwise2 (fun b y => Pairwise2 R b (f y)) bs ys
  | [], rs, h => by
    cases rs with
    | nil => exact ⟨[], rfl, trivial⟩
    | cons => exact h.elim
  | y :: ys, rs, h => by
    rw [List.flatMap_cons] at h
    obtain ⟨r1, r2, rfl, h1, h2⟩ := pairwise2_split_right h
    obtain ⟨bs, rfl, h3⟩ := pairwise2_blocks f ys r2 h2
    exact ⟨r1 :: bs, rfl, h1, h3⟩

theorem pairwise2_right_map {α β γ : Type} {R : α → β → Prop} {S : α → γ → Prop} (f : β → γ) :
    ∀ {as : List α} {bs : List β}, (∀ a, ∀ b ∈ bs, R a b → S a (f b)) → Pairwise2 R as bs → Pairwise2 S as (bs.map f)
  | [], [], _, _ => trivial
  | _ :: _, b :: _, hi, h => ⟨hi _ b List.mem_cons_self h.1,
      pairwise2_right_map f (fun a b hb => hi a b (List.mem_cons_of_mem _ hb)) h.2⟩
  | [], _ :: _, _, h => h.elim
  | _ :: _, [], _, h => h.elim

theorem pairwise2_of_map {α β γ : Type} {R : α → γ → Prop} (f : β → γ) :
    ∀ {as : List α} {bs : List β}, Pairwise2 R as (bs.map f) → Pairwise2 (fun a b => R a (f b)) as bs
  | [], [], _ => trivial
  | _ :: _, _ :: _, h => ⟨h.1, pairwise2_of_map f h.2⟩
  | [], _ :: _, h => h.elim
  | _ :: _, [], h => h.elim

/-- The items of a key without former contents, whose values have none either. -/
theorem items_plain (n : Node) (h1 : n.versions = []) (h2 : ∀ v ∈ n.key.values, v.versions = []) :
    withVersions n ++ n.key.values.flatMap (fun v : Value => (v :: v.versions).map (ExportItem.value n)) =
      .key n :: n.key.values.map (.value n) := by
  rw [withVersions_mem (by rw [h1]; intro m hm; cases hm), h1]
  have : ∀ vs : List Value, (∀ v ∈ vs, v.versions = []) →
      vs.flatMap (fun v : Value => (v :: v.versions).map (ExportItem.value n)) = vs.map (.value n) := by
    intro vs
    induction vs with
    | nil => intro _; rfl
    | cons v vs ih =>
      intro h
      rw [List.flatMap_cons, h v List.mem_cons_self, ih fun x hx => h x (List.mem_cons_of_mem _ hx)]
      rfl
  rw [this _ h2]
  rfl

/-- The stored part of the listing: the root with its own values, and the other keys. -/
structure FreeTold (t : Tree) (vals : Nat → List Val) (root : Node) (own : List Value) (rest : List Node) : Prop where
  path : root.key.path = '\\' :: t.name
  shown : KeyShown t root
  versions : root.versions = []
  values : own.map obsVal = vals t.off
  plain : ∀ v ∈ own, v.val.seq = none ∧ PlainValue v
  others : Pairwise2 (fun n (x : Tree × (Nat × Str)) => obs n = x.2 ∧ KeyTold x.1 (vals x.1.off) n) rest
    (t.nodes.zip (t.pre [])).tail

theorem Spec.ListsDeleted.told {buf bins limit t vals root keys rest values}
    (h : ListsDeleted buf bins limit t vals root keys rest values) (ho : t.offs.Nodup) :
    ∃ own, root.key.values = own ++ values ∧ FreeTold t vals root own rest := by
  have hpre : t.pre [] = (t.off, '\\' :: t.name) :: preAll ('\\' :: t.name) t.kids := by
    cases t; rw [Tree.pre]; rfl
  have hnodes : t.nodes = t :: nodesAll t.kids := by cases t; rw [Tree.nodes]; rfl
  have hlive := h.live
  rw [hpre, List.map_cons] at hlive
  have e1 : obs root = (t.off, '\\' :: t.name) := (List.cons.inj hlive).1
  have e2 : rest.map obs = preAll ('\\' :: t.name) t.kids := (List.cons.inj hlive).2
  have honce : (t.nodes.map Tree.off).Nodup := by rw [nodes_offs]; exact ho
  obtain ⟨hs, hv, own, r1, r2, r3⟩ := h.root
  obtain ⟨u, hu, hk⟩ := h.shown root List.mem_cons_self
  have hut : u = t := map_inj_of_nodup Tree.off _ honce u hu t (by rw [hnodes]; exact List.mem_cons_self)
    (by rw [← hk.off]; exact congrArg Prod.fst e1)
  subst hut
  have hrest : Told u vals (preAll ('\\' :: u.name) u.kids) rest := by
    refine ⟨e2, fun n hn => ?_⟩
    obtain ⟨x, hx, hk'⟩ := h.shown n (List.mem_cons_of_mem _ hn)
    obtain ⟨_, b2, own', b3, b4, b5⟩ := h.others n hn
    rw [List.append_nil] at b3
    exact ⟨x, hx, hk'.off, hk'.name, hk'.written, hk'.flags, hk'.access, hk'.subKeys, hk'.state, hk'.seq, b2,
      by rw [b3, b4, hk'.off], by rw [b3]; exact b5⟩
  obtain ⟨us, ⟨k1, k2⟩, hp⟩ := hrest.keys
  have hus : u :: us = u.nodes := keysOf_all u ho (u :: us) ⟨by
      intro x hx
      rcases List.mem_cons.1 hx with rfl | hx
      · exact hu
      · exact k1 x hx, by rw [hpre, List.map_cons, List.map_cons, k2]⟩
  refine ⟨own, r1, ⟨congrArg Prod.snd e1, hk, hv, by rw [r2, hk.off], r3, ?_⟩⟩
  rw [← hus, hpre]
  exact hp

/-- The item is the stored one. -/
def SameStored : ExportItem → StoredItem → Prop
  | .key n, .key u path => n.key.path = path ∧ KeyShown u n
  | .value n v, .value u path x => n.key.path = path ∧ n.key.name = u.name ∧ obsVal v = x ∧ PlainValue v
  | _, _ => False

theorem FreeTold.items {t vals root own rest} (h : FreeTold t vals root own rest) :
    Pairwise2 SameStored ((.key root :: own.map (.value root)) ++ allItems rest)
      (storedItems (t.pre []) t.nodes vals) := by
  have hpre : t.pre [] = (t.off, '\\' :: t.name) :: preAll ('\\' :: t.name) t.kids := by
    cases t; rw [Tree.pre]; rfl
  have hnodes : t.nodes = t :: nodesAll t.kids := by cases t; rw [Tree.nodes]; rfl
  have hr := told_items h.others
  unfold storedItems
  rw [hnodes, hpre] at hr ⊢
  rw [List.zip_cons_cons, List.flatMap_cons]
  refine pairwise2_append ⟨⟨h.path, h.shown⟩, ?_⟩ ?_
  · show Pairwise2 _ _ ((vals t.off).map _)
    rw [← h.values, List.map_map]
    have : ∀ vs : List Value, (∀ v ∈ vs, PlainValue v) → Pairwise2 SameStored (vs.map (.value root))
        (vs.map (StoredItem.value t ('\\' :: t.name) ∘ obsVal)) := by
      intro vs
      induction vs with
      | nil => intro _; trivial
      | cons v vs ih =>
        intro hv
        exact ⟨⟨h.path, h.shown.name, rfl, hv v List.mem_cons_self⟩, ih fun w hw => hv w (List.mem_cons_of_mem _ hw)⟩
    exact this own fun v hv => (h.plain v hv).2
  · have same : ∀ l : List StoredItem, Pairwise2 (· = ·) l l := by
      intro l
      induction l with
      | nil => trivial
      | cons x l ih => exact ⟨rfl, ih⟩
    refine pairwise2_trans (S := (· = ·)) ?_ hr (same _)
    · intro a b c hab hbc
      subst hbc
      cases a with
      | key n => cases b with
        | value => exact hab.elim
        | key u path =>
          obtain ⟨e, xs, k1, k2, k3, k4, k5, k6, k7, k8, _⟩ := hab
          exact ⟨e, k1, k2, k3, k4, k5, k6, k7, k8⟩
      | value n v => cases b with
        | key => exact hab.elim
        | value u path x => exact hab

/-- The items of an export, in the order of the listing. -/
theorem free_exported {buf bins limit t vals root keys rest values own} (ro : Bool)
    (h : ListsDeleted buf bins limit t vals root keys rest values) (ho : t.offs.Nodup)
    (hown : root.key.values = own ++ values) (hf : FreeTold t vals root own rest) :
    exported ro (root :: (keys ++ rest)) =
      (if ro then [] else .key root :: own.map (.value root)) ++ (values.map (.value root) ++
        (keys.flatMap (fun y => .key y :: if ro then [] else y.key.values.map (.value y)) ++
          if ro then [] else allItems rest)) := by
  have hvv : ∀ v ∈ root.key.values, v.versions = [] := by
    intro v hv
    rw [hown] at hv
    rcases List.mem_append.1 hv with hv | hv
    · exact (hf.plain v hv).2.2.1
    · exact (h.fromValues v hv).versions
  have eroot : ∀ l : List Node, allItems (root :: l) =
      (.key root :: own.map (.value root)) ++ (values.map (.value root) ++ allItems l) := by
    intro l
    unfold allItems
    rw [List.flatMap_cons, items_plain root hf.versions hvv, hown, List.map_append]
    simp only [List.cons_append, List.append_assoc]
  have ekeys : ∀ ys : List Node, (∀ y ∈ ys, y ∈ keys) →
      allItems (ys ++ rest) = ys.flatMap (fun y => ExportItem.key y :: y.key.values.map (.value y)) ++ allItems rest := by
    intro ys
    induction ys with
    | nil => intro _; rfl
    | cons y ys ih =>
      intro hy
      have hfy := h.fromKeys y (hy y List.mem_cons_self)
      have := ih fun z hz => hy z (List.mem_cons_of_mem _ hz)
      unfold allItems at this ⊢
      rw [List.cons_append, List.flatMap_cons, this,
        items_plain y hfy.versions fun v hv => (hfy.contents v hv).2.1, List.flatMap_cons, List.append_assoc]
  have eall := eroot (keys ++ rest)
  rw [ekeys keys fun _ hy => hy] at eall
  unfold exported
  cases ro with
  | false => simp only [Bool.false_eq_true, if_false]; exact eall
  | true =>
    simp only [if_true]
    rw [eall, List.filter_append, List.filter_append, List.filter_append]
    have live : ∀ x : ExportItem, (∃ y, SameStored x y) →
        (∀ n, x = .key n → n.versions = []) → x.recovered = false := by
      intro x hx hn
      obtain ⟨y, hy⟩ := hx
      cases x with
      | key n => cases y with
        | value => exact hy.elim
        | key u path =>
          simp only [ExportItem.recovered]
          rw [hy.2.state, hn n rfl]; rfl
      | value n v => cases y with
        | key => exact hy.elim
        | value u path x =>
          simp only [ExportItem.recovered]
          rw [hy.2.2.2.2.2.2.2, hy.2.2.2.2.1]; rfl
    have hitems := hf.items
    have hver : ∀ x ∈ (ExportItem.key root :: own.map (.value root)) ++ allItems rest, ∀ n, x = .key n →
        n.versions = [] := by
      intro x hx n hn
      subst hn
      rcases List.mem_append.1 hx with hx | hx
      · rcases List.mem_cons.1 hx with e | hx
        · cases e; exact hf.versions
        · obtain ⟨v, _, e⟩ := List.mem_map.1 hx; cases e
      · unfold allItems at hx
        obtain ⟨m, hm, hx⟩ := List.mem_flatMap.1 hx
        obtain ⟨y, _, hy⟩ := pairwise2_mem_left hf.others m hm
        have hmv : m.versions = [] := hy.2.2.2.2.2.2.2.2.2.1
        rw [items_plain m hmv fun v hv => (hy.2.2.2.2.2.2.2.2.2.2.2 v hv).2.2.1] at hx
        rcases List.mem_cons.1 hx with e | hx
        · cases e; exact hmv
        · obtain ⟨v, _, e⟩ := List.mem_map.1 hx; cases e
    have none : ∀ x ∈ (ExportItem.key root :: own.map (.value root)) ++ allItems rest, x.recovered = false := by
      intro x hx
      obtain ⟨y, _, hy⟩ := pairwise2_mem_left hitems x hx
      exact live x ⟨y, hy⟩ (hver x hx)
    have n1 : (ExportItem.key root :: own.map (.value root)).filter ExportItem.recovered = [] :=
      List.filter_eq_nil_iff.2 fun x hx => by rw [none x (List.mem_append_left _ hx)]; decide
    have n2 : (allItems rest).filter ExportItem.recovered = [] :=
      List.filter_eq_nil_iff.2 fun x hx => by rw [none x (List.mem_append_right _ hx)]; decide
    have n3 : (values.map (ExportItem.value root)).filter ExportItem.recovered = values.map (.value root) := by
      refine List.filter_eq_self.2 fun x hx => ?_
      obtain ⟨v, hv, rfl⟩ := List.mem_map.1 hx
      simp only [ExportItem.recovered]
      rcases (h.fromValues v hv).why with ⟨e, _⟩ | e <;> rw [e] <;> rfl
    have n4 : ∀ ys : List Node, (∀ y ∈ ys, y ∈ keys) →
        (ys.flatMap fun y => ExportItem.key y :: y.key.values.map (.value y)).filter ExportItem.recovered =
          ys.flatMap fun y => [ExportItem.key y] := by
      intro ys
      induction ys with
      | nil => intro _; rfl
      | cons y ys ih =>
        intro hy
        have hfy := h.fromKeys y (hy y List.mem_cons_self)
        rw [List.flatMap_cons, List.filter_append, ih fun z hz => hy z (List.mem_cons_of_mem _ hz), List.flatMap_cons]
        have e1 : (ExportItem.key y).recovered = true := by
          simp only [ExportItem.recovered]
          rcases hfy.why with ⟨e, _⟩ | e <;> rw [e] <;> rfl
        have e2 : (y.key.values.map (ExportItem.value y)).filter ExportItem.recovered = [] := by
          refine List.filter_eq_nil_iff.2 fun x hx => ?_
          obtain ⟨v, hv, rfl⟩ := List.mem_map.1 hx
          simp only [ExportItem.recovered]
          rw [(hfy.contents v hv).2.1, (hfy.contents v hv).2.2]
          decide
        rw [List.filter_cons_of_pos e1, e2]
    rw [n1, n2, n3, n4 keys fun _ hy => hy]

/-! ### The records -/

theorem Spec.ListsDeleted.offsets {buf bins limit t vals root keys rest values}
    (h : ListsDeleted buf bins limit t vals root keys rest values) :
    FreeOffsets buf bins limit (values.map fun x => x.val.fileOffset) (keys.map fun y => y.key.fileOffset) := by
  refine ⟨?_, ⟨?_, ?_⟩, h.once, ?_⟩
  · intro o ho
    rcases List.mem_append.1 ho with ho | ho
    · obtain ⟨x, hx, rfl⟩ := List.mem_map.1 ho
      exact (h.fromValues x hx).inBins
    · obtain ⟨y, hy, rfl⟩ := List.mem_map.1 ho
      exact (h.fromKeys y hy).inBins
  · intro o ho
    obtain ⟨x, hx, rfl⟩ := List.mem_map.1 ho
    exact (h.fromValues x hx).readable
  · intro o ho
    obtain ⟨y, hy, rfl⟩ := List.mem_map.1 ho
    exact (h.fromKeys y hy).readable
  · intro bin hb hlt c hc hs
    obtain ⟨h1, h2⟩ := h.complete bin hb hlt c hc hs
    refine ⟨fun hk => ?_, fun hv => ?_⟩
    · obtain ⟨y, hy, e⟩ := h1 hk
      exact List.mem_map.2 ⟨y, hy, e⟩
    · obtain ⟨x, hx, e⟩ := h2 hv
      exact List.mem_map.2 ⟨x, hx, e⟩

/-- Records that tell the items tell what is in free space. -/
theorem records_tell_free {α : Type} (Tell : α → ExportItem → Prop) {stored : α → StoredItem → Prop}
    {value key : α → Nat → Prop} {ofKey : List α → Nat → Prop} (ro : Bool)
    {buf bins limit t vals root keys rest values} (h : ListsDeleted buf bins limit t vals root keys rest values)
    (ho : t.offs.Nodup) (records : List α) (hr : Pairwise2 Tell records (exported ro (root :: (keys ++ rest))))
    (h1 : ∀ r x y, Tell r x → SameStored x y → stored r y)
    (h2 : ∀ r n x, n.key.path = '\\' :: t.name → FromFreeValue buf x → Tell r (.value n x) → value r x.val.fileOffset)
    (h3 : ∀ r y, FromFreeKey buf y → Tell r (.key y) → key r y.key.fileOffset)
    (h4 : ∀ rs y, FromFreeKey buf y → Pairwise2 (fun r v => Tell r (.value y v)) rs y.key.values →
      ofKey rs y.key.fileOffset) :
    RecordsTellFree stored value key ofKey ro buf bins limit t vals records := by
  obtain ⟨own, hown, hf⟩ := h.told ho
  rw [free_exported ro h ho hown hf] at hr
  obtain ⟨r1, r', rfl, p1, hr⟩ := pairwise2_split_right hr
  obtain ⟨r2, r', rfl, p2, hr⟩ := pairwise2_split_right hr
  obtain ⟨r3, r4, rfl, p3, p4⟩ := pairwise2_split_right hr
  obtain ⟨bs, rfl, p5⟩ := pairwise2_blocks _ _ _ p3
  refine ⟨_, _, r1, r2, bs, r4, h.offsets, rfl, ?_, ?_, ?_⟩
  · cases ro with
    | true =>
      simp only [if_true] at p1 p4 ⊢
      cases r1 with
      | nil => cases r4 with
        | nil => exact ⟨rfl, rfl⟩
        | cons => exact p4.elim
      | cons => exact p1.elim
    | false =>
      simp only [Bool.false_eq_true, if_false] at p1 p4 ⊢
      refine ⟨?_, ?_⟩
      · rw [pairwise2_len p1, ← hf.values, List.length_cons, List.length_map, List.length_map, Nat.add_comm]
      · refine pairwise2_trans ?_ (pairwise2_append p1 p4) hf.items
        exact fun a b c hab hbc => h1 a b c hab hbc
  · refine pairwise2_right_map _ ?_ (pairwise2_of_map _ p2)
    exact fun a b hb hab => h2 a root b hf.path (h.fromValues b hb) hab
  · refine pairwise2_right_map _ ?_ p5
    intro b y hy hb
    cases b with
    | nil => exact hb.elim
    | cons r vs =>
      refine ⟨r, vs, rfl, h3 r y (h.fromKeys y hy) hb.1, fun hro => ?_⟩
      have hb2 := hb.2
      rw [hro] at hb2
      simp only [Bool.false_eq_true, if_false] at hb2
      exact h4 vs y (h.fromKeys y hy) (pairwise2_of_map _ hb2)

/-! ### Tables -/

theorem rowTells_stored (times : TimeRange) (row : List Str) (x : ExportItem) (y : StoredItem)
    (h : RowTells times row x) (hs : SameStored x y) : RowSays times row y := by
  cases x with
  | key n => cases y with
    | value => exact hs.elim
    | key u path => rw [← hs.1]; exact says_key h hs.2
  | value n v => cases y with
    | key => exact hs.elim
    | value u path x => exact rowTells_says times row (.value n v) (.value u path x) h hs

theorem rowTells_obs {times : TimeRange} {row : List Str} {n : Node} {v : Value}
    (h : RowTells times row (.value n v)) (hc : HasContent v) :
    RowOfValue row n.key.path (obsVal v) (stateName v.val.cellState) := by
  obtain ⟨a, b, ⟨type, data, c, w, c1, c2, c3, c4⟩, d, _⟩ := h
  exact ⟨a, b, ⟨type, data, c, c1, c2, c4, content_of v hc.1 hc.2 c w c3⟩, d⟩

theorem freeAs_of {buf : Bytes} {off : Nat} {s : CellState} (h : DeletedAs buf off s) :
    FreeAs buf off (stateName s).toList := by
  rcases h with ⟨rfl, h⟩ | rfl
  · exact .inl ⟨rfl, h⟩
  · exact .inr rfl

theorem obsVals_pairwise {α : Type} {R : α → Value → Prop} {S : α → Val → Prop} {rs : List α} {vs : List Value}
    {xs : List Val} (h : Pairwise2 R rs vs) (e : vs.map obsVal = xs) (hi : ∀ r, ∀ v ∈ vs, R r v → S r (obsVal v)) :
    Pairwise2 S rs xs := by
  subst e
  exact pairwise2_right_map _ hi h

/-- The rows of the exported items. -/
theorem rows_tell_free (u : Prints) (ro : Bool) {buf bins limit t vals root keys rest values}
    (h : ListsDeleted buf bins limit t vals root keys rest values) (ho : t.offs.Nodup) :
    RowsTellFree FitsNanos ro buf bins limit t vals
      (itemRecords u.tsv 1 (exported ro (root :: (keys ++ rest)))) := by
  refine ⟨?_, records_tell_free (RowTells FitsNanos) ro h ho _ (rows_tell u 1 _) (rowTells_stored _) ?_ ?_ ?_⟩
  · intro i row hr
    have hlen : i < (exported ro (root :: (keys ++ rest))).length := by
      have := (List.getElem?_eq_some_iff.1 hr).1
      rwa [itemRecords_length] at this
    rw [itemRecords_get u.tsv 1 _ i _ (List.getElem?_eq_getElem hlen)] at hr
    cases hr
    have hc := column_idx
    simp only [List.map_cons, List.map_nil, List.cons.injEq, and_true] at hc
    unfold column
    rw [hc.1, Nat.add_comm 1]
    rfl
  · intro r n x hn hx hr
    refine ⟨by rw [row_status hr]; exact freeAs_of hx.why, fun v hv => ⟨stateName x.val.cellState, ?_⟩⟩
    rw [← hx.tells v hv, ← hn]
    exact rowTells_obs hr hx.content
  · intro r y hy hr
    refine ⟨by rw [row_status hr]; exact freeAs_of hy.why, fun c name hc => ⟨stateName y.key.cellState, ?_⟩⟩
    have ht := hy.tells c name hc
    obtain ⟨a, _, b, d, e, f, g, g', g'', _⟩ := hr
    rw [ht.path] at a
    rw [ht.written] at b
    rw [ht.flags] at e
    rw [ht.access] at f
    exact ⟨a, b, d, e, f, g, g', g''⟩
  · intro rs y hy hr c name vs hc hv
    have ht := hy.tells c name hc
    refine obsVals_pairwise hr (ht.values vs hv) fun r v hv hrv => ⟨stateName v.val.cellState, ?_⟩
    rw [← ht.path]
    exact rowTells_obs hrv (hy.contents v hv).1

/-! ### The common format -/

theorem common_obs {known : Nat → Bool} {r : List Str} {time : KeyNode → Str} {parent : Node → Str} {n : Node}
    {v : Value} (h : ShowsCommon time parent known r (.value n v)) (hk : known = documentedType) (hc : HasContent v) :
    CommonOfValue (flagOf v.val.cellState) (Nat.toDigits 10 v.val.fileOffset)
      (if unusedState v.val.cellState then [] else parent n) r (obsVal v) := by
  subst hk
  obtain ⟨type, hex, e1, e2, e3⟩ := h
  exact ⟨type, hex, e1, fun hd => e2 hd hc.2, e3⟩

theorem common_tells_free {buf bins limit t vals root keys rest values}
    (h : ListsDeleted buf bins limit t vals root keys rest values) (ho : t.offs.Nodup) (records : List Str)
    (hw : writeCommon keyTime (root :: (keys ++ rest)) = .ok records) :
    ∃ recs, HasRecords (fileText records) recs ∧
      RecordsTellFree (CommonSaysItem FitsNanos) (CommonOfFreeValue buf) (CommonOfFreeKey FitsNanos buf)
        (CommonsOfFreeKey buf) false buf bins limit t vals recs := by
  obtain ⟨⟨recs, rest', h1, h2, h3⟩, h4⟩ := common_times_told_partial _ records hw
  rw [commonItems_plain _ (by
    intro n hn
    rcases List.mem_cons.1 hn with rfl | hn
    · exact h.root.2.1
    · rcases List.mem_append.1 hn with hn | hn
      · exact (h.fromKeys n hn).versions
      · exact (h.others n hn).2.1)] at h1 h2
  refine ⟨recs, ⟨rest', by rw [pairwise2_len h2]; exact h1, h3⟩, ?_⟩
  refine records_tell_free _ false h ho recs (show Pairwise2 _ recs (exported false _) from h2) ?_ ?_ ?_ ?_
  · intro r x y hx hy
    cases x with
    | key n => cases y with
      | value => exact hy.elim
      | key u path =>
        obtain ⟨rfl, hk⟩ := hy
        rw [ShowsCommon, hk.state, hk.off] at hx
        refine ⟨keyTime n.key, hx, ?_⟩
        rw [← hk.written]
        exact h4 n.key
    | value n v => cases y with
      | key => exact hy.elim
      | value u path x =>
        obtain ⟨rfl, hname, rfl, hv⟩ := hy
        rw [ShowsCommon] at hx
        obtain ⟨type, hex, e1, e2, e3⟩ := hx
        rw [hv.2.2.2.2, hname] at e1
        exact ⟨_, type, hex, e1, fun hd => e2 hd hv.2.2.2.1, e3⟩
  · intro r n x _ hx hr
    have hu : unusedState x.val.cellState = true ∧ flagOf x.val.cellState = 'U' := by
      rcases hx.why with ⟨e, _⟩ | e <;> rw [e] <;> exact ⟨rfl, rfl⟩
    have := common_obs hr rfl hx.content
    rw [hu.1, hu.2, if_pos rfl] at this
    refine ⟨?_, fun v hv => ?_⟩
    · obtain ⟨type, hex, e, _⟩ := this
      rw [e]; rfl
    · rw [← hx.tells v hv]; exact this
  · intro r y hy hr
    have hu : unusedState y.key.cellState = true ∧ flagOf y.key.cellState = 'U' := by
      rcases hy.why with ⟨e, _⟩ | e <;> rw [e] <;> exact ⟨rfl, rfl⟩
    rw [ShowsCommon, hu.1, hu.2, if_pos rfl] at hr
    refine ⟨_, _, hr, fun c name hc => ?_⟩
    have ht := hy.tells c name hc
    exact ⟨ht.named, by rw [← ht.written]; exact h4 y.key⟩
  · intro rs y hy hr c name vs hc hv
    have ht := hy.tells c name hc
    refine obsVals_pairwise hr (ht.values vs hv) fun r v hv hrv => ?_
    have := common_obs hrv rfl (hy.contents v hv).1
    rw [(hy.contents v hv).2.2] at this
    rw [← ht.named]
    exact ⟨_, _, this⟩

/-! ### JSONL -/

theorem shows_obs {full : Bool} {j : Json} {v : Value} (h : ShowsValue full j v) (hc : HasContent v)
    (hv : v.versions = []) : JsonOfValue full (stateName v.val.cellState).toList j (obsVal v) ∧
      IsNumber (j.field "file_offset_absolute") v.val.fileOffset := by
  have hcont := content_of v hc.1 hc.2
  cases v with
  | mk k vs =>
    have hv : vs = [] := hv
    subst hv
    rw [ShowsValue] at h
    obtain ⟨a, b, _, _, _, f, _, _, _, _, k1, ⟨c, w, hc, hj, _⟩, js, hver, hjs⟩ := h
    refine ⟨⟨f, b _ (List.mem_of_getElem? (i := 4) rfl), k1, ?_, c, hcont c w hc, hj⟩, a⟩
    rw [ShowsValues] at hjs
    rw [hver, hjs]

theorem lines_tell_free {full : Bool} {buf bins limit t vals root keys rest values}
    (h : ListsDeleted buf bins limit t vals root keys rest values) (ho : t.offs.Nodup) (js : List Json)
    (hj : Pairwise2 (ShowsKey full) js (root :: (keys ++ rest))) : LinesTellFree full buf bins limit t vals js := by
  obtain ⟨own, hown, hf⟩ := h.told ho
  cases js with
  | nil => exact hj.elim
  | cons j js =>
    obtain ⟨jk, jr, rfl, p1, p2⟩ := pairwise2_split_right hj.2
    refine ⟨_, _, j, jk, jr, h.offsets, rfl, ?_, ?_, ?_, ?_⟩
    · obtain ⟨a, b, _, d, e, f, _⟩ := hj.1
      have k := hf.shown
      have b3 := b _ (List.mem_of_getElem? (i := 2) rfl)
      have b2 := b _ (List.mem_of_getElem? (i := 1) rfl)
      have b4 := b _ (List.mem_of_getElem? (i := 3) rfl)
      rw [k.written] at b3
      rw [k.flags] at b2
      rw [k.access] at b4
      rw [k.off] at a
      rw [k.name] at d
      rw [hf.path] at e
      rw [k.state] at f
      exact ⟨a, d, e, f, b3, b2, b4⟩
    · obtain ⟨_, _, _, _, _, _, _, _, _, xs, i1, i2⟩ := hj.1
      rw [hown] at i2
      obtain ⟨x1, x2, rfl, q1, q2⟩ := pairwise2_split_right (showsValues_pairwise i2)
      refine ⟨x1, x2, i1, ?_, ?_⟩
      · exact obsVals_pairwise q1 hf.values fun r v hv hr => showsValue_says full r v hr (hf.plain v hv).1 (hf.plain v hv).2
      · refine pairwise2_right_map _ ?_ q2
        intro r x hx hr
        have hfx := h.fromValues x hx
        obtain ⟨s1, s2⟩ := shows_obs hr hfx.content hfx.versions
        refine ⟨s2, _, freeAs_of hfx.why, s1.2.2.1, fun v hv => ?_⟩
        rw [← hfx.tells v hv]; exact s1
    · refine pairwise2_right_map _ ?_ p1
      intro r y hy hr
      have hfy := h.fromKeys y hy
      obtain ⟨a, b, _, d, e, f, _, _, _, xs, i1, i2⟩ := hr
      refine ⟨a, ⟨_, freeAs_of hfy.why, f⟩, fun c name hc => ?_⟩
      have ht := hfy.tells c name hc
      have b3 := b _ (List.mem_of_getElem? (i := 2) rfl)
      have b2 := b _ (List.mem_of_getElem? (i := 1) rfl)
      have b4 := b _ (List.mem_of_getElem? (i := 3) rfl)
      rw [ht.written] at b3
      rw [ht.flags] at b2
      rw [ht.access] at b4
      rw [ht.named] at d
      rw [ht.path] at e
      refine ⟨⟨_, a, d, e, f, b3, b2, b4⟩, fun vs hv => ⟨xs, i1, ?_⟩⟩
      refine obsVals_pairwise (showsValues_pairwise i2) (ht.values vs hv) fun r v hv hr =>
        ⟨(stateName v.val.cellState).toList, ?_⟩
      exact (shows_obs hr (hfy.contents v hv).1 (hfy.contents v hv).2.1).1
    · refine pairwise2_trans ?_ p2 hf.others
      intro r n x hr hn
      have := showsKey_says full r n x.1 _ hr hn.2
      have hpath : n.key.path = x.2.2 := by rw [← hn.1]; rfl
      rw [hpath] at this
      exact this

/-! ### From the file to the output -/

/-- `reg_dump` writes what it has listed. -/
theorem dump_written (w : World) (u : Prints) (disk : Disk) (o : DumpOptions) (hf : o.filter = none)
    (folder : List Str) (name : Str) (primary : Bytes) (hin : disk (folder ++ [name]) = some primary)
    (bs : List Bytes) (hbs : openLogs disk (logsOf disk o name (folder ++ [name])) = some bs) (p : HiveParser)
    (hb : (Builder.mk primary bs none o.recover o.full).build w = some (.ok p)) (M : Nat) (ns : List Node)
    (hi : p.iterate M {} = some (.ok ns)) :
    dumpFile w M u disk o (folder ++ [name]) = some (writeDump u o (p.parseLogs u) ns) ∧
    ∀ M' r, dumpFile w M' u disk o (folder ++ [name]) = some r → r = writeDump u o (p.parseLogs u) ns := by
  have e : ∀ M, dumpFile w M u disk o (folder ++ [name]) =
      regDump w M u disk o none (folder ++ [name])
        (getLogFiles disk.files o.skipLogs name (folder ++ [name])) := by
    intro M
    unfold dumpFile
    rw [hf]
    simp only [dumpFilter]
    unfold processFile
    rw [List.getLast?_concat]
  have hb' : buildFromPath w disk (folder ++ [name])
      ((getLogFiles disk.files o.skipLogs name (folder ++ [name])).getD []) o.recover o.full = some (.ok p) := by
    unfold buildFromPath; unfold logsOf at hbs; rw [hbs]; simp only; rw [hin]; exact hb
  refine ⟨by rw [e, regDump_of _ M u disk o none _ _ p ns hb' hi], fun M' r hdump => ?_⟩
  rw [e] at hdump
  unfold regDump at hdump
  rw [hb'] at hdump
  simp only at hdump
  cases hi' : p.iterate M' ((none : Option Filter).getD {}) with
  | none => rw [hi'] at hdump; cases hdump
  | some r =>
    have := collect_unique (fuelMono_pre p.env) _ _ _ _ _ hi' hi
    subst this
    rw [hi'] at hdump
    exact (Option.some.inj hdump).symm

/-- What is written tells the cells in free and unused space, in whatever format. -/
def Spec.DumpTellsFree (o : DumpOptions) (buf : Bytes) (bins : List (Nat × List Nat)) (limit : Nat) (t : Tree)
    (vals : Nat → List Val) (d : Dumped) : Prop :=
  match o.type, d with
  | .Jsonl, .text s => ∃ js, (lines s).map readJson = js.map some ∧ LinesTellFree o.full buf bins limit t vals js
  | .Common, .text s => ∃ recs, HasRecords s recs ∧
      RecordsTellFree (CommonSaysItem FitsNanos) (CommonOfFreeValue buf) (CommonOfFreeKey FitsNanos buf)
        (CommonsOfFreeKey buf) false buf bins limit t vals recs
  | type, d => ∃ rows, HasRows type d rows ∧ RowsTellFree FitsNanos o.recoveredOnly buf bins limit t vals rows

/-- C79: `reg_dump` with recovery, for a clean hive: what it writes tells every key and value stored in the hive as
without recovery, and the key cells and value cells found in free and unused space, each marked as what it is, none
twice, and all of those in free cells (of the bins that start more than 4096 bytes before the end of the bins).  With
`--recovered-only` the table has nothing else.  The formats TSV and JSONL are always written.

Partial: nothing is said about how the values of deleted keys are marked, and whether they are written with
`--recovered-only` (see `deleted_values_marked_violated`, `deleted_values_written_violated`), and about the bins in the last 4096 bytes (see
`deleted_listed_violated`); times as in C58; spreadsheets and the common format only when they are finished (C53,
C57). -/
theorem dump_free_partial (w : World) (u : Prints) (hpr : ∀ c, u.printed c = true → XmlChar c) (disk : Disk)
    (o : DumpOptions) (hf : o.filter = none) (hrec : o.recover = true) (hty : o.type ≠ .Diff ∧ o.type ≠ .Report)
    (folder : List Str) (name : Str)
    (primary : Bytes) (hin : disk (folder ++ [name]) = some primary)
    (bs : List Bytes) (hbs : openLogs disk (logsOf disk o name (folder ++ [name])) = some bs)
    (bb : BaseBlock) (bins : List (Nat × List Nat)) (t : Tree) (vals : Nat → List Val)
    (hc : CleanHive ⟨primary, bs, none, o.recover, o.full⟩ bb) (hst : StoredHive w primary t vals)
    (hroot : RootMarked t) (hb : Bins primary 4096 (4096 + bb.base.hiveBinsDataSize) bins)
    (he : 4096 + bb.base.hiveBinsDataSize ≤ primary.length) (hd : primary.length < 24 * w.depth) :
    ∀ steps, primary.length < steps →
      (o.type = .Tsv ∨ o.type = .Jsonl →
        ∃ M d, dumpFile { w with steps } M u disk o (folder ++ [name]) = some (.ok d)) ∧
      ∀ M d, dumpFile { w with steps } M u disk o (folder ++ [name]) = some (.ok d) →
        DumpTellsFree o primary bins bb.base.hiveBinsDataSize t vals d := by
  intro steps hs
  obtain ⟨p, h1, h2⟩ := deleted_listed_partial w ⟨primary, bs, none, o.recover, o.full⟩ bb bins t vals hrec hc hst hroot
    hb he hd steps hs
  obtain ⟨M, root, keys, rest, values, h3, h4⟩ := h2 false
  obtain ⟨k1, k2⟩ := dump_written { w with steps } u disk o hf folder name primary hin bs hbs p h1 M _ h3
  have table : o.type = .Tsv ∨ o.type = .Xlsx → ∀ M d, dumpFile { w with steps } M u disk o (folder ++ [name]) =
      some (.ok d) → ∃ rows, HasRows o.type d rows ∧
        RowsTellFree FitsNanos o.recoveredOnly primary bins bb.base.hiveBinsDataSize t vals rows := by
    intro ht M d hdump
    exact ⟨_, table_rows u hpr o ht _ _ d (k2 M _ hdump).symm, rows_tell_free u o.recoveredOnly h4 hst.once⟩
  unfold DumpTellsFree
  cases hto : o.type with
  | Diff => exact absurd hto hty.1
  | Report => exact absurd hto hty.2
  | Tsv =>
    rw [hto] at table
    refine ⟨fun _ => ⟨M, _, by rw [k1]; unfold writeDump; rw [hto]⟩, fun M d h => table (.inl rfl) M d h⟩
  | Xlsx =>
    rw [hto] at table
    exact ⟨fun h => (by rcases h with h | h <;> cases h), fun M d h => table (.inr rfl) M d h⟩
  | Jsonl =>
    obtain ⟨records, js, j1, j2, j3⟩ := jsonl_read_back_partial u.json o.full (root :: (keys ++ rest))
    have hw : writeDump u o (p.parseLogs u) (root :: (keys ++ rest)) = .ok (.text (fileText records)) := by
      unfold writeDump; rw [hto]; simp only; rw [j1]
    rw [hw] at k1 k2
    refine ⟨fun _ => ⟨M, _, k1⟩, fun M d h => ?_⟩
    cases k2 M _ h
    exact ⟨js, j2, lines_tell_free h4 hst.once js j3⟩
  | Common =>
    refine ⟨fun h => (by rcases h with h | h <;> cases h), fun M d h => ?_⟩
    have := (k2 M _ h).symm
    unfold writeDump at this
    rw [hto] at this
    simp only at this
    cases hw : writeCommon keyTime (root :: (keys ++ rest)) with
    | err => rw [hw] at this; cases this
    | panic => rw [hw] at this; cases this
    | ok rs =>
      rw [hw] at this
      cases this
      exact common_tells_free h4 hst.once rs hw

/-! ### Values of deleted keys -/

/-- The full claim of C79 about the tables: rows that are not marked as recovered are about what is stored. -/
def FreeValuesMarked : Prop :=
  ∀ (w : World) (u : Prints) (disk : Disk) (o : DumpOptions) (folder : List Str) (name : Str) (primary : Bytes)
    (bs : List Bytes) (bb : BaseBlock) (bins : List (Nat × List Nat)) (t : Tree) (vals : Nat → List Val),
    (∀ c, u.printed c = true → XmlChar c) → o.filter = none → o.recover = true → o.type = .Tsv →
    disk (folder ++ [name]) = some primary → openLogs disk (logsOf disk o name (folder ++ [name])) = some bs →
    CleanHive ⟨primary, bs, none, o.recover, o.full⟩ bb → StoredHive w primary t vals → RootMarked t →
    Bins primary 4096 (4096 + bb.base.hiveBinsDataSize) bins → 4096 + bb.base.hiveBinsDataSize ≤ primary.length →
    primary.length < 24 * w.depth → ∀ steps, primary.length < steps →
      ∀ M d rows, dumpFile { w with steps } M u disk o (folder ++ [name]) = some (.ok d) → HasRows o.type d rows →
        ∀ row ∈ rows, status row = "Allocated".toList →
          ∃ x ∈ storedItems (t.pre []) t.nodes vals, RowSays FitsNanos row x

/-- A free key cell `k` with one value. -/
def freedKey : NkCell :=
  { exampleCell 0x20 0 0 [0x6B] with size := 81, nValues := 1, valuesList := 494 }

/-- A second bin with the free key, its value list and its value. -/
def freedTail : Bytes :=
  hbinBytes 381 7811 0 0 0 0 ++ (freedKey.encode ++ (encI32 8 ++ (encLE 4 502 ++ (freeValue.encode ++
    (encI32 7665 ++ List.replicate 7661 0)))))

/-- The hive of `sampleHive`, with the second bin. -/
def freedHive : Bytes := sampleHive 5 5 8192 0x61 freedTail

/-- A disk with it. -/
def freedDisk : Disk := fun path => if path = [['A']] then some freedHive else none

theorem freedHive_length : freedHive.length = 12288 := by decide +kernel

theorem freedHive_bins : Bins freedHive 4096 (4096 + 8192)
    [(4096, [4128, 4210, 4234, 4315, 4396]), (4477, [4509, 4590, 4598, 4623])] := by
  have step : ∀ a b c cs, (sizeAt freedHive a).natAbs = b - a → 8 ≤ b - a → a ≤ b →
      Chain freedHive b c cs → Chain freedHive a c (a :: cs) := by
    intro a b c cs h1 h2 h3 h4
    refine .cons _ _ _ (by omega) ?_
    rw [show a + (sizeAt freedHive a).natAbs = b by omega]
    exact h4
  refine .cons _ 4477 _ _ _ ⟨by decide +kernel, by decide +kernel, by decide, ?_⟩
    (.cons _ 12288 _ _ _ ⟨by decide +kernel, by decide +kernel, by decide, ?_⟩ (.nil _))
  · exact step _ 4210 _ _ (by decide +kernel) (by decide) (by decide)
      (step _ 4234 _ _ (by decide +kernel) (by decide) (by decide)
        (step _ 4315 _ _ (by decide +kernel) (by decide) (by decide)
          (step _ 4396 _ _ (by decide +kernel) (by decide) (by decide)
            (step _ 4477 _ _ (by decide +kernel) (by decide) (by decide) (.nil _)))))
  · exact step _ 4590 _ _ (by decide +kernel) (by decide) (by decide)
      (step _ 4598 _ _ (by decide +kernel) (by decide) (by decide)
        (step _ 4623 _ _ (by decide +kernel) (by decide) (by decide)
          (step _ 12288 _ _ (by decide +kernel) (by decide) (by decide) (.nil _))))

theorem freedKey_at : KeyAt freedHive 4509 freedKey ['k'] :=
  ⟨by unfold NkCell.Fits isI32; decide, at_cut _ _ _ (by rw [freedHive_length]; decide) (by decide +kernel),
    .inl ⟨by decide, by decide⟩⟩

theorem freedValue_at : ValueAt freedHive 4096 502 ⟨['v'], 4, [1, 0, 0, 0]⟩ :=
  ⟨freeValue, [4610], by unfold VkCell.Fits isI32; decide,
    at_cut _ _ _ (by rw [freedHive_length]; decide) (by decide +kernel),
    .inl ⟨by decide, by
      intro i hi
      have : i = 0 := by
        cases i with
        | zero => rfl
        | succ i =>
          exfalso
          have : Nat.testBit 1 (i + 1) = true := hi
          simp [Nat.testBit_succ] at this
      subst this; rfl, by decide⟩, rfl,
    .resident [1, 0, 0, 0] [] rfl, .inr ⟨4, by decide, by decide⟩, .inl (by decide)⟩

theorem freedKey_values : ValuesAt freedHive 4096 freedKey [⟨['v'], 4, [1, 0, 0, 0]⟩] :=
  ⟨rfl, by decide, .inr ⟨[502], 494, 8, rfl, by decide, by decide, by decide,
    at_cut _ _ _ (by rw [freedHive_length]; decide) (by decide +kernel), freedValue_at, trivial⟩⟩

/-- The options of the examples. -/
def freedOptions : DumpOptions := { recover := true, type := .Tsv }

theorem freed_logs : openLogs freedDisk (logsOf freedDisk freedOptions ['A'] [['A']]) = some [] := by
  have h1 : logsOf freedDisk freedOptions ['A'] [['A']] = [] := by decide +kernel
  rw [h1]; rfl

theorem freed_header : ∃ bb, CleanHive ⟨freedHive, [], none, true, false⟩ bb ∧ bb.base.hiveBinsDataSize = 8192 := by
  obtain ⟨bb, rest, h1, h2, h3, h4, h5, h6⟩ := sampleHive_header 5 5 8192 0x61 freedTail (by decide +kernel)
  exact ⟨bb, ⟨⟨([], none), by decide +kernel⟩, ⟨rest, h1⟩, h2, h3.trans h4.symm, h6⟩, h5⟩

/-- The hypotheses of `dump_free_partial`; the table has a row for the freed key, followed by one for its value. -/
example : ∀ steps, 12288 < steps → ∃ M d rows, dumpFile { freeWorld with steps } M someTexts freedDisk freedOptions
      [['A']] = some (.ok d) ∧ HasRows .Tsv d rows ∧
        RowsTellFree FitsNanos false freedHive
          [(4096, [4128, 4210, 4234, 4315, 4396]), (4477, [4509, 4590, 4598, 4623])] 8192 (sampleTree 0x61)
          (fun _ => []) rows ∧
        ∃ before row row' after, rows = before ++ row :: row' :: after ∧ FreeAs freedHive 4509 (status row) ∧
          (∃ s, RowOfKey FitsNanos row "\\k".toList (.mk 4509 freedKey ['k'] []) s) ∧
          ∃ s, RowOfValue row' "\\k".toList ⟨['v'], 4, [1, 0, 0, 0]⟩ s := by
  intro steps hs
  obtain ⟨bb, hc, hbb⟩ := freed_header
  obtain ⟨h1, h2⟩ := dump_free_partial freeWorld someTexts someTexts_legal freedDisk freedOptions rfl rfl (by decide) [] ['A']
    freedHive rfl [] freed_logs bb _ (sampleTree 0x61) (fun _ => []) hc (sample_storedHive _ (by decide) _ _ _ _)
    sample_rootMarked (by rw [hbb]; exact freedHive_bins) (by rw [hbb, freedHive_length]; decide)
    (by rw [freedHive_length]; decide) steps (by rw [freedHive_length]; exact hs)
  obtain ⟨M, d, hd⟩ := h1 (.inl rfl)
  obtain ⟨rows, r1, r2⟩ := h2 M d hd
  rw [hbb] at r2
  refine ⟨M, d, rows, hd, r1, r2, ?_⟩
  obtain ⟨_, vOffs, kOffs, root, values, keys, rest, ho, rfl, _, _, hk⟩ := r2
  have hin := (ho.complete _ (List.mem_cons_of_mem _ List.mem_cons_self) (by decide) 4509 (by decide)
    (by decide +kernel)).1 (by decide +kernel)
  obtain ⟨b, hb, row, vs, rfl, hrow, hvs⟩ := pairwise2_mem_right hk 4509 hin
  have hvs := hvs rfl freedKey ['k'] _ freedKey_at freedKey_values
  cases vs with
  | nil => exact hvs.elim
  | cons row' vs => cases vs with
    | cons => exact hvs.2.elim
    | nil =>
      obtain ⟨l1, l2, rfl⟩ := List.append_of_mem hb
      refine ⟨root ++ (values ++ l1.flatten), row, row', l2.flatten ++ rest, ?_, hrow.1, hrow.2 _ _ freedKey_at, hvs.1⟩
      simp [List.append_assoc]

/-- The hypotheses of the claims about `freedHive`, and its listing. -/
theorem freed_listed : ∃ bb, CleanHive ⟨freedHive, [], none, true, false⟩ bb ∧
    Bins freedHive 4096 (4096 + bb.base.hiveBinsDataSize)
      [(4096, [4128, 4210, 4234, 4315, 4396]), (4477, [4509, 4590, 4598, 4623])] ∧
    4096 + bb.base.hiveBinsDataSize ≤ freedHive.length ∧
    StoredHive freeWorld freedHive (sampleTree 0x61) (fun _ => []) ∧ bb.base.hiveBinsDataSize = 8192 ∧
    ∃ p M root keys rest values,
      (Builder.mk freedHive [] none true false).build { freeWorld with steps := 20000 } = some (.ok p) ∧
      p.iterate M {} = some (.ok (root :: (keys ++ rest))) ∧
      ListsDeleted freedHive [(4096, [4128, 4210, 4234, 4315, 4396]), (4477, [4509, 4590, 4598, 4623])] 8192
        (sampleTree 0x61) (fun _ => []) root keys rest values ∧
      ∃ y v, y ∈ keys ∧ y.key.fileOffset = 4509 ∧ y.key.path = "\\k".toList ∧ y.key.values = [v] ∧
        v.val.name = ['v'] ∧ v.val.cellState = .Allocated := by
  obtain ⟨bb, hc, hbb⟩ := freed_header
  have hb : Bins freedHive 4096 (4096 + bb.base.hiveBinsDataSize)
    [(4096, [4128, 4210, 4234, 4315, 4396]), (4477, [4509, 4590, 4598, 4623])] := by rw [hbb]; exact freedHive_bins
  have he : 4096 + bb.base.hiveBinsDataSize ≤ freedHive.length := by rw [hbb, freedHive_length]; decide
  have hst : StoredHive freeWorld freedHive (sampleTree 0x61) fun _ => [] := sample_storedHive _ (by decide) _ _ _ _
  obtain ⟨p, h1, h2⟩ := deleted_listed_partial freeWorld ⟨freedHive, [], none, true, false⟩ bb _ (sampleTree 0x61)
    (fun _ => []) rfl hc hst sample_rootMarked hb he (by show freedHive.length < _; rw [freedHive_length]; decide) 20000
    (by show freedHive.length < _; rw [freedHive_length]; decide)
  obtain ⟨M, root, keys, rest, values, h3, h4⟩ := h2 false
  rw [hbb] at h4
  refine ⟨bb, hc, hb, he, hst, hbb, p, M, root, keys, rest, values, h1, h3, h4, ?_⟩
  obtain ⟨y, hy, hyo⟩ := (h4.complete _ (List.mem_cons_of_mem _ List.mem_cons_self) (by decide) 4509 (by decide)
    (by decide +kernel)).1 (by decide +kernel)
  have hfy := h4.fromKeys y hy
  have ht := hfy.tells freedKey ['k'] (by rw [hyo]; exact freedKey_at)
  have hv := ht.values _ freedKey_values
  cases hvs : y.key.values with
  | nil => rw [hvs] at hv; cases hv
  | cons v vs =>
    rw [hvs] at hv
    cases vs with
    | cons => exact absurd (congrArg List.length hv) (by simp)
    | nil =>
      refine ⟨y, v, hy, hyo, ht.path, hvs, congrArg Val.name (List.cons.inj hv).1, (hfy.contents v ?_).2.2⟩
      rw [hvs]; exact List.mem_cons_self

/-- C79 is violated for the values of deleted keys: their rows say "Allocated". -/
theorem deleted_values_marked_violated : ¬ FreeValuesMarked := by
  intro h
  obtain ⟨bb, hc, hb, he, hst, hbb, p, M, root, keys, rest, values, h1, h3, h4, y, v, hy, hyo, _, hvs, hn, hs⟩ :=
    freed_listed
  obtain ⟨k1, _⟩ := dump_written { freeWorld with steps := 20000 } someTexts freedDisk freedOptions rfl [] ['A'] freedHive
    rfl [] freed_logs p h1 M _ h3
  cases hw : writeDump someTexts freedOptions (p.parseLogs someTexts) (root :: (keys ++ rest)) with
  | err => unfold writeDump at hw; cases hw
  | panic => unfold writeDump at hw; cases hw
  | ok d =>
    rw [hw] at k1
    have hrows := table_rows someTexts someTexts_legal freedOptions (.inl rfl) _ _ d hw
    have hmem : v ∈ y.key.values := by rw [hvs]; exact List.mem_cons_self
    obtain ⟨row, hr, hrow⟩ := pairwise2_mem_right (rows_tell someTexts 1
      (exported freedOptions.recoveredOnly (root :: (keys ++ rest)))) (.value y v) (by
        show _ ∈ allItems _
        unfold allItems
        exact List.mem_flatMap.2 ⟨y, List.mem_cons_of_mem _ (List.mem_append_left _ hy), List.mem_append_right _
          (List.mem_flatMap.2 ⟨v, hmem, List.mem_map.2 ⟨v, List.mem_cons_self, rfl⟩⟩)⟩)
    obtain ⟨x, hx, hsays⟩ := h freeWorld someTexts freedDisk freedOptions [] ['A'] freedHive [] bb _ (sampleTree 0x61)
      (fun _ => []) someTexts_legal rfl rfl rfl rfl freed_logs hc hst sample_rootMarked hb he
      (by rw [freedHive_length]; decide) 20000 (by rw [freedHive_length]; decide) M d _ k1 hrows row hr
      (by rw [row_status hrow]; show (stateName v.val.cellState).toList = _; rw [hs]; rfl)
    have hname : column row "Value Name" = some ['v'] := by rw [hrow.2.1, hn]; rfl
    cases x with
    | key u path =>
      have := hsays.2.2.2.2.2.2.1
      rw [hname] at this
      cases this
    | value u path x =>
      unfold storedItems at hx
      obtain ⟨z, _, hz⟩ := List.mem_flatMap.1 hx
      rcases List.mem_cons.1 hz with e | hz
      · cases e
      · cases hz

/-- The full claim of C79 about `--recovered-only`: the values of the keys in free cells have rows. -/
def RecoveredValuesWritten : Prop :=
  ∀ (w : World) (u : Prints) (disk : Disk) (o : DumpOptions) (folder : List Str) (name : Str) (primary : Bytes)
    (bs : List Bytes) (bb : BaseBlock) (bins : List (Nat × List Nat)) (t : Tree) (vals : Nat → List Val),
    (∀ c, u.printed c = true → XmlChar c) → o.filter = none → o.recover = true → o.type = .Tsv →
    disk (folder ++ [name]) = some primary → openLogs disk (logsOf disk o name (folder ++ [name])) = some bs →
    CleanHive ⟨primary, bs, none, o.recover, o.full⟩ bb → StoredHive w primary t vals → RootMarked t →
    Bins primary 4096 (4096 + bb.base.hiveBinsDataSize) bins → 4096 + bb.base.hiveBinsDataSize ≤ primary.length →
    primary.length < 24 * w.depth → ∀ steps, primary.length < steps →
      ∀ M d rows, dumpFile { w with steps } M u disk o (folder ++ [name]) = some (.ok d) → HasRows o.type d rows →
        ∀ bin ∈ bins, bin.1 < bb.base.hiveBinsDataSize → ∀ off ∈ bin.2, 0 < sizeAt primary off →
          ∀ c key xs, KeyAt primary off c key → ValuesAt primary 4096 c xs →
            ∀ x ∈ xs, ∃ row ∈ rows, ∃ state, RowOfValue row ('\\' :: key) x state

/-- C79 is violated for the values of deleted keys: with `--recovered-only` they have no rows. -/
theorem deleted_values_written_violated : ¬ RecoveredValuesWritten := by
  intro h
  obtain ⟨bb, hc, hb, he, hst, hbb, p, M, root, keys, rest, values, h1, h3, h4, _⟩ := freed_listed
  have hlogs : openLogs freedDisk (logsOf freedDisk { freedOptions with recoveredOnly := true } ['A'] [['A']]) =
      some [] := freed_logs
  obtain ⟨k1, _⟩ := dump_written { freeWorld with steps := 20000 } someTexts freedDisk
    { freedOptions with recoveredOnly := true } rfl [] ['A'] freedHive rfl [] hlogs p h1 M _ h3
  cases hw : writeDump someTexts { freedOptions with recoveredOnly := true } (p.parseLogs someTexts)
      (root :: (keys ++ rest)) with
  | err => unfold writeDump at hw; cases hw
  | panic => unfold writeDump at hw; cases hw
  | ok d =>
    rw [hw] at k1
    have hrows := table_rows someTexts someTexts_legal { freedOptions with recoveredOnly := true } (.inl rfl) _ _ d hw
    obtain ⟨row, hrow, s, hval⟩ := h freeWorld someTexts freedDisk { freedOptions with recoveredOnly := true } [] ['A']
      freedHive [] bb _ (sampleTree 0x61)
      (fun _ => []) someTexts_legal rfl rfl rfl rfl hlogs hc hst sample_rootMarked hb he
      (by rw [freedHive_length]; decide) 20000 (by rw [freedHive_length]; decide) M d _ k1 hrows _
      (List.mem_cons_of_mem _ List.mem_cons_self) (by rw [hbb]; decide) 4509 (by decide) (by decide +kernel) freedKey ['k']
      _ freedKey_at freedKey_values _ List.mem_cons_self
    obtain ⟨own, hown, hf⟩ := h4.told hst.once
    have htell := rows_tell someTexts 1 (exported true (root :: (keys ++ rest)))
    obtain ⟨x, hx, hrx⟩ := pairwise2_mem_left htell row hrow
    rw [free_exported true h4 hst.once hown hf] at hx
    simp only [if_true, List.nil_append, List.append_nil] at hx
    rcases List.mem_append.1 hx with hx | hx
    · obtain ⟨v, _, rfl⟩ := List.mem_map.1 hx
      have := hval.1
      rw [hrx.1, hf.path] at this
      exact absurd this (by decide)
    · obtain ⟨y, _, hx⟩ := List.mem_flatMap.1 hx
      rw [List.mem_singleton] at hx
      subst hx
      have := hval.2.1
      rw [hrx.2.2.2.2.2.2.1] at this
      exact absurd this (by decide)

end Notatin
