import Verif.Spec.Overwritten
import Verif.Lemmas.History
import Verif.Lemmas.SameFrom
import Verif.Props.CompareTells
/-
Lemmas for C76: what is recorded about overwritten keys and values.
-/
namespace Notatin
open Spec

/-! ### The items of a state -/

theorem keys_plain (s : FullState) : (s.tree.keys []).map (fun x => (x.2.off, x.1)) = s.plain.keys := keys_pre _ _

theorem items_filed (s : FullState) : s.items.map Prod.fst = s.plain.filed := by
  unfold FullState.items FileState.filed
  rw [← keys_plain]
  generalize s.tree.keys [] = l
  induction l with
  | nil => rfl
  | cons x l ih =>
    rw [List.flatMap_cons, List.map_append, ih, List.map_cons (l := l), List.flatMap_cons]
    congr 1
    simp only [List.map_cons, List.map_map, FullState.plain]
    rfl

theorem find_of_nodup {α κ : Type} [BEq κ] [LawfulBEq κ] (key : α → κ) : ∀ (l : List α), (l.map key).Nodup →
    ∀ x ∈ l, l.find? (fun y => key y == key x) = some x
  | [], _, x, hx => absurd hx List.not_mem_nil
  | a :: l, h, x, hx => by
    rw [List.map_cons, List.nodup_cons] at h
    rw [List.find?_cons]
    rcases List.mem_cons.1 hx with rfl | hx
    · rw [show (key x == key x) = true from BEq.rfl]
    · have : (key a == key x) = false := by
        rw [beq_eq_false_iff_ne]
        intro e
        exact h.1 (List.mem_map.2 ⟨x, hx, e.symm⟩)
      rw [this]
      exact find_of_nodup key l h.2 x hx

theorem item_some {s : FullState} (h : s.plain.filed.Nodup) (k : ItemKey) (c : Tree ⊕ FlaggedVal) :
    s.item k = some c ↔ (k, c) ∈ s.items := by
  unfold FullState.item
  constructor
  · intro e
    rw [Option.map_eq_some_iff] at e
    obtain ⟨x, hx, rfl⟩ := e
    have h1 := List.mem_of_find?_eq_some hx
    have h2 := List.find?_some hx
    rw [← eq_of_beq h2]
    exact h1
  · intro hm
    rw [find_of_nodup Prod.fst s.items (by rw [items_filed]; exact h) (k, c) hm]
    rfl

theorem item_none {s : FullState} (k : ItemKey) : s.item k = none ↔ k ∉ s.plain.filed := by
  unfold FullState.item
  rw [Option.map_eq_none_iff, List.find?_eq_none, ← items_filed]
  constructor
  · intro h hm
    obtain ⟨x, hx, rfl⟩ := List.mem_map.1 hm
    exact h x hx BEq.rfl
  · intro h x hx e
    exact h (List.mem_map.2 ⟨x, hx, eq_of_beq e⟩)

/-- What an item is. -/
theorem item_kind {s : FullState} {k : ItemKey} {c : Tree ⊕ FlaggedVal} (h : (k, c) ∈ s.items) :
    (∃ u ∈ s.tree.nodes, (k.1, u) ∈ s.tree.keys [] ∧ k.2 = none ∧ c = .inl u) ∨
    ∃ u ∈ s.tree.nodes, (k.1, u) ∈ s.tree.keys [] ∧ ∃ y ∈ s.vals u.off, k.2 = some y.val.name ∧ c = .inr y := by
  unfold FullState.items at h
  obtain ⟨x, hx, h⟩ := List.mem_flatMap.1 h
  have hn : x.2 ∈ s.tree.nodes := by rw [← keys_nodes s.tree []]; exact List.mem_map.2 ⟨x, hx, rfl⟩
  rcases List.mem_cons.1 h with h | h
  · cases h; exact .inl ⟨x.2, hn, hx, rfl, rfl⟩
  · obtain ⟨y, hy, h⟩ := List.mem_map.1 h
    cases h; exact .inr ⟨x.2, hn, hx, y, hy, rfl, rfl⟩

/-- The bytes that stand for an item. -/
def itemBytes : Tree ⊕ FlaggedVal → Bytes := Sum.elim Tree.factBytes FlaggedVal.factBytes

/-- What is compared of an item. -/
def itemFacts : Tree ⊕ FlaggedVal → (Nat × Nat × Nat) ⊕ (Nat × Nat × Bytes) := Sum.map Tree.facts FlaggedVal.facts

theorem facts_item {s : FullState} {k : ItemKey} {c : Tree ⊕ FlaggedVal} (h : s.item k = some c) :
    s.facts k = some (itemFacts c) := by
  unfold FullState.facts; rw [h]; rfl

theorem facts_none {s : FullState} {k : ItemKey} (h : s.item k = none) : s.facts k = none := by
  unfold FullState.facts; rw [h]; rfl

/-- A state as the theorems need it. -/
structure Sound (w : World) (s : FullState) : Prop where
  ordinary : Ordinary w s.plain
  flags : s.tree.Every fun u => FlaggedValuesAt s.buf 4096 u.cell (s.vals u.off)

theorem Sound.once {w : World} {s : FullState} (h : Sound w s) : s.plain.filed.Nodup := filed_nodup h.ordinary

/-- The same hash means the same content. -/
theorem same_hash {w : World} {a b : FullState} (ha : Sound w a) (hb : Sound w b)
    (hh : HashTells w.hashFn a.tree a.vals b.tree b.vals) {k : ItemKey} {c d : Tree ⊕ FlaggedVal}
    (hc : (k, c) ∈ a.items) (hd : (k, d) ∈ b.items) :
    w.hashFn (itemBytes c) = w.hashFn (itemBytes d) ↔ itemFacts c = itemFacts d := by
  have fit : ∀ {s : FullState}, Sound w s → ∀ u ∈ s.tree.nodes, u.cell.Fits := fun hs u hu =>
    (nodes_at _ hs.ordinary.stored.tree u hu).1
  rcases item_kind hc with ⟨u, hu, _, h1, rfl⟩ | ⟨u, hu, _, y, hy, h1, rfl⟩ <;>
  rcases item_kind hd with ⟨u', hu', _, h2, rfl⟩ | ⟨u', hu', _, y', hy', h2, rfl⟩
  · constructor
    · intro e
      exact congrArg Sum.inl (keyFacts_eq (fit ha u hu) (fit hb u' hu') (hh.keys u hu u' hu' e))
    · intro e
      have e : u.facts = u'.facts := Sum.inl.inj e
      exact congrArg w.hashFn (factBytes_eq e)
  · rw [h1] at h2; cases h2
  · rw [h1] at h2; cases h2
  · constructor
    · intro e
      exact congrArg Sum.inr (valFacts_eq (flaggedValues_fit (every_nodes _ ha.flags u hu) y hy)
        (flaggedValues_fit (every_nodes _ hb.flags u' hu') y' hy') (hh.values u hu u' hu' y hy y' hy' e))
    · intro e
      have e : y.facts = y'.facts := Sum.inr.inj e
      exact congrArg w.hashFn (valFactBytes_eq e)

/-! ### The numbers -/

/-- The states are given with the newest, which has the greatest number, first. -/
def Newest (past : List FullState) : Prop := past.Pairwise fun s t => t.seq < s.seq

theorem since_le (k : ItemKey) : ∀ (s : FullState) (past : List FullState), Newest (s :: past) →
    since k (s :: past) ≤ s.seq
  | s, [], _ => Nat.le_refl _
  | s, t :: rest, h => by
    rw [since]
    have h1 := List.pairwise_cons.1 h
    split
    · have := since_le k t rest h1.2
      have := h1.1 t List.mem_cons_self
      omega
    · exact Nat.le_refl _

theorem changes_iff (k : ItemKey) (s t : FullState) (rest : List FullState) :
    Event.changes k (t :: rest, s) = true ↔
      ∃ c d, t.item k = some c ∧ s.item k = some d ∧ itemFacts c ≠ itemFacts d := by
  unfold Event.changes
  simp only [List.head?_cons, Option.bind_some]
  cases hc : t.item k with
  | none =>
    rw [facts_none hc]
    constructor
    · intro h; cases h
    · rintro ⟨_, _, h, _⟩; cases h
  | some c =>
    cases hd : s.item k with
    | none =>
      rw [facts_item hc, facts_none hd]
      constructor
      · intro h; cases h
      · rintro ⟨_, _, _, h, _⟩; cases h
    | some d =>
      rw [facts_item hc, facts_item hd]
      simp only [decide_eq_true_eq]
      constructor
      · intro h; exact ⟨c, d, rfl, rfl, h⟩
      · rintro ⟨_, _, h1, h2, h⟩; cases h1; cases h2; exact h

theorem since_changed (k : ItemKey) : ∀ (past : List FullState), Newest past → ∀ e ∈ events past,
    e.changes k = true → since k e.1 < since k past
  | [], _, e, he => absurd he List.not_mem_nil
  | [_], _, e, he => absurd he List.not_mem_nil
  | s :: t :: rest, h, e, he => by
    intro hch
    have h1 := List.pairwise_cons.1 h
    have hts := h1.1 t List.mem_cons_self
    have hle := since_le k t rest h1.2
    rw [events] at he
    rcases List.mem_cons.1 he with rfl | he
    · obtain ⟨c, d, e1, e2, e3⟩ := (changes_iff k s t rest).1 hch
      rw [show since k (s :: t :: rest) = s.seq by
        rw [since, if_neg]
        rw [facts_item e1, facts_item e2]
        intro e
        exact e3 (Option.some.inj e).symm]
      show since k (t :: rest) < _
      omega
    · have := since_changed k (t :: rest) h1.2 e he hch
      rw [since]
      split
      · exact this
      · omega

/-- The numbers of the changes of an item decrease from the newest to the oldest. -/
theorem since_pairwise (k : ItemKey) : ∀ (past : List FullState), Newest past →
    ((events past).filter (Event.changes k)).Pairwise fun e e' => since k e'.1 < since k e.1
  | [], _ => List.Pairwise.nil
  | [_], _ => List.Pairwise.nil
  | s :: t :: rest, h => by
    have h1 := List.pairwise_cons.1 h
    have ih := since_pairwise k (t :: rest) h1.2
    rw [events, List.filter_cons]
    split
    · refine List.pairwise_cons.2 ⟨fun e he => ?_, ih⟩
      obtain ⟨he, hch⟩ := List.mem_filter.1 he
      exact since_changed k (t :: rest) h1.2 e he hch
    · exact ih

/-! ### What the comparison sees -/

/-- The hash and the offset are those of the item. -/
def ItemIs (w : World) (s : FullState) (hash : Option Bytes) (off : Nat) (c : Tree ⊕ FlaggedVal) : Prop :=
  hash = some (w.hashFn (itemBytes c)) ∧
    match c with
    | .inl u => off = u.off
    | .inr y => ∃ o, off = o + 4096 ∧ ValueAt s.buf 4096 o y.val ∧ FlagsAt s.buf 4096 o y.flags

/-- The items of a listing are those of the state. -/
theorem seen_items {w : World} {s : FullState} (hs : Sound w s) (more : Bytes) {ns : List Node} (ho : ns.map obs = s.plain.keys)
    (hl : ∀ n ∈ ns, LiveKey (w.env (s.buf ++ more)) n)
    (hv : ∀ n ∈ ns, WithValues (w.env (s.buf ++ more)) s.tree n) :
    Pairwise2 (fun x y => x.key = y.1 ∧ ItemIs w s x.hash x.off y.2) (ns.flatMap seenOf) s.items := by
  unfold FullState.items
  have hp : Pairwise2 (fun n x => obs n = (x.2.off, x.1) ∧ n ∈ ns ∧ x ∈ s.tree.keys []) ns (s.tree.keys []) := by
    rw [← keys_plain] at ho
    have : ∀ (as : List Node) (bs : List (Str × Tree)), as.map obs = bs.map (fun x => (x.2.off, x.1)) →
        Pairwise2 (fun n x => obs n = (x.2.off, x.1)) as bs := by
      intro as
      induction as with
      | nil =>
        intro bs h
        cases bs with
        | nil => trivial
        | cons => cases h
      | cons a as ih =>
        intro bs h
        cases bs with
        | nil => cases h
        | cons b bs =>
          rw [List.map_cons, List.map_cons, List.cons.injEq] at h
          exact ⟨h.1, ih bs h.2⟩
    exact pairwise2_imp (fun a ha b hb h => ⟨h, ha, hb⟩) (this ns _ ho)
  refine pairwise2_flatMap _ _ ?_ hp
  rintro n ⟨path, u⟩ ⟨e, hn, hx⟩
  have hoff : n.key.fileOffset = u.off := congrArg Prod.fst e
  have hpath : n.key.path = path := congrArg Prod.snd e
  have hu : u ∈ s.tree.nodes := by rw [← keys_nodes s.tree []]; exact List.mem_map.2 ⟨_, hx, rfl⟩
  refine ⟨⟨by rw [← hpath], ?_, hoff⟩, ?_⟩
  · obtain ⟨⟨p, k, r, h1, _, _, h4⟩, _⟩ := hl n hn
    obtain ⟨k', r', sl, g1, g2, g3, _⟩ := readKeyAt (w.env (s.buf ++ more)) u.off u.cell u.name
      (nodes_at _ (ordinary_more hs.ordinary more).stored.tree u hu) p none
    rw [hoff, drop_of_getFrom g1, g2] at h1
    simp only [Res.ok.injEq, Prod.mk.injEq] at h1
    obtain ⟨rfl, rfl⟩ := h1
    have hh := keyNode_hashOf _ _ _ _ _ _ _ g2
    obtain ⟨_, a2, a3, a4, _⟩ := g3
    show n.key.hash = some (w.hashFn u.factBytes)
    rw [h4, hh, a2, a3, a4]
    unfold KeyNode.hashOf Tree.factBytes
    rw [u16ToLeBytes_eq, u64ToLeBytes_eq, u32ToLeBytes_eq]
    rfl
  · obtain ⟨u', hu', e1, k, e2, e3, e4, e5⟩ := hv n hn
    have : u' = u := map_inj_of_nodup Tree.off _ (by rw [nodes_offs]; exact hs.ordinary.stored.once) u' hu' u hu
      (by rw [← e1, hoff])
    subst this
    have hsame : SameFrom 4096 s.buf (s.buf ++ more) := sameFrom_stored hs.ordinary.stored more
    have hst := stored_listed_from (w.env (s.buf ++ more)) k u'.cell (s.vals u'.off) s.buf
      (fun _ _ ho h => at_same hsame ho h) (fun _ _ h => valueAt_same hsame h) e2 e3 e4 (every_nodes _ hs.flags u' hu')
    rw [e5]
    refine pairwise2_map_map _ _ ?_ hst
    rintro v y ⟨h1, o, hi, h2⟩
    refine ⟨by rw [← hpath, ← h1.1]; rfl, h1.2.2.1, o, ?_, h2⟩
    obtain ⟨kv, r, hkv, rfl⟩ := hi
    have : kv.fileOffset = o + 4096 := keyValue_off _ _ _ _ _ hkv
    exact this

/-- The items kept for the next comparison, after the states `past`. -/
def Kept (w : World) (past : List FullState) (s : FullState) (items : RegItemMap) : Prop :=
  Pairwise2 (fun x y => x.1 = y.1 ∧ ItemIs w s (some x.2.hash) x.2.off y.2 ∧ x.2.seq = since y.1 past) items s.items

/-- An item kept and what it is. -/
theorem Kept.item {w : World} {past : List FullState} {s : FullState} {items : RegItemMap} (h : Kept w past s items)
    {k : ItemKey} {p : Item} (hp : (k, p) ∈ items) :
    ∃ c, (k, c) ∈ s.items ∧ ItemIs w s (some p.hash) p.off c ∧ p.seq = since k past := by
  obtain ⟨⟨k', c⟩, hy, e1, e2, e3⟩ := pairwise2_mem_left h (k, p) hp
  cases e1
  exact ⟨c, hy, e2, e3⟩

theorem Kept.all {w : World} {past : List FullState} {s : FullState} {items : RegItemMap} (h : Kept w past s items)
    {k : ItemKey} {c : Tree ⊕ FlaggedVal} (hc : (k, c) ∈ s.items) :
    ∃ p, (k, p) ∈ items ∧ ItemIs w s (some p.hash) p.off c ∧ p.seq = since k past := by
  obtain ⟨⟨k', p⟩, hy, e1, e2, e3⟩ := pairwise2_mem_right h (k, c) hc
  cases e1
  exact ⟨p, hy, e2, e3⟩

theorem ItemIs.hash_eq {w : World} {a b : FullState} {h h' : Bytes} {o o' : Nat} {c d : Tree ⊕ FlaggedVal}
    (h1 : ItemIs w a (some h) o c) (h2 : ItemIs w b (some h') o' d) :
    h = h' ↔ w.hashFn (itemBytes c) = w.hashFn (itemBytes d) := by
  have e1 := Option.some.inj h1.1
  have e2 := Option.some.inj h2.1
  rw [e1, e2]

/-! ### Reading an old key or value again -/

theorem keyVersion_tells {w : World} {a b : FullState} {older : List FullState} (ha : Sound w a) (more : Bytes) {path : Str}
    {p : Item} {cs : CellState} {n : Node} (hcs : cs = .ModifiedTransactionLog) {c : Tree ⊕ FlaggedVal}
    (hc : ((path, none), c) ∈ a.items) (hi : ItemIs w a (some p.hash) p.off c)
    (hseq : p.seq = since (path, none) (a :: older)) (h : IsKeyVersion (w.env (a.buf ++ more)) b.seq cs path p n) :
    TellsOldKey path (a :: older, b) n := by
  rcases item_kind hc with ⟨u, hu, hx, _, rfl⟩ | ⟨_, _, _, _, _, h1, _⟩
  · obtain ⟨k, r, hk, hp, _, hn⟩ := h
    generalize n.key.logs = lg at hn
    subst hn
    obtain ⟨k', r', sl, g1, g2, g3, _⟩ := readKeyAt (w.env (a.buf ++ more)) u.off u.cell u.name
      (nodes_at _ (ordinary_more ha.ordinary more).stored.tree u hu) (upTo path) (some p.seq)
    have ho : p.off = u.off := hi.2
    rw [ho, drop_of_getFrom g1, g2] at hk
    simp only [Res.ok.injEq, Prod.mk.injEq] at hk
    obtain ⟨rfl, rfl⟩ := hk
    obtain ⟨_, a2, a3, a4, _, _, _, _, _, _, _, _, _, _, _, _, _, _, _, _, _, a22, _, a24, a25, _⟩ := g3
    refine ⟨⟨u, (item_some ha.once _ _).2 hc, a24, a22, a3, a2, a4⟩, hp, hcs, ?_, rfl, rfl⟩
    rw [← hseq]; exact a25
  · cases h1

theorem readValueBytes_seq (kv : KeyValue) (seq : Option Nat) (hashFn : Bytes → Bytes) (fi : FileInfo) :
    ({ kv with seq } : KeyValue).readValueBytes hashFn fi = { kv.readValueBytes hashFn fi with seq } := rfl

theorem valueVersion_tells {w : World} {a b : FullState} {older : List FullState} (ha : Sound w a) (more : Bytes)
    {path name : Str}
    {p : Item} {cs : CellState} {v : Value} {c : Tree ⊕ FlaggedVal}
    (hc : ((path, some name), c) ∈ a.items) (hi : ItemIs w a (some p.hash) p.off c)
    (hseq : p.seq = since (path, some name) (a :: older)) 
    (h : IsValueVersion (w.env (a.buf ++ more)) b.seq cs name p v) :
    TellsOldValue path name cs (a :: older, b) v ∧ v.versions = [] ∧ v.val.name = name := by
  rcases item_kind hc with ⟨_, _, _, h1, _⟩ | ⟨u, hu, _, y, hy, hname, rfl⟩
  · cases h1
  · obtain ⟨o, ho, hva, hfl⟩ := hi.2
    obtain ⟨kv, r, hk, hn, _, rfl⟩ := h
    have hsame : SameFrom 4096 a.buf (a.buf ++ more) := sameFrom_stored ha.ordinary.stored more
    have h3 := keyValue_seq _ _ _ none _ _ hk
    rw [ho] at h3
    have h2 := listedVal_of (w.env (a.buf ++ more)) o y _ (valueAt_same hsame hva) (flagsAt_same hsame hfl) ⟨_, _, h3, rfl⟩
    obtain ⟨g1, g2, g3, g4⟩ := h2
    have hname : name = y.val.name := Option.some.inj hname
    have hn1 : kv.name = y.val.name := congrArg Val.name g1
    refine ⟨⟨⟨y, (item_some ha.once _ _).2 hc, hn1, congrArg Val.type g1, ?_, g2, ?_⟩, rfl, ?_, rfl⟩, rfl, ?_⟩
    · have : (obsVal (Value.mk (kv.readValueBytes (w.env (a.buf ++ more)).hashFn (w.env (a.buf ++ more)).fi) [])).data =
          y.val.data := congrArg Val.data g1
      rw [← this]
      rfl
    · rw [← congrArg Val.type g1]; exact g4.2.2.2.1
    · show kv.seq = _
      have := keyValue_seq _ _ _ (some p.seq) _ _ hk
      rw [hk] at this
      simp only [Res.ok.injEq, Prod.mk.injEq] at this
      rw [this.1, hseq]
    · rw [hname]; exact hn1

/-! ### One entry -/

/-- The record of a value that the entry removed, with its hash. -/
def RemovedRecord (w : World) (path name : Str) (e : Event) (v : Value) : Prop :=
  TellsOldValue path name .DeletedTransactionLog e v ∧
    ∃ c, e.was (path, some name) = some c ∧ v.val.hash = some (w.hashFn (itemBytes c))

/-- The records after the states `past`. -/
structure PastRecords (w : World) (past : List FullState) (st : State) : Prop where
  keys : ∀ path, Pairwise2 (TellsOldKey path) ((events past).filter (Event.changes (path, none))).reverse
    ((st.modifiedKeys path).getD [])
  values : ∀ path name, Pairwise2 (TellsOldValue path name .ModifiedTransactionLog)
    ((events past).filter (Event.changes (path, some name))).reverse ((st.modifiedValues (path, name)).getD [])
  goneSound : ∀ path, ∀ v ∈ (st.deletedValues path).getD [], v.versions = [] ∧ ∃ e,
    Removal (events past) (path, some v.val.name) e ∧ RemovedRecord w path v.val.name e v
  goneAll : ∀ e ∈ events past, ∀ path name, e.removes (path, some name) → StaysAway (events past) (path, some name) e →
    ∃ v ∈ (st.deletedValues path).getD [], v.val.name = name ∧ RemovedRecord w path name e v
  goneOrder : ∀ path, ((st.deletedValues path).getD []).Pairwise fun v v' => v.val.name = v'.val.name →
    ∃ x y, v.val.updatedBySeq = some x ∧ v'.val.updatedBySeq = some y ∧ x < y

theorem removes_iff (k : ItemKey) (s t : FullState) (rest : List FullState) :
    Event.removes k (t :: rest, s) ↔ t.item k ≠ none ∧ s.item k = none := Iff.rfl

theorem pairwise2_snoc {α β : Type} {R : α → β → Prop} {as : List α} {bs : List β} {a : α} {b : β}
    (h : Pairwise2 R as bs) (hab : R a b) : Pairwise2 R (as ++ [a]) (bs ++ [b]) :=
  pairwise2_append h ⟨hab, trivial⟩

theorem pairwise2_nil_left {α β : Type} {R : α → β → Prop} {bs : List β} (h : Pairwise2 R [] bs) : bs = [] := by
  cases bs with
  | nil => rfl
  | cons => exact absurd h (by simp [Pairwise2])

theorem pairwise2_nodup {α β κ : Type} {R : α → β → Prop} (f : α → κ) (g : β → κ) {as : List α} {bs : List β}
    (h : Pairwise2 R as bs) (hr : ∀ a b, R a b → f a = g b) (hn : (as.map f).Nodup) : (bs.map g).Nodup := by
  rwa [pairwise2_map (f := f) (g := g) (fun a b hab => (hr a b hab).symm) as bs h]

theorem valueVersion_hash {env : Env} {newSeq : Nat} {cs : CellState} {name : Str} {it : Item} {v : Value}
    (h : IsValueVersion env newSeq cs name it v) : v.val.hash = some it.hash := by
  obtain ⟨kv, r, _, _, hh, rfl⟩ := h
  exact hh

theorem event_states : ∀ (l : List FullState) (e : Event), e ∈ events l →
    ∃ t rest, e.1 = t :: rest ∧ t ∈ l ∧ e.2 ∈ l
  | [], e, h => absurd h List.not_mem_nil
  | [a], e, h => absurd h List.not_mem_nil
  | b :: a :: older, e, h => by
    rw [events] at h
    rcases List.mem_cons.1 h with rfl | h
    · exact ⟨a, older, rfl, List.mem_cons_of_mem _ List.mem_cons_self, List.mem_cons_self⟩
    · obtain ⟨t, rest, h1, h2, h3⟩ := event_states (a :: older) e h
      exact ⟨t, rest, h1, List.mem_cons_of_mem _ h2, List.mem_cons_of_mem _ h3⟩

/-- Records with the same hash as what is stored. -/
theorem record_same {w : World} {s t : FullState} {rest : List FullState} {s' : FullState} (ht : Sound w t)
    (hs : Sound w s) (hh : HashTells w.hashFn t.tree t.vals s.tree s.vals) {path name : Str} {v : Value}
    (h : RemovedRecord w path name (t :: rest, s') v) {d : Tree ⊕ FlaggedVal} (hd : s.item (path, some name) = some d)
    (he : v.val.hash = some (w.hashFn (itemBytes d))) :
    s.facts (path, some name) = Event.before (path, some name) (t :: rest, s') := by
  obtain ⟨_, c, hc, hv⟩ := h
  have hc : t.item (path, some name) = some c := hc
  rw [hv] at he
  rw [facts_item hd]
  show _ = t.facts _
  rw [facts_item hc, (same_hash ht hs hh ((item_some ht.once _ _).1 hc) ((item_some hs.once _ _).1 hd)).1
    (Option.some.inj he)]

theorem record_hash {w : World} {s t : FullState} {rest : List FullState} {s' : FullState} (ht : Sound w t)
    (hs : Sound w s) (hh : HashTells w.hashFn t.tree t.vals s.tree s.vals) {path name : Str} {v : Value}
    (h : RemovedRecord w path name (t :: rest, s') v) {d : Tree ⊕ FlaggedVal} (hd : s.item (path, some name) = some d)
    (he : s.facts (path, some name) = Event.before (path, some name) (t :: rest, s')) :
    v.val.hash = some (w.hashFn (itemBytes d)) := by
  obtain ⟨_, c, hc, hv⟩ := h
  have hc : t.item (path, some name) = some c := hc
  rw [facts_item hd] at he
  have he : some (itemFacts d) = t.facts _ := he
  rw [facts_item hc] at he
  rw [hv, (same_hash ht hs hh ((item_some ht.once _ _).1 hc) ((item_some hs.once _ _).1 hd)).2
    (Option.some.inj he).symm]

theorem two_of_length {α : Type} {l : List α} (h : 2 ≤ l.length) : ∃ x y, [x, y].Sublist l := by
  match l, h with
  | x :: y :: l, _ => exact ⟨x, y, .cons_cons _ (.cons_cons _ (List.nil_sublist _))⟩

/-- What remains of the records of removed values when an entry puts values there. -/
theorem kept_records {w : World} {b : FullState} {past : List FullState} {recs kept : List Value} {path : Str}
    {seen : List Seen} (hb : Sound w b) (hall : ∀ s ∈ past, Sound w s)
    (hh : ∀ s ∈ past, ∀ t ∈ b :: past, HashTells w.hashFn s.tree s.vals t.tree t.vals)
    (hseen : Pairwise2 (fun (x : Seen) (y : ItemKey × (Tree ⊕ FlaggedVal)) =>
      x.key = y.1 ∧ ItemIs w b x.hash x.off y.2) seen b.items)
    (hlt : ∀ e ∈ events past, e.2.seq < b.seq) (hpast : ∃ a older, past = a :: older)
    (hsound : ∀ v ∈ recs, v.versions = [] ∧ ∃ e, Removal (events past) (path, some v.val.name) e ∧
      RemovedRecord w path v.val.name e v)
    (horder : recs.Pairwise fun v v' => v.val.name = v'.val.name →
      ∃ x y, v.val.updatedBySeq = some x ∧ v'.val.updatedBySeq = some y ∧ x < y)
    (h : Retracts (CurrentValue seen path) (fun a b => b.val.name = a.val.name ∧ b.val.hash = a.val.hash) recs kept) :
    (∀ v ∈ kept, v.versions = [] ∧ ∃ e, Removal (events (b :: past)) (path, some v.val.name) e ∧
      RemovedRecord w path v.val.name e v) ∧
    ∀ v ∈ recs, ∀ e ∈ events past, RemovedRecord w path v.val.name e v →
      b.facts (path, some v.val.name) ≠ e.before (path, some v.val.name) → v ∈ kept := by
  obtain ⟨a, older, rfl⟩ := hpast
  have hev : events (b :: a :: older) = (a :: older, b) :: events (a :: older) := rfl
  refine ⟨fun v hv => ?_, fun v hv e he hr hne => ?_⟩
  · obtain ⟨hver, e, ⟨he, hrem, haway⟩, hr⟩ := hsound v (h.sub.subset hv)
    refine ⟨hver, e, ⟨by rw [hev]; exact List.mem_cons_of_mem _ he, hrem, ?_⟩, hr⟩
    have twice : RemovedTwice (events (a :: older)) (path, some v.val.name) e →
        RemovedTwice (events (b :: a :: older)) (path, some v.val.name) e := by
      rintro ⟨e', he', hx⟩
      exact ⟨e', by rw [hev]; exact List.mem_cons_of_mem _ he', hx⟩
    rcases haway with haway | ht
    · by_cases hc : b.facts (path, some v.val.name) = e.before (path, some v.val.name)
      · right
        apply twice
        obtain ⟨t, rest, h1, h2, h3⟩ := event_states _ e he
        obtain ⟨e1, s'⟩ := e
        cases h1
        cases hd : b.item (path, some v.val.name) with
        | none =>
          rw [facts_none hd] at hc
          obtain ⟨_, c, hwas, _⟩ := hr
          have hwas : t.item _ = some c := hwas
          have hc : none = t.facts _ := hc
          rw [facts_item hwas] at hc
          cases hc
        | some d =>
          have hhash := record_hash (hall t h2) hb (hh t h2 b List.mem_cons_self) hr hd hc
          obtain ⟨x, hx, hxk, hxi⟩ := pairwise2_mem_right hseen _ ((item_some hb.once _ _).1 hd)
          have hcur : CurrentValue seen path v := ⟨x, hx, hxk, by rw [hxi.1, hhash]⟩
          have hone := h.one v hcur (fun y => decide (y.val.name = v.val.name ∧ y.val.hash = v.val.hash))
            (fun y => decide_eq_true_iff)
          have hmem : v ∈ kept.filter fun y => decide (y.val.name = v.val.name ∧ y.val.hash = v.val.hash) :=
            List.mem_filter.2 ⟨hv, decide_eq_true ⟨rfl, rfl⟩⟩
          have hpos := List.length_pos_of_mem hmem
          obtain ⟨v1, v2, hsub⟩ := two_of_length (l := recs.filter fun y : Value => decide (y.val.name = v.val.name ∧
            y.val.hash = v.val.hash)) (by omega)
          have hm1 := List.mem_filter.1 (hsub.subset (List.mem_cons_self))
          have hm2 := List.mem_filter.1 (hsub.subset (List.mem_cons_of_mem _ List.mem_cons_self))
          have hs1 := of_decide_eq_true hm1.2
          have hs2 := of_decide_eq_true hm2.2
          have hlt' := List.pairwise_pair.1 (horder.sublist (hsub.trans List.filter_sublist))
          obtain ⟨x1, x2, hu1, hu2, hx12⟩ := hlt' (hs1.1.trans hs2.1.symm)
          have other : ∀ v', v' ∈ recs → v'.val.name = v.val.name → v'.val.hash = v.val.hash →
              ∀ x, v'.val.updatedBySeq = some x → x ≠ s'.seq →
              RemovedTwice (events (a :: older)) (path, some v.val.name) (t :: rest, s') := by
            intro v' hv' hn' hh' x hx hne
            obtain ⟨_, e', ⟨he', hrem', _⟩, hr'⟩ := hsound v' hv'
            rw [hn'] at hrem' hr'
            obtain ⟨t', rest', g1, g2, _⟩ := event_states _ e' he'
            obtain ⟨e1', s''⟩ := e'
            cases g1
            have hxs : x = s''.seq := by
              have : v'.val.updatedBySeq = some s''.seq := hr'.1.2.2.2
              rw [hx] at this
              exact Option.some.inj this
            refine ⟨_, he', fun e => hne (hxs.trans e), hrem', ?_⟩
            obtain ⟨_, c, hwas, hvh⟩ := hr
            have hwas : t.item _ = some c := hwas
            have := record_same (hall t' g2) (hall t h2) (hh t' g2 t (List.mem_cons_of_mem _ h2)) hr' hwas
              (by rw [hh', hvh])
            exact this.symm
          by_cases e1 : x1 = s'.seq
          · exact other v2 hm2.1 hs2.1 hs2.2 x2 hu2 (by omega)
          · exact other v1 hm1.1 hs1.1 hs1.2 x1 hu1 e1
      · left
        intro e' he' hlt'
        rw [hev] at he'
        rcases List.mem_cons.1 he' with rfl | he'
        · exact hc
        · exact haway e' he' hlt'
    · exact .inr (twice ht)
  · have hnc : ¬ CurrentValue seen path v := by
      rintro ⟨x, hx, hxk, hxh⟩
      obtain ⟨⟨k', d⟩, hd, e2, hi⟩ := pairwise2_mem_left hseen x hx
      have e2 : x.key = k' := e2
      rw [← e2, hxk] at hd
      obtain ⟨t, rest, h1, h2, h3⟩ := event_states _ e he
      obtain ⟨e1, s'⟩ := e
      cases h1
      exact hne (record_same (hall t h2) hb (hh t h2 b List.mem_cons_self) hr ((item_some hb.once _ _).2 hd)
        (by rw [← hxh, hi.1]))
    classical
    have := h.rest (fun y => decide (y = v)) (fun y hy => by rw [of_decide_eq_true hy]; exact hnc)
    have hm : v ∈ kept.filter (fun y => decide (y = v)) := by
      rw [this]; exact List.mem_filter.2 ⟨hv, decide_eq_true rfl⟩
    exact (List.mem_filter.1 hm).1

theorem kept_step (w : World) (hw : 1 < w.depth) (hord : ∀ m, (w.order m).Perm m) (a b : FullState)
    (before after : Bytes) (older : List FullState) (done : List (FileState × FileState)) (st st' : State) (items items' : RegItemMap)
    (ha : Sound w a) (hb : Sound w b) (hh : HashTells w.hashFn a.tree a.vals b.tree b.vals)
    (hrec : LostRecords w done st) (hdesc : Describes w a.plain items) (hk : Kept w (a :: older) a items)
    (hp : PastRecords w (a :: older) st) (hall : ∀ s ∈ a :: older, Sound w s)
    (hhall : ∀ s ∈ a :: older, ∀ t ∈ b :: a :: older, HashTells w.hashFn s.tree s.vals t.tree t.vals)
    (hlt : ∀ e ∈ events (a :: older), e.2.seq < b.seq)
    (N : Nat) (hrun : ∀ steps, N ≤ steps →
      analyzeEntry (w.env (a.buf ++ before)) (w.env (b.buf ++ after)) w.order steps b.seq (st, items) = some (.ok (st', items'))) :
    Kept w (b :: a :: older) b items' ∧ PastRecords w (b :: a :: older) st' := by
  have hatt := hrec.attachOk (b.buf ++ after) hw
  have hb' := ordinary_more hb.ordinary after
  obtain ⟨N', ns, hit, hsees, hwv⟩ := state_iterates w st { b.plain with buf := b.plain.buf ++ after } hb' hrec.top
    hrec.stateDel hatt
  replace hsees : Sees b.plain ns := hsees
  replace hit : ∀ steps, N' ≤ steps → Iterated (w.env (b.buf ++ after)) steps false st ns := hit
  replace hwv : ∀ n ∈ ns, WithValues (w.env (b.buf ++ after)) b.tree n := hwv
  have hplain := sees_plain hb.ordinary hsees
  have hroot : NothingAtRoot (w.env (b.buf ++ after)) st := nothingAtRoot_of (t := b.tree) hb'.stored.bin
    (treeAt_keyAt hb'.stored.tree) hb'.stored.top hatt hb.ordinary.root hrec.top
  have hit := hit (max N N') (by omega)
  obtain ⟨hcomp, st1, items1, lg, hl, ⟨ro, han⟩, _⟩ := analysis_continues (w.env (a.buf ++ before))
    (w.env (b.buf ++ after)) w.order _ b.seq items st ns hit hplain hroot (hdesc.are before) hdesc.once hord
  have hrun := hrun (max N N') (by omega)
  unfold analyzeEntry at hrun
  rw [hl] at hrun
  simp only [Option.some.injEq, Res.ok.injEq, Prod.mk.injEq] at hrun
  obtain ⟨e1, rfl⟩ := hrun
  have hseen := seen_items hb after (sees_obs hsees) (iterated_live _ _ _ _ _ hroot (fun h => by cases h) hit) hwv
  have hsome : ∀ {k c}, (k, c) ∈ b.items → ∃ x ∈ ns.flatMap seenOf, x.key = k ∧ ItemIs w b x.hash x.off c := by
    intro k c hc
    obtain ⟨x, hx, h1, h2⟩ := pairwise2_mem_right hseen (k, c) hc
    exact ⟨x, hx, h1, h2⟩
  -- what is changed
  have hchanged : ∀ k p, Changed items (ns.flatMap seenOf) k p ↔ (k, p) ∈ items ∧ Event.changes k (a :: older, b) = true := by
    intro k p
    rw [changes_iff]
    constructor
    · rintro ⟨h1, x, hx, rfl, hne⟩
      obtain ⟨c, hc, hi, _⟩ := hk.item h1
      obtain ⟨⟨k', d⟩, hd, e2, hj⟩ := pairwise2_mem_left hseen x hx
      have e2 : x.key = k' := e2
      subst e2
      refine ⟨h1, c, d, (item_some ha.once _ _).2 hc, (item_some hb.once _ _).2 hd, ?_⟩
      intro e
      apply hne
      rw [hj.1, hi.1, (same_hash ha hb hh hc hd).2 e]
    · rintro ⟨h1, c', d, h2, h3, hne⟩
      obtain ⟨c, hc, hi, _⟩ := hk.item h1
      have e2 : c' = c := by
        have := (item_some ha.once _ _).2 hc
        rw [h2] at this
        exact Option.some.inj this
      subst e2
      have hd := (item_some hb.once _ _).1 h3
      obtain ⟨x, hx, hxk, hj⟩ := hsome hd
      refine ⟨h1, x, hx, hxk, ?_⟩
      rw [hi.1, hj.1]
      intro e
      exact hne ((same_hash ha hb hh hc hd).1 (Option.some.inj e).symm)
  -- what is gone
  have hgone : ∀ k p, Gone items (ns.flatMap seenOf) (k, p) ↔ (k, p) ∈ items ∧ Event.removes k (a :: older, b) := by
    intro k p
    rw [removes_iff]
    constructor
    · rintro ⟨h1, h2⟩
      obtain ⟨c, hc, _⟩ := hk.item h1
      refine ⟨h1, by rw [(item_some ha.once _ _).2 hc]; simp, ?_⟩
      cases hd : b.item k with
      | none => rfl
      | some d =>
        obtain ⟨x, hx, hxk, _⟩ := hsome ((item_some hb.once _ _).1 hd)
        exact absurd hxk (h2 x hx)
    · rintro ⟨h1, _, h2⟩
      refine ⟨h1, ?_⟩
      rintro x hx hxk
      obtain ⟨⟨k', d⟩, hd, e2, _⟩ := pairwise2_mem_left hseen x hx
      have e2 : x.key = k' := e2
      have hxk : x.key = k := hxk
      rw [← e2, hxk] at hd
      rw [(item_some hb.once _ _).2 hd] at h2
      cases h2
  obtain ⟨st1', lat1, lg1, f1, _, _, hlat⟩ := analysis_latest (w.env (a.buf ++ before)) w.order b.seq (ns.flatMap seenOf)
    items { st with rootOffset := ro } hcomp
  obtain ⟨st2, lat2, lg2, f2, hmk, hmk'⟩ := analysis_modified_keys (w.env (a.buf ++ before)) w.order b.seq (ns.flatMap seenOf)
    items { st with rootOffset := ro } hcomp
  obtain ⟨st3, lat3, lg3, f3, hmv, hmv'⟩ := analysis_modified_values (w.env (a.buf ++ before)) w.order b.seq (ns.flatMap seenOf)
    items { st with rootOffset := ro } hcomp
  obtain ⟨st4, lat4, lg4, f4, hdv⟩ := analysis_deleted_values (w.env (a.buf ++ before)) w.order b.seq (ns.flatMap seenOf)
    items { st with rootOffset := ro } hcomp
  rw [han] at f1 f2 f3 f4
  cases f1; cases f2; cases f3; cases f4
  subst e1
  refine ⟨?_, ?_⟩
  · -- the items kept
    have hflip : Pairwise2 _ items1 (ns.flatMap seenOf) := pairwise2_flip (fun _ _ h => h) hlat
    have hseen' := pairwise2_imp (fun x _ y hy h => And.intro h hy) hseen
    refine pairwise2_trans ?_ hflip hseen'
    rintro ⟨k, it⟩ x ⟨k', d⟩ ⟨h1, h2, h3, h4⟩ ⟨⟨h5, h6⟩, hd⟩
    have h1 : k = x.key := h1
    have h5 : x.key = k' := h5
    subst h1 h5
    have h2 : some it.hash = x.hash := h2
    have h3 : it.off = x.off := h3
    refine ⟨rfl, by rw [← h2, ← h3] at h6; exact h6, ?_⟩
    rw [since]
    have hdi := (item_some hb.once _ _).2 hd
    rcases h4 with ⟨p, hpm, e1, e2⟩ | ⟨hne, e2⟩
    · obtain ⟨c, hc, hi, hs⟩ := hk.item hpm
      rw [if_pos]
      · exact e2.trans hs
      · rw [facts_item hdi, facts_item ((item_some ha.once _ _).2 hc)]
        congr 1
        refine ((same_hash ha hb hh hc hd).1 ?_).symm
        rw [h6.1, hi.1] at e1
        exact (Option.some.inj e1).symm
    · rw [if_neg]
      · exact e2
      · rw [facts_item hdi]
        intro e
        cases hc : a.item x.key with
        | none => rw [facts_none hc] at e; cases e
        | some c =>
          rw [facts_item hc] at e
          have hcm := (item_some ha.once _ _).1 hc
          obtain ⟨p, hpm, hi, _⟩ := hk.all hcm
          apply hne p hpm
          rw [h6.1, hi.1, (same_hash ha hb hh hcm hd).2 (Option.some.inj e).symm]
  · -- the records
    have hdel : ∀ path, ∃ kept gone new, (st1.deletedValues path).getD [] = kept ++ new ∧
        kept.Sublist ((st.deletedValues path).getD []) ∧
        (∀ v ∈ kept, v.versions = [] ∧ ∃ e, Removal (events (b :: a :: older)) (path, some v.val.name) e ∧
          RemovedRecord w path v.val.name e v) ∧
        (∀ v ∈ (st.deletedValues path).getD [], ∀ e ∈ events (a :: older), RemovedRecord w path v.val.name e v →
          b.facts (path, some v.val.name) ≠ e.before (path, some v.val.name) → v ∈ kept) ∧
        (∀ k p, (k, p) ∈ gone ↔ ((k, p) ∈ items ∧ Event.removes k (a :: older, b)) ∧ k.1 = path ∧ k.2 ≠ none) ∧
        gone.Nodup ∧
        Pairwise2 (fun x v => ∃ name, x.1.2 = some name ∧
          IsValueVersion (w.env (a.buf ++ before)) b.seq .DeletedTransactionLog name x.2 v) gone new := by
      intro path
      obtain ⟨kept, gone, new, h1, h2, h3, h4, h5⟩ := hdv path
      obtain ⟨k1, k2⟩ := kept_records hb hall hhall hseen hlt ⟨a, older, rfl⟩ (hp.goneSound path) (hp.goneOrder path) h2
      refine ⟨kept, gone, new, h1, h2.sub, k1, k2, fun k p => ?_, h3, h5⟩
      rw [h4, hgone]
    have hnewest : ∀ e' ∈ events (b :: a :: older), ¬ b.seq < e'.2.seq := by
      intro e' he' hx
      rcases List.mem_cons.1 he' with rfl | he'
      · exact absurd hx (Nat.lt_irrefl _)
      · have := hlt e' he'; omega
    have hev : events (b :: a :: older) = (a :: older, b) :: events (a :: older) := rfl
    refine ⟨?_, ?_, ?_, ?_, ?_⟩
    · intro path
      show Pairwise2 _ _ ((st1.modifiedKeys path).getD [])
      rw [hev, List.filter_cons]
      by_cases hc : Event.changes (path, none) (a :: older, b) = true
      · rw [if_pos hc, List.reverse_cons]
        obtain ⟨c, d, h1, _⟩ := (changes_iff _ _ _ _).1 hc
        obtain ⟨p, hpm, hi, hs⟩ := hk.all ((item_some ha.once _ _).1 h1)
        obtain ⟨n, hn, he⟩ := hmk path p ((hchanged _ _).2 ⟨hpm, hc⟩)
        rw [he]
        exact pairwise2_snoc (hp.keys path) (keyVersion_tells ha before rfl ((item_some ha.once _ _).1 h1) hi hs hn)
      · rw [if_neg hc, hmk' path fun p hch => hc ((hchanged _ _).1 hch).2]
        exact hp.keys path
    · intro path name
      show Pairwise2 _ _ ((st1.modifiedValues (path, name)).getD [])
      rw [hev, List.filter_cons]
      by_cases hc : Event.changes (path, some name) (a :: older, b) = true
      · rw [if_pos hc, List.reverse_cons]
        obtain ⟨c, d, h1, _⟩ := (changes_iff _ _ _ _).1 hc
        obtain ⟨p, hpm, hi, hs⟩ := hk.all ((item_some ha.once _ _).1 h1)
        obtain ⟨n, hn, he⟩ := hmv path name p ((hchanged _ _).2 ⟨hpm, hc⟩)
        rw [he]
        exact pairwise2_snoc (hp.values path name)
          (valueVersion_tells ha before ((item_some ha.once _ _).1 h1) hi hs hn).1
      · rw [if_neg hc, hmv' path name fun p hch => hc ((hchanged _ _).1 hch).2]
        exact hp.values path name
    · intro path v hv
      obtain ⟨kept, gone, new, h1, _, hk1, _, h2, _, h3⟩ := hdel path
      have hv : v ∈ (st1.deletedValues path).getD [] := hv
      rw [h1] at hv
      rcases List.mem_append.1 hv with hv | hv
      · exact hk1 v hv
      · obtain ⟨⟨⟨q, nm⟩, p⟩, hx, name, hname, hver⟩ := pairwise2_mem_right h3 v hv
        obtain ⟨⟨hpm, hrem⟩, rfl, _⟩ := (h2 _ _).1 hx
        have hname : nm = some name := hname
        subst hname
        obtain ⟨c, hc, hi, hs⟩ := hk.item hpm
        obtain ⟨t1, t2, t3⟩ := valueVersion_tells (older := older) ha before hc hi hs hver
        rw [t3]
        refine ⟨t2, (a :: older, b), ⟨by rw [hev]; exact List.mem_cons_self, hrem,
          .inl fun e' he' hx => absurd hx (hnewest e' he')⟩, t1, c, (item_some ha.once _ _).2 hc, ?_⟩
        rw [← hi.1]
        exact valueVersion_hash hver
    · intro e he path name hrem haway
      obtain ⟨kept, gone, new, h1, _, _, hk2, h2, _, h3⟩ := hdel path
      show ∃ v ∈ (st1.deletedValues path).getD [], _
      rw [h1]
      rw [hev] at he
      rcases List.mem_cons.1 he with rfl | he
      · obtain ⟨c, hc⟩ := Option.ne_none_iff_exists'.1 ((removes_iff _ _ _ _).1 hrem).1
        have hcm := (item_some ha.once _ _).1 hc
        obtain ⟨p, hpm, hi, hs⟩ := hk.all hcm
        obtain ⟨v, hv, name', hname, hver⟩ := pairwise2_mem_left h3 _ ((h2 _ _).2 ⟨⟨hpm, hrem⟩, rfl, nofun⟩)
        have : name = name' := Option.some.inj hname
        subst this
        obtain ⟨t1, _, t3⟩ := valueVersion_tells (older := older) ha before hcm hi hs hver
        refine ⟨v, List.mem_append_right _ hv, t3, t1, c, hc, ?_⟩
        rw [← hi.1]
        exact valueVersion_hash hver
      · obtain ⟨v, hv, hn, h⟩ := hp.goneAll e he path name hrem
          (fun e' he' hx => haway e' (by rw [hev]; exact List.mem_cons_of_mem _ he') hx)
        refine ⟨v, List.mem_append_left _ (hk2 v hv e he (by rw [hn]; exact h) ?_), hn, h⟩
        rw [hn]
        exact haway (a :: older, b) (by rw [hev]; exact List.mem_cons_self) (hlt e he)
    · intro path
      obtain ⟨kept, gone, new, h1, hsub, hk1, _, h2, hnd, h3⟩ := hdel path
      show ((st1.deletedValues path).getD []).Pairwise _
      rw [h1, List.pairwise_append]
      have hpair : Pairwise2 (fun (x : ItemKey × Item) (v : Value) => x.1 = (path, some v.val.name)) gone new := by
        refine pairwise2_imp ?_ h3
        rintro ⟨⟨q, nm⟩, p⟩ hx v _ ⟨name, hname, hver⟩
        obtain ⟨⟨hpm, hrem⟩, rfl, _⟩ := (h2 _ _).1 hx
        have hname : nm = some name := hname
        subst hname
        obtain ⟨c, hc, hi, hs⟩ := hk.item hpm
        rw [(valueVersion_tells (older := older) ha before hc hi hs hver).2.2]
      refine ⟨(hp.goneOrder path).sublist hsub, ?_, ?_⟩
      · have hk1 : (gone.map Prod.fst).Nodup := by
          refine List.pairwise_map.2 (List.Pairwise.imp_of_mem ?_ hnd)
          intro x y hx hy hne e
          apply hne
          have mx := ((h2 x.1 x.2).1 hx).1.1
          have my := ((h2 y.1 y.2).1 hy).1.1
          exact map_inj_of_nodup Prod.fst items hdesc.once x mx y my e
        have := pairwise2_nodup Prod.fst (fun v : Value => ((path, some v.val.name) : ItemKey)) hpair
          (fun _ _ h => h) hk1
        exact (List.pairwise_map.1 this).imp fun hne e => absurd (by rw [e]) hne
      · intro v hv v' hv' _
        obtain ⟨_, e, ⟨he, _⟩, hr⟩ := hk1 v hv
        obtain ⟨x, hx, name, hname, hver⟩ := pairwise2_mem_right h3 v' hv'
        have he : e ∈ events (a :: older) := by
          rw [hev] at he
          rcases List.mem_cons.1 he with rfl | he
          · obtain ⟨_, e2, ⟨he2, _⟩, hr2⟩ := hp.goneSound path v (hsub.subset hv)
            have e3 : some e2.2.seq = some b.seq := hr2.1.2.2.2.symm.trans hr.1.2.2.2
            have := hlt e2 he2
            have := Option.some.inj e3
            omega
          · exact he
        obtain ⟨kv, r, _, _, _, rfl⟩ := hver
        exact ⟨_, _, hr.1.2.2.2, rfl, hlt e he⟩

/-! ### A run of entries -/

/-- The items of the file itself. -/
theorem kept_start (w : World) (bb : BaseBlock) (hd : 0 < w.depth) (s : FullState) (hs : Sound w s) (h0 : s.seq = 0) (st : State)
    (hst : st.Plain) (N : Nat) (items : RegItemMap)
    (hrun : ∀ steps, N ≤ steps → getRegItems (w.env s.buf) steps 0 st = some (.ok (items, st))) :
    Kept w [s] s items ∧ PastRecords w [s] st := by
  have hdel : StateDel st := by
    intro p ds h
    rw [hst.1] at h; cases h
  have hatt : AttachOk (w.env s.buf) st := attachOk_empty _ _ hd hst.1
  have ht := hs.ordinary.stored
  obtain ⟨root, N', ns, live, h1, h2, h3, h4, h5, h6, h7⟩ := iteration_shown (w.env s.buf) st s.tree true false ht.bin
    ht.top ht.tree ht.once hdel hatt
  have hno : ∀ path, NothingAt st path := fun path => ⟨by rw [hst.1]; rfl, by rw [hst.2.2.1]; rfl⟩
  have hnone : NothingAtRoot (w.env s.buf) st := fun _ _ _ => hno _
  have hbare := iterated_live (w.env s.buf) N' true st ns hnone (fun _ => hno) ⟨some root, st.rootOffset, h1, h2⟩
  have hobs : ns.map obs = s.plain.keys := by
    obtain ⟨root', hr, hl⟩ := plain_lists w s.buf bb st s.tree hd hst.1 ht.toStoredTree
    obtain ⟨steps0, ns0, hi0, hobs⟩ := hl true false
    rw [h1] at hr
    cases hr
    have := collect_unique (fuelMono_pre (w.env s.buf)) _ _ _ _ _ hi0 h2
    cases this
    exact hobs
  have hwv := start_values w hd s.plain hs.ordinary bb st hst root h1 N' ns h2
  have hseen := seen_items hs [] hobs (by rw [List.append_nil]; exact hbare) (by rw [List.append_nil]; exact hwv)
  have hkeys : (ns.flatMap seenOf).map Seen.key = s.plain.filed := by
    rw [← items_filed]
    exact (pairwise2_map (f := Seen.key) (g := Prod.fst) (fun _ _ h => h.1.symm) _ _ hseen).symm
  obtain ⟨items', e, hpw⟩ := regItemsLoop_ok 0 (ns.flatMap seenOf) [] (by
      intro x hx
      obtain ⟨y, _, _, h⟩ := pairwise2_mem_left hseen x hx
      rw [h.1]; simp) (by rw [hkeys]; exact hs.once)
  have hrun := hrun (max N N') (by omega)
  unfold getRegItems at hrun
  rw [h1] at hrun
  simp only at hrun
  rw [collect_mono (fuelMono_pre _) _ _ _ _ h2 (by omega)] at hrun
  simp only at hrun
  rw [e] at hrun
  simp only [List.nil_append, Option.some.injEq, Res.ok.injEq, Prod.mk.injEq] at hrun
  obtain ⟨rfl, _⟩ := hrun
  refine ⟨?_, ?_⟩
  · refine pairwise2_trans ?_ (pairwise2_flip (fun _ _ h => h) hpw) hseen
    rintro ⟨k, it⟩ x ⟨k', d⟩ ⟨g1, g2, g3, g4⟩ ⟨g5, g6⟩
    refine ⟨g1.trans g5, ?_, ?_⟩
    · have g2 : some it.hash = x.hash := g2
      have g3 : it.off = x.off := g3
      rw [← g2, ← g3] at g6
      exact g6
    · show it.seq = s.seq
      rw [h0]; exact g4
  · refine ⟨fun path => ?_, fun path name => ?_, fun path v hv => ?_, nofun, fun path => ?_⟩
    · rw [hst.2.2.2]; trivial
    · rw [hst.2.1]; trivial
    · rw [hst.2.2.1] at hv; cases hv
    · rw [hst.2.2.1]; exact List.Pairwise.nil

theorem events_suffix : ∀ (l : List FullState) (a : FullState) (older : List FullState),
    ∃ evs, events (l ++ a :: older) = evs ++ events (a :: older) := by
  intro l
  induction l with
  | nil => intro a older; exact ⟨[], rfl⟩
  | cons b l ih =>
    intro a older
    obtain ⟨evs, e⟩ := ih a older
    cases l with
    | nil => exact ⟨[(a :: older, b)], rfl⟩
    | cons c l => exact ⟨(c :: l ++ a :: older, b) :: evs, by
        rw [List.cons_append] at e ⊢
        rw [List.cons_append, events, e]; rfl⟩

theorem events_head {a : FullState} {older : List FullState} {e : Event} {evs : List Event}
    (h : events (a :: older) = e :: evs) : e.2 = a := by
  cases older with
  | nil => cases h
  | cons t rest => rw [events] at h; cases h; rfl

theorem events_before {b : FullState} {past : List FullState} (h : Newest (b :: past)) :
    ∀ e ∈ events past, e.2.seq < b.seq := by
  intro e he
  obtain ⟨_, _, _, _, h3⟩ := event_states past e he
  exact (List.pairwise_cons.1 h).1 _ h3

theorem kept_run (w : World) (hw : 1 < w.depth) (hord : ∀ m, (w.order m).Perm m) (bins : Nat)
    (all : List FullState) (hs : ∀ s ∈ all, Sound w s)
    (hh : ∀ s ∈ all, ∀ t ∈ all, HashTells w.hashFn s.tree s.vals t.tree t.vals) :
    ∀ (entries : List LogEntry) (size k : Nat) (a : FullState) (rest older : List FullState)
      (done : List (FileState × FileState)) (st : State) (items : RegItemMap), bins ≤ size →
      all = older.reverse ++ a :: rest → Replays size entries a.plain (rest.map FullState.plain) →
      (∀ s ∈ rest, s.tree.name = a.tree.name) → LostRecords w done st → Describes w a.plain items →
      Kept w (a :: older) a items → PastRecords w (a :: older) st → Newest all.reverse →
      (∀ p ∈ done, ∀ key, Lost p.1 p.2 key → ∀ s ∈ a :: rest, key.2 ∉ s.plain.paths) →
      NoReturn ((a :: rest).map FullState.plain) →
      ∃ N k' st' items', (∀ steps, N ≤ steps →
        recordedOver (World.analyze { w with steps } true) 4096 bins entries (a.buf ++ List.replicate k 0)
          (some (.ok (st, items))) = some (.ok (st', items'))) ∧ LostRecords w (done ++ steps ((a :: rest).map FullState.plain)) st' ∧
        PastRecords w all.reverse st' ∧
        applyAll 4096 bins entries (a.buf ++ List.replicate k 0) =
          .ok (((a :: rest).getLast (by simp)).buf ++ List.replicate k' 0) := by
  intro entries
  induction entries with
  | nil =>
    intro size k a rest older done st items hsize hal hrep hn hrec hit hk hp hnv hret hno
    cases rest with
    | cons => exact absurd hrep (by simp [Replays])
    | nil =>
      refine ⟨0, k, st, items, fun _ _ => rfl, by simpa [steps] using hrec, ?_, rfl⟩
      rw [hal, List.reverse_append, List.reverse_reverse]
      exact hp
  | cons e es ih =>
    intro size k a rest older done st items hsize hal hrep hn hrec hit hk hp hnv hret hno
    cases rest with
    | nil => exact absurd hrep (by simp [Replays])
    | cons b rest =>
      rw [List.map_cons, Replays] at hrep
      obtain ⟨hseq, hwr, hrep⟩ := hrep
      obtain ⟨hgrow, happ⟩ := replays_apply (k := k) hsize hwr
      have ham : a ∈ all := by rw [hal]; simp
      have hbm : b ∈ all := by rw [hal]; simp
      have hold : ∀ s ∈ a :: older, s ∈ all := by
        intro s hs
        rw [hal]
        rcases List.mem_cons.1 hs with rfl | hs
        · simp
        · exact List.mem_append_left _ (List.mem_reverse.2 hs)
      have hbn := hn b List.mem_cons_self
      obtain ⟨N1, st1, items1, h1, h2, h3⟩ := records_step w hw hord a.plain b.plain
        (List.replicate (k + (e.hiveBinsDataSize - bins)) 0)
        (List.replicate (k + (e.hiveBinsDataSize - bins) - (e.hiveBinsDataSize - size)) 0) done st items (hs a ham).ordinary
        (hs b hbm).ordinary hbn hrec (fun p hp key hk => hret p hp key hk a List.mem_cons_self)
        (fun p hp key hk => hret p hp key hk b (List.mem_cons_of_mem _ List.mem_cons_self)) hit
      obtain ⟨k1, k2⟩ := kept_step w hw hord a b _ _ older done st st1 items items1 (hs a ham) (hs b hbm)
        (hh a ham b hbm) hrec hit hk hp (fun s hs' => hs s (hold s hs'))
        (fun s hs' t ht => hh s (hold s hs') t (by
          rcases List.mem_cons.1 ht with rfl | ht
          · exact hbm
          · exact hold t ht))
        (events_before (by
          have : all.reverse = rest.reverse ++ b :: a :: older := by rw [hal]; simp
          rw [this] at hnv
          exact (List.pairwise_append.1 hnv).2.1)) N1 h1
      rw [List.map_cons, List.map_cons, NoReturn] at hno
      obtain ⟨N2, k', st2, items2, h4, h5, h6, h7⟩ := ih _
        (k + (e.hiveBinsDataSize - bins) - (e.hiveBinsDataSize - size)) b rest (a :: older) (done ++ [(a.plain, b.plain)]) st1 items1
        (by omega) (by rw [hal]; simp) hrep (fun s hs => by rw [hn s (List.mem_cons_of_mem _ hs), hbn]) h2 h3 k1 k2 hnv (by
          intro p hp key hk s hs
          rcases List.mem_append.1 hp with hp | hp
          · exact hret p hp key hk s (List.mem_cons_of_mem _ hs)
          · rw [List.mem_singleton] at hp
            subst hp
            rcases List.mem_cons.1 hs with rfl | hs
            · exact hk.2
            · exact hno.1 key hk _ (List.mem_map.2 ⟨s, hs, rfl⟩)) hno.2
      refine ⟨max N1 N2, k', st2, items2, ?_, ?_, h6, ?_⟩
      · intro steps hs
        have happ : applyEntry 4096 bins e (a.buf ++ List.replicate k 0) = .ok (b.buf ++ _) := happ
        have hgrow : growBuffer bins e.hiveBinsDataSize (a.buf ++ List.replicate k 0) = a.buf ++ _ := hgrow
        rw [recordedOver, happ]
        simp only
        rw [hgrow]
        have : World.analyze { w with steps } true (a.buf ++ List.replicate (k + (e.hiveBinsDataSize - bins)) 0) e.seq
            (b.buf ++ List.replicate (k + (e.hiveBinsDataSize - bins) - (e.hiveBinsDataSize - size)) 0)
            (some (.ok (st, items))) = some (.ok (st1, items1)) := by
          unfold World.analyze
          simp only [if_true]
          rw [← hseq]
          exact h1 steps (by omega)
        rw [this]
        exact h4 steps (by omega)
      · rw [List.map_cons, List.map_cons, steps]
        rw [List.append_assoc] at h5
        exact h5
      · have happ : applyEntry 4096 bins e (a.buf ++ List.replicate k 0) = .ok (b.buf ++ _) := happ
        rw [applyAll, happ, Res.bind_ok, h7]
        rfl

/-! ### What is attached -/

theorem pairwise2_reverse {α β : Type} {R : α → β → Prop} : ∀ {as : List α} {bs : List β}, Pairwise2 R as bs →
    Pairwise2 R as.reverse bs.reverse
  | [], [], _ => trivial
  | [], _ :: _, h => absurd h (by simp [Pairwise2])
  | _ :: _, [], h => absurd h (by simp [Pairwise2])
  | _ :: _, _ :: _, h => by
    rw [List.reverse_cons, List.reverse_cons]
    exact pairwise2_snoc (pairwise2_reverse h.2) h.1

theorem pairwise2_pairwise {α β : Type} {R : α → β → Prop} {P : α → α → Prop} {Q : β → β → Prop}
    (hq : ∀ a b a' b', R a b → R a' b' → P a a' → Q b b') : ∀ {as : List α} {bs : List β}, Pairwise2 R as bs →
    as.Pairwise P → bs.Pairwise Q
  | [], [], _, _ => List.Pairwise.nil
  | [], _ :: _, h, _ => absurd h (by simp [Pairwise2])
  | _ :: _, [], h, _ => absurd h (by simp [Pairwise2])
  | a :: as, b :: bs, h, hp => by
    rw [List.pairwise_cons] at hp ⊢
    refine ⟨fun b' hb' => ?_, pairwise2_pairwise hq h.2 hp.2⟩
    obtain ⟨a', ha', hr⟩ := pairwise2_mem_right h.2 b' hb'
    exact hq a b a' b' h.1 hr (hp.1 a' ha')

/-- Sorting records that come with decreasing numbers from newest to oldest gives the newest first. -/
theorem sorted_versions {β : Type} (f : β → Option Nat) {R : Event → β → Prop} (k : ItemKey)
    (hR : ∀ e v, R e v → f v = some (since k e.1)) (past : List FullState) (hn : Newest past) (vs : List β)
    (h : Pairwise2 R ((events past).filter (Event.changes k)).reverse vs) :
    Pairwise2 R ((events past).filter (Event.changes k)) (vs.mergeSort fun a b => seqGe (f a) (f b)) := by
  have hrev := pairwise2_reverse h
  rw [List.reverse_reverse] at hrev
  have hstrict : vs.reverse.Pairwise fun v v' => ∃ x y, f v = some x ∧ f v' = some y ∧ y < x :=
    pairwise2_pairwise (fun e v e' v' h1 h2 hlt => ⟨_, _, hR e v h1, hR e' v' h2, hlt⟩) hrev
      (since_pairwise k past hn)
  have hinj : ∀ v ∈ vs, ∀ v' ∈ vs, f v = f v' → v = v' := by
    have : ∀ l : List β, (l.Pairwise fun v v' => ∃ x y, f v = some x ∧ f v' = some y ∧ y < x) →
        ∀ v ∈ l, ∀ v' ∈ l, f v = f v' → v = v' := by
      intro l
      induction l with
      | nil => intro _ v hv; cases hv
      | cons a l ih =>
        intro hl v hv v' hv' e
        rw [List.pairwise_cons] at hl
        rcases List.mem_cons.1 hv with h1 | h1 <;> rcases List.mem_cons.1 hv' with h2 | h2
        · rw [h1, h2]
        · obtain ⟨x, y, e1, e2, hlt⟩ := hl.1 v' h2
          rw [← h1, e, e2] at e1
          cases e1; omega
        · obtain ⟨x, y, e1, e2, hlt⟩ := hl.1 v h1
          rw [← h2, ← e, e2] at e1
          cases e1; omega
        · exact ih hl.2 v h1 v' h2 e
    intro v hv v' hv' e
    exact this _ hstrict v (List.mem_reverse.2 hv) v' (List.mem_reverse.2 hv') e
  have he : (vs.mergeSort fun a b => seqGe (f a) (f b)) = vs.reverse := by
    refine List.Perm.eq_of_pairwise (le := fun a b => seqGe (f a) (f b) = true) ?_
      (List.pairwise_mergeSort (le := fun a b => seqGe (f a) (f b)) (fun a b c => seqGe_trans (f a) (f b) (f c))
        (fun a b => seqGe_total (f a) (f b)) vs) ?_
      ((List.mergeSort_perm _ _).trans (List.reverse_perm vs).symm)
    · intro a b ha hb h1 h2
      refine hinj a (List.mem_mergeSort.1 ha) b (List.mem_reverse.1 hb) ?_
      cases hfa : f a <;> cases hfb : f b <;> rw [hfa, hfb] at h1 h2 <;> simp [seqGe] at h1 h2
      · congr 1; omega
    · refine hstrict.imp ?_
      rintro v v' ⟨x, y, e1, e2, hlt⟩
      rw [e1, e2]
      simp [seqGe]
      omega
  rw [he]
  exact hrev

theorem Spec.TellsPast.congr {last : FullState} {evs : List Event} {n m : Node} (h : TellsPast last evs n)
    (h1 : m.versions = n.versions) (h2 : m.key.path = n.key.path) (h3 : m.key.values = n.key.values) :
    TellsPast last evs m := by
  obtain ⟨a, b⟩ := h
  refine ⟨by rw [h1, h2]; exact a, ?_⟩
  rw [h2, h3]
  exact b

theorem strLe_refl (a : Str) : strLe a a = true := by
  have := strLe_total a a
  rwa [Bool.or_self] at this

theorem strLe_antisymm (a b : Str) (h1 : strLe a b = true) (h2 : strLe b a = true) : a = b := by
  apply Classical.byContradiction
  intro hne
  exact List.lt_irrefl _ (List.lt_trans (strLe_lt _ _ h1 hne) (strLe_lt _ _ h2 (Ne.symm hne)))

theorem pair_or {α : Type} {a b : α} (hne : a ≠ b) : ∀ {l : List α}, a ∈ l → b ∈ l →
    [a, b].Sublist l ∨ [b, a].Sublist l
  | [], h, _ => absurd h List.not_mem_nil
  | c :: l, ha, hb => by
    rcases List.mem_cons.1 ha with h1 | h1 <;> rcases List.mem_cons.1 hb with h2 | h2
    · exact absurd (h1.trans h2.symm) hne
    · subst h1; exact .inl (.cons_cons _ (List.singleton_sublist.2 h2))
    · subst h2; exact .inr (.cons_cons _ (List.singleton_sublist.2 h1))
    · exact (pair_or hne h1 h2).imp (.cons _) (.cons _)

theorem pair_once {α : Type} {a b : α} : ∀ {l : List α}, l.Nodup → [a, b].Sublist l → ¬ [b, a].Sublist l
  | [], _, h, _ => nomatch h
  | c :: l, hn, h1, h2 => by
    rw [List.nodup_cons] at hn
    cases h1 with
    | cons _ h1 =>
      cases h2 with
      | cons _ h2 => exact pair_once hn.2 h1 h2
      | cons_cons _ h2 => exact hn.1 (h1.subset (List.mem_cons_of_mem _ List.mem_cons_self))
    | cons_cons _ h1 =>
      cases h2 with
      | cons _ h2 => exact hn.1 (h2.subset (List.mem_cons_of_mem _ List.mem_cons_self))
      | cons_cons _ h2 => exact hn.1 (h1.subset List.mem_cons_self)

/-- Sorting keeps the order of what the comparison does not tell apart. -/
theorem stable_pairwise {α : Type} (le : α → α → Bool) (htrans : ∀ a b c, le a b = true → le b c = true → le a c = true)
    (htotal : ∀ a b, (le a b || le b a) = true) (Q : α → α → Prop) (hirr : ∀ a, ¬ Q a a) (l : List α)
    (h : l.Pairwise fun a b => le a b = true → le b a = true → Q a b) :
    (l.mergeSort le).Pairwise fun a b => le a b = true ∧ (le b a = true → Q a b) := by
  have hnd : l.Nodup := h.imp fun {a b} hab e => by
    subst e
    have := htotal a a
    rw [Bool.or_self] at this
    exact hirr a (hab this this)
  have hnd' : (l.mergeSort le).Nodup := (List.mergeSort_perm l le).nodup_iff.2 hnd
  rw [List.pairwise_iff_forall_sublist]
  intro a b hab
  have hle := List.pairwise_iff_forall_sublist.1 (List.pairwise_mergeSort htrans htotal l) hab
  refine ⟨hle, fun hba => ?_⟩
  have hne : a ≠ b := by
    rintro rfl
    exact pair_once hnd' hab hab
  have ha : a ∈ l := List.mem_mergeSort.1 (hab.subset List.mem_cons_self)
  have hb : b ∈ l := List.mem_mergeSort.1 (hab.subset (List.mem_cons_of_mem _ List.mem_cons_self))
  rcases pair_or hne ha hb with hs | hs
  · exact List.pairwise_iff_forall_sublist.1 h hs hle hba
  · exact absurd (List.pair_sublist_mergeSort htrans htotal hba hs) (pair_once hnd' hab)

/-- Attaching the records to a key shows its past. -/
theorem attached_tells {w : World} {past : List FullState} {st : State} (hp : PastRecords w past st) (hn : Newest past)
    (last : FullState) (hash : Bytes → Bytes) (fuel : Nat) (n m : Node)
    (hroot : n.key.flagBits.testBit 2 = false) (hcs : n.key.cellState.isDeletedPrimaryFile = false)
    (hver : n.versions = []) (hval : Pairwise2 (ListedVal hash) n.key.values (last.valuesOf n.key.path))
    (h : updateModifiedLists st fuel n = .ok m) : TellsPast last (events past) m := by
  have hkey := updateModifiedLists_key st fuel n m h
  have hpath : m.key.path = n.key.path := by rw [hkey]
  cases fuel with
  | zero => simp [updateModifiedLists] at h
  | succ fuel =>
    rw [updateModifiedLists] at h
    simp only at h
    rw [isKeyRoot_iff, if_neg (by simp [hcs]), hroot] at h
    simp only [Bool.false_eq_true, if_false] at h
    generalize n.key.path = p at *
    cases hd : updateModifiedLists.attachDeleted (updateModifiedLists st fuel) n.key.fileOffset n.deletedKeys
        (st.deletedKeys p) with
    | err => rw [hd] at h; cases h
    | panic => rw [hd] at h; cases h
    | ok deleted =>
      rw [hd] at h
      simp only [Res.ok.injEq] at h
      have hv : m.versions = (match st.modifiedKeys p with
          | some vs => vs.mergeSort fun a b => seqGe a.key.seq b.key.seq
          | none => n.versions) := by rw [← h]; rfl
      have hvals : m.key.values = (match st.deletedValues p with
          | some dv => n.key.values.map (attachVersions st p) ++ dv.mergeSort fun a b => strLe a.val.name b.val.name
          | none => n.key.values.map (attachVersions st p)) := by rw [← h]; rfl
      refine ⟨?_, ?_⟩
      · rw [hpath, hv]
        have hk := hp.keys p
        cases hm : st.modifiedKeys p with
        | none =>
          rw [hm] at hk
          rw [hver]
          have := pairwise2_reverse hk
          rw [List.reverse_reverse] at this
          exact this
        | some vs =>
          rw [hm] at hk
          exact sorted_versions (fun n : Node => n.key.seq) (p, none) (fun e v hv => hv.2.2.2.1) past hn vs hk
      · rw [hpath]
        have hdv : ∃ gone, m.key.values = n.key.values.map (attachVersions st p) ++ gone ∧
            gone.Perm ((st.deletedValues p).getD []) ∧
            gone.Pairwise RemovedBefore := by
          rw [hvals]
          have hord := hp.goneOrder p
          cases hm : st.deletedValues p with
          | none => exact ⟨[], by simp, .refl _, .nil⟩
          | some dv =>
            rw [hm] at hord
            refine ⟨_, rfl, List.mergeSort_perm _ _, (stable_pairwise (fun a b : Value => strLe a.val.name b.val.name)
              (fun a b c => strLe_trans a.val.name b.val.name c.val.name)
              (fun a b => strLe_total a.val.name b.val.name)
              (fun v v' => ∃ x y, v.val.updatedBySeq = some x ∧ v'.val.updatedBySeq = some y ∧ x < y)
              (fun v ⟨x, y, h1, h2, hlt⟩ => by rw [h1] at h2; cases h2; omega) dv
              (List.Pairwise.imp (fun hq h1 h2 => hq (strLe_antisymm _ _ h1 h2)) hord)).imp fun {v v'} hv => ?_⟩
            by_cases hne : v.val.name = v'.val.name
            · exact .inr ⟨hne, hv.2 (by rw [hne]; exact strLe_refl _)⟩
            · exact .inl (strLe_lt _ _ hv.1 hne)
        obtain ⟨gone, e1, e2, e3⟩ := hdv
        refine ⟨_, gone, e1, ?_, ?_, ?_, ?_⟩
        · have := pairwise2_map_map (S := fun v y => NowShows v y ∧
            Pairwise2 (TellsOldValue p v.val.name .ModifiedTransactionLog)
              ((events past).filter (Event.changes (p, some v.val.name))) v.versions)
            (attachVersions st p) id (fun v y hl => ?_) hval
          · rwa [List.map_id] at this
          · obtain ⟨g1, g2, _, _, g4, g5, g6, g7⟩ := hl
            have hnow : ∀ vs, NowShows (.mk v.val vs) y := by
              intro vs
              refine ⟨congrArg Val.name g1, congrArg Val.type g1, ?_, g2, g7, by rw [← congrArg Val.type g1]; exact g6⟩
              have : v.val.valueBytes.getD [] = y.val.data := congrArg Val.data g1
              show v.val.valueBytes = _
              cases hb : v.val.valueBytes with
              | none => exact absurd hb g5
              | some b => rw [hb] at this; rw [← this]; rfl
            have hk := hp.values p v.val.name
            unfold attachVersions
            cases hm : st.modifiedValues (p, v.val.name) with
            | none =>
              rw [hm] at hk
              have := pairwise2_reverse hk
              rw [List.reverse_reverse] at this
              simp only
              refine ⟨?_, by rw [g4]; exact this⟩
              have := hnow v.versions
              cases v
              exact this
            | some vs =>
              rw [hm] at hk
              refine ⟨hnow _, ?_⟩
              exact sorted_versions (fun n : Value => n.val.seq) (p, some v.val.name) (fun e v hv => hv.2.2.1) past hn vs hk
        · intro v hv
          obtain ⟨h1, e, h2, h3⟩ := hp.goneSound p v (e2.mem_iff.1 hv)
          exact ⟨h1, e, h2, h3.1⟩
        · intro e he name hr haway
          obtain ⟨v, hv, _, h⟩ := hp.goneAll e he p name hr haway
          exact ⟨v, e2.mem_iff.2 hv, h.1⟩
        · exact e3

/-- Everything attached is a record with its own records attached, when no record is where the key above is. -/
theorem attach_records (st : State) (P : KeyNode → Prop)
    (hrec : ∀ k, P k → ∀ d ∈ (st.deletedKeys (lookupKey k)).getD [],
      d.deletedKeys = [] ∧ d.key.fileOffset ≠ k.fileOffset ∧ P d.key) :
    ∀ (fuel : Nat) (n m : Node), n.deletedKeys = [] → P n.key → updateModifiedLists st fuel n = .ok m →
    ∀ x ∈ belowAll m.deletedKeys, ∃ q, ∃ d ∈ (st.deletedKeys q).getD [], ∃ f, updateModifiedLists st f d = .ok x := by
  intro fuel
  induction fuel using Nat.strongRecOn with
  | _ fuel ih =>
    intro n m h0 hP h x hx
    obtain ⟨f, ⟨h1, _⟩ | ⟨h1, hf⟩⟩ := attach_below st fuel n m h0 h
    · rw [h1] at hx; cases hx
    · obtain ⟨d', hd', hxd⟩ := mem_belowAll.1 hx
      obtain ⟨d, hd, hdd⟩ := pairwise2_mem_right h1 d' hd'
      obtain ⟨g1, g2, g3⟩ := hrec _ hP d hd
      rcases hdd with ⟨_, hdd⟩ | ⟨e, _⟩
      · rcases hxd with rfl | hxd
        · exact ⟨_, d, hd, f, hdd⟩
        · exact ih f hf d d' g1 g3 hdd x hxd
      · exact absurd e g2

/-- What is lost is not there in the end. -/
theorem lost_stays : ∀ (rest : List FileState) (a : FileState), NoReturn (a :: rest) → ∀ p ∈ steps (a :: rest),
    ∀ key, Lost p.1 p.2 key → key.2 ∉ ((a :: rest).getLast (by simp)).paths := by
  intro rest
  induction rest with
  | nil => intro a _ p hp; cases hp
  | cons b rest ih =>
    intro a hno p hp key hl
    rw [NoReturn] at hno
    rw [steps] at hp
    rw [List.getLast_cons (by simp)]
    rcases List.mem_cons.1 hp with rfl | hp
    · cases rest with
      | nil => exact hl.2
      | cons c rest =>
        rw [List.getLast_cons (by simp)]
        exact hno.1 key hl _ (List.getLast_mem _)
    · exact ih b hno.2 p hp key hl

theorem flaggedValuesAt_same {h : Nat} {buf buf' : Bytes} (hs : SameFrom h buf buf') {c : NkCell}
    {vs : List FlaggedVal} (hv : FlaggedValuesAt buf h c vs) : FlaggedValuesAt buf' h c vs := by
  obtain ⟨h1, h2, h3⟩ := hv
  refine ⟨h1, h2, ?_⟩
  rcases h3 with h3 | ⟨offs, lo, size, a1, a2, a3, a4, a5, a6⟩
  · exact .inl h3
  · exact .inr ⟨offs, lo, size, a1, a2, a3, a4, at_same hs (by omega) a5,
      pairwise2_imp (fun x _ y _ hxy => ⟨valueAt_same hs hxy.1, hxy.2.1, at_same hs (by omega) hxy.2.2⟩) a6⟩

theorem valuesOf_key {w : World} {s : FullState} (hs : Sound w s) {path : Str} {u : Tree}
    (h : (path, u) ∈ s.tree.keys []) : s.valuesOf path = s.vals u.off := by
  unfold FullState.valuesOf
  have hnd : ((s.tree.keys []).map Prod.fst).Nodup := by
    have := hs.ordinary.paths
    unfold FileState.paths at this
    rw [← keys_plain, List.map_map] at this
    exact this
  rw [find_of_nodup Prod.fst _ hnd (path, u) h]
  rfl

theorem valuesOf_none {s : FullState} {path : Str} (h : path ∉ s.plain.paths) : s.valuesOf path = [] := by
  unfold FullState.valuesOf
  rw [List.find?_eq_none.2]
  · rfl
  · intro x hx e
    apply h
    unfold FileState.paths
    rw [← keys_plain, List.map_map]
    exact List.mem_map.2 ⟨x, hx, eq_of_beq e⟩

theorem root_key (s : FileState) : (s.tree.off, '\\' :: s.tree.name) ∈ s.keys := by
  unfold FileState.keys
  cases s.tree with
  | mk off c name kids => rw [Tree.pre]; exact List.mem_cons_self

theorem nowShows_of {hash : Bytes → Bytes} {v : Value} {y : FlaggedVal} (h : ListedVal hash v y) : NowShows v y := by
  obtain ⟨g1, g2, _, _, g4, g5, g6, g7⟩ := h
  refine ⟨congrArg Val.name g1, congrArg Val.type g1, ?_, g2, g7, by rw [← congrArg Val.type g1]; exact g6⟩
  have : v.val.valueBytes.getD [] = y.val.data := congrArg Val.data g1
  cases hb : v.val.valueBytes with
  | none => exact absurd hb g5
  | some b => rw [hb] at this; rw [← this]; rfl

/-- A key that is shown shows the stored one. -/
theorem shown_stored {env : Env} {st : State} {u : Tree} {n : Node} (h : IsShown env st true u n) : KeyShown u n := by
  obtain ⟨gm, path, s, m, so, tr, _, hr, hkey, hlen, _, _⟩ := h
  obtain ⟨k', vs', lg', hk, _, e⟩ := hr.key
  obtain ⟨_, g2, g3, g4, _, _, _, _, _, _, _, _, _, _, _, _, _, _, _, _, _, g22, _, g24, g25, g26, _⟩ := hk
  constructor <;> rw [hkey]
  · show m.key.fileOffset = _; rw [e]; exact g24
  · show m.key.name = _; rw [e]; exact g22
  · show m.key.lastWritten = _; rw [e]; exact g3
  · show m.key.flagBits = _; rw [e]; exact g2
  · show m.key.accessBits = _; rw [e]; exact g4
  · exact hlen
  · show m.key.cellState = _; rw [e]; exact g26
  · show m.key.seq = _; rw [e]; exact g25

/-- What the iteration shows of the past. -/
theorem past_shown (w : World) (hw : 1 < w.depth) (a : FullState) (rest : List FullState) (st : State)
    (hrec : LostRecords w (steps ((a :: rest).map FullState.plain)) st)
    (hpast : PastRecords w (a :: rest).reverse st) (hnew : Newest (a :: rest).reverse)
    (hap : Apart ((a :: rest).map FullState.plain)) (hno : NoReturn ((a :: rest).map FullState.plain))
    (last : FullState) (hla : last = (a :: rest).getLast (by simp)) (hlast : Sound w last) (buf : Bytes)
    (hbuf : StoredHive w buf last.tree last.plain.vals)
    (hflags : last.tree.Every fun u => FlaggedValuesAt buf 4096 u.cell (last.vals u.off)) (anc : Bool) :
    ∃ root, initRoot (w.env buf) st = .ok (some root, st.rootOffset) ∧
    ∃ N ns, collect (nextPre (w.env buf)) N (.start st (some root) {} true anc) = some (.ok ns) ∧
      liveKeys ns = last.plain.keys ∧
      (∀ y ∈ ns, y.key.cellState = .Allocated → ∃ u ∈ last.tree.nodes, KeyShown u y) ∧
      ∀ y ∈ ns, if y.key.path = '\\' :: last.tree.name then TellsPresent last y
        else TellsPast last (events (a :: rest).reverse) y := by
  have hplast : last.plain = ((a :: rest).map FullState.plain).getLast (by simp) := by
    rw [hla, List.getLast_map]
  have hlm : last.plain ∈ (a :: rest).map FullState.plain := by rw [hplast]; exact List.getLast_mem _
  obtain ⟨root, N, ns, live, h1, h2, h3, _, _, h6, h7, h8, h9⟩ := iteration_yields (w.env buf) st last.tree true anc
    hbuf.bin hbuf.top hbuf.tree hbuf.once hrec.stateDel (hrec.attachOk buf hw)
  refine ⟨root, h1, N, ns, h2, h6, fun y hy hc => ?_, ?_⟩
  · obtain ⟨u, hu, hs⟩ := h7 y hy hc
    exact ⟨u, hu, shown_stored hs⟩
  intro y hy
  obtain ⟨m, hm, hmy⟩ := pairwise2_mem_right h9 y hy
  obtain ⟨hyv, so, tr, fs, hyk⟩ := hmy
  have hyp : y.key.path = m.key.path := by rw [hyk]
  have hyvals : y.key.values = m.key.values := by rw [hyk]
  suffices if m.key.path = '\\' :: last.tree.name then TellsPresent last m
      else TellsPast last (events (a :: rest).reverse) m by
    by_cases hp : m.key.path = '\\' :: last.tree.name
    · rw [if_pos (hyp.trans hp)]
      rw [if_pos hp] at this
      exact ⟨by rw [hyv]; exact this.versions, by rw [hyvals, hyp]; exact this.values⟩
    · rw [if_neg (by rw [hyp]; exact hp)]
      rw [if_neg hp] at this
      exact this.congr hyv hyp hyvals
  obtain ⟨n0, hn0, hm⟩ := List.mem_flatMap.1 hm
  obtain ⟨gm0, path, u, s, hu, hg, _, _, hr, hs⟩ := h8 n0 hn0
  have hg0 : gm0 = true := hg rfl
  subst hg0
  obtain ⟨k, vs, lg, s0, m', hkm, hf, hup, hn, hrv⟩ := hr
  rw [if_pos rfl] at hup
  have hkey := updateModifiedLists_key st _ _ _ hup
  obtain ⟨_, g2, _, _, _, _, _, _, _, g10, g11, _, _, _, _, _, _, _, _, _, _, _, _, g24, _⟩ := hkm
  have hobs : obs n0 = (k.fileOffset, k.path) := by
    rw [hn]
    show (m'.key.fileOffset, m'.key.path) = _
    rw [hkey]; rfl
  have he : (k.fileOffset, k.path) ∈ last.plain.keys := by
    rw [← hobs]
    have : obs n0 ∈ live.map obs := List.mem_map.2 ⟨n0, hn0, rfl⟩
    rw [h3] at this
    exact this
  have hku : (k.path, u) ∈ last.tree.keys [] := by
    rw [← keys_plain] at he
    obtain ⟨x, hx, e⟩ := List.mem_map.1 he
    have hxu : x.2 = u := map_inj_of_nodup Tree.off _ (by rw [nodes_offs]; exact hlast.ordinary.stored.once) x.2
      (by rw [← keys_nodes last.tree []]; exact List.mem_map.2 ⟨x, hx, rfl⟩) u hu (by
        have : x.2.off = k.fileOffset := congrArg Prod.fst e
        rw [this, g24])
    have hxp : x.1 = k.path := congrArg Prod.snd e
    rw [← hxu, ← hxp]
    exact hx
  have hv : vs = storedValues (w.env buf) k :=
    valuesStep_stored (w.env buf) _ _ k _ rfl hf.2.2.2.2.2.2.1 (.inl (.inl rfl)) (hrv (hs rfl))
  have hst := stored_listed (w.env buf) k u.cell (last.vals u.off) g10 g11 hf.2.2.2.2.2.2.1
    (every_nodes _ hflags u hu)
  rw [← hv] at hst
  have hst : Pairwise2 (ListedVal w.hashFn) vs (last.valuesOf k.path) := by
    rw [valuesOf_key hlast hku]
    exact hst
  by_cases hflag : k.flagBits.testBit 2 = true
  · -- the root
    have hroot : k.path = '\\' :: last.tree.name := by
      obtain ⟨u', hu', f1, _, f3⟩ := pre_from _ 4096 w.depth _ [] hlast.ordinary.stored.tree _ he
      have : u = u' := map_inj_of_nodup Tree.off _ (by rw [nodes_offs]; exact hlast.ordinary.stored.once) u hu u' hu'
        (by rw [f1, ← g24])
      subst this
      rcases f3 with ⟨_, f3⟩ | ⟨f3, _⟩
      · exact f3
      · have := everyAll_nodes _ hlast.ordinary.inner u f3
        rw [← g2, hflag] at this
        cases this
    rw [belowTree_eq] at hm
    rcases List.mem_cons.1 hm with rfl | hm
    · have hm' := attach_nothing hrec.top _ { k with values := vs, logs := lg, filterState := s0 } m' hflag (by
        intro v (hvm : v ∈ vs)
        obtain ⟨x, _, hx⟩ := pairwise2_mem_left hst v hvm
        exact hx.2.2.2.2.1) hup
      have hmp : m.key.path = k.path := congrArg Prod.snd hobs
      rw [if_pos (hmp.trans hroot)]
      have hmk : m.key.values = vs := by rw [hn, hm']; rfl
      refine ⟨by rw [hn, hm']; rfl, ?_⟩
      rw [hmp, hmk]
      exact pairwise2_imp (fun v _ y _ hl => ⟨nowShows_of hl, hl.2.2.2.2.1⟩) hst
    · have hm' : m ∈ belowAll m'.deletedKeys := by rw [hn] at hm; exact hm
      obtain ⟨q, hq, d, hd, _⟩ := attach_sound st (· = []) (fun q hq d hd => by
        rw [hq, hrec.top.keys] at hd; cases hd) _ _ m' rfl
        (by show (if k.flagBits.testBit 2 then [] else k.path) = _; rw [hflag]; rfl) hup m hm'
      rw [hq, hrec.top.keys] at hd
      cases hd
  · have hflag : k.flagBits.testBit 2 = false := by simpa using hflag
    rw [belowTree_eq] at hm
    have hroots : '\\' :: last.tree.name ∈ last.plain.paths := root_path last.plain
    rcases List.mem_cons.1 hm with rfl | hm
    · have hmp : m.key.path = k.path := congrArg Prod.snd hobs
      have hne : k.path ≠ '\\' :: last.tree.name := by
        intro e
        have := key_of_path (s := last.plain) hlast.ordinary.paths he (root_key last.plain) e
        have hoff : u.off = last.tree.off := by rw [← g24]; exact congrArg Prod.fst this
        have : u = last.tree := map_inj_of_nodup Tree.off _ (by rw [nodes_offs]; exact hlast.ordinary.stored.once) u hu
          last.tree (by rw [nodes_cons]; exact List.mem_cons_self) hoff
        have hr := hlast.ordinary.root
        rw [show last.plain.tree = last.tree from rfl, ← this, ← g2, hflag] at hr
        cases hr
      rw [if_neg (by rw [hmp]; exact hne)]
      have ht := attached_tells hpast hnew last w.hashFn _
        (.mk { k with values := vs, logs := lg, filterState := s0 } [] []) m' hflag
        (by show k.cellState.isDeletedPrimaryFile = false; rw [hf.2.2.2.2.2.2.2]; rfl) rfl hst hup
      rw [hn]
      exact ht.congr rfl rfl rfl
    · have hm' : m ∈ belowAll m'.deletedKeys := by rw [hn] at hm; exact hm
      obtain ⟨q, d, hd, f, hupd⟩ := attach_records st
        (fun k => ∃ s ∈ (a :: rest).map FullState.plain, (k.fileOffset, lookupKey k) ∈ s.keys) (by
          rintro k ⟨s, hs, hks⟩ d hd
          obtain ⟨p, hp, key, hl, hdr, hkey⟩ := hrec.sound _ d hd
          obtain ⟨hpo, hpn⟩ := hrec.ordinary p hp
          have hp1 := (steps_mem _ p hp).1
          have hname : '\\' ∉ d.key.name := by
            obtain ⟨u, hu, _, hn, _⟩ := hdr.cell
            rw [hn]
            exact every_nodes _ hpo.names u (by rw [nodes_cons]; exact List.mem_cons_of_mem _ hu)
          refine ⟨hdr.bare.2, ?_, p.1, hp1, ?_⟩
          · rw [hdr.off]
            exact (hap s hs p.1 hp1 _ hks key hl.1 d.key.name hkey hname).symm
          · have : lookupKey d.key = key.2 := by
              unfold lookupKey
              rw [hdr.flag, hdr.path]; rfl
            rw [this, hdr.off]
            exact hl.1) _ _ m' rfl (by
          refine ⟨_, hlm, ?_⟩
          show (k.fileOffset, if k.flagBits.testBit 2 then [] else k.path) ∈ _
          rw [hflag]
          exact he) hup m hm'
      obtain ⟨p, hp, key, hl, hdr, _⟩ := hrec.sound q d hd
      have hgone : key.2 ∉ last.plain.paths := by
        rw [hplast]
        exact lost_stays _ _ hno p hp key hl
      have hmp : m.key.path = key.2 := by
        rw [updateModifiedLists_key st f d m hupd, ← hdr.path]
      rw [if_neg (by rw [hmp]; intro e; exact hgone (by rw [e]; exact hroots))]
      refine attached_tells hpast hnew last w.hashFn f d m hdr.flag (by rw [hdr.state]; rfl) hdr.bare.1 ?_ hupd
      rw [hdr.noValues, hdr.path, valuesOf_none hgone]
      trivial

end Notatin
