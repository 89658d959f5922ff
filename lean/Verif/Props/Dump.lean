import Verif.Model.Dump
import Verif.Spec.Dump
import Verif.Props.Values
import Verif.Props.Rows
/-
Property theorems C71 (what `reg_dump` writes, from the bytes of the hive to what a reader finds in the output).
-/
namespace Notatin
open Spec

/-- What is kept of a listing: the keys with their values as stored. -/
def Told (t : Tree) (vals : Nat → List Val) (es : List (Nat × Str)) (ns : List Node) : Prop :=
  ns.map obs = es ∧ ∀ n ∈ ns, ∃ u ∈ t.nodes, KeyTold u (vals u.off) n

theorem told_of {t : Tree} {vals : Nat → List Val} {es : List (Nat × Str)} {ns : List Node}
    (h1 : ns.map (fun n => (obs n, n.key.values.map obsVal)) = es.map (fun e => (e, vals e.1)))
    (h2 : ∀ n ∈ ns, ∃ u ∈ t.nodes, KeyTold u (vals u.off) n) : Told t vals es ns := by
  refine ⟨?_, h2⟩
  have := congrArg (List.map Prod.fst) h1
  rw [List.map_map, List.map_map] at this
  exact this.trans (List.map_id _)

/-- The keys of a told listing. -/
theorem Told.keys {t : Tree} {vals : Nat → List Val} {es : List (Nat × Str)} {ns : List Node}
    (h : Told t vals es ns) : ∃ us, KeysOf t es us ∧
      Pairwise2 (fun n (x : Tree × (Nat × Str)) => obs n = x.2 ∧ KeyTold x.1 (vals x.1.off) n) ns (us.zip es) := by
  obtain ⟨h1, h2⟩ := h
  subst h1
  induction ns with
  | nil => exact ⟨[], ⟨fun _ h => absurd h List.not_mem_nil, rfl⟩, trivial⟩
  | cons n ns ih =>
    obtain ⟨us, ⟨k1, k2⟩, k3⟩ := ih fun m hm => h2 m (List.mem_cons_of_mem _ hm)
    obtain ⟨u, hu, hk⟩ := h2 n List.mem_cons_self
    refine ⟨u :: us, ⟨?_, ?_⟩, ⟨rfl, hk⟩, k3⟩
    · intro x hx
      rcases List.mem_cons.1 hx with rfl | hx
      · exact hu
      · exact k1 x hx
    · rw [List.map_cons, List.map_cons, List.map_cons, k2, ← hk.1]
      rfl

/-- The content of a value with data and of the type that is stored. -/
theorem content_of (v : Value) (hb : v.val.valueBytes ≠ none) (ht : v.val.dataType = DataType.ofRaw v.val.dataTypeRaw)
    (c : CellValue) (w : Option Logs) (h : getContent v.val.dataType v.val.valueBytes = .ok (c, w)) :
    ContentOf (obsVal v).type (obsVal v).data c := by
  show ContentOf v.val.dataTypeRaw (v.val.valueBytes.getD []) c
  cases hd : v.val.valueBytes with
  | none => exact absurd hd hb
  | some bs =>
    rw [hd, ht] at h
    rw [Option.getD_some]
    unfold ContentOf
    generalize DataType.ofRaw v.val.dataTypeRaw = d at h
    cases hw : (kindOf d).width with
    | some k =>
      simp only
      by_cases hl : k ≤ bs.length
      · rw [if_pos hl]
        obtain ⟨c', h1, h2⟩ := content_number d k hw bs hl
        rw [h] at h1; cases h1; exact h2
      · rw [if_neg hl]
        obtain ⟨_, h1, _⟩ := content_number_short d k hw bs (by omega)
        rw [h] at h1; cases h1; rfl
    | none =>
      simp only
      cases hk : kindOf d with
      | unsigned k => rw [hk] at hw; cases hw
      | signed k => rw [hk] at hw; cases hw
      | bigEndian k => rw [hk] at hw; cases hw
      | text =>
        refine ⟨?_, fun s tail hs htail he => ?_⟩
        · obtain ⟨ps, _, _, _, _, _, h1, _⟩ := content_text_total d hk bs
          rw [h] at h1; cases h1; exact ⟨_, rfl⟩
        · have := content_text d hk s hs tail htail
          rw [← he, h] at this; cases this; rfl
      | texts =>
        have hd : d = .REG_MULTI_SZ := by cases d <;> simp [kindOf] at hk ⊢
        subst hd
        refine ⟨?_, fun ss tail hs htail he => ?_⟩
        · obtain ⟨_, _, h1⟩ := content_texts_total bs
          rw [h] at h1; cases h1; exact ⟨_, rfl⟩
        · have h1 := multi_sz_roundtrip_partial ss hs tail htail {}
          unfold multiSz at h1
          rw [← he] at h1
          simp only [getContent, DataType.getValueContent, h1] at h
          cases h; rfl
      | raw =>
        have := content_raw d hk bs
        rw [h] at this; cases this; rfl

/-- The content of a stored value. -/
theorem plain_content (v : Value) (hv : PlainValue v) (c : CellValue) (w : Option Logs)
    (h : getContent v.val.dataType v.val.valueBytes = .ok (c, w)) : ContentOf (obsVal v).type (obsVal v).data c :=
  content_of v hv.2.2.1 hv.2.2.2.1 c w h

/-! ### JSONL -/

theorem showsValue_says (full : Bool) (j : Json) (v : Value) (h : ShowsValue full j v) (hs : v.val.seq = none)
    (hv : PlainValue v) : JsonSaysValue full j (obsVal v) := by
  have hcont := plain_content v hv
  obtain ⟨h1, h2, _, _, h5⟩ := hv
  cases v with
  | mk k vs =>
    have h2 : vs = [] := h2
    subst h2
    rw [ShowsValue] at h
    obtain ⟨_, b, _, _, _, f, g, hseq, _, _, k1, ⟨c, w, hc, hj, _⟩, js, hver, hjs⟩ := h
    refine ⟨f, b _ (List.mem_of_getElem? (i := 4) rfl), ?_, ?_, ?_, ?_, c, hcont c w hc, hj⟩
    · have h5 : k.cellState = .Allocated := h5
      rw [h5] at k1; exact k1
    · have h1 : k.logs = {} := h1
      rw [h1] at g; exact g
    · have hs : k.seq = none := hs
      rw [hs] at hseq; exact hseq
    · rw [ShowsValues] at hjs
      rw [hver, hjs]

theorem showsValues_say (full : Bool) (js : List Json) (vs : List Value) (h : ShowsValues full js vs)
    (hv : ∀ v ∈ vs, v.val.seq = none ∧ PlainValue v) : Pairwise2 (JsonSaysValue full) js (vs.map obsVal) := by
  induction vs generalizing js with
  | nil => rw [ShowsValues] at h; rw [h]; trivial
  | cons v vs ih =>
    rw [ShowsValues] at h
    obtain ⟨j, js', rfl, h1, h2⟩ := h
    exact ⟨showsValue_says full j v h1 (hv v List.mem_cons_self).1 (hv v List.mem_cons_self).2,
      ih js' h2 fun x hx => hv x (List.mem_cons_of_mem _ hx)⟩

theorem showsKey_says (full : Bool) (j : Json) (n : Node) (u : Tree) (xs : List Val) (h : ShowsKey full j n)
    (hk : KeyTold u xs n) : JsonSaysKey full j u n.key.path xs := by
  obtain ⟨k1, k2, k3, k4, k5, _, k7, k8, _, k10, k11⟩ := hk
  obtain ⟨a, b, _, d, e, f, g, _, _, js, i1, i2⟩ := h
  rw [k1] at a
  rw [k2] at d
  rw [k7] at f
  rw [k8] at g
  have b3 := b _ (List.mem_of_getElem? (i := 2) rfl)
  have b2 := b _ (List.mem_of_getElem? (i := 1) rfl)
  have b4 := b _ (List.mem_of_getElem? (i := 3) rfl)
  rw [k3] at b3
  rw [k4] at b2
  rw [k5] at b4
  refine ⟨a, d, e, f, g, b3, b2, b4, js, i1, ?_⟩
  rw [← k10]
  exact showsValues_say full js _ i2 k11

/-- The JSONL export of a told listing. -/
theorem told_jsonl (t : JsonTexts) (full : Bool) (tr : Tree) (vals : Nat → List Val) (es : List (Nat × Str))
    (ns : List Node) (h : Told tr vals es ns) :
    ∃ records us, writeJson t full ns = .ok records ∧ KeysOf tr es us ∧
      JsonlSays full (fileText records) es us vals := by
  obtain ⟨us, hu, hp⟩ := h.keys
  obtain ⟨records, js, h1, h2, h3⟩ := jsonl_read_back_partial t full ns
  refine ⟨records, us, h1, hu, js, h2, ?_⟩
  generalize us.zip es = xs at hp
  clear h1 h2 h
  induction ns generalizing js xs with
  | nil =>
    cases js with
    | nil => cases xs with
      | nil => trivial
      | cons => exact hp.elim
    | cons => exact h3.elim
  | cons n ns ih =>
    cases js with
    | nil => exact h3.elim
    | cons j js => cases xs with
      | nil => exact hp.elim
      | cons x xs =>
        refine ⟨?_, ih js h3.2 xs hp.2⟩
        have := showsKey_says full j n x.1 _ h3.1 hp.1.2
        have hpath : n.key.path = x.2.2 := by rw [← hp.1.1]; rfl
        rw [hpath] at this
        exact this

/-! ### Tables -/

/-- What a row says about an item of a told listing is what it says about the stored one. -/
def SameItem : ExportItem → StoredItem → Prop
  | .key n, .key u path => n.key.path = path ∧ ∃ xs, KeyTold u xs n
  | .value n v, .value u path x => n.key.path = path ∧ n.key.name = u.name ∧ obsVal v = x ∧ PlainValue v
  | _, _ => False

theorem rowTells_says (times : TimeRange) (row : List Str) (x : ExportItem) (y : StoredItem) (h : RowTells times row x)
    (hs : SameItem x y) : RowSays times row y := by
  cases x with
  | key n =>
    cases y with
    | value => exact hs.elim
    | key u path =>
      obtain ⟨rfl, xs, k1, k2, k3, k4, k5, k6, k7, _⟩ := hs
      obtain ⟨a, b, c, d, e, f, g, g', g'', _⟩ := h
      rw [k6] at b
      rw [k3] at c
      rw [k7] at d
      rw [k4] at e
      rw [k5] at f
      exact ⟨a, b, c, d, e, f, g, g', g''⟩
  | value n v =>
    cases y with
    | key => exact hs.elim
    | value u path x =>
      obtain ⟨rfl, _, rfl, hv⟩ := hs
      obtain ⟨a, b, ⟨type, data, c, w, c1, c2, c3, c4⟩, d, _⟩ := h
      have hst : v.val.cellState = .Allocated := hv.2.2.2.2
      rw [hst] at d
      exact ⟨a, b, ⟨type, data, c, c1, c2, c4, plain_content v hv c w c3⟩, d⟩

theorem pairwise2_get {α β : Type} {R : α → β → Prop} : ∀ {as : List α} {bs : List β}, Pairwise2 R as bs →
    ∀ (i : Nat) (b : β), bs[i]? = some b → ∃ a, as[i]? = some a ∧ R a b
  | [], [], _, i, b, hb => by simp at hb
  | a :: as, b' :: bs, h, 0, b, hb => by
    rw [List.getElem?_cons_zero] at hb
    cases hb
    exact ⟨a, rfl, h.1⟩
  | a :: as, b' :: bs, h, i + 1, b, hb => by
    rw [List.getElem?_cons_succ] at hb ⊢
    exact pairwise2_get h.2 i b hb
  | [], _ :: _, h, _, _, _ => h.elim
  | _ :: _, [], h, _, _, _ => h.elim

/-- The items of a told listing are the stored ones. -/
theorem told_items {vals : Nat → List Val} : ∀ {ns : List Node} {xs : List (Tree × (Nat × Str))},
    Pairwise2 (fun n (x : Tree × (Nat × Str)) => obs n = x.2 ∧ KeyTold x.1 (vals x.1.off) n) ns xs →
    Pairwise2 SameItem (allItems ns) (xs.flatMap fun x => .key x.1 x.2.2 :: (vals x.1.off).map (.value x.1 x.2.2))
  | [], [], _ => trivial
  | n :: ns, x :: xs, h => by
    unfold allItems
    rw [List.flatMap_cons, List.flatMap_cons]
    refine pairwise2_append ?_ (told_items h.2)
    obtain ⟨h1, hk⟩ := h.1
    have hpath : n.key.path = x.2.2 := by rw [← h1]; rfl
    have hver : n.versions = [] := hk.2.2.2.2.2.2.2.2.1
    have hvals := hk.2.2.2.2.2.2.2.2.2
    have e : withVersions n = [.key n] := by
      cases n with
      | mk k vs ds =>
        have hver : vs = [] := hver
        subst hver
        rw [withVersions, withVersionsAll]
    rw [e, List.singleton_append]
    refine ⟨⟨hpath, _, hk⟩, ?_⟩
    rw [← hvals.1]
    have : ∀ vs : List Value, (∀ v ∈ vs, PlainValue v) →
        Pairwise2 SameItem (vs.flatMap fun v => (v :: v.versions).map (.value n))
          ((vs.map obsVal).map (.value x.1 x.2.2)) := by
      intro vs
      induction vs with
      | nil => intro _; trivial
      | cons v vs ih =>
        intro hv
        rw [List.flatMap_cons, (hv v List.mem_cons_self).2.1]
        exact ⟨⟨hpath, hk.2.1, rfl, hv v List.mem_cons_self⟩, ih fun w hw => hv w (List.mem_cons_of_mem _ hw)⟩
    exact this _ fun v hv => (hvals.2 v hv).2
  | [], _ :: _, h => h.elim
  | _ :: _, [], h => h.elim

/-- The TSV export of a told listing. -/
theorem told_tsv (u : Prints) (logs : List Str) (tr : Tree) (vals : Nat → List Val) (es : List (Nat × Str))
    (ns : List Node) (h : Told tr vals es ns) :
    ∃ us, KeysOf tr es us ∧ TsvSays FitsNanos
      (fileText (writeTsv (tsvKeyCols u.tsv) (tsvValueCols u.tsv) false logs ns)) (storedItems es us vals) := by
  obtain ⟨us, hu, hp⟩ := h.keys
  have hi := told_items hp
  refine ⟨us, hu, ?_⟩
  have hlen : (allItems ns).length = (storedItems es us vals).length := pairwise2_len hi
  have hr := tsv_read_back u.tsv (tsv_plain u) false logs ns
  simp only [Bool.false_eq_true, if_false] at hr
  rw [hlen] at hr
  refine ⟨_, _, hr, (itemRecords_length _ _ _).trans hlen, ⟨_, rfl⟩, ?_⟩
  intro i y hy
  obtain ⟨x, hx, hxy⟩ := pairwise2_get hi i y hy
  refine ⟨_, itemRecords_get u.tsv 1 _ i x hx, ?_, rowTells_says _ _ x y (fields_tell u _ x) hxy⟩
  have hc := column_idx
  simp only [List.map_cons, List.map_nil, List.cons.injEq, and_true] at hc
  unfold column
  rw [hc.1, Nat.add_comm 1]
  rfl

/-- The spreadsheet of a told listing: the rows as in the TSV export, without the characters XML does not
allow. -/
theorem told_xlsx (u : Prints) (hp : ∀ c, u.printed c = true → XmlChar c) (logs : List (Str × Str)) (tr : Tree)
    (vals : Nat → List Val) (es : List (Nat × Str)) (ns : List Node) (h : Told tr vals es ns) {items l o : Sheet}
    (hw : writeXlsx u.xlsx false logs ns = .ok (items, l, o)) :
    ∃ us, KeysOf tr es us ∧ ∀ i y, (storedItems es us vals)[i]? = some y →
      ∃ row, RowSays FitsNanos row y ∧ column row "Index" = some (Nat.toDigits 10 (i + 1)) ∧
        ∀ c, Shows items o (i + 1) c (cleaned (row[c]?.getD [])) := by
  obtain ⟨us, hu, hpw⟩ := h.keys
  refine ⟨us, hu, fun i y hy => ?_⟩
  obtain ⟨x, hx, hxy⟩ := pairwise2_get (told_items hpw) i y hy
  obtain ⟨row, h1, h2, h3⟩ := xlsx_rows_tell_partial u hp false logs ns hw i x hx
  exact ⟨row, rowTells_says _ _ x y h1 hxy, h2, h3⟩

theorem pairwise2_trans {α β γ : Type} {R : α → β → Prop} {S : β → γ → Prop} {T : α → γ → Prop}
    (hT : ∀ a b c, R a b → S b c → T a c) : ∀ {as : List α} {bs : List β} {cs : List γ}, Pairwise2 R as bs →
    Pairwise2 S bs cs → Pairwise2 T as cs
  | [], [], [], _, _ => trivial
  | a :: as, b :: bs, c :: cs, h1, h2 => ⟨hT a b c h1.1 h2.1, pairwise2_trans hT h1.2 h2.2⟩
  | [], [], _ :: _, _, h => h.elim
  | [], _ :: _, _, h, _ => h.elim
  | _ :: _, [], _, h, _ => h.elim
  | _ :: _, _ :: _, [], _, h => h.elim

/-- Without versions the items of the common format are those of the tables. -/
theorem commonItems_plain : ∀ (ns : List Node), (∀ n ∈ ns, n.versions = []) → commonItems ns = allItems ns
  | [], _ => rfl
  | n :: ns, h => by
    have ih := commonItems_plain ns fun m hm => h m (List.mem_cons_of_mem _ hm)
    unfold commonItems allItems at ih ⊢
    rw [List.flatMap_cons, List.flatMap_cons, ih, h n List.mem_cons_self]
    cases n with
    | mk k vs ds =>
      have hver : vs = [] := h _ List.mem_cons_self
      subst hver
      rw [withVersions, withVersionsAll]
      rfl

/-- The common export of a told listing. -/
theorem told_common (tr : Tree) (vals : Nat → List Val) (es : List (Nat × Str)) (ns : List Node)
    (h : Told tr vals es ns) (records : List Str) (hw : writeCommon keyTime ns = .ok records) :
    ∃ us, KeysOf tr es us ∧ CommonSays FitsNanos (fileText records) (storedItems es us vals) := by
  obtain ⟨us, hu, hp⟩ := h.keys
  have hi := told_items hp
  refine ⟨us, hu, ?_⟩
  obtain ⟨⟨recs, rest, h1, h2, h3⟩, h4⟩ := common_times_told_partial ns records hw
  rw [commonItems_plain ns fun n hn => by obtain ⟨u, _, hk⟩ := h.2 n hn; exact hk.2.2.2.2.2.2.2.2.1] at h1 h2
  have hlen : (allItems ns).length = (storedItems es us vals).length := pairwise2_len hi
  rw [hlen] at h1
  refine ⟨recs, rest, h1, pairwise2_trans ?_ h2 hi, h3⟩
  intro r x y hx hy
  cases x with
  | key n =>
    cases y with
    | value => exact hy.elim
    | key u path =>
      obtain ⟨rfl, xs, k1, _, k3, _, _, _, k7, _⟩ := hy
      rw [ShowsCommon, k7, k1] at hx
      refine ⟨keyTime n.key, hx, ?_⟩
      rw [← k3]
      exact h4 n.key
  | value n v =>
    cases y with
    | key => exact hy.elim
    | value u path x =>
      obtain ⟨rfl, hname, rfl, hv⟩ := hy
      rw [ShowsCommon] at hx
      obtain ⟨type, hex, e1, e2, e3⟩ := hx
      rw [hv.2.2.2.2, hname] at e1
      exact ⟨_, type, hex, e1, fun hd => e2 hd hv.2.2.2.1, e3⟩

/-! ### From the files to the output -/

mutual
theorem nodes_offs : ∀ (t : Tree), t.nodes.map Tree.off = t.offs
  | .mk off c name kids => by
    rw [Tree.nodes, Tree.offs, List.map_cons, nodesAll_offs]
    rfl
theorem nodesAll_offs : ∀ (ts : List Tree), (nodesAll ts).map Tree.off = offsAll ts
  | [] => rfl
  | t :: ts => by
    rw [nodesAll, offsAll, List.map_append, nodes_offs, nodesAll_offs]
end

theorem map_inj_of_nodup {α β : Type} (f : α → β) : ∀ (l : List α), (l.map f).Nodup → ∀ a ∈ l, ∀ b ∈ l,
    f a = f b → a = b
  | [], _, a, ha, _, _, _ => absurd ha List.not_mem_nil
  | x :: l, h, a, ha, b, hb, e => by
    rw [List.map_cons, List.nodup_cons] at h
    obtain ⟨h1, h2⟩ := h
    rcases List.mem_cons.1 ha with ha1 | ha1
    · rcases List.mem_cons.1 hb with hb1 | hb1
      · rw [ha1, hb1]
      · exact absurd (List.mem_map.2 ⟨b, hb1, by rw [← e, ha1]⟩) h1
    · rcases List.mem_cons.1 hb with hb1 | hb1
      · exact absurd (List.mem_map.2 ⟨a, ha1, by rw [e, hb1]⟩) h1
      · exact map_inj_of_nodup f l h2 a ha1 b hb1 e

/-- The keys of the whole listing are all keys, in pre-order. -/
theorem keysOf_all (t : Tree) (ho : t.offs.Nodup) (us : List Tree) (h : KeysOf t (t.pre []) us) : us = t.nodes := by
  obtain ⟨h1, h2⟩ := h
  rw [pre_offs, ← nodes_offs] at h2
  rw [← nodes_offs] at ho
  have hi := map_inj_of_nodup Tree.off t.nodes ho
  have go : ∀ (as bs : List Tree), (∀ a ∈ as, a ∈ t.nodes) → (∀ b ∈ bs, b ∈ t.nodes) →
      as.map Tree.off = bs.map Tree.off → as = bs := by
    intro as
    induction as with
    | nil => intro bs _ _ e; cases bs with
      | nil => rfl
      | cons => simp at e
    | cons a as ih =>
      intro bs ha hb e
      cases bs with
      | nil => simp at e
      | cons b bs =>
        rw [List.map_cons, List.map_cons] at e
        injection e with e1 e2
        rw [hi a (ha a List.mem_cons_self) b (hb b List.mem_cons_self) e1,
          ih bs (fun x hx => ha x (List.mem_cons_of_mem _ hx)) (fun x hx => hb x (List.mem_cons_of_mem _ hx)) e2]
  exact go us t.nodes h1 (fun _ h => h) h2

/-- The outcome of `reg_dump` once the hive is opened and listed. -/
theorem regDump_of (w : World) (steps : Nat) (u : Prints) (disk : Disk) (o : DumpOptions) (filter : Option Filter)
    (input : List Str) (logs : Option (List (List Str))) (p : HiveParser) (ns : List Node)
    (h : buildFromPath w disk input (logs.getD []) o.recover o.full = some (.ok p))
    (hi : p.iterate steps (filter.getD {}) = some (.ok ns)) :
    regDump w steps u disk o filter input logs = some (writeDump u o (p.parseLogs u) ns) := by
  unfold regDump
  rw [h]
  simp only
  rw [hi]

/-- What `reg_dump` writes says the listing `es`, in whatever format: JSONL, a table,
a text in the common format, or a spreadsheet. -/
def Spec.DumpSays (o : DumpOptions) (t : Tree) (vals : Nat → List Val) (es : List (Nat × Str)) (d : Dumped) : Prop :=
  ∃ us, KeysOf t es us ∧
    match o.type, d with
    | .Jsonl, .text s => JsonlSays o.full s es us vals
    | .Tsv, .text s => TsvSays FitsNanos s (storedItems es us vals)
    | .Common, .text s => CommonSays FitsNanos s (storedItems es us vals)
    | .Xlsx, .book items _ overflow => ∀ i y, (storedItems es us vals)[i]? = some y →
        ∃ row, RowSays FitsNanos row y ∧ column row "Index" = some (Nat.toDigits 10 (i + 1)) ∧
          ∀ c, Shows items overflow (i + 1) c (cleaned (row[c]?.getD []))
    | _, _ => False

/-- The export of a told listing says it; the text formats always end. -/
theorem told_dump (u : Prints) (hpr : ∀ c, u.printed c = true → XmlChar c) (o : DumpOptions)
    (ho : o.recoveredOnly = false) (hty : o.type = .Jsonl ∨ o.type = .Tsv ∨ o.type = .Common ∨ o.type = .Xlsx)
    (logs : List (Str × Str)) (t : Tree) (vals : Nat → List Val) (es : List (Nat × Str)) (ns : List Node)
    (h : Told t vals es ns) :
    (o.type = .Jsonl ∨ o.type = .Tsv → ∃ d, writeDump u o logs ns = .ok d) ∧
      ∀ d, writeDump u o logs ns = .ok d → DumpSays o t vals es d := by
  rcases hty with hty | hty | hty | hty
  · obtain ⟨rs, us, h1, h2, h3⟩ := told_jsonl u.json o.full t vals es ns h
    have e : writeDump u o logs ns = .ok (.text (fileText rs)) := by
      unfold writeDump; rw [hty]; simp only; rw [h1]
    refine ⟨fun _ => ⟨_, e⟩, fun d hd => ?_⟩
    rw [e] at hd; cases hd
    refine ⟨us, h2, ?_⟩
    rw [hty]; exact h3
  · obtain ⟨us, h2, h3⟩ := told_tsv u (logRecords logs) t vals es ns h
    have e : writeDump u o logs ns = .ok (.text (fileText
        (writeTsv (tsvKeyCols u.tsv) (tsvValueCols u.tsv) false (logRecords logs) ns))) := by
      unfold writeDump; rw [hty]; simp only; rw [ho]
    refine ⟨fun _ => ⟨_, e⟩, fun d hd => ?_⟩
    rw [e] at hd; cases hd
    refine ⟨us, h2, ?_⟩
    rw [hty]; exact h3
  · refine ⟨fun hn => (by rcases hn with hn | hn <;> (rw [hty] at hn; cases hn)), fun d hd => ?_⟩
    unfold writeDump at hd
    rw [hty] at hd
    simp only at hd
    cases hx : writeCommon keyTime ns with
    | err => rw [hx] at hd; cases hd
    | panic => rw [hx] at hd; cases hd
    | ok s =>
      rw [hx] at hd
      simp only at hd
      cases hd
      obtain ⟨us, h2, h3⟩ := told_common t vals es ns h s hx
      refine ⟨us, h2, ?_⟩
      rw [hty]; exact h3
  · refine ⟨fun hn => (by rcases hn with hn | hn <;> (rw [hty] at hn; cases hn)), fun d hd => ?_⟩
    unfold writeDump at hd
    rw [hty] at hd
    simp only at hd
    rw [ho] at hd
    cases hx : writeXlsx u.xlsx false logs ns with
    | err => rw [hx] at hd; cases hd
    | panic => rw [hx] at hd; cases hd
    | ok s =>
      rw [hx] at hd
      simp only at hd
      cases hd
      obtain ⟨us, h2, h3⟩ := told_xlsx u hpr logs t vals es ns h (items := s.1) (l := s.2.1) (o := s.2.2) hx
      refine ⟨us, h2, ?_⟩
      rw [hty]; exact h3

/-- C71: whatever hive and logs `reg_dump` opens (without recovery), what it writes says exactly the keys stored in
the file as it is after the logs were applied, in order, each with its name, path, time, flags and number of
sub-keys, and with exactly its values: names and contents.  JSONL and TSV are always written.

Partial: times as in C58 (1677 to 2262); a spreadsheet and the common format only when they are finished (C53,
C32), and the latter as far as C57; the conditions of C70 on what counts as stored. -/
theorem dump_tells_partial (w : World) (u : Prints) (hpr : ∀ c, u.printed c = true → XmlChar c) (disk : Disk)
    (o : DumpOptions) (hrec : o.recover = false) (ho : o.recoveredOnly = false)
    (hty : o.type = .Jsonl ∨ o.type = .Tsv ∨ o.type = .Common ∨ o.type = .Xlsx) (input : List Str) (logs : Option (List (List Str)))
    (p : HiveParser) (t : Tree) (vals : Nat → List Val) (hd : 0 < w.depth)
    (h : buildFromPath w disk input (logs.getD []) o.recover o.full = some (.ok p)) (hroot : p.root ≠ none)
    (ht : StoredHive w p.env.fi.buffer t vals) :
    ∃ steps, (o.type = .Jsonl ∨ o.type = .Tsv → ∃ d, regDump w steps u disk o none input logs = some (.ok d)) ∧
      ∀ d, regDump w steps u disk o none input logs = some (.ok d) → DumpSays o t vals (t.pre []) d := by
  have hb : ∃ b : Builder, b.recover = false ∧ b.build w = some (.ok p) := by
    unfold buildFromPath at h
    split at h
    · cases h
    · split at h
      · cases h
      · exact ⟨_, hrec, h⟩
  obtain ⟨b, hb1, hb2⟩ := hb
  obtain ⟨steps, ns, h1, h2, h3⟩ := opened_tells w b p t vals hd hb1 hb2 hroot ht true false
  have hw := told_dump u hpr o ho hty (p.parseLogs u) t vals _ ns (told_of h2 h3)
  have e := regDump_of w steps u disk o none input logs p ns h h1
  refine ⟨steps, fun hn => ?_, fun d hdd => ?_⟩
  · obtain ⟨d, hd⟩ := hw.1 hn
    exact ⟨d, by rw [e, hd]⟩
  · rw [e] at hdd
    exact hw.2 d (Option.some.inj hdd)

/-- C71 with the option `-f`: what is written says exactly the keys at and below the path given (up to the case
of ASCII letters), each with its values.

Partial: in addition to `dump_tells_partial`, the conditions of C11 (names without backslashes, the flag of hive
entry points only at the root), and the path has to be given without a backslash in front
(`dump_filter_violated`). -/
theorem dump_filter_tells_partial (w : World) (u : Prints) (hpr : ∀ c, u.printed c = true → XmlChar c) (disk : Disk)
    (o : DumpOptions) (hrec : o.recover = false) (ho : o.recoveredOnly = false)
    (hty : o.type = .Jsonl ∨ o.type = .Tsv ∨ o.type = .Common ∨ o.type = .Xlsx) (input : List Str) (logs : Option (List (List Str)))
    (p : HiveParser) (t : Tree) (vals : Nat → List Val) (hd : 0 < w.depth)
    (h : buildFromPath w disk input (logs.getD []) o.recover o.full = some (.ok p)) (hroot : p.root ≠ none)
    (ht : StoredHive w p.env.fi.buffer t vals)
    (hnames : t.Every (fun u => '\\' ∉ u.name))
    (hflags : EveryAll (fun u => u.cell.flags.testBit 2 = false) t.kids)
    (seg : Str) (segs : List Str) (k : Nat) (hbs : ∀ m ∈ seg :: segs, '\\' ∉ m)
    (hlast : (seg :: segs).getLast (by simp) ≠ []) :
    ∃ filter, dumpFilter (some (joined (seg :: segs) ++ List.replicate k '\\')) = .ok (some filter) ∧
      ∃ steps, (o.type = .Jsonl ∨ o.type = .Tsv → ∃ d, regDump w steps u disk o (some filter) input logs = some (.ok d)) ∧
        ∀ d, regDump w steps u disk o (some filter) input logs = some (.ok d) →
          DumpSays o t vals (filtered ((seg :: segs).map Seg.lit) false true false t) d := by
  refine ⟨⟨some ⟨((seg :: segs).map Seg.lit).map Seg.component, false, true⟩⟩, ?_, ?_⟩
  · unfold dumpFilter
    simp only
    rw [key_path_segments {} seg segs k hbs hlast]
    rfl
  have hb : ∃ b : Builder, b.recover = false ∧ b.build w = some (.ok p) := by
    unfold buildFromPath at h
    split at h
    · cases h
    · split at h
      · cases h
      · exact ⟨_, hrec, h⟩
  obtain ⟨b, hb1, hb2⟩ := hb
  obtain ⟨steps, ns, h1, h2, h3⟩ := opened_filter_tells_partial w b p t vals hd hb1 hb2 hroot ht
    ((seg :: segs).map Seg.lit) ⟨((seg :: segs).map Seg.lit).map Seg.component, false, true⟩ true rfl hnames
    (fun _ => hflags) (by simp [segments])
  have hw := told_dump u hpr o ho hty (p.parseLogs u) t vals _ ns (told_of h2 h3)
  have e := regDump_of w steps u disk o
    (some ⟨some ⟨((seg :: segs).map Seg.lit).map Seg.component, false, true⟩⟩) input logs p ns h h1
  refine ⟨steps, fun hn => ?_, fun d hdd => ?_⟩
  · obtain ⟨d, hd⟩ := hw.1 hn
    exact ⟨d, by rw [e, hd]⟩
  · rw [e] at hdd
    exact hw.2 d (Option.some.inj hdd)

/-- The logs `get_log_files` finds can be opened. -/
theorem openLogs_found (disk : Disk) (skip : Bool) (f : Str) (path : List Str) :
    ∃ bs, openLogs disk ((getLogFiles disk.files skip f path).getD []) = some bs := by
  have go : ∀ ps : List (List Str), (∀ p ∈ ps, (disk.files p).isSome) → ∃ bs, openLogs disk ps = some bs := by
    intro ps
    induction ps with
    | nil => intro _; exact ⟨[], rfl⟩
    | cons p ps ih =>
      intro hp
      obtain ⟨bs, hbs⟩ := ih fun q hq => hp q (List.mem_cons_of_mem _ hq)
      have := hp p List.mem_cons_self
      unfold Disk.files at this
      cases hd : disk p with
      | none => rw [hd] at this; cases this
      | some b => exact ⟨b :: bs, by rw [openLogs, hd]; simp only; rw [hbs]⟩
  apply go
  have hadd : ∀ (folder : List Str) (name ext : Str) (logs : List (List Str)), (∀ p ∈ logs, (disk.files p).isSome) →
      ∀ p ∈ checkAddLog disk.files folder name ext logs, (disk.files p).isSome := by
    intro folder name ext logs h p hp
    unfold checkAddLog at hp
    simp only at hp
    split at hp
    · rename_i hs
      rcases List.mem_append.1 hp with hp | hp
      · exact h p hp
      · rw [List.mem_singleton.1 hp]; exact hs
    · exact h p hp
  unfold getLogFiles
  split
  · exact fun p hp => absurd hp List.not_mem_nil
  · split
    · exact fun p hp => absurd hp List.not_mem_nil
    · exact hadd _ _ _ _ (hadd _ _ _ _ fun p hp => absurd hp List.not_mem_nil)

/-- The logs that are used for a file. -/
def logsOf (disk : Disk) (o : DumpOptions) (name : Str) (input : List Str) : List (List Str) :=
  (getLogFiles disk.files o.skipLogs name input).getD []

/-- C71, a clean hive: from its bytes on the disk to what is written.  `partial` as `dump_tells_partial`. -/
theorem dump_clean_partial (w : World) (u : Prints) (hpr : ∀ c, u.printed c = true → XmlChar c) (disk : Disk)
    (o : DumpOptions) (hrec : o.recover = false) (ho : o.recoveredOnly = false) (hf : o.filter = none)
    (hty : o.type = .Jsonl ∨ o.type = .Tsv ∨ o.type = .Common ∨ o.type = .Xlsx) (folder : List Str) (name : Str)
    (primary : Bytes) (hin : disk (folder ++ [name]) = some primary)
    (hlogs : ∀ bs, openLogs disk (logsOf disk o name (folder ++ [name])) = some bs →
      ∃ x, TransactionLog.parse bs = .ok x)
    (bb : BaseBlock) (rest : Bytes) (t : Tree) (vals : Nat → List Val) (hd : 0 < w.depth)
    (hp : BaseBlock.fromBytes primary = .ok (bb, rest)) (hsup : bb.base.fileType ≠ .unknown)
    (hclean : bb.base.primarySeq = bb.base.secondarySeq)
    (hck : calculateChecksum (primary.take 512) = .ok bb.base.checksum)
    (ht : StoredHive w primary t vals) :
    ∃ steps, (o.type = .Jsonl ∨ o.type = .Tsv →
        ∃ d, dumpFile w steps u disk o (folder ++ [name]) = some (.ok d)) ∧
      ∀ d, dumpFile w steps u disk o (folder ++ [name]) = some (.ok d) → DumpSays o t vals (t.pre []) d := by
  obtain ⟨bs, hbs⟩ := openLogs_found disk o.skipLogs name (folder ++ [name])
  obtain ⟨p, h1, h2, _, hne, _⟩ := open_clean_lists w ⟨primary, bs, none, o.recover, o.full⟩ bb rest t hd hrec (hlogs bs hbs) hp hsup hclean hck ht.toStoredTree
  have e : ∀ steps, dumpFile w steps u disk o (folder ++ [name]) =
      regDump w steps u disk o none (folder ++ [name]) (getLogFiles disk.files o.skipLogs name (folder ++ [name])) := by
    intro steps
    unfold dumpFile
    rw [hf]
    simp only [dumpFilter]
    unfold processFile
    rw [List.getLast?_concat]
  obtain ⟨steps, h3, h4⟩ := dump_tells_partial w u hpr disk o hrec ho hty (folder ++ [name])
    (getLogFiles disk.files o.skipLogs name (folder ++ [name])) p t vals hd
    (by unfold buildFromPath; rw [hbs]; simp only; rw [hin]; exact h1) hne (by rw [h2]; exact ht)
  exact ⟨steps, by rw [e]; exact h3, by rw [e]; exact h4⟩

/-- C71, a dirty hive: from its bytes and those of its logs on the disk to what is written.  Partial as
`dump_tells_partial` and `open_dirty_lists_partial`. -/
theorem dump_dirty_partial (w : World) (u : Prints) (hpr : ∀ c, u.printed c = true → XmlChar c) (disk : Disk)
    (o : DumpOptions) (hrec : o.recover = false) (ho : o.recoveredOnly = false) (hf : o.filter = none)
    (hty : o.type = .Jsonl ∨ o.type = .Tsv ∨ o.type = .Common ∨ o.type = .Xlsx) (folder : List Str) (name : Str)
    (primary : Bytes) (hin : disk (folder ++ [name]) = some primary)
    (bs : List Bytes) (hbs : openLogs disk (logsOf disk o name (folder ++ [name])) = some bs)
    (bb : BaseBlock) (rest : Bytes) (logs : List TransactionLog) (warn : Option Logs) (hd : 0 < w.depth)
    (hlogs : TransactionLog.parse bs = .ok (logs, warn))
    (hp : BaseBlock.fromBytes primary = .ok (bb, rest)) (hsup : bb.base.fileType ≠ .unknown)
    (hck : calculateChecksum (primary.take 512) = .ok bb.base.checksum)
    (hdirty : bb.base.primarySeq ≠ bb.base.secondarySeq) (hsec : 0 < bb.base.secondarySeq)
    (hsound : ∀ l ∈ logs, SoundLog l)
    (hfresh : ∃ l ∈ logs, bb.base.secondarySeq ≤ l.base.primarySeq) :
    ∃ used : List TransactionLog, used.Sublist logs ∧
      used.head? = logs.find? (fun l => decide (bb.base.secondarySeq ≤ l.base.primarySeq)) ∧
      Consecutive (used.flatMap (·.entries)) ∧
      (EntriesFit 4096 bb.base.hiveBinsDataSize (used.flatMap (·.entries)) primary.length →
        ∃ new, Replayed primary (used.flatMap (·.entries)) new ∧
          ∀ t vals, StoredHive w new t vals →
            ∃ steps, (o.type = .Jsonl ∨ o.type = .Tsv →
                ∃ d, dumpFile w steps u disk o (folder ++ [name]) = some (.ok d)) ∧
              ∀ d, dumpFile w steps u disk o (folder ++ [name]) = some (.ok d) → DumpSays o t vals (t.pre []) d) := by
  obtain ⟨used, h1, h2, h3, h4, _⟩ := open_dirty_lists_partial w ⟨primary, bs, none, o.recover, o.full⟩ bb rest logs warn hd hrec hlogs hp hsup hck hdirty hsec hsound hfresh
  refine ⟨used, h1, h2, h3, fun hfit => ?_⟩
  obtain ⟨new, last, h5, _, h6⟩ := h4 hfit
  refine ⟨new, h5, fun t vals ht => ?_⟩
  obtain ⟨p, h7, h8, h9, _⟩ := h6 t ht.toStoredTree
  have e : ∀ steps, dumpFile w steps u disk o (folder ++ [name]) =
      regDump w steps u disk o none (folder ++ [name]) (getLogFiles disk.files o.skipLogs name (folder ++ [name])) := by
    intro steps
    unfold dumpFile
    rw [hf]
    simp only [dumpFilter]
    unfold processFile
    rw [List.getLast?_concat]
  obtain ⟨steps, h10, h11⟩ := dump_tells_partial w u hpr disk o hrec ho hty (folder ++ [name])
    (getLogFiles disk.files o.skipLogs name (folder ++ [name])) p t vals hd
    (by unfold buildFromPath; unfold logsOf at hbs; rw [hbs]; simp only; rw [hin]; exact h7) h9 (by rw [h8]; exact ht)
  exact ⟨steps, by rw [e]; exact h10, by rw [e]; exact h11⟩

/-- No key is asked for by a filter that begins with an empty segment, if no key has an empty name. -/
theorem filtered_backslash (segs : List Str) (t : Tree) (hne : t.Every (fun u => u.name ≠ [])) :
    filtered ((([] : Str) :: segs).map Seg.lit) false true false t = [] := by
  have hn := fun x hx => (named_names (fun n => n ≠ []) t [] [] x hne hx rfl (fun _ h => absurd h List.not_mem_nil)).2
  have hno : ∀ K : List Str, (∀ m ∈ K, m ≠ []) → ¬ Exact ((([] : Str) :: segs).map Seg.lit) K := by
    intro K hK he
    cases K with
    | nil => exact he
    | cons m K =>
      have h1 : SameIgnoringCase [] m := he.1
      cases m with
      | nil => exact hK [] List.mem_cons_self rfl
      | cons c m => exact h1
  unfold filtered
  rw [List.map_eq_nil_iff, List.filter_eq_nil_iff]
  intro x hx
  simp only [decide_eq_true_eq]
  have hx' : ∀ m ∈ segments false x.2.2, m ≠ [] := fun m hm => hn x hx m (List.mem_of_mem_drop hm)
  rintro (h | ⟨_, i, _, h⟩ | ⟨h, _⟩)
  · exact hno _ hx' h
  · exact hno _ (fun m hm => hx' m (List.mem_of_mem_take hm)) h
  · cases h

/-- C71 violated: with the path as the exports print it, with a backslash in front, `-f` writes not a single
key, whatever the hive (no key may have an empty name).  Nothing tells this from a key without contents. -/
theorem dump_filter_violated (w : World) (u : Prints) (hpr : ∀ c, u.printed c = true → XmlChar c) (disk : Disk)
    (o : DumpOptions) (hrec : o.recover = false) (ho : o.recoveredOnly = false)
    (hty : o.type = .Jsonl) (input : List Str) (logs : Option (List (List Str)))
    (p : HiveParser) (t : Tree) (vals : Nat → List Val) (hd : 0 < w.depth)
    (h : buildFromPath w disk input (logs.getD []) o.recover o.full = some (.ok p)) (hroot : p.root ≠ none)
    (ht : StoredHive w p.env.fi.buffer t vals)
    (hnames : t.Every (fun u => '\\' ∉ u.name)) (hne : t.Every (fun u => u.name ≠ []))
    (hflags : EveryAll (fun u => u.cell.flags.testBit 2 = false) t.kids)
    (segs : List Str) (hbs : ∀ m ∈ segs, '\\' ∉ m) (hlast : segs.getLast? ≠ none ∧ segs.getLast? ≠ some []) :
    ∃ filter, dumpFilter (some ('\\' :: joined segs)) = .ok (some filter) ∧
      ∃ steps, regDump w steps u disk o (some filter) input logs = some (.ok (.text [])) := by
  cases hs : segs with
  | nil => rw [hs] at hlast; exact absurd rfl hlast.1
  | cons seg ss =>
  rw [← hs]
  have hj : joined ([] :: segs) ++ List.replicate 0 '\\' = '\\' :: joined segs := by
    rw [hs]; simp [joined]
  have hl : ([] :: segs).getLast (by simp) ≠ [] := by
    intro e
    apply hlast.2
    rw [← e, ← List.getLast?_eq_some_getLast, hs, List.getLast?_cons_cons]
  obtain ⟨filter, h1, steps, h2, h3⟩ := dump_filter_tells_partial w u hpr disk o hrec ho (.inl hty) input logs p t vals
    hd h hroot ht hnames hflags [] segs 0
    (fun m hm => by
      rcases List.mem_cons.1 hm with rfl | hm
      · exact List.not_mem_nil
      · exact hbs m hm) hl
  rw [hj] at h1
  refine ⟨filter, h1, steps, ?_⟩
  obtain ⟨d, hd'⟩ := h2 (.inl hty)
  obtain ⟨us, _, h4⟩ := h3 d hd'
  rw [filtered_backslash segs t hne, hty] at h4
  cases d with
  | book _ _ _ => exact h4.elim
  | text s =>
    simp only at h4
    obtain ⟨js, h5, h6⟩ := h4
    rw [List.zip_nil_right] at h6
    cases js with
    | cons _ _ => exact h6.elim
    | nil =>
      cases s with
      | nil => exact hd'
      | cons c s =>
        rw [List.map_nil, List.map_eq_nil_iff, lines] at h5
        split at h5
        · cases h5
        · split at h5 <;> cases h5

/-! ### A case: a file `A` with the hive of Props/Values -/

def valuedDisk : Disk := fun path => if path = [['A']] then some valuedHive else none

/-- The hypotheses of `dump_clean_partial`: the file is written as JSON, with the key and its two values. -/
example : ∃ steps d us, dumpFile sampleWorld steps someTexts valuedDisk {} [['A']] = some (.ok (.text d)) ∧
    JsonlSays false d [(4128, "\\RT".toList)] us valuedVals := by
  have hh : (match BaseBlock.fromBytes valuedHive with
      | .ok (bb, _) => decide (bb.base.fileType ≠ .unknown ∧ bb.base.primarySeq = bb.base.secondarySeq ∧
          calculateChecksum (valuedHive.take 512) = .ok bb.base.checksum)
      | _ => false) = true := by decide +kernel
  cases hb : BaseBlock.fromBytes valuedHive with
  | err => rw [hb] at hh; cases hh
  | panic => rw [hb] at hh; cases hh
  | ok x =>
    rw [hb] at hh
    obtain ⟨h1, h2, h3⟩ := of_decide_eq_true hh
    obtain ⟨steps, h4, h5⟩ := dump_clean_partial sampleWorld someTexts someTexts_legal valuedDisk {} rfl rfl rfl
      (.inl rfl) [] ['A'] valuedHive rfl
      (fun bs hbs => by
        have : openLogs valuedDisk (logsOf valuedDisk {} ['A'] [['A']]) = some [] := by decide +kernel
        rw [List.nil_append, this] at hbs
        cases hbs
        exact ⟨([], none), by decide +kernel⟩)
      x.1 x.2 valuedTree valuedVals (by decide) hb h1 h2 h3 valuedHive_stored
    obtain ⟨d, hd⟩ := h4 (.inl rfl)
    obtain ⟨us, h6, h7⟩ := h5 d hd
    cases d with
    | book _ _ _ => exact h7.elim
    | text s => exact ⟨steps, s, us, hd, h7⟩

/-- The hypotheses of `dump_tells_partial`, `dump_filter_tells_partial`, and `dump_filter_violated`: the file can
be opened; exported with the option `-f '\\RT'` it gives an empty file. -/
theorem valued_opens : ∃ p, buildFromPath sampleWorld valuedDisk [['A']] [] false false = some (.ok p) ∧
    p.root ≠ none ∧ StoredHive sampleWorld p.env.fi.buffer valuedTree valuedVals := by
  have hh : (match BaseBlock.fromBytes valuedHive with
      | .ok (bb, _) => decide (bb.base.fileType ≠ .unknown ∧ bb.base.primarySeq = bb.base.secondarySeq ∧
          calculateChecksum (valuedHive.take 512) = .ok bb.base.checksum)
      | _ => false) = true := by decide +kernel
  cases hb : BaseBlock.fromBytes valuedHive with
  | err => rw [hb] at hh; cases hh
  | panic => rw [hb] at hh; cases hh
  | ok x =>
    rw [hb] at hh
    obtain ⟨h1, h2, h3⟩ := of_decide_eq_true hh
    obtain ⟨p, h4, h5, _, h6, _⟩ := open_clean_lists sampleWorld ⟨valuedHive, [], none, false, false⟩ x.1 x.2 valuedTree
      (by decide) rfl ⟨([], none), by decide +kernel⟩ hb h1 h2 h3 valuedHive_stored.toStoredTree
    exact ⟨p, h4, h6, by rw [h5]; exact valuedHive_stored⟩

example : ∃ filter, dumpFilter (some "\\RT".toList) = .ok (some filter) ∧
    ∃ steps, regDump sampleWorld steps someTexts valuedDisk {} (some filter) [['A']] none = some (.ok (.text [])) := by
  obtain ⟨p, h1, h2, h3⟩ := valued_opens
  have hs : valuedTree.Every (fun u => u.name = ['R', 'T']) := by
    unfold valuedTree; rw [Tree.Every, EveryAll]; exact ⟨rfl, trivial⟩
  exact dump_filter_violated sampleWorld someTexts someTexts_legal valuedDisk {} rfl rfl rfl [['A']] none p valuedTree
    valuedVals (by decide) h1 h2 h3 (every_mono (fun u h => by rw [h]; decide) _ hs)
    (every_mono (fun u h => by rw [h]; decide) _ hs) trivial [['R', 'T']] (by decide) (by decide)

example : ∃ filter, dumpFilter (some "x".toList) = .ok (some filter) ∧
    ∃ steps d, regDump sampleWorld steps someTexts valuedDisk { type := .Tsv } (some filter) [['A']] none = some (.ok d) ∧
      DumpSays { type := .Tsv } valuedTree valuedVals (filtered [.lit ['x']] false true false valuedTree) d := by
  obtain ⟨p, h1, h2, h3⟩ := valued_opens
  have hs : valuedTree.Every (fun u => u.name = ['R', 'T']) := by
    unfold valuedTree; rw [Tree.Every, EveryAll]; exact ⟨rfl, trivial⟩
  obtain ⟨filter, h4, steps, h5, h6⟩ := dump_filter_tells_partial sampleWorld someTexts someTexts_legal valuedDisk
    { type := .Tsv } rfl rfl (.inr (.inl rfl)) [['A']] none p valuedTree valuedVals (by decide) h1 h2 h3
    (every_mono (fun u h => by rw [h]; decide) _ hs) trivial ['x'] [] 0 (by decide) (by decide)
  obtain ⟨d, hd⟩ := h5 (.inr rfl)
  exact ⟨filter, h4, steps, d, hd, h6 d hd⟩

/-- A dirty hive with its log. -/
def dirtyDisk : Disk := fun path =>
  if path = [['A']] then some (sampleHive 5 4 4477 0x61 [])
  else if path = ["A.LOG1".toList] then some sampleLog else none

/-- The hypotheses of `dump_dirty_partial`. -/
example : ∃ bb rest l, openLogs dirtyDisk (logsOf dirtyDisk {} ['A'] [['A']]) = some [sampleLog] ∧
    TransactionLog.parse [sampleLog] = .ok ([l], none) ∧ SoundLog l ∧
    BaseBlock.fromBytes (sampleHive 5 4 4477 0x61 []) = .ok (bb, rest) ∧
    calculateChecksum ((sampleHive 5 4 4477 0x61 []).take 512) = .ok bb.base.checksum ∧
    bb.base.primarySeq = 5 ∧ bb.base.secondarySeq = 4 ∧ l.base.primarySeq = 4 := by
  obtain ⟨bb, rest, h1, h2, h3, h4, hbins, h5⟩ := sampleHive_header 5 4 4477 0x61 [] (by decide +kernel)
  obtain ⟨l, hl, hs, hps, hpages, hsizes, hseqs⟩ := sampleLog_parse
  have hlogs : logsOf dirtyDisk {} ['A'] [['A']] = ["A.LOG1".toList] :: [] := by decide +kernel
  exact ⟨bb, rest, l, by rw [hlogs]; rfl, hl, hs, h1, h5, h3, h4, hps⟩

end Notatin
