import Verif.Lemmas.CompareTells
import Verif.Props.CompareText
/-
Property theorems C74: what `reg_compare` writes, from the bytes of the two hives to what a reader finds in the
report.
-/
namespace Notatin
open Spec

/-! ### What is compared -/

/-- The fields of a value have their widths. -/
def FlaggedVal.Fits (x : FlaggedVal) : Prop := x.val.type < 4294967296 ∧ x.flags < 65536

theorem keyFacts_eq {a b : Tree} (ha : a.cell.Fits) (hb : b.cell.Fits) (h : a.factBytes = b.factBytes) :
    a.facts = b.facts := by
  unfold Tree.factBytes at h
  have h1 := List.append_inj h (by simp)
  have h2 := List.append_inj h1.1 (by simp)
  unfold Tree.facts
  rw [encLE_inj (k := 2) (by have := ha.2.2.1; omega) (by have := hb.2.2.1; omega) h2.1,
    encLE_inj (k := 8) (by have := ha.2.2.2.1; omega) (by have := hb.2.2.2.1; omega) h2.2,
    encLE_inj (k := 4) (by have := ha.2.2.2.2.1; omega) (by have := hb.2.2.2.2.1; omega) h1.2]

theorem factBytes_eq {a b : Tree} (h : a.facts = b.facts) : a.factBytes = b.factBytes := by
  unfold Tree.facts at h
  simp only [Prod.mk.injEq] at h
  unfold Tree.factBytes
  rw [h.1, h.2.1, h.2.2]

theorem valFacts_eq {a b : FlaggedVal} (ha : FlaggedVal.Fits a) (hb : FlaggedVal.Fits b)
    (h : a.factBytes = b.factBytes) : a.facts = b.facts := by
  unfold FlaggedVal.factBytes at h
  have h1 := List.append_inj h (by simp)
  have h2 := List.append_inj h1.1 (by simp)
  unfold FlaggedVal.facts
  rw [encLE_inj (k := 4) (by have := ha.1; omega) (by have := hb.1; omega) h2.1,
    encLE_inj (k := 2) (by have := ha.2; omega) (by have := hb.2; omega) h2.2, h1.2]

theorem valFactBytes_eq {a b : FlaggedVal} (h : a.facts = b.facts) : a.factBytes = b.factBytes := by
  unfold FlaggedVal.facts at h
  simp only [Prod.mk.injEq] at h
  unfold FlaggedVal.factBytes
  rw [h.1, h.2.1, h.2.2]

theorem flaggedValues_fit {buf : Bytes} {hbin : Nat} {c : NkCell} {xs : List FlaggedVal}
    (h : FlaggedValuesAt buf hbin c xs) : ∀ x ∈ xs, FlaggedVal.Fits x := by
  intro x hx
  obtain ⟨_, _, rfl | ⟨offs, _, _, _, _, _, _, _, hp⟩⟩ := h
  · exact absurd hx List.not_mem_nil
  · obtain ⟨off, _, hv, hf⟩ := pairwise2_mem_right hp x hx
    obtain ⟨c, locs, hfit, _, _, ht, _⟩ := hv
    exact ⟨by rw [← ht]; exact hfit.2.2.2.2.1, hf.1⟩

/-! ### From the listings to the stored hives -/

/-- A value of a listing as it is stored. -/
def ListedPair (hash : Bytes → Bytes) (y : Str × Value) (x : Str × FlaggedVal) : Prop :=
  y.1 = x.1 ∧ ListedVal hash y.2 x.2

theorem listed_values {hash : Bytes → Bytes} {vals : Nat → List FlaggedVal} {bs : List Node} {ks : List (Str × Tree)}
    (h : Pairwise2 (ListedKey hash vals) bs ks) :
    Pairwise2 (ListedPair hash) (allValues bs) (keyValues ks vals) := by
  refine pairwise2_flatMap _ _ (fun n x hx => ?_) h
  exact pairwise2_map_map _ _ (fun v y hy => ⟨hx.1, hy⟩) hx.2.2.2

theorem hasKey_iff {hash : Bytes → Bytes} {vals : Nat → List FlaggedVal} {bs : List Node} {ks : List (Str × Tree)}
    (h : Pairwise2 (ListedKey hash vals) bs ks) (p : Str) : HasKey bs p ↔ p ∈ ks.map Prod.fst := by
  constructor
  · rintro ⟨b, hb, rfl⟩
    obtain ⟨x, hx, hl⟩ := pairwise2_mem_left h b hb
    exact List.mem_map.2 ⟨x, hx, hl.1.symm⟩
  · intro hm
    obtain ⟨x, hx, rfl⟩ := List.mem_map.1 hm
    obtain ⟨b, hb, hl⟩ := pairwise2_mem_right h x hx
    exact ⟨b, hb, hl.1⟩

theorem hasValue_all (bs : List Node) (p m : Str) :
    HasValue bs p m ↔ ∃ y ∈ allValues bs, y.1 = p ∧ y.2.val.name = m := by
  constructor
  · rintro ⟨b, hb, rfl, v, hv, rfl⟩
    exact ⟨(b.key.path, v), List.mem_flatMap.2 ⟨b, hb, List.mem_map.2 ⟨v, hv, rfl⟩⟩, rfl, rfl⟩
  · rintro ⟨y, hy, rfl, rfl⟩
    obtain ⟨b, hb, hy⟩ := List.mem_flatMap.1 hy
    obtain ⟨v, hv, rfl⟩ := List.mem_map.1 hy
    exact ⟨b, hb, rfl, v, hv, rfl⟩

theorem valueDiffers_all (bs : List Node) (p m : Str) (h : Option Bytes) :
    ValueDiffers bs p m h ↔ ∃ y ∈ allValues bs, y.1 = p ∧ y.2.val.name = m ∧ y.2.val.hash ≠ h := by
  constructor
  · rintro ⟨b, hb, rfl, v, hv, rfl, hh⟩
    exact ⟨(b.key.path, v), List.mem_flatMap.2 ⟨b, hb, List.mem_map.2 ⟨v, hv, rfl⟩⟩, rfl, rfl, hh⟩
  · rintro ⟨y, hy, rfl, rfl, hh⟩
    obtain ⟨b, hb, hy⟩ := List.mem_flatMap.1 hy
    obtain ⟨v, hv, rfl⟩ := List.mem_map.1 hy
    exact ⟨b, hb, rfl, v, hv, rfl, hh⟩

theorem listedPair_id {hash : Bytes → Bytes} {y : Str × Value} {x : Str × FlaggedVal} (h : ListedPair hash y x) :
    (y.1, y.2.val.name) = valueId x := by
  have : y.2.val.name = x.2.val.name := congrArg Val.name h.2.1
  unfold valueId
  rw [h.1, this]

theorem hasValue_iff {hash : Bytes → Bytes} {bs : List Node} {xs : List (Str × FlaggedVal)}
    (h : Pairwise2 (ListedPair hash) (allValues bs) xs) (p m : Str) :
    HasValue bs p m ↔ (p, m) ∈ xs.map valueId := by
  rw [hasValue_all]
  constructor
  · rintro ⟨y, hy, rfl, rfl⟩
    obtain ⟨x, hx, hl⟩ := pairwise2_mem_left h y hy
    exact List.mem_map.2 ⟨x, hx, (listedPair_id hl).symm⟩
  · intro hm
    obtain ⟨x, hx, e⟩ := List.mem_map.1 hm
    obtain ⟨y, hy, hl⟩ := pairwise2_mem_right h x hx
    have := (listedPair_id hl).trans e
    simp only [Prod.mk.injEq] at this
    exact ⟨y, hy, this.1, this.2⟩

/-- The node shows this key. -/
def ShowsStored (n : Node) (x : Str × Tree) : Prop :=
  n.key.path = x.1 ∧ n.key.fileOffset = x.2.off ∧ n.key.lastWritten = x.2.cell.lastWritten ∧
    n.key.flagBits = x.2.cell.flags ∧ n.key.accessBits = x.2.cell.access

/-- The value shows this value. -/
def ShowsStoredVal (y : Str × Value) (x : Str × FlaggedVal) : Prop :=
  y.1 = x.1 ∧ obsVal y.2 = x.2.val ∧ PlainValue y.2

theorem listed_shows {hash : Bytes → Bytes} {vals : Nat → List FlaggedVal} {n : Node} {x : Str × Tree}
    (h : ListedKey hash vals n x) : ShowsStored n x := ⟨h.1, h.2.1⟩

theorem same_shows {a b : Node} {x : Str × Tree} (h : SameEntry a b) (hb : ShowsStored b x) : ShowsStored a x := by
  obtain ⟨h1, h2, _, _, h5, h6, h7⟩ := h
  obtain ⟨g1, g2, g3, g4, g5⟩ := hb
  exact ⟨h1.trans g1, h2.trans g2, h5.trans g3, h6.trans g4, h7.trans g5⟩

theorem listedPair_shows {hash : Bytes → Bytes} {y : Str × Value} {x : Str × FlaggedVal} (h : ListedPair hash y x) :
    ShowsStoredVal y x := ⟨h.1, h.2.1, h.2.2.2.2⟩

theorem distinct_inj {α κ : Type} (key : α → κ) {l : List α} (h : l.Pairwise fun a b => key a ≠ key b) {a b : α}
    (ha : a ∈ l) (hb : b ∈ l) (e : key a = key b) : a = b :=
  map_inj_of_nodup key l (by rw [List.Nodup, List.pairwise_map]; exact h) a ha b hb e

/-- What is reported, in terms of the stored hives. -/
theorem reported_stored {hash : Bytes → Bytes} {t1 t2 : Tree} {ks1 ks2 : List (Str × Tree)} {v1 v2 : Nat → List FlaggedVal}
    {bs cs : List Node}    {d : Differences} (h : Reported bs cs d) (hb : Pairwise2 (ListedKey hash v1) bs ks1)
    (hc : Pairwise2 (ListedKey hash v2) cs ks2)
    (hm1 : ∀ x ∈ ks1, x.2 ∈ t1.nodes) (hm2 : ∀ x ∈ ks2, x.2 ∈ t2.nodes)
    (hf1 : ∀ u ∈ t1.nodes, u.cell.Fits ∧ ∀ x ∈ v1 u.off, FlaggedVal.Fits x)
    (hf2 : ∀ u ∈ t2.nodes, u.cell.Fits ∧ ∀ x ∈ v2 u.off, FlaggedVal.Fits x)
    (hh : HashTells hash t1 v1 t2 v2)
    (hk1 : ks1.Pairwise fun a b => a.1 ≠ b.1)
    (hn1 : (keyValues ks1 v1).Pairwise fun a b => valueId a ≠ valueId b) :
    ∃ kd ka km vd va vm, StoredDiff ks1 v1 ks2 v2 kd ka km vd va vm ∧
      Pairwise2 ShowsStored d.keysDeleted kd ∧ Pairwise2 ShowsStored d.keysAdded ka ∧
      Pairwise2 (fun y x => ShowsStored y.1 x.1 ∧ ShowsStored y.2 x.2) d.keysModified km ∧
      Pairwise2 ShowsStoredVal d.valuesDeleted vd ∧ Pairwise2 ShowsStoredVal d.valuesAdded va ∧
      Pairwise2 (fun y x => ShowsStoredVal (y.1, y.2.1) x.1 ∧ ShowsStoredVal (y.1, y.2.2) x.2) d.valuesModified vm := by
  have hvb := listed_values hb
  have hvc := listed_values hc
  have hkey : ∀ x ∈ ks1, ∀ y ∈ ks2,
      (some (hash x.2.factBytes) ≠ some (hash y.2.factBytes) ↔ x.2.facts ≠ y.2.facts) := by
    intro x hx y hy
    constructor
    · intro hne e; exact hne (by rw [factBytes_eq e])
    · intro hne e
      exact hne (keyFacts_eq (hf1 _ (hm1 x hx)).1 (hf2 _ (hm2 y hy)).1
        (hh.keys _ (hm1 x hx) _ (hm2 y hy) (Option.some.inj e)))
  have hval : ∀ x ∈ keyValues ks1 v1, ∀ y ∈ keyValues ks2 v2,
      (some (hash x.2.factBytes) ≠ some (hash y.2.factBytes) ↔ x.2.facts ≠ y.2.facts) := by
    intro x hx y hy
    obtain ⟨a, ha, hx⟩ := List.mem_flatMap.1 hx
    obtain ⟨x', hx', rfl⟩ := List.mem_map.1 hx
    obtain ⟨b, hb, hy⟩ := List.mem_flatMap.1 hy
    obtain ⟨y', hy', rfl⟩ := List.mem_map.1 hy
    constructor
    · intro hne e; exact hne (by rw [valFactBytes_eq e])
    · intro hne e
      exact hne (valFacts_eq ((hf1 _ (hm1 a ha)).2 x' hx') ((hf2 _ (hm2 b hb)).2 y' hy')
        (hh.values _ (hm1 a ha) _ (hm2 b hb) x' hx' y' hy' (Option.some.inj e)))
  -- deleted keys
  obtain ⟨del, hdp, hds⟩ := h.keysDeleted
  have hdel := pairwise2_filter (fun n => !decide (HasKey cs n.key.path))
    (fun x : Str × Tree => !decide (x.1 ∈ ks2.map Prod.fst)) (fun n _ x _ hl => by
      rw [hl.1]
      congr 1
      exact decide_eq_decide.2 (hasKey_iff hc x.1)) hb
  obtain ⟨kd, hkd, hkds⟩ := pairwise2_perm hdp.symm _ hdel
  -- deleted values
  have hvdel := pairwise2_filter (fun y : Str × Value => !decide (HasValue cs y.1 y.2.val.name))
    (fun x : Str × FlaggedVal => !decide (valueId x ∈ (keyValues ks2 v2).map valueId)) (fun y _ x _ hl => by
      rw [← listedPair_id hl]
      congr 1
      exact decide_eq_decide.2 (hasValue_iff hvc _ _)) hvb
  obtain ⟨vd, hvd, hvds⟩ := pairwise2_perm h.valuesDeleted.symm _ hvdel
  -- added
  have hadd := pairwise2_filter (fun n => !decide (HasKey bs n.key.path))
    (fun x : Str × Tree => !decide (x.1 ∈ ks1.map Prod.fst)) (fun n _ x _ hl => by
      rw [hl.1]
      congr 1
      exact decide_eq_decide.2 (hasKey_iff hb x.1)) hc
  have hvadd := pairwise2_filter (fun y : Str × Value => !decide (HasValue bs y.1 y.2.val.name))
    (fun x : Str × FlaggedVal => !decide (valueId x ∈ (keyValues ks1 v1).map valueId)) (fun y _ x _ hl => by
      rw [← listedPair_id hl]
      congr 1
      exact decide_eq_decide.2 (hasValue_iff hvb _ _)) hvc
  -- modified keys
  have hkm := pairwise2_changed
    (S := fun (y : Node × Node) (x : (Str × Tree) × (Str × Tree)) => ShowsStored y.1 x.1 ∧ ShowsStored y.2 x.2)
    (fun n : Node => decide (KeyDiffers bs n.key.path n.key.hash))
    (fun y x : Str × Tree => decide (x.1 = y.1 ∧ x.2.facts ≠ y.2.facts)) ks1 hc
    (fun n _ y hy hl hp x hx => by
      rw [decide_eq_false_iff_not] at hp ⊢
      rintro ⟨e1, e2⟩
      obtain ⟨b, hbm, hbl⟩ := pairwise2_mem_right hb x hx
      refine hp ⟨b, hbm, by rw [hbl.1, hl.1, e1], ?_⟩
      rw [hbl.2.2.1, hl.2.2.1]
      exact (hkey x hx y hy).2 e2)
    (fun n _ y hy m hl hp hm => by
      obtain ⟨b, hbm, hbp, hbh⟩ := of_decide_eq_true hp
      obtain ⟨x, hx, hbl⟩ := pairwise2_mem_left hb b hbm
      rw [hbl.2.2.1, hl.2.2.1, hkey x hx y hy] at hbh
      have hxy : x.1 = y.1 := by rw [← hbl.1, hbp, hl.1]
      refine ⟨x, filter_one Prod.fst _ y.1 _ hk1 x hx (decide_eq_true ⟨hxy, hbh⟩) hxy
        (fun z hz => (of_decide_eq_true hz).1), ?_, ?_⟩
      · obtain ⟨_, b', hbm', hbp', hsame⟩ := hm
        obtain ⟨x', hx', hbl'⟩ := pairwise2_mem_left hb b' hbm'
        have : x' = x := distinct_inj Prod.fst hk1 hx' hx (by rw [← hbl'.1, hbp', hl.1, hxy])
        rw [← this]
        exact same_shows hsame (listed_shows hbl')
      · show ShowsStored m.2 y
        rw [hm.1]
        exact listed_shows hl)
    h.keysModified
  -- modified values
  have hvm := pairwise2_changed
    (S := fun (y : Str × (Value × Value)) (x : (Str × FlaggedVal) × (Str × FlaggedVal)) =>
      ShowsStoredVal (y.1, y.2.1) x.1 ∧ ShowsStoredVal (y.1, y.2.2) x.2)
    (fun y : Str × Value => decide (ValueDiffers bs y.1 y.2.val.name y.2.val.hash))
    (fun y x : Str × FlaggedVal => decide (valueId x = valueId y ∧ x.2.facts ≠ y.2.facts)) (keyValues ks1 v1) hvc
    (fun n _ y hy hl hp x hx => by
      rw [decide_eq_false_iff_not, valueDiffers_all] at hp
      rw [decide_eq_false_iff_not]
      rintro ⟨e1, e2⟩
      obtain ⟨b, hbm, hbl⟩ := pairwise2_mem_right hvb x hx
      have hid : (b.1, b.2.val.name) = (n.1, n.2.val.name) := by
        rw [listedPair_id hbl, listedPair_id hl, e1]
      simp only [Prod.mk.injEq] at hid
      refine hp ⟨b, hbm, hid.1, hid.2, ?_⟩
      rw [hbl.2.2.2.1, hl.2.2.2.1]
      exact (hval x hx y hy).2 e2)
    (fun n _ y hy m hl hp hm => by
      obtain ⟨b, hbm, hbp, hbn, hbh⟩ := (valueDiffers_all _ _ _ _).1 (of_decide_eq_true hp)
      obtain ⟨x, hx, hbl⟩ := pairwise2_mem_left hvb b hbm
      rw [hbl.2.2.2.1, hl.2.2.2.1, hval x hx y hy] at hbh
      have hxy : valueId x = valueId y := by
        rw [← listedPair_id hbl, ← listedPair_id hl, hbp, hbn]
      refine ⟨x, filter_one valueId _ (valueId y) _ hn1 x hx (decide_eq_true ⟨hxy, hbh⟩) hxy
        (fun z hz => (of_decide_eq_true hz).1), ?_, ?_⟩
      · obtain ⟨e1, _, e3, hmem⟩ := hm
        obtain ⟨x', hx', hbl'⟩ := pairwise2_mem_left hvb _ hmem
        have : x' = x := distinct_inj valueId hn1 hx' hx (by
          rw [← listedPair_id hbl', hxy, ← listedPair_id hl]
          simp only [e3])
        rw [← this]
        show ShowsStoredVal (m.1, m.2.1) x'
        rw [e1]
        exact listedPair_shows hbl'
      · show ShowsStoredVal (m.1, m.2.2) y
        rw [hm.1, hm.2.1]
        exact listedPair_shows hl)
    h.valuesModified
  refine ⟨kd, _, _, vd, _, _, ⟨hkd.symm, rfl, rfl, hvd.symm, rfl, rfl⟩, ?_, ?_, hkm, ?_, ?_, hvm⟩
  · exact pairwise2_trans (R := SameEntry) (S := ListedKey hash v1) (fun a b x h1 h2 => same_shows h1 (listed_shows h2)) hds hkds
  · rw [h.keysAdded]
    exact pairwise2_imp (fun _ _ _ _ h => listed_shows h) hadd
  · exact pairwise2_imp (fun _ _ _ _ h => listedPair_shows h) hvds
  · rw [h.valuesAdded]
    exact pairwise2_imp (fun _ _ _ _ h => listedPair_shows h) hvadd

/-! ### The rows -/

theorem key_row {n : Node} {x : Str × Tree} (h : ShowsStored n x) :
    KeyRow FitsNanos (formatKey compareKeyRest n) x := by
  obtain ⟨h1, _, h3, h4, h5⟩ := h
  refine ⟨keyTime n.key, keyFlagsText n.key, keyAccessText n.key, ?_, ?_, ?_, ?_⟩
  · unfold formatKey compareKeyRest
    rw [h1]
    simp only [List.append_assoc, List.cons_append]
  · rw [← h3]
    exact fun h => (times_told_partial _ h).1
  · rw [← h4]
    exact keyFlags_named n.key
  · rw [← h5]
    exact keyAccess_named n.key

theorem value_row (u : Prints) {y : Str × Value} {x : Str × FlaggedVal} (h : ShowsStoredVal y x) :
    ValueRow (formatValue (compareContent u) y.1 y.2) x := by
  obtain ⟨h1, h2, h3⟩ := h
  obtain ⟨w, hw, _⟩ := valueContent_ok y.2
  refine ⟨compareContent u y.2, valueContent y.2, ?_, shown_read_back _ _, ?_⟩
  · have hn : y.2.val.prettyName = shownName x.2.val.name := by
      rw [← h2]
      show _ = shownName y.2.val.name
      unfold KeyValue.prettyName getPrettyName shownName
      cases y.2.val.name <;> rfl
    unfold formatValue
    rw [h1, hn]
  · rw [← h2]
    exact plain_content y.2 h3 _ _ hw

mutual
theorem keys_chars {c : Char} (hc : c ≠ '\\') : ∀ (t : Tree) (parent : Str), (t.Every fun u => c ∉ u.name) →
    c ∉ parent → ∀ x ∈ t.keys parent, c ∉ x.1
  | .mk off k name kids, parent, h, hp, x, hx => by
    rw [Tree.Every] at h
    rw [Tree.keys] at hx
    have hn : c ∉ parent ++ '\\' :: name := by
      simp only [List.mem_append, List.mem_cons, not_or]
      exact ⟨hp, hc, h.1⟩
    rcases List.mem_cons.1 hx with rfl | hx
    · exact hn
    · exact keysAll_chars hc kids _ h.2 hn x hx
theorem keysAll_chars {c : Char} (hc : c ≠ '\\') : ∀ (ts : List Tree) (parent : Str), (EveryAll (fun u => c ∉ u.name) ts) →
    c ∉ parent → ∀ x ∈ keysAll parent ts, c ∉ x.1
  | [], _, _, _, x, hx => by rw [keysAll] at hx; exact absurd hx List.not_mem_nil
  | t :: ts, parent, h, hp, x, hx => by
    rw [EveryAll] at h
    rw [keysAll] at hx
    rcases List.mem_append.1 hx with hx | hx
    · exact keys_chars hc t parent h.1 hp x hx
    · exact keysAll_chars hc ts parent h.2 hp x hx
end

/-! ### The whole comparison -/

/-- The file `buf` stores the tree and the values, and neither the names of keys beside each other nor those of
the values of a key coincide. -/
structure Spec.ComparedHive (w : World) (buf : Bytes) (t : Tree) (vals : Nat → List FlaggedVal) : Prop
    extends StoredTree w buf t where
  values : t.Every fun u => FlaggedValuesAt buf 4096 u.cell (vals u.off)
  names : t.Every fun u => '\\' ∉ u.name ∧ u.name ≠ []
  distinct : t.Every fun u => NamesDistinct u.kids
  valueNames : t.Every fun u => (vals u.off).Pairwise fun a b => ¬ SameIgnoringCase a.val.name b.val.name
  depth : ∀ x ∈ t.named [] [], x.2.2.length ≤ w.depth
  keyLines : t.Every fun u => '\n' ∉ u.name
  valueLines : t.Every fun u => ∀ x ∈ vals u.off, '\n' ∉ x.val.name

theorem compared_plain {w : World} {b : Builder} {p : HiveParser} {t : Tree} {vals : Nat → List FlaggedVal}
    (hrec : b.recover = false) (h : b.build w = some (.ok p)) (hroot : p.root ≠ none)
    (ht : ComparedHive w p.env.fi.buffer t vals) : PlainBase ⟨p.env, p.state, p.root, 32⟩ t := by
  obtain ⟨h1, h2, h0, h3⟩ := built_plain w b p hrec h hroot
  have hbuf : p.env.fi = ⟨4096, p.env.fi.buffer⟩ := by
    have := congrArg Env.fi h1
    exact this
  have hdep : p.env.depth = w.depth := by rw [h1]; rfl
  have hb : p.env.fi.hbin = 4096 := by rw [hbuf]
  exact {
    bin := by show FirstBin p.env.fi; rw [hbuf]; exact ht.bin
    off := by show t.off = p.env.fi.hbin + 32; rw [hb]; exact ht.top
    rco := rfl
    tree := by show TreeAt p.env.fi.buffer p.env.fi.hbin p.env.depth t; rw [hb, hdep]; exact ht.tree
    once := ht.once
    nothing := ⟨fun q => ⟨h2.1 q, h2.2.2.2 q, h2.2.2.1 q⟩, h2.2.1⟩
    fresh := h0
    root := by show initRoot p.env p.state = _; rw [h3, h0]
    names := ht.names
    distinct := ht.distinct
    depth := by show ∀ x ∈ t.named [] [], x.2.2.length ≤ p.env.depth; rw [hdep]; exact ht.depth }

/-- What the listing of an opened hive shows. -/
theorem compared_listing {w : World} {b : Builder} {p : HiveParser} {t : Tree} {vals : Nat → List FlaggedVal}
    (hd : 0 < w.depth) (hrec : b.recover = false) (h : b.build w = some (.ok p)) (hroot : p.root ≠ none)
    (ht : ComparedHive w p.env.fi.buffer t vals) :
    ∃ steps bs, (∀ m, steps ≤ m → p.opened.keys m {} = some (.ok bs)) ∧
      Pairwise2 (ListedKey w.hashFn vals) bs (t.keys []) ∧ CaseUnique bs ∧ Unique bs := by
  have hplain := compared_plain hrec h hroot ht
  obtain ⟨h1, _⟩ := built_plain w b p hrec h hroot
  have hb : p.env.fi.hbin = 4096 := by rw [h1]; rfl
  have hhash : p.env.hashFn = w.hashFn := by rw [h1]; rfl
  have hst : StoredHive w p.env.fi.buffer t (fun off => (vals off).map (·.val)) :=
    ⟨ht.toStoredTree, every_mono (fun u hu => flagged_values hu) t ht.values⟩
  obtain ⟨steps, bs, e, _⟩ := opened_tells w b p t _ hd hrec h hroot hst true false
  have e' : collect (nextPre p.env) steps (.start p.state p.root {} true false) = some (.ok bs) := e
  have hl := listing_stored hplain vals (by
    show t.Every fun u => FlaggedValuesAt p.env.fi.buffer p.env.fi.hbin u.cell (vals u.off)
    rw [hb]; exact ht.values) (steps := steps) (bs := bs) e'
  rw [show (Opened.mk p.env p.state p.root 32).env.hashFn = w.hashFn from hhash] at hl
  have hcu : CaseUnique bs := by
    intro n hn
    obtain ⟨x, hx, hlx⟩ := pairwise2_mem_left hl n hn
    have hxm : x.2 ∈ t.nodes := by
      rw [← keys_nodes t []]; exact List.mem_map.2 ⟨x, hx, rfl⟩
    have hd := every_nodes t ht.valueNames x.2 hxm
    have e1 := pairwise2_map_eq (f := fun v : Value => v.val.name) (g := fun y : FlaggedVal => y.val.name)
      (fun v y (hv : ListedVal w.hashFn v y) => (congrArg Val.name hv.1).symm) hlx.2.2.2
    have := (List.pairwise_map (f := fun y : FlaggedVal => y.val.name)
      (R := fun a b => ¬ SameIgnoringCase a b)).2 hd
    rw [e1, List.pairwise_map] at this
    exact this
  refine ⟨steps, bs, fun m hm => collect_mono (fuelMono_pre p.env) steps m _ _ e' hm, hl, hcu, (plain_finds hplain e').2, ?_⟩
  exact fun n hn => (hcu n hn).imp fun {a b} h (e : a.val.name = b.val.name) =>
    h (by rw [e]; exact sameIgnoringCase_refl _)

theorem keys_mem {t : Tree} : ∀ x ∈ t.keys [], x.2 ∈ t.nodes := fun x hx => by
  rw [← keys_nodes t []]; exact List.mem_map.2 ⟨x, hx, rfl⟩

/-- The paths, and the values, of keys of a stored hive are distinct. -/
theorem compared_distinct {w : World} {buf : Bytes} {hash : Bytes → Bytes} {t : Tree} {vals : Nat → List FlaggedVal}
    {ks : List (Str × Tree)} {bs : List Node} (ht : ComparedHive w buf t vals) (hs : ∀ x ∈ ks, x.2 ∈ t.nodes)
    (hl : Pairwise2 (ListedKey hash vals) bs ks) (hu : Unique bs) :
    (ks.Pairwise fun a b => a.1 ≠ b.1) ∧ (keyValues ks vals).Pairwise fun a b => valueId a ≠ valueId b := by
  have e1 := pairwise2_map_eq (f := fun n : Node => n.key.path) (g := fun x : Str × Tree => x.1)
    (fun n x hx => hx.1.symm) hl
  have h1 : ks.Pairwise fun a b => a.1 ≠ b.1 := by
    have := (List.pairwise_map (f := fun n : Node => n.key.path) (R := fun a b => a ≠ b)).2 hu.paths
    rw [← e1, List.pairwise_map] at this
    exact this
  refine ⟨h1, ?_⟩
  unfold keyValues
  rw [List.pairwise_flatMap]
  constructor
  · intro x hx
    rw [List.pairwise_map]
    refine (every_nodes t ht.valueNames x.2 (hs x hx)).imp fun {a b} hab e => hab ?_
    unfold valueId at e
    simp only [Prod.mk.injEq, true_and] at e
    rw [e]
    exact sameIgnoringCase_refl _
  · refine h1.imp fun {a b} hab x hx y hy e => hab ?_
    obtain ⟨_, _, rfl⟩ := List.mem_map.1 hx
    obtain ⟨_, _, rfl⟩ := List.mem_map.1 hy
    exact congrArg (fun z : Str × Str => z.1) e

theorem compared_fits {w : World} {buf : Bytes} {t : Tree} {vals : Nat → List FlaggedVal}
    (ht : ComparedHive w buf t vals) : ∀ u ∈ t.nodes, u.cell.Fits ∧ ∀ x ∈ vals u.off, FlaggedVal.Fits x :=
  fun u hu => ⟨(nodes_at t ht.tree u hu).1, flaggedValues_fit (every_nodes t ht.values u hu)⟩

theorem shown_key_nl {w : World} {buf : Bytes} {t : Tree} {vals : Nat → List FlaggedVal}
    (ht : ComparedHive w buf t vals) {n : Node} {x : Str × Tree} (hx : x ∈ t.keys []) (h : ShowsStored n x) :
    '\n' ∉ formatKey compareKeyRest n :=
  formatKey_nl (by rw [h.1]; exact keys_chars (by decide) t [] ht.keyLines List.not_mem_nil x hx)

theorem shown_value_nl {w : World} {buf : Bytes} {t : Tree} {vals : Nat → List FlaggedVal}
    (ht : ComparedHive w buf t vals) (u : Prints) {y : Str × Value} {x : Str × FlaggedVal}
    (hx : x ∈ keyValues (t.keys []) vals) (h : ShowsStoredVal y x) : '\n' ∉ formatValue (compareContent u) y.1 y.2 := by
  obtain ⟨a, ha, hx⟩ := List.mem_flatMap.1 hx
  obtain ⟨b, hb, rfl⟩ := List.mem_map.1 hx
  have hxm : a.2 ∈ t.nodes := by
    rw [← keys_nodes t []]; exact List.mem_map.2 ⟨a, ha, rfl⟩
  refine formatValue_nl u ?_ ?_
  · rw [h.1]; exact keys_chars (by decide) t [] ht.keyLines List.not_mem_nil a ha
  · have : y.2.val.name = b.val.name := congrArg Val.name h.2.1
    rw [this]
    exact every_nodes t ht.valueLines a.2 hxm b hb

/-- From the differences of the listings to the report. -/
theorem compared_says {w : World} {order : HashIndex → HashIndex} {steps : Nat} (u : Prints) (shown : List Str → Str)
    (diff : Bool) {disk : Disk} {filter : Option Filter} {base comp : List Str}
    {baseLogs compLogs : Option (List (List Str))} {p1 p2 : HiveParser} {t1 t2 : Tree} {v1 v2 : Nat → List FlaggedVal}
    {ks1 ks2 : List (Str × Tree)} {bs cs : List Node} {d : Differences}
    (h1 : buildFromPath w disk base (baseLogs.getD []) false false = some (.ok p1))
    (h2 : buildFromPath w disk comp (compLogs.getD []) false false = some (.ok p2))
    (ht1 : ComparedHive w p1.env.fi.buffer t1 v1) (ht2 : ComparedHive w p2.env.fi.buffer t2 v2)
    (hs1 : ∀ x ∈ ks1, x ∈ t1.keys []) (hs2 : ∀ x ∈ ks2, x ∈ t2.keys [])
    (hh : HashTells w.hashFn t1 v1 t2 v2)
    (hf1 : '\n' ∉ filenames u shown base baseLogs) (hf2 : '\n' ∉ filenames u shown comp compLogs)
    (hd1 : regCompare order steps (filter.getD {}) p1.opened p2.opened = some (.ok d)) (hd2 : Reported bs cs d)
    (l1 : Pairwise2 (ListedKey w.hashFn v1) bs ks1) (l2 : Pairwise2 (ListedKey w.hashFn v2) cs ks2)
    (q1 : Unique bs) :
    ∃ text, compareReport w order steps u shown filter diff base baseLogs comp compLogs disk = some (.ok text) ∧
      CompareSays diff FitsNanos (filenames u shown base baseLogs) (filenames u shown comp compLogs) ks1 v1 ks2 v2
        text := by
  have hm1 : ∀ x ∈ ks1, x.2 ∈ t1.nodes := fun x hx => keys_mem x (hs1 x hx)
  have hm2 : ∀ x ∈ ks2, x.2 ∈ t2.nodes := fun x hx => keys_mem x (hs2 x hx)
  have hv1 : ∀ x ∈ keyValues ks1 v1, x ∈ keyValues (t1.keys []) v1 := by
    intro x hx
    obtain ⟨a, ha, hx⟩ := List.mem_flatMap.1 hx
    exact List.mem_flatMap.2 ⟨a, hs1 a ha, hx⟩
  have hv2 : ∀ x ∈ keyValues ks2 v2, x ∈ keyValues (t2.keys []) v2 := by
    intro x hx
    obtain ⟨a, ha, hx⟩ := List.mem_flatMap.1 hx
    exact List.mem_flatMap.2 ⟨a, hs2 a ha, hx⟩
  obtain ⟨hk1, hn1⟩ := compared_distinct ht1 hm1 l1 q1
  obtain ⟨kd, ka, km, vd, va, vm, hs, e1, e2, e3, e4, e5, e6⟩ :=
    reported_stored hd2 l1 l2 hm1 hm2 (compared_fits ht1) (compared_fits ht2) hh hk1 hn1
  have hrem : ∀ l ∈ removedRows compareKeyRest (compareContent u) d, '\n' ∉ l := by
    intro l hl
    simp only [removedRows, List.mem_append, List.mem_map] at hl
    rcases hl with ((⟨n, hn, rfl⟩ | ⟨n, hn, rfl⟩) | ⟨n, hn, rfl⟩) | ⟨n, hn, rfl⟩
    · obtain ⟨x, hx, hs'⟩ := pairwise2_mem_left e1 n hn
      exact shown_key_nl ht1 (hs1 _ (List.mem_filter.1 (hs.keysDeleted.mem_iff.1 hx)).1) hs'
    · obtain ⟨x, hx, hs'⟩ := pairwise2_mem_left e3 n hn
      rw [hs.keysModified] at hx
      obtain ⟨y, hy, hx⟩ := List.mem_flatMap.1 hx
      obtain ⟨z, hz, rfl⟩ := List.mem_map.1 hx
      exact shown_key_nl ht1 (hs1 _ (List.mem_filter.1 hz).1) hs'.1
    · obtain ⟨x, hx, hs'⟩ := pairwise2_mem_left e4 n hn
      exact shown_value_nl ht1 u (hv1 _ (List.mem_filter.1 (hs.valuesDeleted.mem_iff.1 hx)).1) hs'
    · obtain ⟨x, hx, hs'⟩ := pairwise2_mem_left e6 n hn
      rw [hs.valuesModified] at hx
      obtain ⟨y, hy, hx⟩ := List.mem_flatMap.1 hx
      obtain ⟨z, hz, rfl⟩ := List.mem_map.1 hx
      exact shown_value_nl ht1 u (hv1 _ (List.mem_filter.1 hz).1) hs'.1
  have hadd : ∀ l ∈ addedRows compareKeyRest (compareContent u) d, '\n' ∉ l := by
    intro l hl
    simp only [addedRows, List.mem_append, List.mem_map] at hl
    rcases hl with ((⟨n, hn, rfl⟩ | ⟨n, hn, rfl⟩) | ⟨n, hn, rfl⟩) | ⟨n, hn, rfl⟩
    · obtain ⟨x, hx, hs'⟩ := pairwise2_mem_left e2 n hn
      rw [hs.keysAdded] at hx
      exact shown_key_nl ht2 (hs2 _ (List.mem_filter.1 hx).1) hs'
    · obtain ⟨x, hx, hs'⟩ := pairwise2_mem_left e3 n hn
      rw [hs.keysModified] at hx
      obtain ⟨y, hy, hx⟩ := List.mem_flatMap.1 hx
      obtain ⟨z, hz, rfl⟩ := List.mem_map.1 hx
      exact shown_key_nl ht2 (hs2 _ hy) hs'.2
    · obtain ⟨x, hx, hs'⟩ := pairwise2_mem_left e5 n hn
      rw [hs.valuesAdded] at hx
      exact shown_value_nl ht2 u (hv2 _ (List.mem_filter.1 hx).1) hs'
    · obtain ⟨x, hx, hs'⟩ := pairwise2_mem_left e6 n hn
      rw [hs.valuesModified] at hx
      obtain ⟨y, hy, hx⟩ := List.mem_flatMap.1 hx
      obtain ⟨z, hz, rfl⟩ := List.mem_map.1 hx
      exact shown_value_nl ht2 u (hv2 _ hy) hs'.2
  refine ⟨(if diff then writeDiff else writeText) compareKeyRest (compareContent u)
    (filenames u shown base baseLogs) (filenames u shown comp compLogs) d, ?_, kd, ka, km, vd, va, vm, hs,
    d.keysDeleted.map (formatKey compareKeyRest), d.keysAdded.map (formatKey compareKeyRest),
    d.keysModified.map (fun k => (formatKey compareKeyRest k.1, formatKey compareKeyRest k.2)),
    d.valuesDeleted.map (fun v => formatValue (compareContent u) v.1 v.2),
    d.valuesAdded.map (fun v => formatValue (compareContent u) v.1 v.2),
    d.valuesModified.map (fun v => (formatValue (compareContent u) v.1 v.2.1, formatValue (compareContent u) v.1 v.2.2)),
    ?_, ?_, ?_, ?_, ?_, ?_, ?_⟩
  · unfold compareReport
    rw [h1, h2]
    simp only
    rw [hd1]
  · simpa using pairwise2_map_map (S := KeyRow FitsNanos) (formatKey compareKeyRest) id (fun _ _ h => key_row h) e1
  · simpa using pairwise2_map_map (S := KeyRow FitsNanos) (formatKey compareKeyRest) id (fun _ _ h => key_row h) e2
  · simpa using pairwise2_map_map (S := fun r x => KeyRow FitsNanos r.1 x.1 ∧ KeyRow FitsNanos r.2 x.2)
      (fun k : Node × Node => (formatKey compareKeyRest k.1, formatKey compareKeyRest k.2)) id
      (fun _ _ h => ⟨key_row h.1, key_row h.2⟩) e3
  · simpa using pairwise2_map_map (S := ValueRow) (fun v : Str × Value => formatValue (compareContent u) v.1 v.2) id
      (fun _ _ h => value_row u h) e4
  · simpa using pairwise2_map_map (S := ValueRow) (fun v : Str × Value => formatValue (compareContent u) v.1 v.2) id
      (fun _ _ h => value_row u h) e5
  · simpa using pairwise2_map_map (S := fun r x => ValueRow r.1 x.1 ∧ ValueRow r.2 x.2)
      (fun v : Str × (Value × Value) =>
        (formatValue (compareContent u) v.1 v.2.1, formatValue (compareContent u) v.1 v.2.2)) id
      (fun _ _ h => ⟨value_row u h.1, value_row u h.2⟩) e6
  · cases diff with
    | true =>
      have := diff_hunks_partial compareKeyRest (compareContent u) _ _ d hf1 hf2 hrem hadd
      simp only [if_true, List.map_map]
      exact this
    | false => exact report_lines compareKeyRest (compareContent u) _ _ d hf1 hf2 hrem hadd

/-- C74: whatever two hives are opened, with whatever logs: the report (or the diff) says exactly which keys and
values, stored in the files as they are after the logs were applied, were deleted, added and modified, with one
row for each.

Partial: without a filter; the root cell of the first hive is where the header of every hive puts it; no line
feeds in names and no coinciding names (`ComparedHive`); two keys or values hash alike only when they are alike;
and "modified" includes values of which only the flags of the cell differ (`compare_flags_violated`). -/
theorem compare_tells_partial (w : World) (order : HashIndex → HashIndex) (horder : ∀ m, (order m).Perm m)
    (u : Prints) (shown : List Str → Str) (diff : Bool) (disk : Disk)
    (base : List Str) (baseLogs : Option (List (List Str))) (comp : List Str) (compLogs : Option (List (List Str)))
    (p1 p2 : HiveParser) (t1 t2 : Tree) (v1 v2 : Nat → List FlaggedVal) (hd : 0 < w.depth)
    (h1 : buildFromPath w disk base (baseLogs.getD []) false false = some (.ok p1)) (hr1 : p1.root ≠ none)
    (h2 : buildFromPath w disk comp (compLogs.getD []) false false = some (.ok p2)) (hr2 : p2.root ≠ none)
    (ht1 : ComparedHive w p1.env.fi.buffer t1 v1) (ht2 : ComparedHive w p2.env.fi.buffer t2 v2)
    (hrco : p1.header.base.rootCellOffset = 32) (hh : HashTells w.hashFn t1 v1 t2 v2)
    (hf1 : '\n' ∉ filenames u shown base baseLogs) (hf2 : '\n' ∉ filenames u shown comp compLogs) :
    ∃ steps text, compareReport w order steps u shown none diff base baseLogs comp compLogs disk = some (.ok text) ∧
      CompareSays diff FitsNanos (filenames u shown base baseLogs) (filenames u shown comp compLogs) (t1.keys []) v1 (t2.keys [])
        v2 text := by
  have hb : ∀ {path logs p}, buildFromPath w disk path logs false false = some (.ok p) →
      ∃ b : Builder, b.recover = false ∧ b.build w = some (.ok p) := by
    intro path logs p h
    unfold buildFromPath at h
    split at h
    · cases h
    · split at h
      · cases h
      · exact ⟨_, rfl, h⟩
  obtain ⟨b1, hb1, hb1'⟩ := hb h1
  obtain ⟨b2, hb2, hb2'⟩ := hb h2
  obtain ⟨s1, bs, k1, l1, c1, q1⟩ := compared_listing hd hb1 hb1' hr1 ht1
  obtain ⟨s2, cs, k2, l2, c2, q2⟩ := compared_listing hd hb2 hb2' hr2 ht2
  have hp := compared_plain hb1 hb1' hr1 ht1
  rw [← hrco] at hp
  obtain ⟨d, hd1, hd2⟩ := hives_compared_partial order horder (max s1 s2) p1.opened p2.opened t1 hp bs cs
    (k1 _ (Nat.le_max_left ..)) (k2 _ (Nat.le_max_right ..)) c1 q2
  obtain ⟨text, h⟩ := compared_says (filter := none) u shown diff h1 h2 ht1 ht2 (fun _ h => h) (fun _ h => h) hh hf1
    hf2 hd1 hd2 l1 l2 q1
  exact ⟨_, text, h⟩

/-! ### A case and a violation -/

/-- The value `a`, the number `n`; the name is stored with one byte for each character, or with two. -/
def numberCell (wide : Bool) (n : Nat) : VkCell :=
  if wide then ⟨-28, 0x80000004, n, 4, 0, 0, [0x61, 0], [0, 0]⟩ else ⟨-28, 0x80000004, n, 4, 1, 0, [0x61], [0, 0, 0]⟩

def numberKey : NkCell := { exampleCell 0x24 0 0 [0x52, 0x54] with nValues := 1, valuesList := 114 }

def numberBin (wide : Bool) (n : Nat) : Bytes :=
  hbinBytes 0 150 0 0 0 0 ++ numberKey.encode ++ (encLE 4 0xFFFFFFF8 ++ [122].flatMap (encLE 4)) ++
    (numberCell wide n).encode

/-- A hive with one key and one value. -/
def numberHive (wide : Bool) (n : Nat) : Bytes := sampleHeader 5 5 4246 ++ List.replicate 3584 0 ++ numberBin wide n

def numberTree : Tree := .mk 4128 numberKey ['R', 'T'] []

def numberVals (wide : Bool) (n : Nat) (_ : Nat) : List FlaggedVal :=
  [⟨⟨['a'], 4, encLE 4 n⟩, if wide then 0 else 1⟩]

/-- A world in which the hash tells everything apart. -/
def tellingWorld : World := { sampleWorld with hashFn := id }

theorem numberHive_compared {wide : Bool} {n : Nat} (hn : n = 5 ∨ n = 6) :
    ComparedHive tellingWorld (numberHive wide n) numberTree (numberVals wide n) := by
  have hl : (sampleHeader 5 5 4246 ++ List.replicate 3584 (0 : UInt8)).length = 4096 := by
    rw [List.length_append, List.length_replicate]
    simp only [sampleHeader, List.length_append, length_encLE, List.length_replicate]
    rfl
  have hat : ∀ (off : Nat) (enc : Bytes), numberBin wide n = (numberBin wide n).take off ++ (enc ++ (numberBin wide n).drop (off + enc.length)) →
      off ≤ 150 → At (numberHive wide n) (4096 + off) enc := by
    intro off enc he ho
    have hb : (numberBin wide n).length = 150 := by
      rcases hn with rfl | rfl <;> cases wide <;> decide +kernel
    refine ⟨(sampleHeader 5 5 4246 ++ List.replicate 3584 0) ++ (numberBin wide n).take off, (numberBin wide n).drop (off + enc.length), ?_, ?_⟩
    · unfold numberHive
      conv => lhs; rw [he]
      rw [List.append_assoc _ ((numberBin wide n).take off)]
    · rw [List.length_append, hl, List.length_take, hb]; omega
  have hs : ∀ {q : Tree → Prop}, q numberTree → numberTree.Every q := by
    intro q hq
    unfold numberTree at hq ⊢
    rw [Tree.Every, EveryAll]
    exact ⟨hq, trivial⟩
  have h1 : ∀ i, (1 : Nat).testBit i = true → valueFlagBit i = true := by
    intro i hi
    cases i with
    | zero => rfl
    | succ i => simp [Nat.testBit_succ] at hi
  have hcell : ValueAt (numberHive wide n) 4096 122 ⟨['a'], 4, encLE 4 n⟩ := by
    refine ⟨numberCell wide n, [122 + 4096 + 12], ?_, hat 122 _ ?_ (by decide), ?_, ?_, ?_, ?_, ?_⟩
    · rcases hn with rfl | rfl <;> cases wide <;> (unfold VkCell.Fits isI32; decide)
    · rcases hn with rfl | rfl <;> cases wide <;> decide +kernel
    · rcases hn with rfl | rfl <;> cases wide
      · exact .inl ⟨by decide, h1, by decide⟩
      · exact .inr ⟨by decide, by decide +kernel, by decide⟩
      · exact .inl ⟨by decide, h1, by decide⟩
      · exact .inr ⟨by decide, by decide +kernel, by decide⟩
    · cases wide <;> rfl
    · rcases hn with rfl | rfl <;> cases wide
      · exact .resident [5, 0, 0, 0] [] rfl
      · exact .resident [5, 0, 0, 0] [] rfl
      · exact .resident [6, 0, 0, 0] [] rfl
      · exact .resident [6, 0, 0, 0] [] rfl
    · exact .inr ⟨4, by show (DataType.ofRaw 4).len = some 4; decide, by simp⟩
    · exact .inl (by simp)
  rcases hn with rfl | rfl <;> cases wide
  all_goals
    refine ⟨⟨?_, rfl, ?_, ?_⟩, hs ?_, hs ?_, hs ?_, hs ?_, ?_, hs ?_, hs ?_⟩
    · refine ⟨0, 150, 0, 0, 0, 0, by decide, by decide, by decide, by decide, by decide, by decide, ?_⟩
      exact hat 0 _ (by decide +kernel) (by decide)
    · unfold numberTree
      rw [TreeAt, ForestAt]
      exact ⟨⟨by unfold NkCell.Fits isI32; decide, hat 32 _ (by decide +kernel) (by decide),
        .inl ⟨by decide, by decide⟩⟩, .inl ⟨rfl, rfl⟩, trivial⟩
    · show ([4128] : List Nat).Nodup
      decide
    · refine ⟨rfl, by decide, .inr ⟨[122], 114, 0xFFFFFFF8, rfl, by decide, by decide, by decide,
        hat 114 _ (by decide +kernel) (by decide), ⟨?_, ?_⟩, trivial⟩⟩
      · exact hcell
      · exact ⟨by decide, hat 142 _ (by decide +kernel) (by decide)⟩
    · show '\\' ∉ ['R', 'T'] ∧ ['R', 'T'] ≠ []
      decide
    · exact List.Pairwise.nil
    · exact List.pairwise_singleton _ _
    · decide
    · show '\n' ∉ ['R', 'T']
      decide
    · intro x hx
      cases List.mem_singleton.1 hx
      decide

theorem number_opens {disk : Disk} {path : List Str} {wide : Bool} {n : Nat} (hn : n = 5 ∨ n = 6)
    (h : disk path = some (numberHive wide n)) :
    ∃ p, buildFromPath tellingWorld disk path [] false false = some (.ok p) ∧ p.root ≠ none ∧
      ComparedHive tellingWorld p.env.fi.buffer numberTree (numberVals wide n) ∧ p.header.base.rootCellOffset = 32 := by
  have hst := numberHive_compared (wide := wide) hn
  have hh : (match BaseBlock.fromBytes (numberHive wide n) with
      | .ok (bb, _) => decide (bb.base.fileType ≠ .unknown ∧ bb.base.primarySeq = bb.base.secondarySeq ∧
          calculateChecksum ((numberHive wide n).take 512) = .ok bb.base.checksum ∧ bb.base.rootCellOffset = 32)
      | _ => false) = true := by
    rcases hn with rfl | rfl <;> cases wide <;> decide +kernel
  cases hb : BaseBlock.fromBytes (numberHive wide n) with
  | err => rw [hb] at hh; cases hh
  | panic => rw [hb] at hh; cases hh
  | ok x =>
    rw [hb] at hh
    obtain ⟨h1, h2, h3, h7⟩ := of_decide_eq_true hh
    obtain ⟨p, h4, h5, h8, h6, _⟩ := open_clean_lists tellingWorld ⟨numberHive wide n, [], none, false, false⟩ x.1 x.2
      numberTree (by decide) rfl ⟨([], none), (by decide +kernel : TransactionLog.parse [] = .ok ([], none))⟩ hb h1 h2 h3 hst.toStoredTree
    refine ⟨p, ?_, h6, by rw [h5]; exact hst, by rw [h8]; exact h7⟩
    unfold buildFromPath
    rw [h]
    exact h4

/-- Three files: the value is the number 5, the number 6, and the number 5 with its name stored otherwise. -/
def numberDisk : Disk := fun path =>
  if path = [['A']] then some (numberHive false 5)
  else if path = [['B']] then some (numberHive false 6)
  else if path = [['C']] then some (numberHive true 5) else none

theorem number_hash (wide1 : Bool) (n1 : Nat) (wide2 : Bool) (n2 : Nat) :
    HashTells tellingWorld.hashFn numberTree (numberVals wide1 n1) numberTree (numberVals wide2 n2) :=
  ⟨fun _ _ _ _ h => h, fun _ _ _ _ _ _ _ _ h => h⟩

/-- The hypotheses of `compare_tells_partial`: two files in which a value differs are compared. -/
example : ∃ steps text, compareReport tellingWorld id steps someTexts (fun p => p.flatten) none true [['A']] none
      [['B']] none numberDisk = some (.ok text) ∧
    CompareSays true FitsNanos ['A'] ['B'] (numberTree.keys []) (numberVals false 5) (numberTree.keys [])
      (numberVals false 6) text := by
  obtain ⟨p1, a1, a2, a3, a4⟩ := number_opens (disk := numberDisk) (path := [['A']]) (wide := false) (.inl rfl) rfl
  obtain ⟨p2, b1, b2, b3, b4⟩ := number_opens (disk := numberDisk) (path := [['B']]) (wide := false) (.inr rfl) rfl
  exact compare_tells_partial tellingWorld id (fun _ => .refl _) someTexts (fun p => p.flatten) true numberDisk
    [['A']] none [['B']] none p1 p2 numberTree numberTree _ _ (by decide) a1 a2 b1 b2 a3 b3 a4 (number_hash ..)
    (by decide) (by decide)

/-- C74, violated: the two hives have the same keys, and the same values with the same names, types and data;
the name of one value is stored with one byte for each character in one file, and with two in the other.  The
report counts the value as modified. -/
theorem compare_flags_violated : ∃ steps text,
    compareReport tellingWorld id steps someTexts (fun p => p.flatten) none false [['A']] none [['C']] none
      numberDisk = some (.ok text) ∧
    (∀ off, (numberVals false 5 off).map (·.val) = (numberVals true 5 off).map (·.val)) ∧
    "Values modified: 1".toList ∈ lines text := by
  obtain ⟨p1, a1, a2, a3, a4⟩ := number_opens (disk := numberDisk) (path := [['A']]) (wide := false) (.inl rfl) rfl
  obtain ⟨p2, b1, b2, b3, b4⟩ := number_opens (disk := numberDisk) (path := [['C']]) (wide := true) (.inl rfl) rfl
  obtain ⟨steps, text, h, hs⟩ := compare_tells_partial tellingWorld id (fun _ => .refl _) someTexts
    (fun p => p.flatten) false numberDisk [['A']] none [['C']] none p1 p2 numberTree numberTree _ _ (by decide)
    a1 a2 b1 b2 a3 b3 a4 (number_hash ..) (by decide) (by decide)
  refine ⟨steps, text, h, fun _ => rfl, ?_⟩
  obtain ⟨kd, ka, km, vd, va, vm, hd, kdr, kar, kmr, vdr, var, vmr, _, _, _, _, _, h6, h7⟩ := hs
  have hlen : vmr.length = 1 := by
    rw [← pairwise2_length h6, hd.valuesModified]
    decide +kernel
  have h7 : lines text = _ := h7
  rw [h7, hlen]
  simp only [List.mem_append]
  refine .inl (.inr ?_)
  unfold reportSection
  exact List.mem_append_left _ (by decide +kernel)

end Notatin
