import Verif.Lemmas.Compare
import Verif.Lemmas.WalkPost
/-
C30: what the comparison of two hives reports.
-/
namespace Notatin
open Spec

/-- C30: comparing two listings without duplicates, where looking up a key of the base finds it and
no two values of a key of the base differ only in case: the comparison does not fail and reports
exactly the differences, whatever the order in which the map is gone through.

Partial: that the lookup finds the keys holds for hives with a tree of keys with suitable names
(`hives_compared_partial`), not for all (`compare_backslash_violated`); values that differ only in
case are mixed up (`compare_case_violated`). -/
theorem compare_reported_partial (lookup : Nat → Str → Res (Option Node × Nat)) (Inv : Nat → Prop)
    (order : HashIndex → HashIndex) (horder : ∀ m, (order m).Perm m) (ro : Nat) (hro : Inv ro)
    (base comp : List Node) (hub : Unique base) (huc : Unique comp)
    (hf : Finds lookup Inv base) (hcu : CaseUnique base) :
    ∃ d, compareHives lookup order ro base comp = .ok d ∧ Reported base comp d := by
  have hndb := things_nodup hub
  have hndc := things_nodup huc
  have hbi : baseIndex (base.flatMap thingsOf) [] = (base.flatMap thingsOf).map fun t => (t.at, t.hash) := by
    rw [baseIndex_eq _ _ hndb (by simp), List.nil_append]
  have hix : IndexOf base ((base.flatMap thingsOf).map fun t => (t.at, t.hash)) := by
    intro x hx
    obtain ⟨t, ht, rfl⟩ := List.mem_map.1 hx
    obtain ⟨b, hb, ht⟩ := List.mem_flatMap.1 ht
    unfold thingsOf at ht
    rcases List.mem_cons.1 ht with rfl | ht
    · exact ⟨b, hb, rfl, by intro name h; cases h⟩
    · obtain ⟨v, hv, rfl⟩ := List.mem_map.1 ht
      exact ⟨b, hb, rfl, by intro name h; cases h; exact ⟨v, hv, rfl⟩⟩
  obtain ⟨ro1, km, vm, hI1, hloop, hkm, hvm⟩ := (compareThings_ok hf hcu
    ((base.flatMap thingsOf).map fun t => (t.at, t.hash)) (comp.flatMap thingsOf)
    { index := (base.flatMap thingsOf).map fun t => (t.at, t.hash), rootOffset := ro } hro hix
    (fun _ _ => rfl) hndc).ok
  unfold compareHives
  rw [hbi, hloop]
  simp only
  have hperm := horder (((base.flatMap thingsOf).map fun t => (t.at, t.hash)).filter
    fun x => decide (x.1 ∉ (comp.flatMap thingsOf).map Thing.at))
  obtain ⟨ro2, kd, vd, _, hrem, hkd, hvd⟩ := remaining_ok hf hcu
    (order (((base.flatMap thingsOf).map fun t => (t.at, t.hash)).filter
      fun x => decide (x.1 ∉ (comp.flatMap thingsOf).map Thing.at)))
    { index := ((base.flatMap thingsOf).map fun t => (t.at, t.hash)).filter
        fun x => decide (x.1 ∉ (comp.flatMap thingsOf).map Thing.at)
      rootOffset := ro1
      diff :=
        { keysAdded := [] ++ (comp.flatMap thingsOf).filterMap
            (addedKey ((base.flatMap thingsOf).map fun t => (t.at, t.hash)))
          keysModified := [] ++ km
          valuesAdded := [] ++ (comp.flatMap thingsOf).filterMap
            (addedValue ((base.flatMap thingsOf).map fun t => (t.at, t.hash)))
          valuesModified := [] ++ vm } } hI1
    (fun x hx => hix x (List.mem_filter.1 (hperm.subset hx)).1)
  rw [hrem]
  have hk : ∀ p, (HashIndex.get ((base.flatMap thingsOf).map fun t => (t.at, t.hash)) (p, none)).isNone
      = !decide (HasKey base p) := by
    intro p
    rw [Bool.eq_iff_iff, Option.isNone_iff_eq_none, Option.eq_none_iff_forall_ne_some]
    simp only [Bool.not_eq_true', decide_eq_false_iff_not]
    constructor
    · rintro h ⟨b, hb, hp⟩
      exact h b.key.hash ((index_get_iff _ hndb _ _).2 (mem_things_key.2 ⟨b, hb, hp, rfl⟩))
    · intro h a e
      obtain ⟨b, hb, hp, _⟩ := mem_things_key.1 ((index_get_iff _ hndb _ _).1 e)
      exact h ⟨b, hb, hp⟩
  have hv : ∀ p m, (HashIndex.get ((base.flatMap thingsOf).map fun t => (t.at, t.hash)) (p, some m)).isNone
      = !decide (HasValue base p m) := by
    intro p m
    rw [Bool.eq_iff_iff, Option.isNone_iff_eq_none, Option.eq_none_iff_forall_ne_some]
    simp only [Bool.not_eq_true', decide_eq_false_iff_not]
    constructor
    · rintro h ⟨b, hb, hp, v, hv, hm⟩
      exact h v.val.hash ((index_get_iff _ hndb _ _).2 (mem_things_value.2 ⟨b, hb, hp, v, hv, hm, rfl⟩))
    · intro h a e
      obtain ⟨b, hb, hp, v, hv, hm, _⟩ := mem_things_value.1 ((index_get_iff _ hndb _ _).1 e)
      exact h ⟨b, hb, hp, v, hv, hm⟩
  have hkc : ∀ p, (p, none) ∈ (comp.flatMap thingsOf).map Thing.at ↔ HasKey comp p := by
    intro p
    rw [List.mem_map]
    constructor
    · rintro ⟨t, ht, e⟩
      obtain ⟨b, hb, hp, _⟩ := mem_things_key.1 ⟨t, ht, e, rfl⟩
      exact ⟨b, hb, hp⟩
    · rintro ⟨b, hb, hp⟩
      obtain ⟨t, ht, e, _⟩ := mem_things_key.2 ⟨b, hb, hp, rfl⟩
      exact ⟨t, ht, e⟩
  have hvc : ∀ p m, (p, some m) ∈ (comp.flatMap thingsOf).map Thing.at ↔ HasValue comp p m := by
    intro p m
    rw [List.mem_map]
    constructor
    · rintro ⟨t, ht, e⟩
      obtain ⟨b, hb, hp, v, hv, hm, _⟩ := mem_things_value.1 ⟨t, ht, e, rfl⟩
      exact ⟨b, hb, hp, v, hv, hm⟩
    · rintro ⟨b, hb, hp, v, hv, hm⟩
      obtain ⟨t, ht, e, _⟩ := mem_things_value.2 ⟨b, hb, hp, v, hv, hm, rfl⟩
      exact ⟨t, ht, e⟩
  have hbfilter : ∀ (q : ItemKey → Bool), (((base.flatMap thingsOf).map fun t => (t.at, t.hash)).filter
        fun x => decide (x.1 ∉ (comp.flatMap thingsOf).map Thing.at)).filter (fun x => q x.1)
      = ((base.flatMap thingsOf).filter fun t => q t.at && decide (t.at ∉ (comp.flatMap thingsOf).map Thing.at)).map
        fun t => (t.at, t.hash) := by
    intro q
    rw [List.filter_filter, List.filter_map]
    rfl
  refine ⟨_, rfl, ?_, ?_, ?_, ?_, ?_, ?_⟩
  · simp only [List.nil_append]
    rw [filterMap_keys _ (by intros; rfl)]
    apply filterMap_filter
    intro n _
    simp only [addedKey]
    rw [hk]
  · simp only [List.nil_append]
    rw [filterMap_keys _ (by intros; rfl), filterMap_filter _
      (fun n => decide (KeyDiffers base n.key.path n.key.hash))] at hkm
    · exact hkm
    · intro n _
      simp only [modifiedKey]
      have : (∃ h, HashIndex.get ((base.flatMap thingsOf).map fun t => (t.at, t.hash)) (n.key.path, none)
          = some h ∧ h ≠ n.key.hash) ↔ KeyDiffers base n.key.path n.key.hash := by
        constructor
        · rintro ⟨h, e, hne⟩
          obtain ⟨b, hb, hp, rfl⟩ := mem_things_key.1 ((index_get_iff _ hndb _ _).1 e)
          exact ⟨b, hb, hp, hne⟩
        · rintro ⟨b, hb, hp, hne⟩
          exact ⟨b.key.hash, (index_get_iff _ hndb _ _).2 (mem_things_key.2 ⟨b, hb, hp, rfl⟩), hne⟩
      by_cases hd : KeyDiffers base n.key.path n.key.hash
      · rw [if_pos (this.2 hd), if_pos (by simpa using hd)]
      · rw [if_neg (mt this.1 hd), if_neg (by simpa using hd)]
  · obtain ⟨del, h1, h2, h3⟩ := deleted_keys _ _ hkd
    refine ⟨del, ?_, h1⟩
    refine perm_of_keys (fun n => n.key.path) hub.paths h2 (fun x hx => (List.mem_filter.1 hx).1) ?_
    have e : ((base.filter fun n => !decide (HasKey comp n.key.path)).map fun n => n.key.path)
        = ((((base.flatMap thingsOf).map fun t => (t.at, t.hash)).filter
          fun x => decide (x.1 ∉ (comp.flatMap thingsOf).map Thing.at)).filter
            (fun x => x.1.2.isNone)).map fun x => x.1.1 := by
      rw [hbfilter fun k => k.2.isNone, List.map_map]
      show _ = List.map (fun t : Thing => t.at.1) _
      rw [things_keys fun k => decide (k ∉ (comp.flatMap thingsOf).map Thing.at)]
      congr 1
      apply List.filter_congr
      intro n _
      rw [decide_not]
      congr 1
      rw [decide_eq_decide]
      exact (hkc _).symm
    rw [h3, e]
    exact (hperm.filter _).map _
  · simp only [List.nil_append]
    rw [filterMap_values _ (by intros; rfl)]
    apply filterMap_filter
    intro n _
    simp only [addedValue]
    rw [hv]
  · simp only [List.nil_append]
    rw [filterMap_values _ (by intros; rfl), filterMap_filter _
      (fun x => decide (ValueDiffers base x.1 x.2.val.name x.2.val.hash))] at hvm
    · exact hvm
    · rintro ⟨p, v⟩ _
      simp only [modifiedValue]
      have : (∃ h, HashIndex.get ((base.flatMap thingsOf).map fun t => (t.at, t.hash)) (p, some v.val.name)
          = some h ∧ h ≠ v.val.hash) ↔ ValueDiffers base p v.val.name v.val.hash := by
        constructor
        · rintro ⟨h, e, hne⟩
          obtain ⟨b, hb, hp, w, hw, hwn, rfl⟩ := mem_things_value.1 ((index_get_iff _ hndb _ _).1 e)
          exact ⟨b, hb, hp, w, hw, hwn, hne⟩
        · rintro ⟨b, hb, hp, w, hw, hwn, hne⟩
          exact ⟨w.val.hash, (index_get_iff _ hndb _ _).2
            (mem_things_value.2 ⟨b, hb, hp, w, hw, hwn, rfl⟩), hne⟩
      by_cases hd : ValueDiffers base p v.val.name v.val.hash
      · rw [if_pos (this.2 hd), if_pos (by simpa using hd)]
      · rw [if_neg (mt this.1 hd), if_neg (by simpa using hd)]
  · simp only [List.nil_append]
    refine perm_of_keys (fun x => (x.1, some x.2.val.name)) (allValues_pairwise hub)
      (fun x hx => (pairwise2_mem_right hvd x hx).choose_spec.2.2.2)
      (fun x hx => (List.mem_filter.1 hx).1) ?_
    have e : (((allValues base).filter fun x => !decide (HasValue comp x.1 x.2.val.name)).map
          fun x => (x.1, some x.2.val.name))
        = ((((base.flatMap thingsOf).map fun t => (t.at, t.hash)).filter
          fun x => decide (x.1 ∉ (comp.flatMap thingsOf).map Thing.at)).filter
            (fun x => x.1.2.isSome)).map fun x => x.1 := by
      rw [hbfilter fun k => k.2.isSome, List.map_map]
      show _ = List.map Thing.at _
      rw [things_values fun k => decide (k ∉ (comp.flatMap thingsOf).map Thing.at)]
      congr 1
      apply List.filter_congr
      intro n _
      rw [decide_not]
      congr 1
      rw [decide_eq_decide]
      exact (hvc _ _).symm
    have e2 : vd.map (fun x => (x.1, some x.2.val.name)) = ((order (((base.flatMap thingsOf).map
        fun t => (t.at, t.hash)).filter fun x => decide (x.1 ∉ (comp.flatMap thingsOf).map Thing.at))).filter
          (fun x => x.1.2.isSome)).map fun x => x.1 := by
      refine pairwise2_map_eq (fun x : ItemKey × Option Bytes => x.1)
        (fun x : Str × Value => (x.1, some x.2.val.name)) ?_ hvd
      rintro ⟨⟨p, m⟩, h⟩ o ⟨h1, h2, _⟩
      rw [h1, h2]
    rw [e2, e]
    exact (hperm.filter _).map _

theorem compareThings_same (lookup : Nat → Str → Res (Option Node × Nat)) (ts : List Thing)
    (c : Comparing) (hnd : (ts.map Thing.at).Nodup) (h : ∀ t ∈ ts, c.index.get t.at = some t.hash) :
    compareThings lookup ts c
      = .ok { c with index := c.index.filter fun x => decide (x.1 ∉ ts.map Thing.at) } := by
  induction ts generalizing c with
  | nil =>
    rw [compareThings]
    have : (c.index.filter fun x => decide (x.1 ∉ ([] : List Thing).map Thing.at)) = c.index :=
      List.filter_eq_self.2 (by simp)
    rw [this]
  | cons t ts ih =>
    rw [List.map_cons, List.nodup_cons] at hnd
    have e : compareThing lookup c t = .ok { c with index := c.index.erase t.at } := by
      unfold compareThing
      rw [h t List.mem_cons_self]
      exact if_pos rfl
    rw [compareThings, e]
    simp only
    rw [ih _ hnd.2]
    · congr 2
      unfold HashIndex.erase
      rw [List.filter_filter]
      apply List.filter_congr
      intro x _
      simp only [List.map_cons, List.mem_cons, not_or, ← Bool.decide_and]
      rw [decide_eq_decide]
      exact and_comm
    · intro u hu
      rw [index_get_erase _ _ _ (fun e => hnd.1 (List.mem_map.2 ⟨u, hu, e⟩))]
      exact h u (List.mem_cons_of_mem _ hu)

/-- C30: comparing two listings without duplicates that hold the same items reports nothing. It does
not matter whether lookups in the base find anything. -/
theorem compare_same (lookup : Nat → Str → Res (Option Node × Nat))
    (order : HashIndex → HashIndex) (horder : ∀ m, (order m).Perm m) (ro : Nat)
    (base comp : List Node) (hub : Unique base) (huc : Unique comp) (hs : SameItems base comp) :
    compareHives lookup order ro base comp = .ok {} := by
  have hndb := things_nodup hub
  have hndc := things_nodup huc
  have hiff : ∀ k h, (∃ t ∈ base.flatMap thingsOf, t.at = k ∧ t.hash = h) ↔
      ∃ t ∈ comp.flatMap thingsOf, t.at = k ∧ t.hash = h := by
    rintro ⟨p, m⟩ h
    cases m with
    | none => rw [mem_things_key, mem_things_key, hs.keys]
    | some m => rw [mem_things_value, mem_things_value, hs.values]
  have hbi : baseIndex (base.flatMap thingsOf) [] = (base.flatMap thingsOf).map fun t => (t.at, t.hash) := by
    rw [baseIndex_eq _ _ hndb (by simp), List.nil_append]
  unfold compareHives
  rw [hbi, compareThings_same _ _ _ hndc fun t ht =>
    (index_get_iff _ hndb _ _).2 ((hiff _ _).2 ⟨t, ht, rfl, rfl⟩)]
  simp only
  have hnil : (((base.flatMap thingsOf).map fun t => (t.at, t.hash)).filter
      fun x => decide (x.1 ∉ (comp.flatMap thingsOf).map Thing.at)) = [] := by
    rw [List.filter_eq_nil_iff]
    intro x hx
    obtain ⟨t, ht, rfl⟩ := List.mem_map.1 hx
    obtain ⟨u, hu, he, _⟩ := (hiff _ _).1 ⟨t, ht, rfl, rfl⟩
    simp only [decide_eq_true_eq, Classical.not_not]
    exact List.mem_map.2 ⟨u, hu, he⟩
  rw [hnil, (horder []).eq_nil, forEach]

/-- C30: comparing a hive with itself reports nothing, with any filter, as soon as its listing has no
duplicates. -/
theorem compare_self (order : HashIndex → HashIndex) (horder : ∀ m, (order m).Perm m)
    (steps : Nat) (filter : Filter) (p : Opened) (ns : List Node)
    (hk : p.keys steps filter = some (.ok ns)) (hu : Unique ns) :
    regCompare order steps filter p p = some (.ok {}) := by
  unfold regCompare
  rw [hk]
  simp only
  rw [compare_same _ _ horder _ _ _ hu hu ⟨fun _ _ => Iff.rfl, fun _ _ _ => Iff.rfl⟩]

/-- C30: the text report of a correct comparison ends with the number of items that differ. -/
theorem total_changes (rest : Node → Str) (content : Value → Str) (bname cname : Str)
    (base comp : List Node) (d : Differences) (h : Reported base comp d) :
    ∃ before, writeText rest content bname cname d = before ++
      ("\nTotal changes: ".toList ++ decimal (differenceCount base comp) ++ "\n".toList ++ dashes ++
        "\n".toList) := by
  have e : d.keysDeleted.length + d.keysAdded.length + d.keysModified.length +
      d.valuesDeleted.length + d.valuesAdded.length + d.valuesModified.length
      = differenceCount base comp := by
    obtain ⟨h1, h2, ⟨del, h3, h3'⟩, h4, h5, h6⟩ := h
    unfold differenceCount
    simp only [List.countP_eq_length_filter]
    rw [h1, pairwise2_length h2, ← pairwise2_length h3', h3.length_eq, h4, pairwise2_length h5,
      h6.length_eq]
  unfold writeText
  simp only [e]
  have fin : ∀ a n : Str, ∃ before, a ++ writeLn ('\n' :: dashes ++ "\nTotal changes: ".toList ++ n ++
      '\n' :: dashes) = before ++ ("\nTotal changes: ".toList ++ n ++ "\n".toList ++ dashes ++
        "\n".toList) := by
    intro a n
    refine ⟨a ++ '\n' :: dashes, ?_⟩
    simp only [writeLn, List.append_assoc]
    rfl
  exact fin _ _

end Notatin
