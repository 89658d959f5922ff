import Verif.Spec.Compare
import Verif.Props.KeyReading
/-
The loops of the comparison.
-/
namespace Notatin
open Spec

theorem index_get_erase (m : HashIndex) (k k' : ItemKey) (h : k' ≠ k) :
    (m.erase k).get k' = m.get k' := by
  unfold HashIndex.get HashIndex.erase
  rw [List.find?_filter]
  congr 2
  funext x
  by_cases hx : x.1 = k'
  · simp [hx, h]
  · simp [hx]

/-- Looking a key of the base up finds it, and leaves the cached root offset usable. -/
def Finds (lookup : Nat → Str → Res (Option Node × Nat)) (Inv : Nat → Prop) (base : List Node) : Prop :=
  ∀ ro, Inv ro → ∀ b ∈ base, ∃ o ro', lookup ro b.key.path = .ok (some o, ro') ∧ Inv ro' ∧ SameEntry o b

/-- The names of the values of a key are different, upper and lower case ASCII letters being the
same. -/
def CaseUnique (ns : List Node) : Prop :=
  ∀ n ∈ ns, n.key.values.Pairwise fun a b => ¬ SameIgnoringCase a.val.name b.val.name

theorem getValue_unique {n : Node} (h : n.key.values.Pairwise fun a b => ¬ SameIgnoringCase a.val.name b.val.name)
    {v : Value} (hv : v ∈ n.key.values) : n.key.getValue v.val.name = some v := by
  obtain ⟨pre, post, e⟩ := List.append_of_mem hv
  rw [get_value_first]
  refine ⟨pre, post, e, sameIgnoringCase_refl _, ?_⟩
  intro u hu
  rw [e, List.pairwise_append] at h
  exact h.2.2 u hu v List.mem_cons_self

/-- The keys (values) whose entry is missing (differs) in the map. -/
def addedKey (m : HashIndex) : Thing → Option Node
  | .key n => if (m.get (n.key.path, none)).isNone then some n else none
  | .value _ _ => none
def addedValue (m : HashIndex) : Thing → Option (Str × Value)
  | .key _ => none
  | .value p v => if (m.get (p, some v.val.name)).isNone then some (p, v) else none
def modifiedKey (m : HashIndex) : Thing → Option Node
  | .key n => if ∃ h, m.get (n.key.path, none) = some h ∧ h ≠ n.key.hash then some n else none
  | .value _ _ => none
def modifiedValue (m : HashIndex) : Thing → Option (Str × Value)
  | .key _ => none
  | .value p v =>
    if ∃ h, m.get (p, some v.val.name) = some h ∧ h ≠ v.val.hash then some (p, v) else none

/-- The entries of the map are keys and values of the base. -/
def IndexOf (base : List Node) (m : HashIndex) : Prop :=
  ∀ x ∈ m, ∃ b ∈ base, b.key.path = x.1.1 ∧ ∀ name, x.1.2 = some name → ∃ v ∈ b.key.values, v.val.name = name

theorem index_get_mem {m : HashIndex} {k : ItemKey} {h : Option Bytes} (e : m.get k = some h) :
    (k, h) ∈ m := by
  unfold HashIndex.get at e
  cases hf : m.find? (fun x => decide (x.1 = k)) with
  | none => rw [hf] at e; cases e
  | some x =>
    rw [hf] at e
    cases e
    have h1 := List.mem_of_find?_eq_some hf
    have h2 := List.find?_some hf
    rw [decide_eq_true_iff] at h2
    rw [← h2]
    exact h1

theorem IndexOf.erase {base : List Node} {m : HashIndex} (h : IndexOf base m) (k : ItemKey) :
    IndexOf base (m.erase k) := fun x hx => h x (List.mem_filter.1 hx).1

theorem originalKey_ok {lookup Inv base} (hf : Finds lookup Inv base) (c : Comparing)
    (hI : Inv c.rootOffset) {b : Node} (hb : b ∈ base) :
    ∃ o ro', originalKey lookup c b.key.path = .ok (o, { c with rootOffset := ro' }) ∧ Inv ro' ∧
      SameEntry o b := by
  obtain ⟨o, ro', h1, h2, h3⟩ := hf _ hI b hb
  refine ⟨o, ro', ?_, h2, h3⟩
  unfold originalKey
  rw [h1]

theorem originalValue_ok {lookup Inv base} (hf : Finds lookup Inv base) (hcu : CaseUnique base)
    (c : Comparing) (hI : Inv c.rootOffset) {b : Node} (hb : b ∈ base) {v : Value}
    (hv : v ∈ b.key.values) :
    ∃ o ro', originalValue lookup c b.key.path v.val.name
        = .ok (o, v, { c with rootOffset := ro' }) ∧ Inv ro' ∧ SameEntry o b := by
  obtain ⟨o, ro', h1, h2, h3⟩ := originalKey_ok hf c hI hb
  refine ⟨o, ro', ?_, h2, h3⟩
  unfold originalValue
  rw [h1]
  simp only
  have : o.key.getValue v.val.name = some v := by
    have := getValue_unique (hcu b hb) hv
    unfold KeyNode.getValue at this ⊢
    rw [h3.2.2.2.1]
    exact this
  rw [this]

/-- What the loop makes of `ts`. -/
structure LoopOk (base : List Node) (Inv : Nat → Prop) (m : HashIndex) (ts : List Thing)
    (c : Comparing) (r : Res Comparing) : Prop where
  ok : ∃ ro' km vm, Inv ro' ∧
    r = .ok
      { index := c.index.filter fun x => decide (x.1 ∉ ts.map Thing.at)
        rootOffset := ro'
        diff :=
          { c.diff with
            keysAdded := c.diff.keysAdded ++ ts.filterMap (addedKey m)
            keysModified := c.diff.keysModified ++ km
            valuesAdded := c.diff.valuesAdded ++ ts.filterMap (addedValue m)
            valuesModified := c.diff.valuesModified ++ vm } } ∧
    Pairwise2 (fun n x => x.2 = n ∧ ∃ b ∈ base, b.key.path = n.key.path ∧ SameEntry x.1 b)
      (ts.filterMap (modifiedKey m)) km ∧
    Pairwise2 (fun x y => y.1 = x.1 ∧ y.2.2 = x.2 ∧ y.2.1.val.name = x.2.val.name ∧
        (x.1, y.2.1) ∈ allValues base)
      (ts.filterMap (modifiedValue m)) vm

theorem mem_allValues {ns : List Node} {b : Node} (hb : b ∈ ns) {v : Value} (hv : v ∈ b.key.values) :
    (b.key.path, v) ∈ allValues ns :=
  List.mem_flatMap.2 ⟨b, hb, List.mem_map.2 ⟨v, hv, rfl⟩⟩

theorem compareThings_ok {lookup Inv base} (hf : Finds lookup Inv base) (hcu : CaseUnique base)
    (m : HashIndex) (ts : List Thing) (c : Comparing) (hI : Inv c.rootOffset)
    (hix : IndexOf base c.index) (hag : ∀ t ∈ ts, c.index.get t.at = m.get t.at)
    (hnd : (ts.map Thing.at).Nodup) :
    LoopOk base Inv m ts c (compareThings lookup ts c) := by
  induction ts generalizing c with
  | nil =>
    refine ⟨⟨c.rootOffset, [], [], hI, ?_, trivial, trivial⟩⟩
    rw [compareThings]
    have : (c.index.filter fun x => decide (x.1 ∉ List.map Thing.at [])) = c.index := by
      rw [List.filter_eq_self]; simp
    rw [this]
    simp
  | cons t ts ih =>
    rw [List.map_cons, List.nodup_cons] at hnd
    have hag' : ∀ u ∈ ts, (c.index.erase t.at).get u.at = m.get u.at := by
      intro u hu
      rw [index_get_erase, hag u (List.mem_cons_of_mem _ hu)]
      intro e
      exact hnd.1 (e ▸ List.mem_map.2 ⟨u, hu, rfl⟩)
    have hflt : ∀ l : HashIndex, (l.erase t.at).filter (fun x => decide (x.1 ∉ ts.map Thing.at))
        = l.filter fun x => decide (x.1 ∉ (t :: ts).map Thing.at) := by
      intro l
      unfold HashIndex.erase
      rw [List.filter_filter]
      apply List.filter_congr
      intro x _
      rw [List.map_cons]
      by_cases h1 : x.1 = t.at <;> simp [h1]
    have hget : c.index.get t.at = m.get t.at := hag t List.mem_cons_self
    rw [compareThings.eq_def]
    simp only
    cases hg : c.index.get t.at with
    | none =>
      have hflt0 : c.index.filter (fun x => decide (x.1 ∉ ts.map Thing.at))
          = c.index.filter fun x => decide (x.1 ∉ (t :: ts).map Thing.at) := by
        rw [← hflt]
        congr 1
        unfold HashIndex.erase
        rw [eq_comm, List.filter_eq_self]
        intro x hx
        rw [decide_eq_true_iff]
        intro e
        unfold HashIndex.get at hg
        rw [Option.map_eq_none_iff, List.find?_eq_none] at hg
        exact hg x hx (by simpa using e)
      have hm : (m.get t.at).isNone = true := by rw [← hget, hg]; rfl
      have hm0 : m.get t.at = none := by rw [← hget, hg]
      cases t with
      | key n =>
        have e : compareThing lookup c (.key n)
            = .ok { c with diff := { c.diff with keysAdded := c.diff.keysAdded ++ [n] } } := by
          unfold compareThing; rw [hg]
        rw [e]
        simp only
        obtain ⟨ro', km, vm, h1, h2, h3, h4⟩ := (ih
          { c with diff := { c.diff with keysAdded := c.diff.keysAdded ++ [n] } } hI hix
          (fun u hu => hag u (List.mem_cons_of_mem _ hu)) hnd.2).ok
        refine ⟨⟨ro', km, vm, h1, ?_, ?_, ?_⟩⟩
        · rw [h2, ← hflt0]
          simp only [List.filterMap_cons, addedKey, addedValue]
          simp only [Thing.at] at hm
          rw [if_pos hm]
          simp
        · rw [List.filterMap_cons]
          simp only [modifiedKey]
          rw [if_neg (by rintro ⟨h, e, _⟩; rw [show m.get (n.key.path, none) = none from hm0] at e; cases e)]
          exact h3
        · rw [List.filterMap_cons]
          exact h4
      | value p v =>
        have e : compareThing lookup c (.value p v)
            = .ok { c with diff := { c.diff with valuesAdded := c.diff.valuesAdded ++ [(p, v)] } } := by
          unfold compareThing; rw [hg]
        rw [e]
        simp only
        obtain ⟨ro', km, vm, h1, h2, h3, h4⟩ := (ih
          { c with diff := { c.diff with valuesAdded := c.diff.valuesAdded ++ [(p, v)] } } hI hix
          (fun u hu => hag u (List.mem_cons_of_mem _ hu)) hnd.2).ok
        refine ⟨⟨ro', km, vm, h1, ?_, ?_, ?_⟩⟩
        · rw [h2, ← hflt0]
          simp only [List.filterMap_cons, addedKey, addedValue]
          simp only [Thing.at] at hm
          rw [if_pos hm]
          simp
        · rw [List.filterMap_cons]
          exact h3
        · rw [List.filterMap_cons]
          simp only [modifiedValue]
          rw [if_neg (by rintro ⟨h, e, _⟩; rw [show m.get (p, some v.val.name) = none from hm0] at e; cases e)]
          exact h4
    | some h =>
      have hm0 : m.get t.at = some h := by rw [← hget, hg]
      have hm : ¬ (m.get t.at).isNone = true := by rw [hm0]; simp
      obtain ⟨b, hb, hbp, hbv⟩ := hix _ (index_get_mem hg)
      by_cases hh : h = t.hash
      · have e : compareThing lookup c t = .ok { c with index := c.index.erase t.at } := by
          unfold compareThing; rw [hg]; simp only; rw [if_pos hh]
        rw [e]
        simp only
        obtain ⟨ro', km, vm, h1, h2, h3, h4⟩ := (ih { c with index := c.index.erase t.at } hI
          (hix.erase _) hag' hnd.2).ok
        refine ⟨⟨ro', km, vm, h1, ?_, ?_, ?_⟩⟩
        · rw [h2, hflt]
          cases t with
          | key n =>
            simp only [List.filterMap_cons, addedKey, addedValue]
            simp only [Thing.at] at hm
            rw [if_neg hm]
          | value p v =>
            simp only [List.filterMap_cons, addedKey, addedValue]
            simp only [Thing.at] at hm
            rw [if_neg hm]
        · rw [List.filterMap_cons]
          cases t with
          | key n =>
            simp only [modifiedKey]
            rw [if_neg (by
              rintro ⟨h', e, hne⟩
              rw [show m.get (n.key.path, none) = some h from hm0] at e
              cases e; exact hne hh)]
            exact h3
          | value p v => exact h3
        · rw [List.filterMap_cons]
          cases t with
          | key n => exact h4
          | value p v =>
            simp only [modifiedValue]
            rw [if_neg (by
              rintro ⟨h', e, hne⟩
              rw [show m.get (p, some v.val.name) = some h from hm0] at e
              cases e; exact hne hh)]
            exact h4
      · cases t with
        | key n =>
          simp only [Thing.at] at hbp
          obtain ⟨o, ro1, ho1, ho2, ho3⟩ := originalKey_ok hf
            { c with index := c.index.erase (n.key.path, none) } hI hb
          rw [hbp] at ho1
          have e : compareThing lookup c (.key n) = .ok
              { c with index := c.index.erase (n.key.path, none), rootOffset := ro1, diff := { c.diff with keysModified := c.diff.keysModified ++ [(o, n)] } } := by
            unfold compareThing; rw [hg]; simp only; rw [if_neg hh]
            simp only [Thing.at]
            rw [ho1]
          rw [e]
          simp only
          obtain ⟨ro', km, vm, h1, h2, h3, h4⟩ := (ih
            { c with index := c.index.erase (n.key.path, none), rootOffset := ro1, diff := { c.diff with keysModified := c.diff.keysModified ++ [(o, n)] } }
            ho2 (hix.erase _) hag' hnd.2).ok
          refine ⟨⟨ro', (o, n) :: km, vm, h1, ?_, ?_, ?_⟩⟩
          · rw [h2]
            have := hflt c.index
            simp only [Thing.at] at this
            rw [this]
            simp only [List.filterMap_cons, addedKey, addedValue]
            simp only [Thing.at] at hm
            rw [if_neg hm]
            simp
          · rw [List.filterMap_cons]
            simp only [modifiedKey]
            rw [if_pos ⟨h, hm0, hh⟩]
            exact ⟨⟨rfl, b, hb, hbp, ho3⟩, h3⟩
          · rw [List.filterMap_cons]
            exact h4
        | value p v =>
          simp only [Thing.at] at hbp
          obtain ⟨w, hw, hwn⟩ := hbv v.val.name rfl
          obtain ⟨o, ro1, ho1, ho2, ho3⟩ := originalValue_ok hf hcu
            { c with index := c.index.erase (p, some v.val.name) } hI hb hw
          rw [hbp, hwn] at ho1
          have e : compareThing lookup c (.value p v) = .ok
              { c with index := c.index.erase (p, some v.val.name), rootOffset := ro1, diff := { c.diff with valuesModified := c.diff.valuesModified ++ [(p, w, v)] } } := by
            unfold compareThing; rw [hg]; simp only; rw [if_neg hh]
            simp only [Thing.at]
            rw [ho1]
          rw [e]
          simp only
          obtain ⟨ro', km, vm, h1, h2, h3, h4⟩ := (ih
            { c with index := c.index.erase (p, some v.val.name), rootOffset := ro1, diff := { c.diff with valuesModified := c.diff.valuesModified ++ [(p, w, v)] } }
            ho2 (hix.erase _) hag' hnd.2).ok
          refine ⟨⟨ro', km, (p, w, v) :: vm, h1, ?_, ?_, ?_⟩⟩
          · rw [h2]
            have := hflt c.index
            simp only [Thing.at] at this
            rw [this]
            simp only [List.filterMap_cons, addedKey, addedValue]
            simp only [Thing.at] at hm
            rw [if_neg hm]
            simp
          · rw [List.filterMap_cons]
            exact h3
          · rw [List.filterMap_cons]
            simp only [modifiedValue]
            rw [if_pos ⟨h, hm0, hh⟩]
            refine ⟨⟨rfl, rfl, hwn, ?_⟩, h4⟩
            rw [← hbp]
            exact mem_allValues hb hw

/-! ### The entries that are left -/

/-- The key (value) an entry stands for. -/
theorem remaining_ok {lookup Inv base} (hf : Finds lookup Inv base) (hcu : CaseUnique base)
    (l : HashIndex) (c : Comparing) (hI : Inv c.rootOffset) (hix : IndexOf base l) :
    ∃ ro' kd vd, Inv ro' ∧ forEach (remaining lookup) l c = .ok
      { c with
        rootOffset := ro'
        diff :=
          { c.diff with
            keysDeleted := c.diff.keysDeleted ++ kd
            valuesDeleted := c.diff.valuesDeleted ++ vd } } ∧
      Pairwise2 (fun x o => ∃ b ∈ base, b.key.path = x.1.1 ∧ SameEntry o b)
        (l.filter fun x => x.1.2.isNone) kd ∧
      Pairwise2 (fun x o => o.1 = x.1.1 ∧ some o.2.val.name = x.1.2 ∧ o ∈ allValues base)
        (l.filter fun x => x.1.2.isSome) vd := by
  induction l generalizing c with
  | nil => exact ⟨c.rootOffset, [], [], hI, by rw [forEach]; simp, trivial, trivial⟩
  | cons x l ih =>
    have hix' : IndexOf base l := fun y hy => hix y (List.mem_cons_of_mem _ hy)
    obtain ⟨b, hb, hbp, hbv⟩ := hix x List.mem_cons_self
    rw [forEach]
    obtain ⟨⟨p, on⟩, h⟩ := x
    simp only at hbp hbv
    cases on with
    | none =>
      obtain ⟨o, ro1, h1, h2, h3⟩ := originalKey_ok hf c hI hb
      rw [hbp] at h1
      have e : remaining lookup ((p, none), h) c = .ok
          { c with rootOffset := ro1, diff := { c.diff with keysDeleted := c.diff.keysDeleted ++ [o] } } := by
        unfold remaining; simp only; rw [h1]
      rw [e]
      obtain ⟨ro', kd, vd, g1, g2, g3, g4⟩ := ih
        { c with rootOffset := ro1, diff := { c.diff with keysDeleted := c.diff.keysDeleted ++ [o] } } h2 hix'
      refine ⟨ro', o :: kd, vd, g1, ?_, ?_, ?_⟩
      · simp only; rw [g2]; simp
      · rw [List.filter_cons, if_pos (by rfl)]
        exact ⟨⟨b, hb, hbp, h3⟩, g3⟩
      · rw [List.filter_cons, if_neg (by simp)]
        exact g4
    | some name =>
      obtain ⟨w, hw, hwn⟩ := hbv name rfl
      obtain ⟨o, ro1, h1, h2, h3⟩ := originalValue_ok hf hcu c hI hb hw
      rw [hbp, hwn] at h1
      have e : remaining lookup ((p, some name), h) c = .ok
          { c with rootOffset := ro1, diff := { c.diff with valuesDeleted := c.diff.valuesDeleted ++ [(o.key.path, w)] } } := by
        unfold remaining; simp only; rw [h1]
      rw [e]
      obtain ⟨ro', kd, vd, g1, g2, g3, g4⟩ := ih
        { c with rootOffset := ro1, diff := { c.diff with valuesDeleted := c.diff.valuesDeleted ++ [(o.key.path, w)] } } h2 hix'
      have hop : o.key.path = p := by rw [h3.1, hbp]
      refine ⟨ro', kd, (o.key.path, w) :: vd, g1, ?_, ?_, ?_⟩
      · simp only; rw [g2]; simp
      · rw [List.filter_cons, if_neg (by simp)]
        exact g3
      · rw [List.filter_cons, if_pos (by rfl)]
        refine ⟨⟨hop, by rw [hwn], ?_⟩, g4⟩
        rw [h3.1]
        exact mem_allValues hb hw

/-! ### The map -/

theorem things_nodup {ns : List Node} (h : Unique ns) :
    ((ns.flatMap thingsOf).map Thing.at).Nodup := by
  obtain ⟨h1, h2⟩ := h
  induction ns with
  | nil => simp
  | cons n ns ih =>
    rw [List.pairwise_cons] at h1
    rw [List.flatMap_cons, List.map_append, List.nodup_append]
    refine ⟨?_, ih h1.2 (fun m hm => h2 m (List.mem_cons_of_mem _ hm)), ?_⟩
    · simp only [thingsOf, List.map_cons, List.map_map, List.nodup_cons, Thing.at]
      refine ⟨by simp [Thing.at], ?_⟩
      have := h2 n List.mem_cons_self
      rw [List.Nodup, List.pairwise_map]
      exact this.imp fun h e => h (by simpa [Thing.at] using e)
    · have hp : ∀ (m : Node) x, x ∈ (thingsOf m).map Thing.at → x.1 = m.key.path := by
        intro m x hx
        obtain ⟨t, ht, rfl⟩ := List.mem_map.1 hx
        unfold thingsOf at ht
        rcases List.mem_cons.1 ht with rfl | ht
        · rfl
        · obtain ⟨v, _, rfl⟩ := List.mem_map.1 ht
          rfl
      intro a ha b hb e
      subst e
      rw [List.mem_map] at hb
      obtain ⟨t, ht, e⟩ := hb
      obtain ⟨m, hm, ht⟩ := List.mem_flatMap.1 ht
      have := hp m a (List.mem_map.2 ⟨t, ht, e⟩)
      rw [hp n a ha] at this
      exact h1.1 m hm this

theorem baseIndex_eq (ts : List Thing) (m : HashIndex) (hnd : (ts.map Thing.at).Nodup)
    (hm : ∀ t ∈ ts, ∀ x ∈ m, x.1 ≠ t.at) :
    baseIndex ts m = m ++ ts.map fun t => (t.at, t.hash) := by
  induction ts generalizing m with
  | nil => simp [baseIndex]
  | cons t ts ih =>
    rw [List.map_cons, List.nodup_cons] at hnd
    have he : m.erase t.at = m := by
      unfold HashIndex.erase
      rw [List.filter_eq_self]
      intro x hx
      rw [decide_eq_true_iff]
      exact hm t List.mem_cons_self x hx
    show baseIndex ts (m.insert t.at t.hash) = _
    unfold HashIndex.insert
    rw [he, ih _ hnd.2]
    · simp
    · intro u hu x hx
      rcases List.mem_append.1 hx with hx | hx
      · exact hm u (List.mem_cons_of_mem _ hu) x hx
      · rw [List.mem_singleton] at hx
        subst hx
        intro e
        exact hnd.1 (List.mem_map.2 ⟨u, hu, e.symm⟩)

theorem index_get_iff (ts : List Thing) (hnd : (ts.map Thing.at).Nodup) (k : ItemKey)
    (h : Option Bytes) :
    HashIndex.get (ts.map fun t => (t.at, t.hash)) k = some h ↔ ∃ t ∈ ts, t.at = k ∧ t.hash = h := by
  induction ts with
  | nil => simp [HashIndex.get]
  | cons t ts ih =>
    rw [List.map_cons, List.nodup_cons] at hnd
    have ih := ih hnd.2
    unfold HashIndex.get at ih ⊢
    rw [List.map_cons, List.find?_cons]
    by_cases e : t.at = k
    · simp only [e, decide_true, Option.map_some, Option.some.injEq, List.mem_cons]
      constructor
      · intro hh; exact ⟨t, .inl rfl, e, hh⟩
      · rintro ⟨u, rfl | hu, e', hh⟩
        · exact hh
        · exact absurd (List.mem_map.2 ⟨u, hu, e'.trans e.symm⟩) hnd.1
    · simp only [e, decide_false, List.mem_cons]
      rw [ih]
      constructor
      · rintro ⟨u, hu, hh⟩; exact ⟨u, .inr hu, hh⟩
      · rintro ⟨u, rfl | hu, hh⟩
        · exact absurd hh.1 e
        · exact ⟨u, hu, hh⟩

theorem mem_things_key {ns : List Node} {p : Str} {h : Option Bytes} :
    (∃ t ∈ ns.flatMap thingsOf, t.at = (p, none) ∧ t.hash = h) ↔
      ∃ b ∈ ns, b.key.path = p ∧ b.key.hash = h := by
  constructor
  · rintro ⟨t, ht, e, hh⟩
    obtain ⟨b, hb, ht⟩ := List.mem_flatMap.1 ht
    unfold thingsOf at ht
    rcases List.mem_cons.1 ht with rfl | ht
    · simp only [Thing.at, Prod.mk.injEq] at e
      exact ⟨b, hb, e.1, hh⟩
    · obtain ⟨v, _, rfl⟩ := List.mem_map.1 ht
      simp [Thing.at] at e
  · rintro ⟨b, hb, rfl, rfl⟩
    exact ⟨.key b, List.mem_flatMap.2 ⟨b, hb, by simp [thingsOf]⟩, rfl, rfl⟩

theorem mem_things_value {ns : List Node} {p m : Str} {h : Option Bytes} :
    (∃ t ∈ ns.flatMap thingsOf, t.at = (p, some m) ∧ t.hash = h) ↔
      ∃ b ∈ ns, b.key.path = p ∧ ∃ v ∈ b.key.values, v.val.name = m ∧ v.val.hash = h := by
  constructor
  · rintro ⟨t, ht, e, hh⟩
    obtain ⟨b, hb, ht⟩ := List.mem_flatMap.1 ht
    unfold thingsOf at ht
    rcases List.mem_cons.1 ht with rfl | ht
    · simp [Thing.at] at e
    · obtain ⟨v, hv, rfl⟩ := List.mem_map.1 ht
      simp only [Thing.at, Prod.mk.injEq, Option.some.injEq] at e
      exact ⟨b, hb, e.1, v, hv, e.2, hh⟩
  · rintro ⟨b, hb, rfl, v, hv, rfl, rfl⟩
    exact ⟨.value b.key.path v, List.mem_flatMap.2 ⟨b, hb, by simp [thingsOf, hv]⟩, rfl, rfl⟩

/-- The keys among the things. -/
theorem filterMap_keys {β : Type} (f : Thing → Option β) (hf : ∀ p v, f (.value p v) = none)
    (ns : List Node) : (ns.flatMap thingsOf).filterMap f = ns.filterMap fun n => f (.key n) := by
  induction ns with
  | nil => rfl
  | cons n ns ih =>
    rw [List.flatMap_cons, List.filterMap_append, ih, thingsOf, List.filterMap_cons]
    have : (n.key.values.map (Thing.value n.key.path)).filterMap f = [] := by
      rw [List.filterMap_eq_nil_iff]
      intro t ht
      obtain ⟨v, _, rfl⟩ := List.mem_map.1 ht
      exact hf _ _
    rw [this]
    cases h : f (.key n) <;> simp [List.filterMap_cons, h]

/-- The values among the things. -/
theorem filterMap_values {β : Type} (f : Thing → Option β) (hf : ∀ n, f (.key n) = none)
    (ns : List Node) :
    (ns.flatMap thingsOf).filterMap f = (allValues ns).filterMap fun x => f (.value x.1 x.2) := by
  induction ns with
  | nil => rfl
  | cons n ns ih =>
    unfold allValues at ih ⊢
    rw [List.flatMap_cons, List.filterMap_append, ih, thingsOf, List.filterMap_cons, hf,
      List.flatMap_cons, List.filterMap_append, List.filterMap_map, List.filterMap_map]
    rfl

theorem filterMap_filter {α : Type} (f : α → Option α) (p : α → Bool) (l : List α)
    (h : ∀ a ∈ l, f a = if p a = true then some a else none) : l.filterMap f = l.filter p := by
  induction l with
  | nil => rfl
  | cons a l ih =>
    rw [List.filterMap_cons, List.filter_cons, h a List.mem_cons_self,
      ih fun b hb => h b (List.mem_cons_of_mem _ hb)]
    cases p a <;> simp

theorem things_keys (q : ItemKey → Bool) (ns : List Node) :
    ((ns.flatMap thingsOf).filter fun t => t.at.2.isNone && q t.at).map (fun t => t.at.1)
      = (ns.filter fun n => q (n.key.path, none)).map fun n => n.key.path := by
  induction ns with
  | nil => rfl
  | cons n ns ih =>
    rw [List.flatMap_cons, List.filter_append, List.map_append, ih, thingsOf, List.filter_cons]
    have : ((n.key.values.map (Thing.value n.key.path)).filter fun t => t.at.2.isNone && q t.at) = [] := by
      rw [List.filter_eq_nil_iff]
      intro t ht
      obtain ⟨v, _, rfl⟩ := List.mem_map.1 ht
      simp [Thing.at]
    rw [this, List.filter_cons]
    by_cases hq : q (n.key.path, none) = true
    · rw [if_pos (by simp [Thing.at, hq]), if_pos hq]; rfl
    · rw [if_neg (by simp [Thing.at, hq]), if_neg hq]; rfl

theorem things_values (q : ItemKey → Bool) (ns : List Node) :
    ((ns.flatMap thingsOf).filter fun t => t.at.2.isSome && q t.at).map Thing.at
      = ((allValues ns).filter fun x => q (x.1, some x.2.val.name)).map
        fun x => (x.1, some x.2.val.name) := by
  induction ns with
  | nil => rfl
  | cons n ns ih =>
    unfold allValues at ih ⊢
    rw [List.flatMap_cons, List.filter_append, List.map_append, ih, thingsOf, List.filter_cons,
      if_neg (by simp [Thing.at]), List.flatMap_cons, List.filter_append, List.map_append,
      List.filter_map, List.filter_map, List.map_map, List.map_map]
    congr 1

theorem allValues_pairwise {ns : List Node} (h : Unique ns) :
    (allValues ns).Pairwise fun x y => (x.1, some x.2.val.name) ≠ (y.1, some y.2.val.name) := by
  obtain ⟨h1, h2⟩ := h
  induction ns with
  | nil => exact List.Pairwise.nil
  | cons n ns ih =>
    rw [List.pairwise_cons] at h1
    unfold allValues at ih ⊢
    rw [List.flatMap_cons, List.pairwise_append]
    refine ⟨?_, ih h1.2 (fun m hm => h2 m (List.mem_cons_of_mem _ hm)), ?_⟩
    · rw [List.pairwise_map]
      exact (h2 n List.mem_cons_self).imp fun h e => h (by simpa using e)
    · intro a ha b hb e
      obtain ⟨v, _, rfl⟩ := List.mem_map.1 ha
      obtain ⟨m, hm, hb⟩ := List.mem_flatMap.1 hb
      obtain ⟨w, _, rfl⟩ := List.mem_map.1 hb
      exact h1.1 m hm (Prod.mk.inj e).1

/-- From a listing of entries that name keys of the base to the keys. -/
theorem deleted_keys {base : List Node} (l : HashIndex) (kd : List Node)
    (h : Pairwise2 (fun x o => ∃ b ∈ base, b.key.path = x.1.1 ∧ SameEntry o b) l kd) :
    ∃ del, Pairwise2 SameEntry kd del ∧ (∀ b ∈ del, b ∈ base) ∧
      del.map (fun b => b.key.path) = l.map fun x => x.1.1 := by
  induction l generalizing kd with
  | nil => cases kd with
    | nil => exact ⟨[], trivial, by simp, rfl⟩
    | cons => exact absurd h (by simp [Pairwise2])
  | cons x l ih => cases kd with
    | nil => exact absurd h (by simp [Pairwise2])
    | cons o kd =>
      obtain ⟨⟨b, hb, hp, hs⟩, h⟩ := h
      obtain ⟨del, h1, h2, h3⟩ := ih kd h
      refine ⟨b :: del, ⟨hs, h1⟩, ?_, by simp [hp, h3]⟩
      intro a ha
      rcases List.mem_cons.1 ha with rfl | ha
      · exact hb
      · exact h2 a ha

theorem pairwise_inj {α β : Type} (g : α → β) {l : List α} (h : l.Pairwise fun x y => g x ≠ g y) :
    ∀ x ∈ l, ∀ y ∈ l, g x = g y → x = y := by
  induction l with
  | nil => intro x hx; cases hx
  | cons z l ih =>
    rw [List.pairwise_cons] at h
    intro x hx y hy e
    rcases List.mem_cons.1 hx with hx' | hx'
    · rcases List.mem_cons.1 hy with hy' | hy'
      · rw [hx', hy']
      · exact absurd (hx' ▸ e) (h.1 y hy')
    · rcases List.mem_cons.1 hy with hy' | hy'
      · exact absurd (hy' ▸ e).symm (h.1 x hx')
      · exact ih h.2 x hx' y hy' e

/-- Two lists of keys of a listing without duplicates whose paths are permutations of each other are
permutations of each other. -/
theorem perm_of_keys {α β : Type} (g : α → β) {base a b : List α}
    (hu : base.Pairwise fun x y => g x ≠ g y) (ha : ∀ x ∈ a, x ∈ base) (hb : ∀ x ∈ b, x ∈ base)
    (h : (a.map g).Perm (b.map g)) : a.Perm b := by
  have hinj := pairwise_inj g hu
  obtain ⟨l, hl1, hl2⟩ : ∃ l : List α, l.Perm a ∧ l.map g = b.map g := by
    clear hinj hu ha hb
    generalize hbl : b.map g = bl at h ⊢
    clear hbl
    induction bl generalizing a with
    | nil =>
      have : a = [] := List.map_eq_nil_iff.1 h.eq_nil
      exact ⟨[], by rw [this], rfl⟩
    | cons y bl ih =>
      have hy : y ∈ a.map g := h.symm.subset List.mem_cons_self
      obtain ⟨x, hx, rfl⟩ := List.mem_map.1 hy
      obtain ⟨s, t, rfl⟩ := List.append_of_mem hx
      have hp : (s ++ x :: t).Perm (x :: (s ++ t)) := List.perm_middle
      have h' : ((s ++ t).map g).Perm bl := by
        have := (hp.map g).symm.trans h
        rw [List.map_cons] at this
        exact this.cons_inv
      obtain ⟨l, h1, h2⟩ := ih h'
      exact ⟨x :: l, (h1.cons x).trans hp.symm, by rw [List.map_cons, h2]⟩
  have : l = b := by
    have hlb : ∀ x ∈ l, x ∈ base := fun x hx => ha x (hl1.subset hx)
    clear h hl1 ha
    induction l generalizing b with
    | nil => cases b with
      | nil => rfl
      | cons => cases hl2
    | cons x l ih => cases b with
      | nil => cases hl2
      | cons y b =>
        rw [List.map_cons, List.map_cons, List.cons.injEq] at hl2
        rw [hinj x (hlb x List.mem_cons_self) y (hb y List.mem_cons_self) hl2.1,
          ih (fun z hz => hb z (List.mem_cons_of_mem _ hz)) hl2.2
            (fun z hz => hlb z (List.mem_cons_of_mem _ hz))]
  rw [← this]
  exact hl1.symm

end Notatin
