import Verif.Props.Overwritten
import Verif.Props.Count
import Verif.Props.DumpFree
/-
C85 with recovery and logs: the counts after the replay are those of what is stored in the end and of what the log
entries have changed and taken away.
-/
namespace Notatin
open Spec

theorem sum_parts {α : Type} (p : α → Bool) (f : α → Nat) : ∀ l : List α,
    (l.map f).sum = ((l.filter p).map f).sum + ((l.filter fun x => !p x).map f).sum
  | [] => rfl
  | x :: l => by
    rw [List.map_cons, List.sum_cons, sum_parts p f l]
    cases h : p x <;> simp [h] <;> omega

theorem sum_filter_ne {α : Type} [BEq α] [LawfulBEq α] [DecidableEq α] (r : α) (g : α → Nat) : ∀ l : List α,
    ((l.filter (· != r)).map g).sum = (l.map fun x => if x = r then 0 else g x).sum
  | [] => rfl
  | x :: l => by
    rw [List.map_cons, List.sum_cons, ← sum_filter_ne r g l]
    by_cases h : x = r
    · subst h; simp
    · simp [h]

theorem values_parts : ∀ ns : List Node, (ns.map fun n => n.key.values.length).sum =
    (ns.map fun n => (n.key.values.filter fun v => !v.val.cellState.isDeleted).length).sum +
      (ns.map fun n => (n.key.values.filter fun v => v.val.cellState.isDeleted).length).sum
  | [] => rfl
  | n :: l => by
    have ih := values_parts l
    have : n.key.values.length = (n.key.values.filter fun v => !v.val.cellState.isDeleted).length +
        (n.key.values.filter fun v => v.val.cellState.isDeleted).length := by
      generalize n.key.values = vs
      induction vs with
      | nil => rfl
      | cons v vs ih => cases h : v.val.cellState.isDeleted <;> simp [h] <;> omega
    simp only [List.map_cons, List.sum_cons]
    omega

/-- Blocks that begin with different keys have nothing in common. -/
theorem nodup_blocks {α κ β : Type} (k : α → κ) (f : α → List (κ × β)) : ∀ l : List α, (l.map k).Nodup →
    (∀ n ∈ l, ∀ x ∈ f n, x.1 = k n) → (∀ n ∈ l, (f n).Nodup) → (l.flatMap f).Nodup
  | [], _, _, _ => List.nodup_nil
  | n :: l, h, h1, h2 => by
    rw [List.map_cons, List.nodup_cons] at h
    rw [List.flatMap_cons, List.nodup_append]
    refine ⟨h2 n List.mem_cons_self, nodup_blocks k f l h.2 (fun m hm => h1 m (List.mem_cons_of_mem _ hm))
      (fun m hm => h2 m (List.mem_cons_of_mem _ hm)), ?_⟩
    intro x hx y hy e
    subst e
    obtain ⟨m, hm, hy⟩ := List.mem_flatMap.1 hy
    apply h.1
    rw [← h1 n List.mem_cons_self x hx, h1 m (List.mem_cons_of_mem _ hm) x hy]
    exact List.mem_map.2 ⟨m, hm, rfl⟩

/-- The keys lost in some step of the history below a survivor other than the root, by their paths. -/
def Spec.LostPaths (a : FullState) (later : List FullState) (last : FullState) (lost : List Str) : Prop :=
  lost.Nodup ∧ ∀ x, x ∈ lost ↔ ∃ q ∈ steps ((a :: later).map FullState.plain), ∃ key, Lost q.1 q.2 key ∧ key.2 = x ∧
    BelowSurvivor last.plain x

/-- The removals of values from the keys with these paths: path of the key, name of the value, number of the entry.
None is named twice, each took place, and all are there but those that were taken back by putting the same value there
again. -/
def Spec.Removals (evs : List Event) (paths : List Str) (removed : List (Str × Str × Nat)) : Prop :=
  removed.Nodup ∧
  (∀ x ∈ removed, x.1 ∈ paths ∧ ∃ e, Removal evs (x.1, some x.2.1) e ∧ e.2.seq = x.2.2) ∧
  ∀ path ∈ paths, ∀ e ∈ evs, ∀ name, e.removes (path, some name) → StaysAway evs (path, some name) e →
    (path, name, e.2.seq) ∈ removed

/-- How often the entries have changed the key with this path. -/
def Spec.keyChanges (evs : List Event) (path : Str) : Nat := (evs.filter (Event.changes (path, none))).length

/-- How often the entries have changed a value the key has in the end. -/
def Spec.valueChanges (last : FullState) (evs : List Event) (path : Str) : Nat :=
  ((last.valuesOf path).map fun y => (evs.filter (Event.changes (path, some y.val.name))).length).sum

/-- What is counted for a listed key: former contents, present values, their former contents, removed values. -/
theorem told_counts (last : FullState) (evs : List Event) (n : Node)
    (h : if n.key.path = '\\' :: last.tree.name then TellsPresent last n else TellsPast last evs n) :
    n.versions.length = (if n.key.path = '\\' :: last.tree.name then 0 else keyChanges evs n.key.path) ∧
    (n.key.values.filter fun v => !v.val.cellState.isDeleted).length = (last.valuesOf n.key.path).length ∧
    (n.key.values.map fun v => v.versions.length).sum =
      (if n.key.path = '\\' :: last.tree.name then 0 else valueChanges last evs n.key.path) ∧
    (n.key.path = '\\' :: last.tree.name → (n.key.values.filter fun v => v.val.cellState.isDeleted) = []) ∧
    (n.key.path ≠ '\\' :: last.tree.name →
      (∀ v ∈ n.key.values.filter (fun v => v.val.cellState.isDeleted), ∃ e, Removal evs (n.key.path, some v.val.name) e ∧
        v.val.updatedBySeq = some e.2.seq) ∧
      (∀ e ∈ evs, ∀ name, e.removes (n.key.path, some name) → StaysAway evs (n.key.path, some name) e →
        ∃ v ∈ n.key.values.filter (fun v => v.val.cellState.isDeleted), v.val.name = name ∧ v.val.updatedBySeq = some e.2.seq) ∧
      (n.key.values.filter fun v => v.val.cellState.isDeleted).Pairwise RemovedBefore) := by
  by_cases hr : n.key.path = '\\' :: last.tree.name
  · rw [if_pos hr] at h
    rw [if_pos hr, if_pos hr]
    have hlive : ∀ v ∈ n.key.values, v.val.cellState = .Allocated ∧ v.versions = [] := by
      intro v hv
      obtain ⟨y, _, hy⟩ := pairwise2_mem_left h.values v hv
      exact ⟨hy.1.2.2.2.2.1, hy.2⟩
    refine ⟨by rw [h.versions]; rfl, ?_, sum_zero _ _ (fun v hv => by rw [(hlive v hv).2]; rfl), fun _ => ?_,
      fun h => absurd hr h⟩
    · rw [filter_all_len _ _ (fun v hv => by rw [(hlive v hv).1]; rfl)]
      exact (pairwise2_length h.values).symm
    · exact List.filter_eq_nil_iff.2 (fun v hv => by rw [(hlive v hv).1]; exact Bool.false_ne_true)
  · rw [if_neg hr] at h
    rw [if_neg hr, if_neg hr]
    obtain ⟨live, gone, h1, h2, h3, h4, h5⟩ := h.values
    have hlive : ∀ v ∈ live, v.val.cellState = .Allocated := by
      intro v hv
      obtain ⟨y, _, hy⟩ := pairwise2_mem_left h2 v hv
      exact hy.1.2.2.2.2.1
    have hgone : ∀ v ∈ gone, v.val.cellState = .DeletedTransactionLog := by
      intro v hv
      obtain ⟨_, _, _, hy⟩ := h3 v hv
      exact hy.2.1
    have hf1 : (n.key.values.filter fun v => !v.val.cellState.isDeleted) = live := by
      rw [h1, List.filter_append, List.filter_eq_self.2 (fun v hv => by rw [hlive v hv]; rfl),
        List.filter_eq_nil_iff.2 (fun v hv => by rw [hgone v hv]; decide), List.append_nil]
    have hf2 : (n.key.values.filter fun v => v.val.cellState.isDeleted) = gone := by
      rw [h1, List.filter_append, List.filter_eq_nil_iff.2 (fun v hv => by rw [hlive v hv]; decide),
        List.filter_eq_self.2 (fun v hv => by rw [hgone v hv]; rfl), List.nil_append]
    refine ⟨pairwise2_length h.versions, by rw [hf1]; exact (pairwise2_length h2).symm, ?_, fun h => absurd h hr, fun _ => ?_⟩
    · rw [h1, List.map_append, List.sum_append, sum_zero _ gone (fun v hv => by rw [(h3 v hv).1]; rfl), Nat.add_zero]
      unfold valueChanges
      rw [pairwise2_map_eq (fun v : Value => v.versions.length)
        (fun y : FlaggedVal => (evs.filter (Event.changes (n.key.path, some y.val.name))).length) (fun v y hy => by
          rw [← hy.1.1]; exact (pairwise2_length hy.2).symm) h2]
    · rw [hf2]
      refine ⟨fun v hv => ?_, fun e he name hrm hs => ?_, h5⟩
      · obtain ⟨_, e, he, hy⟩ := h3 v hv
        exact ⟨e, he, hy.2.2.2⟩
      · obtain ⟨v, hv, hy⟩ := h4 e he name hrm hs
        refine ⟨v, hv, ?_, hy.2.2.2⟩
        obtain ⟨y, hw, hn, _⟩ := hy.1
        rw [hn]
        unfold Event.was at hw
        cases hh : e.1.head? with
        | none => rw [hh] at hw; cases hw
        | some s =>
          rw [hh] at hw
          have hw : s.item (n.key.path, some name) = some (.inr y) := hw
          unfold FullState.item at hw
          cases hf : s.items.find? (·.1 == (n.key.path, some name)) with
          | none => rw [hf] at hw; cases hw
          | some x =>
            rw [hf] at hw
            have hx := List.find?_some hf
            simp only [beq_iff_eq] at hx
            have hm := List.mem_of_find?_eq_some hf
            have hx2 : x.2 = .inr y := Option.some.inj hw
            obtain ⟨k, _, hm⟩ := List.mem_flatMap.1 hm
            rcases List.mem_cons.1 hm with rfl | hm
            · cases hx2
            · obtain ⟨y', _, rfl⟩ := List.mem_map.1 hm
              cases hx2
              exact Option.some.inj (congrArg Prod.snd hx)

/-- C85 with recovery and logs (partial: as `lost_keys_listed_partial` and `overwritten_told_partial`; the root tells
nothing of its past, and keys lost directly below it are not counted).  Counted are the keys and values stored in the
end, the lost keys and the removed values; apart from each other, and with the former contents, if they are counted
apart. -/
theorem count_past_partial (w : World) (b : Builder) (a : FullState) (later : List FullState)
    (hd : 1 < w.depth) (hord : ∀ m, (w.order m).Perm m) (hist : FullHistory w b a later) (last : FullState)
    (hl : last = (a :: later).getLast (by simp)) (evs : List Event) (he : evs = events (a :: later).reverse) :
    ∃ N, ∀ steps, N ≤ steps → ∃ p, b.build { w with steps } = some (.ok p) ∧
      ∃ lost removed, LostPaths a later last lost ∧
        Removals evs ((last.plain.paths ++ lost).filter (· != '\\' :: last.tree.name)) removed ∧
        ∃ M, p.countAll M none = some (.ok (last.tree.nodes.length + lost.length,
            last.tree.valueCount last.plain.vals + removed.length)) ∧
          p.countModified M none = some (.ok {
            keys := last.tree.nodes.length
            keysVersions := (((last.plain.paths ++ lost).filter (· != '\\' :: last.tree.name)).map (keyChanges evs)).sum
            keysDeleted := lost.length
            values := last.tree.valueCount last.plain.vals
            valuesVersions := ((last.plain.paths.filter (· != '\\' :: last.tree.name)).map (valueChanges last evs)).sum
            valuesDeleted := removed.length }) := by
  obtain ⟨N1, h1⟩ := lost_keys_listed_partial w b a.plain (later.map FullState.plain) hd hord hist.history
  obtain ⟨N2, h2⟩ := overwritten_told_partial w b a later hd hord hist
  have hlp : ((a :: later).map FullState.plain).getLast (by simp) = last.plain := by
    rw [List.getLast_map, hl]
  refine ⟨max N1 N2, fun steps hs => ?_⟩
  obtain ⟨p, hp, hlost⟩ := h1 steps (by omega)
  obtain ⟨p', hp', hpast⟩ := h2 steps (by omega)
  have : p' = p := by
    rw [hp] at hp'; cases hp'; rfl
  subst this
  refine ⟨p', hp, ?_⟩
  obtain ⟨M, ns, i1, i2, i3, i4, i5⟩ := hlost false
  obtain ⟨M', ns', j1, _, _, j4⟩ := hpast false
  have : ns' = ns := by
    have := collect_unique (fuelMono_pre _) _ _ _ _ _ i1 j1
    cases this; rfl
  subst this
  rw [← hl, ← he] at j4
  have hlp' : (a.plain :: later.map FullState.plain).getLast (by simp) = last.plain := hlp
  rw [hlp'] at i2 i3 i4
  have hall : ∀ s ∈ a :: later, Sound w s := fun s hs =>
    ⟨(hist.history.states s.plain (by rw [← List.map_cons]; exact List.mem_map.2 ⟨s, hs, rfl⟩)).1, hist.flags s hs⟩
  have hsl : Sound w last := hall last (by rw [hl]; exact List.getLast_mem _)
  have hcount := fun n hn => told_counts last evs n (j4 n hn)
  have hdel : ∀ n ∈ ns', n.key.cellState.isDeleted = (n.key.cellState != .Allocated) := by
    intro n hn
    by_cases h : n.key.cellState = .Allocated
    · rw [h]; rfl
    · obtain ⟨_, _, _, _, _, ht⟩ := i3 n hn h
      rw [ht.2.2.2.1]; rfl
  generalize hr : '\\' :: last.tree.name = r at *
  let lost := (ns'.filter fun n => n.key.cellState.isDeleted).map fun n => n.key.path
  let removed := ns'.flatMap fun n => (n.key.values.filter fun v => v.val.cellState.isDeleted).map fun v =>
    (n.key.path, v.val.name, v.val.updatedBySeq.getD 0)
  have hlive : (ns'.filter fun n => !n.key.cellState.isDeleted).map (fun n => n.key.path) = last.plain.paths := by
    unfold FileState.paths
    rw [← i2]
    unfold liveKeys
    rw [List.map_map, List.filter_congr (q := fun n => decide (n.key.cellState = .Allocated)) (fun n hn => by
      rw [hdel n hn]
      by_cases h : n.key.cellState = .Allocated <;> simp [h])]
    rfl
  have hsum : ∀ g : Str → Nat, (ns'.map fun n => g n.key.path).sum = (last.plain.paths.map g).sum + (lost.map g).sum := by
    intro g
    rw [sum_parts (fun n => !n.key.cellState.isDeleted), ← hlive, List.map_map]
    simp only [Bool.not_not, lost, List.map_map]
    rfl
  have hpaths : ∀ n ∈ ns', n.key.path ∈ last.plain.paths ++ lost := by
    intro n hn
    cases h : n.key.cellState.isDeleted with
    | false =>
      refine List.mem_append_left _ ?_
      rw [← hlive]
      exact List.mem_map.2 ⟨n, List.mem_filter.2 ⟨hn, by rw [h]; rfl⟩, rfl⟩
    | true => exact List.mem_append_right _ (List.mem_map.2 ⟨n, List.mem_filter.2 ⟨hn, h⟩, rfl⟩)
  have hfrom : ∀ x ∈ last.plain.paths ++ lost, ∃ n ∈ ns', n.key.path = x := by
    intro x hx
    rcases List.mem_append.1 hx with hx | hx
    · rw [← hlive] at hx
      obtain ⟨n, hn, h⟩ := List.mem_map.1 hx
      exact ⟨n, (List.mem_filter.1 hn).1, h⟩
    · obtain ⟨n, hn, h⟩ := List.mem_map.1 hx
      exact ⟨n, (List.mem_filter.1 hn).1, h⟩
  have hgone : ∀ x ∈ lost, x ∉ last.plain.paths := by
    intro x hx hx'
    obtain ⟨n, hn, rfl⟩ := List.mem_map.1 hx
    rw [← hlive] at hx'
    obtain ⟨m, hm, hmn⟩ := List.mem_map.1 hx'
    have := map_inj_of_nodup (fun y : Node => y.key.path) _ i5 m (List.mem_filter.1 hm).1 n (List.mem_filter.1 hn).1 hmn
    subst this
    have h1 := (List.mem_filter.1 hm).2
    have h2 := (List.mem_filter.1 hn).2
    rw [h2] at h1
    cases h1
  have hrl : r ∉ lost := by
    intro hx
    apply hgone r hx
    unfold FileState.paths
    refine List.mem_map.2 ⟨(last.tree.off, r), ?_, rfl⟩
    show _ ∈ last.tree.pre []
    rw [← hr]
    cases last.tree
    rw [Tree.pre]
    exact List.mem_cons_self
  have hlen : last.plain.paths.length = last.tree.nodes.length := by
    unfold FileState.paths FileState.keys
    rw [List.length_map]
    exact (pre_counts last.tree last.plain.vals).1
  have hnlen : ns'.length = last.tree.nodes.length + lost.length := by
    have := hsum (fun _ => 1)
    have one : ∀ {α : Type} (l : List α), (l.map fun _ => 1).sum = l.length := fun l => by
      induction l with
      | nil => rfl
      | cons x l ih => rw [List.map_cons, List.sum_cons, ih, List.length_cons]; omega
    rw [one, one, one, hlen] at this
    exact this
  have hvals : (last.plain.paths.map fun x => (last.valuesOf x).length).sum = last.tree.valueCount last.plain.vals := by
    unfold FileState.paths Spec.Tree.valueCount
    rw [← keys_plain, ← keys_nodes last.tree [], List.map_map, List.map_map, List.map_map]
    congr 1
    refine List.map_congr_left fun x hx => ?_
    show (last.valuesOf x.1).length = ((last.vals x.2.off).map FlaggedVal.val).length
    rw [valuesOf_key hsl hx, List.length_map]
  have hvlost : (lost.map fun x => (last.valuesOf x).length).sum = 0 :=
    sum_zero _ _ (fun x hx => by rw [valuesOf_none (hgone x hx)]; rfl)
  have hrem : (ns'.map fun n => (n.key.values.filter fun v => v.val.cellState.isDeleted).length).sum = removed.length := by
    simp only [removed, List.length_flatMap, List.length_map]
  have hpres : (ns'.map fun n => (n.key.values.filter fun v => !v.val.cellState.isDeleted).length).sum =
      last.tree.valueCount last.plain.vals := by
    rw [List.map_congr_left (g := fun n => (last.valuesOf n.key.path).length) (fun n hn => (hcount n hn).2.1),
      hsum (fun x => (last.valuesOf x).length), hvals, hvlost]
    rfl
  refine ⟨lost, removed, ⟨?_, ?_⟩, ⟨?_, ?_, ?_⟩, M, ?_, ?_⟩
  · exact (List.Sublist.map _ List.filter_sublist).nodup i5
  · intro x
    constructor
    · intro hx
      obtain ⟨n, hn, rfl⟩ := List.mem_map.1 hx
      obtain ⟨hn, hdn⟩ := List.mem_filter.1 hn
      obtain ⟨q, hq, key, k1, k2, k3⟩ := i3 n hn (by
        intro e
        rw [e] at hdn
        cases hdn)
      exact ⟨q, hq, key, k1, k3.2.2.1.symm, by rw [k3.2.2.1]; exact k2⟩
    · rintro ⟨q, hq, key, k1, rfl, k2⟩
      obtain ⟨n, hn, k3⟩ := i4 q hq key k1 k2
      exact List.mem_map.2 ⟨n, List.mem_filter.2 ⟨hn, by rw [k3.2.2.2.1]; rfl⟩, k3.2.2.1⟩
  · refine nodup_blocks (fun n : Node => n.key.path) _ ns' i5 ?_ ?_
    · intro n _ x hx
      obtain ⟨v, _, rfl⟩ := List.mem_map.1 hx
      rfl
    · intro n hn
      have hc := (hcount n hn).2.2.2
      by_cases hnr : n.key.path = r
      · rw [hc.1 hnr]; exact List.nodup_nil
      · refine List.pairwise_map.2 ((hc.2 hnr).2.2.imp ?_)
        intro v v' h e
        have e1 : v.val.name = v'.val.name := congrArg (fun x : Str × Str × Nat => x.2.1) e
        have e2 : v.val.updatedBySeq.getD 0 = v'.val.updatedBySeq.getD 0 := congrArg (fun x : Str × Str × Nat => x.2.2) e
        rcases h with h | ⟨_, x, y, hx, hy, hlt⟩
        · rw [e1] at h
          exact List.lt_irrefl _ h
        · rw [hx, hy] at e2
          have e2 : x = y := e2
          omega
  · intro x hx
    obtain ⟨n, hn, hx⟩ := List.mem_flatMap.1 hx
    obtain ⟨v, hv, rfl⟩ := List.mem_map.1 hx
    have hc := (hcount n hn).2.2.2
    by_cases hnr : n.key.path = r
    · rw [hc.1 hnr] at hv; cases hv
    · refine ⟨List.mem_filter.2 ⟨hpaths n hn, by simpa using hnr⟩, ?_⟩
      obtain ⟨e, e1, e2⟩ := (hc.2 hnr).1 v hv
      exact ⟨e, e1, by rw [e2]; rfl⟩
  · intro path hpath e hee name hrm hst
    obtain ⟨hpath, hne⟩ := List.mem_filter.1 hpath
    obtain ⟨n, hn, rfl⟩ := hfrom path hpath
    obtain ⟨v, hv, v1, v2⟩ := ((hcount n hn).2.2.2.2 (by simpa using hne)).2.1 e hee name hrm hst
    exact List.mem_flatMap.2 ⟨n, hn, List.mem_map.2 ⟨v, hv, by rw [v1, v2]; rfl⟩⟩
  · unfold HiveParser.countAll
    rw [Option.getD_none, i1]
    show some (Res.ok _) = _
    rw [countKeysValues_eq, hnlen]
    congr 3
    rw [← hrem, ← hpres]
    exact values_parts ns'
  · unfold HiveParser.countModified
    rw [Option.getD_none, i1]
    show some (Res.ok (ns'.foldl ModifiedCounts.key {})) = _
    rw [countMods_eq, hrem, hpres]
    have e1 : (ns'.filter fun n => !n.key.cellState.isDeleted).length = last.tree.nodes.length := by
      rw [← hlen, ← hlive, List.length_map]
    have e2 : (ns'.filter fun n => n.key.cellState.isDeleted).length = lost.length := by
      simp only [lost, List.length_map]
    have e3 : (ns'.map fun n => n.versions.length).sum =
        (((last.plain.paths ++ lost).filter (· != r)).map (keyChanges evs)).sum := by
      rw [sum_filter_ne, List.map_append, List.sum_append, ← hsum (fun x => if x = r then 0 else keyChanges evs x)]
      exact congrArg List.sum (List.map_congr_left fun n hn => (hcount n hn).1)
    have e4 : (ns'.map fun n => (n.key.values.map fun v => v.versions.length).sum).sum =
        ((last.plain.paths.filter (· != r)).map (valueChanges last evs)).sum := by
      rw [sum_filter_ne, List.map_congr_left (fun n hn => (hcount n hn).2.2.1),
        hsum (fun x => if x = r then 0 else valueChanges last evs x),
        sum_zero (fun x => if x = r then 0 else valueChanges last evs x) lost (fun x hx => by
          rw [if_neg (fun h : x = r => hrl (by rw [← h]; exact hx))]
          unfold valueChanges
          rw [valuesOf_none (hgone x hx)]; rfl)]
      rfl
    rw [e1, e2, e3, e4]
    simp

/-- The hypotheses of `count_past_partial`, for a history in which a value is changed and then removed. -/
example : ∃ N, ∀ steps, N ≤ steps → ∃ p, pastBuilder.build { pastWorld with steps } = some (.ok p) ∧
    ∃ lost removed, LostPaths pastFirst pastLater (pastState 6 2 0 6) lost ∧
      Removals (events (pastFirst :: pastLater).reverse) ((["\\RT".toList, "\\RT\\a".toList] ++ lost).filter (· != "\\RT".toList)) removed ∧
      ∃ M, p.countAll M none = some (.ok (2 + lost.length, 0 + removed.length)) := by
  obtain ⟨N, h⟩ := count_past_partial pastWorld pastBuilder pastFirst pastLater (by decide) (fun m => List.Perm.refl m)
    past_full _ rfl _ rfl
  refine ⟨N, fun steps hs => ?_⟩
  obtain ⟨p, h1, lost, removed, h2, h3, M, h4, _⟩ := h steps hs
  exact ⟨p, h1, lost, removed, h2, h3, M, h4⟩

example : Event.removes ("\\RT\\a".toList, some ['a'])
    ([pastState 5 2 1 6, pastState 4 1 1 6, pastFirst], pastState 6 2 0 6) := by
  unfold Event.removes; decide +kernel

/-- The same history counted: the value that is removed is the only one. -/
example : (match pastBuilder.build pastWorld with
    | some (.ok p) => p.countModified 100 none
    | _ => none) = some (.ok { keys := 2, valuesDeleted := 1 }) := by decide +kernel

/-- What counting deleted items apart should give: those counted as there are the keys and values that are stored. -/
def Spec.CountedApart : Prop :=
  ∀ (w : World) (b : Builder) (bb : BaseBlock) (bins : List (Nat × List Nat)) (t : Tree) (vals : Nat → List Val),
    b.recover = true → CleanHive b bb → StoredHive w b.primary t vals → RootMarked t →
    Bins b.primary 4096 (4096 + bb.base.hiveBinsDataSize) bins → 4096 + bb.base.hiveBinsDataSize ≤ b.primary.length →
    b.primary.length < 24 * w.depth → ∀ steps, b.primary.length < steps →
      ∀ p, b.build { w with steps } = some (.ok p) → ∀ N c, p.countModified N none = some (.ok c) →
        c.keys = t.nodes.length ∧ c.values = t.valueCount vals

/-- C85 is violated for the values of deleted keys: they are counted as values that are there. -/
theorem counted_apart_violated : ¬ CountedApart := by
  intro h
  obtain ⟨bb, hc, hb, he, hst, hbb, p, M, root, keys, rest, values, h1, _⟩ := freed_listed
  have hlen : freedHive.length < 24 * freeWorld.depth := by rw [freedHive_length]; decide
  have hsteps : freedHive.length < 20000 := by rw [freedHive_length]; decide
  obtain ⟨p', hp', keys', values', hk, _, hf, _, N, _, hm⟩ := count_recovered_partial freeWorld
    ⟨freedHive, [], none, true, false⟩ bb _ (sampleTree 0x61) (fun _ => []) rfl hc hst sample_rootMarked hb he hlen
    20000 hsteps
  have e : p' = p := by
    have := hp'.symm.trans h1
    cases this; rfl
  subst e
  have hv := (h freeWorld ⟨freedHive, [], none, true, false⟩ bb _ (sampleTree 0x61) (fun _ => []) rfl hc hst
    sample_rootMarked hb he hlen 20000 hsteps p' hp' N _ hm).2
  have hz : (sampleTree 0x61).valueCount (fun _ => []) = 0 := rfl
  simp only [hz, Nat.zero_add] at hv
  obtain ⟨y, hy, hyo⟩ := (hf _ (List.mem_cons_of_mem _ List.mem_cons_self) (by rw [hbb]; decide) 4509 (by decide)
    (by decide +kernel)).1 (by decide +kernel)
  have ht := ((hk y hy).tells freedKey ['k'] (by rw [hyo]; exact freedKey_at)).values _ freedKey_values
  have hl := congrArg List.length ht
  rw [List.length_map] at hl
  obtain ⟨l1, l2, rfl⟩ := List.append_of_mem hy
  rw [List.map_append, List.sum_append, List.map_cons, List.sum_cons, hl, List.length_singleton] at hv
  omega

end Notatin
