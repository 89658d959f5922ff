import Verif.Lemmas.Analyzer
import Verif.Lemmas.Walk
import Verif.Spec.Analyzer
/-
C37: what the comparison of the file before and after a log entry records.
-/
namespace Notatin
open Spec

/-! ### Closed form -/

theorem analyzeSeen_ok (env : Env) (order : RegItemMap → RegItemMap) (newSeq : Nat)
    (seen : List Seen) (prior : RegItemMap) (st : State)
    (hh : ∀ s ∈ seen, s.hash ≠ none) (hnd : (seen.map Seen.key).Nodup) :
    ∃ lg, analyzeSeen env order newSeq seen prior st = .ok
      ((order (seen.map (latestEntry newSeq prior))).foldl takeOff
        { st with
          modifiedKeys := addAll st.modifiedKeys
            (((seen.filter fun s : Seen => decide (s.key.2 = none)).filterMap (neededFor prior)).filterMap
              fun n => (keyVersion env newSeq .updated n.path n.off n.seq).map fun k => (n.path, k))
          modifiedValues := addAll st.modifiedValues
            (((seen.filter fun s : Seen => decide (s.key.2 ≠ none)).filterMap (neededFor prior)).filterMap
              fun n => (valueVersion env newSeq .updated n.off n.seq).map fun v =>
                ((n.path, v.val.name), v))
          deletedKeys := addAll st.deletedKeys
            ((order (prior.filter fun x : ItemKey × Item => decide (x.1 ∉ seen.map Seen.key))).filterMap
              (goneKey env newSeq))
          deletedValues := addAll st.deletedValues
            ((order (prior.filter fun x : ItemKey × Item => decide (x.1 ∉ seen.map Seen.key))).filterMap
              (goneValue env newSeq)) },
       seen.map (latestEntry newSeq prior), lg) := by
  obtain ⟨lg0, h0⟩ := compareLoop_ok newSeq seen { prior } hh hnd (by intro s _ h; cases h)
  simp only [List.nil_append] at h0
  unfold analyzeSeen
  rw [h0]
  simp only
  obtain ⟨lg1, h1⟩ := updateKeys_ok env newSeq
    ((seen.filter fun s : Seen => decide (s.key.2 = none)).filterMap (neededFor prior)) (st, lg0)
  rw [h1]
  simp only
  obtain ⟨lg2, h2⟩ := updateValues_ok env newSeq
    ((seen.filter fun s : Seen => decide (s.key.2 ≠ none)).filterMap (neededFor prior))
    ({ st with
        modifiedKeys := addAll st.modifiedKeys
            (((seen.filter fun s : Seen => decide (s.key.2 = none)).filterMap (neededFor prior)).filterMap
              fun n => (keyVersion env newSeq .updated n.path n.off n.seq).map fun k =>
                (n.path, k)) }, lg1)
  rw [h2]
  simp only
  obtain ⟨lg3, h3⟩ := addDeleted_ok env newSeq
    (order (prior.filter fun x : ItemKey × Item => decide (x.1 ∉ seen.map Seen.key)))
    ({ st with
        modifiedKeys := addAll st.modifiedKeys
            (((seen.filter fun s : Seen => decide (s.key.2 = none)).filterMap (neededFor prior)).filterMap
              fun n => (keyVersion env newSeq .updated n.path n.off n.seq).map fun k =>
                (n.path, k))
        modifiedValues := addAll st.modifiedValues
            (((seen.filter fun s : Seen => decide (s.key.2 ≠ none)).filterMap (neededFor prior)).filterMap
              fun n => (valueVersion env newSeq .updated n.off n.seq).map fun v =>
                ((n.path, v.val.name), v)) }, lg2)
  rw [h3]
  exact ⟨lg3, rfl⟩

/-! ### Versions -/

theorem keyVersion_was (env : Env) (newSeq : Nat) (t : ListType) (path : Str) (it : Item)
    (h : KeyWas env path it) :
    ∃ n, keyVersion env newSeq t path it.off it.seq = some n ∧
      IsKeyVersion env newSeq (match t with
        | .updated => .ModifiedTransactionLog
        | .deleted => .DeletedTransactionLog) path it n := by
  obtain ⟨k, r, hk, hp, hh⟩ := h
  have hacc := nk_accepts_iff env.hashFn (env.fi.buffer.drop it.off) it.off (upTo path) (some it.seq)
  have hr : KeyReadable (env.fi.buffer.drop it.off) := by
    by_cases hr : KeyReadable (env.fi.buffer.drop it.off)
    · exact hr
    · rw [hacc.2 hr] at hk; cases hk
  have hle : it.off ≤ env.fi.buffer.length := by
    have h1 := hr.1
    have h2 := hr.2.1
    rw [List.length_drop] at h2
    omega
  obtain ⟨vs, lg, hv⟩ := valuesStep_ok env (priorOptions path it.off it.seq) .iterate k
  have hread : readKey env {} (priorOptions path it.off it.seq) =
      .ok (some (.mk { k with values := vs, logs := lg } [] []), 0) := by
    unfold readKey getFrom
    have ho : (priorOptions path it.off it.seq).offset = it.off := rfl
    rw [ho, if_pos hle]
    simp only
    unfold readFromSlice
    have hk' : KeyNode.fromBytes env.hashFn (env.fi.buffer.drop it.off)
        (priorOptions path it.off it.seq).offset (priorOptions path it.off it.seq).curPath
        (priorOptions path it.off it.seq).seq = .ok (k, r) := by
      rw [← hk]
      show KeyNode.fromBytes _ _ _ (parentPath path) _ = _
      rw [parentPath_eq]
      rfl
    rw [hk']
    simp only [filterStep, priorOptions, reduceCtorEq, if_false]
    have hv' := hv
    unfold priorOptions at hv'
    rw [hv']
    rfl
  refine ⟨keyRecord newSeq t (.mk { k with values := vs, logs := lg } [] []), ?_, k, r, hk, hp, hh, ?_⟩
  · unfold keyVersion; rw [hread]
  · cases t <;> rfl

theorem valueVersion_was (env : Env) (newSeq : Nat) (t : ListType) (name : Str) (it : Item)
    (h : ValueWas env name it) :
    ∃ v, valueVersion env newSeq t it.off it.seq = some v ∧
      IsValueVersion env newSeq (match t with
        | .updated => .ModifiedTransactionLog
        | .deleted => .DeletedTransactionLog) name it v := by
  obtain ⟨kv, r, hk, hn, hh⟩ := h
  have hacc := vk_accepts_iff (env.fi.buffer.drop it.off) it.off (some it.seq)
  have hr : ValueReadable (env.fi.buffer.drop it.off) := by
    by_cases hr : ValueReadable (env.fi.buffer.drop it.off)
    · exact hr
    · rw [hacc.2 hr] at hk; cases hk
  have hle : it.off ≤ env.fi.buffer.length := by
    have h1 := hr.1
    have h2 := hr.2.1
    rw [List.length_drop] at h2
    omega
  refine ⟨valueRecord env newSeq t kv, ?_, kv, r, hk, hn, hh, ?_⟩
  · unfold valueVersion getFrom
    rw [if_pos hle]
    simp only
    rw [hk]
  · cases t <;> rfl

/-! ### What is recorded under one key -/

theorem recordedUnder_none {α κ β : Type} [DecidableEq κ] (g : α → Option (κ × β)) (l : List α)
    (q : κ) (h : ∀ s ∈ l, ∀ x, g s = some x → x.1 ≠ q) : recordedUnder (l.filterMap g) q = [] := by
  unfold recordedUnder
  rw [List.map_eq_nil_iff, List.filter_eq_nil_iff]
  intro x hx
  obtain ⟨s, hs, e⟩ := List.mem_filterMap.1 hx
  simpa using h s hs x e

theorem recordedUnder_one {α κ β ι : Type} [DecidableEq κ] (g : α → Option (κ × β)) (key : α → ι)
    (l : List α) (q : κ) (s0 : α) (b : β) (hnd : (l.map key).Nodup) (hs0 : s0 ∈ l)
    (h0 : g s0 = some (q, b)) (h : ∀ s ∈ l, ∀ x, g s = some x → x.1 = q → key s = key s0) :
    recordedUnder (l.filterMap g) q = [b] := by
  induction l with
  | nil => cases hs0
  | cons a l ih =>
    rw [List.map_cons, List.nodup_cons] at hnd
    rw [List.filterMap_cons]
    cases hs0 with
    | head =>
      rw [h0]
      have := recordedUnder_none g l q (by
        intro s hs x hx e
        have := h s (List.mem_cons_of_mem _ hs) x hx e
        exact hnd.1 (this ▸ List.mem_map.2 ⟨s, hs, rfl⟩))
      unfold recordedUnder at this ⊢
      simp only
      rw [List.filter_cons, if_pos (by simp), List.map_cons, this]
    | tail _ hm =>
      have hrec := ih hnd.2 hm (fun s hs => h s (List.mem_cons_of_mem _ hs))
      cases ha : g a with
      | none => exact hrec
      | some x =>
        have hne : x.1 ≠ q := by
          intro e
          have := h a List.mem_cons_self x ha e
          exact hnd.1 (this ▸ List.mem_map.2 ⟨s0, hm, rfl⟩)
        unfold recordedUnder at hrec ⊢
        simp only
        rw [List.filter_cons, if_neg (by simpa using hne)]
        exact hrec

theorem get_of_mem {m : RegItemMap} (hpd : (m.map Prod.fst).Nodup) {k : ItemKey} {p : Item}
    (h : (k, p) ∈ m) : m.get k = some p := by
  induction m with
  | nil => cases h
  | cons x m ih =>
    rw [List.map_cons, List.nodup_cons] at hpd
    unfold RegItemMap.get
    rw [List.find?_cons]
    cases h with
    | head => simp
    | tail _ h =>
      have hne : x.1 ≠ k := fun e => hpd.1 (e ▸ List.mem_map.2 ⟨(k, p), h, rfl⟩)
      rw [decide_eq_false hne]
      exact ih hpd.2 h

theorem mem_of_get {m : RegItemMap} {k : ItemKey} {p : Item} (h : m.get k = some p) :
    (k, p) ∈ m := by
  unfold RegItemMap.get at h
  rw [Option.map_eq_some_iff] at h
  obtain ⟨x, hx, rfl⟩ := h
  have h1 := List.mem_of_find?_eq_some hx
  have h2 := List.find?_some hx
  rw [decide_eq_true_iff] at h2
  rw [← h2]
  exact h1

theorem replaced_some {m : RegItemMap} (hpd : (m.map Prod.fst).Nodup) {s : Seen}
    (hs : s.hash ≠ none) {p : Item} :
    replaced m s = some p ↔ (s.key, p) ∈ m ∧ s.hash ≠ some p.hash := by
  unfold replaced
  cases hh : s.hash with
  | none => exact absurd hh hs
  | some h =>
    cases hg : m.get s.key with
    | none =>
      simp only [reduceCtorEq, false_iff, not_and]
      intro hm
      rw [get_of_mem hpd hm] at hg
      cases hg
    | some p' =>
      simp only
      constructor
      · intro e
        split at e
        · cases e
        · cases e
          refine ⟨mem_of_get hg, ?_⟩
          rename_i hne
          simpa using hne
      · rintro ⟨hm, hne⟩
        rw [get_of_mem hpd hm] at hg
        cases hg
        rw [if_neg (by simpa using hne)]

/-! ### The theorems -/

/-- The hypotheses shared by the parts of C37. -/
structure Comparable (env : Env) (order : RegItemMap → RegItemMap) (seen : List Seen)
    (prior : RegItemMap) : Prop where
  /-- Everything that is there has a hash. -/
  hashed : ∀ s ∈ seen, s.hash ≠ none
  /-- Paths and names are unique in the updated file. -/
  distinct : (seen.map Seen.key).Nodup
  /-- The map of earlier items has one entry per key. -/
  priorDistinct : (prior.map Prod.fst).Nodup
  /-- The earlier items describe the file before the entry. -/
  was : ItemsAre env prior
  /-- A map is iterated in some order. -/
  order : ∀ m, (order m).Perm m

/-- C37, the items kept for the next comparison: exactly what is there, with the sequence number of
the entry that gave it its content. -/
theorem analysis_latest (env : Env) (order : RegItemMap → RegItemMap) (newSeq : Nat)
    (seen : List Seen) (prior : RegItemMap) (st : State) (hc : Comparable env order seen prior) :
    ∃ st' latest lg, analyzeSeen env order newSeq seen prior st = .ok (st', latest, lg) ∧
      st'.rootOffset = st.rootOffset ∧ st'.info = st.info ∧
      Pairwise2 (fun s x => x.1 = s.key ∧ some x.2.hash = s.hash ∧ x.2.off = s.off ∧
          ((∃ p, (s.key, p) ∈ prior ∧ s.hash = some p.hash ∧ x.2.seq = p.seq) ∨
           ((∀ p, (s.key, p) ∈ prior → s.hash ≠ some p.hash) ∧ x.2.seq = newSeq)))
        seen latest := by
  obtain ⟨lg, e⟩ := analyzeSeen_ok env order newSeq seen prior st hc.hashed hc.distinct
  refine ⟨_, _, lg, e, ?_, ?_, ?_⟩
  · rw [takeOff_rest]
  · rw [takeOff_rest]
  · have : ∀ l : List Seen, (∀ s ∈ l, s.hash ≠ none) →
        Pairwise2 (fun s x => x.1 = s.key ∧ some x.2.hash = s.hash ∧ x.2.off = s.off ∧
          ((∃ p, (s.key, p) ∈ prior ∧ s.hash = some p.hash ∧ x.2.seq = p.seq) ∨
           ((∀ p, (s.key, p) ∈ prior → s.hash ≠ some p.hash) ∧ x.2.seq = newSeq)))
          l (l.map (latestEntry newSeq prior)) := by
      intro l hl
      induction l with
      | nil => trivial
      | cons s l ih =>
        refine ⟨⟨rfl, ?_, rfl, ?_⟩, ih fun t ht => hl t (List.mem_cons_of_mem _ ht)⟩
        · have := hl s List.mem_cons_self
          cases hh : s.hash with
          | none => exact absurd hh this
          | some h => simp [latestEntry, hh]
        · have hs := hl s List.mem_cons_self
          cases hh : s.hash with
          | none => exact absurd hh hs
          | some h =>
            simp only [latestEntry, contentSeq, hh]
            cases hg : prior.get s.key with
            | none =>
              right
              refine ⟨fun p hp => ?_, rfl⟩
              rw [get_of_mem hc.priorDistinct hp] at hg
              cases hg
            | some p =>
              simp only
              by_cases hep : h = p.hash
              · left
                exact ⟨p, mem_of_get hg, by rw [hep], by rw [if_pos hep]⟩
              · right
                refine ⟨fun p' hp' => ?_, by rw [if_neg hep]⟩
                rw [get_of_mem hc.priorDistinct hp'] at hg
                cases hg
                simpa using hep
    exact this seen hc.hashed

/-- C37, modified keys: the earlier version of a key is recorded, once, iff the key is still there
with a different content. -/
theorem analysis_modified_keys (env : Env) (order : RegItemMap → RegItemMap) (newSeq : Nat)
    (seen : List Seen) (prior : RegItemMap) (st : State) (hc : Comparable env order seen prior) :
    ∃ st' latest lg, analyzeSeen env order newSeq seen prior st = .ok (st', latest, lg) ∧
      (∀ path p, Changed prior seen (path, none) p →
        ∃ n, IsKeyVersion env newSeq .ModifiedTransactionLog path p n ∧
          (st'.modifiedKeys path).getD [] = (st.modifiedKeys path).getD [] ++ [n]) ∧
      (∀ path, (∀ p, ¬ Changed prior seen (path, none) p) →
        (st'.modifiedKeys path).getD [] = (st.modifiedKeys path).getD []) := by
  obtain ⟨lg, e⟩ := analyzeSeen_ok env order newSeq seen prior st hc.hashed hc.distinct
  refine ⟨_, _, lg, e, ?_, ?_⟩
  · intro path p ⟨hp, s, hs, hk, hne⟩
    rw [takeOff_rest]
    simp only [addAll_getD]
    have hrep : replaced prior s = some p :=
      (replaced_some hc.priorDistinct (hc.hashed s hs)).2 ⟨hk ▸ hp, hne⟩
    have hwas : KeyWas env path p := hc.was _ hp
    obtain ⟨n, hn, hv⟩ := keyVersion_was env newSeq .updated path p hwas
    refine ⟨n, hv, ?_⟩
    congr 1
    rw [List.filterMap_filterMap, List.filterMap_filter]
    refine recordedUnder_one _ Seen.key seen path s n hc.distinct hs ?_ ?_
    · rw [if_pos (by rw [hk]; rfl), neededFor, hrep]
      simp only [Option.map_some, Option.bind_some, hk]
      rw [hn]
      rfl
    · intro t ht x hx hxp
      by_cases htk : t.key.2 = none
      · rw [if_pos (by simpa using htk), neededFor] at hx
        cases hr : replaced prior t with
        | none => rw [hr] at hx; cases hx
        | some p' =>
          rw [hr] at hx
          simp only [Option.map_some, Option.bind_some, Option.map_eq_some_iff] at hx
          obtain ⟨k, _, rfl⟩ := hx
          rw [hk]
          exact Prod.ext hxp htk
      · rw [if_neg (by simpa using htk)] at hx; cases hx
  · intro path hno
    rw [takeOff_rest]
    simp only [addAll_getD]
    rw [List.filterMap_filterMap, List.filterMap_filter, recordedUnder_none, List.append_nil]
    intro t ht x hx hxp
    by_cases htk : t.key.2 = none
    · rw [if_pos (by simpa using htk), neededFor] at hx
      cases hr : replaced prior t with
      | none => rw [hr] at hx; cases hx
      | some p' =>
        rw [hr] at hx
        simp only [Option.map_some, Option.bind_some, Option.map_eq_some_iff] at hx
        obtain ⟨k, _, rfl⟩ := hx
        have hkt : t.key = (path, none) := Prod.ext hxp htk
        obtain ⟨h1, h2⟩ := (replaced_some hc.priorDistinct (hc.hashed t ht)).1 hr
        exact hno p' ⟨hkt ▸ h1, t, ht, hkt, h2⟩
    · rw [if_neg (by simpa using htk)] at hx; cases hx

/-- C37, modified values: the earlier version of a value is recorded, once, iff the value is still
there with a different content. -/
theorem analysis_modified_values (env : Env) (order : RegItemMap → RegItemMap) (newSeq : Nat)
    (seen : List Seen) (prior : RegItemMap) (st : State) (hc : Comparable env order seen prior) :
    ∃ st' latest lg, analyzeSeen env order newSeq seen prior st = .ok (st', latest, lg) ∧
      (∀ path name p, Changed prior seen (path, some name) p →
        ∃ v, IsValueVersion env newSeq .ModifiedTransactionLog name p v ∧
          (st'.modifiedValues (path, name)).getD []
            = (st.modifiedValues (path, name)).getD [] ++ [v]) ∧
      (∀ path name, (∀ p, ¬ Changed prior seen (path, some name) p) →
        (st'.modifiedValues (path, name)).getD [] = (st.modifiedValues (path, name)).getD []) := by
  obtain ⟨lg, e⟩ := analyzeSeen_ok env order newSeq seen prior st hc.hashed hc.distinct
  have hname : ∀ t ∈ seen, ∀ x : (Str × Str) × Value,
      (if decide (t.key.2 ≠ none) = true then (neededFor prior t).bind fun n =>
        (valueVersion env newSeq .updated n.off n.seq).map fun v => ((n.path, v.val.name), v)
       else none) = some x →
      t.key = (x.1.1, some x.1.2) ∧ ∃ p, replaced prior t = some p := by
    intro t ht x hx
    by_cases htk : t.key.2 = none
    · rw [if_neg (by simpa using htk)] at hx; cases hx
    · rw [if_pos (by simpa using htk), neededFor] at hx
      cases hr : replaced prior t with
      | none => rw [hr] at hx; cases hx
      | some p' =>
        rw [hr] at hx
        simp only [Option.map_some, Option.bind_some, Option.map_eq_some_iff] at hx
        obtain ⟨v, hv, rfl⟩ := hx
        obtain ⟨h1, h2⟩ := (replaced_some hc.priorDistinct (hc.hashed t ht)).1 hr
        obtain ⟨⟨tp, tn⟩, thash, toff, tl⟩ := t
        cases tn with
        | none => exact absurd rfl htk
        | some nm =>
          have hwas : ValueWas env nm p' := hc.was _ h1
          obtain ⟨v', hv', kv, r, _, hn, _, rfl⟩ := valueVersion_was env newSeq .updated nm p' hwas
          rw [hv'] at hv
          cases hv
          refine ⟨?_, p', rfl⟩
          show (tp, some nm) = (tp, some (kv.readValueBytes env.hashFn env.fi).name)
          rw [← hn]
          rfl
  refine ⟨_, _, lg, e, ?_, ?_⟩
  · intro path name p ⟨hp, s, hs, hk, hne⟩
    rw [takeOff_rest]
    simp only [addAll_getD]
    have hrep : replaced prior s = some p :=
      (replaced_some hc.priorDistinct (hc.hashed s hs)).2 ⟨hk ▸ hp, hne⟩
    have hwas : ValueWas env name p := hc.was _ hp
    obtain ⟨v, hv, hver⟩ := valueVersion_was env newSeq .updated name p hwas
    refine ⟨v, hver, ?_⟩
    congr 1
    rw [List.filterMap_filterMap, List.filterMap_filter]
    refine recordedUnder_one _ Seen.key seen (path, name) s v hc.distinct hs ?_ ?_
    · rw [if_pos (by rw [hk]; rfl), neededFor, hrep]
      simp only [Option.map_some, Option.bind_some, hk]
      rw [hv]
      obtain ⟨kv, r, _, hn, _, rfl⟩ := hver
      show some ((path, kv.name), _) = _
      rw [hn]
    · intro t ht x hx hxp
      rw [hk, (hname t ht x hx).1, hxp]
  · intro path name hno
    rw [takeOff_rest]
    simp only [addAll_getD]
    rw [List.filterMap_filterMap, List.filterMap_filter, recordedUnder_none, List.append_nil]
    intro t ht x hx hxp
    obtain ⟨h1, p, hr⟩ := hname t ht x hx
    obtain ⟨h2, h3⟩ := (replaced_some hc.priorDistinct (hc.hashed t ht)).1 hr
    rw [hxp] at h1
    exact hno p ⟨h1 ▸ h2, t, ht, h1, h3⟩

/-! ### Deleted items -/

theorem recordedUnder_pairs {α κ β : Type} [DecidableEq κ] (g : α → Option (κ × β)) (l : List α)
    (q : κ) (P : α → Bool) (R : α → β → Prop)
    (hp : ∀ a ∈ l, P a = true → ∃ b, g a = some (q, b) ∧ R a b)
    (hn : ∀ a ∈ l, P a = false → ∀ x, g a = some x → x.1 ≠ q) :
    Pairwise2 R (l.filter P) (recordedUnder (l.filterMap g) q) := by
  induction l with
  | nil => trivial
  | cons a l ih =>
    have hrec := ih (fun b hb => hp b (List.mem_cons_of_mem _ hb))
      (fun b hb => hn b (List.mem_cons_of_mem _ hb))
    rw [List.filter_cons, List.filterMap_cons]
    cases hP : P a with
    | true =>
      obtain ⟨b, hg, hr⟩ := hp a List.mem_cons_self hP
      rw [hg]
      unfold recordedUnder at hrec ⊢
      simp only [if_true]
      rw [List.filter_cons, if_pos (by simp), List.map_cons]
      exact ⟨hr, hrec⟩
    | false =>
      simp only [Bool.false_eq_true, if_false]
      cases hg : g a with
      | none => exact hrec
      | some x =>
        have := hn a List.mem_cons_self hP x hg
        unfold recordedUnder at hrec ⊢
        simp only
        rw [List.filter_cons, if_neg (by simpa using this)]
        exact hrec

theorem dropEach_retracts {α : Type} (ps : List (α → Bool)) (cur : α → Prop) (same : α → α → Prop)
    (l : List α) (hdis : ps.Pairwise fun a b => ∀ x, ¬ (a x = true ∧ b x = true))
    (h1 : ∀ p ∈ ps, ∀ x, p x = true → cur x)
    (h2 : ∀ x, cur x → ∃ p ∈ ps, ∀ y, p y = true ↔ same x y) :
    Retracts cur same l (dropEach ps l) where
  sub := dropEach_sublist ps l
  rest := by
    intro p hp
    refine dropEach_filter_other ps p l fun r hr x hx => ?_
    cases hpx : p x with
    | false => rfl
    | true => exact absurd (h1 r hr x hx) (hp x hpx)
  one := by
    intro x hx p hp
    obtain ⟨r, hr, hrs⟩ := h2 x hx
    have : p = r := by
      funext y
      rw [Bool.eq_iff_iff, hp, hrs]
    rw [this]
    exact dropEach_filter_self ps r l hdis hr

theorem order_mem {env order seen prior} (hc : Comparable env order seen prior)
    (x : ItemKey × Item) :
    x ∈ order (prior.filter fun x : ItemKey × Item => decide (x.1 ∉ seen.map Seen.key)) ↔
      Gone prior seen x := by
  rw [(hc.order _).mem_iff, List.mem_filter, decide_eq_true_iff]
  unfold Gone
  constructor
  · rintro ⟨h1, h2⟩
    exact ⟨h1, fun s hs e => h2 (e ▸ List.mem_map.2 ⟨s, hs, rfl⟩)⟩
  · rintro ⟨h1, h2⟩
    refine ⟨h1, fun h => ?_⟩
    obtain ⟨s, hs, e⟩ := List.mem_map.1 h
    exact h2 s hs e

theorem order_nodup {env order seen prior} (hc : Comparable env order seen prior) :
    (order (prior.filter fun x : ItemKey × Item => decide (x.1 ∉ seen.map Seen.key))).Nodup := by
  rw [(hc.order _).nodup_iff]
  have : prior.Nodup := by
    have h := hc.priorDistinct
    unfold List.Nodup at h ⊢
    rw [List.pairwise_map] at h
    exact h.imp fun {a b} hne (e : a = b) => hne (by rw [e])
  exact this.filter _

theorem latest_mem {env order seen prior} (newSeq : Nat) (hc : Comparable env order seen prior)
    (x : ItemKey × Item) (hx : x ∈ order (seen.map (latestEntry newSeq prior))) :
    ∃ s ∈ seen, s.key = x.1 ∧ s.hash = some x.2.hash := by
  rw [(hc.order _).mem_iff, List.mem_map] at hx
  obtain ⟨s, hs, rfl⟩ := hx
  refine ⟨s, hs, rfl, ?_⟩
  have := hc.hashed s hs
  cases hh : s.hash with
  | none => exact absurd hh this
  | some h => simp [latestEntry, hh]

theorem latest_of_seen {env order seen prior} (newSeq : Nat) (hc : Comparable env order seen prior)
    (s : Seen) (hs : s ∈ seen) :
    ∃ x ∈ order (seen.map (latestEntry newSeq prior)), s.key = x.1 ∧ s.hash = some x.2.hash := by
  refine ⟨latestEntry newSeq prior s, ?_, rfl, ?_⟩
  · rw [(hc.order _).mem_iff]
    exact List.mem_map.2 ⟨s, hs, rfl⟩
  · have := hc.hashed s hs
    cases hh : s.hash with
    | none => exact absurd hh this
    | some h => simp [latestEntry, hh]

theorem latest_distinct {env order seen prior} (newSeq : Nat)
    (hc : Comparable env order seen prior) :
    (order (seen.map (latestEntry newSeq prior))).Pairwise fun a b => a.1 ≠ b.1 := by
  have hp : (seen.map (latestEntry newSeq prior)).Pairwise fun a b => a.1 ≠ b.1 := by
    rw [List.pairwise_map]
    have := hc.distinct
    unfold List.Nodup at this
    rwa [List.pairwise_map] at this
  exact ((hc.order _).pairwise_iff (fun h => Ne.symm h)).2 hp

/-- C37, deleted values: the records under a path after the entry are those from before, less one
for each value that is there (again) with the content of a record, followed by one record for every
value under that path that was there before and is not any more. -/
theorem analysis_deleted_values (env : Env) (order : RegItemMap → RegItemMap) (newSeq : Nat)
    (seen : List Seen) (prior : RegItemMap) (st : State) (hc : Comparable env order seen prior) :
    ∃ st' latest lg, analyzeSeen env order newSeq seen prior st = .ok (st', latest, lg) ∧
      ∀ path, ∃ kept gone new,
        (st'.deletedValues path).getD [] = kept ++ new ∧
        Retracts (CurrentValue seen path)
          (fun a b => b.val.name = a.val.name ∧ b.val.hash = a.val.hash)
          ((st.deletedValues path).getD []) kept ∧
        gone.Nodup ∧ (∀ x, x ∈ gone ↔ Gone prior seen x ∧ x.1.1 = path ∧ x.1.2 ≠ none) ∧
        Pairwise2 (fun x v => ∃ name, x.1.2 = some name ∧
          IsValueVersion env newSeq .DeletedTransactionLog name x.2 v) gone new := by
  obtain ⟨lg, e⟩ := analyzeSeen_ok env order newSeq seen prior st hc.hashed hc.distinct
  refine ⟨_, _, lg, e, fun path => ?_⟩
  rw [takeOff_values]
  simp only [addAll_getD]
  have hpair : Pairwise2 (fun x v => ∃ name, x.1.2 = some name ∧
      IsValueVersion env newSeq .DeletedTransactionLog name x.2 v)
      ((order (prior.filter fun x : ItemKey × Item => decide (x.1 ∉ seen.map Seen.key))).filter
        fun x => decide (x.1.1 = path ∧ x.1.2 ≠ none))
      (recordedUnder ((order (prior.filter fun x : ItemKey × Item =>
        decide (x.1 ∉ seen.map Seen.key))).filterMap (goneValue env newSeq)) path) := by
    refine recordedUnder_pairs _ _ _ _ _ ?_ ?_
    · intro x hx hP
      rw [decide_eq_true_iff] at hP
      obtain ⟨hpr, _⟩ := (order_mem hc x).1 hx
      obtain ⟨⟨xp, xn⟩, it⟩ := x
      cases xn with
      | none => exact absurd rfl hP.2
      | some nm =>
        have hwas : ValueWas env nm it := hc.was _ hpr
        obtain ⟨v, hv, hver⟩ := valueVersion_was env newSeq .deleted nm it hwas
        refine ⟨v, ?_, nm, rfl, hver⟩
        have hxp : xp = path := hP.1
        simp only [goneValue]
        rw [hv, hxp]
        rfl
    · intro x hx hP y hy hyp
      rw [decide_eq_false_iff_not] at hP
      obtain ⟨⟨xp, xn⟩, it⟩ := x
      cases xn with
      | none => cases hy
      | some nm =>
        simp only [goneValue, Option.map_eq_some_iff] at hy
        obtain ⟨v, _, rfl⟩ := hy
        exact hP ⟨hyp, by simp⟩
  refine ⟨dropEach ((order (seen.map (latestEntry newSeq prior))).filterMap (valuePred path))
      ((st.deletedValues path).getD []), _, _, ?_, ?_, (order_nodup hc).filter _, ?_, hpair⟩
  · refine dropEach_append _ _ _ fun p hp v hv => ?_
    obtain ⟨x, hx, hxp⟩ := List.mem_filterMap.1 hp
    obtain ⟨s, hs, hsk, hsh⟩ := latest_mem newSeq hc x hx
    obtain ⟨g, hg, nm, hgn, kv, r, _, hn, _, rfl⟩ := pairwise2_mem_right hpair _ hv
    rw [List.mem_filter, decide_eq_true_iff] at hg
    obtain ⟨_, hgone⟩ := (order_mem hc g).1 hg.1
    unfold valuePred at hxp
    cases hx2 : x.1.2 with
    | none => rw [hx2] at hxp; cases hxp
    | some nm' =>
      rw [hx2] at hxp
      simp only at hxp
      split at hxp
      · rename_i hpath
        cases hxp
        rw [decide_eq_false_iff_not]
        rintro ⟨h1, _⟩
        have h1' : kv.name = nm' := h1
        apply hgone s hs
        rw [hsk]
        apply Prod.ext
        · rw [hpath, hg.2.1]
        · rw [hx2, hgn, ← hn, h1']
      · cases hxp
  · refine dropEach_retracts _ _ _ _ ?_ ?_ ?_
    · rw [List.pairwise_filterMap]
      refine (latest_distinct newSeq hc).imp fun {a b} hne p hp p' hp' v hv => ?_
      obtain ⟨⟨ap, an⟩, ai⟩ := a
      obtain ⟨⟨bp, bn⟩, bi⟩ := b
      cases an with
      | none => cases hp
      | some an =>
        cases bn with
        | none => cases hp'
        | some bn =>
          simp only [valuePred] at hp hp'
          split at hp
          · split at hp'
            · rename_i h1 h2
              cases hp; cases hp'
              simp only [decide_eq_true_iff] at hv
              apply hne
              rw [h1, h2, ← hv.1.1, ← hv.2.1]
            · cases hp'
          · cases hp
    · intro p hp v hv
      obtain ⟨x, hx, hxp⟩ := List.mem_filterMap.1 hp
      obtain ⟨s, hs, hsk, hsh⟩ := latest_mem newSeq hc x hx
      obtain ⟨⟨ap, an⟩, ai⟩ := x
      cases an with
      | none => cases hxp
      | some an =>
        simp only [valuePred] at hxp
        split at hxp
        · rename_i h1
          cases hxp
          rw [decide_eq_true_iff] at hv
          refine ⟨s, hs, ?_, ?_⟩
          · rw [hsk, h1, hv.1]
          · rw [hsh, hv.2]
        · cases hxp
    · rintro v ⟨s, hs, hsk, hsh⟩
      obtain ⟨x, hx, hxk, hxh⟩ := latest_of_seen newSeq hc s hs
      refine ⟨fun w => decide (w.val.name = v.val.name ∧ w.val.hash = some x.2.hash),
        List.mem_filterMap.2 ⟨x, hx, ?_⟩, fun w => ?_⟩
      · unfold valuePred
        rw [← hxk, hsk]
        simp
      · rw [decide_eq_true_iff, ← hxh, hsh]
  · intro x
    rw [List.mem_filter, order_mem hc, decide_eq_true_iff]

/-- No key that is there with the content of a record has anything recorded below it. -/
def NothingRecordedBelow (seen : List Seen) (prior : RegItemMap) (st : State) : Prop :=
  ∀ s ∈ seen, s.key.2 = none →
    s.key.1 = [] ∨
    ((st.deletedKeys s.key.1).getD [] = [] ∧
      ∀ x, Gone prior seen x → x.1.2 = none → upTo x.1.1 ≠ s.key.1) ∨
    ∀ n ∈ (st.deletedKeys (upTo s.key.1)).getD [], ¬ (n.key.path = s.key.1 ∧ n.key.hash = s.hash)

/-- C37, deleted keys: as `analysis_deleted_values`, with the keys filed under the path of the
parent.  Missing: keys that are there again while deleted keys are recorded below them
(`analysis_lost_violated`). -/
theorem analysis_deleted_keys_partial (env : Env) (order : RegItemMap → RegItemMap) (newSeq : Nat)
    (seen : List Seen) (prior : RegItemMap) (st : State) (hc : Comparable env order seen prior)
    (hbelow : NothingRecordedBelow seen prior st) :
    ∃ st' latest lg, analyzeSeen env order newSeq seen prior st = .ok (st', latest, lg) ∧
      ∀ parent, ∃ kept gone new,
        (st'.deletedKeys parent).getD [] = kept ++ new ∧
        Retracts (fun n => CurrentKey seen n ∧ upTo n.key.path = parent)
          (fun a b => b.key.path = a.key.path ∧ b.key.hash = a.key.hash)
          ((st.deletedKeys parent).getD []) kept ∧
        gone.Nodup ∧ (∀ x, x ∈ gone ↔ Gone prior seen x ∧ upTo x.1.1 = parent ∧ x.1.2 = none) ∧
        Pairwise2 (fun x n => IsKeyVersion env newSeq .DeletedTransactionLog x.1.1 x.2 n) gone new := by
  obtain ⟨lg, e⟩ := analyzeSeen_ok env order newSeq seen prior st hc.hashed hc.distinct
  refine ⟨_, _, lg, e, ?_⟩
  have hpair : ∀ parent, Pairwise2
      (fun x n => IsKeyVersion env newSeq .DeletedTransactionLog x.1.1 x.2 n)
      ((order (prior.filter fun x : ItemKey × Item => decide (x.1 ∉ seen.map Seen.key))).filter
        fun x => decide (upTo x.1.1 = parent ∧ x.1.2 = none))
      (recordedUnder ((order (prior.filter fun x : ItemKey × Item =>
        decide (x.1 ∉ seen.map Seen.key))).filterMap (goneKey env newSeq)) parent) := by
    intro parent
    refine recordedUnder_pairs _ _ _ _ _ ?_ ?_
    · intro x hx hP
      rw [decide_eq_true_iff] at hP
      obtain ⟨hpr, _⟩ := (order_mem hc x).1 hx
      obtain ⟨⟨xp, xn⟩, it⟩ := x
      cases xn with
      | some nm => exact absurd hP.2 (by simp)
      | none =>
        have hwas : KeyWas env xp it := hc.was _ hpr
        obtain ⟨n, hn, hver⟩ := keyVersion_was env newSeq .deleted xp it hwas
        refine ⟨n, ?_, hver⟩
        have hxp : upTo xp = parent := hP.1
        simp only [goneKey]
        rw [hn, parentPath_eq, hxp]
        rfl
    · intro x hx hP y hy hyp
      rw [decide_eq_false_iff_not] at hP
      obtain ⟨⟨xp, xn⟩, it⟩ := x
      cases xn with
      | some nm => cases hy
      | none =>
        simp only [goneKey, Option.map_eq_some_iff] at hy
        obtain ⟨v, _, rfl⟩ := hy
        rw [parentPath_eq] at hyp
        exact hP ⟨hyp, rfl⟩
  intro parent
  rw [takeOff_keys]
  rotate_left
  · intro x hx hxn
    simp only [addAll_getD]
    obtain ⟨s, hs, hsk, hsh⟩ := latest_mem newSeq hc x hx
    rcases hbelow s hs (by rw [hsk]; exact hxn) with h | ⟨h1, h2⟩ | h
    · left; rw [← hsk, h]; rfl
    · right; left
      rw [← hsk, h1, List.nil_append]
      have := hpair s.key.1
      have hnil : ((order (prior.filter fun x : ItemKey × Item =>
          decide (x.1 ∉ seen.map Seen.key))).filter
          fun x => decide (upTo x.1.1 = s.key.1 ∧ x.1.2 = none)) = [] := by
        rw [List.filter_eq_nil_iff]
        intro y hy hyd
        rw [decide_eq_true_iff] at hyd
        exact h2 y ((order_mem hc y).1 hy) hyd.2 hyd.1
      rw [hnil] at this
      cases hrec : recordedUnder ((order (prior.filter fun x : ItemKey × Item =>
        decide (x.1 ∉ seen.map Seen.key))).filterMap (goneKey env newSeq)) s.key.1 with
      | nil => rfl
      | cons a l => rw [hrec] at this; exact absurd this (by simp [Pairwise2])
    · right; right
      intro k hk
      rcases List.mem_append.1 hk with hk | hk
      · rw [← hsk, ← hsh]
        rw [← hsk] at hk
        exact h k hk
      · obtain ⟨g, hg, kn, r, _, hp, _, he⟩ := pairwise2_mem_right (hpair _) _ hk
        rw [List.mem_filter, decide_eq_true_iff] at hg
        obtain ⟨_, hgone⟩ := (order_mem hc g).1 hg.1
        rintro ⟨h1, _⟩
        have h1' : kn.path = x.1.1 := by rw [he] at h1; exact h1
        apply hgone s hs
        rw [hsk]
        apply Prod.ext
        · rw [← h1', hp]
        · rw [hxn, hg.2.2]
  simp only [addAll_getD]
  refine ⟨dropEach ((order (seen.map (latestEntry newSeq prior))).filterMap (keyPred parent))
      ((st.deletedKeys parent).getD []), _, _, ?_, ?_, (order_nodup hc).filter _, ?_, hpair parent⟩
  · refine dropEach_append _ _ _ fun p hp v hv => ?_
    obtain ⟨x, hx, hxp⟩ := List.mem_filterMap.1 hp
    obtain ⟨s, hs, hsk, hsh⟩ := latest_mem newSeq hc x hx
    obtain ⟨g, hg, kn, r, _, hn, _, he⟩ := pairwise2_mem_right (hpair parent) _ hv
    rw [List.mem_filter, decide_eq_true_iff] at hg
    obtain ⟨_, hgone⟩ := (order_mem hc g).1 hg.1
    unfold keyPred at hxp
    cases hx2 : x.1.2 with
    | some nm => rw [hx2] at hxp; cases hxp
    | none =>
      rw [hx2] at hxp
      simp only at hxp
      split at hxp
      · cases hxp
        rw [decide_eq_false_iff_not]
        rintro ⟨h1, _⟩
        have h1' : kn.path = x.1.1 := by rw [he] at h1; exact h1
        apply hgone s hs
        rw [hsk]
        apply Prod.ext
        · rw [← h1', hn]
        · rw [hx2, hg.2.2]
      · cases hxp
  · refine dropEach_retracts _ _ _ _ ?_ ?_ ?_
    · rw [List.pairwise_filterMap]
      refine (latest_distinct newSeq hc).imp fun {a b} hne p hp p' hp' v hv => ?_
      obtain ⟨⟨ap, an⟩, ai⟩ := a
      obtain ⟨⟨bp, bn⟩, bi⟩ := b
      cases an with
      | some an => cases hp
      | none =>
        cases bn with
        | some bn => cases hp'
        | none =>
          simp only [keyPred] at hp hp'
          split at hp
          · split at hp'
            · cases hp; cases hp'
              simp only [decide_eq_true_iff] at hv
              apply hne
              rw [← hv.1.1, ← hv.2.1]
            · cases hp'
          · cases hp
    · intro p hp v hv
      obtain ⟨x, hx, hxp⟩ := List.mem_filterMap.1 hp
      obtain ⟨s, hs, hsk, hsh⟩ := latest_mem newSeq hc x hx
      obtain ⟨⟨ap, an⟩, ai⟩ := x
      cases an with
      | some an => cases hxp
      | none =>
        simp only [keyPred] at hxp
        split at hxp
        · rename_i h1
          cases hxp
          rw [decide_eq_true_iff] at hv
          refine ⟨⟨s, hs, ?_, ?_⟩, ?_⟩
          · rw [hsk, hv.1]
          · rw [hsh, hv.2]
          · rw [hv.1, h1]
        · cases hxp
    · rintro v ⟨⟨s, hs, hsk, hsh⟩, hup⟩
      obtain ⟨x, hx, hxk, hxh⟩ := latest_of_seen newSeq hc s hs
      refine ⟨fun w => decide (w.key.path = v.key.path ∧ w.key.hash = some x.2.hash),
        List.mem_filterMap.2 ⟨x, hx, ?_⟩, fun w => ?_⟩
      · unfold keyPred
        rw [← hxk, hsk]
        simp [hup]
      · rw [decide_eq_true_iff, ← hxh, hsh]
  · intro x
    rw [List.mem_filter, order_mem hc, decide_eq_true_iff]

end Notatin
