import Verif.Spec.History
import Verif.Props.AnalyzerFile
import Verif.Props.Attach
import Verif.Props.Dump
import Verif.Lemmas.SameRead
import Verif.Lemmas.Lasting
import Verif.Props.Replay
/-
Lemmas for C75: what the states of a file look like to the comparison, and what is recorded.
-/
namespace Notatin
open Spec

/-- Nothing is recorded where the root looks. -/
structure NothingAtTop (st : State) : Prop where
  keys : (st.deletedKeys []).getD [] = []
  versions : (st.modifiedKeys []).getD [] = []
  values : (st.deletedValues []).getD [] = []
  valueVersions : ∀ name, (st.modifiedValues ([], name)).getD [] = []

theorem attachVersions_nothing {st : State} (h : NothingAtTop st) (v : Value) (hv : v.versions = []) :
    attachVersions st [] v = v := by
  unfold attachVersions
  have := h.valueVersions v.val.name
  cases hm : st.modifiedValues ([], v.val.name) with
  | none => rfl
  | some vs =>
    rw [hm] at this
    have : vs = [] := this
    subst this
    cases v with
    | mk a b =>
      have : b = [] := hv
      subst this
      simp only [List.mergeSort_nil]
      rfl

/-- Attaching to the root when nothing is recorded there changes nothing. -/
theorem attach_nothing {st : State} (h : NothingAtTop st) (fuel : Nat) (k : KeyNode) (m : Node)
    (hr : k.flagBits.testBit 2 = true) (hv : ∀ v ∈ k.values, v.versions = [])
    (he : updateModifiedLists st fuel (.mk k [] []) = .ok m) : m = .mk k [] [] := by
  cases fuel with
  | zero => simp [updateModifiedLists] at he
  | succ fuel =>
    rw [updateModifiedLists] at he
    simp only at he
    have hk : (Node.mk k [] []).key = k := rfl
    rw [hk, isKeyRoot_iff, if_pos hr] at he
    by_cases hc : k.cellState.isDeletedPrimaryFile = true
    · rw [if_pos hc] at he; cases he; rfl
    · rw [if_neg hc] at he
      have hmap : k.values.map (attachVersions st []) = k.values := by
        rw [List.map_congr_left (g := id) (fun v hvm => attachVersions_nothing h v (hv v hvm)), List.map_id]
      rw [hmap] at he
      have h1 : updateModifiedLists.attachDeleted (updateModifiedLists st fuel) k.fileOffset
          (Node.mk k [] []).deletedKeys (st.deletedKeys []) = .ok [] := by
        have := h.keys
        cases hd : st.deletedKeys [] with
        | none => rfl
        | some ds =>
          rw [hd] at this
          have : ds = [] := this
          subst this
          rfl
      rw [h1] at he
      simp only at he
      have hres : m = .mk k [] [] := by
        cases hd : st.modifiedKeys [] with
        | none =>
          rw [hd] at he
          cases hv' : st.deletedValues [] with
          | none => rw [hv'] at he; cases he; rfl
          | some dv =>
            have := h.values
            rw [hv'] at this
            have : dv = [] := this
            subst this
            rw [hv'] at he
            simp only [List.mergeSort_nil, List.append_nil] at he
            cases he; rfl
        | some vs =>
          have := h.versions
          rw [hd] at this
          have : vs = [] := this
          subst this
          rw [hd] at he
          simp only [List.mergeSort_nil] at he
          cases hv' : st.deletedValues [] with
          | none => rw [hv'] at he; cases he; rfl
          | some dv =>
            have := h.values
            rw [hv'] at this
            have : dv = [] := this
            subst this
            rw [hv'] at he
            simp only [List.mergeSort_nil, List.append_nil] at he
            cases he; rfl
      exact hres

/-- `ns` is what the comparison sees of a state. -/
def Sees (s : FileState) (ns : List Node) : Prop :=
  ns.map (fun n => (obs n, n.key.values.map obsVal)) = s.keys.map (fun e => (e, s.vals e.1)) ∧
    ∀ n ∈ ns, '\\' ∉ n.key.name

theorem mem_nodes_self (t : Tree) : t ∈ t.nodes := by cases t; exact List.mem_cons_self

theorem flatMap_single {α : Type} {f : α → List α} (l : List α) (h : ∀ x ∈ l, f x = [x]) : l.flatMap f = l := by
  induction l with
  | nil => rfl
  | cons a as ih =>
    rw [List.flatMap_cons, h a List.mem_cons_self, ih fun x hx => h x (List.mem_cons_of_mem _ hx)]; rfl

/-- The values of the node are read as those of one of the keys of the tree. -/
def WithValues (env : Env) (t : Tree) (n : Node) : Prop :=
  ∃ u ∈ t.nodes, n.key.fileOffset = u.off ∧ ∃ k : KeyNode, k.nValues = u.cell.nValues ∧
    k.valuesListOffset = u.cell.valuesList ∧ k.values = [] ∧ n.key.values = storedValues env k

theorem reads_withValues (env : Env) (st : State) (hst : st.Plain) (gm : Bool) (path : Str) (t u : Tree)
    (hu : u ∈ t.nodes) (s : Option FilterMatchState) (n : Node) (hr : Reads env st gm none path u s n)
    (hs : s ≠ some .None) : WithValues env t n := by
  obtain ⟨k, vs, lg, s0, m, h1, h2, h3, h4, h5⟩ := hr
  have hv := valuesStep_stored env _ _ k _ rfl h2.2.2.2.2.2.2.1 (.inl (.inl rfl)) (h5 hs)
  have hv : vs = storedValues env k := hv
  obtain ⟨_, _, _, _, _, _, _, _, _, a10, a11, _, _, _, _, _, _, _, _, _, _, _, _, a24, _⟩ := h1
  have hm : m.key.values = vs ∧ m.key.fileOffset = k.fileOffset := by
    by_cases hg : gm = true
    · rw [if_pos hg] at h3
      refine ⟨?_, by rw [updateModifiedLists_key _ _ _ _ h3]; rfl⟩
      rw [updateModifiedLists_plain_values st hst.2.1 hst.2.2.1 _ _ _ h3]; rfl
    · rw [if_neg hg] at h3
      rw [h3]; exact ⟨rfl, rfl⟩
  refine ⟨u, hu, ?_, k, a10, a11, h2.2.2.2.2.2.2.1, ?_⟩
  · rw [h4]; show m.key.fileOffset = _; rw [hm.2, a24]
  · rw [h4]; show m.key.values = _; rw [hm.1, hv]

/-- In a state of the records in which nothing is recorded for the root, the iteration without recovered items
yields what is stored. -/
theorem state_iterates (w : World) (st : State) (s : FileState) (ho : Ordinary w s) (htop : NothingAtTop st)
    (hdel : StateDel st) (hatt : AttachOk (w.env s.buf) st) :
    ∃ N ns, (∀ steps, N ≤ steps → Iterated (w.env s.buf) steps false st ns) ∧ Sees s ns ∧
      ∀ n ∈ ns, WithValues (w.env s.buf) s.tree n := by
  obtain ⟨hst, hval⟩ := ho.stored
  have hvals := every_nodes s.tree hval
  obtain ⟨root, hr, hreads⟩ := initRoot_reads (w.env s.buf) st s.tree hst.bin (treeAt_keyAt hst.tree) hst.top hatt
  have hreads' : Reads (w.env s.buf) st false none [] s.tree none root := by
    obtain ⟨k, vs, lg, s0, m, h1, h2, h3, h4, h5⟩ := hreads
    rw [if_pos rfl] at h3
    have hkm := h1
    obtain ⟨_, a2, _, _, _, _, _, _, _, a10, a11, _⟩ := h1
    obtain ⟨_, b2, _⟩ := readsValues_stored (w.env s.buf) none k s.tree.cell _ a10 a11 h2.2.2.2.2.2.2.1
      (hvals _ (mem_nodes_self _)) vs lg (h5 nofun)
    have := attach_nothing htop _ _ m (by show k.flagBits.testBit 2 = true; rw [a2]; exact ho.root)
      (fun v hv => (b2 v hv).2.2.1) h3
    exact ⟨k, vs, lg, s0, m, hkm, h2, by rw [if_neg (by simp)]; exact this, h4, h5⟩
  obtain ⟨N, ns, live, c1, c2, c3, c4, c5, c6, c7, c8⟩ := iteration_from (w.env s.buf) st s.tree false false false
    false root hreads' hst.tree hst.once hdel (fun h => by cases h) id id id
  refine ⟨N, ns, fun steps hs => ⟨some root, st.rootOffset, hr, ?_⟩, ?_⟩
  · exact collect_mono (fuelMono_pre _) _ _ _ _ c1 hs
  · have hone : ∀ m ∈ live, m.deletedKeys = [] ∧ m.key.values.map obsVal = s.vals m.key.fileOffset ∧
        '\\' ∉ m.key.name ∧ WithValues (w.env s.buf) s.tree m := by
      intro m hm
      obtain ⟨gm0, path, u, fs, hu, _, h0, _, hru, hfs⟩ := c7 m hm
      have hg0 : gm0 = false := by cases gm0 with
        | false => rfl
        | true => exact (h0 rfl).symm
      subst hg0
      have hru' : Reads (w.env s.buf) {} false none path u fs m := hru
      obtain ⟨⟨a1, a2, _⟩, _, a9, _⟩ := reads_told (w.env s.buf) {} ⟨fun _ => rfl, fun _ => rfl, fun _ => rfl,
        fun _ => rfl⟩ false path u fs m hru' (hfs rfl) (s.vals u.off) (hvals u hu)
      refine ⟨?_, by rw [a9, a1], by rw [a2]; exact every_nodes _ ho.names u hu,
        reads_withValues (w.env s.buf) {} ⟨fun _ => rfl, fun _ => rfl, fun _ => rfl, fun _ => rfl⟩ false path _ u hu fs
          m hru' (hfs rfl)⟩
      obtain ⟨k, vs, lg, s0, m', _, _, h3, h4, _⟩ := hru'
      rw [if_neg (by simp)] at h3
      rw [h4, h3]; rfl
    have hbel : live.flatMap belowTree = live := flatMap_single live fun m hm => by
      rw [belowTree_eq, (hone m hm).1]; rfl
    rw [hbel] at c8
    refine ⟨⟨?_, ?_⟩, ?_⟩
    · unfold FileState.keys
      rw [← c2, List.map_map]
      refine pairwise2_map (f := (fun e => (e, s.vals e.1)) ∘ obs) (R := fun m n => Yielded m n ∧ m ∈ live) ?_ live ns
        (pairwise2_imp (fun m hm n _ h => ⟨h, hm⟩) c8)
      rintro m n ⟨⟨_, so, tr, fs, hk⟩, hm⟩
      show (obs n, n.key.values.map obsVal) = (obs m, s.vals m.key.fileOffset)
      rw [← (hone m hm).2.1]
      unfold obs
      rw [hk]
    · intro n hn
      obtain ⟨m, hm, _, so, tr, fs, hk⟩ := pairwise2_mem_right c8 n hn
      rw [hk]
      exact (hone m hm).2.2.1
    · intro n hn
      obtain ⟨m, hm, _, so, tr, fs, hk⟩ := pairwise2_mem_right c8 n hn
      obtain ⟨u, hu, e1, k, e2⟩ := (hone m hm).2.2.2
      exact ⟨u, hu, by rw [hk]; exact e1, k, by rw [hk]; exact e2⟩

mutual
/-- Where the keys of a listing come from. -/
theorem pre_from (buf : Bytes) (hbin depth : Nat) : ∀ (t : Tree) (path : Str), TreeAt buf hbin depth t →
    ∀ e ∈ t.pre path, ∃ u ∈ t.nodes, u.off = e.1 ∧ KeyAt buf u.off u.cell u.name ∧
      ((u = t ∧ e.2 = path ++ '\\' :: t.name) ∨
        (u ∈ nodesAll t.kids ∧ ∃ e' ∈ t.pre path, e.2 = e'.2 ++ '\\' :: u.name))
  | .mk off c name kids, path, ht, e, he => by
    have hk := treeAt_keyAt ht
    rw [Tree.pre] at he
    rw [Tree.nodes]
    rcases List.mem_cons.1 he with rfl | he
    · exact ⟨_, List.mem_cons_self, rfl, hk, .inl ⟨rfl, rfl⟩⟩
    · rw [TreeAt] at ht
      obtain ⟨u, hu, h1, h2, h3⟩ := preAll_from buf hbin depth kids _ ht.2.2 e he
      refine ⟨u, List.mem_cons_of_mem _ hu, h1, h2, .inr ⟨hu, ?_⟩⟩
      rw [Tree.pre]
      rcases h3 with h3 | ⟨e', he', h3⟩
      · exact ⟨_, List.mem_cons_self, h3⟩
      · exact ⟨e', List.mem_cons_of_mem _ he', h3⟩
theorem preAll_from (buf : Bytes) (hbin depth : Nat) : ∀ (ts : List Tree) (path : Str), ForestAt buf hbin depth ts →
    ∀ e ∈ preAll path ts, ∃ u ∈ nodesAll ts, u.off = e.1 ∧ KeyAt buf u.off u.cell u.name ∧
      (e.2 = path ++ '\\' :: u.name ∨ ∃ e' ∈ preAll path ts, e.2 = e'.2 ++ '\\' :: u.name)
  | [], _, _, e, he => absurd he List.not_mem_nil
  | t :: ts, path, ht, e, he => by
    rw [preAll] at he
    rw [ForestAt] at ht
    rw [nodesAll, preAll]
    rcases List.mem_append.1 he with he | he
    · obtain ⟨u, hu, h1, h2, h3⟩ := pre_from buf hbin depth t path ht.2.1 e he
      refine ⟨u, List.mem_append_left _ hu, h1, h2, ?_⟩
      rcases h3 with ⟨rfl, h3⟩ | ⟨_, e', he', h3⟩
      · exact .inl h3
      · exact .inr ⟨e', List.mem_append_left _ he', h3⟩
    · obtain ⟨u, hu, h1, h2, h3⟩ := preAll_from buf hbin depth ts path ht.2.2 e he
      refine ⟨u, List.mem_append_right _ hu, h1, h2, ?_⟩
      rcases h3 with h3 | ⟨e', he', h3⟩
      · exact .inl h3
      · exact .inr ⟨e', List.mem_append_right _ he', h3⟩
end

theorem nodes_cons (t : Tree) : t.nodes = t :: nodesAll t.kids := by cases t; rw [Tree.nodes]; rfl

/-- Two keys below the root at the same offset are the same. -/
theorem off_inj {t : Tree} (h : t.offs.Nodup) {u v : Tree} (hu : u ∈ nodesAll t.kids) (hv : v ∈ nodesAll t.kids)
    (e : u.off = v.off) : u = v :=
  map_inj_of_nodup Tree.off t.nodes (by rw [nodes_offs]; exact h) u (by rw [nodes_cons]; exact List.mem_cons_of_mem _ hu)
    v (by rw [nodes_cons]; exact List.mem_cons_of_mem _ hv) e

theorem root_path (s : FileState) : '\\' :: s.tree.name ∈ s.paths := by
  unfold FileState.paths FileState.keys
  cases s.tree
  rw [Tree.pre]
  exact List.mem_cons_self

/-- A key that is lost is below another one. -/
theorem lost_below {w : World} {a b : FileState} (ha : Ordinary w a) (hn : b.tree.name = a.tree.name)
    {key : Nat × Str} (h : Lost a b key) :
    ∃ u ∈ nodesAll a.tree.kids, u.off = key.1 ∧ KeyAt a.buf u.off u.cell u.name ∧ '\\' ∉ u.name ∧
      u.cell.flags.testBit 2 = false ∧ ∃ e ∈ a.keys, key.2 = e.2 ++ '\\' :: u.name := by
  obtain ⟨hm, hno⟩ := h
  obtain ⟨u, hu, h1, h2, h3⟩ := pre_from a.buf 4096 w.depth a.tree [] ha.stored.tree key hm
  have hname := every_nodes _ ha.names u hu
  rcases h3 with ⟨rfl, h3⟩ | ⟨h3, h4⟩
  · exfalso
    apply hno
    rw [h3, ← hn]
    exact root_path b
  · exact ⟨u, h3, h1, h2, hname, everyAll_nodes _ ha.inner u h3, h4⟩

/-- The path of a key is not empty. -/
theorem path_ne {w : World} {s : FileState} (hs : Ordinary w s) {e : Nat × Str} (he : e ∈ s.keys) : e.2 ≠ [] := by
  obtain ⟨u, _, _, _, h⟩ := pre_from s.buf 4096 w.depth s.tree [] hs.stored.tree e he
  rcases h with ⟨_, h⟩ | ⟨_, e', _, h⟩ <;> rw [h] <;> simp

/-- Different keys have different paths. -/
theorem key_of_path {s : FileState} (h : s.paths.Nodup) {e e' : Nat × Str} (he : e ∈ s.keys) (he' : e' ∈ s.keys)
    (hp : e.2 = e'.2) : e = e' := by
  unfold FileState.paths at h
  generalize s.keys = l at *
  induction l with
  | nil => cases he
  | cons x l ih =>
    rw [List.map_cons, List.nodup_cons] at h
    rcases List.mem_cons.1 he with h1 | h1 <;> rcases List.mem_cons.1 he' with h2 | h2
    · rw [h1, h2]
    · exact absurd (List.mem_map.2 ⟨e', h2, by rw [← hp, h1]⟩) h.1
    · exact absurd (List.mem_map.2 ⟨e, h1, by rw [hp, h2]⟩) h.1
    · exact ih h.2 h1 h2

/-! ### What the comparison sees -/

/-- The items of a state: where a key or value is filed. -/
def Spec.FileState.filed (s : FileState) : List ItemKey :=
  s.keys.flatMap fun e => (e.2, none) :: (s.vals e.1).map fun x => (e.2, some x.name)

theorem sees_filed {s : FileState} {ns : List Node} (h : Sees s ns) :
    (ns.flatMap seenOf).map Seen.key = s.filed := by
  replace h := h.1
  unfold FileState.filed
  generalize s.keys = l at *
  induction ns generalizing l with
  | nil => cases l with
    | nil => rfl
    | cons => cases h
  | cons n ns ih => cases l with
    | nil => cases h
    | cons e l =>
      rw [List.map_cons, List.map_cons, List.cons.injEq, Prod.mk.injEq] at h
      rw [List.flatMap_cons, List.flatMap_cons, List.map_append, ih l h.2]
      congr 1
      rw [← h.1.1, show s.vals (obs n).1 = n.key.values.map obsVal by rw [h.1.2, ← h.1.1]]
      simp only [seenOf, List.map_cons, List.map_map]
      rfl

theorem filed_nodup {w : World} {s : FileState} (h : Ordinary w s) : s.filed.Nodup := by
  have hp := h.paths
  have hv : ∀ e ∈ s.keys, ((s.vals e.1).map Val.name).Nodup := by
    intro e he
    obtain ⟨u, hu, h1, _⟩ := pre_from s.buf 4096 w.depth s.tree [] h.stored.tree e he
    rw [← h1]
    exact every_nodes _ h.valueNames u hu
  unfold FileState.filed
  unfold FileState.paths at hp
  generalize s.keys = l at *
  induction l with
  | nil => exact List.nodup_nil
  | cons e l ih =>
    rw [List.map_cons, List.nodup_cons] at hp
    rw [List.flatMap_cons, List.nodup_append]
    refine ⟨?_, ih hp.2 fun x hx => hv x (List.mem_cons_of_mem _ hx), ?_⟩
    · rw [List.nodup_cons]
      refine ⟨by simp, ?_⟩
      have := hv e List.mem_cons_self
      rw [show ((s.vals e.1).map fun x => (e.2, some x.name)) =
        ((s.vals e.1).map Val.name).map fun n => (e.2, some n) by rw [List.map_map]; rfl]
      exact this.map _ fun a b hab h => hab (by cases h; rfl)
    · intro x hx y hy hxy
      subst hxy
      have h1 : x.1 = e.2 := by
        rcases List.mem_cons.1 hx with rfl | hx
        · rfl
        · obtain ⟨v, _, rfl⟩ := List.mem_map.1 hx; rfl
      obtain ⟨e', he', hy⟩ := List.mem_flatMap.1 hy
      have h2 : x.1 = e'.2 := by
        rcases List.mem_cons.1 hy with rfl | hy
        · rfl
        · obtain ⟨v, _, rfl⟩ := List.mem_map.1 hy; rfl
      exact hp.1 (List.mem_map.2 ⟨e', he', by rw [← h2, h1]⟩)

theorem sees_plain {w : World} {s : FileState} (h : Ordinary w s) {ns : List Node} (hs : Sees s ns) : PlainNames ns :=
  ⟨by rw [sees_filed hs]; exact filed_nodup h, hs.2⟩

theorem sees_obs {s : FileState} {ns : List Node} (hs : Sees s ns) : ns.map obs = s.keys := by
  have := congrArg (List.map Prod.fst) hs.1
  rw [List.map_map, List.map_map] at this
  rw [show ns.map obs = ns.map (Prod.fst ∘ fun n => (obs n, n.key.values.map obsVal)) from rfl, this]
  exact List.map_id _

/-- The keys among what is seen. -/
theorem seen_keys {s : FileState} {ns : List Node} (hs : Sees s ns) :
    (∀ x ∈ ns.flatMap seenOf, x.key.2 = none → (x.off, x.key.1) ∈ s.keys) ∧
    (∀ e ∈ s.keys, ∃ x ∈ ns.flatMap seenOf, x.key = (e.2, none) ∧ x.off = e.1) ∧
    ∀ x ∈ ns.flatMap seenOf, x.key.1 ∈ s.paths := by
  have ho := sees_obs hs
  refine ⟨?_, ?_, ?_⟩
  · intro x hx hk
    obtain ⟨n, hn, hx⟩ := List.mem_flatMap.1 hx
    rcases List.mem_cons.1 hx with rfl | hx
    · rw [← ho]; exact List.mem_map.2 ⟨n, hn, rfl⟩
    · obtain ⟨v, _, rfl⟩ := List.mem_map.1 hx; cases hk
  · intro e he
    rw [← ho] at he
    obtain ⟨n, hn, rfl⟩ := List.mem_map.1 he
    exact ⟨_, List.mem_flatMap.2 ⟨n, hn, List.mem_cons_self⟩, rfl, rfl⟩
  · intro x hx
    obtain ⟨n, hn, hx⟩ := List.mem_flatMap.1 hx
    unfold FileState.paths
    rw [← ho, List.map_map]
    refine List.mem_map.2 ⟨n, hn, ?_⟩
    rcases List.mem_cons.1 hx with rfl | hx
    · rfl
    · obtain ⟨v, _, rfl⟩ := List.mem_map.1 hx; rfl

/-! ### The records -/

theorem sameFrom_stored {w : World} {buf : Bytes} {t : Tree} {vals : Nat → List Val} (h : StoredHive w buf t vals)
    (more : Bytes) : SameFrom 4096 buf (buf ++ more) := by
  refine sameFrom_append _ _ _ ?_
  obtain ⟨_, _, _, _, _, _, _, _, _, _, _, _, p, s, e, hl⟩ := h.bin
  have e : buf = p ++ _ := e
  have hl : p.length = 4096 := hl
  rw [e, List.length_append]; omega

/-- Bytes behind the file do not matter. -/
theorem ordinary_more {w : World} {s : FileState} (h : Ordinary w s) (more : Bytes) :
    Ordinary w { s with buf := s.buf ++ more } := by
  obtain ⟨h1, h2, h3, h4, h5, h6, h7⟩ := h
  exact ⟨storedHive_same (sameFrom_stored h1 more) h1, h2, h3, h4, h5, h6, h7⟩

/-- The record of a key that an entry has taken away. -/
structure LostRecord (a b : FileState) (key : Nat × Str) (d : Node) : Prop where
  cell : ∃ u ∈ nodesAll a.tree.kids, u.off = key.1 ∧ d.key.name = u.name ∧ d.key.lastWritten = u.cell.lastWritten ∧
    d.key.flagBits = u.cell.flags ∧ d.key.accessBits = u.cell.access
  flag : d.key.flagBits.testBit 2 = false
  off : d.key.fileOffset = key.1
  path : d.key.path = key.2
  state : d.key.cellState = .DeletedTransactionLog
  until_ : d.key.updatedBySeq = some b.seq
  bare : d.versions = [] ∧ d.deletedKeys = []
  noValues : d.key.values = []

theorem lostRecord_of {w : World} {a b : FileState} (ha : Ordinary w a) (hn : b.tree.name = a.tree.name)
    (more : Bytes) {key : Nat × Str} (h : Lost a b key) (it : Item) (d : Node) (hoff : it.off = key.1)
    (hv : IsKeyVersion (w.env (a.buf ++ more)) b.seq .DeletedTransactionLog key.2 it d) : LostRecord a b key d := by
  obtain ⟨u, hu, h1, h2, h3, h4, _⟩ := lost_below (a := { a with buf := a.buf ++ more }) (b := b)
    (ordinary_more ha more) hn h
  obtain ⟨k, r, hk, hp, _, hd⟩ := hv
  generalize d.key.logs = lg at hd
  subst hd
  obtain ⟨k', rest, slice, hg, hk', hm, _⟩ := readKeyAt (w.env (a.buf ++ more)) u.off u.cell u.name h2 (upTo key.2)
    (some it.seq)
  have hsl : slice = (a.buf ++ more).drop it.off := by
    unfold getFrom at hg
    split at hg
    · cases hg; rw [hoff, ← h1]; rfl
    · cases hg
  rw [hsl, h1, ← hoff] at hk'
  have he : k = k' := by
    have := hk.symm.trans hk'
    cases this; rfl
  subst he
  obtain ⟨_, g2, g3, g4, _, _, _, _, _, _, _, _, _, _, _, _, _, _, _, _, _, g22, _, g24, g25, g26, _⟩ := hm
  refine ⟨⟨u, hu, h1, g22, g3, g2, g4⟩, ?_, ?_, hp, rfl, rfl, ⟨rfl, rfl⟩, rfl⟩
  · show k.flagBits.testBit 2 = false
    rw [g2]; exact h4
  · show k.fileOffset = key.1
    rw [g24, h1]

/-- The records after the steps `done`. -/
structure LostRecords (w : World) (done : List (FileState × FileState)) (st : State) : Prop where
  ordinary : ∀ p ∈ done, Ordinary w p.1 ∧ p.2.tree.name = p.1.tree.name
  sound : ∀ q, ∀ d ∈ (st.deletedKeys q).getD [], ∃ p ∈ done, ∃ key, Lost p.1 p.2 key ∧
    LostRecord p.1 p.2 key d ∧ key.2 = q ++ '\\' :: d.key.name
  complete : ∀ p ∈ done, ∀ key, Lost p.1 p.2 key → ∃ d ∈ (st.deletedKeys (upTo key.2)).getD [],
    LostRecord p.1 p.2 key d
  top : NothingAtTop st
  once : ∀ q, (((st.deletedKeys q).getD []).map fun d => d.key.path).Nodup

theorem LostRecords.stateDel {w : World} {done st} (h : LostRecords w done st) : StateDel st := by
  intro q ds hq d hd
  obtain ⟨p, _, key, _, hr, _⟩ := h.sound q d (by rw [hq]; exact hd)
  rw [allDel_iff]
  refine ⟨by rw [hr.state]; simp, ?_⟩
  intro x hx
  rw [hr.bare.2] at hx
  cases hx

theorem LostRecords.attachOk {w : World} {done st} (h : LostRecords w done st) (buf : Bytes) (hd : 1 < w.depth) :
    AttachOk (w.env buf) st := by
  intro k
  refine attach_ends st (w.depth - 2) ?_ w.depth _ (by omega) (by omega)
  intro q ds hq
  have key : ∀ d ∈ ds, d.key.flagBits.testBit 2 = false ∧ q.length < d.key.path.length ∧ q.length ≤ w.depth - 2 := by
    intro d hd
    obtain ⟨p, hp, key, hl, hr, hkey⟩ := h.sound q d (by rw [hq]; exact hd)
    have hs := (h.ordinary p hp).1.short key hl.1
    have hlen : key.2.length = q.length + (d.key.name.length + 1) := by rw [hkey]; simp
    refine ⟨hr.flag, by rw [hr.path]; omega, by omega⟩
  exact ⟨fun hne => by
    cases ds with
    | nil => exact absurd rfl hne
    | cons d ds => exact (key d List.mem_cons_self).2.2, fun d hd => ⟨(key d hd).1, (key d hd).2.1⟩⟩

/-- The items kept of a state. -/
structure Describes (w : World) (s : FileState) (items : RegItemMap) : Prop where
  are : ∀ more, ItemsAre (w.env (s.buf ++ more)) items
  once : (items.map Prod.fst).Nodup
  filed : items.map Prod.fst = s.filed
  keys : ∀ x ∈ items, x.1.2 = none → (x.2.off, x.1.1) ∈ s.keys
  all : ∀ e ∈ s.keys, ∃ x ∈ items, x.1 = (e.2, none) ∧ x.2.off = e.1

theorem describes_of {w : World} {s : FileState} {ns : List Node} {items : RegItemMap} {more : Bytes}
    (ho : Ordinary w s) (hs : Sees s ns) (hv : ∀ n ∈ ns, WithValues (w.env (s.buf ++ more)) s.tree n)
    (h1 : ItemsAre (w.env (s.buf ++ more)) items) (h2 : (items.map Prod.fst).Nodup)
    (h3 : items.map Prod.fst = (ns.flatMap seenOf).map Seen.key)
    (h4 : Pairwise2 (fun s x => x.1 = s.key ∧ x.2.off = s.off) (ns.flatMap seenOf) items) : Describes w s items := by
  obtain ⟨k1, k2, _⟩ := seen_keys hs
  have hkeys : ∀ x ∈ items, x.1.2 = none → (x.2.off, x.1.1) ∈ s.keys := by
    intro x hx hk
    obtain ⟨y, hy, e1, e2⟩ := pairwise2_mem_right h4 x hx
    have := k1 y hy (by rw [← e1]; exact hk)
    rw [← e1, ← e2] at this
    exact this
  refine ⟨?_, h2, h3.trans (sees_filed hs), hkeys, ?_⟩
  · rintro more' ⟨⟨path, nm⟩, it⟩ hx
    have hwas := h1 _ hx
    cases nm with
    | none =>
      have hk := hkeys _ hx rfl
      obtain ⟨u, hu, hoff, _⟩ := pre_from s.buf 4096 w.depth s.tree [] ho.stored.tree _ hk
      have hoff : u.off = it.off := hoff
      have a1 := nodes_at _ (ordinary_more ho more).stored.tree u hu
      have a2 := nodes_at _ (ordinary_more ho more').stored.tree u hu
      rw [hoff] at a1 a2
      exact keyWas_same a1 a2 hwas
    | some name =>
      obtain ⟨y, hy, e1, e2⟩ := pairwise2_mem_right h4 _ hx
      have e1 : (path, some name) = y.key := e1
      have e2 : it.off = y.off := e2
      obtain ⟨n, hn, hy⟩ := List.mem_flatMap.1 hy
      rcases List.mem_cons.1 hy with rfl | hy
      · cases e1
      · obtain ⟨v, hvm, rfl⟩ := List.mem_map.1 hy
        obtain ⟨u, hu, _, k, g1, g2, g3, g4⟩ := hv n hn
        rw [g4] at hvm
        have hsame := sameFrom_stored ho.stored
        obtain ⟨o, x, f1, f2, f3⟩ := storedValues_at (hsame more) k u.cell _ g1 g2 g3
          (every_nodes _ ho.stored.values u hu) v hvm
        exact valueWas_same (e2.trans f1) (valueAt_same (hsame _) f2) (flagsAt_same (hsame _) f3)
          (valueAt_same (hsame _) f2) (flagsAt_same (hsame _) f3) hwas
  · intro e he
    obtain ⟨y, hy, e1, e2⟩ := k2 e he
    obtain ⟨x, hx, e3, e4⟩ := pairwise2_mem_left h4 y hy
    exact ⟨x, hx, by rw [e3, e1], by rw [e4, e2]⟩

theorem nothingAtRoot_of {env : Env} {st : State} {t : Tree} (hbin : FirstBin env.fi)
    (hat : KeyAt env.fi.buffer t.off t.cell t.name) (hoff : t.off = env.fi.hbin + 32) (hatt : AttachOk env st)
    (hflag : t.cell.flags.testBit 2 = true) (htop : NothingAtTop st) : NothingAtRoot env st := by
  intro root ro hr
  obtain ⟨root', hr', hreads⟩ := initRoot_reads env st t hbin hat hoff hatt
  rw [hr] at hr'
  have e : root = root' := by cases hr'; rfl
  subst e
  have : root.key.isKeyRoot = true := by
    rw [isKeyRoot_iff, hreads.facts.2.2.2.2.2.2.2.2.1]; exact hflag
  rw [if_pos this]
  exact ⟨htop.keys, htop.values⟩

theorem getLatest_of {prior env : Env} {order : RegItemMap → RegItemMap} {steps newSeq : Nat} {items : RegItemMap}
    {st : State} {ns : List Node} (h : Iterated env steps false st ns) :
    ∃ ro, getLatestRegItems prior env order steps newSeq items st =
      some (analyzeSeen prior order newSeq (ns.flatMap seenOf) items { st with rootOffset := ro }) ∧
      ∃ root, initRoot env st = .ok (root, ro) := by
  obtain ⟨root, ro, h1, h2⟩ := h
  refine ⟨ro, ?_, root, h1⟩
  unfold getLatestRegItems
  rw [h1]
  simp only
  rw [h2]

theorem filter_all {α : Type} {p : α → Bool} {l : List α} (h : ∀ x ∈ l, p x = true) : l.filter p = l :=
  List.filter_eq_self.2 h

/-- No record is taken back when nothing comes back. -/
theorem retracts_none {α : Type} {cur : α → Prop} {same : α → α → Prop} {old new : List α}
    (h : Retracts cur same old new) (p : α → Bool) (hp : ∀ x, p x = true → ¬ cur x) (hall : ∀ x ∈ old, p x = true) :
    new = old := by
  have := h.rest p hp
  rw [filter_all hall, filter_all fun x hx => hall x (h.sub.subset hx)] at this
  exact this

/-- One entry. -/
theorem records_step (w : World) (hw : 1 < w.depth) (hord : ∀ m, (w.order m).Perm m) (a b : FileState)
    (before after : Bytes) (done : List (FileState × FileState)) (st : State)
    (items : RegItemMap) (ha : Ordinary w a) (hb : Ordinary w b) (hn : b.tree.name = a.tree.name)
    (hrec : LostRecords w done st) (hreta : ∀ p ∈ done, ∀ key, Lost p.1 p.2 key → key.2 ∉ a.paths)
    (hret : ∀ p ∈ done, ∀ key, Lost p.1 p.2 key → key.2 ∉ b.paths)
    (hitems : Describes w a items) :
    ∃ N st' items', (∀ steps, N ≤ steps →
      analyzeEntry (w.env (a.buf ++ before)) (w.env (b.buf ++ after)) w.order steps b.seq (st, items) =
        some (.ok (st', items'))) ∧
      LostRecords w (done ++ [(a, b)]) st' ∧ Describes w b items' := by
  have hatt := hrec.attachOk (b.buf ++ after) hw
  have hb' := ordinary_more hb after
  obtain ⟨N, ns, hit, hsees, hwv⟩ := state_iterates w st { b with buf := b.buf ++ after } hb' hrec.top hrec.stateDel hatt
  replace hsees : Sees b ns := hsees
  replace hit : ∀ steps, N ≤ steps → Iterated (w.env (b.buf ++ after)) steps false st ns := hit
  replace hwv : ∀ n ∈ ns, WithValues (w.env (b.buf ++ after)) b.tree n := hwv
  have hplain := sees_plain hb hsees
  have hroot : NothingAtRoot (w.env (b.buf ++ after)) st := nothingAtRoot_of (t := b.tree) hb'.stored.bin
    (treeAt_keyAt hb'.stored.tree) hb'.stored.top hatt hb.root hrec.top
  obtain ⟨hcomp, st', items', lg, hl, ⟨ro, han⟩, hk1, hk2, hk3, hk4⟩ := analysis_continues (w.env (a.buf ++ before))
    (w.env (b.buf ++ after)) w.order N b.seq items st ns (hit N (Nat.le_refl _)) hplain hroot (hitems.are before)
    hitems.once hord
  obtain ⟨s1, _, s3⟩ := seen_keys hsees
  refine ⟨N, { st' with info := st'.info.extend lg }, items', ?_, ?_, describes_of hb hsees hwv hk2 hk3 hk1 hk4⟩
  · intro steps hs
    have hl' : getLatestRegItems (w.env (a.buf ++ before)) (w.env (b.buf ++ after)) w.order steps b.seq items st =
        some (.ok (st', items', lg)) := by
      obtain ⟨ro1, e1, root1, r1⟩ := getLatest_of (prior := w.env (a.buf ++ before)) (order := w.order) (newSeq := b.seq)
        (items := items) (hit N (Nat.le_refl _))
      obtain ⟨ro2, e2, root2, r2⟩ := getLatest_of (prior := w.env (a.buf ++ before)) (order := w.order) (newSeq := b.seq)
        (items := items) (hit steps hs)
      rw [r1] at r2
      have : ro1 = ro2 := by cases r2; rfl
      subst this
      rw [e2, ← e1, hl]
    unfold analyzeEntry
    rw [hl']
  · have hgone : ∀ x, Gone items (ns.flatMap seenOf) x ∧ x.1.2 = none ↔
        x ∈ items ∧ x.1.2 = none ∧ Lost a b (x.2.off, x.1.1) := by
      intro x
      constructor
      · rintro ⟨⟨h1, h2⟩, h3⟩
        refine ⟨h1, h3, hitems.keys x h1 h3, ?_⟩
        intro hmem
        obtain ⟨e, he, hex⟩ := List.mem_map.1 hmem
        obtain ⟨_, k2, _⟩ := seen_keys hsees
        obtain ⟨y, hy, hyk, _⟩ := k2 e he
        apply h2 y hy
        rw [hyk]
        exact Prod.ext hex h3.symm
      · rintro ⟨h1, h3, h4⟩
        refine ⟨⟨h1, ?_⟩, h3⟩
        intro y hy hyx
        apply h4.2
        rw [← hyx]
        exact s3 y hy
    have hret' : ∀ q, ∀ d ∈ (st.deletedKeys q).getD [], d.key.path ∉ b.paths := by
      intro q d hd
      obtain ⟨p, hp, key, hlost, hr, _⟩ := hrec.sound q d hd
      rw [hr.path]
      exact hret p hp key hlost
    obtain ⟨st1, lat1, lg1, e1, hdk⟩ := analysis_deleted_keys_partial (w.env (a.buf ++ before)) w.order b.seq (ns.flatMap seenOf)
      items { st with rootOffset := ro } hcomp (by
        intro s hs _
        right; right
        rintro n hn ⟨hnp, _⟩
        exact hret' _ n hn (by rw [hnp]; exact s3 s hs))
    obtain ⟨st2, lat2, lg2, e2, _, hmk⟩ := analysis_modified_keys (w.env (a.buf ++ before)) w.order b.seq (ns.flatMap seenOf)
      items { st with rootOffset := ro } hcomp
    obtain ⟨st3, lat3, lg3, e3, _, hmv⟩ := analysis_modified_values (w.env (a.buf ++ before)) w.order b.seq (ns.flatMap seenOf)
      items { st with rootOffset := ro } hcomp
    obtain ⟨st4, lat4, lg4, e4, hdv⟩ := analysis_deleted_values (w.env (a.buf ++ before)) w.order b.seq (ns.flatMap seenOf)
      items { st with rootOffset := ro } hcomp
    rw [han] at e1 e2 e3 e4
    cases e1; cases e2; cases e3; cases e4
    have hkeys : ∀ q, ∃ gone new, (st'.deletedKeys q).getD [] = (st.deletedKeys q).getD [] ++ new ∧
        (∀ x, x ∈ gone ↔ (x ∈ items ∧ x.1.2 = none ∧ Lost a b (x.2.off, x.1.1)) ∧ upTo x.1.1 = q) ∧
        Pairwise2 (fun x n => IsKeyVersion (w.env (a.buf ++ before)) b.seq .DeletedTransactionLog x.1.1 x.2 n) gone new ∧
        gone.Nodup := by
      intro q
      obtain ⟨kept, gone, new, h1, h2, h6, h4, h5⟩ := hdk q
      have hkept : kept = (st.deletedKeys q).getD [] := retracts_none h2
        (fun n => decide (n.key.path ∉ b.paths)) (by
          rintro n hn ⟨⟨y, hy, hyk, _⟩, _⟩
          rw [decide_eq_true_iff] at hn
          apply hn
          have := s3 y hy
          rwa [hyk] at this) (fun n hn => decide_eq_true (hret' q n hn))
      refine ⟨gone, new, by rw [h1, hkept], fun x => ?_, h5, h6⟩
      rw [h4, ← hgone x]
      exact ⟨fun h => ⟨⟨h.1, h.2.2⟩, h.2.1⟩, fun h => ⟨h.1.1, h.2, h.1.2⟩⟩
    refine ⟨?_, ?_, ?_, ?_, ?once⟩
    case once =>
      intro q
      obtain ⟨gone, new, h1, h2, h3, h4⟩ := hkeys q
      show (((st'.deletedKeys q).getD []).map fun d => d.key.path).Nodup
      have hpaths : new.map (fun d => d.key.path) = gone.map (fun x => x.1.1) :=
        pairwise2_map_eq (fun x : ItemKey × Item => x.1.1) (fun d : Node => d.key.path)
          (fun x d hv => by obtain ⟨k, r, _, hp, _, hd⟩ := hv; rw [hd]; exact hp) h3
      rw [h1, List.map_append, hpaths, List.nodup_append]
      refine ⟨hrec.once q, ?_, ?_⟩
      · refine List.pairwise_map.2 (List.Pairwise.imp_of_mem ?_ h4)
        intro x y hx hy hne hxy
        have hx2 := ((h2 x).1 hx).1
        have hy2 := ((h2 y).1 hy).1
        exact hne (map_inj_of_nodup Prod.fst _ hitems.once x hx2.1 y hy2.1 (Prod.ext hxy (hx2.2.1.trans hy2.2.1.symm)))
      · intro p hp p' hp' e
        subst e
        obtain ⟨d, hd, rfl⟩ := List.mem_map.1 hp
        obtain ⟨x, hx, hxp⟩ := List.mem_map.1 hp'
        obtain ⟨r, hr, key, hlost, hrd, _⟩ := hrec.sound q d hd
        have hin := ((h2 x).1 hx).1.2.2.1
        apply hreta r hr key hlost
        rw [← hrd.path, ← hxp]
        exact List.mem_map.2 ⟨_, hin, rfl⟩
    · intro p hp
      rcases List.mem_append.1 hp with hp | hp
      · exact hrec.ordinary p hp
      · rw [List.mem_singleton.1 hp]; exact ⟨ha, hn⟩
    · intro q d hd
      obtain ⟨gone, new, h1, h2, h3, _⟩ := hkeys q
      have hd : d ∈ (st'.deletedKeys q).getD [] := hd
      rw [h1] at hd
      rcases List.mem_append.1 hd with hd | hd
      · obtain ⟨p, hp, h⟩ := hrec.sound q d hd
        exact ⟨p, List.mem_append_left _ hp, h⟩
      · obtain ⟨x, hx, hv⟩ := pairwise2_mem_right h3 d hd
        obtain ⟨⟨hx1, hx2, hlost⟩, hup⟩ := (h2 x).1 hx
        have hr := lostRecord_of ha hn before hlost x.2 d rfl hv
        refine ⟨(a, b), List.mem_append_right _ List.mem_cons_self, _, hlost, hr, ?_⟩
        obtain ⟨u, hu, huo, _, hname, _, e, _, hpath⟩ := lost_below ha hn hlost
        obtain ⟨u', hu', huo', hdn, _⟩ := hr.cell
        have huu : u'.name = u.name := by
          have : u' = u := off_inj ha.stored.once hu' hu (huo'.trans huo.symm)
          rw [this]
        rw [hdn, huu]
        have : upTo x.1.1 = e.2 := by
          have hpath : x.1.1 = e.2 ++ '\\' :: u.name := hpath
          rw [hpath]; exact upTo_child _ _ hname
        rw [← hup, this]
        exact hpath
    · intro p hp key hlost
      obtain ⟨gone, new, h1, h2, h3, _⟩ := hkeys (upTo key.2)
      show ∃ d ∈ (st'.deletedKeys (upTo key.2)).getD [], _
      rw [h1]
      rcases List.mem_append.1 hp with hp | hp
      · obtain ⟨d, hd, h⟩ := hrec.complete p hp key hlost
        exact ⟨d, List.mem_append_left _ hd, h⟩
      · rw [List.mem_singleton] at hp
        subst hp
        obtain ⟨x, hx, hx1, hx2⟩ := hitems.all key hlost.1
        have hxl : Lost a b (x.2.off, x.1.1) := by rw [hx1, hx2]; exact hlost
        have hxg : x ∈ gone := (h2 x).2 ⟨⟨hx, by rw [hx1], hxl⟩, by rw [hx1]⟩
        obtain ⟨d, hd, hv⟩ := pairwise2_mem_left h3 x hxg
        rw [hx1] at hv
        exact ⟨d, List.mem_append_right _ hd, lostRecord_of ha hn before hlost x.2 d hx2 hv⟩
    · have hempty : ∀ {s : FileState}, Ordinary w s → [] ∉ s.paths := by
        intro s hs hm
        obtain ⟨e, he, hee⟩ := List.mem_map.1 hm
        exact path_ne hs he hee
      have hunder : ∀ x ∈ items, x.1.1 ∈ a.paths := by
        intro x hx
        have : x.1 ∈ a.filed := by rw [← hitems.filed]; exact List.mem_map.2 ⟨x, hx, rfl⟩
        obtain ⟨e, he, h⟩ := List.mem_flatMap.1 this
        have : x.1.1 = e.2 := by
          rcases List.mem_cons.1 h with h | h
          · rw [h]
          · obtain ⟨v, _, h⟩ := List.mem_map.1 h; rw [← h]
        rw [this]
        exact List.mem_map.2 ⟨e, he, rfl⟩
      refine ⟨?_, ?_, ?_, ?_⟩
      · obtain ⟨gone, new, h1, h2, h3, _⟩ := hkeys []
        have hg : gone = [] := by
          cases gone with
          | nil => rfl
          | cons x l =>
            exfalso
            obtain ⟨⟨_, _, hlost⟩, hup⟩ := (h2 x).1 List.mem_cons_self
            obtain ⟨u, _, _, _, hname, _, e, he, hpath⟩ := lost_below ha hn hlost
            have hpath : x.1.1 = e.2 ++ '\\' :: u.name := hpath
            rw [hpath, upTo_child _ _ hname] at hup
            exact path_ne ha he hup
        subst hg
        show (st'.deletedKeys []).getD [] = []
        rw [h1, hrec.top.keys]
        cases new with
        | nil => rfl
        | cons => exact absurd h3 (by simp [Pairwise2])
      · show (st'.modifiedKeys []).getD [] = []
        rw [hmk []]
        · exact hrec.top.versions
        · rintro p ⟨_, y, hy, hyk, _⟩
          have := s3 y hy
          rw [hyk] at this
          exact hempty hb this
      · show (st'.deletedValues []).getD [] = []
        obtain ⟨kept, gone, new, h1, h2, _, h4, h5⟩ := hdv []
        have hk : kept = [] := by
          have hs : kept.Sublist ((st.deletedValues []).getD []) := h2.sub
          rw [hrec.top.values] at hs
          exact List.sublist_nil.1 hs
        have hg : gone = [] := by
          cases gone with
          | nil => rfl
          | cons x l =>
            exfalso
            obtain ⟨hgx, hup, _⟩ := (h4 x).1 List.mem_cons_self
            have := hunder x hgx.1
            rw [hup] at this
            exact hempty ha this
        subst hg
        rw [h1, hk]
        cases new with
        | nil => rfl
        | cons => exact absurd h5 (by simp [Pairwise2])
      · intro name
        show (st'.modifiedValues ([], name)).getD [] = []
        rw [hmv [] name]
        · exact hrec.top.valueVersions name
        · rintro p ⟨_, y, hy, hyk, _⟩
          have := s3 y hy
          rw [hyk] at this
          exact hempty hb this

/-! ### Attaching -/

theorem mem_belowAll {x : Node} {ds : List Node} : x ∈ belowAll ds ↔ ∃ d ∈ ds, x = d ∨ x ∈ belowAll d.deletedKeys := by
  rw [belowAll_eq, List.mem_flatMap]
  constructor
  · rintro ⟨d, hd, hx⟩
    rw [belowTree_eq] at hx
    exact ⟨d, List.mem_reverse.1 hd, List.mem_cons.1 hx⟩
  · rintro ⟨d, hd, hx⟩
    exact ⟨d, List.mem_reverse.2 hd, by rw [belowTree_eq]; exact List.mem_cons.2 hx⟩

mutual
theorem belowTree_trans {x y : Node} (hy : y ∈ belowAll x.deletedKeys) : ∀ d : Node, x ∈ belowTree d → y ∈ belowTree d
  | .mk k vs ds, h => by
    rw [belowTree] at h ⊢
    rcases List.mem_cons.1 h with h | h
    · subst h; exact List.mem_cons_of_mem _ hy
    · exact List.mem_cons_of_mem _ (belowAll_trans hy ds h)
theorem belowAll_trans {x y : Node} (hy : y ∈ belowAll x.deletedKeys) : ∀ ds : List Node, x ∈ belowAll ds →
    y ∈ belowAll ds
  | [], h => absurd h List.not_mem_nil
  | d :: ds, h => by
    rw [belowAll] at h ⊢
    rcases List.mem_append.1 h with h | h
    · exact List.mem_append_left _ (belowAll_trans hy ds h)
    · exact List.mem_append_right _ (belowTree_trans hy d h)
end

theorem attachLoop_all (st : State) (fuel off : Nat) : ∀ (ds ds' : List Node),
    updateModifiedLists.attachLoop (updateModifiedLists st fuel) off ds = .ok ds' →
    Pairwise2 (fun d d' => (d.key.fileOffset ≠ off ∧ updateModifiedLists st fuel d = .ok d') ∨
      (d.key.fileOffset = off ∧ d' = d)) ds ds' := by
  intro ds
  induction ds with
  | nil => intro ds' h; cases h; trivial
  | cons d ds ih =>
    intro ds' h
    rw [updateModifiedLists.attachLoop] at h
    cases h1 : (if d.key.fileOffset ≠ off then updateModifiedLists st fuel d else .ok d) with
    | err => rw [h1] at h; cases h
    | panic => rw [h1] at h; cases h
    | ok d' =>
      rw [h1] at h
      simp only at h
      cases h2 : updateModifiedLists.attachLoop (updateModifiedLists st fuel) off ds with
      | err => rw [h2] at h; cases h
      | panic => rw [h2] at h; cases h
      | ok ds2 =>
        rw [h2] at h
        cases h
        refine ⟨?_, ih ds2 h2⟩
        by_cases hd : d.key.fileOffset ≠ off
        · rw [if_pos hd] at h1; exact .inl ⟨hd, h1⟩
        · rw [if_neg hd] at h1; cases h1; exact .inr ⟨by simpa using hd, rfl⟩

/-- What attaching puts below a key that has nothing below it. -/
theorem attach_below (st : State) (fuel : Nat) (n m : Node) (h0 : n.deletedKeys = [])
    (h : updateModifiedLists st fuel n = .ok m) :
    ∃ f, (m.deletedKeys = [] ∧ n.key.cellState.isDeletedPrimaryFile = true) ∨
      Pairwise2 (fun d d' => (d.key.fileOffset ≠ n.key.fileOffset ∧ updateModifiedLists st f d = .ok d') ∨
        (d.key.fileOffset = n.key.fileOffset ∧ d' = d)) ((st.deletedKeys (lookupKey n.key)).getD []) m.deletedKeys ∧
      f < fuel := by
  cases fuel with
  | zero => simp [updateModifiedLists] at h
  | succ fuel =>
    refine ⟨fuel, ?_⟩
    rw [updateModifiedLists] at h
    simp only at h
    rw [isKeyRoot_iff] at h
    have e : (if n.key.flagBits.testBit 2 = true then [] else n.key.path) = lookupKey n.key := rfl
    rw [e] at h
    by_cases hc : n.key.cellState.isDeletedPrimaryFile = true
    · rw [if_pos hc] at h; cases h; exact .inl ⟨h0, hc⟩
    · rw [if_neg hc] at h
      right
      refine ⟨?_, Nat.lt_succ_self _⟩
      cases hd : st.deletedKeys (lookupKey n.key) with
      | none =>
        rw [hd, updateModifiedLists.attachDeleted, h0] at h
        simp only at h
        cases h
        trivial
      | some ds =>
        rw [hd, updateModifiedLists.attachDeleted] at h
        cases hl : updateModifiedLists.attachLoop (updateModifiedLists st fuel) n.key.fileOffset ds with
        | err => rw [hl] at h; cases h
        | panic => rw [hl] at h; cases h
        | ok ds' =>
          rw [hl] at h
          simp only at h
          cases h
          exact attachLoop_all st fuel _ ds ds' hl

/-- Everything attached is on record, under a path `P` holds for. -/
theorem attach_sound (st : State) (P : Str → Prop)
    (hrec : ∀ q, P q → ∀ d ∈ (st.deletedKeys q).getD [], d.deletedKeys = [] ∧ P (lookupKey d.key)) :
    ∀ (fuel : Nat) (n m : Node), n.deletedKeys = [] → P (lookupKey n.key) → updateModifiedLists st fuel n = .ok m →
    ∀ x ∈ belowAll m.deletedKeys, ∃ q, P q ∧ ∃ d ∈ (st.deletedKeys q).getD [],
      x.key = { d.key with values := x.key.values } := by
  intro fuel
  induction fuel using Nat.strongRecOn with
  | _ fuel ih =>
    intro n m h0 hP h x hx
    obtain ⟨f, ⟨h1, _⟩ | ⟨h1, hf⟩⟩ := attach_below st fuel n m h0 h
    · rw [h1] at hx; cases hx
    · obtain ⟨d', hd', hxd⟩ := mem_belowAll.1 hx
      obtain ⟨d, hd, hdd⟩ := pairwise2_mem_right h1 d' hd'
      rcases hdd with ⟨_, hdd⟩ | ⟨_, rfl⟩
      · rcases hxd with rfl | hxd
        · exact ⟨_, hP, d, hd, updateModifiedLists_key st f d x hdd⟩
        · exact ih f hf d d' (hrec _ hP d hd).1 (hrec _ hP d hd).2 hdd x hxd
      · rcases hxd with rfl | hxd
        · exact ⟨_, hP, x, hd, rfl⟩
        · rw [(hrec _ hP d' hd).1] at hxd; cases hxd

/-- The part of a path before its last backslash, when another path is a part of it. -/
theorem below_parent {p q n r : Str} (hn : '\\' ∉ n) (h : q ++ '\\' :: n = p ++ '\\' :: r) :
    q = p ∨ ∃ r', q = p ++ '\\' :: r' := by
  induction p generalizing q with
  | nil =>
    cases q with
    | nil => exact .inl rfl
    | cons c q =>
      rw [List.cons_append, List.nil_append, List.cons.injEq] at h
      exact .inr ⟨q, by rw [h.1]; rfl⟩
  | cons c p ih =>
    cases q with
    | nil =>
      rw [List.nil_append, List.cons_append, List.cons.injEq] at h
      exact absurd (by rw [h.2]; simp) hn
    | cons c' q =>
      rw [List.cons_append, List.cons_append, List.cons.injEq] at h
      rcases ih h.2 with rfl | ⟨r', rfl⟩
      · exact .inl (by rw [h.1])
      · exact .inr ⟨r', by rw [h.1]; rfl⟩

/-- `p` is the path of a key above the one with the path `q`. -/
def Above (p q : Str) : Prop := ∃ r, q = p ++ '\\' :: r

theorem Above.trans {p q r : Str} (h : Above p q) (h' : Above q r) : Above p r := by
  obtain ⟨a, rfl⟩ := h
  obtain ⟨b, rfl⟩ := h'
  exact ⟨a ++ '\\' :: b, by simp⟩

theorem Above.shorter {p q : Str} (h : Above p q) : p.length < q.length := by
  obtain ⟨a, rfl⟩ := h
  simp

/-- Of two paths above (or equal to) a third, one is above the other or they are the same. -/
theorem above_compare {p q x y : Str} : ∀ {z : Str}, z = p ++ '\\' :: x → z = q ++ '\\' :: y → p = q ∨ Above p q ∨ Above q p := by
  induction p generalizing q with
  | nil =>
    intro z hx hy
    cases q with
    | nil => exact .inl rfl
    | cons c q =>
      rw [hx, List.nil_append, List.cons_append, List.cons.injEq] at hy
      exact .inr (.inl ⟨q, by rw [← hy.1]; rfl⟩)
  | cons c p ih =>
    intro z hx hy
    cases q with
    | nil =>
      rw [hx, List.nil_append, List.cons_append, List.cons.injEq] at hy
      exact .inr (.inr ⟨p, by rw [hy.1]; rfl⟩)
    | cons c' q =>
      rw [hx, List.cons_append, List.cons_append, List.cons.injEq] at hy
      obtain ⟨rfl, hy⟩ := hy
      rcases ih rfl hy with rfl | ⟨r, rfl⟩ | ⟨r, rfl⟩
      · exact .inl rfl
      · exact .inr (.inl ⟨r, rfl⟩)
      · exact .inr (.inr ⟨r, rfl⟩)

/-- What is on record below a path is a sub-key of it (`L`: the paths on record), and every path is there once. -/
structure FiledOnce (st : State) (L : Str → Prop) : Prop where
  filed : ∀ q, ∀ d ∈ (st.deletedKeys q).getD [], d.deletedKeys = [] ∧ lookupKey d.key = d.key.path ∧
    L d.key.path ∧ ∃ name, '\\' ∉ name ∧ d.key.path = q ++ '\\' :: name
  once : ∀ q, (((st.deletedKeys q).getD []).map fun d => d.key.path).Nodup

/-- Nothing is attached twice; all that is attached is below the key, and all paths in between are on record. -/
theorem attach_once (st : State) (L : Str → Prop) (hf : FiledOnce st L) :
    ∀ (fuel : Nat) (n m : Node), n.deletedKeys = [] → updateModifiedLists st fuel n = .ok m →
    ((belowAll m.deletedKeys).map fun x => x.key.path).Nodup ∧
    ∀ x ∈ belowAll m.deletedKeys, Above (lookupKey n.key) x.key.path ∧
      ∀ q, (q = x.key.path ∨ Above q x.key.path) → Above (lookupKey n.key) q → L q := by
  intro fuel
  induction fuel using Nat.strongRecOn with
  | _ fuel ih =>
    intro n m h0 h
    obtain ⟨f, ⟨h1, _⟩ | ⟨h1, hlt⟩⟩ := attach_below st fuel n m h0 h
    · rw [h1]; exact ⟨List.nodup_nil, nofun⟩
    · have honce := hf.once (lookupKey n.key)
      have hfiled := hf.filed (lookupKey n.key)
      generalize (st.deletedKeys (lookupKey n.key)).getD [] = ds at h1 honce hfiled
      generalize m.deletedKeys = ds' at h1
      generalize lookupKey n.key = base at hfiled ⊢
      -- one record and what is below it
      have hone : ∀ d ∈ ds, ∀ d', ((d.key.fileOffset ≠ n.key.fileOffset ∧ updateModifiedLists st f d = .ok d') ∨
          (d.key.fileOffset = n.key.fileOffset ∧ d' = d)) → d'.key.path = d.key.path ∧
          ((belowAll d'.deletedKeys).map fun x => x.key.path).Nodup ∧
          ∀ x ∈ belowAll d'.deletedKeys, Above d.key.path x.key.path ∧
            ∀ q, (q = x.key.path ∨ Above q x.key.path) → Above d.key.path q → L q := by
        intro d hd d' hdd
        obtain ⟨g1, g2, g3, _⟩ := hfiled d hd
        rcases hdd with ⟨_, hdd⟩ | ⟨_, rfl⟩
        · obtain ⟨i1, i2⟩ := ih f hlt d d' g1 hdd
          rw [g2] at i2
          exact ⟨by rw [updateModifiedLists_key st f d d' hdd], i1, i2⟩
        · rw [g1]
          exact ⟨rfl, List.nodup_nil, nofun⟩
      clear ih h
      induction ds generalizing ds' with
      | nil =>
        cases ds' with
        | nil => exact ⟨List.nodup_nil, nofun⟩
        | cons => exact absurd h1 (by simp [Pairwise2])
      | cons d ds ihl =>
        cases ds' with
        | nil => exact absurd h1 (by simp [Pairwise2])
        | cons d' ds' =>
          obtain ⟨k1, k2⟩ := ihl (List.nodup_cons.1 honce).2 ds' h1.2 (fun x hx => hfiled x (List.mem_cons_of_mem _ hx))
            (fun x hx => hone x (List.mem_cons_of_mem _ hx))
          obtain ⟨o1, o2, o3⟩ := hone d List.mem_cons_self d' h1.1
          obtain ⟨g1, g2, g3, name, g4, g5⟩ := hfiled d List.mem_cons_self
          have hsplit : belowAll (d' :: ds') = (d' :: belowAll d'.deletedKeys) ++ belowAll ds' ∨
              belowAll (d' :: ds') = belowAll ds' ++ (d' :: belowAll d'.deletedKeys) := by
            rw [belowAll, belowTree_eq]
            first | exact .inl rfl | exact .inr rfl
          -- what is below the other records
          have hother : ∀ x ∈ belowAll ds', ∃ e ∈ ds, x.key.path = e.key.path ∨ Above e.key.path x.key.path := by
            intro x hx
            obtain ⟨e', he', hxe⟩ := mem_belowAll.1 hx
            obtain ⟨e, he, hee⟩ := pairwise2_mem_right h1.2 e' he'
            obtain ⟨p1, _, p3⟩ := hone e (List.mem_cons_of_mem _ he) e' hee
            refine ⟨e, he, ?_⟩
            rcases hxe with rfl | hxe
            · exact .inl p1
            · exact .inr (p3 x hxe).1
          have hmine : ∀ x ∈ d' :: belowAll d'.deletedKeys, x.key.path = d.key.path ∨ Above d.key.path x.key.path := by
            intro x hx
            rcases List.mem_cons.1 hx with rfl | hx
            · exact .inl o1
            · exact .inr (o3 x hx).1
          have hnd : ((d' :: belowAll d'.deletedKeys).map fun x => x.key.path).Nodup := by
            rw [List.map_cons, List.nodup_cons]
            refine ⟨?_, o2⟩
            intro hm
            obtain ⟨x, hx, hxp⟩ := List.mem_map.1 hm
            have := (o3 x hx).1.shorter
            rw [hxp, o1] at this
            omega
          have hdis : ∀ x ∈ d' :: belowAll d'.deletedKeys, ∀ y ∈ belowAll ds', x.key.path ≠ y.key.path := by
            intro x hx y hy e
            obtain ⟨c, hc, hcy⟩ := hother y hy
            obtain ⟨_, _, _, name', g4', g5'⟩ := hfiled c (List.mem_cons_of_mem _ hc)
            have hne : d.key.path ≠ c.key.path := fun e => (List.nodup_cons.1 honce).1 (List.mem_map.2 ⟨c, hc, e.symm⟩)
            have hsame : ∀ {u v : Str}, base ++ '\\' :: name ++ u = base ++ '\\' :: name' ++ v →
                (u = [] ∨ ∃ r, u = '\\' :: r) → (v = [] ∨ ∃ r, v = '\\' :: r) → name = name' := by
              intro u v huv hu hv
              rw [List.append_assoc, List.append_assoc, List.append_cancel_left_eq, List.cons_append, List.cons_append, List.cons.injEq] at huv
              have := huv.2
              clear huv g5 g5' hne
              induction name generalizing name' with
              | nil =>
                cases name' with
                | nil => rfl
                | cons c n' =>
                  exfalso
                  rw [List.nil_append] at this
                  rcases hu with rfl | ⟨r, rfl⟩
                  · cases this
                  · rw [List.cons_append, List.cons.injEq] at this
                    exact g4' (by rw [← this.1]; exact List.mem_cons_self)
              | cons c n ihn =>
                cases name' with
                | nil =>
                  exfalso
                  rw [List.nil_append] at this
                  rcases hv with rfl | ⟨r, rfl⟩
                  · cases this
                  · rw [List.cons_append, List.cons.injEq] at this
                    exact g4 (by rw [this.1]; exact List.mem_cons_self)
                | cons c' n' =>
                  rw [List.cons_append, List.cons_append, List.cons.injEq] at this
                  rw [this.1, ihn (fun h => g4 (List.mem_cons_of_mem _ h)) n' (fun h => g4' (List.mem_cons_of_mem _ h)) this.2]
            apply hne
            rw [g5, g5']
            have hxx : ∃ u, x.key.path = base ++ '\\' :: name ++ u ∧ (u = [] ∨ ∃ r, u = '\\' :: r) := by
              rcases hmine x hx with h | ⟨r, h⟩
              · exact ⟨[], by rw [h, g5, List.append_nil], .inl rfl⟩
              · exact ⟨'\\' :: r, by rw [h, g5], .inr ⟨r, rfl⟩⟩
            have hyy : ∃ v, y.key.path = base ++ '\\' :: name' ++ v ∧ (v = [] ∨ ∃ r, v = '\\' :: r) := by
              rcases hcy with h | ⟨r, h⟩
              · exact ⟨[], by rw [h, g5', List.append_nil], .inl rfl⟩
              · exact ⟨'\\' :: r, by rw [h, g5'], .inr ⟨r, rfl⟩⟩
            obtain ⟨u, hu, hu'⟩ := hxx
            obtain ⟨v, hv, hv'⟩ := hyy
            rw [hsame (hu.symm.trans (e.trans hv)) hu' hv']
          have hbase : Above base d.key.path := ⟨name, g5⟩
          have hprop : ∀ x ∈ d' :: belowAll d'.deletedKeys, Above base x.key.path ∧
              ∀ q, (q = x.key.path ∨ Above q x.key.path) → Above base q → L q := by
            intro x hx
            refine ⟨?_, ?_⟩
            · rcases hmine x hx with h | h
              · rw [h]; exact hbase
              · exact hbase.trans h
            · intro q hq hbq
              -- `q` is the record itself or below it
              have hqd : q = d.key.path ∨ Above d.key.path q := by
                obtain ⟨s, hs⟩ : ∃ s, x.key.path ++ ['\\'] = q ++ '\\' :: s := by
                  rcases hq with rfl | ⟨r, hr⟩
                  · exact ⟨[], rfl⟩
                  · exact ⟨r ++ ['\\'], by rw [hr]; simp⟩
                obtain ⟨t, ht⟩ : ∃ t, x.key.path ++ ['\\'] = d.key.path ++ '\\' :: t := by
                  rcases hmine x hx with h | ⟨r, hr⟩
                  · exact ⟨[], by rw [h]⟩
                  · exact ⟨r ++ ['\\'], by rw [hr]; simp⟩
                rcases above_compare hs ht with h | h | h
                · exact .inl h
                · exfalso
                  obtain ⟨r, hr⟩ := h
                  rcases below_parent g4 (g5.symm.trans hr) with h | ⟨r', h⟩
                  · exact absurd hbq.shorter (by rw [h]; omega)
                  · have := hbq.shorter
                    rw [h] at this
                    simp at this
                    omega
                · exact .inr h
              rcases hqd with rfl | hqd
              · exact g3
              · rcases List.mem_cons.1 hx with rfl | hx'
                · exfalso
                  have h1 := hqd.shorter
                  rcases hq with rfl | hq
                  · rw [o1] at h1; omega
                  · have := hq.shorter
                    rw [o1] at this; omega
                · exact (o3 x hx').2 q hq hqd
          rcases hsplit with e | e <;> rw [e]
          · refine ⟨?_, ?_⟩
            · rw [List.map_append, List.nodup_append]
              refine ⟨hnd, k1, ?_⟩
              intro p hp p' hp' e
              obtain ⟨x, hx, rfl⟩ := List.mem_map.1 hp
              obtain ⟨y, hy, rfl⟩ := List.mem_map.1 hp'
              exact hdis x hx y hy e
            · intro x hx
              rcases List.mem_append.1 hx with hx | hx
              · exact hprop x hx
              · exact k2 x hx
          · refine ⟨?_, ?_⟩
            · rw [List.map_append, List.nodup_append]
              refine ⟨k1, hnd, ?_⟩
              intro p hp p' hp' e
              obtain ⟨x, hx, rfl⟩ := List.mem_map.1 hp
              obtain ⟨y, hy, rfl⟩ := List.mem_map.1 hp'
              exact hdis y hy x hx e.symm
            · intro x hx
              rcases List.mem_append.1 hx with hx | hx
              · exact k2 x hx
              · exact hprop x hx

/-- The record `d` is reached from the key `k` along the records; `o` is the offset it is attached at. -/
inductive Reaches (st : State) (k : KeyNode) : Node → Nat → Prop
  | here (d : Node) : d ∈ (st.deletedKeys (lookupKey k)).getD [] → Reaches st k d k.fileOffset
  | step (d' d : Node) (o : Nat) : Reaches st k d' o → d'.key.fileOffset ≠ o →
      d ∈ (st.deletedKeys (lookupKey d'.key)).getD [] → Reaches st k d d'.key.fileOffset

/-- What is reached is attached. -/
theorem reaches_attached (st : State)
    (hbare : ∀ q, ∀ d ∈ (st.deletedKeys q).getD [], d.deletedKeys = [] ∧ d.key.cellState = .DeletedTransactionLog)
    (fuel : Nat) (n m : Node) (h0 : n.deletedKeys = []) (hc : n.key.cellState = .Allocated)
    (h : updateModifiedLists st fuel n = .ok m) (d : Node) (o : Nat) (hr : Reaches st n.key d o) :
    (d.deletedKeys = [] ∧ d.key.cellState = .DeletedTransactionLog) ∧ ∃ x ∈ belowAll m.deletedKeys, (d.key.fileOffset ≠ o ∧ ∃ f, updateModifiedLists st f d = .ok x) ∨
      (d.key.fileOffset = o ∧ x = d) := by
  induction hr with
  | here d hd =>
    refine ⟨hbare _ d hd, ?_⟩
    obtain ⟨f, ⟨_, h1⟩ | ⟨h1, hf⟩⟩ := attach_below st fuel n m h0 h
    · rw [hc] at h1; cases h1
    · obtain ⟨x, hx, hdx⟩ := pairwise2_mem_left h1 d hd
      refine ⟨x, mem_belowAll.2 ⟨x, hx, .inl rfl⟩, ?_⟩
      rcases hdx with ⟨a, b⟩ | ⟨a, b⟩
      · exact .inl ⟨a, f, b⟩
      · exact .inr ⟨a, b⟩
  | step d' d o hr' hne hd ih =>
    refine ⟨hbare _ d hd, ?_⟩
    obtain ⟨hb', x', hx', hdx'⟩ := ih
    rcases hdx' with ⟨_, f, hu⟩ | ⟨e, _⟩
    · obtain ⟨g, ⟨_, h1⟩ | ⟨h1, hg⟩⟩ := attach_below st f d' x' hb'.1 hu
      · rw [hb'.2] at h1; cases h1
      · obtain ⟨x, hx, hdx⟩ := pairwise2_mem_left h1 d hd
        refine ⟨x, belowAll_trans (mem_belowAll.2 ⟨x, hx, .inl rfl⟩) _ hx', ?_⟩
        rcases hdx with ⟨a, b⟩ | ⟨a, b⟩
        · exact .inl ⟨a, g, b⟩
        · exact .inr ⟨a, b⟩
    · exact absurd e hne

/-! ### A run of entries -/

theorem pageByte_unique {off : Nat} {pages : List DirtyPage} {i : Nat} {old x y : Option UInt8}
    (hx : PageByte off pages i old x) (hy : PageByte off pages i old y) : x = y := by
  rcases hx with ⟨b1, p1, a1, e1, c1, n1, v1⟩ | ⟨n1, v1⟩ <;> rcases hy with ⟨b2, p2, a2, e2, c2, n2, v2⟩ | ⟨n2, v2⟩
  · rw [e1] at e2
    have : p1 = p2 := by
      clear e1
      induction b1 generalizing b2 with
      | nil => cases b2 with
        | nil => cases e2; rfl
        | cons q b2 =>
          rw [List.nil_append, List.cons_append, List.cons.injEq] at e2
          exact absurd c2 (n1 p2 (by rw [e2.2]; simp))
      | cons q b1 ih => cases b2 with
        | nil =>
          rw [List.nil_append, List.cons_append, List.cons.injEq] at e2
          exact absurd c1 (n2 p1 (by rw [← e2.2]; simp))
        | cons q' b2 =>
          rw [List.cons_append, List.cons_append, List.cons.injEq] at e2
          exact ih b2 e2.2
    rw [v1, v2, this]
  · exact absurd c1 (n2 p1 (by rw [e1]; simp))
  · exact absurd c2 (n1 p2 (by rw [e2]; simp))
  · rw [v1, v2]

theorem growBuffer_eq (bins size : Nat) (buf : Bytes) :
    growBuffer bins size buf = buf ++ List.replicate (size - bins) 0 := by
  unfold growBuffer
  by_cases h : bins < size
  · rw [if_pos h]
  · rw [if_neg h, show size - bins = 0 by omega]; simp

/-- An entry is applied as it should be; the bytes behind the file are more than they should be. -/
theorem replays_apply {bins size k : Nat} {e : LogEntry} {old new : Bytes} (hb : bins ≤ size)
    (hw : Written e (old ++ List.replicate (e.hiveBinsDataSize - size) 0) new) :
    growBuffer bins e.hiveBinsDataSize (old ++ List.replicate k 0) =
        old ++ List.replicate (k + (e.hiveBinsDataSize - bins)) 0 ∧
      applyEntry 4096 bins e (old ++ List.replicate k 0) = .ok (new ++
        List.replicate (k + (e.hiveBinsDataSize - bins) - (e.hiveBinsDataSize - size)) 0) := by
  have hg : growBuffer bins e.hiveBinsDataSize (old ++ List.replicate k 0) =
      old ++ List.replicate (k + (e.hiveBinsDataSize - bins)) 0 := by
    rw [growBuffer_eq, List.append_assoc, List.replicate_append_replicate]
  refine ⟨hg, ?_⟩
  obtain ⟨h1, h2, h3⟩ := hw
  have hsplit : old ++ List.replicate (k + (e.hiveBinsDataSize - bins)) 0 =
      (old ++ List.replicate (e.hiveBinsDataSize - size) 0) ++
        List.replicate (k + (e.hiveBinsDataSize - bins) - (e.hiveBinsDataSize - size)) (0 : UInt8) := by
    rw [List.append_assoc, List.replicate_append_replicate]
    congr 2
    omega
  unfold applyEntry
  rw [hg, hsplit]
  generalize old ++ List.replicate (e.hiveBinsDataSize - size) 0 = base at h1 h2 h3
  generalize List.replicate (k + (e.hiveBinsDataSize - bins) - (e.hiveBinsDataSize - size)) (0 : UInt8) = more
  obtain ⟨buf', e1, e2, e3⟩ := applyPages_ok 4096 e.dirtyPages (base ++ more) (by
    intro p hp
    have := h1 p hp
    rw [List.length_append]; omega)
  rw [e1]
  congr 1
  rw [List.length_append] at e2
  apply List.ext_getElem?
  intro i
  have e3 := e3 i
  by_cases hi : i < base.length
  · rw [List.getElem?_append_left hi] at e3
    rw [List.getElem?_append_left (by omega)]
    exact pageByte_unique e3 (h3 i hi)
  · rw [List.getElem?_append_right (by omega)] at e3 ⊢
    rw [h2]
    rcases e3 with ⟨before, p, after, hp, hc, _⟩ | ⟨_, e3⟩
    · have := h1 p (by rw [hp]; simp)
      unfold covers at hc
      omega
    · exact e3

theorem records_run (w : World) (hw : 1 < w.depth) (hord : ∀ m, (w.order m).Perm m) (bins : Nat) :
    ∀ (entries : List LogEntry) (size k : Nat) (a : FileState) (rest : List FileState)
      (done : List (FileState × FileState)) (st : State) (items : RegItemMap), bins ≤ size →
      Replays size entries a rest → Ordinary w a →
      (∀ s ∈ rest, Ordinary w s ∧ s.tree.name = a.tree.name) → LostRecords w done st → Describes w a items →
      (∀ p ∈ done, ∀ key, Lost p.1 p.2 key → ∀ s ∈ a :: rest, key.2 ∉ s.paths) → NoReturn (a :: rest) →
      ∃ N k' st' items', (∀ steps, N ≤ steps →
        recordedOver (World.analyze { w with steps } true) 4096 bins entries (a.buf ++ List.replicate k 0)
          (some (.ok (st, items))) = some (.ok (st', items'))) ∧ LostRecords w (done ++ steps (a :: rest)) st' ∧
        applyAll 4096 bins entries (a.buf ++ List.replicate k 0) =
          .ok (((a :: rest).getLast (by simp)).buf ++ List.replicate k' 0) := by
  intro entries
  induction entries with
  | nil =>
    intro size k a rest done st items hsize hrep ha hrest hrec hit hret hno
    cases rest with
    | cons => exact absurd hrep (by simp [Replays])
    | nil => exact ⟨0, k, st, items, fun _ _ => rfl, by simpa [steps] using hrec, rfl⟩
  | cons e es ih =>
    intro size k a rest done st items hsize hrep ha hrest hrec hit hret hno
    cases rest with
    | nil => exact absurd hrep (by simp [Replays])
    | cons b rest =>
      rw [Replays] at hrep
      obtain ⟨hseq, hwr, hrep⟩ := hrep
      obtain ⟨hb, hbn⟩ := hrest b List.mem_cons_self
      obtain ⟨hgrow, happ⟩ := replays_apply (k := k) hsize hwr
      obtain ⟨N1, st1, items1, h1, h2, h3⟩ := records_step w hw hord a b
        (List.replicate (k + (e.hiveBinsDataSize - bins)) 0)
        (List.replicate (k + (e.hiveBinsDataSize - bins) - (e.hiveBinsDataSize - size)) 0) done st items ha hb hbn hrec
        (fun p hp key hk => hret p hp key hk a List.mem_cons_self)
        (fun p hp key hk => hret p hp key hk b (List.mem_cons_of_mem _ List.mem_cons_self)) hit
      rw [NoReturn] at hno
      obtain ⟨N2, k', st2, items2, h4, h5, h6⟩ := ih _
        (k + (e.hiveBinsDataSize - bins) - (e.hiveBinsDataSize - size)) b rest (done ++ [(a, b)]) st1 items1
        (by omega) hrep hb
        (fun s hs => ⟨(hrest s (List.mem_cons_of_mem _ hs)).1, by
          rw [(hrest s (List.mem_cons_of_mem _ hs)).2, hbn]⟩) h2 h3 (by
          intro p hp key hk s hs
          rcases List.mem_append.1 hp with hp | hp
          · exact hret p hp key hk s (List.mem_cons_of_mem _ hs)
          · rw [List.mem_singleton] at hp
            subst hp
            rcases List.mem_cons.1 hs with rfl | hs
            · exact hk.2
            · exact hno.1 key hk s hs) hno.2
      refine ⟨max N1 N2, k', st2, items2, ?_, ?_, ?_⟩
      · intro steps hs
        rw [recordedOver, happ]
        simp only
        rw [hgrow]
        have : World.analyze { w with steps } true (a.buf ++ List.replicate (k + (e.hiveBinsDataSize - bins)) 0) e.seq
            (b.buf ++ List.replicate (k + (e.hiveBinsDataSize - bins) - (e.hiveBinsDataSize - size)) 0)
            (some (.ok (st, items))) = some (.ok (st1, items1)) := by
          unfold World.analyze
          simp only [if_true]
          rw [← hseq]
          exact h1 steps (by omega)
        rw [this]
        exact h4 steps (by omega)
      · rw [steps]
        rw [List.append_assoc] at h5
        exact h5
      · rw [applyAll, happ, Res.bind_ok, h6]
        rfl

/-- The iteration of a state without records yields the keys with their values. -/
theorem start_values (w : World) (hd : 0 < w.depth) (s : FileState) (hs : Ordinary w s) (bb : BaseBlock) (st : State)
    (hst : st.Plain) (root : Node) (hr : initRoot (w.env s.buf) st = .ok (some root, st.rootOffset)) (N : Nat)
    (ns : List Node) (hc : collect (nextPre (w.env s.buf)) N (.start st (some root) {} true false) = some (.ok ns)) :
    ∀ n ∈ ns, WithValues (w.env s.buf) s.tree n := by
  have hdel : StateDel st := by
    intro p ds h
    rw [hst.1] at h; cases h
  have hatt : AttachOk (w.env s.buf) st := attachOk_empty _ _ hd hst.1
  have ht := hs.stored
  obtain ⟨root1, N1, ns1, live, h1, h2, h3, h4, h5, h6, h7⟩ := iteration_shown (w.env s.buf) st s.tree true false ht.bin
    ht.top ht.tree ht.once hdel hatt
  obtain ⟨root', hr', hl⟩ := plain_lists w s.buf bb st s.tree hd hst.1 ht.toStoredTree
  obtain ⟨steps0, ns0, hi0, hobs⟩ := hl true false
  rw [hr] at h1 hr'
  cases h1; cases hr'
  have := collect_unique (fuelMono_pre (w.env s.buf)) _ _ _ _ _ hi0 h2
  cases this
  have := collect_unique (fuelMono_pre (w.env s.buf)) _ _ _ _ _ hc h2
  cases this
  have hall := liveKeys_all (h6.trans hobs.symm)
  intro n hn
  obtain ⟨u, hu, gm, path, fs, m, so, tr, _, hr, hk, _, _, hf⟩ := h7 n hn (hall n hn)
  have hfs : fs ≠ some .None := by
    have hf := hf rfl
    obtain ⟨_, _, _, _, _, hmk⟩ := hr.key
    rw [hk, hmk] at hf
    exact hf
  obtain ⟨u', hu', e1, k, e2⟩ := reads_withValues _ st hst gm path s.tree u hu fs m hr hfs
  exact ⟨u', hu', by rw [hk]; exact e1, k, by rw [hk]; exact e2⟩

/-- The items of the file itself. -/
theorem records_start (w : World) (hd : 0 < w.depth) (s : FileState) (hs : Ordinary w s) (bb : BaseBlock) (st : State)
    (hst : st.Plain) :
    ∃ N items, (∀ steps, N ≤ steps → getRegItems (w.env s.buf) steps 0 st = some (.ok (items, st))) ∧
      Describes w s items := by
  obtain ⟨root, hr, ht⟩ := plain_tells w s.buf bb st s.tree s.vals hd hst hs.stored
  obtain ⟨N, ns, h1, h2, h3⟩ := ht true false
  have hsees : Sees s ns := ⟨h2, fun n hn => by
    obtain ⟨u, hu, hk⟩ := h3 n hn
    have : n.key.name = u.name := hk.2.1
    rw [this]
    exact every_nodes _ hs.names u hu⟩
  have h1' : collect (nextPre (w.env s.buf)) N (.start st (some root) {} true false) = some (.ok ns) := h1
  have hno : ∀ path, NothingAt st path := fun path => ⟨by rw [hst.1]; rfl, by rw [hst.2.2.1]; rfl⟩
  obtain ⟨items, st', e1, e2, e3, e4, _, e6, _⟩ := analysis_starts (w.env s.buf) N 0 st ns
    ⟨some root, st.rootOffset, hr, h1'⟩ (sees_plain hs hsees) hno
  have hwv := start_values w hd s hs bb st hst root hr N ns h1'
  refine ⟨N, items, fun steps hst' => ?_, describes_of (more := []) hs hsees (by rw [List.append_nil]; exact hwv)
    (by rw [List.append_nil]; exact e3) e4 e2 e6⟩
  unfold getRegItems at e1 ⊢
  rw [hr] at e1 ⊢
  simp only at e1 ⊢
  rw [h1'] at e1
  rw [collect_mono (fuelMono_pre _) _ _ _ _ h1' hst']
  simp only at e1 ⊢
  cases hl : regItemsLoop 0 (ns.flatMap seenOf) [] with
  | ok m => rw [hl] at e1; cases e1; rfl
  | err => rw [hl] at e1; cases e1
  | panic => rw [hl] at e1; cases e1

theorem lostRecords_start (w : World) (st : State) (h : st.Plain) : LostRecords w [] st := by
  refine ⟨nofun, ?_, nofun, ?_, fun q => by rw [h.1]; exact List.nodup_nil⟩
  · intro q d hd
    rw [h.1] at hd
    cases hd
  · refine ⟨?_, ?_, ?_, fun n => ?_⟩
    · rw [h.1]; rfl
    · rw [h.2.2.2]; rfl
    · rw [h.2.2.1]; rfl
    · rw [h.2.1]; rfl

/-! ### Reaching every record -/

/-- What is not there in the end was lost in some step. -/
theorem lost_later {x : Str} : ∀ (rest : List FileState) (a : FileState), x ∈ a.paths →
    x ∉ ((a :: rest).getLast (by simp)).paths → ∃ q ∈ steps (a :: rest), x ∈ q.1.paths ∧ x ∉ q.2.paths := by
  intro rest
  induction rest with
  | nil => intro a h h'; exact absurd h h'
  | cons b rest ih =>
    intro a h h'
    rw [steps]
    by_cases hb : x ∈ b.paths
    · obtain ⟨q, hq, h1⟩ := ih b hb (by simpa using h')
      exact ⟨q, List.mem_cons_of_mem _ hq, h1⟩
    · exact ⟨(a, b), List.mem_cons_self, h, hb⟩

theorem lost_after {x : Str} : ∀ (rest : List FileState) (a : FileState), ∀ p ∈ steps (a :: rest), x ∈ p.1.paths →
    x ∉ ((a :: rest).getLast (by simp)).paths → ∃ q ∈ steps (a :: rest), x ∈ q.1.paths ∧ x ∉ q.2.paths := by
  intro rest
  induction rest with
  | nil => intro a p hp; cases hp
  | cons b rest ih =>
    intro a p hp h h'
    have hp0 := hp
    rw [steps] at hp
    rcases List.mem_cons.1 hp with rfl | hp
    · exact lost_later (b :: rest) a h h'
    · obtain ⟨q, hq, h1⟩ := ih b p hp h (by simpa using h')
      exact ⟨q, by rw [steps]; exact List.mem_cons_of_mem _ hq, h1⟩

theorem steps_mem : ∀ (l : List FileState), ∀ p ∈ steps l, p.1 ∈ l ∧ p.2 ∈ l := by
  intro l
  induction l with
  | nil => intro p hp; cases hp
  | cons a l ih =>
    intro p hp
    cases l with
    | nil => cases hp
    | cons b l =>
      rw [steps] at hp
      rcases List.mem_cons.1 hp with rfl | hp
      · exact ⟨List.mem_cons_self, List.mem_cons_of_mem _ List.mem_cons_self⟩
      · exact ⟨List.mem_cons_of_mem _ (ih p hp).1, List.mem_cons_of_mem _ (ih p hp).2⟩

theorem root_shortest {w : World} {s : FileState} (hs : Ordinary w s) {e : Nat × Str} (he : e ∈ s.keys)
    (hne : e.2 ≠ '\\' :: s.tree.name) : ('\\' :: s.tree.name).length < e.2.length := by
  have key : ∀ n, ∀ e ∈ s.keys, e.2.length = n → e.2 = '\\' :: s.tree.name ∨
      ('\\' :: s.tree.name).length < e.2.length := by
    intro n
    induction n using Nat.strongRecOn with
    | _ n ih =>
      intro e he hlen
      obtain ⟨u, hu, _, _, h⟩ := pre_from s.buf 4096 w.depth s.tree [] hs.stored.tree e he
      rcases h with ⟨_, h⟩ | ⟨_, e', he', h⟩
      · exact .inl h
      · have hl : e.2.length = e'.2.length + (u.name.length + 1) := by rw [h]; simp
        right
        rcases ih e'.2.length (by omega) e' he' rfl with h' | h'
        · rw [← h']; omega
        · omega
  exact (key _ e he rfl).resolve_left hne

/-- Every lost key below a surviving one other than the root is reached from a surviving one. -/
theorem lost_reached (w : World) (a : FileState) (rest : List FileState) (st : State)
    (hrec : LostRecords w (steps (a :: rest)) st) (hap : Apart (a :: rest))
    (hlast : Ordinary w ((a :: rest).getLast (by simp))) :
    ∀ n, ∀ p ∈ steps (a :: rest), ∀ key, Lost p.1 p.2 key → key.2.length = n →
      ∀ e ∈ ((a :: rest).getLast (by simp)).keys, e.2 ≠ '\\' :: ((a :: rest).getLast (by simp)).tree.name →
      ∀ r, key.2 = e.2 ++ '\\' :: r →
      ∃ e' ∈ ((a :: rest).getLast (by simp)).keys, e'.2 ≠ '\\' :: ((a :: rest).getLast (by simp)).tree.name ∧
        ∃ d o, LostRecord p.1 p.2 key d ∧ (∃ s ∈ a :: rest, (o, upTo key.2) ∈ s.keys) ∧
          ∀ k : KeyNode, lookupKey k = e'.2 → k.fileOffset = e'.1 → Reaches st k d o := by
  intro n
  induction n using Nat.strongRecOn with
  | _ n ih =>
    intro p hp key hl hlen e he hne r hr
    obtain ⟨hpo, hpn⟩ := hrec.ordinary p hp
    obtain ⟨u, hu, h1, h2, h3, h4, q, hq, h5⟩ := lost_below hpo hpn hl
    have hup : upTo key.2 = q.2 := by rw [h5, upTo_child _ _ h3]
    obtain ⟨d, hd, hdr⟩ := hrec.complete p hp key hl
    have hlk : key.2.length = q.2.length + (u.name.length + 1) := by rw [h5]; simp
    have hqe : q.2 = e.2 ∨ ∃ r', q.2 = e.2 ++ '\\' :: r' := below_parent h3 (h5.symm.trans hr)
    by_cases hlastq : q.2 ∈ ((a :: rest).getLast (by simp)).paths
    · obtain ⟨e', he', hee⟩ := List.mem_map.1 hlastq
      have hlong := root_shortest hlast he hne
      have hge : e.2.length ≤ q.2.length := by
        rcases hqe with h | ⟨r', h⟩ <;> rw [h]
        · exact Nat.le_refl _
        · simp
      refine ⟨e', he', ?_, d, e'.1, hdr, ⟨_, List.getLast_mem (by simp), ?_⟩, ?_⟩
      · intro hc
        rw [← hc, hee] at hlong
        omega
      · rw [hup, ← hee]; exact he'
      · intro k hk ho
        rw [← ho]
        exact .here d (by rw [hk, hee, ← hup]; exact hd)
    · obtain ⟨p', hp', hin, hout⟩ := lost_after rest a p hp (List.mem_map.2 ⟨q, hq, rfl⟩) hlastq
      obtain ⟨key', hkey', hkq⟩ := List.mem_map.1 hin
      have hl' : Lost p'.1 p'.2 key' := ⟨hkey', by rw [hkq]; exact hout⟩
      obtain ⟨r', hr'⟩ := hqe.resolve_left (fun h => hlastq (by rw [h]; exact List.mem_map.2 ⟨e, he, rfl⟩))
      obtain ⟨e', he', hne', d', o', hdr', ⟨s, hs, hso⟩, hreach⟩ := ih key'.2.length (by rw [hkq]; omega) p' hp' key'
        hl' rfl e he hne r' (by rw [hkq, hr'])
      obtain ⟨u', _, _, _, g3, _, q', _, g5⟩ := lost_below (hrec.ordinary p' hp').1 (hrec.ordinary p' hp').2 hl'
      have hoff : d'.key.fileOffset ≠ o' := by
        rw [hdr'.off]
        refine (hap s hs p'.1 (steps_mem _ p' hp').1 (o', upTo key'.2) hso key' hkey' u'.name ?_ g3).symm
        rw [g5, upTo_child _ _ g3]
      refine ⟨e', he', hne', d, d'.key.fileOffset, hdr, ⟨p'.1, (steps_mem _ p' hp').1, ?_⟩, ?_⟩
      · rw [hdr'.off, hup, ← hkq]; exact hkey'
      · intro k hk ho
        refine .step d' d o' (hreach k hk ho) hoff ?_
        have : lookupKey d'.key = upTo key.2 := by
          unfold lookupKey
          rw [hdr'.flag, hup, hdr'.path, hkq]
          rfl
        rw [this]
        exact hd

theorem LostRecords.withInfo {w : World} {done st} (h : LostRecords w done st) (info : Logs) :
    LostRecords w done { st with info } :=
  ⟨h.ordinary, h.sound, h.complete, ⟨h.top.1, h.top.2, h.top.3, h.top.4⟩, h.once⟩

theorem tellsLost_of {a b : FileState} {key : Nat × Str} {d x n : Node} (h : LostRecord a b key d)
    (hx : x.key = { d.key with values := x.key.values }) (hn : Yielded x n) : TellsLost a b key n := by
  obtain ⟨_, so, tr, s, hk⟩ := hn
  obtain ⟨u, hu, h1, h2, h3, h4, h5⟩ := h.cell
  rw [hx] at hk
  rw [TellsLost, hk]
  exact ⟨⟨u, by rw [nodes_cons]; exact List.mem_cons_of_mem _ hu, h1, h2, h3, h4, h5⟩, h.off, h.path, h.state, h.until_⟩

/-- What is lost is not there in the end. -/
theorem noReturn_last : ∀ (rest : List FileState) (a : FileState), NoReturn (a :: rest) → ∀ p ∈ steps (a :: rest),
    ∀ key, Lost p.1 p.2 key → key.2 ∉ ((a :: rest).getLast (by simp)).paths := by
  intro rest
  induction rest with
  | nil => intro a _ p hp; cases hp
  | cons b rest ih =>
    intro a hno p hp key hl
    rw [NoReturn] at hno
    rw [steps] at hp
    rw [List.getLast_cons (by simp)]
    rcases List.mem_cons.1 hp with rfl | hp
    · cases rest with
      | nil => exact hl.2
      | cons c rest =>
        rw [List.getLast_cons (by simp)]
        exact hno.1 key hl _ (List.getLast_mem _)
    · exact ih b hno.2 p hp key hl

/-- What is attached to the keys of a state is attached once. -/
theorem attached_once (last : FileState) (hpaths : last.paths.Nodup) (L : Str → Prop) (hL : ∀ q, L q → q ∉ last.paths) :
    ∀ live : List Node, (∀ n ∈ live, obs n ∈ last.keys) → (live.map obs).Nodup →
    (∀ n ∈ live, ((belowAll n.deletedKeys).map fun x => x.key.path).Nodup ∧
      ∀ x ∈ belowAll n.deletedKeys, Above n.key.path x.key.path ∧
        ∀ q, (q = x.key.path ∨ Above q x.key.path) → Above n.key.path q → L q) →
    ((live.flatMap belowTree).map fun x => x.key.path).Nodup := by
  intro live
  induction live with
  | nil => intro _ _ _; exact List.nodup_nil
  | cons n live ih =>
    intro hin hnd hatt
    have hpath : ∀ m ∈ n :: live, m.key.path ∈ last.paths := fun m hm => List.mem_map.2 ⟨_, hin m hm, rfl⟩
    obtain ⟨a1, a2⟩ := hatt n List.mem_cons_self
    rw [List.flatMap_cons, List.map_append, List.nodup_append]
    refine ⟨?_, ih (fun m hm => hin m (List.mem_cons_of_mem _ hm)) (List.nodup_cons.1 hnd).2
      (fun m hm => hatt m (List.mem_cons_of_mem _ hm)), ?_⟩
    · rw [belowTree_eq, List.map_cons, List.nodup_cons]
      refine ⟨?_, a1⟩
      intro hm
      obtain ⟨x, hx, hxp⟩ := List.mem_map.1 hm
      have := (a2 x hx).1.shorter
      rw [hxp] at this
      omega
    · intro p hp p' hp' e
      subst e
      obtain ⟨x, hx, rfl⟩ := List.mem_map.1 hp
      obtain ⟨y, hy, hyx⟩ := List.mem_map.1 hp'
      have hyx : y.key.path = x.key.path := hyx
      obtain ⟨m, hm, hy⟩ := List.mem_flatMap.1 hy
      obtain ⟨b1, b2⟩ := hatt m (List.mem_cons_of_mem _ hm)
      have hne : n.key.path ≠ m.key.path := by
        intro e
        apply (List.nodup_cons.1 hnd).1
        have := key_of_path hpaths (hin n List.mem_cons_self) (hin m (List.mem_cons_of_mem _ hm)) e
        rw [this]
        exact List.mem_map.2 ⟨m, hm, rfl⟩
      rw [belowTree_eq] at hx hy
      rcases List.mem_cons.1 hx with rfl | hx <;> rcases List.mem_cons.1 hy with rfl | hy
      · exact hne hyx.symm
      · exact hL _ ((b2 y hy).2 _ (.inl rfl) (b2 y hy).1) (by rw [hyx]; exact hpath _ List.mem_cons_self)
      · exact hL _ ((a2 x hx).2 _ (.inl rfl) (a2 x hx).1) (by rw [← hyx]; exact hpath _ (List.mem_cons_of_mem _ hm))
      · obtain ⟨r, hr⟩ := (a2 x hx).1
        obtain ⟨r', hr'⟩ := (b2 y hy).1
        rcases above_compare hr (hyx ▸ hr') with h | h | h
        · exact hne h
        · exact hL _ ((a2 x hx).2 _ (.inr ⟨r', hyx ▸ hr'⟩) h) (hpath _ (List.mem_cons_of_mem _ hm))
        · exact hL _ ((b2 y hy).2 _ (.inr ⟨r, by rw [hyx]; exact hr⟩) h) (hpath _ List.mem_cons_self)

/-- The records of lost keys are filed as they should be. -/
theorem LostRecords.filedOnce {w : World} {done st} (h : LostRecords w done st) :
    FiledOnce st (fun q => ∃ p ∈ done, ∃ key, Lost p.1 p.2 key ∧ key.2 = q) := by
  refine ⟨fun q d hd => ?_, h.once⟩
  obtain ⟨p, hp, key, hl, hr, hk⟩ := h.sound q d hd
  obtain ⟨hpo, hpn⟩ := h.ordinary p hp
  obtain ⟨u, hu, h1, h2, h3, h4, e, he, h5⟩ := lost_below hpo hpn hl
  refine ⟨hr.bare.2, ?_, ⟨p, hp, key, hl, hr.path.symm⟩, d.key.name, ?_, by rw [hr.path, hk]⟩
  · unfold lookupKey
    rw [hr.flag]; rfl
  · obtain ⟨u', hu', g1, g2, _⟩ := hr.cell
    have : u' = u := off_inj hpo.stored.once hu' hu (g1.trans h1.symm)
    rw [g2, this]; exact h3

/-- What the iteration shows when the records are as described. -/
theorem records_shown (w : World) (hw : 1 < w.depth) (a : FileState) (rest : List FileState) (st : State)
    (hrec : LostRecords w (steps (a :: rest)) st) (hap : Apart (a :: rest)) (hno : NoReturn (a :: rest)) (last : FileState)
    (hla : last = (a :: rest).getLast (by simp)) (hlast : Ordinary w last) (buf : Bytes)
    (hbuf : StoredHive w buf last.tree last.vals) (anc : Bool) :
    ∃ root, initRoot (w.env buf) st = .ok (some root, st.rootOffset) ∧
    ∃ N ns, collect (nextPre (w.env buf)) N (.start st (some root) {} true anc) = some (.ok ns) ∧
      liveKeys ns = last.keys ∧
      (∀ y ∈ ns, y.key.cellState ≠ .Allocated →
        ∃ p ∈ steps (a :: rest), ∃ key, Lost p.1 p.2 key ∧ BelowSurvivor last key.2 ∧ TellsLost p.1 p.2 key y) ∧
      (∀ p ∈ steps (a :: rest), ∀ key, Lost p.1 p.2 key → BelowSurvivor last key.2 →
        ∃ y ∈ ns, TellsLost p.1 p.2 key y) ∧ (ns.map fun y => y.key.path).Nodup := by
  obtain ⟨root, N, ns, live, h1, h2, h3, _, _, h6, _, h8, h9⟩ := iteration_yields (w.env buf) st last.tree true anc
    hbuf.bin hbuf.top hbuf.tree hbuf.once hrec.stateDel (hrec.attachOk buf hw)
  refine ⟨root, h1, N, ns, h2, h6, ?_, ?_, ?once⟩
  case once =>
    rw [pairwise2_map_eq (fun x : Node => x.key.path) (fun y : Node => y.key.path) (fun x y hxy => by
      obtain ⟨_, so, tr, s, hk⟩ := hxy
      rw [hk]) h9]
    have hin : ∀ n ∈ live, obs n ∈ last.keys := fun n hn => by
      have : obs n ∈ live.map obs := List.mem_map.2 ⟨n, hn, rfl⟩
      rw [h3] at this
      exact this
    refine attached_once last hlast.paths (fun q => ∃ p ∈ steps (a :: rest), ∃ key, Lost p.1 p.2 key ∧ key.2 = q) ?_
      live hin ?_ ?_
    · rintro q ⟨p, hp, key, hl, rfl⟩
      rw [hla]
      exact noReturn_last rest a hno p hp key hl
    · rw [h3]
      exact List.Pairwise.of_map Prod.snd (fun _ _ h e => h (congrArg Prod.snd e)) hlast.paths
    · intro n hn
      obtain ⟨gm0, path, u, s, hu, hg, _, _, hr, _⟩ := h8 n hn
      have hg0 : gm0 = true := hg rfl
      subst hg0
      obtain ⟨k, vs, lg, s0, m', hkm, _, hup, hnm, _⟩ := hr
      rw [if_pos rfl] at hup
      have hkey := updateModifiedLists_key st _ _ _ hup
      have hnk : n.deletedKeys = m'.deletedKeys ∧ n.key.path = k.path := by
        rw [hnm]
        refine ⟨rfl, ?_⟩
        show m'.key.path = _
        rw [hkey]; rfl
      rw [hnk.1, hnk.2]
      obtain ⟨o1, o2⟩ := attach_once st _ hrec.filedOnce _ _ m' rfl hup
      refine ⟨o1, ?_⟩
      by_cases hflag : k.flagBits.testBit 2 = true
      · intro x hx
        exfalso
        obtain ⟨q, hq, d, hd, _⟩ := attach_sound st (· = []) (fun q hq d hd => by
          rw [hq, hrec.top.keys] at hd; cases hd) _ _ m' rfl
          (by show (if k.flagBits.testBit 2 then [] else k.path) = _; rw [hflag]; rfl) hup x hx
        rw [hq, hrec.top.keys] at hd
        cases hd
      · have hlk : ∀ vs lg s0, lookupKey (Node.mk { k with values := vs, logs := lg, filterState := s0 } [] []).key = k.path := by
          intro vs lg s0
          show (if k.flagBits.testBit 2 then [] else k.path) = _
          rw [if_neg hflag]
        rw [hlk] at o2
        exact o2
  · intro y hy hst
    obtain ⟨m, hm, hmy⟩ := pairwise2_mem_right h9 y hy
    obtain ⟨n0, hn0, hm⟩ := List.mem_flatMap.1 hm
    obtain ⟨gm0, path, u, s, hu, hg, _, _, hr, _⟩ := h8 n0 hn0
    have hg0 : gm0 = true := hg rfl
    subst hg0
    rw [belowTree_eq] at hm
    rcases List.mem_cons.1 hm with rfl | hm
    · exfalso
      obtain ⟨k, vs, lg, _, hf, hk⟩ := hr.key
      obtain ⟨_, so, tr, s', hk'⟩ := hmy
      apply hst
      rw [hk', hk]
      exact hf.2.2.2.2.2.2.2
    · obtain ⟨k, vs, lg, s0, m', hkm, _, hup, hn, _⟩ := hr
      rw [if_pos rfl] at hup
      have hm' : m ∈ belowAll m'.deletedKeys := by rw [hn] at hm; exact hm
      have hkey := updateModifiedLists_key st _ _ _ hup
      have hobs : obs n0 = (k.fileOffset, k.path) := by
        rw [hn]
        show (m'.key.fileOffset, m'.key.path) = _
        rw [hkey]; rfl
      have he : (k.fileOffset, k.path) ∈ last.keys := by
        rw [← hobs]
        have : obs n0 ∈ live.map obs := List.mem_map.2 ⟨n0, hn0, rfl⟩
        rw [h3] at this
        exact this
      obtain ⟨_, g2, _, _, _, _, _, _, _, _, _, _, _, _, _, _, _, _, _, _, _, _, _, g24, _⟩ := hkm
      by_cases hflag : k.flagBits.testBit 2 = true
      · exfalso
        obtain ⟨q, hq, d, hd, _⟩ := attach_sound st (· = []) (fun q hq d hd => by
          rw [hq, hrec.top.keys] at hd; cases hd) _ _ m' rfl
          (by show (if k.flagBits.testBit 2 then [] else k.path) = _; rw [hflag]; rfl) hup m hm'
        rw [hq, hrec.top.keys] at hd
        cases hd
      · have hroot : k.path ≠ '\\' :: last.tree.name := by
          intro hc
          have hr0 : (last.tree.off, '\\' :: last.tree.name) ∈ last.keys := by
            unfold FileState.keys
            cases last.tree
            rw [Tree.pre]
            exact List.mem_cons_self
          have := key_of_path hlast.paths he hr0 hc
          have ho : k.fileOffset = last.tree.off := congrArg Prod.fst this
          have : u = last.tree := map_inj_of_nodup Tree.off _ (by rw [nodes_offs]; exact hlast.stored.once) u hu _
            (mem_nodes_self _) (by rw [← g24, ho])
          apply hflag
          rw [g2, this]
          exact hlast.root
        obtain ⟨q, hq, d, hd, hx⟩ := attach_sound st (fun q => q = k.path ∨ ∃ r, q = k.path ++ '\\' :: r)
          (fun q hq d hd => by
            obtain ⟨_, _, key, _, hr, hk⟩ := hrec.sound q d hd
            refine ⟨hr.bare.2, .inr ?_⟩
            have : lookupKey d.key = key.2 := by
              unfold lookupKey
              rw [hr.flag, hr.path]; rfl
            rw [this, hk]
            rcases hq with rfl | ⟨r, rfl⟩
            · exact ⟨_, rfl⟩
            · exact ⟨r ++ '\\' :: d.key.name, by simp⟩) _ _ m' rfl
          (.inl (by show (if k.flagBits.testBit 2 then [] else k.path) = _; rw [if_neg hflag])) hup m hm'
        obtain ⟨p, hp, key, hl, hdr, hk⟩ := hrec.sound q d hd
        refine ⟨p, hp, key, hl, ⟨_, he, hroot, ?_⟩, tellsLost_of hdr hx hmy⟩
        rw [hk]
        rcases hq with rfl | ⟨r, rfl⟩
        · exact ⟨_, rfl⟩
        · exact ⟨r ++ '\\' :: d.key.name, by simp⟩
  · rintro p hp key hl ⟨e, he, hne, r, hr⟩
    subst hla
    obtain ⟨e', he', hne', d, o, hdr, _, hreach⟩ := lost_reached w a rest st hrec hap hlast _ p hp key hl rfl e he hne r hr
    have he'' : e' ∈ live.map obs := by rw [h3]; exact he'
    obtain ⟨n0, hn0, hobs⟩ := List.mem_map.1 he''
    obtain ⟨gm0, path, u, s, hu, hg, _, _, hr, _⟩ := h8 n0 hn0
    have hg0 : gm0 = true := hg rfl
    subst hg0
    obtain ⟨k, vs, lg, s0, m', hkm, hf, hup, hn, _⟩ := hr
    rw [if_pos rfl] at hup
    have hkey := updateModifiedLists_key st _ _ _ hup
    have hpath : k.path = e'.2 := by
      rw [← hobs, hn]
      show k.path = m'.key.path
      rw [hkey]; rfl
    have hfo : k.fileOffset = e'.1 := by
      rw [← hobs, hn]
      show k.fileOffset = m'.key.fileOffset
      rw [hkey]; rfl
    obtain ⟨_, g2, _, _, _, _, _, _, _, _, _, _, _, _, _, _, _, _, _, _, _, _, _, g24, _⟩ := hkm
    have hflag : k.flagBits.testBit 2 = false := by
      obtain ⟨u', hu', f1, _, f3⟩ := pre_from _ 4096 w.depth _ [] hlast.stored.tree e' he'
      have : u = u' := map_inj_of_nodup Tree.off _ (by rw [nodes_offs]; exact hlast.stored.once) u hu u' hu' (by
        rw [f1, ← hfo, g24])
      subst this
      rcases f3 with ⟨rfl, f3⟩ | ⟨f3, _⟩
      · exact absurd f3 hne'
      · rw [g2]; exact everyAll_nodes _ hlast.inner u f3
    obtain ⟨_, x, hx, hdx⟩ := reaches_attached st (fun q d hd => by
        obtain ⟨_, _, _, _, hr, _⟩ := hrec.sound q d hd
        exact ⟨hr.bare.2, hr.state⟩) _
      (.mk { k with values := vs, logs := lg, filterState := s0 } [] []) m' rfl hf.2.2.2.2.2.2.2 hup d o
      (hreach _ (by show (if k.flagBits.testBit 2 then [] else k.path) = _; rw [hflag]; exact hpath) hfo)
    have hxk : x.key = { d.key with values := x.key.values } := by
      rcases hdx with ⟨_, f, h⟩ | ⟨_, rfl⟩
      · exact updateModifiedLists_key st f d x h
      · rfl
    obtain ⟨y, hy, hxy⟩ := pairwise2_mem_left h9 x (List.mem_flatMap.2 ⟨n0, hn0, by
      rw [belowTree_eq, hn]; exact List.mem_cons_of_mem _ hx⟩)
    exact ⟨y, hy, tellsLost_of hdr hxk hxy⟩

end Notatin
