import Verif.Lemmas.Kids
import Verif.Spec.Iteration
/-
Running the pre-order iterator over a stored tree, for any filter.
-/
namespace Notatin
open Spec

/-- From `ctx` the iterator yields `out` and is then in `ctx'`. -/
def Emits (next : Nat → IterCtx → Option (Res (Option Node × IterCtx))) (ctx : IterCtx)
    (out : List Node) (ctx' : IterCtx) : Prop :=
  ∀ r, Runs next ctx' r → Runs next ctx (out.foldr consRes r)

theorem Emits.refl {next} (ctx : IterCtx) : Emits next ctx [] ctx := fun _ h => h

theorem Emits.trans {next} {a b c : IterCtx} {o1 o2 : List Node} (h1 : Emits next a o1 b)
    (h2 : Emits next b o2 c) : Emits next a (o1 ++ o2) c := by
  intro r hr
  rw [List.foldr_append]
  exact h1 _ (h2 _ hr)

theorem foldr_consRes (out : List Node) : out.foldr consRes (.ok []) = .ok out := by
  induction out with
  | nil => rfl
  | cons n ns ih => rw [List.foldr_cons, ih]; rfl

theorem recoveredTree_eq (n : Node) : recoveredTree n = obs n :: recoveredAll n.deletedKeys := by
  cases n; rw [recoveredTree]; rfl

theorem recoveredAll_eq (ds : List Node) : recoveredAll ds = ds.reverse.flatMap recoveredTree := by
  induction ds with
  | nil => rfl
  | cons d ds ih => rw [recoveredAll, ih, List.reverse_cons, List.flatMap_append]; simp

theorem belowTree_eq (n : Node) : belowTree n = n :: belowAll n.deletedKeys := by
  cases n; rw [belowTree]; rfl

theorem belowAll_eq (ds : List Node) : belowAll ds = ds.reverse.flatMap belowTree := by
  induction ds with
  | nil => rfl
  | cons d ds ih => rw [belowAll, ih, List.reverse_cons, List.flatMap_append]; simp

theorem pairwise2_split {α β : Type} {R : α → β → Prop} : ∀ (as bs : List α) (out : List β),
    Pairwise2 R (as ++ bs) out → ∃ o1 o2, out = o1 ++ o2 ∧ Pairwise2 R as o1 ∧ Pairwise2 R bs o2 := by
  intro as
  induction as with
  | nil => intro bs out h; exact ⟨[], out, rfl, trivial, h⟩
  | cons a as ih => intro bs out h; cases out with
    | nil => exact absurd h (by simp [Pairwise2])
    | cons o out =>
      obtain ⟨o1, o2, e, h1, h2⟩ := ih bs out h.2
      exact ⟨o :: o1, o2, by rw [e]; rfl, ⟨h.1, h1⟩, h2⟩

/-- Passing on the filter state does not matter for what is yielded. -/
theorem yielded_inherit (s : Option FilterMatchState) : ∀ (l : List Node) (out : List Node),
    Pairwise2 Yielded ((l.map (inheritFilterState s)).flatMap belowTree) out →
    Pairwise2 Yielded (l.flatMap belowTree) out := by
  intro l
  induction l with
  | nil => intro out h; exact h
  | cons d ds ih =>
    intro out h
    rw [List.map_cons, List.flatMap_cons, belowTree_eq] at h
    rw [List.flatMap_cons, belowTree_eq]
    cases out with
    | nil => exact absurd h (by simp [Pairwise2])
    | cons n out =>
      obtain ⟨⟨hv, so, tr, s', hk⟩, h⟩ := h
      refine ⟨⟨hv, so, tr, s', hk⟩, ?_⟩
      obtain ⟨o1, o2, rfl, h1, h2⟩ := pairwise2_split _ _ _ h
      exact pairwise2_append h1 (ih o2 h2)

theorem liveKeys_append (a b : List Node) : liveKeys (a ++ b) = liveKeys a ++ liveKeys b := by
  unfold liveKeys; rw [List.filter_append, List.map_append]

theorem liveKeys_none {a : List Node} (h : ∀ n ∈ a, n.key.cellState ≠ .Allocated) : liveKeys a = [] := by
  unfold liveKeys
  rw [List.filter_eq_nil_iff.2 (fun n hn => by simpa using h n hn)]
  rfl

theorem liveKeys_single {n : Node} (h : n.key.cellState = .Allocated) : liveKeys [n] = [obs n] := by
  unfold liveKeys
  rw [List.filter_cons, if_pos (decide_eq_true h)]
  rfl

theorem recoveredTree_inherit (s : Option FilterMatchState) (n : Node) :
    recoveredTree (inheritFilterState s n) = recoveredTree n := by
  rw [recoveredTree_eq, recoveredTree_eq]; rfl

/-- Is a key with this filter state shown? -/
def shown (ctx : IterCtx) (s : Option FilterMatchState) : Bool :=
  ctx.includeAncestors || !ctx.filter.isValid || matchedState s

/-- Recovered keys are not followed. -/
theorem pushKids_deleted (env : Env) (ctx : IterCtx) (n : Node)
    (h : n.key.cellState ≠ .Allocated) :
    ∃ tr, pushKids env ctx n = .ok (n.setKey { n.key with toReturn := tr }, ctx) := by
  unfold pushKids
  split
  · unfold readSubKeysInternal
    simp only
    rw [if_neg h]
    exact ⟨0, rfl⟩
  · exact ⟨n.key.toReturn, by cases n; rfl⟩

/-- One round of the pre-order iterator. -/
theorem emits_round (env : Env) (ctx ctx' : IterCtx) (node node' : Node) (rest : List Node)
    (hs : ctx.stack = node :: rest)
    (h : pushKids env { ctx with stack := rest } node = .ok (node', ctx'))
    (hfs : node'.key.filterState = node.key.filterState)
    (hf : ctx'.filter = ctx.filter) (ha : ctx'.includeAncestors = ctx.includeAncestors) :
    Emits (nextPre env) ctx
      (if shown ctx node.key.filterState then [(pushDeleted node' ctx').1] else [])
      (pushDeleted node' ctx').2 := by
  intro r hr
  have hc : (((pushDeleted node' ctx').2.includeAncestors || !(pushDeleted node' ctx').2.filter.isValid
      || (pushDeleted node' ctx').1.key.isFilterMatchOrDescendent) = true)
      = (shown ctx node.key.filterState = true) := by
    show ((ctx'.includeAncestors || !ctx'.filter.isValid || node'.key.isFilterMatchOrDescendent) = true) = _
    rw [hf, ha]
    unfold KeyNode.isFilterMatchOrDescendent shown matchedState
    rw [hfs]
  by_cases hsh : shown ctx node.key.filterState = true
  · rw [if_pos hsh]
    refine runs_pre_some env ctx _ node _ rest r hs ?_ hr
    rw [preStep, h]
    simp only
    rw [if_pos (hc ▸ hsh)]
  · rw [if_neg hsh]
    refine runs_pre_none env ctx _ node rest r hs ?_ hr
    rw [preStep, h]
    simp only
    rw [if_neg (hc ▸ hsh)]

/-- Recovered keys on the stack are yielded one after the other, each followed by the keys
recovered below it. -/
theorem emits_deleted (env : Env) (s : Option FilterMatchState) (w : Nat) :
    ∀ (l : List Node) (ctx : IterCtx) (rest : List Node), weightAll l = w →
    (∀ d ∈ l, AllDel d ∧ d.key.filterState = s) → ctx.stack = l ++ rest →
    ∃ out, Emits (nextPre env) ctx out { ctx with stack := rest } ∧
      out.map obs = (if shown ctx s then l.flatMap recoveredTree else []) ∧
      (∀ n ∈ out, n.key.cellState ≠ .Allocated) ∧
      Pairwise2 Yielded (if shown ctx s then l.flatMap belowTree else []) out := by
  induction w using Nat.strongRecOn with
  | ind w ih =>
    intro l ctx rest hw hl hs
    cases l with
    | nil =>
      refine ⟨[], ?_, by simp, by simp, by split <;> trivial⟩
      have : ctx = { ctx with stack := rest } := by
        rw [List.nil_append] at hs
        cases ctx; simp only at hs; rw [hs]
      rw [← this]
      exact .refl _
    | cons d ds =>
      obtain ⟨hd, hds⟩ := hl d List.mem_cons_self
      rw [allDel_iff] at hd
      obtain ⟨tr, hp⟩ := pushKids_deleted env { ctx with stack := ds ++ rest } d hd.1
      have hround := emits_round env ctx _ d _ (ds ++ rest) hs hp rfl rfl rfl
      have hnew : (pushDeleted (d.setKey { d.key with toReturn := tr })
          { ctx with stack := ds ++ rest }).2.stack
          = ((d.deletedKeys.map (inheritFilterState s)).reverse ++ ds) ++ rest := by
        rw [List.append_assoc, ← hds]; rfl
      obtain ⟨out, ho, hm, hnl, hy⟩ := ih
        (weightAll ((d.deletedKeys.map (inheritFilterState s)).reverse ++ ds)) (by
          rw [weightAll_append, weightAll_reverse, weightAll_inherit, ← hw, weightAll,
            Node.weight_eq]; omega)
        ((d.deletedKeys.map (inheritFilterState s)).reverse ++ ds) _ rest rfl (by
          intro e he
          rcases List.mem_append.1 he with he | he
          · obtain ⟨e', he', rfl⟩ := List.mem_map.1 (List.mem_reverse.1 he)
            refine ⟨?_, rfl⟩
            have := hd.2 e' he'
            rw [allDel_iff] at this ⊢
            exact this
          · exact hl e (List.mem_cons_of_mem _ he)) hnew
      refine ⟨_, hround.trans ho, ?_, ?_, ?_⟩
      rotate_left
      · intro m hm
        rcases List.mem_append.1 hm with hm | hm
        · split at hm
          · rw [List.mem_singleton.1 hm]; exact hd.1
          · cases hm
        · exact hnl m hm
      · have hsh : shown (pushDeleted (d.setKey { d.key with toReturn := tr })
            { ctx with stack := ds ++ rest }).2 s = shown ctx s := rfl
        rw [hsh] at hy
        rw [hds]
        by_cases hsw : shown ctx s = true
        · rw [if_pos hsw] at hy
          rw [if_pos hsw, if_pos hsw, List.flatMap_cons, belowTree_eq, belowAll_eq, List.cons_append,
            ← List.flatMap_append]
          refine ⟨⟨rfl, d.key.subKeyOffsets, tr, d.key.filterState, rfl⟩, ?_⟩
          have e : (d.deletedKeys.map (inheritFilterState s)).reverse ++ ds
              = (d.deletedKeys.reverse).map (inheritFilterState s) ++ ds := by rw [List.map_reverse]
          rw [e, List.flatMap_append] at hy
          rw [List.flatMap_append]
          obtain ⟨o1, o2, rfl, h1, h2⟩ := pairwise2_split _ _ _ hy
          show Pairwise2 _ _ (o1 ++ o2)
          exact pairwise2_append (yielded_inherit s _ _ h1) h2
        · rw [if_neg hsw] at hy
          rw [if_neg hsw, if_neg hsw]
          exact hy
      have hsh : shown (pushDeleted (d.setKey { d.key with toReturn := tr })
          { ctx with stack := ds ++ rest }).2 s = shown ctx s := rfl
      rw [List.map_append, hm, hsh, hds]
      by_cases hsw : shown ctx s = true
      · simp only [if_pos hsw, List.map_cons, List.map_nil, List.flatMap_cons, recoveredTree_eq d,
          recoveredAll_eq, List.flatMap_append]
        have : ((d.deletedKeys.map (inheritFilterState s)).reverse).flatMap recoveredTree
            = d.deletedKeys.reverse.flatMap recoveredTree := by
          rw [← List.map_reverse, List.flatMap_map]
          simp only [recoveredTree_inherit]
        rw [this]
        simp only [List.cons_append, List.nil_append]
        rfl
      · simp only [if_neg hsw]; rfl

/-! ### Trees -/

mutual
/-- The listing of a tree by the iterator: `em` says which filter states are shown, `fl` how the
filter judges a sub-key (given the filter state of its parent and the parent's path). -/
def walk (valid : Bool) (em : Option FilterMatchState → Bool)
    (fl : Option FilterMatchState → Str → Tree → FilterFlags) (s : Option FilterMatchState)
    (path : Str) : Tree → List (Nat × Str)
  | .mk off _ name kids =>
    (if em s then [(off, path ++ '\\' :: name)] else []) ++
      walkAll valid em fl s (path ++ '\\' :: name) kids
/-- The listing of the sub-keys. -/
def walkAll (valid : Bool) (em : Option FilterMatchState → Bool)
    (fl : Option FilterMatchState → Str → Tree → FilterFlags) (s : Option FilterMatchState)
    (path : Str) : List Tree → List (Nat × Str)
  | [] => []
  | t :: ts =>
    (if fl s path t = .noMatch then []
     else walk valid em fl (kidState (matchedState s) valid (fl s path t)) path t) ++
      walkAll valid em fl s path ts
end

theorem foldl_pushCheck_all (l : List Node) (ctx : IterCtx)
    (hn : (l.map (·.key.fileOffset)).Nodup) (hs : ∀ n ∈ l, n.key.fileOffset ∉ ctx.seen) :
    l.foldl IterCtx.pushCheck ctx =
      { ctx with stack := l.reverse ++ ctx.stack,
                 seen := l.reverse.map (·.key.fileOffset) ++ ctx.seen } := by
  induction l generalizing ctx with
  | nil => rfl
  | cons a as ih =>
    have ha := hs a List.mem_cons_self
    have : ctx.pushCheck a =
        { ctx with seen := a.key.fileOffset :: ctx.seen, stack := a :: ctx.stack } := by
      unfold IterCtx.pushCheck; rw [if_neg ha]
    rw [List.map_cons, List.nodup_cons] at hn
    rw [List.foldl_cons, this, ih _ hn.2]
    · simp
    · intro n hn'
      simp only [List.mem_cons, not_or]
      refine ⟨?_, hs n (List.mem_cons_of_mem _ hn')⟩
      intro h
      exact hn.1 (h ▸ List.mem_map.2 ⟨n, hn', rfl⟩)

/-- What the theorems below assume of the filter: on every sub-key of the tree it says `fl`,
whatever root offset is cached (among those that occur). -/
def FilterSays (st : State) (f : Filter) (Good : Nat → Prop) (Below : Str → Tree → Prop)
    (fl : Option FilterMatchState → Str → Tree → FilterFlags) : Prop :=
  ∀ s path kid ro, Below path kid → Good ro → ∃ ro', Good ro' ∧ ∀ k : KeyNode,
    k.flagBits = kid.cell.flags → k.path = path ++ '\\' :: kid.name →
    filterStep { st with rootOffset := ro } (subFilterOf f s) k = .ok (fl s path kid, ro')

/-- `Below` is inherited by sub-keys. -/
def Hereditary (Below : Str → Tree → Prop) : Prop :=
  ∀ path t, Below path t → ∀ kid ∈ t.kids, Below (path ++ '\\' :: t.name) kid

theorem Reads.rootOffset {env st gm seq path t s n} {ro : Nat}
    (h : Reads env { st with rootOffset := ro } gm seq path t s n) :
    Reads env st gm seq path t s n := by
  obtain ⟨k, vs, lg, s0, m, h1, h2, h3, h4, h5⟩ := h
  refine ⟨k, vs, lg, s0, m, h1, h2, ?_, h4, h5⟩
  by_cases hg : gm = true
  · rw [if_pos hg, updateModifiedLists_rootOffset] at h3
    rw [if_pos hg]; exact h3
  · rw [if_neg hg] at h3
    rw [if_neg hg]; exact h3

theorem pairwise2_imp {α β : Type} {R S : α → β → Prop} : ∀ {as : List α} {bs : List β},
    (∀ a ∈ as, ∀ b ∈ bs, R a b → S a b) → Pairwise2 R as bs → Pairwise2 S as bs
  | [], [], _, _ => trivial
  | [], _ :: _, _, h => absurd h (by simp [Pairwise2])
  | _ :: _, [], _, h => absurd h (by simp [Pairwise2])
  | a :: as, b :: bs, hi, h => ⟨hi a List.mem_cons_self b List.mem_cons_self h.1,
      pairwise2_imp (fun a ha b hb => hi a (List.mem_cons_of_mem _ ha) b (List.mem_cons_of_mem _ hb)) h.2⟩

theorem pairwise2_mem_left {α β : Type} {R : α → β → Prop} : ∀ {as : List α} {bs : List β}, Pairwise2 R as bs →
    ∀ a ∈ as, ∃ b ∈ bs, R a b
  | [], [], _, a, ha => absurd ha List.not_mem_nil
  | [], _ :: _, h, _, _ => absurd h (by simp [Pairwise2])
  | _ :: _, [], h, _, _ => absurd h (by simp [Pairwise2])
  | a :: as, b :: bs, h, x, hx => by
    rcases List.mem_cons.1 hx with rfl | hx
    · exact ⟨b, List.mem_cons_self, h.1⟩
    · obtain ⟨y, hy, hr⟩ := pairwise2_mem_left h.2 x hx
      exact ⟨y, List.mem_cons_of_mem _ hy, hr⟩

theorem pairwise2_mem_right {α β : Type} {R : α → β → Prop} {as : List α} {bs : List β}
    (h : Pairwise2 R as bs) (b : β) (hb : b ∈ bs) : ∃ a ∈ as, R a b := by
  induction as generalizing bs with
  | nil => cases bs with
    | nil => cases hb
    | cons => exact absurd h (by simp [Pairwise2])
  | cons a as ih => cases bs with
    | nil => cases hb
    | cons b' bs =>
      rcases List.mem_cons.1 hb with rfl | hb
      · exact ⟨a, List.mem_cons_self, h.1⟩
      · obtain ⟨a', ha, hr⟩ := ih h.2 hb
        exact ⟨a', List.mem_cons_of_mem _ ha, hr⟩

theorem pairwise2_map_eq {α β γ : Type} {R : α → β → Prop} (f : α → γ) (g : β → γ)
    (hR : ∀ a b, R a b → g b = f a) {as : List α} {bs : List β} (h : Pairwise2 R as bs) :
    bs.map g = as.map f := by
  induction as generalizing bs with
  | nil => cases bs with
    | nil => rfl
    | cons => exact absurd h (by simp [Pairwise2])
  | cons a as ih => cases bs with
    | nil => exact absurd h (by simp [Pairwise2])
    | cons b' bs => rw [List.map_cons, List.map_cons, hR _ _ h.1, ih h.2]

theorem map_off_sublist (ts : List Tree) : (ts.map Tree.off).Sublist (offsAll ts) := by
  induction ts with
  | nil => exact List.Sublist.slnil
  | cons t ts ih =>
    cases t with
    | mk o c n ks =>
    rw [List.map_cons, offsAll, Tree.offs, List.cons_append]
    exact List.Sublist.cons_cons _ (ih.trans (List.sublist_append_right _ _))

theorem mem_offsAll_of_tree (ts : List Tree) (t : Tree) (ht : t ∈ ts) (x : Nat) (hx : x ∈ t.offs) :
    x ∈ offsAll ts := by
  induction ts with
  | nil => cases ht
  | cons a as ih =>
    rw [offsAll]
    rcases List.mem_cons.1 ht with rfl | ht
    · exact List.mem_append_left _ hx
    · exact List.mem_append_right _ (ih ht)

theorem mem_offs_of_kids (t : Tree) (x : Nat) (hx : x ∈ offsAll t.kids) : x ∈ t.offs := by
  cases t; rw [Tree.offs]; exact List.mem_cons_of_mem _ hx

theorem mem_offsAll_of_kid (ts : List Tree) (t : Tree) (ht : t ∈ ts) (x : Nat)
    (hx : x ∈ offsAll t.kids) : x ∈ offsAll ts :=
  mem_offsAll_of_tree ts t ht x (mem_offs_of_kids t x hx)

/-- In a forest without repeated offsets no top cell is below another top cell. -/
theorem kid_off_not_below (ts : List Tree) (hnd : (offsAll ts).Nodup) (t : Tree) (ht : t ∈ ts)
    (u : Tree) (hu : u ∈ ts) : u.off ∉ offsAll t.kids := by
  have hself : ∀ v : Tree, v.off ∈ v.offs := by
    intro v; cases v; rw [Tree.offs]; exact List.mem_cons_self
  induction ts with
  | nil => cases ht
  | cons a as ih =>
    rw [offsAll, List.nodup_append] at hnd
    intro hx
    rcases List.mem_cons.1 ht with rfl | _
    · rcases List.mem_cons.1 hu with rfl | hu
      · have := hnd.1
        cases u; rw [Tree.offs, List.nodup_cons] at this
        exact this.1 hx
      · exact hnd.2.2 _ (mem_offs_of_kids _ _ hx) _ (mem_offsAll_of_tree as u hu _ (hself u)) rfl
    · rename_i ht'
      rcases List.mem_cons.1 hu with rfl | hu
      · exact hnd.2.2 _ (hself _) _ (mem_offsAll_of_kid as t ht' _ hx) rfl
      · exact ih hnd.2.1 ht' hu hx

/-- Expanding a node that reads a stored tree: exactly the sub-keys the filter keeps are pushed,
the first on top. -/
theorem pushKids_tree (env : Env) (st : State) (ctx : IterCtx) (ro : Nat)
    (hst : ctx.state = { st with rootOffset := ro }) (hatt : ctx.getModified = true → AttachOk env st)
    (Good : Nat → Prop) (hro : Good ro) (Below : Str → Tree → Prop)
    (fl : Option FilterMatchState → Str → Tree → FilterFlags)
    (hfs : FilterSays st ctx.filter Good Below fl)
    (gm0 : Bool) (path : Str) (t : Tree) (s : Option FilterMatchState) (n : Node)
    (hb : ∀ kid ∈ t.kids, Below (path ++ '\\' :: t.name) kid)
    (ht : TreeAt env.fi.buffer env.fi.hbin env.depth t)
    (hn : Reads env st gm0 none path t s n)
    (hnd : (offsAll t.kids).Nodup) (hdis : ∀ x ∈ offsAll t.kids, x ∉ ctx.seen) :
    ∃ children ro' so, Good ro' ∧
      pushKids env ctx n = .ok (n.setKey { n.key with subKeyOffsets := so, toReturn := children.length },
        { ctx with stack := children ++ ctx.stack
                   seen := children.map (·.key.fileOffset) ++ ctx.seen
                   state := { st with rootOffset := ro' } }) ∧
      Pairwise2 (fun kid c => Reads env st ctx.getModified none (path ++ '\\' :: t.name) kid
          (kidState (matchedState s) ctx.filter.isValid (fl s (path ++ '\\' :: t.name) kid)) c)
        (t.kids.filter fun kid => decide (fl s (path ++ '\\' :: t.name) kid ≠ .noMatch)) children ∧
      so.length = t.kids.length := by
  have hfacts := hn.facts
  unfold pushKids
  by_cases h0 : 0 < n.key.nSubKeys
  · rw [if_pos h0]
    have hatt' : ctx.getModified = true → AttachOk env ctx.state := by
      intro hg k
      rw [hst, updateModifiedLists_rootOffset]
      exact hatt hg k
    obtain ⟨r, hr, hg, _, hp, so, hlen, hself⟩ := readSubKeysInternal_kids env ctx.state ctx.filter none
      ctx.getModified gm0 none st hatt' path t ht s n hn Good (by rw [hst]; exact hro)
      (fl s (path ++ '\\' :: t.name)) (by
        intro kid hk ro1 hg1
        obtain ⟨ro2, hg2, h2⟩ := hfs s _ kid ro1 (hb kid hk) hg1
        refine ⟨ro2, hg2, fun k h3 h4 => ?_⟩
        rw [hst]
        exact h2 k h3 h4)
    rw [hr]
    simp only
    have hoffs : r.children.map (·.key.fileOffset)
        = (t.kids.filter fun kid => decide (fl s (path ++ '\\' :: t.name) kid ≠ .noMatch)).map Tree.off :=
      pairwise2_map_eq _ _ (fun a b h => h.facts.1) hp
    have hsub : (r.children.map (·.key.fileOffset)).Sublist (offsAll t.kids) := by
      rw [hoffs]
      exact ((List.filter_sublist).map _).trans (map_off_sublist t.kids)
    have hpush := foldl_pushCheck_all r.children.reverse
      { ctx with state := { ctx.state with rootOffset := r.rootOffset } }
      (by rw [List.map_reverse, (List.reverse_perm _).nodup_iff]; exact hsub.nodup hnd)
      (by
        intro c hc
        exact hdis _ (hsub.subset (List.mem_map.2 ⟨c, List.mem_reverse.1 hc, rfl⟩)))
    rw [hpush, List.reverse_reverse, hself, hst]
    refine ⟨r.children, r.rootOffset, so, hg, rfl, ?_⟩
    rw [hst] at hp
    have hconv : ∀ {as : List Tree} {bs : List Node},
        Pairwise2 (fun kid c => Reads env { st with rootOffset := ro } ctx.getModified none (path ++ '\\' :: t.name) kid
          (kidState (matchedState s) ctx.filter.isValid (fl s (path ++ '\\' :: t.name) kid)) c) as bs →
        Pairwise2 (fun kid c => Reads env st ctx.getModified none (path ++ '\\' :: t.name) kid
          (kidState (matchedState s) ctx.filter.isValid (fl s (path ++ '\\' :: t.name) kid)) c) as bs := by
      intro as
      induction as with
      | nil => intro bs h; cases bs with
        | nil => trivial
        | cons => exact absurd h (by simp [Pairwise2])
      | cons a as ih => intro bs h; cases bs with
        | nil => exact absurd h (by simp [Pairwise2])
        | cons b bs => exact ⟨h.1.rootOffset, ih h.2⟩
    exact ⟨hconv hp, hlen⟩
  · rw [if_neg h0]
    have hk : t.kids = [] := by
      cases t with
      | mk o c nm ks =>
      rw [TreeAt] at ht
      rcases ht.2.1 with ⟨_, h⟩ | ⟨h, _⟩
      · exact h
      · rw [hfacts.2.2.1] at h0
        exact absurd h h0
    refine ⟨[], ro, n.key.subKeyOffsets, hro, ?_, by rw [hk]; trivial, by rw [hk, hn.offsets]; rfl⟩
    have htr := hfacts.2.2.2.2.2.2.1
    have e1 : n = n.setKey { n.key with subKeyOffsets := n.key.subKeyOffsets, toReturn := ([] : List Node).length } := by
      show n = n.setKey { n.key with toReturn := 0 }
      rw [← htr]; cases n; rfl
    have e2 : ctx = { ctx with
        stack := ([] : List Node) ++ ctx.stack
        seen := ([] : List Node).map (·.key.fileOffset) ++ ctx.seen
        state := { st with rootOffset := ro } } := by
      rw [← hst]; rfl
    rw [← e2, ← e1]

/-- A node read in the state `st` from a key cell that is stored in the file. -/
def IsRead (env : Env) (st : State) (n : Node) : Prop :=
  ∃ gm path t s, KeyAt env.fi.buffer t.off t.cell t.name ∧ Reads env st gm none path t s n

/-- The node was read in the state `st` from one of the given keys, with the recovered items attached if
`gm` and not attached unless `hi`; `all` says that its values have been read. -/
def IsReadFor (env : Env) (st : State) (gm hi all : Bool) (keys : List Tree) (n : Node) : Prop :=
  ∃ gm0 path t s, t ∈ keys ∧ (gm = true → gm0 = true) ∧ (gm0 = true → hi = true) ∧
    KeyAt env.fi.buffer t.off t.cell t.name ∧ Reads env st gm0 none path t s n ∧
    (all = true → s ≠ some .None)

theorem IsReadFor.mono {env st gm hi all keys keys' n} (h : IsReadFor env st gm hi all keys n)
    (hk : ∀ u ∈ keys, u ∈ keys') : IsReadFor env st gm hi all keys' n := by
  obtain ⟨gm0, path, t, s, h1, h2⟩ := h
  exact ⟨gm0, path, t, s, hk t h1, h2⟩

/-- The node `n` shows the stored key `u`: it is yielded as it was read, but for what the iterator keeps in
it; `all` says that its values have been read. -/
def IsShown (env : Env) (st : State) (all : Bool) (u : Tree) (n : Node) : Prop :=
  ∃ gm path s m so tr, KeyAt env.fi.buffer u.off u.cell u.name ∧ Reads env st gm none path u s m ∧
    n.key = { m.key with subKeyOffsets := so, toReturn := tr } ∧ so.length = u.kids.length ∧
    n.versions = m.versions ∧ (all = true → n.key.filterState ≠ some .None)

/-- What a run over some trees leaves: output, live keys shown. -/
def Listed (env : Env) (st : State) (hi : Bool) (ctx : IterCtx) (rest : List Node) (marks : List Nat)
    (Good : Nat → Prop) (listing : List (Nat × Str)) (keys : List Tree) : Prop :=
  ∃ (live out : List Node) (seen' : List Nat) (ro' : Nat), Good ro' ∧
    Emits (nextPre env) ctx out
      { ctx with stack := rest, seen := seen', state := { st with rootOffset := ro' } } ∧
    (∀ x ∈ seen', x ∈ ctx.seen ∨ x ∈ marks) ∧
    out.map obs = live.flatMap withRecovered ∧ live.map obs = listing ∧
    (∀ n ∈ live, IsRead env st n) ∧ liveKeys out = listing ∧
    (∀ n ∈ out, n.key.cellState = .Allocated →
      ∃ u ∈ keys, IsShown env st (!ctx.includeAncestors || !ctx.filter.isValid) u n) ∧
    (∀ n ∈ live, IsReadFor env st ctx.getModified hi (!ctx.includeAncestors || !ctx.filter.isValid) keys n) ∧
    Pairwise2 Yielded (live.flatMap belowTree) out

theorem kidState_valid (sm : Bool) (flags : FilterFlags) : kidState sm false flags ≠ some .None := by
  unfold kidState childFilterState
  by_cases h : flags = .keyMatch
  · rw [if_pos h]; simp
  · rw [if_neg h]; cases sm <;> simp

mutual
theorem emits_tree (env : Env) (st : State) (hdel : StateDel st) (f : Filter) (gm anc : Bool)
    (hatt : gm = true → AttachOk env st)
    (Good : Nat → Prop) (Below : Str → Tree → Prop) (hher : Hereditary Below)
    (fl : Option FilterMatchState → Str → Tree → FilterFlags) (hfs : FilterSays st f Good Below fl)
    (hi : Bool) (hgmhi : gm = true → hi = true)
    (gm0 : Bool) (hgm0 : gm = true → gm0 = true) (hgm0hi : gm0 = true → hi = true) : ∀ (t : Tree) (path : Str) (s : Option FilterMatchState) (n : Node)
    (ctx : IterCtx) (rest : List Node) (ro : Nat), ctx.state = { st with rootOffset := ro } → Good ro →
    ctx.filter = f → ctx.getModified = gm → ctx.includeAncestors = anc →
    (∀ kid ∈ t.kids, Below (path ++ '\\' :: t.name) kid) → TreeAt env.fi.buffer env.fi.hbin env.depth t → Reads env st gm0 none path t s n →
    (f.isValid = false → s ≠ some .None) → (offsAll t.kids).Nodup → (∀ x ∈ offsAll t.kids, x ∉ ctx.seen) → ctx.stack = n :: rest →
    Listed env st hi ctx rest (offsAll t.kids) Good
      (walk f.isValid (fun s => anc || !f.isValid || matchedState s) fl s path t) t.nodes
  | .mk off c name kids, path, s, n, ctx, rest, ro, hst, hro, hf, hgm, hanc, hb, ht, hn, hsv, hnd, hdis, hs => by
    obtain ⟨children, ro1, so, hro1, hpk, hkids, hlen⟩ := pushKids_tree env st { ctx with stack := rest } ro hst
      (by rw [hgm]; exact hatt) Good hro Below fl (by rw [hf]; exact hfs) gm0 path _ s n hb ht hn hnd hdis
    have hround := emits_round env ctx _ n _ rest hs hpk rfl rfl rfl
    obtain ⟨hoff, hpath, _, _, halloc, hsn, _⟩ := hn.facts
    -- the recovered keys
    obtain ⟨out1, hd1, hd2, hd3, hd4⟩ := emits_deleted env s _
      ((n.deletedKeys.map (inheritFilterState s)).reverse)
      (pushDeleted (n.setKey { n.key with subKeyOffsets := so, toReturn := children.length })
        { ctx with stack := children ++ rest
                   seen := children.map (·.key.fileOffset) ++ ctx.seen
                   state := { st with rootOffset := ro1 } }).2 (children ++ rest) rfl
      (by
        intro e he
        obtain ⟨e', he', rfl⟩ := List.mem_map.1 (List.mem_reverse.1 he)
        refine ⟨?_, rfl⟩
        have := hn.delOk hdel e' he'
        rw [allDel_iff] at this ⊢
        exact this)
      (by rw [← hsn]; rfl)
    -- the sub-keys
    obtain ⟨live, out2, seen', ro', hg', he, hseen, hout, hlive, hread, hlk, hsho, hrf, hyl⟩ :=
      emits_forest env st hdel f gm anc hatt Good Below hher fl hfs hi hgmhi kids (path ++ '\\' :: name) s children
        { ctx with stack := children ++ rest
                   seen := children.map (·.key.fileOffset) ++ ctx.seen
                   state := { st with rootOffset := ro1 } } rest ro1 rfl hro1 hf hgm hanc
        hb
        (by rw [TreeAt] at ht; exact ht.2.2)
        (by
          have : ctx.filter = f := hf
          have h2 : ctx.getModified = gm := hgm
          simp only [this, h2] at hkids
          exact hkids)
        hnd
        (by
          intro kid hk x hx hmem
          rcases List.mem_append.1 hmem with hmem | hmem
          · have hoffs : children.map (·.key.fileOffset)
              = (kids.filter fun kid => decide (fl s (path ++ '\\' :: name) kid ≠ .noMatch)).map Tree.off :=
                pairwise2_map_eq _ _ (fun a b h => h.facts.1) hkids
            rw [hoffs] at hmem
            obtain ⟨k2, hk2, rfl⟩ := List.mem_map.1 hmem
            exact kid_off_not_below kids hnd kid hk k2 (List.mem_filter.1 hk2).1 hx
          · exact hdis x (mem_offsAll_of_kid kids kid hk x hx) hmem) rfl
    have hsome : shown ctx s = true → (!ctx.includeAncestors || !ctx.filter.isValid) = true →
        s ≠ some .None := by
      intro hshow hall
      unfold shown at hshow
      rw [hf] at hall hshow
      cases hv : f.isValid with
      | false => exact hsv hv
      | true =>
        rw [hv] at hall hshow
        rw [Bool.not_true, Bool.or_false, Bool.not_eq_true'] at hall
        rw [hall] at hshow
        intro hc
        rw [hc] at hshow
        revert hshow; decide
    refine ⟨(if shown ctx s then [n] else []) ++ live, _, seen', ro', hg',
      (hround.trans hd1).trans he, ?_, ?_, ?_, ?_, ?_, ?_, ?_, ?_⟩
    · intro x hx
      rcases hseen x hx with h | h
      · rcases List.mem_append.1 h with h | h
        · right
          have hoffs : children.map (·.key.fileOffset)
              = (kids.filter fun kid => decide (fl s (path ++ '\\' :: name) kid ≠ .noMatch)).map Tree.off :=
            pairwise2_map_eq _ _ (fun a b h => h.facts.1) hkids
          rw [hoffs] at h
          obtain ⟨k2, hk2, rfl⟩ := List.mem_map.1 h
          exact (map_off_sublist kids).subset (List.mem_map.2 ⟨k2, (List.mem_filter.1 hk2).1, rfl⟩)
        · exact .inl h
      · obtain ⟨kid, hk, hx⟩ := h
        exact .inr (mem_offsAll_of_kid kids kid hk x hx)
    · rw [List.map_append, List.map_append, hout, hd2, hsn, List.flatMap_append]
      congr 1
      have hsh : shown (pushDeleted (n.setKey { n.key with subKeyOffsets := so, toReturn := children.length })
        { ctx with stack := children ++ rest
                   seen := children.map (·.key.fileOffset) ++ ctx.seen
                   state := { st with rootOffset := ro1 } }).2 s = shown ctx s := rfl
      rw [hsh]
      by_cases h : shown ctx s = true
      · simp only [if_pos h, List.map_cons, List.map_nil, List.flatMap_cons, List.flatMap_nil,
          List.append_nil, withRecovered, recoveredAll_eq]
        rw [← List.map_reverse, List.flatMap_map]
        simp only [recoveredTree_inherit]
        rfl
      · simp only [if_neg h]; rfl
    · have hsh : shown ctx s = (anc || !f.isValid || matchedState s) := by
        unfold shown; rw [hanc, hf]
      rw [List.map_append, hlive, walk, hsh]
      congr 1
      by_cases h : (anc || !f.isValid || matchedState s) = true
      · rw [if_pos h, if_pos h]
        simp only [List.map_cons, List.map_nil, obs, hoff, hpath]
        rfl
      · rw [if_neg h, if_neg h]; rfl
    · intro m hm
      rcases List.mem_append.1 hm with hm | hm
      · split at hm
        · rw [List.mem_singleton.1 hm]
          exact ⟨gm0, path, _, s, treeAt_keyAt ht, hn⟩
        · cases hm
      · exact hread m hm
    · have hsh : shown ctx s = (anc || !f.isValid || matchedState s) := by
        unfold shown; rw [hanc, hf]
      rw [liveKeys_append, liveKeys_append, hlk, liveKeys_none hd3, List.append_nil, walk, hsn, hsh]
      congr 1
      by_cases h : (anc || !f.isValid || matchedState s) = true
      · rw [if_pos h, if_pos h]
        refine (liveKeys_single (by exact halloc)).trans ?_
        show [(n.key.fileOffset, n.key.path)] = _
        rw [hoff, hpath]
        rfl
      · rw [if_neg h, if_neg h]; rfl
    · intro m hm hal
      rcases List.mem_append.1 hm with hm | hm
      · rcases List.mem_append.1 hm with hm | hm
        · split at hm
          · rename_i hshow
            rw [List.mem_singleton.1 hm]
            refine ⟨_, List.mem_cons_self, gm0, path, s, n, so, children.length, treeAt_keyAt ht, hn, rfl, hlen, rfl,
              fun hall => ?_⟩
            show n.key.filterState ≠ _
            have hshow : shown ctx n.key.filterState = true := hshow
            rw [hsn] at hshow ⊢
            exact hsome hshow hall
          · cases hm
        · exact absurd hal (hd3 m hm)
      · obtain ⟨u, hu, hs⟩ := hsho m hm hal
        exact ⟨u, List.mem_cons_of_mem _ hu, hs⟩
    · intro m hm
      rcases List.mem_append.1 hm with hm | hm
      · split at hm
        · rename_i hshow
          rw [List.mem_singleton.1 hm]
          exact ⟨gm0, path, _, s, List.mem_cons_self, fun h => hgm0 (hgm ▸ h), hgm0hi, treeAt_keyAt ht, hn,
            hsome hshow⟩
        · cases hm
      · exact (hrf m hm).mono fun u hu => List.mem_cons_of_mem _ hu
    · rw [List.flatMap_append]
      refine pairwise2_append ?_ hyl
      have hsh : shown (pushDeleted (n.setKey { n.key with subKeyOffsets := so, toReturn := children.length })
        { ctx with stack := children ++ rest
                   seen := children.map (·.key.fileOffset) ++ ctx.seen
                   state := { st with rootOffset := ro1 } }).2 s = shown ctx s := rfl
      rw [hsh] at hd4
      rw [hsn]
      by_cases h : shown ctx s = true
      · rw [if_pos h] at hd4
        rw [if_pos h, if_pos h, List.flatMap_cons, List.flatMap_nil, List.append_nil, belowTree_eq, belowAll_eq]
        refine ⟨⟨rfl, so, children.length, n.key.filterState, rfl⟩, ?_⟩
        rw [← List.map_reverse] at hd4
        exact yielded_inherit s _ _ hd4
      · rw [if_neg h] at hd4
        rw [if_neg h, if_neg h]
        exact hd4
theorem emits_forest (env : Env) (st : State) (hdel : StateDel st) (f : Filter) (gm anc : Bool)
    (hatt : gm = true → AttachOk env st)
    (Good : Nat → Prop) (Below : Str → Tree → Prop) (hher : Hereditary Below)
    (fl : Option FilterMatchState → Str → Tree → FilterFlags) (hfs : FilterSays st f Good Below fl)
    (hi : Bool) (hgmhi : gm = true → hi = true) :
    ∀ (ts : List Tree) (path : Str) (s : Option FilterMatchState) (nodes : List Node)
    (ctx : IterCtx) (rest : List Node) (ro : Nat), ctx.state = { st with rootOffset := ro } → Good ro →
    ctx.filter = f → ctx.getModified = gm → ctx.includeAncestors = anc →
    (∀ t ∈ ts, Below path t) → ForestAt env.fi.buffer env.fi.hbin env.depth ts →
    Pairwise2 (fun kid c => Reads env st gm none path kid
        (kidState (matchedState s) f.isValid (fl s path kid)) c)
      (ts.filter fun kid => decide (fl s path kid ≠ .noMatch)) nodes →
    (offsAll ts).Nodup → (∀ t ∈ ts, ∀ x ∈ offsAll t.kids, x ∉ ctx.seen) → ctx.stack = nodes ++ rest →
    ∃ (live out : List Node) (seen' : List Nat) (ro' : Nat), Good ro' ∧
      Emits (nextPre env) ctx out
        { ctx with stack := rest, seen := seen', state := { st with rootOffset := ro' } } ∧
      (∀ x ∈ seen', x ∈ ctx.seen ∨ ∃ t ∈ ts, x ∈ offsAll t.kids) ∧
      out.map obs = live.flatMap withRecovered ∧
      live.map obs = walkAll f.isValid (fun s => anc || !f.isValid || matchedState s) fl s path ts ∧
      (∀ n ∈ live, IsRead env st n) ∧
      liveKeys out = walkAll f.isValid (fun s => anc || !f.isValid || matchedState s) fl s path ts ∧
      (∀ n ∈ out, n.key.cellState = .Allocated →
        ∃ u ∈ nodesAll ts, IsShown env st (!ctx.includeAncestors || !ctx.filter.isValid) u n) ∧
      (∀ n ∈ live, IsReadFor env st ctx.getModified hi (!ctx.includeAncestors || !ctx.filter.isValid)
        (nodesAll ts) n) ∧
      Pairwise2 Yielded (live.flatMap belowTree) out
  | [], path, s, nodes, ctx, rest, ro, hst, hro, hf, hgm, hanc, hb, ht, hn, hnd, hdis, hs => by
    cases nodes with
    | cons => exact absurd hn (by simp [Pairwise2])
    | nil =>
      refine ⟨[], [], ctx.seen, ro, hro, ?_, fun x hx => .inl hx, rfl, by rw [walkAll]; rfl, by simp, by rw [walkAll]; rfl, by simp, by simp, trivial⟩
      have : ctx = { ctx with stack := rest, seen := ctx.seen, state := { st with rootOffset := ro } } := by
        rw [List.nil_append] at hs
        rw [← hst, ← hs]
      rw [← this]
      exact .refl _
  | t :: ts, path, s, nodes, ctx, rest, ro, hst, hro, hf, hgm, hanc, hb, ht, hn, hnd, hdis, hs => by
    rw [ForestAt] at ht
    rw [offsAll, List.nodup_append] at hnd
    have htk : (offsAll t.kids).Nodup := by
      have := hnd.1
      cases t; rw [Tree.offs, List.nodup_cons] at this; exact this.2
    have hsubT : ∀ x ∈ offsAll t.kids, x ∈ t.offs := by
      intro x hx; cases t; rw [Tree.offs]; exact List.mem_cons_of_mem _ hx
    by_cases hno : fl s path t = .noMatch
    · have e : (t :: ts).filter (fun kid => decide (fl s path kid ≠ .noMatch))
          = ts.filter (fun kid => decide (fl s path kid ≠ .noMatch)) := by
        rw [List.filter_cons, if_neg (by simpa using hno)]
      rw [e] at hn
      obtain ⟨live, out, seen', ro', h1, h2, h3, h4, h5, h6, h7, h8, h9, h10⟩ :=
        emits_forest env st hdel f gm anc hatt Good Below hher fl hfs hi hgmhi ts path s nodes ctx rest ro hst hro hf hgm hanc
          (fun t h => hb t (List.mem_cons_of_mem _ h)) ht.2.2 hn hnd.2.1
          (fun t h => hdis t (List.mem_cons_of_mem _ h)) hs
      refine ⟨live, out, seen', ro', h1, h2, ?_, h4, ?_, h6, by rw [h7, walkAll, if_pos hno]; rfl,
        fun m hm hal => by
          obtain ⟨u, hu, hs⟩ := h8 m hm hal
          exact ⟨u, List.mem_append_right _ hu, hs⟩,
        fun m hm => (h9 m hm).mono fun u hu => List.mem_append_right _ hu, h10⟩
      · intro x hx
        rcases h3 x hx with h | ⟨t', ht', h⟩
        · exact .inl h
        · exact .inr ⟨t', List.mem_cons_of_mem _ ht', h⟩
      · rw [walkAll, if_pos hno, h5]; rfl
    · have e : (t :: ts).filter (fun kid => decide (fl s path kid ≠ .noMatch))
          = t :: ts.filter (fun kid => decide (fl s path kid ≠ .noMatch)) := by
        rw [List.filter_cons, if_pos (by simpa using hno)]
      rw [e] at hn
      cases nodes with
      | nil => exact absurd hn (by simp [Pairwise2])
      | cons n nodes =>
        obtain ⟨live1, out1, seen1, ro1, h1, h2, h3, h4, h5, h6, h7, h8, h9, h10⟩ :=
          emits_tree env st hdel f gm anc hatt Good Below hher fl hfs hi hgmhi gm (fun h => h) hgmhi t path _ n ctx (nodes ++ rest) ro hst hro
            hf hgm hanc (hher path t (hb t List.mem_cons_self)) ht.2.1 hn.1
            (by intro hv; rw [hv]; exact kidState_valid _ _) htk (hdis t List.mem_cons_self) hs
        obtain ⟨live2, out2, seen2, ro2, g1, g2, g3, g4, g5, g6, g7, g8, g9, g10⟩ :=
          emits_forest env st hdel f gm anc hatt Good Below hher fl hfs hi hgmhi ts path s nodes
            { ctx with stack := nodes ++ rest, seen := seen1, state := { st with rootOffset := ro1 } } rest ro1
            rfl h1 hf hgm hanc (fun t h => hb t (List.mem_cons_of_mem _ h)) ht.2.2 hn.2 hnd.2.1
            (by
              intro t' ht' x hx hmem
              rcases h3 x hmem with h | h
              · exact hdis t' (List.mem_cons_of_mem _ ht') x hx h
              · exact hnd.2.2 x (hsubT x h) x (mem_offsAll_of_kid ts t' ht' x hx) rfl) rfl
        refine ⟨live1 ++ live2, out1 ++ out2, seen2, ro2, g1, h2.trans g2, ?_, ?_, ?_, ?_,
          by rw [liveKeys_append, h7, g7, walkAll, if_neg hno], ?_, ?_,
          by rw [List.flatMap_append]; exact pairwise2_append h10 g10⟩
        · intro x hx
          rcases g3 x hx with h | ⟨t', ht', h⟩
          · rcases h3 x h with h | h
            · exact .inl h
            · exact .inr ⟨t, List.mem_cons_self, h⟩
          · exact .inr ⟨t', List.mem_cons_of_mem _ ht', h⟩
        · rw [List.map_append, List.flatMap_append, h4, g4]
        · rw [List.map_append, h5, g5, walkAll, if_neg hno]
        · intro m hm
          rcases List.mem_append.1 hm with hm | hm
          · exact h6 m hm
          · exact g6 m hm
        · intro m hm hal
          rcases List.mem_append.1 hm with hm | hm
          · obtain ⟨u, hu, hs⟩ := h8 m hm hal
            exact ⟨u, List.mem_append_left _ hu, hs⟩
          · obtain ⟨u, hu, hs⟩ := g8 m hm hal
            exact ⟨u, List.mem_append_right _ hu, hs⟩
        · intro m hm
          rcases List.mem_append.1 hm with hm | hm
          · exact (h9 m hm).mono fun u hu => List.mem_append_left _ hu
          · exact IsReadFor.mono (g9 m hm) fun u hu => List.mem_append_right _ hu
end

end Notatin
