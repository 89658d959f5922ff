import Verif.Lemmas.Walk
/-
Running the post-order iterator over a stored tree without recovered keys.
-/
namespace Notatin
open Spec

/-- A finished key on top of the return stack is yielded next. -/
theorem emits_flush (env : Env) (ctx : IterCtx) (n : Node) (R : List Node) (hr : ctx.ret = n :: R)
    (hfin : n.key.trackReturned = n.key.toReturn)
    (hsh : ctx.includeAncestors = true ∨ n.key.filterState ≠ some .None) :
    Emits (nextPost env) ctx [n] { ctx with ret := R } := by
  intro r hrun
  refine runs_emit (fuelMono_post env) 1 ?_ hrun
  rw [nextPost]
  cases hs : ctx.stack with
  | nil =>
    simp only [hr]
    rw [if_pos]
    rcases hsh with h | h
    · rw [h]; rfl
    · rw [Bool.or_eq_true]; right; simpa using h
  | cons a as =>
    simp only
    rw [hr, popFinished, if_pos hfin]

/-- A round that pushes a key on the return stack. -/
theorem emits_push (env : Env) (ctx ctx' : IterCtx) (node node' : Node) (rest : List Node)
    (hs : ctx.stack = node :: rest) (hpop : popFinished ctx.ret = none)
    (h : pushKids env { ctx with stack := rest } node = .ok (node', ctx')) :
    Emits (nextPost env) ctx []
      { (pushDeleted node' ctx').2 with
        ret := (pushDeleted node' ctx').1 :: bumpTop (pushDeleted node' ctx').2.ret } := by
  intro r hrun
  refine runs_skip (fuelMono_post env) (fun k => ?_) hrun
  rw [nextPost, hs]
  simp only [hpop, h]

/-- The node with the counter of returned sub-keys set. -/
def setTrack (n : Node) (j : Nat) : Node := n.setKey { n.key with trackReturned := j }

theorem bumpTop_setTrack (n : Node) (j : Nat) (R : List Node) :
    bumpTop (setTrack n j :: R) = setTrack n (j + 1) :: R := rfl

theorem filterSays_plain (st : State) :
    FilterSays st {} (fun _ => True) (fun _ _ => True) (fun _ _ _ => .iterate) := by
  intro s path kid ro _ _
  refine ⟨ro, trivial, fun k _ _ => ?_⟩
  unfold subFilterOf
  split <;> simp [filterStep, Filter.checkCell]

theorem hereditary_true : Hereditary (fun _ _ => True) := fun _ _ _ _ _ => trivial

mutual
/-- The post-order listing of the keys the filter lets through. -/
def postWalk (valid : Bool) (fl : Option FilterMatchState → Str → Tree → FilterFlags)
    (s : Option FilterMatchState) (path : Str) : Tree → List (Nat × Str)
  | .mk off _ name kids =>
    postWalkAll valid fl s (path ++ '\\' :: name) kids ++ [(off, path ++ '\\' :: name)]
/-- The listing of the sub-keys. -/
def postWalkAll (valid : Bool) (fl : Option FilterMatchState → Str → Tree → FilterFlags)
    (s : Option FilterMatchState) (path : Str) : List Tree → List (Nat × Str)
  | [] => []
  | t :: ts =>
    (if fl s path t = .noMatch then []
     else postWalk valid fl (kidState (matchedState s) valid (fl s path t)) path t) ++
      postWalkAll valid fl s path ts
end

theorem pairwise2_length {α β : Type} {R : α → β → Prop} {as : List α} {bs : List β}
    (h : Pairwise2 R as bs) : bs.length = as.length := by
  have := pairwise2_map_eq (fun _ => ()) (fun _ => ()) (fun _ _ _ => rfl) h
  simpa using congrArg List.length this

mutual
theorem post_tree (env : Env) (st : State) (f : Filter) (gm anc : Bool)
    (hanc : anc = true ∨ f.isValid = false) (hatt : gm = true → AttachOk env st)
    (hnone : ∀ p t s n, Reads env st gm none p t s n → n.deletedKeys = [])
    (Good : Nat → Prop) (Below : Str → Tree → Prop) (hher : Hereditary Below)
    (fl : Option FilterMatchState → Str → Tree → FilterFlags) (hfs : FilterSays st f Good Below fl) :
    ∀ (t : Tree) (path : Str) (s : Option FilterMatchState) (n : Node) (gm0 : Bool)
    (ctx : IterCtx) (rest : List Node) (ro : Nat), ctx.state = { st with rootOffset := ro } → Good ro →
    ctx.filter = f → ctx.getModified = gm → ctx.includeAncestors = anc → (anc = true ∨ s ≠ some .None) →
    (∀ kid ∈ t.kids, Below (path ++ '\\' :: t.name) kid) →
    TreeAt env.fi.buffer env.fi.hbin env.depth t → Reads env st gm0 none path t s n →
    n.deletedKeys = [] →
    (offsAll t.kids).Nodup → (∀ x ∈ offsAll t.kids, x ∉ ctx.seen) → ctx.stack = n :: rest →
    popFinished ctx.ret = none →
    ∃ (out : List Node) (seen' : List Nat) (ro' : Nat), Good ro' ∧
      Emits (nextPost env) ctx out
        { ctx with stack := rest, seen := seen', state := { st with rootOffset := ro' },
                   ret := bumpTop ctx.ret } ∧
      (∀ x ∈ seen', x ∈ ctx.seen ∨ x ∈ offsAll t.kids) ∧
      out.map obs = postWalk f.isValid fl s path t
  | .mk off c name kids, path, s, n, gm0, ctx, rest, ro, hst, hro, hf, hgm, hca, hsn0, hb, ht, hn, hdel, hnd, hdis, hs, hpop => by
    obtain ⟨children, ro1, so, hro1, hpk, hkids, _⟩ := pushKids_tree env st { ctx with stack := rest } ro hst
      (by rw [hgm]; exact hatt) Good hro Below fl (by rw [hf]; exact hfs) gm0 path _ s n hb ht hn hnd hdis
    have hpush := emits_push env ctx _ n _ rest hs hpop hpk
    obtain ⟨hoff, hpath, _, _, _, hsn, htr, htk, _⟩ := hn.facts
    have hkids' : Pairwise2 (fun kid c => Reads env st gm none (path ++ '\\' :: name) kid
        (kidState (matchedState s) f.isValid (fl s (path ++ '\\' :: name) kid)) c)
        (kids.filter fun kid => decide (fl s (path ++ '\\' :: name) kid ≠ .noMatch)) children := by
      rw [← hgm, ← hf]; exact hkids
    have hoffs : children.map (·.key.fileOffset)
        = (kids.filter fun kid => decide (fl s (path ++ '\\' :: name) kid ≠ .noMatch)).map Tree.off :=
      pairwise2_map_eq _ _ (fun a b h => h.facts.1) hkids'
    -- the context after the push
    generalize hp1 : (n.setKey { n.key with subKeyOffsets := so, toReturn := children.length }) = n1 at hpush
    have hn1 : (pushDeleted n1 { ctx with stack := children ++ rest
                                          seen := children.map (·.key.fileOffset) ++ ctx.seen
                                          state := { st with rootOffset := ro1 } }).1 = setTrack n1 0 := by
      rw [← hp1]
      cases n with
      | mk k v d =>
      simp only [Node.deletedKeys] at hdel
      simp only [Node.key] at htk
      subst hdel
      simp only [pushDeleted, Node.setKey, Node.deletedKeys, Node.versions, Node.key, List.map_nil, setTrack]
      rw [← htk]
    have hn2 : (pushDeleted n1 { ctx with stack := children ++ rest
                                          seen := children.map (·.key.fileOffset) ++ ctx.seen
                                          state := { st with rootOffset := ro1 } }).2 =
        { ctx with stack := children ++ rest
                   seen := children.map (·.key.fileOffset) ++ ctx.seen
                   state := { st with rootOffset := ro1 } } := by
      rw [← hp1]
      cases n with
      | mk k v d =>
      simp only [Node.deletedKeys] at hdel
      subst hdel
      rfl
    simp only at hpush
    rw [hn1, hn2] at hpush
    have hto : n1.key.toReturn = children.length := by rw [← hp1]; rfl
    have hlen := pairwise2_length hkids'
    obtain ⟨out, seen', ro', hg', he, hseen, hout⟩ :=
      post_forest env st f gm anc hanc hatt hnone Good Below hher fl hfs kids (path ++ '\\' :: name) s children
        { ctx with stack := children ++ rest
                   seen := children.map (·.key.fileOffset) ++ ctx.seen
                   state := { st with rootOffset := ro1 }
                   ret := setTrack n1 0 :: bumpTop ctx.ret } rest ro1 rfl hro1 hf hgm hca hb
        (by rw [TreeAt] at ht; exact ht.2.2) hkids' hnd
        (by
          intro kid hk x hx hmem
          rcases List.mem_append.1 hmem with hmem | hmem
          · rw [hoffs] at hmem
            obtain ⟨k2, hk2, rfl⟩ := List.mem_map.1 hmem
            exact kid_off_not_below kids hnd kid hk k2 (List.mem_filter.1 hk2).1 hx
          · exact hdis x (mem_offsAll_of_kid kids kid hk x hx) hmem) rfl n1 0 (bumpTop ctx.ret) rfl
          (by rw [hto, hlen]; omega)
    have hflush := emits_flush env
      { ctx with stack := rest, seen := seen', state := { st with rootOffset := ro' },
                 ret := setTrack n1 (0 + children.length) :: bumpTop ctx.ret }
      (setTrack n1 (0 + children.length)) (bumpTop ctx.ret) rfl
      (by show 0 + children.length = n1.key.toReturn; rw [hto]; omega)
      (by
        rcases hsn0 with h | h
        · left; rw [← hca] at h; exact h
        · right
          show n1.key.filterState ≠ _
          rw [← hp1]
          show n.key.filterState ≠ _
          rw [hsn]; exact h)
    rw [← hlen] at he
    refine ⟨([] ++ out) ++ [setTrack n1 (0 + children.length)], seen', ro', hg', (hpush.trans he).trans hflush, ?_, ?_⟩
    · intro x hx
      rcases hseen x hx with h | ⟨kid, hk, h⟩
      · rcases List.mem_append.1 h with h | h
        · right
          rw [hoffs] at h
          obtain ⟨k2, hk2, rfl⟩ := List.mem_map.1 h
          exact (map_off_sublist kids).subset (List.mem_map.2 ⟨k2, (List.mem_filter.1 hk2).1, rfl⟩)
        · exact .inl h
      · exact .inr (mem_offsAll_of_kid kids kid hk x h)
    · rw [List.nil_append, List.map_append, hout, postWalk]
      congr 1
      show [(n1.key.fileOffset, n1.key.path)] = _
      rw [← hp1]
      show [(n.key.fileOffset, n.key.path)] = _
      rw [hoff, hpath]
      rfl
theorem post_forest (env : Env) (st : State) (f : Filter) (gm anc : Bool)
    (hanc : anc = true ∨ f.isValid = false) (hatt : gm = true → AttachOk env st)
    (hnone : ∀ p t s n, Reads env st gm none p t s n → n.deletedKeys = [])
    (Good : Nat → Prop) (Below : Str → Tree → Prop) (hher : Hereditary Below)
    (fl : Option FilterMatchState → Str → Tree → FilterFlags) (hfs : FilterSays st f Good Below fl) :
    ∀ (ts : List Tree) (path : Str) (s : Option FilterMatchState) (nodes : List Node)
    (ctx : IterCtx) (rest : List Node) (ro : Nat), ctx.state = { st with rootOffset := ro } → Good ro →
    ctx.filter = f → ctx.getModified = gm → ctx.includeAncestors = anc →
    (∀ t ∈ ts, Below path t) → ForestAt env.fi.buffer env.fi.hbin env.depth ts →
    Pairwise2 (fun kid c => Reads env st gm none path kid
        (kidState (matchedState s) f.isValid (fl s path kid)) c)
      (ts.filter fun kid => decide (fl s path kid ≠ .noMatch)) nodes →
    (offsAll ts).Nodup → (∀ t ∈ ts, ∀ x ∈ offsAll t.kids, x ∉ ctx.seen) → ctx.stack = nodes ++ rest →
    ∀ (p : Node) (j : Nat) (R : List Node), ctx.ret = setTrack p j :: R →
    j + (ts.filter fun kid => decide (fl s path kid ≠ .noMatch)).length ≤ p.key.toReturn →
    ∃ (out : List Node) (seen' : List Nat) (ro' : Nat), Good ro' ∧
      Emits (nextPost env) ctx out
        { ctx with stack := rest, seen := seen', state := { st with rootOffset := ro' },
                   ret := setTrack p (j + (ts.filter fun kid => decide (fl s path kid ≠ .noMatch)).length) :: R } ∧
      (∀ x ∈ seen', x ∈ ctx.seen ∨ ∃ t ∈ ts, x ∈ offsAll t.kids) ∧
      out.map obs = postWalkAll f.isValid fl s path ts
  | [], path, s, nodes, ctx, rest, ro, hst, hro, hf, hgm, hca, hb, ht, hn, hnd, hdis, hs, p, j, R, hret, hj => by
    cases nodes with
    | cons => exact absurd hn (by simp [Pairwise2])
    | nil =>
      refine ⟨[], ctx.seen, ro, hro, ?_, fun x hx => .inl hx, by rw [postWalkAll]; rfl⟩
      have : ctx = { ctx with stack := rest, seen := ctx.seen, state := { st with rootOffset := ro },
                              ret := setTrack p (j + (([] : List Tree).filter fun kid => decide (fl s path kid ≠ .noMatch)).length) :: R } := by
        rw [List.nil_append] at hs
        rw [← hst, ← hs]
        show ctx = { ctx with ret := setTrack p j :: R }
        rw [← hret]
      rw [← this]
      exact .refl _
  | t :: ts, path, s, nodes, ctx, rest, ro, hst, hro, hf, hgm, hca, hb, ht, hn, hnd, hdis, hs, p, j, R, hret, hj => by
    rw [ForestAt] at ht
    rw [offsAll, List.nodup_append] at hnd
    have htk : (offsAll t.kids).Nodup := by
      have := hnd.1
      cases t; rw [Tree.offs, List.nodup_cons] at this; exact this.2
    by_cases hno : fl s path t = .noMatch
    · have e : (t :: ts).filter (fun kid => decide (fl s path kid ≠ .noMatch))
          = ts.filter (fun kid => decide (fl s path kid ≠ .noMatch)) := by
        rw [List.filter_cons, if_neg (by simpa using hno)]
      rw [e] at hn hj ⊢
      obtain ⟨out, seen', ro', h1, h2, h3, h4⟩ :=
        post_forest env st f gm anc hanc hatt hnone Good Below hher fl hfs ts path s nodes ctx rest ro hst hro hf hgm hca
          (fun t h => hb t (List.mem_cons_of_mem _ h)) ht.2.2 hn hnd.2.1
          (fun t h => hdis t (List.mem_cons_of_mem _ h)) hs p j R hret hj
      refine ⟨out, seen', ro', h1, h2, ?_, ?_⟩
      · intro x hx
        rcases h3 x hx with h | ⟨t', ht', h⟩
        · exact .inl h
        · exact .inr ⟨t', List.mem_cons_of_mem _ ht', h⟩
      · rw [postWalkAll, if_pos hno, h4]; rfl
    · have e : (t :: ts).filter (fun kid => decide (fl s path kid ≠ .noMatch))
          = t :: ts.filter (fun kid => decide (fl s path kid ≠ .noMatch)) := by
        rw [List.filter_cons, if_pos (by simpa using hno)]
      rw [e] at hn hj ⊢
      rw [List.length_cons] at hj
      cases nodes with
      | nil => exact absurd hn (by simp [Pairwise2])
      | cons n nodes =>
        obtain ⟨out1, seen1, ro1, h1, h2, h3, h4⟩ :=
          post_tree env st f gm anc hanc hatt hnone Good Below hher fl hfs t path _ n gm ctx (nodes ++ rest) ro hst hro
            hf hgm hca (by
              rcases hanc with h | h
              · exact .inl h
              · right
                rw [h]
                unfold kidState
                split
                · simp [childFilterState]
                · unfold childFilterState
                  cases matchedState s <;> simp)
            (hher path t (hb t List.mem_cons_self)) ht.2.1 hn.1 (hnone _ _ _ _ hn.1) htk (hdis t List.mem_cons_self) hs (by
              rw [hret, popFinished, if_neg]
              show ¬ (j = p.key.toReturn)
              omega)
        obtain ⟨out2, seen2, ro2, g1, g2, g3, g4⟩ :=
          post_forest env st f gm anc hanc hatt hnone Good Below hher fl hfs ts path s nodes
            { ctx with stack := nodes ++ rest, seen := seen1, state := { st with rootOffset := ro1 },
                       ret := bumpTop ctx.ret } rest ro1
            rfl h1 hf hgm hca (fun t h => hb t (List.mem_cons_of_mem _ h)) ht.2.2 hn.2 hnd.2.1
            (by
              intro t' ht' x hx hmem
              rcases h3 x hmem with h | h
              · exact hdis t' (List.mem_cons_of_mem _ ht') x hx h
              · exact hnd.2.2 x (mem_offs_of_kids t x h) x (mem_offsAll_of_kid ts t' ht' x hx) rfl) rfl
            p (j + 1) R (by show bumpTop ctx.ret = _; rw [hret]; rfl) (by omega)
        refine ⟨out1 ++ out2, seen2, ro2, g1, ?_, ?_, ?_⟩
        · have e : j + (t :: ts.filter (fun kid => decide (fl s path kid ≠ .noMatch))).length
              = j + 1 + (ts.filter (fun kid => decide (fl s path kid ≠ .noMatch))).length := by
            rw [List.length_cons]; omega
          rw [e]
          exact h2.trans g2
        · intro x hx
          rcases g3 x hx with h | ⟨t', ht', h⟩
          · rcases h3 x h with h | h
            · exact .inl h
            · exact .inr ⟨t, List.mem_cons_self, h⟩
          · exact .inr ⟨t', List.mem_cons_of_mem _ ht', h⟩
        · rw [List.map_append, h4, g4, postWalkAll, if_neg hno]
end

mutual
theorem postWalk_plain : ∀ (t : Tree) (path : Str),
    postWalk false (fun _ _ _ => .iterate) none path t = t.post path
  | .mk off c name kids, path => by rw [postWalk, Tree.post, postWalkAll_plain kids]
theorem postWalkAll_plain : ∀ (ts : List Tree) (path : Str),
    postWalkAll false (fun _ _ _ => .iterate) none path ts = postAll path ts
  | [], path => by rw [postWalkAll, postAll]
  | t :: ts, path => by
    rw [postWalkAll, postAll, if_neg (by decide), postWalkAll_plain ts]
    have : kidState (matchedState none) false FilterFlags.iterate = none := rfl
    rw [this, postWalk_plain t]
end

end Notatin
