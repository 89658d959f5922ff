import Verif.Props.Values
import Verif.Props.Python
import Verif.Props.SafeLookup
import Verif.Props.CompareTells
/-
C87: the path a key tells leads back to it.
-/
namespace Notatin
open Spec

/-- The keys can be told apart by their paths: no name is empty or contains a backslash, no two sub-keys of a key
have the same name up to case. -/
structure Spec.ClearPaths (t : Tree) : Prop where
  names : t.Every fun u => '\\' ∉ u.name ∧ u.name ≠ []
  distinct : t.Every fun u => NamesDistinct u.kids

/-- The tree is at most `d` levels deep, its top not counted. -/
def Spec.NoDeeper (d : Nat) (t : Tree) : Prop := ∀ x ∈ t.named [] [], x.2.2.length ≤ d + 1

/-- What a lookup found: the offset and the path of the key. -/
def Spec.found : Res (Option Node × Nat) → Option (Nat × Str)
  | .ok (some n, _) => some (obs n)
  | _ => none

/-- The path without the first name: what follows the second backslash. -/
def Spec.BelowRoot (path rest : Str) : Prop := ∃ root, '\\' ∉ root ∧ path = '\\' :: root ++ '\\' :: rest

/-- `get_pretty_path` never panics, whatever the path, and is the path below the root or, if there is none, the
whole path. -/
theorem pretty_path (n : Node) : ∃ q, n.prettyPath = .ok q ∧
    (∀ rest, BelowRoot n.key.path rest → q = rest) ∧ ((∀ rest, ¬ BelowRoot n.key.path rest) → q = n.key.path) := by
  obtain ⟨_, q, hq⟩ := root_prefix_in_bounds n.key.path
  refine ⟨q, by unfold Node.prettyPath; rw [hq], ?_, fun h => ?_⟩
  · rintro rest ⟨root, hr, e⟩
    have := root_prefix_stripped root rest hr
    rw [← e, hq] at this
    exact Option.some.inj this
  · have := (root_prefix_absent n.key.path (by
      apply Classical.byContradiction
      intro hn
      simp only [not_or, not_exists, not_and] at hn
      obtain ⟨h1, h2⟩ := hn
      obtain ⟨r, hr⟩ : ∃ r, n.key.path = '\\' :: r :=
        Classical.byContradiction fun h3 => h2 fun r hr => h3 ⟨r, hr⟩
      have hb : '\\' ∈ r := Classical.byContradiction fun hb => h1 r hr hb
      obtain ⟨a, b, e, ha⟩ := List.eq_append_cons_of_mem hb
      exact h b ⟨a, ha, by rw [hr, e]; rfl⟩)).2
    rw [hq] at this
    exact Option.some.inj this

/-- A listed key, by its names. -/
theorem pre_names {t : Tree} (hc : ClearPaths t) {d : Nat} (hd : NoDeeper d t) {o : Nat × Str} (ho : o ∈ t.pre []) :
    ∃ L, o.2 = '\\' :: joined (t.name :: L) ∧ firstAt L t = some o ∧ (∀ s ∈ L, '\\' ∉ s ∧ s ≠ []) ∧ L.length ≤ d ∧
      (L = [] → o = (t.off, '\\' :: t.name)) ∧ (o.1, o.2, t.name :: L) ∈ t.named [] [] := by
  rw [← named_pre t [] []] at ho
  obtain ⟨x, hx, rfl⟩ := List.mem_map.1 ho
  obtain ⟨L, h1, h2⟩ := walkTo_named t [] [] x hc.distinct hx
  obtain ⟨h3, h4⟩ := named_names (fun m => '\\' ∉ m ∧ m ≠ []) t [] [] x hc.names hx rfl (by simp)
  rw [List.nil_append] at h1
  have h5 : x.2.1 = '\\' :: joined (t.name :: L) := by
    rw [h3, h1, joined_eq]; rfl
  refine ⟨L, h5, by rw [first_at_walk L t hc.distinct, h2], fun s hs => h4 s (by rw [h1]; exact List.mem_cons_of_mem _ hs),
    ?_, ?_, ?_⟩
  · have := hd x hx
    rw [h1, List.length_cons] at this
    omega
  · rintro rfl
    rw [walkTo] at h2
    exact (Option.some.inj h2).symm
  · rw [← h1]; exact hx

/-- The names of what a lookup by names finds. -/
theorem firstAt_mem {segs : List Str} {t : Tree} {o : Nat × Str} (h : firstAt segs t = some o) :
    ∃ x ∈ t.named [] [], entryOf x = o ∧ x.2.2.length = segs.length + 1 := by
  have := List.mem_of_mem_head? (Option.mem_def.2 h)
  obtain ⟨x, hx, he⟩ := List.mem_map.1 this
  obtain ⟨hm, hp⟩ := List.mem_filter.1 hx
  refine ⟨x, hm, he, ?_⟩
  have hl := pairwise2_length (of_decide_eq_true hp)
  rw [List.length_drop] at hl
  obtain ⟨L, hL, e⟩ := named_above t [] [] x hm
  have : 0 < x.2.2.length := by
    rw [e]; cases L with
    | nil => exact absurd rfl hL
    | cons => simp
  omega

/-- A lookup by other than the right number of names does not find the key. -/
theorem firstAt_other {t : Tree} (hn : t.offs.Nodup) {o : Nat × Str} {names : List Str}
    (ho : (o.1, o.2, names) ∈ t.named [] []) {segs : List Str} (hl : names.length ≠ segs.length + 1) :
    ∀ r, firstAt segs t = some r → r.1 ≠ o.1 := by
  intro r hr he
  obtain ⟨x, hx, hxo, hxl⟩ := firstAt_mem hr
  have hnd : ((t.named [] []).map fun x => x.1).Nodup := by
    have : (t.named [] []).map (fun x => x.1) = t.offs := by
      rw [← pre_offs t [], ← named_pre t [] [], List.map_map]; rfl
    rw [this]; exact hn
  have := map_inj_of_nodup (fun x : Nat × Str × List Str => x.1) _ hnd x hx _ ho (by rw [← he, ← hxo]; rfl)
  subst this
  exact hl hxl

/-- What is listed in a hive opened without recovery. -/
theorem opened_lists (w : World) (b : Builder) (p : HiveParser) (t : Tree) (hd : 0 < w.depth)
    (hrec : b.recover = false) (h : b.build w = some (.ok p)) (hroot : p.root ≠ none)
    (ht : StoredTree w p.env.fi.buffer t) : Lists p t := by
  obtain ⟨h1, h2, _, h3⟩ := built_plain w b p hrec h hroot
  obtain ⟨root, hr, hl⟩ := plain_lists w p.env.fi.buffer p.header p.state t hd h2.1 ht
  rw [← h1, h3] at hr
  have e : p = ⟨w.env p.env.fi.buffer, p.header, p.state, some root⟩ := by
    have : p.root = some root :=
      congrArg (fun r : Res (Option Node × Nat) => match r with | .ok x => x.1 | _ => none) hr
    rw [← h1, ← this]
  rw [e]
  exact hl

/-- The lookups of C87 in a hive opened without recovery, in terms of the names. -/
theorem back_lookups (w : World) (b : Builder) (p : HiveParser) (t : Tree) (hd : 0 < w.depth)
    (hrec : b.recover = false) (h : b.build w = some (.ok p)) (hroot : p.root ≠ none)
    (ht : StoredTree w p.env.fi.buffer t) (hrco : p.header.base.rootCellOffset = 32) (hc : ClearPaths t)
    (ro : Nat) (hro : ro = 0 ∨ ro = utf8Len t.name + 2)
    (segs : List Str) (hsegs : ∀ s ∈ segs, '\\' ∉ s ∧ s ≠ []) (hdepth : segs.length ≤ w.depth) (j : Nat) :
    (∃ r ro', getKey p.env (p.after ro) p.header.base.rootCellOffset (List.replicate j '\\' ++ joined segs) false
        = .ok (r, ro') ∧ (ro' = 0 ∨ ro' = utf8Len t.name + 2) ∧ r.map obs = firstAt segs t) ∧
    (∃ r ro', getKey p.env (p.after ro) p.header.base.rootCellOffset
        (List.replicate j '\\' ++ joined (t.name :: segs)) true
        = .ok (r, ro') ∧ (ro' = 0 ∨ ro' = utf8Len t.name + 2) ∧ r.map obs = firstAt segs t) := by
  obtain ⟨h1, h2, h0, h3⟩ := built_plain w b p hrec h hroot
  have hbuf : p.env.fi.hbin = 4096 := by rw [h1]; rfl
  have hdep : p.env.depth = w.depth := by rw [h1]; rfl
  have hatt : AttachOk p.env (p.after ro) := attachOk_empty _ _ (by rw [hdep]; exact hd) h2.1
  have htree : TreeAt p.env.fi.buffer p.env.fi.hbin p.env.depth t := by rw [hbuf, hdep]; exact ht.tree
  have hoff : t.off = (32 : Int).toNat + p.env.fi.hbin := by rw [hbuf, ht.top]; rfl
  obtain ⟨⟨r, ro1, e1, e2, e3, _⟩, ⟨r2, ro2, f1, f2, f3, _⟩⟩ := get_key_found p.env (p.after ro) t 32 (by omega) hoff
    htree hatt hro (every_mono (fun _ h => h.1) t hc.names) segs hsegs (by omega) j 0 (fun _ => rfl) t.name
    (every_self hc.names)
  rw [hrco]
  simp only [List.replicate_zero, List.append_nil] at e1 f1
  exact ⟨⟨r, ro1, e1, e2, e3⟩, ⟨r2, ro2, f1, f2, f3⟩⟩

/-- C87: in a hive opened without recovery, with any logs, whose keys can be told apart by their paths: looking up
the path of a listed key, with `has_root`, finds that key; so does looking up the pretty path, without `has_root`,
of any key but the root; before and after any other such lookups.

Partial: not the pretty path of the root (`pretty_path_root_violated`); names that are empty, contain a backslash
or are used twice do not lead back (`get_key_backslash_violated`, `get_key_twins_violated` of C12); the root cell
is where Windows puts it. -/
theorem path_back_partial (w : World) (b : Builder) (p : HiveParser) (t : Tree) (hd : NoDeeper w.depth t)
    (hd0 : 0 < w.depth) (hrec : b.recover = false) (h : b.build w = some (.ok p)) (hroot : p.root ≠ none)
    (ht : StoredTree w p.env.fi.buffer t) (hrco : p.header.base.rootCellOffset = 32) (hc : ClearPaths t)
    (ro : Nat) (hro : ro = 0 ∨ ro = utf8Len t.name + 2)
    (gm anc : Bool) (steps : Nat) (ns : List Node) (hl : p.iterate steps {} false gm anc = some (.ok ns)) :
    ∀ n ∈ ns,
      found (getKey p.env (p.after ro) p.header.base.rootCellOffset n.key.path true) = some (obs n) ∧
      ∃ q, n.prettyPath = .ok q ∧ (n.key.fileOffset ≠ t.off →
        found (getKey p.env (p.after ro) p.header.base.rootCellOffset q false) = some (obs n)) := by
  intro n hn
  have hlists := (opened_lists w b p t hd0 hrec h hroot ht) gm anc
  obtain ⟨steps', ns', hi, ho⟩ := hlists
  have : ns = ns' := by
    unfold HiveParser.iterate at hl hi
    have := collect_unique (fuelMono_pre p.env) _ _ _ _ _ hl hi
    cases this; rfl
  subst this
  have hmem : obs n ∈ t.pre [] := by rw [← ho]; exact List.mem_map_of_mem hn
  obtain ⟨L, h1, h2, h3, h4, h5, _⟩ := pre_names hc hd hmem
  have hp : n.key.path = '\\' :: joined (t.name :: L) := h1
  constructor
  · obtain ⟨_, r, ro', e1, _, e2⟩ := back_lookups w b p t hd0 hrec h hroot ht hrco hc ro hro L h3 h4 1
    have e1 : getKey p.env (p.after ro) p.header.base.rootCellOffset n.key.path true = .ok (r, ro') := by
      rw [hp]; exact e1
    rw [e1]
    rw [h2] at e2
    cases r with
    | none => cases e2
    | some m => exact e2
  · obtain ⟨q, hq, hb, _⟩ := pretty_path n
    refine ⟨q, hq, fun hne => ?_⟩
    have hL : L ≠ [] := fun e => hne (congrArg Prod.fst (h5 e))
    obtain ⟨s0, L', rfl⟩ := List.exists_cons_of_ne_nil hL
    have : q = joined (s0 :: L') := hb _ ⟨t.name, (every_self hc.names).1, by rw [hp]; simp [joined]⟩
    subst this
    obtain ⟨⟨r, ro', e1, _, e2⟩, _⟩ := back_lookups w b p t hd0 hrec h hroot ht hrco hc ro hro (s0 :: L') h3 h4 0
    rw [show List.replicate 0 '\\' ++ joined (s0 :: L') = joined (s0 :: L') from rfl] at e1
    rw [e1]
    rw [h2] at e2
    cases r with
    | none => cases e2
    | some m => exact e2

/-- C87 is violated by the root of every such hive: looking up its pretty path (which is its path, with the name of
the root in it) finds another key (a sub-key of the root with the same name) or none. -/
theorem pretty_path_root_violated (w : World) (b : Builder) (p : HiveParser) (t : Tree) (hd0 : 0 < w.depth)
    (hrec : b.recover = false) (h : b.build w = some (.ok p)) (hroot : p.root ≠ none)
    (ht : StoredTree w p.env.fi.buffer t) (hrco : p.header.base.rootCellOffset = 32) (hc : ClearPaths t)
    (n : Node) (hn : obs n = (t.off, '\\' :: t.name)) :
    ∃ q, n.prettyPath = .ok q ∧ q = n.key.path ∧
      found (getKey p.env p.state p.header.base.rootCellOffset q false) = firstAt [t.name] t ∧ ∀ r,
      found (getKey p.env p.state p.header.base.rootCellOffset q false) = some r → r.1 ≠ n.key.fileOffset := by
  obtain ⟨q, hq, _, hb⟩ := pretty_path n
  have hp : n.key.path = '\\' :: t.name := congrArg Prod.snd hn
  have ho : n.key.fileOffset = t.off := congrArg Prod.fst hn
  have hs := every_self hc.names
  have hqp : q = n.key.path := hb (by
    rintro rest ⟨root, _, e⟩
    rw [hp] at e
    injection e with _ e
    exact hs.1 (e ▸ by simp))
  obtain ⟨_, _, h0, _⟩ := built_plain w b p hrec h hroot
  obtain ⟨⟨x, ro', e1, _, e2⟩, _⟩ := back_lookups w b p t hd0 hrec h hroot ht hrco hc 0 (.inl rfl) [t.name]
    (by intro s hm; rw [List.mem_singleton.1 hm]; exact hs) hd0 1
  have hst : p.after 0 = p.state := by
    unfold HiveParser.after
    rw [← h0]
  rw [hst] at e1
  have hf : found (getKey p.env p.state p.header.base.rootCellOffset q false) = firstAt [t.name] t := by
    rw [hqp, hp, show '\\' :: t.name = List.replicate 1 '\\' ++ joined [t.name] from rfl, e1, ← e2]
    cases x <;> rfl
  refine ⟨q, hq, hqp, hf, fun r hr => ?_⟩
  rw [hf] at hr
  rw [ho]
  refine firstAt_other ht.once (o := (t.off, '\\' :: t.name)) (names := [t.name]) ?_ (by simp) r hr
  cases t with
  | mk off c name kids => rw [Tree.named]; exact List.mem_cons_self

/-! ### Python -/

/-- C87 in Python: `open` with the pretty path of any key of the hive but the root finds that key, any number of
times; `open` with its `path` never does, for no key: it finds another key or none. -/
theorem python_back (w : World) (buf : Bytes) (t : Tree) (p : PyParser) (hp : PyHolds w buf t p)
    (hd0 : 0 < w.depth) (hd : NoDeeper (w.depth - 1) t) (ht : TreeAt buf 4096 w.depth t) (hon : t.offs.Nodup)
    (hc : ClearPaths t) (k : PyKey) (hk : obs k.inner ∈ t.pre []) :
    (∃ r p', p.open k.path = .ok (r, p') ∧ PyHolds w buf t p' ∧
      ∀ m, r = some m → m.inner.key.fileOffset ≠ k.inner.key.fileOffset) ∧
    ∃ q, k.prettyPath = .ok q ∧ (k.inner.key.fileOffset ≠ t.off →
      ∃ m p', p.open q = .ok (some m, p') ∧ PyHolds w buf t p' ∧ obs m.inner = obs k.inner) := by
  obtain ⟨L, h1, h2, h3, h4, h5, h6⟩ := pre_names hc hd hk
  have hpath : k.path = '\\' :: joined (t.name :: L) := h1
  have hnm := every_mono (fun _ h => h.1) t hc.names
  constructor
  · obtain ⟨q, hq, he, hn, hr0, hoff, hro⟩ := hp
    obtain ⟨⟨r, ro, e1, e2, e3, _⟩, _⟩ := get_key_found q.env q.state t q.header.base.rootCellOffset hr0
      (by rw [he]; exact hoff) (by rw [he]; exact ht)
      (attachOk_empty _ _ (by rw [he]; exact hd0) hn) hro hnm (t.name :: L)
      (by
        intro s hs
        rcases List.mem_cons.1 hs with rfl | hs
        · exact every_self hc.names
        · exact h3 s hs)
      (by rw [he, List.length_cons]; show L.length + 1 ≤ w.depth; omega) 1 0 (fun _ => rfl) ['x'] (by decide)
    simp only [List.replicate_zero, List.append_nil] at e1
    refine ⟨r.map PyKey.ofNode, .touched q ro, ?_, ⟨_, rfl, he, hn, hr0, hoff, e2⟩, ?_⟩
    · unfold PyParser.open PyParser.keyFor
      rw [hq, hpath]
      simp only
      have e1 : getKey q.env q.state q.header.base.rootCellOffset ('\\' :: joined (t.name :: L)) false = .ok (r, ro) := e1
      rw [e1]
    · intro m hm
      cases r with
      | none => cases hm
      | some n =>
        cases hm
        exact firstAt_other hon h6 (by simp) (obs n) e3.symm
  · obtain ⟨q, hq, hb, _⟩ := pretty_path k.inner
    refine ⟨q, hq, fun hne => ?_⟩
    have hL : L ≠ [] := fun e => hne (congrArg Prod.fst (h5 e))
    obtain ⟨s0, L', rfl⟩ := List.exists_cons_of_ne_nil hL
    have : q = joined (s0 :: L') := hb _ ⟨t.name, (every_self hc.names).1, by
      show k.path = _
      rw [hpath]; simp [joined]⟩
    subst this
    obtain ⟨r, p', ho, hp', hr⟩ := open_holds w buf t p hp hd0 ht hnm (s0 :: L') h3 (by omega)
    rw [h2] at hr
    cases r with
    | none => cases hr
    | some m => exact ⟨m, p', ho, hp', Option.some.inj hr⟩

/-! ### The sample hive -/

theorem sample_clear : ClearPaths (sampleTree 0x61) ∧ NoDeeper 7 (sampleTree 0x61) := by
  refine ⟨⟨?_, ?_⟩, by unfold NoDeeper; decide +kernel⟩
  · simp only [sampleTree, Tree.Every, EveryAll, Tree.name]; decide
  · simp only [sampleTree, Tree.Every, EveryAll, NamesDistinct, Tree.kids, List.pairwise_cons,
      List.Pairwise.nil, List.not_mem_nil, false_imp_iff, implies_true, and_true, List.mem_singleton,
      forall_eq, Tree.name]
    rintro ⟨s, h1, h2⟩
    have h1 := (asciiLower_eq_iff _ _).2 h1
    have h2 := (asciiLower_eq_iff _ _).2 h2
    rw [h1] at h2
    exact absurd h2 (by decide)

/-- The hypotheses of `path_back_partial` and `pretty_path_root_violated`; three keys are listed, two of them not the
root, and the pretty path of the root finds nothing. -/
example : ∃ p steps ns, ({ primary := sampleHive 5 5 4477 0x61 [] } : Builder).build sampleWorld = some (.ok p) ∧
    p.iterate steps {} false true false = some (.ok ns) ∧
    ns.map (fun n => n.prettyPath) = [.ok "\\RT".toList, .ok "a".toList, .ok "b".toList] ∧
    (∀ n ∈ ns, found (getKey p.env (p.after 0) p.header.base.rootCellOffset n.key.path true) = some (obs n) ∧
      ∃ q, n.prettyPath = .ok q ∧ (n.key.fileOffset ≠ 4128 →
        found (getKey p.env (p.after 0) p.header.base.rootCellOffset q false) = some (obs n))) ∧
    found (getKey p.env p.state p.header.base.rootCellOffset "\\RT".toList false) = none := by
  obtain ⟨bb, rest, h1, h2, h3, h4, _, h5⟩ := sampleHive_header 5 5 4477 0x61 [] (by decide +kernel)
  have hs := sampleHive_stored 5 5 4477 0x61 [] (.inl rfl)
  obtain ⟨p, hb, hfi, hh, hr, hl⟩ := open_clean_lists sampleWorld { primary := sampleHive 5 5 4477 0x61 [] } bb rest
    (sampleTree 0x61) (by decide) rfl ⟨([], none), by decide +kernel⟩ h1 h2 (h3.trans h4.symm) h5 hs
  have hrco : p.header.base.rootCellOffset = 32 := by rw [hh]; exact header_root _ (by decide +kernel) bb rest h1
  have hs' : StoredTree sampleWorld p.env.fi.buffer (sampleTree 0x61) := by rw [hfi]; exact hs
  obtain ⟨steps, ns, hi, ho⟩ := hl true false
  have hpre : (sampleTree 0x61).pre [] = [(4128, "\\RT".toList), (4234, "\\RT\\a".toList), (4315, "\\RT\\b".toList)] := by
    decide +kernel
  rw [hpre] at ho
  refine ⟨p, steps, ns, hb, hi, ?_, ?_, ?_⟩
  · have : ns.map (fun n => n.prettyPath) = (ns.map obs).map fun o => match dropBytes (getRootPathOffset o.2) o.2 with
        | some rest => Res.ok rest
        | none => .panic := by rw [List.map_map]; rfl
    rw [this, ho]
    decide +kernel
  · exact path_back_partial sampleWorld _ p (sampleTree 0x61)
      (fun x hx => Nat.le_succ_of_le (sample_clear.2 x hx)) (by decide) rfl hb hr hs' hrco sample_clear.1 0 (.inl rfl)
      true false steps ns hi
  · cases ns with
    | nil => cases ho
    | cons n ns =>
      have hn : obs n = (4128, "\\RT".toList) := (List.cons.inj ho).1
      obtain ⟨q, _, hq, hf, _⟩ := pretty_path_root_violated sampleWorld _ p (sampleTree 0x61) (by decide) rfl hb hr hs'
        hrco sample_clear.1 n hn
      have : q = "\\RT".toList := hq.trans (congrArg Prod.snd hn)
      rw [← this, hf]
      decide +kernel

/-- The hypotheses of `python_back`: `open("b")` finds the key, `open("\\RT\\b")` does not. -/
example : ∃ p, (samplePy.build sampleWorld).1 = some (.ok p) ∧
    ∀ k : PyKey, obs k.inner = (4315, "\\RT\\b".toList) →
      (∃ r p', p.open k.path = .ok (r, p') ∧ ∀ m, r = some m → m.inner.key.fileOffset ≠ 4315) ∧
      ∃ q m p', k.prettyPath = .ok q ∧ p.open q = .ok (some m, p') ∧ obs m.inner = (4315, "\\RT\\b".toList) := by
  obtain ⟨p, h1, h2⟩ := sample_python
  refine ⟨p, h1, fun k hk => ?_⟩
  have hs := sampleHive_stored 5 5 4477 0x61 [] (.inl rfl)
  obtain ⟨⟨r, p', a1, _, a2⟩, q, hq, b2⟩ := python_back sampleWorld _ (sampleTree 0x61) p h2 (by decide) sample_clear.2
    hs.tree hs.once sample_clear.1 k (by rw [hk]; decide +kernel)
  have ho : k.inner.key.fileOffset = 4315 := congrArg Prod.fst hk
  obtain ⟨m, p2, c1, _, c2⟩ := b2 (by rw [ho]; decide)
  exact ⟨⟨r, p', a1, by rw [← ho]; exact a2⟩, q, m, p2, hq, c1, c2.trans hk⟩

end Notatin
