import Verif.Lemmas.CompareTells
/-
Lemmas for C81: the keys a filter asks for, and what an iteration with a filter shows of them.
-/
namespace Notatin
open Spec

/-! ### The keys at and below a path -/

/-- The names begin with the segments. -/
def beginsWith : List Str → List Str → Bool
  | [], _ => true
  | _ :: _, [] => false
  | s :: segs, m :: names => decide (Seg.Matches (.lit s) m) && beginsWith segs names

theorem wanted_begins : ∀ (segs names : List Str),
    decide (Wanted (segs.map Seg.lit) true false names) = beginsWith segs names
  | [], [] => decide_eq_true (.inl trivial)
  | [], m :: names => decide_eq_true (.inr (.inl ⟨rfl, 0, by simp, trivial⟩))
  | s :: segs, [] => by
    rw [beginsWith, decide_eq_false_iff_not]
    rintro (h | ⟨_, i, hi, _⟩ | ⟨h, _⟩)
    · exact h
    · exact absurd hi (by simp)
    · cases h
  | s :: segs, m :: names => by
    rw [beginsWith, ← wanted_begins segs names, ← Bool.decide_and, decide_eq_decide]
    constructor
    · rintro (h | ⟨_, i, hi, h⟩ | ⟨h, _⟩)
      · exact ⟨h.1, .inl h.2⟩
      · cases i with
        | zero => exact h.elim
        | succ i => exact ⟨h.1, .inr (.inl ⟨rfl, i, by simpa using hi, h.2⟩)⟩
      · cases h
    · rintro ⟨h1, h | ⟨_, i, hi, h⟩ | ⟨h, _⟩⟩
      · exact .inl ⟨h1, h⟩
      · exact .inr (.inl ⟨rfl, i + 1, by simpa using hi, h1, h⟩)
      · cases h

theorem namedAll_flatMap (parent : Str) (above : List Str) : ∀ ts : List Tree,
    namedAll parent above ts = ts.flatMap fun t => t.named parent above
  | [] => by rw [namedAll]; rfl
  | t :: ts => by rw [namedAll, namedAll_flatMap parent above ts, List.flatMap_cons]

theorem keysAll_flatMap (parent : Str) : ∀ ts : List Tree,
    keysAll parent ts = ts.flatMap fun t => t.keys parent
  | [] => by rw [keysAll]; rfl
  | t :: ts => by rw [keysAll, keysAll_flatMap parent ts, List.flatMap_cons]

mutual
theorem named_begins : ∀ (t : Tree) (parent : Str) (above : List Str), ∀ x ∈ t.named parent above,
    ∃ rest, x.2.2 = above ++ t.name :: rest
  | .mk off c name kids, parent, above, x, hx => by
    rw [Tree.named] at hx
    rcases List.mem_cons.1 hx with rfl | hx
    · exact ⟨[], rfl⟩
    · obtain ⟨rest, e⟩ := namedAll_begins kids _ _ x hx
      exact ⟨rest, by rw [e, List.append_assoc]; rfl⟩
theorem namedAll_begins : ∀ (ts : List Tree) (parent : Str) (above : List Str), ∀ x ∈ namedAll parent above ts,
    ∃ rest, x.2.2 = above ++ rest
  | [], _, _, x, hx => by rw [namedAll] at hx; cases hx
  | t :: ts, parent, above, x, hx => by
    rw [namedAll] at hx
    rcases List.mem_append.1 hx with hx | hx
    · obtain ⟨rest, e⟩ := named_begins t parent above x hx
      exact ⟨_, e⟩
    · exact namedAll_begins ts parent above x hx
end

theorem under_named : ∀ (segs : List Str) (t : Tree) (parent : Str) (above : List Str),
    ((t.named parent above).filter fun x => beginsWith segs (x.2.2.drop (above.length + 1))).map entryOf =
      (t.keysUnder parent segs).map fun x => (x.2.off, x.1)
  | [], t, parent, above => by
    rw [Tree.keysUnder, keys_pre, ← named_pre t parent above]
    congr 1
    rw [List.filter_eq_self]
    exact fun _ _ => rfl
  | s :: segs, .mk off c name kids, parent, above => by
    rw [Tree.keysUnder, Tree.named, List.filter_cons, if_neg (by simp [beginsWith]), namedAll_flatMap,
      List.filter_flatMap, List.map_flatMap, List.map_flatMap]
    show kids.flatMap _ = kids.flatMap _
    rw [List.flatMap_def, List.flatMap_def]
    congr 1
    apply List.map_congr_left
    intro kid _
    have hx : ∀ x ∈ kid.named (parent ++ '\\' :: name) (above ++ [name]),
        beginsWith (s :: segs) (x.2.2.drop (above.length + 1)) =
          (decide (Seg.Matches (.lit s) kid.name) && beginsWith segs (x.2.2.drop ((above ++ [name]).length + 1))) := by
      intro x hx
      obtain ⟨rest, e⟩ := named_begins kid _ _ x hx
      have e1 : x.2.2.drop ((above ++ [name]).length + 1) = rest := by
        rw [e, ← List.drop_drop, List.drop_left]
        rfl
      have e2 : x.2.2.drop (above.length + 1) = kid.name :: rest := by
        rw [e, show above.length + 1 = (above ++ [name]).length by simp, List.drop_left]
      rw [e1, e2, beginsWith]
    rw [List.filter_congr hx]
    by_cases hm : decide (Seg.Matches (.lit s) kid.name) = true
    · rw [if_pos hm, ← under_named segs kid _ (above ++ [name])]
      congr 1
      exact List.filter_congr fun x _ => by rw [hm, Bool.true_and]
    · rw [if_neg hm]
      rw [filter_none (fun x _ => by rw [Bool.eq_false_iff.2 hm, Bool.false_and])]
      rfl

/-- The keys a literal filter with child keys asks for are those at and below its path. -/
theorem filtered_under (segs : List Str) (t : Tree) :
    filtered (segs.map Seg.lit) false true false t = (t.keysUnder [] segs).map fun x => (x.2.off, x.1) := by
  rw [← under_named segs t [] []]
  unfold filtered
  show List.map entryOf _ = _
  congr 1
  apply List.filter_congr
  intro x _
  rw [wanted_begins]
  rfl

theorem keysUnder_sub : ∀ (segs : List Str) (t : Tree) (parent : Str), ∀ x ∈ t.keysUnder parent segs, x ∈ t.keys parent
  | [], t, parent, x, hx => by rw [Tree.keysUnder] at hx; exact hx
  | s :: segs, .mk off c name kids, parent, x, hx => by
    rw [Tree.keysUnder] at hx
    obtain ⟨kid, hk, hx⟩ := List.mem_flatMap.1 hx
    split at hx
    · rw [Tree.keys, keysAll_flatMap]
      exact List.mem_cons_of_mem _ (List.mem_flatMap.2 ⟨kid, hk, keysUnder_sub segs kid _ x hx⟩)
    · cases hx

/-! ### What is shown is the stored key -/

theorem readValuesLoop_logs (env : Env) (seq : Option Nat) : ∀ (offs : List Nat) (acc : List Value) (lg lg' : Logs),
    (match readValuesLoop env seq offs acc lg with | .ok x => x.1 | _ => []) =
      (match readValuesLoop env seq offs acc lg' with | .ok x => x.1 | _ => [])
  | [], acc, lg, lg' => by rw [readValuesLoop, readValuesLoop]
  | v :: vs, acc, lg, lg' => by
    rw [readValuesLoop.eq_def, readValuesLoop.eq_def env seq (v :: vs) acc lg']
    simp only
    by_cases hb : v + env.fi.hbin < env.fi.buffer.length
    · rw [if_pos hb, if_pos hb]
      cases KeyValue.fromBytes (env.fi.buffer.drop (v + env.fi.hbin)) (v + env.fi.hbin) seq with
      | ok x => exact readValuesLoop_logs env seq vs _ lg lg'
      | err => rfl
      | panic => rfl
    · rw [if_neg hb, if_neg hb]

/-- The values of a key depend on the list and the number of values only. -/
theorem storedValues_congr (env : Env) {k k' : KeyNode} (hn : k.nValues = k'.nValues)
    (hl : k.valuesListOffset = k'.valuesListOffset) (h0 : k.values = []) (h0' : k'.values = []) :
    storedValues env k = storedValues env k' := by
  unfold storedValues KeyNode.readValues
  rw [← hn, ← hl]
  by_cases h1 : 0 < k.nValues
  · rw [if_pos h1, if_pos h1]
    by_cases h2 : 0 < k.valuesListOffset ∧ k.valuesListOffset.toNat < env.fi.buffer.length
    · rw [if_pos h2, if_pos h2]
      by_cases h3 : k.nValues > 1024 * 1024
      · rw [if_pos h3, if_pos h3]
        exact h0.trans h0'.symm
      · rw [if_neg h3, if_neg h3]
        cases parseKeyValues env.fi k.nValues k.valuesListOffset.toNat with
        | none => rfl
        | some offs =>
          have := readValuesLoop_logs env none offs [] k.logs k'.logs
          dsimp only
          revert this
          generalize readValuesLoop env none offs [] k.logs = r1
          generalize readValuesLoop env none offs [] k'.logs = r2
          intro this
          rcases r1 with ⟨_, _, _⟩ | _ | _ <;> rcases r2 with ⟨_, _, _⟩ | _ | _ <;> exact this
    · rw [if_neg h2, if_neg h2]
      exact h0.trans h0'.symm
  · rw [if_neg h1, if_neg h1]

/-- The keys an iteration with any filter yields are stored ones. -/
theorem collect_fromCell_any (env : Env) (steps : Nat) (ctx : IterCtx) (ns : List Node)
    (hst : NothingRecorded ctx.state) (hs : ∀ n ∈ ctx.stack, FromCell env False n)
    (h : collect (nextPre env) steps ctx = some (.ok ns)) : ∀ n ∈ ns, FromCell env False n := by
  refine collect_all env (FromCell env False) NothingRecorded ctx.getModified
    (fun _ seq => seq = none) (fun _ => True)
    (fun st ro h => h) ?_ ?_ ?_ ?_ ctx.filter ⟨rfl, rfl⟩ (fun _ _ => trivial) steps ctx ns rfl rfl hst hs h
  · intro st o n ro hst _ hO _ hr
    exact (readKey_fromCell env st o n ro hst hO hr).mono fun h => h.elim
  · intro n sm v hn; cases n; exact hn
  · intro n lg so tr hn; cases n; exact hn
  · intro n hn
    refine ⟨(by intro d hd; rw [hn.2] at hd; cases hd), hn.1, ?_⟩
    show n.deletedKeys.map _ = []
    rw [hn.2]
    rfl

/-- A key shown with its values has the stored ones. -/
theorem shown_full {env : Env} {st : State} {n : Node} {u : Tree} (hst : NothingRecorded st)
    (hs : IsShown env st true u n) (hf : FromCell env False n) : FromCell env True n := by
  obtain ⟨gm, path, s, m, so, tr, hat, hr, hkey, _, _, hfs⟩ := hs
  have hsf : s ≠ some .None := by
    have h := hfs rfl
    rw [hkey] at h
    rw [← hr.facts.2.2.2.2.2.1]
    exact h
  obtain ⟨k, vs, lg, s0, m', hk, hfr, hm, rfl, hrv⟩ := hr
  have hm' : m' = .mk { k with values := vs, logs := lg, filterState := s0 } [] [] := by
    by_cases hg : gm = true
    · rw [if_pos hg] at hm; exact updateModifiedLists_id hst hm
    · rw [if_neg hg] at hm; exact hm
  subst hm'
  obtain ⟨⟨p, k0, r, h1, h2, h3, _⟩, h5⟩ := hf
  obtain ⟨_, _, _, _, _, _, _, _, _, b10, b11, _, _, _, _, _, _, _, _, _, _, _, _, b24, _, _, b27⟩ := hk
  have hoff : n.key.fileOffset = u.off := by rw [hkey]; exact b24
  obtain ⟨k', r', sl, g1, g2, g3, _⟩ := readKeyAt env u.off u.cell u.name hat p none
  have hsl : env.fi.buffer.drop u.off = sl := by
    unfold getFrom at g1
    split at g1
    · exact Option.some.inj g1
    · cases g1
  have h1' := h1
  rw [hoff, hsl, g2] at h1'
  simp only [Res.ok.injEq, Prod.mk.injEq] at h1'
  obtain ⟨rfl, rfl⟩ := h1'
  obtain ⟨_, _, _, _, _, _, _, _, _, a10, a11, _, _, _, _, _, _, _, _, _, _, _, _, _, _, _, a27⟩ := g3
  refine ⟨⟨p, k', r', h1, h2, h3, fun _ => ?_⟩, h5⟩
  have hv : vs = storedValues env k :=
    valuesStep_stored env ⟨0, [], none, true, none, false⟩ .iterate k _ rfl b27 (.inl (.inl rfl)) (hrv hsf)
  rw [← storedValues_congr env (b10.trans a10.symm) (b11.trans a11.symm) b27 a27, ← hv, hkey]
  rfl

end Notatin
