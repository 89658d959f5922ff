import Verif.Lemmas.Walk
import Verif.Lemmas.Case
import Verif.Spec.Filter
import Verif.Props.Util
/-
Filters: segment matching, paths, and the listing through a filter.
-/
namespace Notatin
open Spec

/-! ### Segments -/

theorem lowerAscii_eq (s : Str) : lowerAscii s = asciiLower s := rfl

/-- The compiled form of a segment. -/
def Spec.Seg.component : Seg → Component
  | .lit s => .lit (asciiLower s)
  | .pat m => .regex m

theorem component_accepts (g : Seg) (name : Str) : g.component.accepts name = true ↔ g.Matches name := by
  cases g with
  | lit s =>
    show (asciiLower s == asciiLower name) = true ↔ _
    rw [beq_iff_eq, asciiLower_eq_iff]
    rfl
  | pat m => exact Iff.rfl

theorem accepts_lower (c : Component) (name : Str) : c.accepts (asciiLower name) = c.accepts name := by
  cases c <;> simp only [Component.accepts, asciiLower_idem]

theorem matchSegments_lower (cs : List Component) (ks : List Str) :
    matchSegments cs (ks.map asciiLower) = matchSegments cs ks := by
  induction cs generalizing ks with
  | nil => cases ks <;> rfl
  | cons c cs ih =>
    cases ks with
    | nil => rfl
    | cons k ks => rw [List.map_cons, matchSegments, matchSegments, accepts_lower, ih]

theorem exact_length {P : List Seg} {K : List Str} (h : Exact P K) : P.length = K.length := by
  unfold Exact at h
  induction P generalizing K with
  | nil => cases K with
    | nil => rfl
    | cons => exact absurd h (by simp [Pairwise2])
  | cons p P ih => cases K with
    | nil => exact absurd h (by simp [Pairwise2])
    | cons k K => rw [List.length_cons, List.length_cons, ih h.2]

theorem exact_append {P1 P2 : List Seg} {K1 K2 : List Str} (hl : P1.length = K1.length) :
    Exact (P1 ++ P2) (K1 ++ K2) ↔ Exact P1 K1 ∧ Exact P2 K2 := by
  induction P1 generalizing K1 with
  | nil => cases K1 with
    | nil => simp [Exact, Pairwise2]
    | cons => cases hl
  | cons p P ih => cases K1 with
    | nil => cases hl
    | cons k K =>
      have := ih (K1 := K) (by simpa using hl)
      unfold Exact at this ⊢
      simp only [List.cons_append, Pairwise2]
      rw [this]
      exact and_assoc.symm

theorem exact_take {P : List Seg} {K : List Str} (h : Exact P K) (i : Nat) :
    Exact (P.take i) (K.take i) := by
  have hl := exact_length h
  have h' : Exact (P.take i ++ P.drop i) (K.take i ++ K.drop i) := by
    rw [List.take_append_drop, List.take_append_drop]; exact h
  exact ((exact_append (by simp; omega)).1 h').1

theorem matchSegments_exact (P : List Seg) (K : List Str) :
    matchSegments (P.map Seg.component) K = .keyMatch ↔ Exact P K := by
  unfold Exact
  induction P generalizing K with
  | nil => cases K <;> simp [matchSegments, Pairwise2]
  | cons p P ih => cases K with
    | nil => simp [matchSegments, Pairwise2]
    | cons k K =>
      rw [List.map_cons, matchSegments, Pairwise2, ← component_accepts, ← ih]
      split
      · rename_i h; simp [h]
      · rename_i h; simp [h]

theorem matchSegments_way (P : List Seg) (K : List Str) :
    matchSegments (P.map Seg.component) K = .iterate ↔ OnTheWay P K := by
  unfold OnTheWay Exact
  induction P generalizing K with
  | nil => cases K <;> simp [matchSegments]
  | cons p P ih => cases K with
    | nil =>
      simp only [List.map_cons, matchSegments, true_iff]
      exact ⟨0, by simp, by simp [Pairwise2]⟩
    | cons k K =>
      rw [List.map_cons, matchSegments]
      constructor
      · intro h
        split at h
        · rename_i hacc
          obtain ⟨i, hi, hp⟩ := (ih K).1 h
          exact ⟨i + 1, by simpa using hi, (component_accepts p k).1 hacc, hp⟩
        · cases h
      · rintro ⟨i, hi, hp⟩
        cases i with
        | zero => simp [Pairwise2] at hp
        | succ i =>
          rw [List.take_succ_cons, Pairwise2] at hp
          rw [if_pos ((component_accepts p k).2 hp.1)]
          exact (ih K).2 ⟨i, by simpa using hi, hp.2⟩

theorem way_length {P : List Seg} {K : List Str} (h : OnTheWay P K) : K.length < P.length := by
  obtain ⟨i, hi, h⟩ := h
  have := exact_length h
  rw [List.length_take] at this
  omega

theorem under_length {P : List Seg} {K : List Str} (h : Under P K) : P.length < K.length := by
  obtain ⟨i, hi, h⟩ := h
  have := exact_length h
  rw [List.length_take] at this
  omega

/-- A path below one that does not match is not wanted. -/
theorem dead_append {P : List Seg} {K L : List Str} (h1 : ¬ Exact P K) (h2 : ¬ Under P K)
    (h3 : ¬ OnTheWay P K) :
    ¬ Exact P (K ++ L) ∧ ¬ Under P (K ++ L) ∧ ¬ OnTheWay P (K ++ L) := by
  have key : ∀ (Q : List Seg) (M : List Str), Exact Q (K ++ M) → (∃ R, P = Q ++ R) → False := by
    rintro Q M h ⟨R, rfl⟩
    have h' := exact_take h K.length
    rw [List.take_left] at h'
    have hl := exact_length h
    have hl' := exact_length h'
    rw [List.length_append] at hl
    by_cases hq : K.length < (Q ++ R).length
    · refine h3 ⟨K.length, hq, ?_⟩
      rw [List.take_append_of_le_length (by omega)]
      exact h'
    · rw [List.length_append] at hq
      have : Q.take K.length = Q := List.take_of_length_le (by omega)
      rw [this] at h'
      have : R = [] := List.eq_nil_of_length_eq_zero (by omega)
      subst this
      rw [List.append_nil] at h1
      exact h1 h'
  refine ⟨fun h => key P L h ⟨[], by simp⟩, ?_, ?_⟩
  · rintro ⟨i, hi, h⟩
    by_cases hik : i ≤ K.length
    · rw [List.take_append_of_le_length hik] at h
      by_cases he : i = K.length
      · subst he; rw [List.take_length] at h; exact h1 h
      · exact h2 ⟨i, by omega, h⟩
    · rw [List.take_append, List.take_of_length_le (by omega)] at h
      exact key P _ h ⟨[], by simp⟩
  · rintro ⟨i, hi, h⟩
    exact key _ L h ⟨P.drop i, (List.take_append_drop i P).symm⟩

/-- A path below an exact match. -/
theorem below_exact {P : List Seg} {K L : List Str} (h : Exact P K ∨ Under P K) (hL : L ≠ []) :
    ¬ Exact P (K ++ L) ∧ Under P (K ++ L) ∧ ¬ OnTheWay P (K ++ L) := by
  have hl : 0 < L.length := by cases L; exact absurd rfl hL; simp
  have hle : P.length ≤ K.length := by
    rcases h with h | h
    · exact Nat.le_of_eq (exact_length h)
    · exact Nat.le_of_lt (under_length h)
  refine ⟨fun h' => ?_, ?_, fun h' => ?_⟩
  · have := exact_length h'; rw [List.length_append] at this; omega
  · rcases h with h | ⟨i, hi, h⟩
    · exact ⟨K.length, by rw [List.length_append]; omega, by rw [List.take_left]; exact h⟩
    · refine ⟨i, by rw [List.length_append]; omega, ?_⟩
      rw [List.take_append_of_le_length (by omega)]; exact h
  · have := way_length h'; rw [List.length_append] at this; omega

/-! ### Paths -/

/-- `\a\b\c`. -/
def flat : List Str → Str
  | [] => []
  | n :: ns => '\\' :: n ++ flat ns

theorem flat_append (as bs : List Str) : flat (as ++ bs) = flat as ++ flat bs := by
  induction as with
  | nil => rfl
  | cons a as ih => simp only [List.cons_append, flat, ih, List.append_assoc]

theorem flat_snoc (as : List Str) (n : Str) : flat (as ++ [n]) = flat as ++ '\\' :: n := by
  rw [flat_append]; simp [flat]

theorem asciiLower_append (a b : Str) : asciiLower (a ++ b) = asciiLower a ++ asciiLower b := by
  simp only [asciiLower_eq_map, List.map_append]

theorem lowerChar_bs : lowerChar '\\' = '\\' := by decide

theorem asciiLower_flat (ns : List Str) : asciiLower (flat ns) = flat (ns.map asciiLower) := by
  induction ns with
  | nil => rfl
  | cons n ns ih =>
    rw [List.map_cons, flat, flat, asciiLower_append, ih]
    congr 1

theorem splitBackslash_plain (n : Str) (h : '\\' ∉ n) : splitBackslash n = [n] := by
  induction n with
  | nil => rfl
  | cons c n ih =>
    rw [List.mem_cons, not_or] at h
    rw [splitBackslash, if_neg (fun e => h.1 e.symm), ih h.2]

theorem splitBackslash_append (n m : Str) (h : '\\' ∉ n) :
    splitBackslash (n ++ '\\' :: m) = n :: splitBackslash m := by
  induction n with
  | nil => rw [List.nil_append, splitBackslash, if_pos rfl]
  | cons c n ih =>
    rw [List.mem_cons, not_or] at h
    rw [List.cons_append, splitBackslash, if_neg (fun e => h.1 e.symm), ih h.2]

theorem splitBackslash_join (n : Str) (ns : List Str) (h : ∀ m ∈ n :: ns, '\\' ∉ m) :
    splitBackslash (n ++ flat ns) = n :: ns := by
  induction ns generalizing n with
  | nil => rw [flat, List.append_nil]; exact splitBackslash_plain n (h n List.mem_cons_self)
  | cons m ns ih =>
    rw [flat, List.cons_append, splitBackslash_append _ _ (h n List.mem_cons_self),
      ih m (fun x hx => h x (List.mem_cons_of_mem _ hx))]

theorem not_mem_lower (n : Str) (h : '\\' ∉ n) : '\\' ∉ asciiLower n := by
  intro hm
  rw [asciiLower_eq_map, List.mem_map] at hm
  obtain ⟨c, hc, he⟩ := hm
  rw [lowerChar_backslash] at he
  exact h (he ▸ hc)

theorem utf8Size_lower (c : Char) : (lowerChar c).utf8Size = c.utf8Size := by
  have h := toNat_lowerChar c
  split at h
  · have e : ∀ d : Char, d.toNat ≤ 127 → d.utf8Size = 1 := by
      intro d hd
      unfold Char.utf8Size
      rw [if_pos]
      exact hd
    rw [e c (by omega), e _ (by omega)]
  · rw [Char.toNat_inj.1 h]

theorem utf8Len_lower (s : Str) : utf8Len (asciiLower s) = utf8Len s := by
  unfold utf8Len
  rw [asciiLower_eq_map, List.map_map]
  congr 1
  apply List.map_congr_left
  intro c _
  exact utf8Size_lower c

theorem getRootPathOffset_eq (root rest : Str) (h : '\\' ∉ root) :
    getRootPathOffset ('\\' :: root ++ '\\' :: rest) = utf8Len root + 2 := by
  rw [List.cons_append, getRootPathOffset, findBackslash_some root rest h]

theorem isKeyRoot_iff (k : KeyNode) : k.isKeyRoot = k.flagBits.testBit 2 := by
  show (k.flagBits &&& keyNodeFlagsMask &&& 0x4 == 0x4) = _
  have hb : ∀ i, (0x4 : Nat).testBit i = decide (i = 2) := by
    intro i
    have := @Nat.testBit_two_pow 2 i
    rw [show (0x4 : Nat) = 2 ^ 2 from rfl, this]
    by_cases h : i = 2
    · subst h; rfl
    · simp [h]; omega
  rw [Bool.eq_iff_iff, beq_iff_eq]
  constructor
  · intro h
    have := congrArg (fun n => n.testBit 2) h
    simp only [Nat.testBit_and] at this
    rw [show (0x4 : Nat).testBit 2 = true from rfl, show keyNodeFlagsMask.testBit 2 = true from by decide] at this
    simpa using this
  · intro h
    apply Nat.eq_of_testBit_eq
    intro i
    rw [Nat.testBit_and, Nat.testBit_and, hb]
    by_cases hi : i = 2
    · subst hi; rw [h]; decide
    · simp [hi]

/-! ### The filter on a key of the tree -/

/-- The path of a key below the root, cut at the root offset. -/
theorem checkKeyMatch_names (q : RegQuery) (R : Str) (n : Str) (ns : List Str)
    (hR : '\\' ∉ R) (hns : ∀ m ∈ n :: ns, '\\' ∉ m) (ro : Nat) (hro : ro = 0 ∨ ro = utf8Len R + 2) :
    cachedRootOffset ro (asciiLower (flat (R :: n :: ns))) = utf8Len R + 2 ∧
    q.checkKeyMatch (asciiLower (flat (R :: n :: ns))) (utf8Len R + 2)
      = .ok (matchSegments q.keyPath (segments q.hasRoot (R :: n :: ns))) := by
  have hlo : ∀ m ∈ asciiLower n :: ns.map asciiLower, '\\' ∉ m := by
    intro m hm
    rw [← List.map_cons] at hm
    obtain ⟨x, hx, rfl⟩ := List.mem_map.1 hm
    exact not_mem_lower x (hns x hx)
  have hflat : asciiLower (flat (R :: n :: ns))
      = '\\' :: asciiLower R ++ '\\' :: (asciiLower n ++ flat (ns.map asciiLower)) := by
    rw [asciiLower_flat, List.map_cons, List.map_cons, flat, flat]
    rfl
  have hoff : getRootPathOffset (asciiLower (flat (R :: n :: ns))) = utf8Len R + 2 := by
    rw [hflat, getRootPathOffset_eq _ _ (not_mem_lower R hR), utf8Len_lower]
  constructor
  · unfold cachedRootOffset
    rcases hro with rfl | rfl
    · rw [if_pos rfl, hoff]
    · rw [if_neg (by omega)]
  · unfold RegQuery.checkKeyMatch segments
    cases hq : q.hasRoot with
    | true =>
      have : dropBytes (if true = true then 0 else utf8Len R + 2) (asciiLower (flat (R :: n :: ns)))
          = some (asciiLower (flat (R :: n :: ns))) := by
        rw [if_pos rfl, dropBytes]
      rw [this]
      simp only [if_pos]
      rw [asciiLower_flat]
      have hsp := splitBackslash_join [] ((R :: n :: ns).map asciiLower) (by
        intro m hm
        rcases List.mem_cons.1 hm with rfl | hm
        · simp
        · rw [List.map_cons] at hm
          rcases List.mem_cons.1 hm with rfl | hm
          · exact not_mem_lower R hR
          · exact hlo m hm)
      rw [List.nil_append] at hsp
      rw [hsp, ← matchSegments_lower _ ([] :: R :: n :: ns)]
      rfl
    | false =>
      have : dropBytes (if false = true then 0 else utf8Len R + 2) (asciiLower (flat (R :: n :: ns)))
          = some (asciiLower n ++ flat (ns.map asciiLower)) := by
        rw [if_neg (by decide), ← hoff, hflat]
        exact root_prefix_stripped _ _ (not_mem_lower R hR)
      rw [this]
      simp only [Bool.false_eq_true, if_false, List.drop_succ_cons, List.drop_zero]
      rw [splitBackslash_join _ _ hlo, ← matchSegments_lower _ (n :: ns)]
      rfl

/-- What the filter says about the sub-key `kid` of the key at `path`. -/
def saysOf (q : RegQuery) (s : Option FilterMatchState) (path : Str) (kid : Tree) : FilterFlags :=
  if matchedState s && q.children then .iterate
  else matchSegments q.keyPath (segments q.hasRoot ((splitBackslash (path ++ '\\' :: kid.name)).drop 1))

/-- The keys the filter is asked about. -/
def Covered (q : RegQuery) (R : Str) (path : Str) (t : Tree) : Prop :=
  (∃ above, path = flat (R :: above) ∧ (∀ n ∈ above, '\\' ∉ n)) ∧
  t.Every (fun u => '\\' ∉ u.name ∧ (q.hasRoot = false → u.cell.flags.testBit 2 = false))

theorem every_self {p : Tree → Prop} {t : Tree} (h : t.Every p) : p t := by
  cases t; rw [Tree.Every] at h; exact h.1

theorem every_mem {p : Tree → Prop} {ts : List Tree} (h : EveryAll p ts) (t : Tree) (ht : t ∈ ts) :
    t.Every p := by
  induction ts with
  | nil => cases ht
  | cons a as ih =>
    rw [EveryAll] at h
    rcases List.mem_cons.1 ht with rfl | ht
    · exact h.1
    · exact ih h.2 ht

theorem every_kids {p : Tree → Prop} {t : Tree} (h : t.Every p) : EveryAll p t.kids := by
  cases t; rw [Tree.Every] at h; exact h.2

theorem hereditary_covered (q : RegQuery) (R : Str) : Hereditary (Covered q R) := by
  rintro path t ⟨⟨above, rfl, hab⟩, hev⟩ kid hk
  refine ⟨⟨above ++ [t.name], ?_, ?_⟩, every_mem (every_kids hev) kid hk⟩
  · rw [← List.cons_append, flat_snoc]
  · intro n hn
    rcases List.mem_append.1 hn with hn | hn
    · exact hab n hn
    · rw [List.mem_singleton.1 hn]; exact (every_self hev).1

theorem names_split (names : List Str) (h : ∀ n ∈ names, '\\' ∉ n) :
    splitBackslash (flat names) = [] :: names := by
  have := splitBackslash_join [] names (by
    intro m hm
    rcases List.mem_cons.1 hm with rfl | hm
    · simp
    · exact h m hm)
  simpa using this

theorem filterSays_query (st : State) (q : RegQuery) (R : Str) (hR : '\\' ∉ R) :
    FilterSays st ⟨some q⟩ (fun ro => ro = 0 ∨ ro = utf8Len R + 2) (Covered q R) (saysOf q) := by
  rintro s path kid ro ⟨⟨above, rfl, hab⟩, hev⟩ hro
  obtain ⟨hname, hflag⟩ := every_self hev
  by_cases hm : (matchedState s && q.children) = true
  · refine ⟨ro, hro, fun k _ _ => ?_⟩
    have : subFilterOf ⟨some q⟩ s = none := by
      unfold subFilterOf
      exact if_pos hm
    rw [this, saysOf, if_pos hm]
    rfl
  · refine ⟨utf8Len R + 2, .inr rfl, fun k hk1 hk2 => ?_⟩
    have : subFilterOf ⟨some q⟩ s = some ⟨some q⟩ := by
      unfold subFilterOf
      exact if_neg hm
    rw [this, saysOf, if_neg hm]
    have hall : ∀ n ∈ above ++ [kid.name], '\\' ∉ n := by
      intro n hn
      rcases List.mem_append.1 hn with hn | hn
      · exact hab n hn
      · rw [List.mem_singleton.1 hn]; exact hname
    have hp : flat (R :: above) ++ '\\' :: kid.name = flat (R :: (above ++ [kid.name])) := by
      rw [← List.cons_append, flat_snoc]
    rw [hp, names_split _ (by
      intro n hn
      rcases List.mem_cons.1 hn with rfl | hn
      · exact hR
      · exact hall n hn), List.drop_succ_cons, List.drop_zero]
    obtain ⟨x, xs, hx⟩ : ∃ x xs, above ++ [kid.name] = x :: xs := by
      cases above with
      | nil => exact ⟨_, _, rfl⟩
      | cons a as => exact ⟨_, _, rfl⟩
    rw [hx] at hall hp ⊢
    obtain ⟨h1, h2⟩ := checkKeyMatch_names q R x xs hR hall ro hro
    show Filter.checkCell ⟨some q⟩ ro k.isKeyRoot k.path = _
    unfold Filter.checkCell
    simp only
    rw [if_neg, hk2, hp, h1, h2]
    rw [isKeyRoot_iff, hk1]
    cases hq : q.hasRoot with
    | true => simp
    | false => simp [hflag hq]

/-! ### The listing -/

/-- The obs of a named key. -/
def entryOf (x : Nat × Str × List Str) : Nat × Str := (x.1, x.2.1)

mutual
theorem named_above : ∀ (t : Tree) (path : Str) (above : List Str) (x : Nat × Str × List Str),
    x ∈ t.named path above → ∃ L, L ≠ [] ∧ x.2.2 = above ++ L
  | .mk off c name kids, path, above, x, hx => by
    rw [Tree.named] at hx
    rcases List.mem_cons.1 hx with rfl | hx
    · exact ⟨[name], by simp, rfl⟩
    · obtain ⟨L, hL, h⟩ := namedAll_above kids _ _ x hx
      exact ⟨name :: L, by simp, by rw [h]; simp⟩
theorem namedAll_above : ∀ (ts : List Tree) (path : Str) (above : List Str) (x : Nat × Str × List Str),
    x ∈ namedAll path above ts → ∃ L, L ≠ [] ∧ x.2.2 = above ++ L
  | [], path, above, x, hx => by rw [namedAll] at hx; cases hx
  | t :: ts, path, above, x, hx => by
    rw [namedAll] at hx
    rcases List.mem_append.1 hx with hx | hx
    · exact named_above t path above x hx
    · exact namedAll_above ts path above x hx
end

theorem segments_append (hasRoot : Bool) (R : Str) (above L : List Str) :
    segments hasRoot (R :: above ++ L) = segments hasRoot (R :: above) ++ L := by
  cases hasRoot <;> simp [segments]

/-- A subtree in which nothing is wanted. -/
theorem filter_empty (W : List Str → Prop) [DecidablePred W] (l : List (Nat × Str × List Str))
    (h : ∀ x ∈ l, ¬ W x.2.2) : (l.filter fun x => decide (W x.2.2)).map entryOf = [] := by
  have : l.filter (fun x => decide (W x.2.2)) = [] := by
    rw [List.filter_eq_nil_iff]
    intro x hx
    simpa using h x hx
  rw [this]; rfl

/-- What the filter's state at a key means: matched iff the key is an exact match or below one. -/
def StateOk (P : List Seg) (q : RegQuery) (K : List Str) (s : Option FilterMatchState) : Prop :=
  (matchedState s = true → Exact P (segments q.hasRoot K) ∨ Under P (segments q.hasRoot K)) ∧
  (matchedState s = false → ¬ Exact P (segments q.hasRoot K) ∧ ¬ Under P (segments q.hasRoot K))

/-- The key is shown iff it is wanted. -/
def ShownOk (P : List Seg) (q : RegQuery) (anc : Bool) (K : List Str) (s : Option FilterMatchState) :
    Prop :=
  anc = true ∨ matchedState s = true ↔ Wanted P q.children anc (segments q.hasRoot K)

/-- A sub-key is cut off only if nothing below it is wanted; otherwise it gets the right state. -/
theorem kid_step (P : List Seg) (q : RegQuery) (hq : q.keyPath = P.map Seg.component) (anc : Bool)
    (R : Str) (hR : '\\' ∉ R) (t : Tree) (above : List Str) (s : Option FilterMatchState)
    (hab : ∀ n ∈ above, '\\' ∉ n) (hname : '\\' ∉ t.name) (hs : StateOk P q (R :: above) s) :
    (saysOf q s (flat (R :: above)) t = .noMatch ∧
      ∀ L, ¬ Wanted P q.children anc (segments q.hasRoot (R :: above ++ [t.name] ++ L))) ∨
    (saysOf q s (flat (R :: above)) t ≠ .noMatch ∧
      StateOk P q (R :: above ++ [t.name])
        (kidState (matchedState s) true (saysOf q s (flat (R :: above)) t)) ∧
      ShownOk P q anc (R :: above ++ [t.name])
        (kidState (matchedState s) true (saysOf q s (flat (R :: above)) t))) := by
  obtain ⟨hm1, hm2⟩ := hs
  have hall : ∀ n ∈ above ++ [t.name], '\\' ∉ n := by
    intro n hn
    rcases List.mem_append.1 hn with hn | hn
    · exact hab n hn
    · rw [List.mem_singleton.1 hn]; exact hname
  have hp : flat (R :: above) ++ '\\' :: t.name = flat (R :: above ++ [t.name]) := by
    rw [flat_snoc]
  have hseg : segments q.hasRoot (R :: above ++ [t.name]) = segments q.hasRoot (R :: above) ++ [t.name] :=
    segments_append _ _ _ _
  have hsegL : ∀ L, segments q.hasRoot (R :: above ++ [t.name] ++ L)
      = segments q.hasRoot (R :: above ++ [t.name]) ++ L := by
    intro L
    rw [List.cons_append, segments_append]
  have hsays : saysOf q s (flat (R :: above)) t = if (matchedState s && q.children) = true then .iterate
      else matchSegments (P.map Seg.component) (segments q.hasRoot (R :: above ++ [t.name])) := by
    unfold saysOf
    rw [hp, names_split _ (by
      intro n hn
      rw [List.cons_append] at hn
      rcases List.mem_cons.1 hn with rfl | hn
      · exact hR
      · exact hall n hn), List.drop_succ_cons, List.drop_zero, hq]
  rw [hsays]
  simp only [hsegL]
  by_cases hmc : (matchedState s && q.children) = true
  · -- below a match, child keys requested
    right
    rw [if_pos hmc]
    rw [Bool.and_eq_true] at hmc
    have hu := below_exact (L := [t.name]) (hm1 hmc.1) (by simp)
    rw [← hseg] at hu
    have hks : kidState (matchedState s) true .iterate = some .Descendent := by
      rw [hmc.1]; rfl
    rw [hks]
    refine ⟨by decide, ⟨fun _ => .inr hu.2.1, ?_⟩, ?_⟩
    · intro h; cases h
    · exact ⟨fun _ => .inr (.inl ⟨hmc.2, hu.2.1⟩), fun _ => .inr rfl⟩
  · rw [if_neg hmc]
    by_cases hms : matchedState s = true
    · -- below a match, no child keys requested
      left
      have hch : q.children = false := by simpa [hms] using hmc
      have hu := below_exact (L := [t.name]) (hm1 hms) (by simp)
      rw [← hseg] at hu
      refine ⟨?_, ?_⟩
      · have h1 := mt (matchSegments_exact P _).1 hu.1
        have h2 := mt (matchSegments_way P _).1 hu.2.2
        revert h1 h2
        cases matchSegments (P.map Seg.component) (segments q.hasRoot (R :: above ++ [t.name])) <;> simp
      · intro L hw
        have hu2 := below_exact (L := [t.name] ++ L) (hm1 hms) (by simp)
        rw [← List.append_assoc, ← hseg] at hu2
        rcases hw with h | ⟨h, _⟩ | ⟨_, h⟩
        · exact hu2.1 h
        · rw [hch] at h; cases h
        · exact hu2.2.2 h
    · have hms : matchedState s = false := by simpa using hms
      obtain ⟨hne, hnu⟩ := hm2 hms
      have hnu' : ¬ Under P (segments q.hasRoot (R :: above ++ [t.name])) := by
        rw [hseg]
        rintro ⟨i, hi, h⟩
        rw [List.length_append, List.length_singleton] at hi
        rw [List.take_append_of_le_length (by omega)] at h
        by_cases he : i = (segments q.hasRoot (R :: above)).length
        · subst he; rw [List.take_length] at h; exact hne h
        · exact hnu ⟨i, by omega, h⟩
      cases hmt : matchSegments (P.map Seg.component) (segments q.hasRoot (R :: above ++ [t.name])) with
      | noMatch =>
        left
        refine ⟨rfl, ?_⟩
        have h1 : ¬ Exact P (segments q.hasRoot (R :: above ++ [t.name])) := by
          rw [← matchSegments_exact, hmt]; simp
        have h2 : ¬ OnTheWay P (segments q.hasRoot (R :: above ++ [t.name])) := by
          rw [← matchSegments_way, hmt]; simp
        intro L hw
        obtain ⟨d1, d2, d3⟩ := dead_append (L := L) h1 hnu' h2
        rcases hw with h | ⟨_, h⟩ | ⟨_, h⟩
        · exact d1 h
        · exact d2 h
        · exact d3 h
      | iterate =>
        right
        have hway := (matchSegments_way P _).1 hmt
        have h1 : ¬ Exact P (segments q.hasRoot (R :: above ++ [t.name])) := by
          rw [← matchSegments_exact, hmt]; simp
        have hks : kidState (matchedState s) true .iterate = some .None := by rw [hms]; rfl
        rw [hks]
        refine ⟨by decide, ⟨?_, fun _ => ⟨h1, hnu'⟩⟩, ?_⟩
        · intro h; cases h
        · constructor
          · rintro (h | h)
            · exact .inr (.inr ⟨h, hway⟩)
            · cases h
          · rintro (h | ⟨_, h⟩ | ⟨h, _⟩)
            · exact absurd h h1
            · exact absurd h hnu'
            · exact .inl h
      | keyMatch =>
        right
        have hex := (matchSegments_exact P _).1 hmt
        have hks : kidState (matchedState s) true .keyMatch = some .Exact := by rfl
        rw [hks]
        refine ⟨by decide, ⟨fun _ => .inl hex, ?_⟩, ?_⟩
        · intro h; cases h
        · exact ⟨fun _ => .inl hex, fun _ => .inr rfl⟩

mutual
/-- The listing through the filter, for a key at which the filter is in the state `s`. -/
theorem walk_wanted (P : List Seg) (q : RegQuery) (hq : q.keyPath = P.map Seg.component) (anc : Bool)
    (R : Str) (hR : '\\' ∉ R) : ∀ (t : Tree) (path : Str) (up above : List Str)
    (s : Option FilterMatchState), path ++ '\\' :: t.name = flat (R :: above) →
    up ++ [t.name] = R :: above → (∀ n ∈ above, '\\' ∉ n) →
    EveryAll (fun u => '\\' ∉ u.name) t.kids →
    StateOk P q (R :: above) s → ShownOk P q anc (R :: above) s →
    walk true (fun s => anc || !true || matchedState s) (saysOf q) s path t =
      ((t.named path up).filter fun x =>
        decide (Wanted P q.children anc (segments q.hasRoot x.2.2))).map entryOf
  | .mk off c name kids, path, up, above, s, hpath, hup, hab, hev, hs, hw => by
    simp only [Tree.name, Tree.kids] at hpath hev hup
    rw [walk, Tree.named, List.filter_cons, hup, hpath]
    rw [walkAll_wanted P q hq anc R hR kids above s hab hev hs]
    simp only [Bool.not_true, Bool.or_false, Bool.or_eq_true]
    by_cases h : Wanted P q.children anc (segments q.hasRoot (R :: above))
    · rw [if_pos (by simpa using hw.2 h), if_pos (decide_eq_true h)]
      rfl
    · rw [if_neg (by simpa using fun h' => h (hw.1 h')), if_neg (by simpa using h)]
      rfl
theorem walkAll_wanted (P : List Seg) (q : RegQuery) (hq : q.keyPath = P.map Seg.component) (anc : Bool)
    (R : Str) (hR : '\\' ∉ R) : ∀ (ts : List Tree) (above : List Str)
    (s : Option FilterMatchState), (∀ n ∈ above, '\\' ∉ n) → EveryAll (fun u => '\\' ∉ u.name) ts →
    StateOk P q (R :: above) s →
    walkAll true (fun s => anc || !true || matchedState s) (saysOf q) s (flat (R :: above)) ts =
      ((namedAll (flat (R :: above)) (R :: above) ts).filter fun x =>
        decide (Wanted P q.children anc (segments q.hasRoot x.2.2))).map entryOf
  | [], above, s, hab, hev, hs => by rw [walkAll, namedAll]; rfl
  | t :: ts, above, s, hab, hev, hs => by
    rw [EveryAll] at hev
    rw [walkAll, namedAll, List.filter_append, List.map_append,
      walkAll_wanted P q hq anc R hR ts above s hab hev.2 hs]
    congr 1
    rcases kid_step P q hq anc R hR t above s hab (every_self hev.1) hs with ⟨h1, h2⟩ | ⟨h1, h2, h3⟩
    · rw [if_pos h1]
      symm
      apply filter_empty (fun n => Wanted P q.children anc (segments q.hasRoot n))
      intro x hx
      cases t with
      | mk off c name kids =>
      rw [Tree.named] at hx
      rcases List.mem_cons.1 hx with rfl | hx
      · have := h2 []
        rw [List.append_nil] at this
        exact this
      · obtain ⟨L, _, h⟩ := namedAll_above kids _ _ x hx
        rw [h]
        exact h2 L
    · rw [if_neg h1]
      refine walk_wanted P q hq anc R hR t (flat (R :: above)) (R :: above) (above ++ [t.name]) _ ?_ rfl ?_
        (every_kids hev.1) h2 h3
      · rw [← List.cons_append, flat_snoc]
      · intro n hn
        rcases List.mem_append.1 hn with hn | hn
        · exact hab n hn
        · rw [List.mem_singleton.1 hn]; exact every_self hev.1
end

end Notatin
