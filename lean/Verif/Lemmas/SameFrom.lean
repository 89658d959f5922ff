import Verif.Props.Dump
/-
Files with the same bytes from some offset on store the same trees and values.
-/
namespace Notatin
open Spec

/-- The second file has the bytes of the first from the offset `h` on, and perhaps more behind them. -/
def SameFrom (h : Nat) (buf buf' : Bytes) : Prop :=
  h ≤ buf.length ∧ h ≤ buf'.length ∧ ∃ more, buf'.drop h = buf.drop h ++ more

theorem sameFrom_append (h : Nat) (buf more : Bytes) (hl : h ≤ buf.length) : SameFrom h buf (buf ++ more) :=
  ⟨hl, by rw [List.length_append]; omega, more, by rw [List.drop_append_of_le_length hl]⟩

theorem sameFrom_refl (h : Nat) (buf : Bytes) (hl : h ≤ buf.length) : SameFrom h buf buf := ⟨hl, hl, [], by simp⟩

theorem at_same {h : Nat} {buf buf' : Bytes} (hs : SameFrom h buf buf') {off : Nat} (ho : h ≤ off) {bs : Bytes}
    (ha : At buf off bs) : At buf' off bs := by
  obtain ⟨pre, post, e, hl⟩ := ha
  obtain ⟨h0, h1, more, h2⟩ := hs
  have hlen : off ≤ buf.length := by rw [e, List.length_append]; omega
  have hlen' : off ≤ buf'.length := by
    have := congrArg List.length h2
    rw [List.length_append, List.length_drop, List.length_drop] at this
    omega
  refine ⟨buf'.take off, post ++ more, ?_, ?_⟩
  · have hd : buf'.drop off = bs ++ (post ++ more) := by
      have := congrArg (List.drop (off - h)) h2
      rw [List.drop_append_of_le_length (by rw [List.length_drop]; omega), List.drop_drop, List.drop_drop,
        show h + (off - h) = off by omega] at this
      rw [this, ← List.append_assoc]
      congr 1
      rw [e, ← hl, List.drop_left]
    rw [← hd, List.take_append_drop]
  · rw [List.length_take]; omega

theorem listAt_same {h : Nat} {buf buf' : Bytes} (hs : SameFrom h buf buf') (depth : Nat) :
    ∀ off keys, ListAt buf h depth off keys → ListAt buf' h depth off keys := by
  induction depth with
  | zero => intro off keys hl; exact hl
  | succ depth ih =>
    intro off keys hl
    rw [ListAt] at hl ⊢
    rcases hl with ⟨form, size, items, h1, h2, h3, h4, h5⟩ | ⟨size, offs, parts, h1, h2, h3, h4, h5, h6⟩
    · exact .inl ⟨form, size, items, h1, h2, h3, at_same hs (by omega) h4, h5⟩
    · exact .inr ⟨size, offs, parts, h1, h2, h3, at_same hs (by omega) h4,
        pairwise2_imp (fun a _ b _ hab => ih a b hab) h5, h6⟩

theorem listAt_from {buf : Bytes} {h : Nat} (depth : Nat) :
    ∀ off keys, ListAt buf h depth off keys → ∀ k ∈ keys, h ≤ k := by
  induction depth with
  | zero => intro off keys hl; exact absurd hl (by rw [ListAt]; exact id)
  | succ depth ih =>
    intro off keys hl k hk
    rw [ListAt] at hl
    rcases hl with ⟨form, size, items, _, _, _, _, h5⟩ | ⟨size, offs, parts, _, _, _, _, h5, h6⟩
    · rw [h5] at hk
      obtain ⟨p, _, rfl⟩ := List.mem_map.1 hk
      omega
    · rw [h6] at hk
      obtain ⟨part, hp, hk⟩ := List.mem_flatten.1 hk
      obtain ⟨o, _, ho⟩ := pairwise2_mem_right h5 part hp
      exact ih o part ho k hk

mutual
theorem treeAt_same {h : Nat} {buf buf' : Bytes} (hs : SameFrom h buf buf') (depth : Nat) : ∀ t : Tree, h ≤ t.off →
    TreeAt buf h depth t → TreeAt buf' h depth t
  | .mk off c name kids, ho, ht => by
    rw [TreeAt] at ht ⊢
    obtain ⟨⟨k1, k2, k3⟩, h2, h3⟩ := ht
    refine ⟨⟨k1, at_same hs ho k2, k3⟩, ?_, forestAt_same hs depth kids ?_ h3⟩
    · rcases h2 with h2 | ⟨a, b, c⟩
      · exact .inl h2
      · exact .inr ⟨a, b, listAt_same hs depth _ _ c⟩
    · intro k hk
      rcases h2 with ⟨_, h2⟩ | ⟨_, _, c⟩
      · rw [h2] at hk; cases hk
      · exact listAt_from depth _ _ c _ (List.mem_map.2 ⟨k, hk, rfl⟩)
theorem forestAt_same {h : Nat} {buf buf' : Bytes} (hs : SameFrom h buf buf') (depth : Nat) : ∀ ts : List Tree,
    (∀ t ∈ ts, h ≤ t.off) → ForestAt buf h depth ts → ForestAt buf' h depth ts
  | [], _, _ => trivial
  | t :: ts, ho, ht => by
    rw [ForestAt] at ht ⊢
    exact ⟨ht.1, treeAt_same hs depth t (ho t List.mem_cons_self) ht.2.1,
      forestAt_same hs depth ts (fun u hu => ho u (List.mem_cons_of_mem _ hu)) ht.2.2⟩
end

theorem segmentsAt_same {h : Nat} {buf buf' : Bytes} (hs : SameFrom h buf buf') {offs : List Nat} {data : Bytes}
    (hd : SegmentsAt buf h offs data) : SegmentsAt buf' h offs data := by
  induction hd with
  | last off size data h1 h2 h3 h4 h5 => exact .last off size data h1 h2 h3 h4 (at_same hs (by omega) h5)
  | cons off size seg offs rest h1 h2 h3 h4 _ ih => exact .cons off size seg offs rest h1 h2 h3 (at_same hs (by omega) h4) ih

theorem stored_same {h : Nat} {buf buf' : Bytes} (hs : SameFrom h buf buf') {cell size off : Nat} {data : Bytes}
    {locs : List Nat} (hd : Stored buf h cell size off data locs) : Stored buf' h cell size off data locs := by
  cases hd with
  | resident data pad h1 => exact .resident _ _ h1
  | plain offset size data h1 h2 h3 => exact .plain _ _ _ h1 h2 (at_same hs (by omega) h3)
  | big offset size segList listSize offs data h1 h2 h3 h4 h5 h6 h7 h8 h9 h10 =>
    exact .big _ _ _ _ _ _ h1 h2 h3 h4 h5 h6 h7 (at_same hs (by omega) h8) (at_same hs (by omega) h9)
      (segmentsAt_same hs h10)

theorem valueAt_same {h : Nat} {buf buf' : Bytes} (hs : SameFrom h buf buf') {off : Nat} {v : Val}
    (hv : ValueAt buf h off v) : ValueAt buf' h off v := by
  obtain ⟨c, locs, h1, h2, h3, h4, h5, h6⟩ := hv
  exact ⟨c, locs, h1, at_same hs (by omega) h2, h3, h4, stored_same hs h5, h6⟩

theorem valuesAt_same {h : Nat} {buf buf' : Bytes} (hs : SameFrom h buf buf') {c : NkCell} {vs : List Val}
    (hv : ValuesAt buf h c vs) : ValuesAt buf' h c vs := by
  obtain ⟨h1, h2, h3⟩ := hv
  refine ⟨h1, h2, ?_⟩
  rcases h3 with h3 | ⟨offs, lo, size, a1, a2, a3, a4, a5, a6⟩
  · exact .inl h3
  · exact .inr ⟨offs, lo, size, a1, a2, a3, a4, at_same hs (by omega) a5,
      pairwise2_imp (fun x _ y _ hxy => valueAt_same hs hxy) a6⟩

theorem storedHive_same {w : World} {buf buf' : Bytes} (hs : SameFrom 4096 buf buf') {t : Tree} {vals : Nat → List Val}
    (h : StoredHive w buf t vals) : StoredHive w buf' t vals := by
  obtain ⟨⟨h1, h2, h3, h4⟩, h5⟩ := h
  refine ⟨⟨?_, h2, treeAt_same hs _ _ (by omega) h3, h4⟩, every_imp (fun u hu => valuesAt_same hs hu) _ h5⟩
  obtain ⟨o, s, u1, u2, tm, sp, a1, a2, a3, a4, a5, a6, a7⟩ := h1
  exact ⟨o, s, u1, u2, tm, sp, a1, a2, a3, a4, a5, a6, at_same hs (Nat.le_refl _) a7⟩

end Notatin
