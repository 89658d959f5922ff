import Verif.Spec.Analyzer
import Verif.Lemmas.CompareTells
import Verif.Lemmas.SameFrom
/-
What is kept about the cells of a file holds as well for a file with the same bytes and more behind them.
-/
namespace Notatin
open Spec

theorem drop_of_getFrom {buf s : Bytes} {off : Nat} (h : getFrom buf off = some s) : buf.drop off = s := by
  unfold getFrom at h
  split at h
  · exact Option.some.inj h
  · cases h

theorem keyWas_same {w : World} {buf buf' : Bytes} {path : Str} {it : Item}
    {c : NkCell} {name : Str} (hk : KeyAt buf it.off c name) (hk' : KeyAt buf' it.off c name)
    (h : KeyWas (w.env buf) path it) : KeyWas (w.env buf') path it := by
  obtain ⟨k, r, h1, h2, h3⟩ := h
  obtain ⟨k0, r0, s0, g1, g2, g3, _⟩ := readKeyAt (w.env buf) it.off c name hk (upTo path) (some it.seq)
  obtain ⟨k1, r1, s1, f1, f2, f3, _⟩ := readKeyAt (w.env buf') it.off c name hk' (upTo path) (some it.seq)
  rw [drop_of_getFrom g1, g2] at h1
  simp only [Res.ok.injEq, Prod.mk.injEq] at h1
  obtain ⟨rfl, rfl⟩ := h1
  have e0 := keyNode_hashOf _ _ _ _ _ _ _ g2
  have e1 := keyNode_hashOf _ _ _ _ _ _ _ f2
  obtain ⟨_, a2, a3, a4, _, _, _, _, _, _, _, _, _, _, _, _, _, _, _, _, _, _, a23, _⟩ := g3
  obtain ⟨_, b2, b3, b4, _, _, _, _, _, _, _, _, _, _, _, _, _, _, _, _, _, _, b23, _⟩ := f3
  refine ⟨k1, r1, by rw [drop_of_getFrom f1]; exact f2, ?_, ?_⟩
  · rw [b23, ← a23]; exact h2
  · rw [e1, b2, b3, b4, ← h3, e0, a2, a3, a4]
    rfl

/-- A stored value with its flags. -/
theorem valueAt_flags {buf : Bytes} {hbin off : Nat} {x : Val} (h : ValueAt buf hbin off x) :
    ∃ flags, FlagsAt buf hbin off flags := by
  obtain ⟨c, _, hfit, hat, _⟩ := h
  exact ⟨c.flags, by have := hfit.2.2.2.2.2.1; omega, at_vk_flags hat⟩

/-- A stored value can be read. -/
theorem valueAt_isValue (env : Env) (off : Nat) (x : Val) (h : ValueAt env.fi.buffer env.fi.hbin off x) :
    ∃ v, IsValueAt env none off v := by
  obtain ⟨c, locs, hfit, hat, hn, _⟩ := h
  obtain ⟨post, hg, _⟩ := at_getFrom hat
  have hd := drop_of_getFrom hg
  rcases hn with ⟨h1, h2, h3⟩ | ⟨h1, h2, h3⟩
  · obtain ⟨kv, e1, _⟩ := vk_decode_ascii c hfit h1 h2 post (off + env.fi.hbin) none
    exact ⟨_, kv, post, by rw [hd]; exact e1, rfl⟩
  · obtain ⟨kv, e1, _⟩ := vk_decode_utf16 c hfit x.name h1 h2 h3 post (off + env.fi.hbin) none
    exact ⟨_, kv, post, by rw [hd]; exact e1, rfl⟩

theorem valueWas_same {w : World} {buf buf' : Bytes} {name : Str} {it : Item} {x : FlaggedVal} {o : Nat}
    (ho : it.off = o + 4096) (hv : ValueAt buf 4096 o x.val) (hf : FlagsAt buf 4096 o x.flags)
    (hv' : ValueAt buf' 4096 o x.val) (hf' : FlagsAt buf' 4096 o x.flags) (h : ValueWas (w.env buf) name it) :
    ValueWas (w.env buf') name it := by
  obtain ⟨kv, r, h1, h2, h3⟩ := h
  have h0 := keyValue_seq _ _ _ none _ _ h1
  have hi : IsValueAt (w.env buf) none o (.mk ((({ kv with seq := none } : KeyValue)).readValueBytes w.hashFn (w.env buf).fi) []) :=
    ⟨_, _, by rw [ho] at h0; exact h0, rfl⟩
  obtain ⟨a1, a2, a3, _⟩ := listedVal_of (w.env buf) o x _ hv hf hi
  obtain ⟨v', kv', r', f1, rfl⟩ := valueAt_isValue (w.env buf') o x.val hv'
  obtain ⟨b1, b2, b3, _⟩ := listedVal_of (w.env buf') o x _ hv' hf' ⟨kv', r', f1, rfl⟩
  have f2 := keyValue_seq _ _ _ (some it.seq) _ _ f1
  refine ⟨_, _, by rw [ho]; exact f2, ?_, ?_⟩
  · have n1 : kv.name = x.val.name := congrArg Val.name a1
    have n2 : kv'.name = x.val.name := congrArg Val.name b1
    rw [← h2, n1]; exact n2
  · have e1 : (kv.readValueBytes w.hashFn (w.env buf).fi).hash = _ := a3
    rw [← h3]
    exact b3.trans e1.symm

/-- The values of a key with the flags they have. -/
theorem valuesAt_flagged {buf : Bytes} {hbin : Nat} {c : NkCell} {vs : List Val} (h : ValuesAt buf hbin c vs) :
    ∃ xs, FlaggedValuesAt buf hbin c xs := by
  obtain ⟨h1, h2, h3⟩ := h
  rcases h3 with rfl | ⟨offs, lo, size, a1, a2, a3, a4, a5, a6⟩
  · exact ⟨[], h1, h2, .inl rfl⟩
  · have : ∀ (offs : List Nat) (vs : List Val), Pairwise2 (ValueAt buf hbin) offs vs → ∃ xs : List FlaggedVal,
        xs.length = vs.length ∧ Pairwise2 (fun off x => ValueAt buf hbin off x.val ∧ FlagsAt buf hbin off x.flags) offs xs := by
      intro offs
      induction offs with
      | nil =>
        intro vs h
        cases vs with
        | nil => exact ⟨[], rfl, trivial⟩
        | cons => exact absurd h (by simp [Pairwise2])
      | cons o offs ih =>
        intro vs h
        cases vs with
        | nil => exact absurd h (by simp [Pairwise2])
        | cons v vs =>
          obtain ⟨xs, e, hx⟩ := ih vs h.2
          obtain ⟨f, hf⟩ := valueAt_flags h.1
          exact ⟨⟨v, f⟩ :: xs, by rw [List.length_cons, List.length_cons, e], ⟨h.1, hf⟩, hx⟩
    obtain ⟨xs, e, hx⟩ := this offs vs a6
    exact ⟨xs, by rw [e]; exact h1, by rw [e]; exact h2, .inr ⟨offs, lo, size, a1, a2, a3, a4, a5, hx⟩⟩

theorem flagsAt_same {h : Nat} {buf buf' : Bytes} (hs : SameFrom h buf buf') {o flags : Nat}
    (hf : FlagsAt buf h o flags) : FlagsAt buf' h o flags := ⟨hf.1, at_same hs (by omega) hf.2⟩

/-- The listed values are where values are stored. -/
theorem storedValues_at {w : World} {buf buf' : Bytes} (hs : SameFrom 4096 buf buf') (k : KeyNode) (c : NkCell)
    (vs : List Val) (hn : k.nValues = c.nValues) (hl : k.valuesListOffset = c.valuesList) (h0 : k.values = [])
    (hx : ValuesAt buf 4096 c vs) :
    ∀ v ∈ storedValues (w.env buf') k, ∃ (o : Nat) (x : FlaggedVal), v.val.fileOffset = o + 4096 ∧
      ValueAt buf 4096 o x.val ∧ FlagsAt buf 4096 o x.flags := by
  obtain ⟨xs, hx⟩ := valuesAt_flagged hx
  intro v hv
  obtain ⟨x, _, _, o, hi, hva, hfa⟩ := pairwise2_mem_left (stored_listed_from (w.env buf') k c xs buf
    (fun _ _ ho h => at_same hs ho h) (fun _ _ h => valueAt_same hs h) hn hl h0 hx) v hv
  refine ⟨o, x, ?_, hva, hfa⟩
  obtain ⟨kv, r, h1, rfl⟩ := hi
  have : kv.fileOffset = o + 4096 := keyValue_off _ _ _ _ _ h1
  exact this

end Notatin
