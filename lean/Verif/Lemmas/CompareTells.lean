import Verif.Spec.CompareTells
import Verif.Props.Values
import Verif.Props.Dump
/-
Lemmas for C74: the listing of a hive is the listing of its stored tree, with the hashes of what is stored.
-/
namespace Notatin
open Spec

/-! ### Lists in step -/

theorem pairwise2_flip {α β : Type} {R : α → β → Prop} {S : β → α → Prop} (hs : ∀ a b, R a b → S b a) :
    ∀ {as : List α} {bs : List β}, Pairwise2 R as bs → Pairwise2 S bs as
  | [], [], _ => trivial
  | [], _ :: _, h => absurd h (by simp [Pairwise2])
  | _ :: _, [], h => absurd h (by simp [Pairwise2])
  | _ :: _, _ :: _, h => ⟨hs _ _ h.1, pairwise2_flip hs h.2⟩

theorem pairwise2_filter {α β : Type} {R : α → β → Prop} (p : α → Bool) (q : β → Bool) :
    ∀ {as : List α} {bs : List β}, (∀ a ∈ as, ∀ b ∈ bs, R a b → p a = q b) → Pairwise2 R as bs →
    Pairwise2 R (as.filter p) (bs.filter q)
  | [], [], _, _ => trivial
  | [], _ :: _, _, h => absurd h (by simp [Pairwise2])
  | _ :: _, [], _, h => absurd h (by simp [Pairwise2])
  | a :: as, b :: bs, hi, h => by
    have ih := pairwise2_filter p q
      (fun a ha b hb => hi a (List.mem_cons_of_mem _ ha) b (List.mem_cons_of_mem _ hb)) h.2
    have e := hi a List.mem_cons_self b List.mem_cons_self h.1
    rw [List.filter_cons, List.filter_cons, e]
    by_cases hq : q b = true
    · rw [if_pos hq, if_pos hq]; exact ⟨h.1, ih⟩
    · rw [if_neg hq, if_neg hq]; exact ih

theorem pairwise2_flatMap {α β γ δ : Type} {R : α → β → Prop} {S : γ → δ → Prop} (f : α → List γ) (g : β → List δ) :
    ∀ {as : List α} {bs : List β}, (∀ a b, R a b → Pairwise2 S (f a) (g b)) → Pairwise2 R as bs →
    Pairwise2 S (as.flatMap f) (bs.flatMap g)
  | [], [], _, _ => trivial
  | [], _ :: _, _, h => absurd h (by simp [Pairwise2])
  | _ :: _, [], _, h => absurd h (by simp [Pairwise2])
  | a :: as, b :: bs, hi, h => by
    rw [List.flatMap_cons, List.flatMap_cons]
    exact pairwise2_append (hi a b h.1) (pairwise2_flatMap f g hi h.2)

theorem pairwise2_map_map {α β γ δ : Type} {R : α → β → Prop} {S : γ → δ → Prop} (f : α → γ) (g : β → δ)
    (hi : ∀ a b, R a b → S (f a) (g b)) : ∀ {as : List α} {bs : List β}, Pairwise2 R as bs →
    Pairwise2 S (as.map f) (bs.map g)
  | [], [], _ => trivial
  | [], _ :: _, h => absurd h (by simp [Pairwise2])
  | _ :: _, [], h => absurd h (by simp [Pairwise2])
  | _ :: _, _ :: _, h => ⟨hi _ _ h.1, pairwise2_map_map f g hi h.2⟩

/-- Another order of one list gives another order of the other. -/
theorem pairwise2_perm {α β : Type} {R : α → β → Prop} {as as' : List α} (hp : as.Perm as') :
    ∀ bs : List β, Pairwise2 R as bs → ∃ bs', bs.Perm bs' ∧ Pairwise2 R as' bs' := by
  induction hp with
  | nil => exact fun bs h => ⟨bs, .refl _, h⟩
  | cons x _ ih =>
    intro bs h
    cases bs with
    | nil => exact absurd h (by simp [Pairwise2])
    | cons b bs =>
      obtain ⟨bs', h1, h2⟩ := ih bs h.2
      exact ⟨b :: bs', h1.cons b, h.1, h2⟩
  | swap x y l =>
    intro bs h
    cases bs with
    | nil => exact absurd h (by simp [Pairwise2])
    | cons b bs =>
      cases bs with
      | nil => exact absurd h.2 (by simp [Pairwise2])
      | cons c bs => exact ⟨c :: b :: bs, .swap _ _ _, h.2.1, h.1, h.2.2⟩
  | trans _ _ ih1 ih2 =>
    intro bs h
    obtain ⟨b1, h1, h2⟩ := ih1 bs h
    obtain ⟨b2, h3, h4⟩ := ih2 b1 h2
    exact ⟨b2, h1.trans h3, h4⟩

theorem filter_none {α : Type} {p : α → Bool} {l : List α} (h : ∀ a ∈ l, p a = false) : l.filter p = [] := by
  rw [List.filter_eq_nil_iff]
  intro a ha
  rw [h a ha]
  decide

theorem filter_one {α κ : Type} (key : α → κ) (p : α → Bool) (x : κ) : ∀ (l : List α),
    l.Pairwise (fun a b => key a ≠ key b) → ∀ a ∈ l, p a = true → key a = x → (∀ b, p b = true → key b = x) →
    l.filter p = [a]
  | [], _, a, ha, _, _, _ => absurd ha List.not_mem_nil
  | y :: l, hd, a, ha, hp, hk, hall => by
    rw [List.pairwise_cons] at hd
    rw [List.filter_cons]
    rcases List.mem_cons.1 ha with rfl | ha
    · rw [if_pos hp, filter_none]
      intro b hb
      by_cases hpb : p b = true
      · exact absurd (hk.trans (hall b hpb).symm) (hd.1 b hb)
      · simpa using hpb
    · rw [if_neg]
      · exact filter_one key p x l hd.2 a ha hp hk hall
      · intro hpy
        exact hd.1 a ha ((hall y hpy).trans hk.symm)

/-- The changed items in step. -/
theorem pairwise2_changed {α β γ : Type} {R : α → β → Prop} {P : α → γ → Prop} {S : γ → β × β → Prop} (p : α → Bool)
    (q : β → β → Bool) (ks : List β) : ∀ {as : List α} {bs : List β} {ms : List γ}, Pairwise2 R as bs →
    (∀ a ∈ as, ∀ b ∈ bs, R a b → p a = false → ∀ k ∈ ks, q b k = false) →
    (∀ a ∈ as, ∀ b ∈ bs, ∀ m, R a b → p a = true → P a m → ∃ k, ks.filter (q b) = [k] ∧ S m (k, b)) →
    Pairwise2 P (as.filter p) ms → Pairwise2 S ms (bs.flatMap fun b => (ks.filter (q b)).map fun k => (k, b))
  | [], [], ms, _, _, _, hm => by
    cases ms with
    | nil => trivial
    | cons => exact absurd hm (by simp [Pairwise2])
  | [], _ :: _, _, h, _, _, _ => absurd h (by simp [Pairwise2])
  | _ :: _, [], _, h, _, _, _ => absurd h (by simp [Pairwise2])
  | a :: as, b :: bs, ms, h, h0, h1, hm => by
    have ih := fun ms' hm' => pairwise2_changed (P := P) (S := S) p q ks (ms := ms') h.2
      (fun a ha b hb => h0 a (List.mem_cons_of_mem _ ha) b (List.mem_cons_of_mem _ hb))
      (fun a ha b hb => h1 a (List.mem_cons_of_mem _ ha) b (List.mem_cons_of_mem _ hb)) hm'
    rw [List.flatMap_cons]
    rw [List.filter_cons] at hm
    by_cases hp : p a = true
    · rw [if_pos hp] at hm
      cases ms with
      | nil => exact absurd hm (by simp [Pairwise2])
      | cons m ms =>
        obtain ⟨k, e, hs⟩ := h1 a List.mem_cons_self b List.mem_cons_self m h.1 hp hm.1
        rw [e]
        exact ⟨hs, ih ms hm.2⟩
    · rw [if_neg hp] at hm
      rw [filter_none (h0 a List.mem_cons_self b List.mem_cons_self h.1 (by simpa using hp))]
      exact ih ms hm

/-! ### The keys of a tree -/

mutual
theorem keys_pre : ∀ (t : Tree) (parent : Str), (t.keys parent).map (fun x => (x.2.off, x.1)) = t.pre parent
  | .mk off c name kids, parent => by
    rw [Tree.keys, Tree.pre, List.map_cons, keysAll_pre kids]
    rfl
theorem keysAll_pre : ∀ (ts : List Tree) (parent : Str),
    (keysAll parent ts).map (fun x => (x.2.off, x.1)) = preAll parent ts
  | [], parent => by rw [keysAll, preAll]; rfl
  | t :: ts, parent => by
    rw [keysAll, preAll, List.map_append, keys_pre t, keysAll_pre ts]
end

mutual
theorem keys_nodes : ∀ (t : Tree) (parent : Str), (t.keys parent).map Prod.snd = t.nodes
  | .mk off c name kids, parent => by
    rw [Tree.keys, Tree.nodes, List.map_cons, keysAll_nodes kids]
theorem keysAll_nodes : ∀ (ts : List Tree) (parent : Str), (keysAll parent ts).map Prod.snd = nodesAll ts
  | [], parent => by rw [keysAll, nodesAll]; rfl
  | t :: ts, parent => by
    rw [keysAll, nodesAll, List.map_append, keys_nodes t, keysAll_nodes ts]
end

mutual
theorem nodes_at {buf : Bytes} {hbin depth : Nat} : ∀ (t : Tree), TreeAt buf hbin depth t → ∀ u ∈ t.nodes,
    KeyAt buf u.off u.cell u.name
  | .mk off c name kids, h, u, hu => by
    rw [TreeAt] at h
    rw [Tree.nodes] at hu
    rcases List.mem_cons.1 hu with rfl | hu
    · exact h.1
    · exact nodesAll_at kids h.2.2 u hu
theorem nodesAll_at {buf : Bytes} {hbin depth : Nat} : ∀ (ts : List Tree), ForestAt buf hbin depth ts →
    ∀ u ∈ nodesAll ts, KeyAt buf u.off u.cell u.name
  | [], _, u, hu => absurd hu List.not_mem_nil
  | t :: ts, h, u, hu => by
    rw [ForestAt] at h
    rw [nodesAll] at hu
    rcases List.mem_append.1 hu with hu | hu
    · exact nodes_at t h.2.1 u hu
    · exact nodesAll_at ts h.2.2 u hu
end

/-! ### Values with flags and hashes -/

theorem at_unique {buf : Bytes} {off : Nat} {a b : Bytes} (ha : At buf off a) (hb : At buf off b)
    (hl : a.length = b.length) : a = b := by
  obtain ⟨p, s, e1, l1⟩ := ha
  obtain ⟨p', s', e2, l2⟩ := hb
  rw [e1] at e2
  have := List.append_inj e2 (by omega)
  exact (List.append_inj this.2 hl).1

theorem encLE_inj {k n m : Nat} (hn : n < 256 ^ k) (hm : m < 256 ^ k) (h : encLE k n = encLE k m) : n = m := by
  have := congrArg leNat h
  rwa [leNat_encLE_of_lt hn, leNat_encLE_of_lt hm] at this

theorem at_vk_flags {buf : Bytes} {off : Nat} {c : VkCell} (h : At buf off c.encode) :
    At buf (off + 20) (encLE 2 c.flags) := by
  obtain ⟨p, s, e, l⟩ := h
  refine ⟨p ++ (encI32 c.size ++ (vkSig ++ (encLE 2 c.nameBytes.length ++ (encLE 4 c.dataSize ++
    (encLE 4 c.dataOffset ++ encLE 4 c.dataType))))), encLE 2 c.padding ++ (c.nameBytes ++ c.slack) ++ s, ?_, ?_⟩
  · rw [e, VkCell.encode]
    simp only [List.append_assoc]
  · simp only [List.length_append, length_encI32, length_encLE, l]
    simp only [vkSig, List.length_cons, List.length_nil]

theorem u16ToLeBytes_eq (n : Nat) : u16ToLeBytes n = encLE 2 n := by
  simp only [u16ToLeBytes, encLE]
  have h : ∀ m, UInt8.ofNat (m % 256) = UInt8.ofNat m := by
    intro m
    apply UInt8.toNat_inj.1
    simp
  rw [h, h]

theorem u64ToLeBytes_eq (n : Nat) : u64ToLeBytes n = encLE 8 n := by
  have h : ∀ m, UInt8.ofNat (m % 256) = UInt8.ofNat m := by
    intro m
    apply UInt8.toNat_inj.1
    simp
  simp only [u64ToLeBytes, encLE, u32ToLeBytes_eq, Nat.div_div_eq_div_mul, h]
  rfl

/-- The value is listed as it is stored. -/
def ListedVal (hash : Bytes → Bytes) (v : Value) (x : FlaggedVal) : Prop :=
  obsVal v = x.val ∧ v.val.flagsRaw = x.flags ∧ v.val.hash = some (hash x.factBytes) ∧ PlainValue v

theorem listedVal_of (env : Env) (off : Nat) (x : FlaggedVal) (v : Value)
    (hv : ValueAt env.fi.buffer env.fi.hbin off x.val) (hf : FlagsAt env.fi.buffer env.fi.hbin off x.flags)
    (hi : IsValueAt env none off v) : ListedVal env.hashFn v x := by
  obtain ⟨ho, _, hplain⟩ := (valueAt_read env none off x.val hv).2 v hi
  have hfl : v.val.flagsRaw = x.flags := by
    obtain ⟨c, locs, hfit, hat, hn, _⟩ := hv
    obtain ⟨post, hg, _⟩ := at_getFrom hat
    have hd : env.fi.buffer.drop (off + env.fi.hbin) = c.encode ++ post := by
      unfold getFrom at hg
      split at hg
      · exact Option.some.inj hg
      · cases hg
    have hdec : ∃ kv name, KeyValue.fromBytes (c.encode ++ post) (off + env.fi.hbin) none = .ok (kv, post) ∧
        ValueMatches kv c name (off + env.fi.hbin) none := by
      rcases hn with ⟨h1, h2, h3⟩ | ⟨h1, h2, h3⟩
      · obtain ⟨kv, e1, e2, _⟩ := vk_decode_ascii c hfit h1 h2 post (off + env.fi.hbin) none
        exact ⟨kv, _, e1, e2⟩
      · obtain ⟨kv, e1, e2, _⟩ := vk_decode_utf16 c hfit x.val.name h1 h2 h3 post (off + env.fi.hbin) none
        exact ⟨kv, _, e1, e2⟩
    obtain ⟨kv, name, hkv, hm⟩ := hdec
    obtain ⟨kv', r, hk, rfl⟩ := hi
    rw [hd, hkv] at hk
    cases hk
    have e := at_unique (at_vk_flags hat) hf.2 (by simp)
    have : c.flags = x.flags := encLE_inj (by have := hfit.2.2.2.2.2.1; omega) (by have := hf.1; omega) e
    rw [← this]
    exact hm.2.2.2.2.2.1
  refine ⟨ho, hfl, ?_, hplain⟩
  have hh : v.val.hash = some (KeyValue.hashOf env.hashFn v.val.dataTypeRaw v.val.flagsRaw (v.val.valueBytes.getD [])) := by
    obtain ⟨kv, r, _, rfl⟩ := hi
    rfl
  rw [hh, hfl]
  unfold KeyValue.hashOf FlaggedVal.factBytes
  rw [u32ToLeBytes_eq, u16ToLeBytes_eq, ← ho]
  rfl

theorem flagged_values {buf : Bytes} {hbin : Nat} {c : NkCell} {xs : List FlaggedVal}
    (h : FlaggedValuesAt buf hbin c xs) : ValuesAt buf hbin c (xs.map FlaggedVal.val) := by
  obtain ⟨h1, h2, h3⟩ := h
  refine ⟨by rw [List.length_map]; exact h1, by rw [List.length_map]; exact h2, ?_⟩
  rcases h3 with rfl | ⟨offs, listOff, size, g1, g2, g3, g4, g5, g6⟩
  · exact .inl rfl
  · refine .inr ⟨offs, listOff, size, g1, g2, g3, g4, g5, ?_⟩
    have := pairwise2_map_map (S := ValueAt buf hbin) id FlaggedVal.val (fun a b h => h.1) g6
    rwa [List.map_id] at this

/-- The values of a key are listed as they are stored, perhaps in a shorter file. -/
theorem stored_listed_from (env : Env) (k : KeyNode) (c : NkCell) (xs : List FlaggedVal) (buf : Bytes)
    (hat : ∀ off bs, env.fi.hbin ≤ off → At buf off bs → At env.fi.buffer off bs)
    (hval : ∀ off x, ValueAt buf env.fi.hbin off x → ValueAt env.fi.buffer env.fi.hbin off x)
    (hn : k.nValues = c.nValues) (hl : k.valuesListOffset = c.valuesList) (h0 : k.values = [])
    (hx : FlaggedValuesAt buf env.fi.hbin c xs) :
    Pairwise2 (fun v x => ListedVal env.hashFn v x ∧ ∃ off, IsValueAt env none off v ∧
      ValueAt buf env.fi.hbin off x.val ∧ FlagsAt buf env.fi.hbin off x.flags)
      (storedValues env k) xs := by
  obtain ⟨hc, hmax, hx⟩ := hx
  have hnil : xs = [] → Pairwise2 (fun v x => ListedVal env.hashFn v x ∧ ∃ off, IsValueAt env none off v ∧
      ValueAt buf env.fi.hbin off x.val ∧ FlagsAt buf env.fi.hbin off x.flags)
      (storedValues env k) xs := by
    rintro rfl
    unfold storedValues
    rw [if_neg (by rw [hn, hc]; simp)]
    trivial
  rcases hx with h | ⟨offs, listOff, size, h1, h2, h3, h4, h5, h6⟩
  · exact hnil h
  · by_cases hz : offs = []
    · subst hz
      cases xs with
      | nil => exact hnil rfl
      | cons => exact absurd h6 (by simp [Pairwise2])
    · have hlen : offs.length = xs.length := pairwise2_len h6
      have hpos : 0 < offs.length := List.length_pos_iff.2 hz
      obtain ⟨vs, lg, e1, e2, e3⟩ := read_values_partial env ⟨0, [], none, true, none, false⟩ .iterate k offs
        listOff size rfl (by rw [hn, hc, hlen]) hpos (by omega) (by rw [hl, h1]) h2 h3 h4
        (hat _ _ (by omega) h5)
      have hs := valuesStep_stored env ⟨0, [], none, true, none, false⟩ .iterate k _ rfl h0 (.inl (.inl rfl)) e1
      have hs : vs = storedValues env k := hs
      have hva : Pairwise2 (ValueAt env.fi.buffer env.fi.hbin) offs (xs.map FlaggedVal.val) := by
        have := pairwise2_map_map (S := ValueAt env.fi.buffer env.fi.hbin) id FlaggedVal.val (fun a b h => hval _ _ h.1) h6
        rwa [List.map_id] at this
      obtain ⟨a1, _⟩ := valuesAt_all env none offs (xs.map FlaggedVal.val) vs hva
      have htw : offs.takeWhile (valueOk env.fi) = offs := by
        have : ∀ l : List Nat, l.all (valueOk env.fi) = true → l.takeWhile (valueOk env.fi) = l := by
          intro l
          induction l with
          | nil => intro _; rfl
          | cons a l ih =>
            intro h
            rw [List.all_cons, Bool.and_eq_true] at h
            rw [List.takeWhile_cons, if_pos h.1, ih h.2]
        exact this offs a1
      rw [htw] at e2
      rw [← hs]
      have hflip : Pairwise2 (fun v off => IsValueAt env none off v) vs offs := pairwise2_flip (fun _ _ h => h) e2
      exact pairwise2_trans (fun v off x hi hx => ⟨listedVal_of env off x v (hval _ _ hx.1)
        ⟨hx.2.1, hat _ _ (by omega) hx.2.2⟩ hi, off, hi, hx⟩) hflip h6

/-- The values of a key are listed as they are stored. -/
theorem stored_listed_at (env : Env) (k : KeyNode) (c : NkCell) (xs : List FlaggedVal)
    (hn : k.nValues = c.nValues) (hl : k.valuesListOffset = c.valuesList) (h0 : k.values = [])
    (hx : FlaggedValuesAt env.fi.buffer env.fi.hbin c xs) :
    Pairwise2 (fun v x => ListedVal env.hashFn v x ∧ ∃ off, IsValueAt env none off v ∧
      ValueAt env.fi.buffer env.fi.hbin off x.val ∧ FlagsAt env.fi.buffer env.fi.hbin off x.flags)
      (storedValues env k) xs :=
  stored_listed_from env k c xs env.fi.buffer (fun _ _ _ h => h) (fun _ _ h => h) hn hl h0 hx

/-- The values of a key are listed as they are stored. -/
theorem stored_listed (env : Env) (k : KeyNode) (c : NkCell) (xs : List FlaggedVal)
    (hn : k.nValues = c.nValues) (hl : k.valuesListOffset = c.valuesList) (h0 : k.values = [])
    (hx : FlaggedValuesAt env.fi.buffer env.fi.hbin c xs) :
    Pairwise2 (ListedVal env.hashFn) (storedValues env k) xs :=
  pairwise2_imp (fun _ _ _ _ h => h.1) (stored_listed_at env k c xs hn hl h0 hx)

/-! ### Keys with hashes -/

/-- The key is listed as it is stored. -/
def ListedKey (hash : Bytes → Bytes) (vals : Nat → List FlaggedVal) (n : Node) (x : Str × Tree) : Prop :=
  n.key.path = x.1 ∧ (n.key.fileOffset = x.2.off ∧ n.key.lastWritten = x.2.cell.lastWritten ∧
    n.key.flagBits = x.2.cell.flags ∧ n.key.accessBits = x.2.cell.access) ∧
    n.key.hash = some (hash x.2.factBytes) ∧ Pairwise2 (ListedVal hash) n.key.values (vals x.2.off)

theorem keyNode_hashOf (hashFn : Bytes → Bytes) (bs : Bytes) (off : Nat) (path : Str)
    (seq : Option Nat) (k : KeyNode) (r : Bytes)
    (h : KeyNode.fromBytes hashFn bs off path seq = .ok (k, r)) :
    k.hash = some (KeyNode.hashOf hashFn k.flagBits k.lastWritten k.accessBits) := by
  rcases keyNode_cases hashFn bs off path seq with ⟨_, n, l, _, hp⟩ | ⟨_, hp⟩
  · rw [h] at hp; cases hp; rfl
  · rw [h] at hp; cases hp

theorem listedKey_of (env : Env) (vals : Nat → List FlaggedVal) (n : Node) (path : Str) (u : Tree)
    (hf : FromCell env True n) (hk : KeyAt env.fi.buffer u.off u.cell u.name) (hoff : n.key.fileOffset = u.off)
    (hp : n.key.path = path) (hv : FlaggedValuesAt env.fi.buffer env.fi.hbin u.cell (vals u.off)) :
    ListedKey env.hashFn vals n (path, u) := by
  obtain ⟨⟨p, k, r, h1, h2, ⟨h3, h4, h5, h6⟩, h7⟩, _⟩ := hf
  obtain ⟨k', r', s, g1, g2, g3, _⟩ := readKeyAt env u.off u.cell u.name hk p none
  have hs : env.fi.buffer.drop u.off = s := by
    unfold getFrom at g1
    split at g1
    · exact Option.some.inj g1
    · cases g1
  rw [hoff, hs, g2] at h1
  simp only [Res.ok.injEq, Prod.mk.injEq] at h1
  obtain ⟨rfl, rfl⟩ := h1
  have hh := keyNode_hashOf _ _ _ _ _ _ _ g2
  obtain ⟨_, a2, a3, a4, _, _, _, _, _, a10, a11, _, _, _, _, _, _, _, _, _, _, _, _, _, _, _, a27⟩ := g3
  refine ⟨hp, ⟨hoff, h4.trans a3, h5.trans a2, h6.trans a4⟩, ?_, ?_⟩
  · rw [h3, hh, a2, a3, a4]
    unfold KeyNode.hashOf Tree.factBytes
    rw [u16ToLeBytes_eq, u64ToLeBytes_eq, u32ToLeBytes_eq]
  · rw [h7 trivial]
    exact stored_listed env k' u.cell (vals u.off) a10 a11 a27 hv

/-- Keys that come from the file, at the places of stored keys and with their paths, show these. -/
theorem listed_stored {env : Env} {t : Tree} (vals : Nat → List FlaggedVal)
    (hkeys : ∀ u ∈ t.nodes, KeyAt env.fi.buffer u.off u.cell u.name)
    (hvals : ∀ u ∈ t.nodes, FlaggedValuesAt env.fi.buffer env.fi.hbin u.cell (vals u.off)) :
    ∀ {bs : List Node} {ks : List (Str × Tree)}, bs.map obs = ks.map (fun x => (x.2.off, x.1)) →
      (∀ b ∈ bs, FromCell env True b) → (∀ x ∈ ks, x.2 ∈ t.nodes) → Pairwise2 (ListedKey env.hashFn vals) bs ks
  | [], [], _, _, _ => trivial
  | [], _ :: _, h1, _, _ => by simp at h1
  | _ :: _, [], h1, _, _ => by simp at h1
  | b :: bs, x :: ks, h1, h2, hmem => by
    rw [List.map_cons, List.map_cons] at h1
    injection h1 with e1 e2
    have hx := hmem x List.mem_cons_self
    exact ⟨listedKey_of env vals b x.1 x.2 (h2 b List.mem_cons_self) (hkeys _ hx) (congrArg Prod.fst e1)
      (congrArg Prod.snd e1) (hvals _ hx), listed_stored vals hkeys hvals e2
        (fun b hb => h2 b (List.mem_cons_of_mem _ hb)) (fun x hx => hmem x (List.mem_cons_of_mem _ hx))⟩

/-- The listing of a hive is its stored tree. -/
theorem listing_stored {p : Opened} {t : Tree} (h : PlainBase p t) (vals : Nat → List FlaggedVal)
    (hv : t.Every fun u => FlaggedValuesAt p.env.fi.buffer p.env.fi.hbin u.cell (vals u.off)) {steps : Nat}
    {bs : List Node} (hk : p.keys steps {} = some (.ok bs)) :
    Pairwise2 (ListedKey p.env.hashFn vals) bs (t.keys []) := by
  obtain ⟨h1, h2⟩ := plain_listing h hk
  rw [← keys_pre] at h1
  refine listed_stored vals (nodes_at t h.tree) (every_nodes t hv) h1 h2 fun x hx => ?_
  rw [← keys_nodes t []]
  exact List.mem_map.2 ⟨x, hx, rfl⟩

end Notatin
