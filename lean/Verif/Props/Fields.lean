import Verif.Props.Json
import Verif.Props.Cells
import Verif.Lemmas.ReadBack
/-
C56: with full field information, the place given with every field is where it is stored.
-/
namespace Notatin
open Spec

/-- Nothing that is added to a field is named like its value or its place. -/
def CleanExtra (f : DetailField) : Prop := ∀ e ∈ f.extra, e.1 = "interpreted" ∨ e.1 = "logs"

theorem place_fields (v : Json) (o n : Nat) (extra : List (String × Json))
    (h : ∀ e ∈ extra, e.1 = "interpreted" ∨ e.1 = "logs") :
    (Json.obj ([("value", v)] ++ [("offset", .nat o), ("len", .nat n)] ++ extra)).field "offset" =
        some (.num (Int.ofNat o)) ∧
    (Json.obj ([("value", v)] ++ [("offset", .nat o), ("len", .nat n)] ++ extra)).field "len" =
        some (.num (Int.ofNat n)) ∧
    (Json.obj ([("value", v)] ++ [("offset", .nat o), ("len", .nat n)] ++ extra)).field "value" = some v := by
  have hx : ∀ m, m ≠ "interpreted" → m ≠ "logs" → extra.filter (fun f => f.1 = m) = [] := by
    intro m h1 h2
    rw [List.filter_eq_nil_iff]
    intro e he hm
    simp only [decide_eq_true_eq] at hm
    rcases h e he with h | h
    · exact h1 (hm ▸ h)
    · exact h2 (hm ▸ h)
  have h1 := hx "offset" (by decide +kernel) (by decide +kernel)
  have h2 := hx "len" (by decide +kernel) (by decide +kernel)
  have h3 := hx "value" (by decide +kernel) (by decide +kernel)
  refine ⟨?_, ?_, ?_⟩
  · unfold Json.field; simp [List.filter_cons, h1, Json.nat]
  · unfold Json.field; simp [List.filter_cons, h2, Json.nat]
  · unfold Json.field; simp [List.filter_cons, h3]

/-- The total width of fields. -/
def widths (fs : List DetailField) : Nat := (fs.map DetailField.len).sum

/-- The object of a field is at the place where the fields before it end. -/
theorem detail_entry (off : Nat) (pre : List DetailField) (f : DetailField) (post : List DetailField) :
    (f.name, Json.obj ([("value", f.value)] ++ [("offset", .nat (off + widths pre)), ("len", .nat f.len)] ++ f.extra))
      ∈ detailFields true off (pre ++ f :: post) := by
  induction pre generalizing off with
  | nil =>
    rw [List.nil_append, detailFields]
    exact List.mem_cons_self
  | cons g pre ih =>
    rw [List.cons_append, detailFields]
    refine List.mem_cons_of_mem _ ?_
    have := ih (off + g.len)
    have e : off + g.len + widths pre = off + widths (g :: pre) := by
      unfold widths; rw [List.map_cons, List.sum_cons]; omega
    rwa [e] at this

/-- A field of a detail, at its place. -/
theorem detail_placed (buffer : Bytes) (base : Nat) (d : List (String × Json)) (hn : (d.map Prod.fst).Nodup)
    (f : DetailField) (o : Nat) (hx : CleanExtra f)
    (hm : (f.name, Json.obj ([("value", f.value)] ++ [("offset", .nat o), ("len", .nat f.len)] ++ f.extra)) ∈ d)
    (P : Bytes → Json → Prop) (hb : base + o + f.len ≤ buffer.length)
    (hP : P (slice buffer (base + o) f.len) f.value) (j : Json)
    (hj : j.field "detail" = some (detailJson true d)) :
    PlacedAt buffer base (j.at ["detail", "Full", f.name]) P := by
  obtain ⟨h1, h2, h3⟩ := place_fields f.value o f.len f.extra hx
  refine ⟨_, o, f.len, f.value, ?_, h1, h2, h3, hb, hP⟩
  rw [at_field _ _ _ _ hj, at_field _ (.obj d) "Full" _ rfl, at_one]
  exact field_of_mem _ hn _ _ hm

theorem slice_drop (bs : Bytes) (base o n : Nat) : slice (bs.drop base) o n = slice bs (base + o) n := by
  unfold slice
  rw [List.drop_drop]

theorem says_nat (bs : Bytes) (n : Nat) (h : n = leNat bs) : Says bs (.num (Int.ofNat n)) := by
  show (Int.ofNat n) % ((256 ^ bs.length : Nat) : Int) = (leNat bs : Int)
  have := leNat_lt bs
  rw [h]
  exact Int.emod_eq_of_lt (by simp) (by simpa using Int.ofNat_lt.2 this)

theorem says_i32 (bs : Bytes) (hl : bs.length = 4) (i : Int) (h : i = toI32 (leNat bs)) : Says bs (.num i) := by
  show i % ((256 ^ bs.length : Nat) : Int) = (leNat bs : Int)
  have := leNat_lt bs
  rw [hl] at this ⊢
  rw [h]
  unfold toI32
  split <;> omega

theorem says_bytes (bs : Bytes) : Says bs (.bytes bs) := rfl

theorem clean_nil (n : String) (v : Json) (l : Nat) : CleanExtra ⟨n, v, l, []⟩ :=
  fun _ he => absurd he List.not_mem_nil

theorem clean_interpreted (n : String) (v : Json) (l : Nat) (x : Json) :
    CleanExtra ⟨n, v, l, [("interpreted", x)]⟩ := by
  intro e he
  rw [List.mem_singleton.1 he]
  exact .inl rfl

theorem clean_flags (t : JsonTexts) (n : String) (v : Json) (l mask bits : Nat) (text : Str) :
    CleanExtra ⟨n, v, l, flagExtra t mask bits text⟩ := by
  intro e he
  simp only at he
  unfold flagExtra at he
  rcases List.mem_cons.1 he with h | h
  · rw [h]; exact .inl rfl
  · split at h
    · rw [List.mem_singleton.1 h]; exact .inr rfl
    · exact absurd h List.not_mem_nil

/-- The fields of the key are stored in the cell at the beginning of the bytes. -/
structure KeyStored (bs : Bytes) (k : KeyNode) : Prop where
  whole : 80 + k.nameSize ≤ bs.length ∧ 80 + k.nameSize + k.slack.length ≤ bs.length
  sig : slice bs 4 2 = nkSig
  size : k.size = toI32 (leNat (slice bs 0 4))
  flagBits : k.flagBits = leNat (slice bs 6 2)
  lastWritten : k.lastWritten = leNat (slice bs 8 8)
  accessBits : k.accessBits = leNat (slice bs 16 4)
  parentOffset : k.parentOffset = toI32 (leNat (slice bs 20 4))
  nSubKeys : k.nSubKeys = leNat (slice bs 24 4)
  nVolatileSubKeys : k.nVolatileSubKeys = leNat (slice bs 28 4)
  subKeysListOffset : k.subKeysListOffset = leNat (slice bs 32 4)
  volatileListOffset : k.volatileListOffset = toI32 (leNat (slice bs 36 4))
  nValues : k.nValues = leNat (slice bs 40 4)
  valuesListOffset : k.valuesListOffset = toI32 (leNat (slice bs 44 4))
  securityOffset : k.securityOffset = leNat (slice bs 48 4)
  classNameOffset : k.classNameOffset = toI32 (leNat (slice bs 52 4))
  largestSubKeyName : k.largestSubKeyName = leNat (slice bs 56 4)
  largestSubKeyClassName : k.largestSubKeyClassName = leNat (slice bs 60 4)
  largestValueName : k.largestValueName = leNat (slice bs 64 4)
  largestValueData : k.largestValueData = leNat (slice bs 68 4)
  workVar : k.workVar = leNat (slice bs 72 4)
  nameSize : k.nameSize = leNat (slice bs 76 2)
  classNameSize : k.classNameSize = leNat (slice bs 78 2)
  slack : k.slack = slice bs (80 + k.nameSize) k.slack.length

theorem slice_length (bs : Bytes) (o n : Nat) (h : o ≤ bs.length) : slice bs o n = slice bs o (slice bs o n).length := by
  unfold slice
  rw [List.length_take, List.length_drop, List.take_eq_take_iff, List.length_drop]
  omega

theorem keyStored (hashFn : Bytes → Bytes) (bs : Bytes) (off : Nat) (path : Str) (seq : Option Nat) (k : KeyNode)
    (r : Bytes) (h : KeyNode.fromBytes hashFn bs off path seq = .ok (k, r)) : KeyStored bs k := by
  rcases keyNode_cases hashFn bs off path seq with ⟨⟨_, h2, h3, h4⟩, n, l, _, hp⟩ | ⟨_, hp⟩
  · rw [hp] at h
    cases h
    refine ⟨⟨h4, ?_⟩, h3, rfl, rfl, rfl, rfl, rfl, rfl, rfl, rfl, rfl, rfl, rfl, rfl, rfl, rfl, rfl, rfl, rfl, rfl, rfl, rfl, ?_⟩
    · show 80 + nkNameSize bs + (slice bs (80 + nkNameSize bs) (cellSizeAt bs - (80 + nkNameSize bs))).length ≤ _
      unfold slice
      rw [List.length_take, List.length_drop]
      omega
    · exact slice_length _ _ _ h4
  · rw [hp] at h; cases h

theorem key_names_nodup (t : JsonTexts) (k : KeyNode) : ((keyDetail t true k).map Prod.fst).Nodup := by
  have := key_detail_names t k ⟨"slack", .bytes k.slack, k.slack.length, []⟩ rfl
  unfold keyDetail
  rw [List.map_append, detail_names, detail_names, ← List.map_append]
  exact this

/-- The widths of the fields. -/
def keyWidths : List Nat := [4, 2, 2, 8, 4, 4, 4, 4, 4, 4, 4, 4, 4, 4, 4, 4, 4, 4, 4, 2, 2]

/-- A field of a key that comes before the slack. -/
theorem key_field_placed (t : JsonTexts) (buffer : Bytes) (base : Nat) (k : KeyNode) (i : Nat)
    (f : DetailField) (hk : (keyFields t k)[i]? = some f) (o : Nat)
    (ho : o = (keyWidths.take i).sum) (hx : CleanExtra f) (hb : base + o + f.len ≤ buffer.length)
    (hP : Says (slice (buffer.drop base) o f.len) f.value) (j : Json)
    (hj : j.field "detail" = some (detailJson true (keyDetail t true k))) :
    PlacedAt buffer base (j.at ["detail", "Full", f.name]) Says := by
  have ho : o = widths ((keyFields t k).take i) := by
    rw [ho, widths, List.map_take]
    rfl
  refine detail_placed buffer base (keyDetail t true k) (key_names_nodup t k) f o hx ?_ Says hb ?_ j hj
  · have := detail_entry 0 ((keyFields t k).take i) f ((keyFields t k).drop (i + 1))
    obtain ⟨hi, hf⟩ := List.getElem?_eq_some_iff.1 hk
    rw [Nat.zero_add, ← ho, ← hf, ← List.drop_eq_getElem_cons hi, List.take_append_drop] at this
    rw [← hf]
    exact List.mem_append_left _ this
  · rw [← slice_drop]; exact hP

theorem key_fields_placed_1 (t : JsonTexts) (buffer : Bytes) (base : Nat) (k : KeyNode)
    (h : KeyStored (buffer.drop base) k) (hle : base ≤ buffer.length) (j : Json)
    (hj : j.field "detail" = some (detailJson true (keyDetail t true k))) :
    ∀ name ∈
      ["size", "signature", "key_node_flag_bits", "last_key_written_date_and_time", "access_flag_bits", "parent_key_offset_relative", "number_of_sub_keys"], PlacedAt buffer base (j.at ["detail", "Full", name]) Says := by
  have hlen : (buffer.drop base).length = buffer.length - base := List.length_drop
  have hw := h.whole
  rw [hlen] at hw
  have hl : ∀ o n, o + n ≤ 80 → (slice (buffer.drop base) o n).length = n := by
    intro o n ho
    exact length_slice _ _ _ (by rw [hlen]; omega)
  have hb : ∀ o n, o + n ≤ 80 → base + o + n ≤ buffer.length := by intro o n ho; omega
  intro name hname
  simp only [List.mem_cons, List.not_mem_nil, or_false] at hname
  rcases hname with hh | hh | hh | hh | hh | hh | hh <;> subst hh
  · exact key_field_placed t buffer base k 0 ⟨"size", .num k.size, 4, []⟩ rfl 0 (by decide)
      (clean_nil _ _ _)
      (hb 0 4 (by decide)) (says_i32 _ (hl 0 4 (by decide)) _ h.size) j hj
  · exact key_field_placed t buffer base k 1 ⟨"signature", .name "nk", 2, []⟩ rfl 4 (by decide)
      (clean_nil _ _ _)
      (hb 4 2 (by decide)) ((by rw [h.sig]; exact rfl)) j hj
  · exact key_field_placed t buffer base k 2 ⟨"key_node_flag_bits", .nat k.flagBits, 2, flagExtra t keyNodeFlagsMask k.flagBits (t.flags k)⟩ rfl 6 (by decide)
      (clean_flags _ _ _ _ _ _ _)
      (hb 6 2 (by decide)) (says_nat _ _ h.flagBits) j hj
  · exact key_field_placed t buffer base k 3 ⟨"last_key_written_date_and_time", .nat k.lastWritten, 8, [("interpreted", .str (t.time k))]⟩ rfl 8 (by decide)
      (clean_interpreted _ _ _ _)
      (hb 8 8 (by decide)) (says_nat _ _ h.lastWritten) j hj
  · exact key_field_placed t buffer base k 4 ⟨"access_flag_bits", .nat k.accessBits, 4, flagExtra t accessFlagsMask k.accessBits (t.access k)⟩ rfl 16 (by decide)
      (clean_flags _ _ _ _ _ _ _)
      (hb 16 4 (by decide)) (says_nat _ _ h.accessBits) j hj
  · exact key_field_placed t buffer base k 5 ⟨"parent_key_offset_relative", .num k.parentOffset, 4, []⟩ rfl 20 (by decide)
      (clean_nil _ _ _)
      (hb 20 4 (by decide)) (says_i32 _ (hl 20 4 (by decide)) _ h.parentOffset) j hj
  · exact key_field_placed t buffer base k 6 ⟨"number_of_sub_keys", .nat k.nSubKeys, 4, []⟩ rfl 24 (by decide)
      (clean_nil _ _ _)
      (hb 24 4 (by decide)) (says_nat _ _ h.nSubKeys) j hj

theorem key_fields_placed_2 (t : JsonTexts) (buffer : Bytes) (base : Nat) (k : KeyNode)
    (h : KeyStored (buffer.drop base) k) (hle : base ≤ buffer.length) (j : Json)
    (hj : j.field "detail" = some (detailJson true (keyDetail t true k))) :
    ∀ name ∈
      ["number_of_volatile_sub_keys", "sub_keys_list_offset_relative", "volatile_sub_keys_list_offset_relative", "number_of_key_values", "key_values_list_offset_relative", "security_key_offset_relative", "class_name_offset_relative"], PlacedAt buffer base (j.at ["detail", "Full", name]) Says := by
  have hlen : (buffer.drop base).length = buffer.length - base := List.length_drop
  have hw := h.whole
  rw [hlen] at hw
  have hl : ∀ o n, o + n ≤ 80 → (slice (buffer.drop base) o n).length = n := by
    intro o n ho
    exact length_slice _ _ _ (by rw [hlen]; omega)
  have hb : ∀ o n, o + n ≤ 80 → base + o + n ≤ buffer.length := by intro o n ho; omega
  intro name hname
  simp only [List.mem_cons, List.not_mem_nil, or_false] at hname
  rcases hname with hh | hh | hh | hh | hh | hh | hh <;> subst hh
  · exact key_field_placed t buffer base k 7 ⟨"number_of_volatile_sub_keys", .nat k.nVolatileSubKeys, 4, []⟩ rfl 28 (by decide)
      (clean_nil _ _ _)
      (hb 28 4 (by decide)) (says_nat _ _ h.nVolatileSubKeys) j hj
  · exact key_field_placed t buffer base k 8 ⟨"sub_keys_list_offset_relative", .nat k.subKeysListOffset, 4, []⟩ rfl 32 (by decide)
      (clean_nil _ _ _)
      (hb 32 4 (by decide)) (says_nat _ _ h.subKeysListOffset) j hj
  · exact key_field_placed t buffer base k 9 ⟨"volatile_sub_keys_list_offset_relative", .num k.volatileListOffset, 4, []⟩ rfl 36 (by decide)
      (clean_nil _ _ _)
      (hb 36 4 (by decide)) (says_i32 _ (hl 36 4 (by decide)) _ h.volatileListOffset) j hj
  · exact key_field_placed t buffer base k 10 ⟨"number_of_key_values", .nat k.nValues, 4, []⟩ rfl 40 (by decide)
      (clean_nil _ _ _)
      (hb 40 4 (by decide)) (says_nat _ _ h.nValues) j hj
  · exact key_field_placed t buffer base k 11 ⟨"key_values_list_offset_relative", .num k.valuesListOffset, 4, []⟩ rfl 44 (by decide)
      (clean_nil _ _ _)
      (hb 44 4 (by decide)) (says_i32 _ (hl 44 4 (by decide)) _ h.valuesListOffset) j hj
  · exact key_field_placed t buffer base k 12 ⟨"security_key_offset_relative", .nat k.securityOffset, 4, []⟩ rfl 48 (by decide)
      (clean_nil _ _ _)
      (hb 48 4 (by decide)) (says_nat _ _ h.securityOffset) j hj
  · exact key_field_placed t buffer base k 13 ⟨"class_name_offset_relative", .num k.classNameOffset, 4, []⟩ rfl 52 (by decide)
      (clean_nil _ _ _)
      (hb 52 4 (by decide)) (says_i32 _ (hl 52 4 (by decide)) _ h.classNameOffset) j hj

theorem key_fields_placed_3 (t : JsonTexts) (buffer : Bytes) (base : Nat) (k : KeyNode)
    (h : KeyStored (buffer.drop base) k) (hle : base ≤ buffer.length) (j : Json)
    (hj : j.field "detail" = some (detailJson true (keyDetail t true k))) :
    ∀ name ∈
      ["largest_sub_key_name_size", "largest_sub_key_class_name_size", "largest_value_name_size", "largest_value_data_size", "work_var", "key_name_size", "class_name_size"], PlacedAt buffer base (j.at ["detail", "Full", name]) Says := by
  have hlen : (buffer.drop base).length = buffer.length - base := List.length_drop
  have hw := h.whole
  rw [hlen] at hw
  have hl : ∀ o n, o + n ≤ 80 → (slice (buffer.drop base) o n).length = n := by
    intro o n ho
    exact length_slice _ _ _ (by rw [hlen]; omega)
  have hb : ∀ o n, o + n ≤ 80 → base + o + n ≤ buffer.length := by intro o n ho; omega
  intro name hname
  simp only [List.mem_cons, List.not_mem_nil, or_false] at hname
  rcases hname with hh | hh | hh | hh | hh | hh | hh <;> subst hh
  · exact key_field_placed t buffer base k 14 ⟨"largest_sub_key_name_size", .nat k.largestSubKeyName, 4, []⟩ rfl 56 (by decide)
      (clean_nil _ _ _)
      (hb 56 4 (by decide)) (says_nat _ _ h.largestSubKeyName) j hj
  · exact key_field_placed t buffer base k 15 ⟨"largest_sub_key_class_name_size", .nat k.largestSubKeyClassName, 4, []⟩ rfl 60 (by decide)
      (clean_nil _ _ _)
      (hb 60 4 (by decide)) (says_nat _ _ h.largestSubKeyClassName) j hj
  · exact key_field_placed t buffer base k 16 ⟨"largest_value_name_size", .nat k.largestValueName, 4, []⟩ rfl 64 (by decide)
      (clean_nil _ _ _)
      (hb 64 4 (by decide)) (says_nat _ _ h.largestValueName) j hj
  · exact key_field_placed t buffer base k 17 ⟨"largest_value_data_size", .nat k.largestValueData, 4, []⟩ rfl 68 (by decide)
      (clean_nil _ _ _)
      (hb 68 4 (by decide)) (says_nat _ _ h.largestValueData) j hj
  · exact key_field_placed t buffer base k 18 ⟨"work_var", .nat k.workVar, 4, []⟩ rfl 72 (by decide)
      (clean_nil _ _ _)
      (hb 72 4 (by decide)) (says_nat _ _ h.workVar) j hj
  · exact key_field_placed t buffer base k 19 ⟨"key_name_size", .nat k.nameSize, 2, []⟩ rfl 76 (by decide)
      (clean_nil _ _ _)
      (hb 76 2 (by decide)) (says_nat _ _ h.nameSize) j hj
  · exact key_field_placed t buffer base k 20 ⟨"class_name_size", .nat k.classNameSize, 2, []⟩ rfl 78 (by decide)
      (clean_nil _ _ _)
      (hb 78 2 (by decide)) (says_nat _ _ h.classNameSize) j hj

theorem key_slack_placed (t : JsonTexts) (buffer : Bytes) (base : Nat) (k : KeyNode)
    (h : KeyStored (buffer.drop base) k) (hle : base ≤ buffer.length) (j : Json)
    (hj : j.field "detail" = some (detailJson true (keyDetail t true k))) :
    ∀ name ∈ ["slack"], PlacedAt buffer base (j.at ["detail", "Full", name]) Says := by
  have hlen : (buffer.drop base).length = buffer.length - base := List.length_drop
  have hw := h.whole
  rw [hlen] at hw
  intro name hname
  rw [List.mem_singleton.1 hname]
  refine detail_placed buffer base (keyDetail t true k) (key_names_nodup t k)
    ⟨"slack", .bytes k.slack, k.slack.length, []⟩ (80 + k.nameSize) (clean_nil _ _ _) ?_ Says ?_ ?_ j hj
  · exact List.mem_append_right _ List.mem_cons_self
  · simp only; omega
  · rw [← slice_drop, ← h.slack]; exact says_bytes _

/-- C56, a key: the place given with every field of a stored key, counted from the beginning of its cell,
is where the field is stored. -/
theorem key_fields_placed (t : JsonTexts) (buffer : Bytes) (base : Nat) (k : KeyNode)
    (h : KeyStored (buffer.drop base) k) (hle : base ≤ buffer.length) (j : Json)
    (hj : j.field "detail" = some (detailJson true (keyDetail t true k))) :
    ∀ name ∈ keyFieldNames, PlacedAt buffer base (j.at ["detail", "Full", name]) Says := by
  intro name hname
  have e : keyFieldNames = ["size", "signature", "key_node_flag_bits", "last_key_written_date_and_time", "access_flag_bits", "parent_key_offset_relative", "number_of_sub_keys"] ++ (
      ["number_of_volatile_sub_keys", "sub_keys_list_offset_relative", "volatile_sub_keys_list_offset_relative", "number_of_key_values", "key_values_list_offset_relative", "security_key_offset_relative", "class_name_offset_relative"] ++ (
      ["largest_sub_key_name_size", "largest_sub_key_class_name_size", "largest_value_name_size", "largest_value_data_size", "work_var", "key_name_size", "class_name_size"] ++ ["slack"])) := rfl
  rw [e] at hname
  rcases List.mem_append.1 hname with hm | hm
  · exact key_fields_placed_1 t buffer base k h hle j hj name hm
  · rcases List.mem_append.1 hm with hm | hm
    · exact key_fields_placed_2 t buffer base k h hle j hj name hm
    · rcases List.mem_append.1 hm with hm | hm
      · exact key_fields_placed_3 t buffer base k h hle j hj name hm
      · exact key_slack_placed t buffer base k h hle j hj name hm

/-! ### Values -/

/-- The fields of the value are stored in the cell at the beginning of the bytes. -/
structure ValueStored (bs : Bytes) (v : KeyValue) : Prop where
  whole : 24 + v.nameSize ≤ bs.length ∧ 24 + v.nameSize + v.slack.length ≤ bs.length
  sig : slice bs 4 2 = vkSig
  size : v.size = toI32 (leNat (slice bs 0 4))
  nameSize : v.nameSize = leNat (slice bs 6 2)
  dataSizeRaw : v.dataSizeRaw = leNat (slice bs 8 4)
  dataOffset : v.dataOffset = leNat (slice bs 12 4)
  dataTypeRaw : v.dataTypeRaw = leNat (slice bs 16 4)
  flagsRaw : v.flagsRaw = leNat (slice bs 20 2)
  padding : v.padding = leNat (slice bs 22 2)
  name : (∀ i, v.flagsRaw.testBit i = true → valueFlagBit i = true) →
    SaysName (v.flagsRaw.testBit 0) (slice bs 24 v.nameSize) (.str v.name)
  slack : v.slack = slice bs (24 + v.nameSize) v.slack.length

theorem vkName_says (raw : Nat) (hr : raw < 65536) (bs : Bytes) (n : Nat) (hn : bs.length = n) (name : Str) (l : Logs)
    (hdoc : ∀ i, raw.testBit i = true → valueFlagBit i = true)
    (h : vkName (keyValueFlags raw) bs n = .ok (name, l)) : SaysName (raw.testBit 0) bs (.str name) := by
  have hfl := (value_flags_decode_partial raw hr).1 hdoc
  rw [hfl] at h
  refine ⟨fun ha => ?_, fun ha m hm hz => ?_⟩
  · have hcf : containsFlag raw 1 = true := by
      unfold containsFlag
      rw [beq_iff_eq]
      have : raw &&& 1 = raw % 2 := Nat.and_one_is_mod raw
      rw [this]
      have := Nat.testBit_zero raw
      rw [ha] at this
      simpa using this.symm
    unfold vkName at h
    rw [hcf] at h
    split at h
    · rename_i h0
      have : bs = [] := List.length_eq_zero_iff.1 (hn.trans h0)
      rw [this]
      cases h
      rfl
    · subst hn
      have e : stringFromBytes true bs bs.length {} = .ok (latin1 bs, {}) := ascii_latin1 _ _
      rw [e] at h
      cases h
      rfl
  · have hcf : containsFlag raw 1 = false := by
      unfold containsFlag
      rw [beq_eq_false_iff_ne]
      intro h
      have := congrArg (fun n => n.testBit 0) h
      simp only [Nat.testBit_and, ha, Bool.false_and] at this
      revert this; decide
    unfold vkName at h
    rw [hcf] at h
    split at h
    · rename_i h0
      have hb : bs = [] := List.length_eq_zero_iff.1 (hn.trans h0)
      cases h
      rw [hb] at hm
      cases m with
      | nil => rfl
      | cons ch s =>
        exfalso
        have := congrArg List.length hm.symm
        unfold utf16le at this
        rw [length_unitBytes] at this
        simp only [List.flatMap_cons, List.length_append, List.length_nil] at this
        have h1 : 1 ≤ (utf16Units ch).length := by unfold utf16Units; split <;> simp
        omega
    · have e := utf16_roundtrip m hz [] (.inl (by simp)) ({} : Logs)
      rw [List.append_nil, ← hm] at e
      have e' : stringFromBytes false bs n {} = .ok (m, {}) := by
        subst hn
        simpa [stringFromBytes] using e
      rw [e'] at h
      cases h
      rfl

theorem valueStored (bs : Bytes) (off : Nat) (seq : Option Nat) (v : KeyValue)
    (r : Bytes) (h : KeyValue.fromBytes bs off seq = .ok (v, r)) : ValueStored bs v := by
  rcases keyValue_cases bs off seq with ⟨⟨_, h2, h3, h4⟩, n, l, hn, hp⟩ | ⟨_, hp⟩
  · rw [hp] at h
    cases h
    refine ⟨⟨h4, ?_⟩, h3, rfl, rfl, rfl, rfl, rfl, rfl, rfl, ?_, ?_⟩
    · show 24 + vkNameSize bs + (slice bs (24 + vkNameSize bs) (cellSizeAt bs - (24 + vkNameSize bs))).length ≤ _
      unfold slice
      rw [List.length_take, List.length_drop]
      omega
    · intro hdoc
      refine vkName_says _ ?_ _ _ (length_slice _ _ _ h4) n l hdoc hn
      have := leNat_lt (slice bs 20 2)
      rw [length_slice _ _ _ (by omega)] at this
      exact this
    · exact slice_length _ _ _ h4
  · rw [hp] at h; cases h

/-- The widths of the fields. -/
def valueWidths : List Nat := [4, 2, 2, 4, 4, 4, 2, 2]

theorem value_names_nodup (v : KeyValue) : ((detailFields true 0 (valueFields v)).map Prod.fst).Nodup := by
  have := value_detail_names v
  rw [List.append_nil] at this
  rw [detail_names]
  exact this

/-- A field of a value. -/
theorem value_field_placed (buffer : Bytes) (base : Nat) (v : KeyValue) (i : Nat)
    (f : DetailField) (hk : (valueFields v)[i]? = some f) (o : Nat) (ho : o = widths ((valueFields v).take i))
    (hx : CleanExtra f) (hb : base + o + f.len ≤ buffer.length) (P : Bytes → Json → Prop)
    (hP : P (slice (buffer.drop base) o f.len) f.value) (j : Json)
    (hj : j.field "detail" = some (detailJson true (detailFields true 0 (valueFields v)))) :
    PlacedAt buffer base (j.at ["detail", "Full", f.name]) P := by
  refine detail_placed buffer base (detailFields true 0 (valueFields v)) (value_names_nodup v) f o hx ?_ P hb ?_ j hj
  · have := detail_entry 0 ((valueFields v).take i) f ((valueFields v).drop (i + 1))
    obtain ⟨hi, hf⟩ := List.getElem?_eq_some_iff.1 hk
    rw [Nat.zero_add, ← ho, ← hf, ← List.drop_eq_getElem_cons hi, List.take_append_drop] at this
    rw [← hf]
    exact this
  · rw [← slice_drop]; exact hP

theorem value_widths (v : KeyValue) (i : Nat) (hi : i ≤ 8) :
    widths ((valueFields v).take i) = (valueWidths.take i).sum := by
  have e : (valueFields v).map DetailField.len = valueWidths ++ [v.nameSize, v.slack.length] := rfl
  unfold widths
  rw [List.map_take, e, List.take_append_of_le_length hi]

/-- C56, a value: the place given with every field of a stored value is where the field is stored. -/
theorem value_fields_placed (buffer : Bytes) (base : Nat) (v : KeyValue)
    (h : ValueStored (buffer.drop base) v) (hle : base ≤ buffer.length) (j : Json)
    (hj : j.field "detail" = some (detailJson true (detailFields true 0 (valueFields v)))) :
    (∀ name ∈ valueFieldNames, PlacedAt buffer base (j.at ["detail", "Full", name]) Says) ∧
    ((∀ i, v.flagsRaw.testBit i = true → valueFlagBit i = true) →
      PlacedAt buffer base (j.at ["detail", "Full", "value_name"]) (SaysName (v.flagsRaw.testBit 0))) := by
  have hlen : (buffer.drop base).length = buffer.length - base := List.length_drop
  have hw := h.whole
  rw [hlen] at hw
  have hl : ∀ o n, o + n ≤ 24 → (slice (buffer.drop base) o n).length = n := by
    intro o n ho
    exact length_slice _ _ _ (by rw [hlen]; omega)
  have hb : ∀ o n, o + n ≤ 24 → base + o + n ≤ buffer.length := by intro o n ho; omega
  have w8 : widths ((valueFields v).take 8) = 24 := value_widths v 8 (by decide)
  have w9 : widths ((valueFields v).take 9) = 24 + v.nameSize := by
    unfold widths
    rw [List.map_take]
    show [4, 2, 2, 4, 4, 4, 2, 2, v.nameSize].sum = _
    simp only [List.sum_cons, List.sum_nil]
    omega
  refine ⟨?_, fun hdoc => ?_⟩
  · intro name hname
    unfold valueFieldNames at hname
    simp only [List.mem_cons, List.not_mem_nil, or_false] at hname
    rcases hname with hh | hh | hh | hh | hh | hh | hh | hh | hh <;> subst hh
    · exact value_field_placed buffer base v 0 ⟨"size", .num v.size, 4, []⟩ rfl 0
        (value_widths v 0 (by decide)).symm (clean_nil _ _ _) (hb 0 4 (by decide)) Says (says_i32 _ (hl 0 4 (by decide)) _ h.size) j hj
    · exact value_field_placed buffer base v 1 ⟨"signature", .name "vk", 2, []⟩ rfl 4
        (value_widths v 1 (by decide)).symm (clean_nil _ _ _) (hb 4 2 (by decide)) Says ((by rw [h.sig]; exact rfl)) j hj
    · exact value_field_placed buffer base v 2 ⟨"value_name_size", .nat v.nameSize, 2, []⟩ rfl 6
        (value_widths v 2 (by decide)).symm (clean_nil _ _ _) (hb 6 2 (by decide)) Says (says_nat _ _ h.nameSize) j hj
    · exact value_field_placed buffer base v 3 ⟨"data_size_raw", .nat v.dataSizeRaw, 4, []⟩ rfl 8
        (value_widths v 3 (by decide)).symm (clean_nil _ _ _) (hb 8 4 (by decide)) Says (says_nat _ _ h.dataSizeRaw) j hj
    · exact value_field_placed buffer base v 4 ⟨"data_offset_relative", .nat v.dataOffset, 4, []⟩ rfl 12
        (value_widths v 4 (by decide)).symm (clean_nil _ _ _) (hb 12 4 (by decide)) Says (says_nat _ _ h.dataOffset) j hj
    · exact value_field_placed buffer base v 5 ⟨"data_type_raw", .nat v.dataTypeRaw, 4, []⟩ rfl 16
        (value_widths v 5 (by decide)).symm (clean_nil _ _ _) (hb 16 4 (by decide)) Says (says_nat _ _ h.dataTypeRaw) j hj
    · exact value_field_placed buffer base v 6 ⟨"flags_raw", .nat v.flagsRaw, 2, []⟩ rfl 20
        (value_widths v 6 (by decide)).symm (clean_nil _ _ _) (hb 20 2 (by decide)) Says (says_nat _ _ h.flagsRaw) j hj
    · exact value_field_placed buffer base v 7 ⟨"padding", .nat v.padding, 2, []⟩ rfl 22
        (value_widths v 7 (by decide)).symm (clean_nil _ _ _) (hb 22 2 (by decide)) Says (says_nat _ _ h.padding) j hj
    · refine value_field_placed buffer base v 9 ⟨"slack", .bytes v.slack, v.slack.length, []⟩ rfl _ w9.symm (clean_nil _ _ _) ?_ Says ?_ j hj
      · simp only; omega
      · rw [← h.slack]; exact says_bytes _
  · exact value_field_placed buffer base v 8 ⟨"value_name", .str v.name, v.nameSize, [("interpreted", .str v.prettyName)]⟩ rfl _ w8.symm
      (clean_interpreted _ _ _ _) (by simp only; omega) _ (h.name hdoc) j hj

/-! ### Every key an iteration yields -/

/-- The fields of the key and of its values are stored in the file, as far as they were not recovered. -/
def NodeStored (buffer : Bytes) (n : Node) : Prop :=
  (n.key.cellState = .Allocated → n.key.fileOffset ≤ buffer.length ∧
    KeyStored (buffer.drop n.key.fileOffset) n.key ∧
    ∀ v ∈ n.key.values, v.val.cellState = .Allocated → v.val.fileOffset ≤ buffer.length ∧
      ValueStored (buffer.drop v.val.fileOffset) v.val) ∧
  DelOk n

/-- A value that was not recovered is stored in the file. -/
def ValueIn (buffer : Bytes) (v : Value) : Prop :=
  v.val.cellState = .Allocated → v.val.fileOffset ≤ buffer.length ∧
    ValueStored (buffer.drop v.val.fileOffset) v.val

theorem ValueStored.withData {bs : Bytes} {v : KeyValue} (h : ValueStored bs v) (hashFn : Bytes → Bytes)
    (fi : FileInfo) : ValueStored bs (v.readValueBytes hashFn fi) :=
  ⟨h.whole, h.sig, h.size, h.nameSize, h.dataSizeRaw, h.dataOffset, h.dataTypeRaw, h.flagsRaw, h.padding,
    h.name, h.slack⟩

theorem readValuesLoop_stored (env : Env) (seq : Option Nat) (offs : List Nat) (acc : List Value)
    (logs : Logs) (vs : List Value) (lg : Logs) (b : Bool)
    (h : readValuesLoop env seq offs acc logs = .ok (vs, lg, b)) (ha : ∀ v ∈ acc, ValueIn env.fi.buffer v) :
    ∀ v ∈ vs, ValueIn env.fi.buffer v := by
  induction offs generalizing acc with
  | nil => rw [readValuesLoop] at h; cases h; exact ha
  | cons o os ih =>
    rw [readValuesLoop] at h
    split at h
    · rename_i hlt
      cases hk : KeyValue.fromBytes (env.fi.buffer.drop (o + env.fi.hbin)) (o + env.fi.hbin) seq with
      | panic => rw [hk] at h; cases h
      | err => rw [hk] at h; cases h; exact ha
      | ok x =>
        obtain ⟨kv, r⟩ := x
        rw [hk] at h
        refine ih _ h ?_
        intro v hv
        rcases List.mem_append.1 hv with hv | hv
        · exact ha v hv
        · rw [List.mem_singleton.1 hv]
          have ho := keyValue_off _ _ _ _ _ hk
          intro _
          show kv.fileOffset ≤ _ ∧ ValueStored (env.fi.buffer.drop kv.fileOffset) _
          rw [ho]
          exact ⟨Nat.le_of_lt hlt, (valueStored _ _ _ _ _ hk).withData _ _⟩
    · cases h; exact ha

theorem readValues_stored (env : Env) (k : KeyNode) (seq : Option Nat) (k' : KeyNode) (b : Bool)
    (hk : k.values = []) (h : k.readValues env seq = .ok (k', b)) :
    ∀ v ∈ k'.values, ValueIn env.fi.buffer v := by
  unfold KeyNode.readValues at h
  split at h
  · split at h
    · cases h; intro v hv; simp only at hv; rw [hk] at hv; cases hv
    · split at h
      · cases h; intro v hv; cases hv
      · split at h
        · rename_i hl
          cases h
          exact readValuesLoop_stored env seq _ [] _ _ _ _ hl (fun v hv => by cases hv)
        · cases h
        · cases h
  · cases h; intro v hv; rw [hk] at hv; cases hv

theorem valuesStep_stored_in (env : Env) (o : ReadOptions) (flags : FilterFlags) (k k' : KeyNode)
    (hk : k.values = []) (h : valuesStep env o flags k = .ok k') :
    ∀ v ∈ k'.values, ValueIn env.fi.buffer v := by
  unfold valuesStep at h
  split at h
  · cases hr : k.readValues env o.seq with
    | err => rw [hr] at h; cases h
    | panic => rw [hr] at h; cases h
    | ok x =>
      obtain ⟨k1, b⟩ := x
      have := readValues_stored env k o.seq k1 b hk hr
      rw [hr] at h
      cases b with
      | true => cases h; exact this
      | false => cases h; exact this
  · cases h; intro v hv; rw [hk] at hv; cases hv

/-- What is recorded as deleted is not called allocated. -/
def RecordedDeleted (st : State) : Prop :=
  StateDel st ∧ ∀ p vs, st.deletedValues p = some vs → ∀ v ∈ vs, v.val.cellState ≠ .Allocated

theorem updateModifiedLists_values (buffer : Bytes) (st : State) (hst : RecordedDeleted st) (fuel : Nat) (n m : Node)
    (hn : ∀ v ∈ n.key.values, ValueIn buffer v)
    (h : updateModifiedLists st fuel n = .ok m) : ∀ v ∈ m.key.values, ValueIn buffer v := by
  cases fuel with
  | zero => simp [updateModifiedLists] at h
  | succ fuel =>
    rw [updateModifiedLists] at h
    simp only at h
    split at h
    · cases h; exact hn
    · split at h
      · cases h
      · cases h
      · cases h
        intro v hv
        have hmap : ∀ p, ∀ v ∈ n.key.values.map (attachVersions st p), ValueIn buffer v := by
          intro p v hv
          obtain ⟨w, hw, rfl⟩ := List.mem_map.1 hv
          have := hn w hw
          unfold attachVersions
          split
          · exact this
          · exact this
        have hend : ∀ (p : Str) (o : Option (List Value)), st.deletedValues p = o →
            ∀ v ∈ (match o with
              | some dv => n.key.values.map (attachVersions st p) ++
                  dv.mergeSort fun a b => strLe a.val.name b.val.name
              | none => n.key.values.map (attachVersions st p)), ValueIn buffer v := by
          intro p o hd v hv
          cases o with
          | none => exact hmap _ v hv
          | some dv =>
            rcases List.mem_append.1 hv with hv | hv
            · exact hmap _ v hv
            · intro ha
              exact absurd ha (hst.2 _ _ hd v (List.mem_mergeSort.1 hv))
        exact hend _ _ rfl v hv

theorem readKey_nodeStored (env : Env) (st : State) (hst : RecordedDeleted st) (o : ReadOptions) (n : Node) (ro : Nat)
    (h : readKey env st o = .ok (some n, ro)) : NodeStored env.fi.buffer n := by
  unfold readKey getFrom at h
  split at h
  · cases h
  · rename_i slice hg
    split at hg
    case isFalse => cases hg
    case isTrue hle =>
    cases hg
    unfold readFromSlice at h
    cases hk : KeyNode.fromBytes env.hashFn (env.fi.buffer.drop o.offset) o.offset o.curPath o.seq with
    | err => rw [hk] at h; cases h
    | panic => rw [hk] at h; cases h
    | ok x =>
      obtain ⟨k, r⟩ := x
      obtain ⟨hfr, hoff, nm, hnm, hpath⟩ := fromBytes_fresh _ _ _ _ _ _ _ hk
      have hs := keyStored _ _ _ _ _ _ _ hk
      rw [hk] at h
      simp only at h
      cases hf : filterStep st o.filter k with
      | err => rw [hf] at h; cases h
      | panic => rw [hf] at h; cases h
      | ok x =>
        obtain ⟨flags, ro'⟩ := x
        rw [hf] at h
        simp only at h
        by_cases hno : flags = .noMatch
        · rw [if_pos hno] at h; cases h
        · rw [if_neg hno] at h
          obtain ⟨vs, lg, hv⟩ := valuesStep_ok env o flags k
          have hlv := valuesStep_stored_in env o flags k _ hfr.2.2.2.2.2.2.1 hv
          rw [hv] at h
          simp only at h
          cases hfi : finishStep env st o flags { k with values := vs, logs := lg } with
          | err => rw [hfi] at h; cases h
          | panic => rw [hfi] at h; cases h
          | ok m =>
            rw [hfi] at h
            cases h
            have hfin : ∀ fs : Option FilterMatchState,
                (if o.getModified = true then
                    updateModifiedLists st env.depth (.mk { k with values := vs, logs := lg, filterState := fs } [] [])
                  else .ok (.mk { k with values := vs, logs := lg, filterState := fs } [] [])) = .ok n →
                NodeStored env.fi.buffer n := by
              intro fs h3
              have hstore : ∀ vs', KeyStored (env.fi.buffer.drop k.fileOffset)
                  { k with values := vs', logs := lg, filterState := fs } := by
                intro vs'
                rw [hoff]
                exact ⟨hs.whole, hs.sig, hs.size, hs.flagBits, hs.lastWritten, hs.accessBits, hs.parentOffset,
                  hs.nSubKeys, hs.nVolatileSubKeys, hs.subKeysListOffset, hs.volatileListOffset, hs.nValues,
                  hs.valuesListOffset, hs.securityOffset, hs.classNameOffset, hs.largestSubKeyName,
                  hs.largestSubKeyClassName, hs.largestValueName, hs.largestValueData, hs.workVar, hs.nameSize,
                  hs.classNameSize, hs.slack⟩
              by_cases hg : o.getModified = true
              · rw [if_pos hg] at h3
                have hkey := updateModifiedLists_key _ _ _ _ h3
                have hdel := updateModifiedLists_delOk st hst.1 _ _ _ (fun d hd => by cases hd) h3
                have hvals := updateModifiedLists_values env.fi.buffer st hst _
                  (.mk { k with values := vs, logs := lg, filterState := fs } [] []) _ hlv h3
                refine ⟨fun _ => ?_, hdel⟩
                have hfo : n.key.fileOffset = k.fileOffset := by rw [hkey]; rfl
                rw [hfo]
                refine ⟨by rw [hoff]; exact hle, ?_, hvals⟩
                rw [hkey]
                exact hstore _
              · rw [if_neg hg] at h3
                cases h3
                refine ⟨fun _ => ⟨?_, hstore _, hlv⟩, fun d hd => by cases hd⟩
                show k.fileOffset ≤ _
                rw [hoff]; exact hle
            unfold finishStep at hfi
            simp only at hfi
            by_cases hm : flags = .keyMatch
            · rw [if_pos hm] at hfi
              exact hfin (some .Exact) hfi
            · rw [if_neg hm] at hfi
              exact hfin k.filterState hfi

theorem KeyStored.keep {bs : Bytes} {k : KeyNode} (h : KeyStored bs k) (lg : Logs) (so : List Nat) (tr : Nat)
    (fs : Option FilterMatchState) :
    KeyStored bs { k with logs := lg, subKeyOffsets := so, toReturn := tr, filterState := fs } :=
  ⟨h.whole, h.sig, h.size, h.flagBits, h.lastWritten, h.accessBits, h.parentOffset,
    h.nSubKeys, h.nVolatileSubKeys, h.subKeysListOffset, h.volatileListOffset, h.nValues,
    h.valuesListOffset, h.securityOffset, h.classNameOffset, h.largestSubKeyName,
    h.largestSubKeyClassName, h.largestValueName, h.largestValueData, h.workVar, h.nameSize,
    h.classNameSize, h.slack⟩

theorem NodeStored.keep {buffer : Bytes} {n : Node} (h : NodeStored buffer n) (lg : Logs) (so : List Nat) (tr : Nat)
    (fs : Option FilterMatchState) :
    NodeStored buffer (n.setKey { n.key with logs := lg, subKeyOffsets := so, toReturn := tr, filterState := fs }) := by
  cases n with
  | mk k vs ds => exact ⟨fun ha => ⟨(h.1 ha).1, (h.1 ha).2.1.keep lg so tr fs, (h.1 ha).2.2⟩, h.2⟩

/-- Every key an iteration yields that was not recovered is stored with its values where it says. -/
theorem collect_stored (env : Env) (steps : Nat) (ctx : IterCtx) (ns : List Node)
    (hst : RecordedDeleted ctx.state) (hs : ∀ n ∈ ctx.stack, NodeStored env.fi.buffer n)
    (h : collect (nextPre env) steps ctx = some (.ok ns)) : ∀ n ∈ ns, NodeStored env.fi.buffer n := by
  refine collect_all env (NodeStored env.fi.buffer) RecordedDeleted ctx.getModified
    (fun _ _ => True) (fun _ => True) (fun st ro h => h) ?_ ?_ ?_ ?_ ctx.filter ⟨trivial, trivial⟩
    (fun _ _ => trivial) steps ctx ns rfl rfl hst hs h
  · intro st o n ro hst _ _ _ hr
    exact readKey_nodeStored env st hst o n ro hr
  · intro n sm v hn
    exact hn.keep n.key.logs n.key.subKeyOffsets n.key.toReturn _
  · intro n lg so tr hn
    exact hn.keep lg so tr n.key.filterState
  · intro n hn
    have hset : ∀ (s : Option FilterMatchState) (d : Node), AllDel d → AllDel (inheritFilterState s d) := by
      intro s d hd
      rw [allDel_iff] at hd ⊢
      cases d
      exact hd
    refine ⟨fun d hd => ?_, hn.1, ?_⟩
    · have := hset n.key.filterState d (hn.2 d hd)
      rw [allDel_iff] at this
      exact ⟨fun ha => absurd ha this.1, this.2⟩
    · intro d hd
      obtain ⟨e, he, rfl⟩ := List.mem_map.1 hd
      exact hset _ e (hn.2 e he)

/-- C56.  With full field information, for every key an iteration yields that was not recovered: the place
given with each of its fields, counted from the place of the key, is where the bytes of that field are in
the file, and likewise for those of its values that were not recovered.

Partial: recovered keys and values and versions of values (their place may hold something else by now),
the name of a key (no place is given) and the names of values with undocumented flags. -/
theorem fields_placed_partial (t : JsonTexts) (env : Env) (st : State) (root : Node) (ro : Nat) (f : Filter)
    (gm anc : Bool) (steps : Nat) (ns : List Node)
    (hst : RecordedDeleted st) (hroot : initRoot env st = .ok (some root, ro))
    (h : collect (nextPre env) steps (.start st (some root) f gm anc) = some (.ok ns)) (n : Node) (hn : n ∈ ns)
    (ha : n.key.cellState = .Allocated) (j : Json) (hj : keyJson t true n = .ok j) :
    (∀ name ∈ keyFieldNames, PlacedAt env.fi.buffer n.key.fileOffset (j.at ["detail", "Full", name]) Says) ∧
    ∃ js, j.field "sub_values" = some (.arr js) ∧
      Pairwise2 (fun jv v => v.val.cellState = .Allocated →
        (∀ name ∈ valueFieldNames,
          PlacedAt env.fi.buffer v.val.fileOffset (jv.at ["detail", "Full", name]) Says) ∧
        ((∀ i, v.val.flagsRaw.testBit i = true → valueFlagBit i = true) →
          PlacedAt env.fi.buffer v.val.fileOffset (jv.at ["detail", "Full", "value_name"])
            (SaysName (v.val.flagsRaw.testBit 0)))) js n.key.values := by
  have hs : ∀ m ∈ (IterCtx.start st (some root) f gm anc).stack, NodeStored env.fi.buffer m := by
    intro m hm
    have hm : m ∈ [root] := hm
    rw [List.mem_singleton.1 hm]
    unfold initRoot at hroot
    split at hroot
    · cases hroot
    · split at hroot
      · cases hroot
      · exact readKey_nodeStored env st hst _ root ro hroot
  obtain ⟨h1, h2, h3⟩ := (collect_stored env steps _ ns hst hs h n hn).1 ha
  obtain ⟨js, hjs, -⟩ := valuesJson_ok t true n.key.values
  rw [keyJson, hjs] at hj
  cases hj
  refine ⟨key_fields_placed t env.fi.buffer _ n.key h2 h1 _ rfl, js, rfl, ?_⟩
  generalize n.key.values = vs at h3 hjs
  induction vs generalizing js with
  | nil => rw [valuesJson] at hjs; cases hjs; trivial
  | cons v vs ih =>
    obtain ⟨j', hj', -⟩ := valueJson_ok t true v
    obtain ⟨js', hjs', -⟩ := valuesJson_ok t true vs
    rw [valuesJson, hj', hjs'] at hjs
    cases hjs
    refine ⟨fun hv => ?_, ih js' (fun w hw => h3 w (List.mem_cons_of_mem _ hw)) hjs'⟩
    obtain ⟨g1, g2⟩ := h3 v List.mem_cons_self hv
    refine value_fields_placed env.fi.buffer _ v.val g2 g1 j' ?_
    cases v with
    | mk kv ws =>
      obtain ⟨c, w, hc, -⟩ := content_total kv.dataType kv.valueBytes
      obtain ⟨ks, hks, -⟩ := valuesJson_ok t true ws
      rw [valueJson, hc] at hj'
      simp only [bind, Res.bind_ok] at hj'
      rw [hks] at hj'
      cases hj'
      rfl

/-- A key with a value `v` of one byte: a bin with the root key `RT`, the list of its values and the value. -/
def fieldsEnv : Env :=
  ⟨⟨0, hbinBytes 0 300 0 0 0 0 ++ { exampleCell 0x24 0 0 [0x52, 0x54] with nValues := 1, valuesList := 114 }.encode ++
    (encLE 4 (2 ^ 32 - 8) ++ encLE 4 122) ++
    (encLE 4 (2 ^ 32 - 32) ++ [0x76, 0x6b] ++ encLE 2 1 ++ encLE 4 (2 ^ 31 + 1) ++ encLE 4 7 ++ encLE 4 3 ++
      encLE 2 1 ++ encLE 2 0 ++ [0x76, 0, 0, 0, 0, 0, 0, 0])⟩, fun _ => [], 2⟩

/-- The offsets of a key and of its values, as far as they are not recovered. -/
def storedOffsets (n : Node) : List Nat :=
  if n.key.cellState = .Allocated then
    n.key.fileOffset :: (n.key.values.filter (·.val.cellState = .Allocated)).map (·.val.fileOffset)
  else []

/-- The hypotheses of `fields_placed_partial` hold for it, and speak of a key and its value. -/
example : ∃ root ro ns, initRoot fieldsEnv {} = .ok (some root, ro) ∧
    collect (nextPre fieldsEnv) 9 (.start {} (some root) {} true false) = some (.ok ns) ∧
    RecordedDeleted {} ∧ ns.map storedOffsets = [[32, 122]] := by
  have hc : (match initRoot fieldsEnv {} with
    | .ok (some root, _) => (collect (nextPre fieldsEnv) 9 (.start {} (some root) {} true false)).map
        fun r => match r with | .ok ns => ns.map storedOffsets | _ => []
    | _ => none) = some [[32, 122]] := by decide +kernel
  have hd : RecordedDeleted {} :=
    ⟨fun p ds (h : none = some ds) => (nomatch h), fun p vs (h : none = some vs) => (nomatch h)⟩
  split at hc
  · rename_i root ro hr
    cases hx : collect (nextPre fieldsEnv) 9 (.start {} (some root) {} true false) with
    | none => rw [hx] at hc; cases hc
    | some r =>
      rw [hx] at hc
      cases r with
      | ok ns => exact ⟨root, ro, ns, hr, hx, hd, by simpa using hc⟩
      | err => simp at hc
      | panic => simp at hc
  · cases hc

end Notatin
