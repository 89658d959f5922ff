import Verif.Spec.Json
import Verif.Props.Diff
import Verif.Props.Util
import Verif.Props.Content
/-
C55: the JSONL export reads back.
-/
namespace Notatin
open Spec

/-! ### Strings -/

theorem char_of_toNat {c : Char} {n : Nat} (h : c.toNat = n) : c = Char.ofNat n := by
  rw [← h, Char.ofNat_toNat]

theorem readEscaped (e c : Char) (s : Str) (h : readEscape e = some c) (hu : e ≠ 'u') :
    readJsonString ('\\' :: e :: s) = (readJsonString s).map fun (t, r) => (c :: t, r) := by
  rw [readJsonString.eq_def]
  split
  · rename_i heq; exact absurd heq (by simp)
  · rename_i heq; exact absurd (List.cons.inj heq).1 (by decide)
  · rename_i heq
    exact absurd (List.cons.inj (List.cons.inj heq).2).1 hu
  · rename_i heq
    have h1 := (List.cons.inj (List.cons.inj heq).2)
    rw [← h1.1, ← h1.2, h]
    cases readJsonString s <;> rfl
  · rename_i h1 heq
    obtain ⟨h2, h3⟩ := List.cons.inj heq
    exact absurd h3.symm (h1 e s h2.symm)

theorem readJsonString_char (c : Char) (s : Str) :
    readJsonString (jsonChar c ++ s) = (readJsonString s).map fun (t, r) => (c :: t, r) := by
  unfold jsonChar
  by_cases h1 : c = '"'
  · rw [if_pos h1, h1]
    exact readEscaped _ _ s (by decide) (by decide)
  rw [if_neg h1]
  by_cases h2 : c = '\\'
  · rw [if_pos h2, h2]
    exact readEscaped _ _ s (by decide) (by decide)
  rw [if_neg h2]
  by_cases h3 : c.toNat = 8
  · rw [if_pos h3, char_of_toNat h3]
    exact readEscaped _ _ s (by decide) (by decide)
  rw [if_neg h3]
  by_cases h4 : c.toNat = 9
  · rw [if_pos h4, char_of_toNat h4]
    exact readEscaped _ _ s (by decide) (by decide)
  rw [if_neg h4]
  by_cases h5 : c.toNat = 10
  · rw [if_pos h5, char_of_toNat h5]
    exact readEscaped _ _ s (by decide) (by decide)
  rw [if_neg h5]
  by_cases h6 : c.toNat = 12
  · rw [if_pos h6, char_of_toNat h6]
    exact readEscaped _ _ s (by decide) (by decide)
  rw [if_neg h6]
  by_cases h7 : c.toNat = 13
  · rw [if_pos h7, char_of_toNat h7]
    exact readEscaped _ _ s (by decide) (by decide)
  rw [if_neg h7]
  by_cases h8 : c.toNat < 32
  · rw [if_pos h8]
    have h9 : ∀ n < 32, readCode '0' '0' (Nat.digitChar (n / 16)) (Nat.digitChar (n % 16)) = some (Char.ofNat n) := by
      decide
    have h10 := h9 _ h8
    rw [Char.ofNat_toNat] at h10
    show readJsonString ('\\' :: 'u' :: '0' :: '0' :: Nat.digitChar (c.toNat / 16) :: Nat.digitChar (c.toNat % 16) :: s) = _
    rw [readJsonString.eq_def]
    simp only [h10]
    cases readJsonString s <;> rfl
  · rw [if_neg h8]
    show readJsonString (c :: s) = _
    rw [readJsonString.eq_def]
    split
    · rename_i heq; exact absurd heq (by simp)
    · rename_i heq; exact absurd (List.cons.inj heq).1 h1
    · rename_i heq; exact absurd (List.cons.inj heq).1 h2
    · rename_i heq; exact absurd (List.cons.inj heq).1 h2
    · rename_i heq
      rw [← (List.cons.inj heq).1, ← (List.cons.inj heq).2, if_neg h8]

theorem readJsonString_text (s r : Str) : readJsonString (s.flatMap jsonChar ++ '"' :: r) = some (s, r) := by
  induction s with
  | nil => rw [readJsonString.eq_def]; rfl
  | cons c s ih => rw [List.flatMap_cons, List.append_assoc, readJsonString_char, ih]; rfl

/-! ### Numbers -/

theorem decimal_head (n : Nat) (h : 0 < n) : (decimal n).head? ≠ some '0' := by
  induction n using Nat.strongRecOn with
  | ind n ih =>
    unfold decimal at ih ⊢
    rcases Nat.lt_or_ge n 10 with h10 | h10
    · rw [Nat.toDigits_of_lt_base h10]
      have : ∀ k < 10, 0 < k → [Nat.digitChar k].head? ≠ some '0' := by decide
      exact this n h10 h
    · rw [Nat.toDigits_of_base_le (by decide) h10]
      have h1 := ih (n / 10) (by omega) (by omega)
      cases hd : Nat.toDigits 10 (n / 10) with
      | nil => exact absurd hd Nat.toDigits_ne_nil
      | cons c cs => rw [hd] at h1; exact h1

/-- What follows is not a digit. -/
def Stops (r : Str) : Prop := ∀ c s, r = c :: s → c.isDigit = false

theorem takeWhile_digits (ds r : Str) (h : ∀ c ∈ ds, c.isDigit) (hr : Stops r) :
    (ds ++ r).takeWhile Char.isDigit = ds ∧ (ds ++ r).dropWhile Char.isDigit = r := by
  induction ds with
  | nil =>
    cases r with
    | nil => exact ⟨rfl, rfl⟩
    | cons c s =>
      have := hr c s rfl
      constructor
      · rw [List.nil_append, List.takeWhile_cons, this]; rfl
      · rw [List.nil_append, List.dropWhile_cons, this]; rfl
  | cons d ds ih =>
    have h1 := ih fun c hc => h c (List.mem_cons_of_mem _ hc)
    have h2 := h d List.mem_cons_self
    constructor
    · rw [List.cons_append, List.takeWhile_cons, if_pos h2, h1.1]
    · rw [List.cons_append, List.dropWhile_cons, if_pos h2, h1.2]

theorem readDigits_decimal (n : Nat) (r : Str) (hr : Stops r) : readDigits (decimal n ++ r) = some (n, r) := by
  obtain ⟨h1, h2⟩ := takeWhile_digits (decimal n) r (fun c hc => decimal_digit hc) hr
  unfold readDigits
  simp only [h1, h2]
  rw [if_neg]
  · obtain ⟨_, _, h3⟩ := decimal_number n
    rw [h3]
  · rintro (h | ⟨h, h'⟩)
    · exact Nat.toDigits_ne_nil h
    · rcases Nat.eq_zero_or_pos n with h0 | h0
      · subst h0
        exact h' rfl
      · exact decimal_head n h0 h

/-! ### Values -/

theorem readValue_string (f : Nat) (s r : Str) :
    readJsonValue (f + 1) (jsonString s ++ r) = some (.str s, r) := by
  unfold jsonString
  show readJsonValue (f + 1) ('"' :: (s.flatMap jsonChar ++ ['"'] ++ r)) = _
  rw [readJsonValue.eq_def]
  simp only [List.append_assoc, List.singleton_append, readJsonString_text, Option.map_some]

theorem readValue_array (f : Nat) (c : Char) (s : Str) (h : c ≠ ']') :
    readJsonValue (f + 1) ('[' :: c :: s) = (readJsonItems f (c :: s)).map fun (xs, r) => (.arr xs, r) := by
  rw [readJsonValue.eq_def]
  simp only
  split <;> rename_i heq <;> simp_all

theorem readValue_object (f : Nat) (s : Str) :
    readJsonValue (f + 1) ('{' :: '"' :: s) = (readJsonFields f ('"' :: s)).map fun (xs, r) => (.obj xs, r) := by
  rw [readJsonValue.eq_def]
  simp only
  split <;> rename_i heq <;> simp_all

theorem readValue_digits (f : Nat) (n : Nat) (r : Str) (hr : Stops r) :
    readJsonValue (f + 1) (decimal n ++ r) = some (.num n, r) := by
  have h1 := readDigits_decimal n r hr
  cases hd : decimal n with
  | nil => exact absurd hd Nat.toDigits_ne_nil
  | cons c cs =>
    have hc : c.isDigit := decimal_digit (n := n) (by rw [hd]; exact List.mem_cons_self)
    rw [hd] at h1
    rw [List.cons_append] at h1 ⊢
    rw [readJsonValue.eq_def]
    simp only
    split <;> first
      | (rename_i heq; exfalso; rw [(List.cons.inj heq).1] at hc; exact absurd hc (by decide))
      | (rw [h1]; rfl)

theorem readValue_minus (f : Nat) (n : Nat) (r : Str) (hr : Stops r) :
    readJsonValue (f + 1) ('-' :: decimal n ++ r) = some (.num (-n), r) := by
  rw [List.cons_append, readJsonValue.eq_def]
  simp only [readDigits_decimal n r hr, Option.map_some]

theorem text_head (j : Json) : ∃ c s, j.text = c :: s ∧ c ≠ ']' := by
  cases j with
  | null => exact ⟨_, _, rfl, by decide⟩
  | num i =>
    cases i with
    | ofNat n =>
      rw [Json.text]
      show ∃ c s, decimal n = c :: s ∧ c ≠ ']'
      cases hd : decimal n with
      | nil => exact absurd hd Nat.toDigits_ne_nil
      | cons c cs =>
        refine ⟨c, cs, rfl, ?_⟩
        rintro rfl
        exact absurd (decimal_digit (n := n) (by rw [hd]; exact List.mem_cons_self)) (by decide)
    | negSucc n => exact ⟨_, _, rfl, by decide⟩
  | str s => exact ⟨_, _, rfl, by decide⟩
  | arr xs =>
    cases xs with
    | nil => exact ⟨_, _, rfl, by decide⟩
    | cons x xs => exact ⟨'[', x.text ++ itemsText xs, by rw [Json.text]; rfl, by decide⟩
  | obj fs =>
    cases fs with
    | nil => exact ⟨_, _, rfl, by decide⟩
    | cons f fs =>
      exact ⟨'{', jsonString f.1.toList ++ ':' :: f.2.text ++ fieldsText fs, by rw [Json.text]; rfl, by decide⟩

theorem itemsText_length (xs : List Json) : 0 < (itemsText xs).length := by
  cases xs <;> simp [itemsText]

theorem fieldsText_length (fs : List (String × Json)) : 0 < (fieldsText fs).length := by
  cases fs <;> simp [fieldsText]

theorem stops_items (xs : List Json) (r : Str) : Stops (itemsText xs ++ r) := by
  intro c s h
  cases xs with
  | nil => rw [itemsText] at h; rw [← (List.cons.inj h).1]; rfl
  | cons x xs => rw [itemsText] at h; rw [← (List.cons.inj h).1]; rfl

theorem stops_fields (fs : List (String × Json)) (r : Str) : Stops (fieldsText fs ++ r) := by
  intro c s h
  cases fs with
  | nil => rw [fieldsText] at h; rw [← (List.cons.inj h).1]; rfl
  | cons x xs => rw [fieldsText] at h; rw [← (List.cons.inj h).1]; rfl

mutual
/-- Reading the text of a value gives the value. -/
theorem readValue_text (j : Json) (fuel : Nat) (r : Str) (hf : j.text.length ≤ fuel) (hr : Stops r) :
    readJsonValue fuel (j.text ++ r) = some (j, r) := by
  obtain ⟨c, s, hc, hcb⟩ := text_head j
  cases fuel with
  | zero => rw [hc] at hf; exact absurd hf (by simp)
  | succ f =>
    match j with
    | .null =>
      rw [Json.text, readJsonValue.eq_def]
      rfl
    | .num (.ofNat n) =>
      rw [Json.text]
      exact readValue_digits f n r hr
    | .num (.negSucc n) =>
      rw [Json.text]
      exact readValue_minus f (n + 1) r hr
    | .str t => rw [Json.text]; exact readValue_string f t r
    | .arr [] =>
      rw [Json.text, readJsonValue.eq_def]
      rfl
    | .obj [] =>
      rw [Json.text, readJsonValue.eq_def]
      rfl
    | .arr (x :: xs) =>
      obtain ⟨c, s, hc, hcb⟩ := text_head x
      have h1 := readItems_text (x :: xs) x xs rfl f r (by
        rw [Json.text] at hf
        simp only [List.cons_append, List.length_cons, List.length_append] at hf ⊢
        omega)
      rw [Json.text]
      rw [hc] at h1 ⊢
      simp only [List.cons_append] at h1 ⊢
      rw [readValue_array f _ _ hcb]
      rw [h1]
      rfl
    | .obj ((n, x) :: fs) =>
      have h1 := readFields_text ((n, x) :: fs) n x fs rfl f r (by
        rw [Json.text] at hf
        simp only [List.cons_append, List.length_cons, List.length_append] at hf ⊢
        omega)
      rw [Json.text]
      unfold jsonString at h1 ⊢
      simp only [List.cons_append] at h1 ⊢
      rw [readValue_object, h1]
      rfl
/-- Reading the elements of an array. -/
theorem readItems_text (l : List Json) (x : Json) (xs : List Json) (hl : l = x :: xs) (fuel : Nat) (r : Str)
    (hf : (x.text ++ itemsText xs).length ≤ fuel) :
    readJsonItems fuel (x.text ++ itemsText xs ++ r) = some (x :: xs, r) := by
  have hp := itemsText_length xs
  match l with
  | [] => exact absurd hl (by simp)
  | y :: ys =>
    obtain ⟨h1, h2⟩ := List.cons.inj hl
    cases fuel with
    | zero => rw [List.length_append] at hf; omega
    | succ f =>
      have hv := readValue_text y f (itemsText ys ++ r) (by
        rw [h1]; rw [List.length_append] at hf; omega) (stops_items ys r)
      rw [← h1, ← h2, List.append_assoc, readJsonItems, hv]
      rw [← h2, ← h1] at hf
      match ys with
      | [] => simp only [itemsText, List.singleton_append]
      | z :: zs =>
        have hi := readItems_text (z :: zs) z zs rfl f r (by
          rw [itemsText] at hf
          simp only [List.cons_append, List.length_cons, List.length_append] at hf ⊢
          omega)
        simp only [itemsText, List.cons_append]
        rw [hi]
        rfl
/-- Reading the fields of an object. -/
theorem readFields_text (l : List (String × Json)) (n : String) (x : Json) (fs : List (String × Json))
    (hl : l = (n, x) :: fs) (fuel : Nat) (r : Str)
    (hf : (jsonString n.toList ++ ':' :: x.text ++ fieldsText fs).length ≤ fuel) :
    readJsonFields fuel (jsonString n.toList ++ ':' :: x.text ++ fieldsText fs ++ r) = some ((n, x) :: fs, r) := by
  have hp := fieldsText_length fs
  match l with
  | [] => exact absurd hl (by simp)
  | (m, y) :: gs =>
    obtain ⟨h1, h2⟩ := List.cons.inj hl
    obtain ⟨h3, h4⟩ := Prod.mk.inj h1
    cases fuel with
    | zero => rw [List.length_append] at hf; omega
    | succ f =>
      have hv := readValue_text y f (fieldsText gs ++ r) (by
        rw [h4]; rw [List.length_append, List.length_append, List.length_cons] at hf; omega) (stops_fields gs r)
      rw [← h3, ← h4, ← h2] at hf ⊢
      have hs := readJsonString_text m.toList (':' :: (y.text ++ (fieldsText gs ++ r)))
      unfold jsonString at hf ⊢
      rw [readJsonFields.eq_def]
      simp only [List.cons_append, List.append_assoc, List.nil_append] at hf ⊢
      simp only [hs, hv]
      match gs with
      | [] => simp only [fieldsText, List.singleton_append, String.ofList_toList]
      | (k, z) :: zs =>
        have hi := readFields_text ((k, z) :: zs) k z zs rfl f r (by
          rw [fieldsText] at hf
          simp only [List.cons_append, List.length_cons, List.length_append] at hf ⊢
          omega)
        simp only [fieldsText, List.cons_append, String.ofList_toList]
        rw [hi]
        rfl
end

/-- Reading the text of a value gives the value. -/
theorem readJson_text (j : Json) : readJson j.text = some j := by
  have h := readValue_text j (j.text.length + 1) [] (by omega) (fun c s h => by simp at h)
  rw [List.append_nil] at h
  unfold readJson
  rw [h]

/-! ### Lines -/

theorem digitChar_nl : ∀ n < 16, Nat.digitChar n ≠ '\n' := by decide

theorem jsonChar_nl (c : Char) : '\n' ∉ jsonChar c := by
  unfold jsonChar
  repeat' split
  all_goals try decide
  · rename_i h
    simp only [List.mem_cons, List.not_mem_nil, or_false, not_or]
    exact ⟨by decide, by decide, by decide, by decide, (digitChar_nl _ (by omega)).symm, (digitChar_nl _ (by omega)).symm⟩
  · rename_i h _ _ _
    intro h1
    rw [List.mem_singleton] at h1
    subst h1
    exact h rfl

theorem jsonString_nl (s : Str) : '\n' ∉ jsonString s := by
  unfold jsonString
  simp only [List.cons_append, List.mem_cons, List.mem_append, List.not_mem_nil, or_false, not_or, List.mem_flatMap]
  refine ⟨by decide, ?_, by decide⟩
  rintro ⟨c, _, h⟩
  exact jsonChar_nl c h

theorem intText_nl (i : Int) : '\n' ∉ intText i := by
  cases i with
  | ofNat n => exact decimal_nl n
  | negSucc n =>
    show '\n' ∉ '-' :: decimal (n + 1)
    rw [List.mem_cons, not_or]
    exact ⟨by decide, decimal_nl _⟩

mutual
theorem text_nl (j : Json) : '\n' ∉ j.text := by
  match j with
  | .null => rw [Json.text]; decide
  | .num i => rw [Json.text]; exact intText_nl i
  | .str s => rw [Json.text]; exact jsonString_nl s
  | .arr [] => rw [Json.text]; decide
  | .obj [] => rw [Json.text]; decide
  | .arr (x :: xs) =>
    rw [Json.text]
    simp only [List.cons_append, List.mem_cons, List.mem_append, not_or]
    exact ⟨by decide, text_nl x, itemsText_nl xs⟩
  | .obj ((n, x) :: fs) =>
    rw [Json.text]
    simp only [List.cons_append, List.mem_cons, List.mem_append, not_or]
    exact ⟨by decide, ⟨jsonString_nl _, by decide, text_nl x⟩, fieldsText_nl fs⟩
theorem itemsText_nl (xs : List Json) : '\n' ∉ itemsText xs := by
  match xs with
  | [] => rw [itemsText]; decide
  | x :: xs =>
    rw [itemsText]
    simp only [List.cons_append, List.mem_cons, List.mem_append, not_or]
    exact ⟨by decide, text_nl x, itemsText_nl xs⟩
theorem fieldsText_nl (fs : List (String × Json)) : '\n' ∉ fieldsText fs := by
  match fs with
  | [] => rw [fieldsText]; decide
  | (n, x) :: fs =>
    rw [fieldsText]
    simp only [List.cons_append, List.mem_cons, List.mem_append, not_or]
    exact ⟨by decide, ⟨jsonString_nl _, by decide, text_nl x⟩, fieldsText_nl fs⟩
end

theorem lines_fileText (rs : List Str) (h : ∀ r ∈ rs, '\n' ∉ r) : lines (fileText rs) = rs := by
  unfold fileText
  induction rs with
  | nil => rfl
  | cons r rs ih =>
    rw [List.flatMap_cons, lines_writeLn _ _ (h r List.mem_cons_self), ih fun x hx => h x (List.mem_cons_of_mem _ hx)]

/-! ### What is shown -/

theorem optional_ok (n : Option Nat) : IsOptional (some (Json.optNat n)) n := by
  cases n <;> rfl

theorem numbers_ok (ns : List Nat) : IsNumbers (some (.arr (ns.map .nat))) ns := rfl

theorem bytes_ok (b : Bytes) : IsNumbers (some (Json.bytes b)) (b.map UInt8.toNat) := by
  unfold IsNumbers Json.bytes
  rw [List.map_map]
  rfl

theorem code_name (c : LogCode) : c.name = warningName c := by cases c <;> rfl

theorem state_name (c : CellState) : c.name = stateName c := by cases c <;> rfl

theorem type_name (t : DataType) : t.name ∈ typeNames.lookup t := by cases t <;> rfl

theorem jsonLogs_ok (text : Nat → Str) (i : Nat) (cs : List LogCode) :
    Pairwise2 (fun x c => IsText (x.field "code") (warningName c).toList ∧ ∃ s, IsText (x.field "text") s)
      (jsonLogs text i cs) cs := by
  induction cs generalizing i with
  | nil => trivial
  | cons c cs ih =>
    refine ⟨⟨?_, text i, ?_⟩, ih (i + 1)⟩
    · rw [← code_name]; rfl
    · rfl

theorem logs_ok (t : JsonTexts) (l : Logs) : IsWarnings ((l.json t).field "logs") l.codes := by
  unfold Logs.json Logs.codes
  cases h : l.logs with
  | none => exact .inl ⟨rfl, rfl⟩
  | some cs => exact .inr ⟨_, rfl, jsonLogs_ok _ _ _⟩

theorem content_ok (c : CellValue) : IsContent (some c.json) c := by
  cases c with
  | Binary b => exact ⟨_, rfl, hex_roundtrip b⟩
  | _ => rfl

theorem field_of_mem (fs : List (String × Json)) (hn : (fs.map Prod.fst).Nodup) (n : String) (x : Json)
    (h : (n, x) ∈ fs) : (Json.obj fs).field n = some x := by
  have : fs.filter (fun f => f.1 = n) = [(n, x)] := by
    induction fs with
    | nil => exact absurd h List.not_mem_nil
    | cons f fs ih =>
      rw [List.map_cons, List.nodup_cons] at hn
      by_cases hf : f.1 = n
      · have hx : f = (n, x) := by
          rcases List.mem_cons.1 h with h | h
          · exact h.symm
          · exact absurd (List.mem_map.2 ⟨_, h, hf.symm⟩) hn.1
        rw [List.filter_cons_of_pos (by simp [hf]), hx]
        congr 1
        rw [List.filter_eq_nil_iff]
        intro g hg hgn
        simp only [decide_eq_true_eq] at hgn
        exact hn.1 (hf.trans hgn.symm ▸ List.mem_map.2 ⟨g, hg, rfl⟩)
      · rw [List.filter_cons_of_neg (by simp [hf])]
        refine ih hn.2 ?_
        rcases List.mem_cons.1 h with h | h
        · exact absurd (by rw [← h]) hf
        · exact h
  unfold Json.field
  simp only [this]

/-- The object of a field of the detail, read somewhere from `off` on. -/
theorem detail_mem (full : Bool) (fs : List DetailField) (f : DetailField) (hf : f ∈ fs) (off : Nat) :
    ∃ o, (f.name, Json.obj ([("value", f.value)] ++
      (if full then [("offset", .nat o), ("len", .nat f.len)] else []) ++ f.extra)) ∈ detailFields full off fs := by
  induction fs generalizing off with
  | nil => exact absurd hf List.not_mem_nil
  | cons g fs ih =>
    rw [detailFields]
    rcases List.mem_cons.1 hf with h | h
    · exact ⟨off, h ▸ List.mem_cons_self⟩
    · obtain ⟨o, ho⟩ := ih h (off + g.len)
      exact ⟨o, List.mem_cons_of_mem _ ho⟩

theorem detail_names (full : Bool) (off : Nat) (fs : List DetailField) :
    (detailFields full off fs).map Prod.fst = fs.map DetailField.name := by
  induction fs generalizing off with
  | nil => rfl
  | cons f fs ih => rw [detailFields, List.map_cons, List.map_cons, ih]

theorem value_field (v : Json) (full : Bool) (o n : Nat) (extra : List (String × Json))
    (h : ∀ e ∈ extra, e.1 ≠ "value") :
    (Json.obj ([("value", v)] ++ (if full then [("offset", .nat o), ("len", .nat n)] else []) ++ extra)).field
      "value" = some v := by
  have h1 : extra.filter (fun f => f.1 = "value") = [] := by
    rw [List.filter_eq_nil_iff]
    intro e he
    simp [h e he]
  unfold Json.field
  cases full <;> simp [List.filter_cons, h1]

/-- Nothing that is added to a field is named like its value. -/
def PlainExtra (f : DetailField) : Prop := ∀ e ∈ f.extra, e.1 ≠ "value"

theorem plain_flags (t : JsonTexts) (mask bits : Nat) (text : Str) :
    ∀ e ∈ flagExtra t mask bits text, e.1 ≠ "value" := by
  intro e he
  unfold flagExtra at he
  rcases List.mem_cons.1 he with h | h
  · rw [h]; exact fun h => absurd h (by decide +kernel : ¬ "interpreted" = "value")
  · split at h
    · rw [List.mem_singleton.1 h]; exact fun h => absurd h (by decide +kernel : ¬ "logs" = "value")
    · exact absurd h List.not_mem_nil

/-- The value of a field in a detail made of two runs of fields. -/
theorem detail_value (full : Bool) (o1 o2 : Nat) (fs gs : List DetailField)
    (hn : ((fs ++ gs).map DetailField.name).Nodup) (f : DetailField) (hf : f ∈ fs ++ gs) (hp : PlainExtra f) :
    (detailJson full (detailFields full o1 fs ++ detailFields full o2 gs)).at [variant full, f.name, "value"] =
      some f.value := by
  have h0 : ∃ o, (f.name, Json.obj ([("value", f.value)] ++
      (if full then [("offset", .nat o), ("len", .nat f.len)] else []) ++ f.extra)) ∈
        detailFields full o1 fs ++ detailFields full o2 gs := by
    rcases List.mem_append.1 hf with h | h
    · obtain ⟨o, ho⟩ := detail_mem full fs f h o1
      exact ⟨o, List.mem_append_left _ ho⟩
    · obtain ⟨o, ho⟩ := detail_mem full gs f h o2
      exact ⟨o, List.mem_append_right _ ho⟩
  obtain ⟨o, ho⟩ := h0
  have h1 := field_of_mem _ (by rw [List.map_append, detail_names, detail_names, ← List.map_append]; exact hn) _ _ ho
  have h2 : (detailJson full (detailFields full o1 fs ++ detailFields full o2 gs)).field (variant full) =
      some (.obj (detailFields full o1 fs ++ detailFields full o2 gs)) := by
    unfold detailJson variant Json.field
    simp
  rw [Json.at, h2, Option.bind_some, Json.at, h1, Option.bind_some, Json.at, value_field _ _ _ _ _ hp]
  rfl

theorem key_detail_names (t : JsonTexts) (k : KeyNode) (x : DetailField) (hx : x.name = "slack") :
    ((keyFields t k ++ [x]).map DetailField.name).Nodup := by
  have : (keyFields t k ++ [x]).map DetailField.name = (keyFields t k).map DetailField.name ++ ["slack"] := by
    rw [List.map_append, List.map_singleton, hx]
  rw [this]
  show List.Nodup ["size", "signature", "key_node_flag_bits", "last_key_written_date_and_time",
    "access_flag_bits", "parent_key_offset_relative", "number_of_sub_keys", "number_of_volatile_sub_keys",
    "sub_keys_list_offset_relative", "volatile_sub_keys_list_offset_relative", "number_of_key_values",
    "key_values_list_offset_relative", "security_key_offset_relative", "class_name_offset_relative",
    "largest_sub_key_name_size", "largest_sub_key_class_name_size", "largest_value_name_size",
    "largest_value_data_size", "work_var", "key_name_size", "class_name_size", "slack"]
  decide +kernel

theorem value_detail_names (v : KeyValue) : ((valueFields v ++ []).map DetailField.name).Nodup := by
  show List.Nodup ["size", "signature", "value_name_size", "data_size_raw", "data_offset_relative",
    "data_type_raw", "flags_raw", "padding", "value_name", "slack"]
  decide +kernel

theorem plain_nil (n : String) (v : Json) (l : Nat) : PlainExtra ⟨n, v, l, []⟩ :=
  fun _ he => absurd he List.not_mem_nil

theorem plain_interpreted (n : String) (v : Json) (l : Nat) (x : Json) :
    PlainExtra ⟨n, v, l, [("interpreted", x)]⟩ := by
  intro e he h
  rw [List.mem_singleton.1 he] at h
  exact absurd h (by decide +kernel : ¬ "interpreted" = "value")

theorem key_number (t : JsonTexts) (k : KeyNode) (x : String × Int) (hx : x ∈ keyNumbers k) :
    ∃ f ∈ keyFields t k, f.name = x.1 ∧ f.value = .num x.2 ∧ PlainExtra f := by
  unfold keyNumbers at hx
  simp only [List.mem_cons, List.not_mem_nil, or_false] at hx
  rcases hx with h | h | h | h | h | h | h | h | h | h | h | h | h | h | h | h | h | h | h | h <;> subst h
  · exact ⟨_, List.mem_of_getElem? (i := 0) rfl, rfl, rfl, plain_nil _ _ _⟩
  · exact ⟨_, List.mem_of_getElem? (i := 2) rfl, rfl, rfl, plain_flags _ _ _ _⟩
  · exact ⟨_, List.mem_of_getElem? (i := 3) rfl, rfl, rfl, plain_interpreted _ _ _ _⟩
  · exact ⟨_, List.mem_of_getElem? (i := 4) rfl, rfl, rfl, plain_flags _ _ _ _⟩
  · exact ⟨_, List.mem_of_getElem? (i := 5) rfl, rfl, rfl, plain_nil _ _ _⟩
  · exact ⟨_, List.mem_of_getElem? (i := 6) rfl, rfl, rfl, plain_nil _ _ _⟩
  · exact ⟨_, List.mem_of_getElem? (i := 7) rfl, rfl, rfl, plain_nil _ _ _⟩
  · exact ⟨_, List.mem_of_getElem? (i := 8) rfl, rfl, rfl, plain_nil _ _ _⟩
  · exact ⟨_, List.mem_of_getElem? (i := 9) rfl, rfl, rfl, plain_nil _ _ _⟩
  · exact ⟨_, List.mem_of_getElem? (i := 10) rfl, rfl, rfl, plain_nil _ _ _⟩
  · exact ⟨_, List.mem_of_getElem? (i := 11) rfl, rfl, rfl, plain_nil _ _ _⟩
  · exact ⟨_, List.mem_of_getElem? (i := 12) rfl, rfl, rfl, plain_nil _ _ _⟩
  · exact ⟨_, List.mem_of_getElem? (i := 13) rfl, rfl, rfl, plain_nil _ _ _⟩
  · exact ⟨_, List.mem_of_getElem? (i := 14) rfl, rfl, rfl, plain_nil _ _ _⟩
  · exact ⟨_, List.mem_of_getElem? (i := 15) rfl, rfl, rfl, plain_nil _ _ _⟩
  · exact ⟨_, List.mem_of_getElem? (i := 16) rfl, rfl, rfl, plain_nil _ _ _⟩
  · exact ⟨_, List.mem_of_getElem? (i := 17) rfl, rfl, rfl, plain_nil _ _ _⟩
  · exact ⟨_, List.mem_of_getElem? (i := 18) rfl, rfl, rfl, plain_nil _ _ _⟩
  · exact ⟨_, List.mem_of_getElem? (i := 19) rfl, rfl, rfl, plain_nil _ _ _⟩
  · exact ⟨_, List.mem_of_getElem? (i := 20) rfl, rfl, rfl, plain_nil _ _ _⟩

theorem value_number (v : KeyValue) (x : String × Int) (hx : x ∈ valueNumbers v) :
    ∃ f ∈ valueFields v, f.name = x.1 ∧ f.value = .num x.2 ∧ PlainExtra f := by
  unfold valueNumbers at hx
  simp only [List.mem_cons, List.not_mem_nil, or_false] at hx
  rcases hx with h | h | h | h | h | h | h <;> subst h
  · exact ⟨_, List.mem_of_getElem? (i := 0) rfl, rfl, rfl, plain_nil _ _ _⟩
  · exact ⟨_, List.mem_of_getElem? (i := 2) rfl, rfl, rfl, plain_nil _ _ _⟩
  · exact ⟨_, List.mem_of_getElem? (i := 3) rfl, rfl, rfl, plain_nil _ _ _⟩
  · exact ⟨_, List.mem_of_getElem? (i := 4) rfl, rfl, rfl, plain_nil _ _ _⟩
  · exact ⟨_, List.mem_of_getElem? (i := 5) rfl, rfl, rfl, plain_nil _ _ _⟩
  · exact ⟨_, List.mem_of_getElem? (i := 6) rfl, rfl, rfl, plain_nil _ _ _⟩
  · exact ⟨_, List.mem_of_getElem? (i := 7) rfl, rfl, rfl, plain_nil _ _ _⟩

theorem value_detail_at (full : Bool) (v : KeyValue) (f : DetailField) (hf : f ∈ valueFields v)
    (hp : PlainExtra f) :
    (detailJson full (detailFields full 0 (valueFields v))).at [variant full, f.name, "value"] = some f.value := by
  have h := detail_value full 0 0 (valueFields v) [] (value_detail_names v) f
    (by rw [List.append_nil]; exact hf) hp
  rw [detailFields, List.append_nil] at h
  exact h

theorem key_detail_at (t : JsonTexts) (full : Bool) (k : KeyNode) (f : DetailField)
    (hf : f ∈ keyFields t k ++ [⟨"slack", .bytes k.slack, k.slack.length, []⟩]) (hp : PlainExtra f) :
    (detailJson full (keyDetail t full k)).at [variant full, f.name, "value"] = some f.value :=
  detail_value full 0 (80 + k.nameSize) (keyFields t k) _ (key_detail_names t k _ rfl) f hf hp

theorem pretty_name (v : KeyValue) :
    v.prettyName = if v.name = [] then "(default)".toList else v.name := by
  unfold KeyValue.prettyName
  cases v.name <;> rfl

/-- A path through a field. -/
theorem at_field (j x : Json) (n : String) (ns : List String) (h : j.field n = some x) :
    j.at (n :: ns) = x.at ns := by
  rw [Json.at, h]; rfl

theorem at_one (j : Json) (n : String) : j.at [n] = j.field n := by
  rw [Json.at]
  cases j.field n <;> rfl

mutual
/-- A value is written, and what is written shows it. -/
theorem valueJson_ok (t : JsonTexts) (full : Bool) (x : Value) :
    ∃ j, valueJson t full x = .ok j ∧ ShowsValue full j x := by
  cases x with
  | mk v vs =>
    obtain ⟨c, w, hc, -⟩ := content_total v.dataType v.valueBytes
    obtain ⟨js, hj, hs⟩ := valuesJson_ok t full vs
    rw [valueJson, hc]
    simp only [bind, Res.bind_ok]
    rw [hj]
    refine ⟨_, rfl, ?_⟩
    rw [ShowsValue]
    refine ⟨rfl, ?_, ?_, ?_, ⟨_, type_name _, rfl⟩, ?_, ?_, optional_ok _, optional_ok _, numbers_ok _, ?_,
      ⟨c, w, hc, ?_, ?_⟩, js, rfl, hs⟩
    · intro x hx
      obtain ⟨f, hf, hn, hv, hp⟩ := value_number v x hx
      rw [at_field _ _ _ _ rfl, ← hn, value_detail_at full v f hf hp, hv]
      rfl
    · rw [at_field _ _ _ _ rfl]
      exact value_detail_at full v _ (List.mem_of_getElem? (i := 8) rfl) (plain_interpreted _ _ _ _)
    · rw [at_field _ _ _ _ rfl]
      have := value_detail_at full v _ (List.mem_of_getElem? (i := 9) rfl) (plain_nil _ _ _)
      rw [this]
      exact bytes_ok _
    · rw [← pretty_name]; rfl
    · rw [at_field _ _ _ _ rfl, at_one]
      exact logs_ok t _
    · rw [← state_name]; rfl
    · exact content_ok c
    · cases w with
      | none => rfl
      | some l =>
        show IsWarnings _ _
        rw [at_field _ _ _ _ rfl, at_one]
        exact logs_ok t _
theorem valuesJson_ok (t : JsonTexts) (full : Bool) (xs : List Value) :
    ∃ js, valuesJson t full xs = .ok js ∧ ShowsValues full js xs := by
  cases xs with
  | nil => exact ⟨[], by rw [valuesJson], by rw [ShowsValues]⟩
  | cons x xs =>
    obtain ⟨j, hj, hs⟩ := valueJson_ok t full x
    obtain ⟨js, hjs, hss⟩ := valuesJson_ok t full xs
    refine ⟨j :: js, ?_, ?_⟩
    · rw [valuesJson, hj, hjs]; rfl
    · rw [ShowsValues]; exact ⟨j, js, rfl, hs, hss⟩
end

/-- A key is written, and what is written shows it. -/
theorem keyJson_ok (t : JsonTexts) (full : Bool) (n : Node) :
    ∃ j, keyJson t full n = .ok j ∧ ShowsKey full j n := by
  obtain ⟨js, hj, hs⟩ := valuesJson_ok t full n.key.values
  rw [keyJson, hj]
  refine ⟨_, rfl, rfl, ?_, ?_, rfl, rfl, ?_, optional_ok _, optional_ok _, ?_, js, rfl, hs⟩
  · intro x hx
    obtain ⟨f, hf, hn, hv, hp⟩ := key_number t n.key x hx
    rw [at_field _ _ _ _ rfl, ← hn, key_detail_at t full n.key f (List.mem_append_left _ hf) hp, hv]
    rfl
  · rw [at_field _ _ _ _ rfl]
    have := key_detail_at t full n.key _ (List.mem_append_right _ (List.mem_singleton.2 rfl)) (plain_nil _ _ _)
    rw [this]
    exact bytes_ok _
  · rw [← state_name]; rfl
  · rw [at_field _ _ _ _ rfl, at_one]
    exact logs_ok t _

/-- C55.  Whatever keys are exported, the export ends; every line of the file is read back by a reader
of JSON, there is one line per key in the order of the keys, and it shows the key with its values and
their versions. -/
theorem jsonl_read_back_partial (t : JsonTexts) (full : Bool) (ns : List Node) :
    ∃ records js, writeJson t full ns = .ok records ∧
      (lines (fileText records)).map readJson = js.map some ∧ Pairwise2 (ShowsKey full) js ns := by
  suffices h : ∃ js, writeJson t full ns = .ok (js.map Json.text) ∧ Pairwise2 (ShowsKey full) js ns by
    obtain ⟨js, hw, hs⟩ := h
    refine ⟨_, js, hw, ?_, hs⟩
    rw [lines_fileText]
    · rw [List.map_map]
      exact List.map_congr_left fun j _ => readJson_text j
    · intro r hr
      obtain ⟨j, -, rfl⟩ := List.mem_map.1 hr
      exact text_nl j
  induction ns with
  | nil => exact ⟨[], rfl, trivial⟩
  | cons n ns ih =>
    obtain ⟨j, hj, hs⟩ := keyJson_ok t full n
    obtain ⟨js, hjs, hss⟩ := ih
    refine ⟨j :: js, ?_, hs, hss⟩
    rw [writeJson, hj, hjs]
    rfl

/-- A key with a quote, a control character and a backslash in its name, with one value of four bytes
which had other data before. -/
def jsonNode : Node :=
  .mk { defaultKey with
    name := "a\"\\\n\u0001".toList, path := "\\a".toList, seq := some 7, parentOffset := -1,
    logs := { logs := some [.WarningContent] },
    values := [.mk ⟨4096, -24, 1, 4, 32, 4, 1, 0, ['v'], [9], some [1, 2, 3, 4], .REG_DWORD, 1, [4128], .Allocated,
      {}, none, none, none⟩
      [.mk ⟨4096, -24, 1, 2, 32, 4, 1, 0, ['v'], [], some [1, 2], .REG_DWORD, 1, [4128], .ModifiedTransactionLog,
        {}, none, some 6, none⟩ []]] }
    [.mk { defaultKey with name := "old".toList } [] []] []

/-- Texts for the example. -/
def jsonTexts : JsonTexts := ⟨fun _ => [], fun _ => [], fun _ => [], fun _ => [], fun _ => [], fun _ _ => []⟩

/-- The record of the example, read back. -/
def jsonSeen : Option Json :=
  match writeJson jsonTexts true [jsonNode] with
  | .ok rs => match (lines (fileText rs)).map readJson with
    | [j] => j
    | _ => none
  | _ => none

/-- A text or a number as text. -/
def Json.shown : Json → Str
  | .str s => s
  | .num i => intText i
  | _ => []

example : (jsonSeen.bind (·.at ["key_name"])).map Json.shown = some "a\"\\\n\u0001".toList := by
  decide +kernel
example : (jsonSeen.bind (·.at ["detail", "Full", "parent_key_offset_relative", "offset"])).map Json.shown =
    some "20".toList := by decide +kernel
example : (jsonSeen.bind (·.at ["detail", "Full", "parent_key_offset_relative", "value"])).map Json.shown =
    some "-1".toList := by decide +kernel

/-- C55, what the code does not do: the file says nothing about the versions of a key, so no reader gets
them back from it. -/
theorem jsonl_versions_violated (t : JsonTexts) (full : Bool) :
    ¬ ∃ read : Str → List Str, ∀ n records, writeJson t full [n] = .ok records →
      read (fileText records) = n.versions.map fun v => v.key.name := by
  rintro ⟨read, h⟩
  obtain ⟨j, hj, -⟩ := keyJson_ok t full jsonNode
  have e1 : writeJson t full [jsonNode] = .ok [j.text] := by rw [writeJson, hj]; rfl
  have e2 : writeJson t full [.mk jsonNode.key [] []] = .ok [j.text] := by
    have : keyJson t full (.mk jsonNode.key [] []) = keyJson t full jsonNode := rfl
    rw [writeJson, this, hj]; rfl
  have := (h _ _ e1).symm.trans (h _ _ e2)
  exact absurd (congrArg List.length this) (by decide)

end Notatin
