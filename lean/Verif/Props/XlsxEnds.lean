import Verif.Props.XlsxFile
/-
C53: when the export as a spreadsheet finishes.
-/
namespace Notatin
open Spec

/-- A text short enough for one cell, without NUL. -/
def CellText (s : Str) : Prop := s.length ≤ 32767 ∧ '\x00' ∉ s

/-- A text short enough for the cells of one row apart from the first, without NUL. -/
def RowText (s : Str) : Prop := s.length ≤ 16383 * 32767 ∧ '\x00' ∉ s

/-- The write fits. -/
def XField.Fits : XField → Prop
  | .number _ => True
  | .text s => CellText s
  | .checked s => RowText s

/-- The number of rows of the overflow sheet the write takes. -/
def XField.longs : XField → Nat
  | .checked s => longCount [s]
  | _ => 0

theorem longCount_pos {s : Str} (h : utf8Len s > 32767) : longCount [s] = 1 := by
  simp [longCount, h]

theorem longCount_neg {s : Str} (h : ¬ utf8Len s > 32767) : longCount [s] = 0 := by
  have : utf8Len s ≤ 32767 := by omega
  simp [longCount, this]

theorem length_le_utf8 (s : Str) : s.length ≤ utf8Len s := by
  induction s with
  | nil => exact Nat.le_refl _
  | cons c s ih =>
    have := Char.utf8Size_pos c
    have e : utf8Len (c :: s) = c.utf8Size + utf8Len s := by simp [utf8Len]
    rw [e, List.length_cons]
    omega

theorem accepted_text {s : Str} (h : CellText s) : (XCell.text s).accepted = true := by
  unfold XCell.accepted
  simp only [Bool.and_eq_true, decide_eq_true_eq, Bool.not_eq_true', List.contains_eq_mem,
    decide_eq_false_iff_not]
  exact h

theorem put_runs {s : Sheet} {col : Nat} {c : XCell} (h1 : s.row < 1048576) (h2 : col < 16384)
    (h3 : c.accepted = true) : s.put col c = .ok { s with cells := s.cells ++ [(s.row, col, c)] } := by
  rw [Sheet.put, if_pos ⟨h1, h2, h3⟩]

theorem split_take (s : Str) : (safeSplitAt s 32767).1 = s.take 32767 ∧ (safeSplitAt s 32767).2 = s.drop 32767 := by
  have := length_le_utf8 s
  unfold safeSplitAt
  by_cases h : 32767 ≤ utf8Len s
  · rw [Nat.min_eq_left h]
    exact ⟨rfl, rfl⟩
  · have h' : utf8Len s ≤ 32767 := by omega
    rw [Nat.min_eq_right h']
    simp only
    rw [List.take_of_length_le this, List.drop_of_length_le this, List.take_of_length_le (by omega),
      List.drop_of_length_le (by omega)]
    exact ⟨rfl, rfl⟩

theorem chunks_fit (s : Str) : (∀ c ∈ overflowChunks s, c.length ≤ 32767) ∧
    (overflowChunks s).length * 32767 < s.length + 32767 := by
  fun_induction overflowChunks s with
  | case1 => exact ⟨fun c hc => absurd hc List.not_mem_nil, by decide⟩
  | case2 c s ih =>
    rw [(split_take (c :: s)).1, (split_take (c :: s)).2] at *
    have hl := List.length_drop (i := 32767) (l := c :: s)
    have ht := List.length_take (i := 32767) (l := c :: s)
    generalize List.take 32767 (c :: s) = a at *
    generalize List.drop 32767 (c :: s) = d at *
    generalize hn : (c :: s).length = n at *
    have hpos : 0 < n := by rw [← hn, List.length_cons]; omega
    refine ⟨fun x hx => ?_, ?_⟩
    · rcases List.mem_cons.1 hx with rfl | hx
      · omega
      · exact ih.1 x hx
    · rw [List.length_cons, Nat.add_mul, Nat.one_mul]
      by_cases h : 32767 ≤ n
      · have h2 := ih.2
        clear ih ht hn
        rw [hl] at h2
        generalize (overflowChunks d).length * 32767 = m at h2
        omega
      · have hd : d = [] := List.eq_nil_of_length_eq_zero (by omega)
        have : (overflowChunks d).length = 0 := by rw [hd, overflowChunks]; rfl
        rw [this]
        omega

theorem putChunks_runs {cs : List Str} {o : Sheet} {col : Nat} (hr : o.row < 1048576)
    (hc : col + cs.length ≤ 16384) (hs : ∀ c ∈ cs, CellText c) :
    ∃ o', putChunks o col cs = .ok o' ∧ o'.row = o.row := by
  induction cs generalizing o col with
  | nil => exact ⟨o, rfl, rfl⟩
  | cons c cs ih =>
    rw [List.length_cons] at hc
    rw [putChunks, if_pos (by omega), put_runs hr (by omega) (accepted_text (hs c List.mem_cons_self))]
    exact ih (o := { o with cells := o.cells ++ [(o.row, col, .text c)] }) hr (by omega)
      fun c hc => hs c (List.mem_cons_of_mem _ hc)

theorem label_fits (n : Nat) (h : n ≤ 1048576) : (truncatedLabel n).length ≤ 100 ∧ '\x00' ∉ truncatedLabel n := by
  have h1 : (Nat.toDigits 10 n).length ≤ 7 :=
    (Nat.length_toDigits_le_iff (by decide) (by decide)).2 (Nat.lt_of_le_of_lt h (by decide))
  refine ⟨?_, fun hc => ?_⟩
  · rw [label_eq, List.length_append, List.length_append]
    have h2 : (" [truncated; row: ".toList).length = 18 := by decide
    have h3 : ("]".toList).length = 1 := by decide
    omega
  · exact absurd (legal_label n _ hc) (by decide)

theorem writeOverflow_runs {p o : Sheet} {col : Nat} {s : Str} (hs : RowText s) (hr : p.row < 1048576)
    (hc : col < 16384) (ho : o.row + longCount [s] ≤ 1048576) (hl : p.links.length + longCount [s] ≤ 65530) :
    ∃ p' o', writeOverflow p o col s = .ok (p', o') ∧ p'.row = p.row ∧
      p'.links.length = p.links.length + longCount [s] ∧ o'.row = o.row + longCount [s] := by
  unfold writeOverflow
  by_cases h : utf8Len s > 32767
  · rw [longCount_pos h] at ho hl ⊢
    rw [if_pos h]
    simp only
    have hlab := label_fits (o.row + 1) ho
    have hfit := chunks_fit s
    have hn : (overflowChunks s).length ≤ 16383 := by
      have := hs.1
      omega
    rw [put_runs (by omega) (by decide) (accepted_text ⟨by omega, hlab.2⟩)]
    simp only [Res.bind_ok]
    obtain ⟨o2, h2, r2⟩ := putChunks_runs (o := { o with cells := o.cells ++ [(o.row, 0, .text (truncatedLabel (o.row + 1)))] })
      (col := 1) (cs := overflowChunks s) (show o.row < 1048576 by omega) (by omega)
      fun c hc => ⟨hfit.1 c hc, fun h => hs.2 (by rw [← chunks_flatten s]; exact List.mem_flatten.2 ⟨c, hc, h⟩)⟩
    rw [h2]
    simp only [Res.bind_ok]
    rw [Sheet.link, if_pos ⟨hr, hc, by omega⟩]
    simp only [Res.bind_ok]
    rw [put_runs (s := ⟨p.row, p.cells, p.links ++ [(p.row, col, "internal:Overflow!A".toList ++ decimal (o2.row + 1))]⟩)
      hr hc (accepted_text ?_)]
    · refine ⟨_, _, rfl, rfl, ?_, ?_⟩
      · simp only [List.length_append, List.length_singleton]
      · simp only [r2]
    · have ht : (safeTruncate s 250).length ≤ 250 := by
        rw [safeTruncate, List.length_take]
        omega
      refine ⟨?_, fun hm => ?_⟩
      · rw [List.length_append]
        omega
      · rcases List.mem_append.1 hm with hm | hm
        · exact hs.2 (List.mem_of_mem_take hm)
        · exact hlab.2 hm
  · rw [if_neg h, put_runs hr hc (accepted_text ⟨by have := length_le_utf8 s; omega, hs.2⟩), longCount_neg h]
    exact ⟨_, _, rfl, rfl, rfl, rfl⟩

theorem writeField_runs {p o : Sheet} {col : Nat} {f : XField} (hf : f.Fits) (hr : p.row < 1048576)
    (hc : col < 16384) (ho : o.row + f.longs ≤ 1048576) (hl : p.links.length + f.longs ≤ 65530) :
    ∃ p' o', writeField p o col f = .ok (p', o') ∧ p'.row = p.row ∧
      p'.links.length = p.links.length + f.longs ∧ o'.row = o.row + f.longs := by
  cases f with
  | number n =>
    rw [writeField, put_runs hr hc rfl]
    exact ⟨_, _, rfl, rfl, rfl, rfl⟩
  | text s =>
    rw [writeField, put_runs hr hc (accepted_text hf)]
    exact ⟨_, _, rfl, rfl, rfl, rfl⟩
  | checked s =>
    rw [writeField, checkWrite]
    by_cases h : s = []
    · subst h
      rw [if_pos rfl]
      exact ⟨_, _, rfl, rfl, rfl, rfl⟩
    · rw [if_neg h]
      exact writeOverflow_runs hf hr hc ho hl

/-- The rows of the overflow sheet a list of writes takes. -/
def fieldLongs (fs : List (Nat × XField)) : Nat := (fs.map fun f => f.2.longs).sum

theorem writeFields_runs {fs : List (Nat × XField)} {p o : Sheet} (hf : ∀ f ∈ fs, f.1 < 16384 ∧ f.2.Fits)
    (hr : p.row < 1048576) (ho : o.row + fieldLongs fs ≤ 1048576) (hl : p.links.length + fieldLongs fs ≤ 65530) :
    ∃ p' o', writeFields p o fs = .ok (p', o') ∧ p'.row = p.row ∧
      p'.links.length = p.links.length + fieldLongs fs ∧ o'.row = o.row + fieldLongs fs := by
  induction fs generalizing p o with
  | nil => exact ⟨p, o, rfl, rfl, rfl, rfl⟩
  | cons x fs ih =>
    obtain ⟨col, f⟩ := x
    have e : fieldLongs ((col, f) :: fs) = f.longs + fieldLongs fs := rfl
    rw [e] at ho hl ⊢
    have hx : col < 16384 ∧ f.Fits := hf (col, f) List.mem_cons_self
    obtain ⟨p1, o1, h1, r1, l1, q1⟩ := writeField_runs (p := p) (o := o) hx.2 hr hx.1 (by omega) (by omega)
    obtain ⟨p2, o2, h2, r2, l2, q2⟩ := ih (p := p1) (o := o1) (fun f hf' => hf f (List.mem_cons_of_mem _ hf'))
      (by omega) (by omega) (by omega)
    refine ⟨p2, o2, ?_, by omega, by omega, by omega⟩
    rw [writeFields, h1]
    exact h2

/-! ### The traversal -/

/-- The rows of the overflow sheet the items take. -/
def itemLongs (t : XlsxTexts) (xs : List ExportItem) : Nat := (xs.map fun x => longCount (longable t x)).sum

theorem itemLongs_append (t : XlsxTexts) (a b : List ExportItem) :
    itemLongs t (a ++ b) = itemLongs t a + itemLongs t b := by
  simp [itemLongs]

/-- The parameters give texts that fit into a cell. -/
structure XlsxTexts.Short (t : XlsxTexts) : Prop where
  time : ∀ k, (t.time k).length ≤ 32767
  flags : ∀ k, (t.flags k).length ≤ 32767
  access : ∀ k, (t.access k).length ≤ 32767

theorem legal_nul {s : Str} (h : Legal s) : '\x00' ∉ s := fun hc => absurd (h _ hc) (by decide)

theorem status_short (s : CellState) : (statusText s).length ≤ 32767 := by cases s <;> decide

theorem longCount_cons (s : Str) (ss : List Str) : longCount (s :: ss) = longCount [s] + longCount ss := by
  unfold longCount
  rw [← List.singleton_append, List.countP_append]

theorem fieldLongs_append (a b : List (Nat × XField)) : fieldLongs (a ++ b) = fieldLongs a + fieldLongs b := by
  simp [fieldLongs]

theorem fieldLongs_opt (c : Nat) (n : Option Nat) : fieldLongs (optNumber c n) = 0 := by cases n <;> rfl

theorem item_longs (t : XlsxTexts) (ht : t.Plain) (x : ExportItem) (row : Nat) :
    fieldLongs (itemFields t x row) = longCount (longable t x) := by
  have h0 : longCount [] = 0 := rfl
  cases x with
  | key n =>
    simp only [itemFields, xlsxKeyFields, fieldLongs_append, fieldLongs_opt, longable, List.map_cons, List.map_nil]
    simp only [fieldLongs, List.map_cons, List.map_nil, XField.longs, List.sum_cons, List.sum_nil, sanitize_cleaned]
    simp only [longCount, List.countP_cons, List.countP_nil]
    omega
  | value n v =>
    simp only [itemFields, xlsxValueFields, fieldLongs_append, fieldLongs_opt, longable, List.map_cons, List.map_nil]
    simp only [fieldLongs, List.map_cons, List.map_nil, XField.longs, List.sum_cons, List.sum_nil, sanitize_cleaned,
      sanitizeCell_cleaned t ht, cleaned_legal_eq (ht.type v)]
    simp only [longCount, List.countP_cons, List.countP_nil]
    omega

/-- The long texts of the item fit into a row. -/
def ItemFits (t : XlsxTexts) (x : ExportItem) : Prop := ∀ s ∈ longable t x, s.length ≤ 16383 * 32767

theorem itemFields_fit (t : XlsxTexts) (ht : t.Plain) (hs : t.Short) (x : ExportItem) (hx : ItemFits t x) (row : Nat) :
    ∀ f ∈ itemFields t x row, f.1 < 16384 ∧ f.2.Fits := by
  have hopt : ∀ c, c < 16384 → ∀ (n : Option Nat), ∀ f ∈ optNumber c n, f.1 < 16384 ∧ f.2.Fits := by
    intro c hc n f hf
    cases n with
    | none => exact absurd hf List.not_mem_nil
    | some n =>
      rw [optNumber, List.mem_singleton] at hf
      subst hf
      exact ⟨hc, trivial⟩
  have long : ∀ s, s ∈ longable t x → RowText s := by
    intro s hm
    refine ⟨hx s hm, ?_⟩
    unfold longable at hm
    obtain ⟨u, _, rfl⟩ := List.mem_map.1 hm
    exact legal_nul (cleaned_legal u)
  cases x with
  | key n =>
    intro f hf
    simp only [longable, List.map_cons, List.map_nil, List.mem_cons, List.not_mem_nil, or_false] at long
    simp only [itemFields, xlsxKeyFields, List.mem_append, List.mem_cons, List.not_mem_nil, or_false] at hf
    rcases hf with (((rfl | rfl | rfl | rfl | rfl) | hf) | hf) | (rfl | rfl | rfl)
    · exact ⟨by simp, trivial⟩
    · exact ⟨by simp, sanitize_cleaned _ ▸ long _ (.inl rfl)⟩
    · exact ⟨by simp, trivial⟩
    · exact ⟨by simp, hs.time _, legal_nul (ht.time _)⟩
    · exact ⟨by simp, status_short _, legal_nul (legal_status _)⟩
    · exact hopt 7 (by decide) _ f hf
    · exact hopt 8 (by decide) _ f hf
    · exact ⟨by simp, hs.flags _, legal_nul (ht.flags _)⟩
    · exact ⟨by simp, hs.access _, legal_nul (ht.access _)⟩
    · exact ⟨by simp, sanitize_cleaned _ ▸ long _ (.inr rfl)⟩
  | value n v =>
    intro f hf
    simp only [longable, List.map_cons, List.map_nil, List.mem_cons, List.not_mem_nil, or_false] at long
    simp only [itemFields, xlsxValueFields, List.mem_append, List.mem_cons, List.not_mem_nil, or_false] at hf
    rcases hf with (((rfl | rfl | rfl | rfl | rfl) | hf) | hf) | (rfl | rfl)
    · exact ⟨by simp, trivial⟩
    · exact ⟨by simp, sanitize_cleaned _ ▸ long _ (.inl rfl)⟩
    · exact ⟨by simp, sanitize_cleaned _ ▸ long _ (.inr (.inl rfl))⟩
    · exact ⟨by simp, sanitizeCell_cleaned t ht _ ▸ long _ (.inr (.inr (.inl rfl)))⟩
    · exact ⟨by simp, status_short _, legal_nul (legal_status _)⟩
    · exact hopt 7 (by decide) _ f hf
    · exact hopt 8 (by decide) _ f hf
    · exact ⟨by simp, cleaned_legal_eq (ht.type v) ▸ long _ (.inr (.inr (.inr (.inl rfl))))⟩
    · exact ⟨by simp, sanitize_cleaned _ ▸ long _ (.inr (.inr (.inr (.inr rfl))))⟩

/-- There is room for the items. -/
structure Room (t : XlsxTexts) (s : Sheet × Sheet) (xs : List ExportItem) : Prop where
  rows : s.1.row + xs.length < 1048576
  over : s.2.row + itemLongs t xs ≤ 1048576
  links : s.1.links.length + itemLongs t xs ≤ 65530
  fit : ∀ x ∈ xs, ItemFits t x

/-- The sheets went on by the items. -/
structure Went (t : XlsxTexts) (s s' : Sheet × Sheet) (xs : List ExportItem) : Prop where
  rows : s'.1.row = s.1.row + xs.length
  over : s'.2.row = s.2.row + itemLongs t xs
  links : s'.1.links.length = s.1.links.length + itemLongs t xs

/-- The step finishes when there is room. -/
def RunsOn {α : Type} (t : XlsxTexts) (f : α → Sheet × Sheet → Res (Sheet × Sheet)) (items : α → List ExportItem)
    (a : α) : Prop :=
  ∀ s, Room t s (items a) → ∃ s', f a s = .ok s' ∧ Went t s s' (items a)

theorem Went.none (t : XlsxTexts) (s : Sheet × Sheet) : Went t s s [] := ⟨rfl, rfl, rfl⟩

theorem Room.left {t : XlsxTexts} {s : Sheet × Sheet} {a b : List ExportItem} (h : Room t s (a ++ b)) : Room t s a where
  rows := by have := h.rows; rw [List.length_append] at this; omega
  over := by have := h.over; rw [itemLongs_append] at this; omega
  links := by have := h.links; rw [itemLongs_append] at this; omega
  fit x hx := h.fit x (List.mem_append_left _ hx)

theorem Room.right {t : XlsxTexts} {s s' : Sheet × Sheet} {a b : List ExportItem} (h : Room t s (a ++ b))
    (w : Went t s s' a) : Room t s' b where
  rows := by have := h.rows; have := w.rows; rw [List.length_append] at *; omega
  over := by have := h.over; have := w.over; rw [itemLongs_append] at *; omega
  links := by have := h.links; have := w.links; rw [itemLongs_append] at *; omega
  fit x hx := h.fit x (List.mem_append_right _ hx)

theorem Went.trans {t : XlsxTexts} {s s' s'' : Sheet × Sheet} {a b : List ExportItem} (w : Went t s s' a)
    (w' : Went t s' s'' b) : Went t s s'' (a ++ b) where
  rows := by have := w.rows; have := w'.rows; rw [List.length_append]; omega
  over := by have := w.over; have := w'.over; rw [itemLongs_append]; omega
  links := by have := w.links; have := w'.links; rw [itemLongs_append]; omega

theorem xlsxEach_runs {α : Type} {t : XlsxTexts} {f : α → Sheet × Sheet → Res (Sheet × Sheet)}
    {items : α → List ExportItem} (as : List α) (h : ∀ a ∈ as, RunsOn t f items a) :
    RunsOn t (xlsxEach f) (fun as => as.flatMap items) as := by
  induction as with
  | nil => exact fun s _ => ⟨s, rfl, .none t s⟩
  | cons a as ih =>
    intro s hr
    simp only [List.flatMap_cons] at hr ⊢
    obtain ⟨s1, h1, w1⟩ := h a List.mem_cons_self s hr.left
    obtain ⟨s2, h2, w2⟩ := ih (fun a ha => h a (List.mem_cons_of_mem _ ha)) s1 (hr.right w1)
    exact ⟨s2, by rw [xlsxEach, h1]; exact h2, w1.trans w2⟩

theorem xlsxRow_runs {t : XlsxTexts} (ht : t.Plain) (hs : t.Short) (x : ExportItem) (s : Sheet × Sheet)
    (hr : Room t s [x]) : ∃ s', xlsxRow (itemFields t x) s = .ok s' ∧ Went t s s' [x] := by
  have e : itemLongs t [x] = fieldLongs (itemFields t x (s.1.row + 1)) := by
    rw [item_longs t ht]
    simp [itemLongs]
  have h1 := hr.rows
  have h2 := hr.over
  have h3 := hr.links
  rw [e] at h2 h3
  obtain ⟨p, o, h, r, l, q⟩ := writeFields_runs (p := { s.1 with row := s.1.row + 1 }) (o := s.2)
    (itemFields_fit t ht hs x (hr.fit x List.mem_cons_self) (s.1.row + 1)) h1 h2 h3
  exact ⟨(p, o), h, r, by rw [e]; exact q, by rw [e]; exact l⟩

theorem wanted_nil (ro : Bool) : wanted ro [] = [] := by cases ro <;> rfl

theorem xlsxValue_runs {t : XlsxTexts} (ht : t.Plain) (hs : t.Short) (ro : Bool) (n : Node) (v : Value) :
    RunsOn t (xlsxValue t ro n) (fun v => wanted ro [.value n v]) v := by
  intro s hr
  unfold xlsxValue
  rw [value_recovered n v]
  by_cases hc : (!ro || (ExportItem.value n v).recovered) = true
  · rw [if_neg (by cases ro <;> simp_all)]
    simp only [wanted_cons_pos ro _ _ hc, wanted_nil] at hr ⊢
    exact xlsxRow_runs ht hs (.value n v) s hr
  · rw [if_pos (by cases ro <;> simp_all)]
    simp only [wanted_cons_neg ro _ _ hc, wanted_nil]
    exact ⟨s, rfl, .none t s⟩

mutual
theorem xlsxVersion_runs {t : XlsxTexts} (ht : t.Plain) (hs : t.Short) (ro : Bool) :
    ∀ n, RunsOn t (xlsxVersion t ro) (fun n => wanted ro (withVersions n)) n
  | .mk k vs ds => by
    intro s hr
    rw [xlsxVersion, node_recovered]
    simp only [withVersions] at hr ⊢
    by_cases hc : (!ro || (ExportItem.key (.mk k vs ds)).recovered) = true
    · rw [if_pos hc]
      rw [wanted_cons_pos ro _ _ hc] at hr ⊢
      have hr' : Room t s ([ExportItem.key (.mk k vs ds)] ++ wanted ro (withVersionsAll vs)) := hr
      obtain ⟨s1, h1, w1⟩ := xlsxRow_runs ht hs (.key (.mk k vs ds)) s hr'.left
      obtain ⟨s2, h2, w2⟩ := xlsxVersions_runs ht hs ro vs s1 (hr'.right w1)
      have h1 : xlsxRow (xlsxKeyFields t k) s = .ok s1 := h1
      rw [h1]
      exact ⟨s2, h2, w1.trans w2⟩
    · rw [if_neg hc, wanted_cons_neg ro _ _ hc]
      have hr' : (ExportItem.key (.mk k vs ds)).recovered = false := by cases ro <;> simp_all
      have hv : vs = [] := by
        unfold ExportItem.recovered at hr'
        rw [Bool.or_eq_false_iff] at hr'
        simpa [Node.versions] using hr'.2
      subst hv
      have e : wanted ro (withVersionsAll []) = [] := wanted_nil ro
      rw [e]
      exact ⟨s, rfl, .none t s⟩
theorem xlsxVersions_runs {t : XlsxTexts} (ht : t.Plain) (hs : t.Short) (ro : Bool) :
    ∀ vs, RunsOn t (xlsxVersion.versions t ro) (fun vs => wanted ro (withVersionsAll vs)) vs
  | [] => by
    intro s hr
    rw [xlsxVersion.versions]
    have e : wanted ro (withVersionsAll []) = [] := wanted_nil ro
    simp only [e]
    exact ⟨s, rfl, .none t s⟩
  | v :: vs => by
    intro s hr
    simp only [withVersionsAll, wanted_append] at hr ⊢
    obtain ⟨s1, h1, w1⟩ := xlsxVersion_runs ht hs ro v s hr.left
    obtain ⟨s2, h2, w2⟩ := xlsxVersions_runs ht hs ro vs s1 (hr.right w1)
    exact ⟨s2, by rw [xlsxVersion.versions, h1]; exact h2, w1.trans w2⟩
end

theorem xlsxKey_runs {t : XlsxTexts} (ht : t.Plain) (hs : t.Short) (ro : Bool) (n : Node) :
    RunsOn t (xlsxKey t ro) (fun n => wanted ro (allItems [n])) n := by
  intro s hr
  have hv : ∀ v ∈ n.key.values, RunsOn t (xlsxValues t ro n)
      (fun v => wanted ro ((v :: v.versions).map (.value n))) v := by
    intro v _ s hr
    have := xlsxEach_runs (v :: v.versions) (fun v _ => xlsxValue_runs ht hs ro n v) s
    simp only [← wanted_flatMap] at this
    rw [← List.map_eq_flatMap] at this
    exact this hr
  have hvs := xlsxEach_runs n.key.values hv
  unfold RunsOn at hvs
  simp only [← wanted_flatMap] at hvs
  simp only [allItems, List.flatMap_cons, List.flatMap_nil, List.append_nil, wanted_append] at hr ⊢
  obtain ⟨s1, h1, w1⟩ := xlsxVersion_runs ht hs ro n s hr.left
  obtain ⟨s2, h2, w2⟩ := hvs s1 (hr.right w1)
  exact ⟨s2, by rw [xlsxKey, h1]; exact h2, w1.trans w2⟩

theorem xlsxLogs_runs {logs : List (Str × Str)} {s : Sheet × Sheet}
    (hl : ∀ x ∈ logs, CellText x.1 ∧ RowText x.2) (hr : s.1.row + logs.length ≤ 1048576)
    (ho : s.2.row + longCount (logs.map Prod.snd) ≤ 1048576)
    (hk : s.1.links.length + longCount (logs.map Prod.snd) ≤ 65530) :
    ∃ s', xlsxLogs logs s = .ok s' := by
  induction logs generalizing s with
  | nil => exact ⟨s, rfl⟩
  | cons x logs ih =>
    obtain ⟨code, text⟩ := x
    rw [List.map_cons, longCount_cons] at ho hk
    rw [List.length_cons] at hr
    have hx := hl (code, text) List.mem_cons_self
    have e : fieldLongs [(0, XField.text code), (1, XField.checked text)] = longCount [text] := by
      simp [fieldLongs, XField.longs]
    obtain ⟨p, o, h, r, l, q⟩ := writeFields_runs (p := s.1) (o := s.2)
      (fs := [(0, XField.text code), (1, XField.checked text)]) (fun f hf => by
        simp only [List.mem_cons, List.not_mem_nil, or_false] at hf
        rcases hf with rfl | rfl
        · exact ⟨by simp, hx.1⟩
        · exact ⟨by simp, hx.2⟩) (by omega) (by rw [e]; simp only at ho ⊢; omega)
      (by rw [e]; simp only at hk ⊢; omega)
    rw [e] at l q
    rw [xlsxLogs, h]
    simp only at ho hk
    exact ih (s := ({ p with row := p.row + 1 }, o)) (fun x hx => hl x (List.mem_cons_of_mem _ hx))
      (show p.row + 1 + logs.length ≤ 1048576 by omega)
      (show o.row + longCount (logs.map Prod.snd) ≤ 1048576 by omega)
      (show p.links.length + longCount (logs.map Prod.snd) ≤ 65530 by omega)

/-- C53: the export finishes when there are fewer than 1048576 items and at most 1048576 logs, at most
65530 texts each of the items and of the logs are longer than 32767 bytes, and none is longer than the
536821761 characters a row takes.
Missing: larger exports, which fail (`xlsx_row_limit_violated`). -/
theorem xlsx_finishes_partial (t : XlsxTexts) (ht : t.Plain) (hs : t.Short) (recoveredOnly : Bool)
    (logs : List (Str × Str)) (ns : List Node)
    (hitems : (exported recoveredOnly ns).length < 1048576)
    (hlogs : logs.length ≤ 1048576)
    (hlong : ((exported recoveredOnly ns).map fun x => longCount (longable t x)).sum ≤ 65530)
    (hlonglogs : longCount (logs.map Prod.snd) ≤ 65530)
    (hfit : ∀ x ∈ exported recoveredOnly ns, ∀ s ∈ longable t x, s.length ≤ 536821761)
    (hlog : ∀ x ∈ logs, (x.1.length ≤ 32767 ∧ '\x00' ∉ x.1) ∧ (x.2.length ≤ 536821761 ∧ '\x00' ∉ x.2)) :
    ∃ sheets, writeXlsx t recoveredOnly logs ns = .ok sheets := by
  obtain ⟨p, o, h1, r1, l1, q1⟩ := writeFields_runs (fs := xlsxHeader) (p := {}) (o := {})
    (by
      intro f hf
      have : ∀ f ∈ xlsxHeader, f.1 < 16384 ∧ ∃ s, f.2 = .text s ∧ s.length ≤ 32767 ∧ '\x00' ∉ s := by
        intro f hf
        simp only [xlsxHeader, List.mem_cons, List.not_mem_nil, or_false] at hf
        rcases hf with rfl | rfl | rfl | rfl | rfl | rfl | rfl | rfl | rfl | rfl | rfl | rfl | rfl <;>
          exact ⟨by decide, _, rfl, by decide, by decide⟩
      obtain ⟨h, s, e, h'⟩ := this f hf
      exact ⟨h, by rw [e]; exact h'⟩) (by decide) (by decide) (by decide)
  have e0 : fieldLongs xlsxHeader = 0 := by decide
  have hq : o.row = 0 := by rw [q1, e0]
  have hp : p.links.length = 0 := by rw [l1, e0]; rfl
  have hr1 : p.row = 0 := r1
  have hruns := xlsxEach_runs ns (fun n _ => xlsxKey_runs ht hs recoveredOnly n) (p, o)
  simp only [exported_eq] at hruns
  obtain ⟨s2, h2, w2⟩ := hruns ⟨by simp only [hr1]; omega, by
      simp only [hq]
      unfold itemLongs
      omega, by
      simp only [hp]
      unfold itemLongs
      omega, hfit⟩
  have hov := w2.over
  unfold itemLongs at hov
  simp only [hq] at hov
  obtain ⟨s3, h3⟩ := xlsxLogs_runs (logs := logs) (s := ({}, s2.2)) hlog (by simpa using hlogs)
    (by simp only; omega) (by simpa using hlonglogs)
  refine ⟨(s2.1, s3.1, s3.2), ?_⟩
  unfold writeXlsx
  rw [h1]
  simp only [Res.bind_ok]
  rw [h2]
  simp only [Res.bind_ok]
  rw [h3]
  rfl

/-- Parameters that show nothing. -/
def noTexts : XlsxTexts :=
  ⟨fun _ => [], fun _ => [], fun _ => [], fun _ => .None, fun _ => [], fun _ => [], fun _ => []⟩

theorem noTexts_plain : noTexts.Plain :=
  ⟨fun _ => legal_nil, fun _ => legal_nil, fun _ => legal_nil, fun _ => legal_nil, fun _ => legal_nil⟩

theorem noTexts_short : noTexts.Short :=
  ⟨fun _ => Nat.zero_le _, fun _ => Nat.zero_le _, fun _ => Nat.zero_le _⟩

/-- A key whose path is longer than a cell takes. -/
def longNode : Node := .mk { defaultKey with path := List.replicate 40000 'x' } [] []

example : ∃ sheets, writeXlsx noTexts false [] [longNode, tabNode] = .ok sheets := by
  have e : exported false [longNode, tabNode] = [.key longNode, .key tabNode] := rfl
  have hp : longNode.key.path = List.replicate 40000 'x' := rfl
  refine xlsx_finishes_partial noTexts noTexts_plain noTexts_short false [] [longNode, tabNode]
    (by decide) (by decide) ?_ (by decide) ?_ (fun x hx => absurd hx List.not_mem_nil)
  · rw [e]
    have h1 : longCount (longable noTexts (.key longNode)) ≤ 2 := List.countP_le_length
    have h2 : longCount (longable noTexts (.key tabNode)) ≤ 2 := List.countP_le_length
    simp only [List.map_cons, List.map_nil, List.sum_cons, List.sum_nil]
    omega
  · rw [e]
    intro x hx s hs
    simp only [List.mem_cons, List.not_mem_nil, or_false] at hx
    rcases hx with rfl | rfl <;>
      simp only [longable, List.map_cons, List.map_nil, List.mem_cons, List.not_mem_nil, or_false] at hs <;>
      rcases hs with rfl | rfl
    · rw [cleaned, List.length_map, hp, List.length_replicate]
      decide
    · exact Nat.zero_le _
    · decide
    · exact Nat.zero_le _

/-- The path is longer than a cell takes. -/
example : longCount [cleaned longNode.key.path] = 1 := by
  apply longCount_pos
  have hp : longNode.key.path = List.replicate 40000 'x' := rfl
  refine Nat.lt_of_lt_of_le ?_ (length_le_utf8 _)
  rw [cleaned, List.length_map, hp, List.length_replicate]
  decide

/-- A key whose name has a control character. -/
def controlNode : Node := .mk { defaultKey with path := "\\a\x01b".toList, seq := some 7 } [] []

example : (match writeXlsx noTexts false [("c".toList, "text".toList)] [tabNode, controlNode] with
    | .ok (items, l, _) => (cellsAt items 2 1, cellsAt items 2 7, cellsAt items 3 0, cellsAt l 0 1)
    | _ => ([], [], [], []))
    = ([.text ['\\', 'a', Char.ofNat 0xFFFD, 'b']], [.number 7], [], [.text "text".toList]) := by decide +kernel

/-- C53 does not hold as stated: an export of 1048576 items is an error. -/
theorem xlsx_row_limit_violated (t : XlsxTexts) (logs : List (Str × Str)) :
    (exported false (List.replicate 1048576 tabNode)).length = 1048576 ∧
    ∀ sheets, writeXlsx t false logs (List.replicate 1048576 tabNode) ≠ .ok sheets := by
  have e : (exported false (List.replicate 1048576 tabNode)).length = 1048576 := by
    have : ∀ n, (allItems (List.replicate n tabNode)).length = n := by
      intro n
      induction n with
      | zero => rfl
      | succ n ih =>
        have : allItems (List.replicate (n + 1) tabNode) = allItems [tabNode] ++ allItems (List.replicate n tabNode) := by
          simp only [allItems, List.replicate_succ, List.flatMap_cons, List.flatMap_nil, List.append_nil]
        rw [this, List.length_append, ih]
        have : (allItems [tabNode]).length = 1 := rfl
        omega
    exact this 1048576
  refine ⟨e, fun sheets h => ?_⟩
  obtain ⟨items, l, o⟩ := sheets
  have := xlsx_row_limit t false logs _ h
  omega

end Notatin
