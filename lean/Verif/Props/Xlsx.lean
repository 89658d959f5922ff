import Verif.Spec.Xlsx
import Verif.Props.TsvText
/-
C53, C54: the export as a spreadsheet.
-/
namespace Notatin
open Spec

/-! ### One cell -/

theorem put_ok {s s' : Sheet} {col : Nat} {c : XCell} (h : s.put col c = .ok s') :
    s' = { s with cells := s.cells ++ [(s.row, col, c)] } ∧ s.row < 1048576 ∧ c.accepted = true := by
  unfold Sheet.put at h
  by_cases hc : s.row < 1048576 ∧ col < 16384 ∧ c.accepted = true
  · rw [if_pos hc] at h
    cases h
    exact ⟨rfl, hc.1, hc.2.2⟩
  · rw [if_neg hc] at h
    cases h

theorem link_ok {s s' : Sheet} {col : Nat} {t : Str} (h : s.link col t = .ok s') :
    s' = { s with links := s.links ++ [(s.row, col, t)] } := by
  unfold Sheet.link at h
  by_cases hc : s.row < 1048576 ∧ col < 16384 ∧ s.links.length < 65530
  · rw [if_pos hc] at h
    cases h
    rfl
  · rw [if_neg hc] at h
    cases h

theorem cellsAt_append (s : Sheet) (cs : List (Nat × Nat × XCell)) (row col : Nat) :
    cellsAt { s with cells := s.cells ++ cs } row col
      = cellsAt s row col ++ cs.filterMap fun x => if x.1 = row ∧ x.2.1 = col then some x.2.2 else none :=
  List.filterMap_append

theorem rowCells_append (s : Sheet) (cs : List (Nat × Nat × XCell)) (row : Nat) :
    rowCells { s with cells := s.cells ++ cs } row
      = rowCells s row ++ cs.filterMap fun x => if x.1 = row then some x.2 else none :=
  List.filterMap_append

theorem linksAt_append (s : Sheet) (ls : List (Nat × Nat × Str)) (row col : Nat) :
    linksAt { s with links := s.links ++ ls } row col
      = linksAt s row col ++ ls.filterMap fun x => if x.1 = row ∧ x.2.1 = col then some x.2.2 else none :=
  List.filterMap_append

theorem one_at {α : Type} (row col r c : Nat) (x : α) :
    [(row, col, x)].filterMap (fun y => if y.1 = r ∧ y.2.1 = c then some y.2.2 else none)
      = if row = r ∧ col = c then [x] else [] := by
  by_cases h : row = r ∧ col = c
  · rw [if_pos h]
    simp [h]
  · rw [if_neg h]
    simpa using h

theorem one_row {α : Type} (row r : Nat) (x : α) :
    [(row, x)].filterMap (fun y => if y.1 = r then some y.2 else none) = if row = r then [x] else [] := by
  by_cases h : row = r
  · rw [if_pos h]
    simp [h]
  · rw [if_neg h]
    simpa using h

/-- What one or more writes to the current row keep. -/
structure Step (p o p' o' : Sheet) (touched : Nat → Prop) : Prop where
  row : p'.row = p.row
  orow : o.row ≤ o'.row
  keep : ∀ r c, (r ≠ p.row ∨ ¬ touched c) → cellsAt p' r c = cellsAt p r c ∧ linksAt p' r c = linksAt p r c
  okeep : ∀ n < o.row, rowCells o' n = rowCells o n
  ofree : (∀ n, o.row ≤ n → rowCells o n = []) → ∀ n, o'.row ≤ n → rowCells o' n = []

theorem Step.refl (p o : Sheet) (touched : Nat → Prop) : Step p o p o touched :=
  ⟨rfl, Nat.le_refl _, fun _ _ _ => ⟨rfl, rfl⟩, fun _ _ => rfl, fun h => h⟩

theorem Step.trans {p o p' o' p'' o'' : Sheet} {t1 t2 t : Nat → Prop} (h1 : Step p o p' o' t1)
    (h2 : Step p' o' p'' o'' t2) (ht1 : ∀ c, t1 c → t c) (ht2 : ∀ c, t2 c → t c) : Step p o p'' o'' t where
  row := h2.row.trans h1.row
  orow := Nat.le_trans h1.orow h2.orow
  keep r c h := by
    have a := h2.keep r c (by rw [h1.row]; exact h.imp_right fun h h' => h (ht2 c h'))
    have b := h1.keep r c (h.imp_right fun h h' => h (ht1 c h'))
    exact ⟨a.1.trans b.1, a.2.trans b.2⟩
  okeep n hn := (h2.okeep n (Nat.lt_of_lt_of_le hn h1.orow)).trans (h1.okeep n hn)
  ofree h := h2.ofree (h1.ofree h)

theorem Spec.Shows.step {p o p' o' : Sheet} {t : Nat → Prop} (h : Step p o p' o' t) {r c : Nat} {s : Str}
    (hrc : r ≠ p.row ∨ ¬ t c) (hs : Shows p o r c s) : Shows p' o' r c s := by
  have ⟨a, b⟩ := h.keep r c hrc
  cases hs with
  | empty h1 h2 h3 => exact .empty (a.trans h1) (b.trans h2) h3
  | cell x h1 h2 h3 => exact .cell x (a.trans h1) (b.trans h2) h3
  | long n cs h1 h2 h3 h4 h5 =>
    exact .long n cs (a.trans h1) (b.trans h2) (Nat.lt_of_lt_of_le h3 h.orow) ((h.okeep n h3).trans h4) h5

/-- The text of a write. -/
def XField.shown : XField → Str
  | .number n => decimal n
  | .text s => s
  | .checked s => s

theorem put_step {p p' o : Sheet} {col : Nat} {x : XCell} (h : p.put col x = .ok p') :
    Step p o p' o (· = col) ∧ cellsAt p' p.row col = cellsAt p p.row col ++ [x] ∧
      (∀ r c, linksAt p' r c = linksAt p r c) := by
  obtain ⟨rfl, -, -⟩ := put_ok h
  refine ⟨⟨rfl, Nat.le_refl _, fun r c hrc => ⟨?_, rfl⟩, fun _ _ => rfl, fun h => h⟩, ?_, fun _ _ => rfl⟩
  · rw [cellsAt_append, List.filterMap_cons_none, List.filterMap_nil, List.append_nil]
    apply if_neg
    rintro ⟨h1, h2⟩
    rcases hrc with h | h
    · exact h h1.symm
    · exact h h2.symm
  · rw [cellsAt_append, List.filterMap_cons_some (b := x), List.filterMap_nil]
    exact if_pos ⟨rfl, rfl⟩

theorem chunks_flatten (s : Str) : (overflowChunks s).flatten = s := by
  fun_induction overflowChunks s with
  | case1 => rfl
  | case2 c s ih =>
    rw [List.flatten_cons, ih]
    exact List.take_append_drop ..

theorem putChunks_ok {o o' : Sheet} {col : Nat} {cs : List Str} (h : putChunks o col cs = .ok o') :
    ∃ xs, o' = { o with cells := o.cells ++ xs } ∧ xs = (pieces col cs).map fun x => (o.row, x.1, x.2) := by
  induction cs generalizing o col with
  | nil =>
    rw [putChunks] at h
    cases h
    exact ⟨[], by simp, rfl⟩
  | cons c cs ih =>
    rw [putChunks] at h
    by_cases hc : col < 65536
    · rw [if_pos hc] at h
      cases hp : o.put col (.text c) with
      | ok o1 =>
        rw [hp] at h
        simp only at h
        obtain ⟨xs, h1, h2⟩ := ih h
        obtain ⟨rfl, -, -⟩ := put_ok hp
        refine ⟨_, ?_, rfl⟩
        rw [h1, h2]
        simp only [pieces, List.map_cons, List.append_assoc, List.cons_append, List.nil_append]
      | err => rw [hp] at h; cases h
      | panic => rw [hp] at h; cases h
    · rw [if_neg hc] at h
      cases h

theorem take_bytes (s : Str) (n : Nat) (h : n ≤ utf8Len s) : safeTruncate s n = s.take n := by
  unfold safeTruncate
  rw [Nat.min_eq_left h]

/-- The sheets after a long text. -/
theorem overflow_long {p o p' o' : Sheet} {col : Nat} {s : Str} (hl : utf8Len s > 32767)
    (h : writeOverflow p o col s = .ok (p', o')) :
    p' = ⟨p.row, p.cells ++ [(p.row, col, .text (safeTruncate s 250 ++ truncatedLabel (o.row + 1)))],
      p.links ++ [(p.row, col, "internal:Overflow!A".toList ++ decimal (o.row + 1))]⟩ ∧
    o' = ⟨o.row + 1, o.cells ++ ((o.row, 0, .text (truncatedLabel (o.row + 1))) ::
      (pieces 1 (overflowChunks s)).map fun x => (o.row, x.1, x.2)), o.links⟩ := by
  unfold writeOverflow at h
  rw [if_pos hl] at h
  simp only at h
  cases h1 : o.put 0 (.text (truncatedLabel (o.row + 1))) with
  | err => rw [h1] at h; cases h
  | panic => rw [h1] at h; cases h
  | ok o1 =>
  rw [h1] at h
  simp only [Res.bind_ok] at h
  cases h2 : putChunks o1 1 (overflowChunks s) with
  | err => rw [h2] at h; cases h
  | panic => rw [h2] at h; cases h
  | ok o2 =>
  rw [h2] at h
  simp only [Res.bind_ok] at h
  cases h3 : p.link col ("internal:Overflow!A".toList ++ decimal (o2.row + 1)) with
  | err => rw [h3] at h; cases h
  | panic => rw [h3] at h; cases h
  | ok p1 =>
  rw [h3] at h
  simp only [Res.bind_ok] at h
  cases h4 : p1.put col (.text (safeTruncate s 250 ++ truncatedLabel (o.row + 1))) with
  | err => rw [h4] at h; cases h
  | panic => rw [h4] at h; cases h
  | ok p2 =>
  rw [h4] at h
  simp only [Res.bind_ok, Res.ok.injEq, Prod.mk.injEq] at h
  have e1 := (put_ok h1).1
  obtain ⟨xs, e2, hxs⟩ := putChunks_ok h2
  have e3 := link_ok h3
  have e4 := (put_ok h4).1
  have r1 : o1.row = o.row := by rw [e1]
  have r2 : o2.row = o.row := by rw [e2]; exact r1
  rw [r1] at hxs
  rw [r2] at h e3
  constructor
  · rw [← h.1, e4, e3]
  · rw [← h.2, e2, e1, hxs]
    simp only [List.append_assoc, List.cons_append, List.nil_append]

theorem overflow_row (o : Sheet) (label : XCell) (ps : List (Nat × XCell)) (n : Nat) :
    rowCells ⟨o.row + 1, o.cells ++ ((o.row, 0, label) :: ps.map fun x => (o.row, x.1, x.2)), o.links⟩ n
      = rowCells o n ++ (if o.row = n then (0, label) :: ps else []) := by
  have hx : (ps.map fun x => (o.row, x.1, x.2)).filterMap (fun x => if x.1 = n then some x.2 else none)
      = if o.row = n then ps else [] := by
    rw [List.filterMap_map]
    by_cases hn : o.row = n
    · rw [if_pos hn]
      simp only [Function.comp_def, hn, if_true]
      exact List.filterMap_some
    · rw [if_neg hn]
      simp only [Function.comp_def, hn, if_false]
      simp
  unfold rowCells
  rw [← List.singleton_append, List.filterMap_append, List.filterMap_append, hx, one_row]
  by_cases hn : o.row = n
  · rw [if_pos hn, if_pos hn, if_pos hn]
    rfl
  · rw [if_neg hn, if_neg hn, if_neg hn]
    rfl

theorem long_step (p o : Sheet) (col : Nat) (x label : XCell) (target : Str) (ps : List (Nat × XCell)) :
    Step p o ⟨p.row, p.cells ++ [(p.row, col, x)], p.links ++ [(p.row, col, target)]⟩
      ⟨o.row + 1, o.cells ++ ((o.row, 0, label) :: ps.map fun x => (o.row, x.1, x.2)), o.links⟩ (· = col) := by
  refine ⟨rfl, Nat.le_succ _, ?_, ?_, ?_⟩
  · intro r c hrc
    have hne : ¬ (p.row = r ∧ col = c) := by
      rintro ⟨h1, h2⟩
      rcases hrc with h | h
      · exact h h1.symm
      · exact h h2.symm
    constructor
    · unfold cellsAt
      rw [List.filterMap_append, one_at, if_neg hne, List.append_nil]
    · unfold linksAt
      rw [List.filterMap_append, one_at, if_neg hne, List.append_nil]
  · intro n hn
    rw [overflow_row, if_neg (by omega), List.append_nil]
  · intro hf n hn
    have hn : o.row + 1 ≤ n := hn
    rw [overflow_row, if_neg (by omega), List.append_nil]
    exact hf n (by omega)

theorem label_eq (row : Nat) :
    truncatedLabel row = " [truncated; row: ".toList ++ Nat.toDigits 10 row ++ "]".toList := by
  unfold truncatedLabel decimal
  rfl

theorem append_label (s : Str) (row : Nat) :
    s ++ truncatedLabel row = s ++ " [truncated; row: ".toList ++ Nat.toDigits 10 row ++ "]".toList := by
  rw [label_eq, List.append_assoc, List.append_assoc, List.append_assoc]

/-- Writing a text that may be long. -/
theorem overflow_step {p o p' o' : Sheet} {col : Nat} {s : Str} (h : writeOverflow p o col s = .ok (p', o')) :
    Step p o p' o' (· = col) ∧
    (cellsAt p p.row col = [] → linksAt p p.row col = [] → (∀ n, o.row ≤ n → rowCells o n = []) →
      Shows p' o' p.row col s) := by
  by_cases hl : utf8Len s > 32767
  · have hl2 : 250 ≤ utf8Len s := by omega
    obtain ⟨rfl, rfl⟩ := overflow_long hl h
    refine ⟨long_step .., fun hc hlk hf => ?_⟩
    have e : safeTruncate s 250 ++ truncatedLabel (o.row + 1) = s.take 250 ++ " [truncated; row: ".toList ++
        Nat.toDigits 10 (o.row + 1) ++ "]".toList := by
      rw [take_bytes s 250 hl2, append_label]
    refine .long o.row (overflowChunks s) ?_ ?_ (Nat.lt_succ_self _) ?_ (chunks_flatten s).symm
    · rw [← e]
      unfold cellsAt at hc ⊢
      rw [List.filterMap_append, one_at, if_pos (c := p.row = p.row ∧ col = col) ⟨rfl, rfl⟩, hc]
      rfl
    · unfold linksAt at hlk ⊢
      rw [List.filterMap_append, one_at, if_pos (c := p.row = p.row ∧ col = col) ⟨rfl, rfl⟩, hlk, List.nil_append, decimal]
    · rw [overflow_row, if_pos rfl, hf o.row (Nat.le_refl _), List.nil_append, label_eq]
  · unfold writeOverflow at h
    rw [if_neg hl] at h
    cases h1 : p.put col (.text s) with
    | err => rw [h1] at h; cases h
    | panic => rw [h1] at h; cases h
    | ok p1 =>
    rw [h1] at h
    simp only [Res.bind_ok, Res.ok.injEq, Prod.mk.injEq] at h
    obtain ⟨rfl, rfl⟩ := h
    obtain ⟨a, b, c⟩ := put_step (o := o) h1
    refine ⟨a, fun h1 h2 _ => .cell _ (by rw [b, h1]; rfl) (by rw [c, h2]) rfl⟩

/-- One write. -/
theorem writeField_step {p o p' o' : Sheet} {col : Nat} {f : XField} (h : writeField p o col f = .ok (p', o')) :
    Step p o p' o' (· = col) ∧
    (cellsAt p p.row col = [] → linksAt p p.row col = [] → (∀ n, o.row ≤ n → rowCells o n = []) →
      Shows p' o' p.row col f.shown) := by
  have simple : ∀ x : XCell, (do let p ← p.put col x; .ok (p, o) : Res (Sheet × Sheet)) = .ok (p', o') →
      Step p o p' o' (· = col) ∧
      (cellsAt p p.row col = [] → linksAt p p.row col = [] → (∀ n, o.row ≤ n → rowCells o n = []) →
        Shows p' o' p.row col x.shown) := by
    intro x h
    cases h1 : p.put col x with
    | err => rw [h1] at h; cases h
    | panic => rw [h1] at h; cases h
    | ok p1 =>
    rw [h1] at h
    simp only [Res.bind_ok, Res.ok.injEq, Prod.mk.injEq] at h
    obtain ⟨rfl, rfl⟩ := h
    obtain ⟨a, b, c⟩ := put_step (o := o) h1
    refine ⟨a, fun h1 h2 _ => .cell x (by rw [b, h1]; rfl) (by rw [c, h2]) rfl⟩
  cases f with
  | number n => exact simple (.number n) h
  | text s => exact simple (.text s) h
  | checked s =>
    rw [writeField, checkWrite] at h
    by_cases hs : s = []
    · rw [if_pos hs] at h
      cases h
      exact ⟨.refl _ _ _, fun h1 h2 _ => .empty h1 h2 hs⟩
    · rw [if_neg hs] at h
      exact overflow_step h

/-! ### One row -/

/-- What a list of writes shows in a column. -/
def shownAt (fs : List (Nat × XField)) (c : Nat) : Str :=
  match fs.lookup c with
  | some f => f.shown
  | none => []

theorem writeFields_step {p o p' o' : Sheet} {fs : List (Nat × XField)} (h : writeFields p o fs = .ok (p', o'))
    (hd : (fs.map Prod.fst).Nodup) :
    Step p o p' o' (· ∈ fs.map Prod.fst) ∧
    ((∀ c, cellsAt p p.row c = []) → (∀ c, linksAt p p.row c = []) → (∀ n, o.row ≤ n → rowCells o n = []) →
      ∀ c, Shows p' o' p.row c (shownAt fs c)) := by
  have go : ∀ (fs : List (Nat × XField)) (p o : Sheet), writeFields p o fs = .ok (p', o') →
      (fs.map Prod.fst).Nodup →
      Step p o p' o' (· ∈ fs.map Prod.fst) ∧
      ((∀ c ∈ fs.map Prod.fst, cellsAt p p.row c = [] ∧ linksAt p p.row c = []) →
        (∀ n, o.row ≤ n → rowCells o n = []) →
        ∀ c ∈ fs.map Prod.fst, Shows p' o' p.row c (shownAt fs c)) := by
    intro fs
    induction fs with
    | nil =>
      intro p o h _
      cases h
      exact ⟨.refl _ _ _, fun _ _ c hc => absurd hc List.not_mem_nil⟩
    | cons x fs ih =>
      obtain ⟨col, f⟩ := x
      intro p o h hd
      rw [writeFields] at h
      cases h1 : writeField p o col f with
      | err => rw [h1] at h; cases h
      | panic => rw [h1] at h; cases h
      | ok s =>
      obtain ⟨p1, o1⟩ := s
      rw [h1] at h
      simp only [Res.bind_ok] at h
      rw [List.map_cons, List.nodup_cons] at hd
      obtain ⟨a, b⟩ := writeField_step h1
      obtain ⟨a', b'⟩ := ih p1 o1 h hd.2
      refine ⟨a.trans a' (fun c hc => by rw [hc]; exact List.mem_cons_self)
        fun c hc => List.mem_cons_of_mem _ hc, ?_⟩
      intro hf ho c hc
      rw [List.map_cons] at hf
      rcases List.mem_cons.1 hc with hc | hc
      · simp only at hc
        subst hc
        have := b (hf _ List.mem_cons_self).1 (hf _ List.mem_cons_self).2 ho
        have e : shownAt ((c, f) :: fs) c = f.shown := by simp [shownAt, List.lookup]
        rw [e]
        exact this.step a' (.inr hd.1)
      · have hne : c ≠ col := fun h => hd.1 (h ▸ hc)
        have e : shownAt ((col, f) :: fs) c = shownAt fs c := by
          
          rw [shownAt, shownAt, List.lookup_cons, show (c == col) = false from beq_eq_false_iff_ne.2 hne]
        rw [e, ← a.row]
        refine b' ?_ (a.ofree ho) c hc
        intro c' hc'
        have hne : c' ≠ col := fun h => hd.1 (h ▸ hc')
        have k := a.keep p.row c' (.inr hne)
        rw [a.row, k.1, k.2]
        exact hf c' (List.mem_cons_of_mem _ hc')
  obtain ⟨a, b⟩ := go fs p o h hd
  refine ⟨a, fun h1 h2 h3 c => ?_⟩
  by_cases hc : c ∈ fs.map Prod.fst
  · exact b (fun c _ => ⟨h1 c, h2 c⟩) h3 c hc
  · have e : shownAt fs c = [] := by
      have : fs.lookup c = none := by
        rw [List.lookup_eq_none_iff]
        intro x hx
        simp only [ne_eq, bne_iff_ne]
        exact fun h => hc (h ▸ List.mem_map_of_mem hx)
      rw [shownAt, this]
    have k := a.keep p.row c (.inr hc)
    exact .empty (k.1.trans (h1 c)) (k.2.trans (h2 c)) e

/-! ### The sheet -/

/-- The sheet shows these rows and nothing after them. -/
structure Filled (s : Sheet × Sheet) (rows : List (Nat → Str)) : Prop where
  shows : ∀ i f, rows[i]? = some f → ∀ c, Shows s.1 s.2 i c (f c)
  free : ∀ r, rows.length ≤ r → ∀ c, cellsAt s.1 r c = [] ∧ linksAt s.1 r c = []
  ofree : ∀ n, s.2.row ≤ n → rowCells s.2 n = []

theorem fields_filled {s s' : Sheet × Sheet} {rows : List (Nat → Str)} {fs : List (Nat × XField)}
    (hd : (fs.map Prod.fst).Nodup) (hf : Filled s rows) (hr : s.1.row = rows.length)
    (h : writeFields s.1 s.2 fs = .ok s') :
    Filled s' (rows ++ [shownAt fs]) ∧ s'.1.row = rows.length := by
  obtain ⟨a, b⟩ := writeFields_step (p' := s'.1) (o' := s'.2) h hd
  refine ⟨⟨?_, ?_, a.ofree hf.ofree⟩, a.row.trans hr⟩
  · intro i f hi c
    by_cases hlt : i < rows.length
    · rw [List.getElem?_append_left hlt] at hi
      exact (hf.shows i f hi c).step a (.inl (by omega))
    · rw [List.getElem?_append_right (by omega)] at hi
      have : i - rows.length = 0 := by
        cases hk : i - rows.length with
        | zero => rfl
        | succ k => rw [hk] at hi; simp at hi
      rw [this] at hi
      cases hi
      have e : i = s.1.row := by omega
      rw [e]
      exact b (fun c => (hf.free _ (by omega) c).1) (fun c => (hf.free _ (by omega) c).2) hf.ofree c
  · intro r hr' c
    rw [List.length_append, List.length_singleton] at hr'
    have k := a.keep r c (.inl (by omega))
    rw [k.1, k.2]
    exact hf.free r (by omega) c

/-- The fields of an item. -/
def itemFields (t : XlsxTexts) (x : ExportItem) (row : Nat) : List (Nat × XField) :=
  match x with
  | .key n => xlsxKeyFields t n.key row
  | .value n v => xlsxValueFields t n v row

theorem keyFields_nodup (t : XlsxTexts) (k : KeyNode) (row : Nat) :
    ((xlsxKeyFields t k row).map Prod.fst).Nodup := by
  unfold xlsxKeyFields
  cases k.seq <;> cases k.updatedBySeq <;> simp [optNumber]

theorem valueFields_nodup (t : XlsxTexts) (n : Node) (v : Value) (row : Nat) :
    ((xlsxValueFields t n v row).map Prod.fst).Nodup := by
  unfold xlsxValueFields
  cases v.val.seq <;> cases v.val.updatedBySeq <;> simp [optNumber]

theorem itemFields_nodup (t : XlsxTexts) (x : ExportItem) (row : Nat) :
    ((itemFields t x row).map Prod.fst).Nodup := by
  cases x
  · exact keyFields_nodup ..
  · exact valueFields_nodup ..

/-- The rows of items numbered from `i` on. -/
def rowsFrom (t : XlsxTexts) : Nat → List ExportItem → List (Nat → Str)
  | _, [] => []
  | i, x :: xs => shownAt (itemFields t x i) :: rowsFrom t (i + 1) xs

theorem rowsFrom_append (t : XlsxTexts) (i : Nat) (a b : List ExportItem) :
    rowsFrom t i (a ++ b) = rowsFrom t i a ++ rowsFrom t (i + a.length) b := by
  induction a generalizing i with
  | nil => rfl
  | cons x a ih =>
    rw [List.cons_append, rowsFrom, ih, rowsFrom, List.cons_append, List.length_cons, Nat.add_assoc,
      Nat.add_comm 1]

theorem rowsFrom_length (t : XlsxTexts) (i : Nat) (a : List ExportItem) : (rowsFrom t i a).length = a.length := by
  induction a generalizing i with
  | nil => rfl
  | cons x a ih => rw [rowsFrom, List.length_cons, ih, List.length_cons]

/-- The step adds the rows of these items. -/
def Adds {α : Type} (t : XlsxTexts) (f : α → Sheet × Sheet → Res (Sheet × Sheet)) (items : α → List ExportItem)
    (a : α) : Prop :=
  ∀ s s' rows, Filled s rows → s.1.row + 1 = rows.length → f a s = .ok s' →
    Filled s' (rows ++ rowsFrom t rows.length (items a)) ∧ s'.1.row + 1 = rows.length + (items a).length

theorem xlsxEach_adds {α : Type} {t : XlsxTexts} {f : α → Sheet × Sheet → Res (Sheet × Sheet)}
    {items : α → List ExportItem} (as : List α) (h : ∀ a ∈ as, Adds t f items a) :
    Adds t (xlsxEach f) (fun as => as.flatMap items) as := by
  induction as with
  | nil =>
    intro s s' rows hf hr h
    cases h
    simp only [List.flatMap_nil, rowsFrom, List.append_nil, List.length_nil, Nat.add_zero]
    exact ⟨hf, hr⟩
  | cons a as ih =>
    intro s s' rows hf hr hs
    rw [xlsxEach] at hs
    cases h1 : f a s with
    | err => rw [h1] at hs; cases hs
    | panic => rw [h1] at hs; cases hs
    | ok s1 =>
    rw [h1] at hs
    simp only at hs
    obtain ⟨f1, r1⟩ := h a List.mem_cons_self s s1 rows hf hr h1
    have l1 : (rows ++ rowsFrom t rows.length (items a)).length = rows.length + (items a).length := by
      rw [List.length_append, rowsFrom_length]
    obtain ⟨f2, r2⟩ := ih (fun a ha => h a (List.mem_cons_of_mem _ ha)) s1 s' _ f1 (r1.trans l1.symm) hs
    rw [l1] at f2 r2
    simp only at f2 r2 ⊢
    rw [List.flatMap_cons, rowsFrom_append, ← List.append_assoc, List.length_append, ← Nat.add_assoc]
    exact ⟨f2, r2⟩

theorem xlsxRow_adds {t : XlsxTexts} (x : ExportItem) {s s' : Sheet × Sheet} {rows : List (Nat → Str)}
    (hf : Filled s rows) (hr : s.1.row + 1 = rows.length) (h : xlsxRow (itemFields t x) s = .ok s') :
    Filled s' (rows ++ rowsFrom t rows.length [x]) ∧ s'.1.row + 1 = rows.length + 1 := by
  unfold xlsxRow at h
  simp only at h
  have := fields_filled (s := ({ s.1 with row := s.1.row + 1 }, s.2)) (itemFields_nodup t x (s.1.row + 1))
    ⟨fun i f hi c => by
      cases hf.shows i f hi c with
      | empty h1 h2 h3 => exact .empty h1 h2 h3
      | cell x h1 h2 h3 => exact .cell x h1 h2 h3
      | long n cs h1 h2 h3 h4 h5 => exact .long n cs h1 h2 h3 h4 h5, hf.free, hf.ofree⟩ hr h
  rw [rowsFrom, rowsFrom, ← hr]
  rw [← hr] at this
  exact ⟨this.1, by rw [this.2]⟩

theorem wanted_cons_pos (ro : Bool) (x : ExportItem) (xs : List ExportItem) (h : (!ro || x.recovered) = true) :
    wanted ro (x :: xs) = x :: wanted ro xs := by
  unfold wanted
  cases ro
  · rfl
  · rw [Bool.not_true, Bool.false_or] at h
    simp only [if_true, List.filter_cons, h]

theorem wanted_cons_neg (ro : Bool) (x : ExportItem) (xs : List ExportItem) (h : ¬ (!ro || x.recovered) = true) :
    wanted ro (x :: xs) = wanted ro xs := by
  have : ro = true ∧ x.recovered = false := by cases ro <;> simp_all
  unfold wanted
  rw [this.1]
  simp only [if_true, List.filter_cons, this.2, Bool.false_eq_true, if_false]

theorem xlsxValue_adds (t : XlsxTexts) (ro : Bool) (n : Node) (v : Value) :
    Adds t (xlsxValue t ro n) (fun v => wanted ro [.value n v]) v := by
  intro s s' rows hf hr h
  unfold xlsxValue at h
  rw [value_recovered n v] at h
  by_cases hc : (!ro || (ExportItem.value n v).recovered) = true
  · rw [if_neg (by cases ro <;> simp_all)] at h
    simp only [wanted_cons_pos ro _ _ hc]
    have e : wanted ro [] = [] := by cases ro <;> rfl
    rw [e]
    exact xlsxRow_adds (.value n v) hf hr h
  · rw [if_pos (by cases ro <;> simp_all)] at h
    cases h
    simp only [wanted_cons_neg ro _ _ hc]
    have e : wanted ro [] = [] := by cases ro <;> rfl
    rw [e]
    simp only [rowsFrom, List.append_nil, List.length_nil, Nat.add_zero]
    exact ⟨hf, hr⟩

theorem adds_then {t : XlsxTexts} {rows : List (Nat → Str)} {a b : List ExportItem} {s1 s2 : Sheet × Sheet}
    (h1 : Filled s1 (rows ++ rowsFrom t rows.length a) ∧ s1.1.row + 1 = rows.length + a.length)
    (h2 : ∀ rows', Filled s1 rows' → s1.1.row + 1 = rows'.length →
      Filled s2 (rows' ++ rowsFrom t rows'.length b) ∧ s2.1.row + 1 = rows'.length + b.length) :
    Filled s2 (rows ++ rowsFrom t rows.length (a ++ b)) ∧ s2.1.row + 1 = rows.length + (a ++ b).length := by
  have l1 : (rows ++ rowsFrom t rows.length a).length = rows.length + a.length := by
    rw [List.length_append, rowsFrom_length]
  have := h2 _ h1.1 (h1.2.trans l1.symm)
  rw [l1] at this
  rw [rowsFrom_append, ← List.append_assoc, List.length_append, ← Nat.add_assoc]
  exact this

mutual
theorem xlsxVersion_adds (t : XlsxTexts) (ro : Bool) :
    ∀ n, Adds t (xlsxVersion t ro) (fun n => wanted ro (withVersions n)) n
  | .mk k vs ds => by
    intro s s' rows hf hr h
    rw [xlsxVersion, node_recovered] at h
    simp only [withVersions]
    by_cases hc : (!ro || (ExportItem.key (.mk k vs ds)).recovered) = true
    · rw [if_pos hc] at h
      rw [wanted_cons_pos ro _ _ hc]
      cases h1 : xlsxRow (xlsxKeyFields t k) s with
      | err => rw [h1] at h; cases h
      | panic => rw [h1] at h; cases h
      | ok s1 =>
      rw [h1] at h
      simp only at h
      have a := xlsxRow_adds (t := t) (.key (.mk k vs ds)) hf hr h1
      exact adds_then (a := [ExportItem.key (.mk k vs ds)]) a
        fun rows' f r => xlsxVersions_adds t ro vs s1 s' rows' f r h
    · rw [if_neg hc] at h
      cases h
      rw [wanted_cons_neg ro _ _ hc]
      have hr' : (ExportItem.key (.mk k vs ds)).recovered = false := by cases ro <;> simp_all
      have hv : vs = [] := by
        unfold ExportItem.recovered at hr'
        rw [Bool.or_eq_false_iff] at hr'
        simpa [Node.versions] using hr'.2
      subst hv
      have e : wanted ro (withVersionsAll []) = [] := by cases ro <;> rfl
      rw [e]
      simp only [rowsFrom, List.append_nil, List.length_nil, Nat.add_zero]
      exact ⟨hf, hr⟩
theorem xlsxVersions_adds (t : XlsxTexts) (ro : Bool) :
    ∀ vs, Adds t (xlsxVersion.versions t ro) (fun vs => wanted ro (withVersionsAll vs)) vs
  | [] => by
    intro s s' rows hf hr h
    rw [xlsxVersion.versions] at h
    cases h
    have e : wanted ro (withVersionsAll []) = [] := by cases ro <;> rfl
    simp only [e, rowsFrom, List.append_nil, List.length_nil, Nat.add_zero]
    exact ⟨hf, hr⟩
  | v :: vs => by
    intro s s' rows hf hr h
    rw [xlsxVersion.versions] at h
    cases h1 : xlsxVersion t ro v s with
    | err => rw [h1] at h; cases h
    | panic => rw [h1] at h; cases h
    | ok s1 =>
    rw [h1] at h
    simp only at h
    simp only [withVersionsAll, wanted_append]
    exact adds_then (xlsxVersion_adds t ro v s s1 rows hf hr h1)
      fun rows' f r => xlsxVersions_adds t ro vs s1 s' rows' f r h
end

theorem xlsxKey_adds (t : XlsxTexts) (ro : Bool) (n : Node) :
    Adds t (xlsxKey t ro) (fun n => wanted ro (allItems [n])) n := by
  intro s s' rows hf hr h
  have hv : ∀ v ∈ n.key.values, Adds t (xlsxValues t ro n)
      (fun v => wanted ro ((v :: v.versions).map (.value n))) v := by
    intro v _ s s' rows hf hr h
    have := xlsxEach_adds (v :: v.versions) (fun v _ => xlsxValue_adds t ro n v) s s' rows hf hr h
    simp only [← wanted_flatMap] at this
    rw [← List.map_eq_flatMap] at this
    exact this
  unfold xlsxKey at h
  cases h1 : xlsxVersion t ro n s with
  | err => rw [h1] at h; cases h
  | panic => rw [h1] at h; cases h
  | ok s1 =>
  rw [h1] at h
  simp only at h
  have := adds_then (xlsxVersion_adds t ro n s s1 rows hf hr h1)
    fun rows' f r => xlsxEach_adds n.key.values hv s1 s' rows' f r h
  simp only [← wanted_flatMap, ← wanted_append] at this
  simp only [allItems, List.flatMap_cons, List.flatMap_nil, List.append_nil]
  exact this

end Notatin
