import Verif.Model.Time
import Verif.Spec.Time
import Verif.Props.Util

/-!
Property theorems C58: times are written so that they can be read back and sorted.
-/

namespace Notatin
open Spec

/-! ### Numbers -/

theorem padded_length (w n : Nat) : (padded w n).length = w := by
  induction w generalizing n with
  | zero => rfl
  | succ w ih => rw [padded, List.length_append, ih]; rfl

theorem digit_toNat (n : Nat) : (Char.ofNat (48 + n % 10)).toNat = 48 + n % 10 := by
  have h : n % 10 < 10 := Nat.mod_lt _ (by decide)
  generalize n % 10 = m at h ⊢
  match m, h with
  | 0, _ => rfl
  | 1, _ => rfl
  | 2, _ => rfl
  | 3, _ => rfl
  | 4, _ => rfl
  | 5, _ => rfl
  | 6, _ => rfl
  | 7, _ => rfl
  | 8, _ => rfl
  | 9, _ => rfl

theorem padded_digit (w n : Nat) : ∀ c ∈ padded w n, 48 ≤ c.toNat ∧ c.toNat ≤ 57 := by
  induction w generalizing n with
  | zero => exact fun c h => absurd h List.not_mem_nil
  | succ w ih =>
    intro c h
    rw [padded, List.mem_append] at h
    rcases h with h | h
    · exact ih _ c h
    · rw [List.mem_singleton.1 h, digit_toNat]
      omega

theorem readDecimal_append (w1 : Nat) (s1 : Str) (h : s1.length = w1) (w2 acc : Nat) (s : Str) :
    readDecimal (w1 + w2) acc (s1 ++ s) =
      (readDecimal w1 acc s1).bind fun x => readDecimal w2 x.1 s := by
  induction s1 generalizing w1 acc with
  | nil =>
    subst h
    simp [readDecimal]
  | cons c s1 ih =>
    subst h
    rw [show (c :: s1).length + w2 = (s1.length + w2) + 1 by simp; omega]
    rw [List.cons_append, readDecimal, List.length_cons, readDecimal]
    by_cases hc : 48 ≤ c.toNat ∧ c.toNat ≤ 57
    · rw [if_pos hc, if_pos hc, ih _ rfl]
    · rw [if_neg hc, if_neg hc]
      rfl

theorem readDecimal_short (w acc n : Nat) (h : n < 10 ^ w) :
    readDecimal w acc (padded w n) = some (acc * 10 ^ w + n, []) := by
  induction w generalizing n with
  | zero =>
    have : n = 0 := by simpa using h
    subst this
    simp [padded, readDecimal]
  | succ w ih =>
    rw [padded, readDecimal_append w _ (padded_length _ _), ih (n / 10) (by
      rw [Nat.pow_succ] at h
      omega)]
    have hd := digit_toNat n
    simp only [Option.bind_some, readDecimal]
    rw [if_pos (by omega), hd]
    congr 2
    rw [Nat.pow_succ]
    have := Nat.div_add_mod n 10
    have h2 : 10 * (acc * 10 ^ w + n / 10) = acc * (10 ^ w * 10) + 10 * (n / 10) := by
      rw [Nat.mul_add]
      congr 1
      rw [Nat.mul_left_comm, Nat.mul_comm 10 (10 ^ w)]
    omega

theorem readDecimal_padded (w n : Nat) (s : Str) (h : n < 10 ^ w) :
    readDecimal w 0 (padded w n ++ s) = some (n, s) := by
  have h1 := readDecimal_append w (padded w n) (padded_length w n) 0 0 s
  rw [Nat.add_zero, readDecimal_short w 0 n h] at h1
  simpa [readDecimal] using h1

theorem append_lt (a b s t : Str) (h : a.length = b.length) :
    a ++ s < b ++ t ↔ a < b ∨ a = b ∧ s < t := by
  induction a generalizing b with
  | nil =>
    cases b with
    | nil => simp
    | cons => cases h
  | cons x a ih =>
    cases b with
    | nil => cases h
    | cons y b =>
      have := ih b (by simpa using h)
      rw [List.cons_append, List.cons_append, List.cons_lt_cons_iff, List.cons_lt_cons_iff, this]
      constructor
      · rintro (h | ⟨h1, h2 | ⟨h2, h3⟩⟩)
        · exact .inl (.inl h)
        · exact .inl (.inr ⟨h1, h2⟩)
        · exact .inr ⟨by rw [h1, h2], h3⟩
      · rintro ((h | ⟨h1, h2⟩) | ⟨h1, h2⟩)
        · exact .inl h
        · exact .inr ⟨h1, .inl h2⟩
        · cases h1
          exact .inr ⟨rfl, .inr ⟨rfl, h2⟩⟩

theorem padded_inj (w n m : Nat) (hn : n < 10 ^ w) (hm : m < 10 ^ w) (h : padded w n = padded w m) :
    n = m := by
  have h1 := readDecimal_short w 0 n hn
  rw [h, readDecimal_short w 0 m hm] at h1
  simpa using h1.symm

theorem padded_lt (w n m : Nat) (hn : n < 10 ^ w) (hm : m < 10 ^ w) :
    padded w n < padded w m ↔ n < m := by
  induction w generalizing n m with
  | zero => simp at hn hm; subst hn; subst hm; simp [padded]
  | succ w ih =>
    rw [Nat.pow_succ] at hn hm
    rw [padded, padded, append_lt _ _ _ _ (by rw [padded_length, padded_length]),
      ih (n / 10) (m / 10) (by omega) (by omega)]
    have hl : [Char.ofNat (48 + n % 10)] < [Char.ofNat (48 + m % 10)] ↔ n % 10 < m % 10 := by
      rw [List.cons_lt_cons_iff, Char.lt_def]
      have h1 := digit_toNat n
      have h2 := digit_toNat m
      simp only [Char.toNat] at h1 h2
      rw [UInt32.lt_iff_toNat_lt, h1, h2]
      simp
    rw [hl]
    constructor
    · rintro (h | ⟨h1, h2⟩)
      · omega
      · have := padded_inj w _ _ (by omega) (by omega) h1
        omega
    · intro h
      by_cases e : n / 10 = m / 10
      · exact .inr ⟨by rw [e], by omega⟩
      · exact .inl (by omega)

/-! ### The calendar -/

theorem yearLength_eq (y : Nat) : yearLength y = if isLeap y then 366 else 365 := by
  unfold yearLength isLeap
  by_cases h4 : y % 4 = 0 <;> by_cases h100 : y % 100 = 0 <;> by_cases h400 : y % 400 = 0 <;>
    simp [h4, h100, h400] <;> omega

theorem daysFrom_succ (a n : Nat) : daysFrom a (n + 1) = daysFrom a n + yearLength (a + n) := by
  induction n generalizing a with
  | zero => rw [yearLength_eq]; simp [daysFrom]
  | succ n ih =>
    rw [daysFrom, ih (a + 1), daysFrom]
    have : a + 1 + n = a + (n + 1) := by omega
    rw [this]
    omega

theorem daysFrom_mono (a n m : Nat) (h : n ≤ m) : daysFrom a n ≤ daysFrom a m := by
  induction m with
  | zero => have : n = 0 := by omega
            subst this; exact Nat.le_refl _
  | succ m ih =>
    by_cases e : n = m + 1
    · subst e; exact Nat.le_refl _
    · have := ih (by omega)
      rw [daysFrom_succ]
      omega

/-- The year found, the day in it, and how they add up. -/
theorem yearOf_spec (fuel n d : Nat) (h : d ≤ fuel) :
    ∃ k r, yearOf fuel (1601 + n) d = (1601 + k, r) ∧ n ≤ k ∧ r < yearLength (1601 + k) ∧
      daysFrom 1601 k + r = daysFrom 1601 n + d := by
  induction fuel generalizing n d with
  | zero =>
    refine ⟨n, d, rfl, Nat.le_refl _, ?_, rfl⟩
    rw [yearLength_eq]
    split <;> omega
  | succ fuel ih =>
    rw [yearOf]
    by_cases hd : d < yearLength (1601 + n)
    · rw [if_pos hd]
      exact ⟨n, d, rfl, Nat.le_refl _, hd, rfl⟩
    · rw [if_neg hd]
      have hpos : 365 ≤ yearLength (1601 + n) := by rw [yearLength_eq]; split <;> omega
      obtain ⟨k, r, h1, h2, h3, h4⟩ := ih (n + 1) (d - yearLength (1601 + n)) (by omega)
      refine ⟨k, r, h1, by omega, h3, ?_⟩
      rw [h4, daysFrom_succ]
      omega

theorem monthStart_12 (y : Nat) : monthStart y 12 = yearLength y := by
  rw [yearLength_eq]
  cases h : isLeap y <;> simp [monthStart, monthLength, h]

theorem monthStart_mono (y n m : Nat) (h : n ≤ m) : monthStart y n ≤ monthStart y m := by
  induction m with
  | zero => have : n = 0 := by omega
            subst this; exact Nat.le_refl _
  | succ m ih =>
    by_cases e : n = m + 1
    · subst e; exact Nat.le_refl _
    · have := ih (by omega)
      rw [monthStart]
      omega

theorem monthLengths_get (y m : Nat) (h : m < 12) :
    (monthLengths (yearLength y))[m]? = some (monthLength y (m + 1)) := by
  rw [yearLength_eq]
  match m, h with
  | 0, _ => rfl
  | 1, _ => cases h : isLeap y <;> simp [monthLengths, monthLength, h]
  | 2, _ => rfl
  | 3, _ => rfl
  | 4, _ => rfl
  | 5, _ => rfl
  | 6, _ => rfl
  | 7, _ => rfl
  | 8, _ => rfl
  | 9, _ => rfl
  | 10, _ => rfl
  | 11, _ => rfl

theorem monthOf_drop (y j d : Nat) (hj : j ≤ 12) (hd : monthStart y j + d < yearLength y) :
    ∃ k r, monthOf ((monthLengths (yearLength y)).drop j) (j + 1) d = (k + 1, r) ∧ k < 12 ∧
      r < monthLength y (k + 1) ∧ monthStart y k + r = monthStart y j + d := by
  induction hn : 12 - j generalizing j d with
  | zero =>
    have : j = 12 := by omega
    subst this
    rw [monthStart_12] at hd
    omega
  | succ n ih =>
    have hlt : j < 12 := by omega
    have hget := monthLengths_get y j hlt
    obtain ⟨hlen, hval⟩ := List.getElem?_eq_some_iff.1 hget
    rw [List.drop_eq_getElem_cons hlen, hval, monthOf]
    by_cases h : d < monthLength y (j + 1)
    · rw [if_pos h]
      exact ⟨j, d, rfl, hlt, h, rfl⟩
    · rw [if_neg h]
      obtain ⟨k, r, h1, h2, h3, h4⟩ := ih (j + 1) (d - monthLength y (j + 1)) (by omega) (by
        rw [monthStart]; omega) (by omega)
      refine ⟨k, r, h1, h2, h3, ?_⟩
      rw [h4, monthStart]
      omega

theorem monthOf_spec (y d : Nat) (hd : d < yearLength y) :
    ∃ k r, monthOf (monthLengths (yearLength y)) 1 d = (k + 1, r) ∧ k < 12 ∧
      r < monthLength y (k + 1) ∧ monthStart y k + r = d := by
  obtain ⟨k, r, h1, h2, h3, h4⟩ := monthOf_drop y 0 d (by omega) (by simpa [monthStart] using hd)
  exact ⟨k, r, h1, h2, h3, by simpa [monthStart] using h4⟩

/-! ### Texts -/

/-- The text of the numbers of a time. -/
def Spec.Stamp.text (t : Stamp) : Str :=
  padded 4 t.year ++ ('-' :: padded 2 t.month ++ ('-' :: padded 2 t.day ++ ('T' :: padded 2 t.hour ++
    (':' :: padded 2 t.minute ++ (':' :: padded 2 t.second ++ ('.' :: padded 7 t.fraction ++ ['Z']))))))

/-- Every number has room. -/
def Spec.Stamp.Fits (t : Stamp) : Prop :=
  t.year < 10000 ∧ t.month < 100 ∧ t.day < 100 ∧ t.hour < 100 ∧ t.minute < 100 ∧ t.second < 100 ∧
    t.fraction < 10000000

theorem readStamp_text (t : Stamp) (h : t.Fits) : readStamp t.text = some t := by
  obtain ⟨h1, h2, h3, h4, h5, h6, h7⟩ := h
  unfold readStamp Spec.Stamp.text
  simp only [List.cons_append, Option.bind_eq_bind]
  rw [readDecimal_padded 4 _ _ h1]
  simp only [Option.bind_some, readChar, if_pos]
  rw [readDecimal_padded 2 _ _ h2]
  simp only [Option.bind_some, readChar, if_pos]
  rw [readDecimal_padded 2 _ _ h3]
  simp only [Option.bind_some, readChar, if_pos]
  rw [readDecimal_padded 2 _ _ h4]
  simp only [Option.bind_some, readChar, if_pos]
  rw [readDecimal_padded 2 _ _ h5]
  simp only [Option.bind_some, readChar, if_pos]
  rw [readDecimal_padded 2 _ _ h6]
  simp only [Option.bind_some, readChar, if_pos]
  rw [readDecimal_padded 7 _ _ h7]
  simp only [Option.bind_some, readChar, if_pos]

/-- The days of a date up to the year, the month and the day compare as the date does. -/
theorem ticks_lt (s t : Stamp) (hs : s.Valid) (ht : t.Valid) (fs : s.Fits) (ft : t.Fits)
    (h : s.text < t.text) : s.ticks < t.ticks := by
  obtain ⟨s1, s2, s3, s4, s5, s6, s7⟩ := s
  obtain ⟨t1, t2, t3, t4, t5, t6, t7⟩ := t
  obtain ⟨a1, a2, a3, a4, a5, a6, a7, a8⟩ := hs
  obtain ⟨b1, b2, b3, b4, b5, b6, b7, b8⟩ := ht
  obtain ⟨c1, c2, c3, c4, c5, c6, c7⟩ := fs
  obtain ⟨d1, d2, d3, d4, d5, d6, d7⟩ := ft
  simp only at a1 a2 a3 a4 a5 a6 a7 a8 b1 b2 b3 b4 b5 b6 b7 b8 c1 c2 c3 c4 c5 c6 c7 d1 d2 d3 d4 d5 d6 d7
  unfold Spec.Stamp.text at h
  simp only [List.cons_append] at h
  have step : ∀ (w n m : Nat) (c : Char) (x y : Str), n < 10 ^ w → m < 10 ^ w →
      padded w n ++ c :: x < padded w m ++ c :: y → n < m ∨ n = m ∧ x < y := by
    intro w n m c x y hn hm h
    rw [append_lt _ _ _ _ (by rw [padded_length, padded_length]), padded_lt w n m hn hm] at h
    rcases h with h | ⟨h1, h2⟩
    · exact .inl h
    · refine .inr ⟨padded_inj w n m hn hm h1, ?_⟩
      rw [List.cons_lt_cons_iff] at h2
      rcases h2 with h2 | ⟨_, h2⟩
      · exact absurd h2 (by simp)
      · exact h2
  have yearEnd : ∀ y m d, 1601 ≤ y → 1 ≤ m → m ≤ 12 → 1 ≤ d → d ≤ monthLength y m →
      daysFrom 1601 (y - 1601) + monthStart y (m - 1) + (d - 1) < daysFrom 1601 (y + 1 - 1601) := by
    intro y m d h1 h2 h3 h4 h5
    have e : y + 1 - 1601 = (y - 1601) + 1 := by omega
    rw [e, daysFrom_succ, show 1601 + (y - 1601) = y by omega, ← monthStart_12 y]
    have := monthStart_mono y m 12 h3
    have e2 : monthStart y m = monthStart y (m - 1) + monthLength y m := by
      obtain ⟨k, rfl⟩ := Nat.exists_eq_add_of_le' h2
      rfl
    omega
  unfold Spec.Stamp.ticks
  simp only
  have hA := yearEnd s1 s2 s3 a1 a2 a3 a4 a5
  have dayLess : ∀ D E : Nat, D < E → ((D * 86400 + s4 * 3600 + s5 * 60 + s6) * 10000000 + s7) <
      ((E * 86400 + t4 * 3600 + t5 * 60 + t6) * 10000000 + t7) := by
    intro D E h
    omega
  rcases step 4 _ _ _ _ _ c1 d1 h with h | ⟨rfl, h1⟩
  · have := daysFrom_mono 1601 (s1 + 1 - 1601) (t1 - 1601) (by omega)
    exact dayLess _ _ (by omega)
  rcases step 2 _ _ _ _ _ c2 d2 h1 with h | ⟨rfl, h2⟩
  · have := monthStart_mono s1 s2 (t2 - 1) (by omega)
    have e2 : monthStart s1 s2 = monthStart s1 (s2 - 1) + monthLength s1 s2 := by
      obtain ⟨k, rfl⟩ := Nat.exists_eq_add_of_le' a2
      rfl
    exact dayLess _ _ (by omega)
  rcases step 2 _ _ _ _ _ c3 d3 h2 with h | ⟨rfl, h3⟩
  · exact dayLess _ _ (by omega)
  rcases step 2 _ _ _ _ _ c4 d4 h3 with h | ⟨rfl, h4⟩
  · omega
  rcases step 2 _ _ _ _ _ c5 d5 h4 with h | ⟨rfl, h5⟩
  · omega
  rcases step 2 _ _ _ _ _ c6 d6 h5 with h | ⟨rfl, h6⟩
  · omega
  rcases step 7 _ _ _ _ _ c7 d7 h6 with h | ⟨rfl, h7⟩
  · omega
  · exact absurd h7 (by simp)

theorem padded_hundred (w n : Nat) : padded (w + 2) (n * 100) = padded w n ++ ['0', '0'] := by
  rw [padded, padded]
  have h1 : n * 100 / 10 / 10 = n := by omega
  have h2 : n * 100 / 10 % 10 = 0 := by omega
  have h3 : n * 100 % 10 = 0 := by omega
  rw [h1, h2, h3, List.append_assoc]
  rfl

/-- The times whose instant fits a signed 64-bit number of nanoseconds (years 1677 to 2262). -/
def FitsNanos (ft : Nat) : Prop := -(2 ^ 63) ≤ filetimeInstant ft ∧ filetimeInstant ft < 2 ^ 63

theorem daysFrom_700 : daysFrom 1601 700 = 255669 := by decide +kernel

theorem format_stamp (ft : Nat) (h : FitsNanos ft) :
    ∃ t : Stamp, t.Valid ∧ t.Fits ∧ t.ticks = ft ∧ formatDateTime (dateTimeFromFiletime ft) = t.text := by
  have hb : ft < 255669 * 86400 * 10000000 := by
    obtain ⟨_, h⟩ := h
    unfold filetimeInstant at h
    rw [daysFrom_val] at h
    omega
  have ht : (dateTimeFromFiletime ft + 11644473600 * 1000000000).toNat = ft * 100 := by
    rw [(filetime_exact_iff_partial ft).2 h]
    unfold filetimeInstant
    rw [daysFrom_val]
    omega
  obtain ⟨k, r, h1, _, h3, h4⟩ := yearOf_spec (ft / 10000000 / 86400) 0 (ft / 10000000 / 86400)
    (Nat.le_refl _)
  obtain ⟨m, d, g1, g2, g3, g4⟩ := monthOf_spec (1601 + k) r h3
  simp only [daysFrom, Nat.zero_add, Nat.add_zero] at h1 h4
  have hk : k < 700 := by
    apply Nat.lt_of_not_le
    intro hk
    have := daysFrom_mono 1601 700 k hk
    rw [daysFrom_700] at this
    omega
  have hml : monthLength (1601 + k) (m + 1) ≤ 31 := by
    unfold monthLength
    split
    · split <;> omega
    · split <;> omega
  generalize hS : ft / 10000000 = S at *
  refine ⟨⟨1601 + k, m + 1, d + 1, S % 86400 / 3600, S % 86400 / 60 % 60, S % 86400 % 60,
    ft % 10000000⟩, ?_, ?_, ?_, ?_⟩
  · refine ⟨by simp, by simp, by simp; omega, by simp, ?_, ?_, ?_, ?_⟩ <;> simp only <;> omega
  · refine ⟨?_, ?_, ?_, ?_, ?_, ?_, ?_⟩ <;> simp only <;> omega
  · unfold Spec.Stamp.ticks
    simp only [Nat.add_sub_cancel, Nat.add_sub_cancel_left]
    rw [Nat.add_assoc (daysFrom 1601 k), g4, h4]
    omega
  · unfold formatDateTime
    simp only
    rw [ht]
    have e1 : ft * 100 % 1000000000 = ft % 10000000 * 100 := by omega
    have e2 : ft * 100 / 1000000000 = S := by omega
    rw [e1, e2, padded_hundred 7]
    have hl := padded_length 7 (ft % 10000000)
    rw [if_pos (by
      constructor
      · rw [List.getElem?_append_right (by omega), hl]; rfl
      · rw [List.getElem?_append_right (by omega), hl]; rfl)]
    rw [List.take_append_of_le_length (by omega), List.take_of_length_le (by omega)]
    unfold dateText Spec.Stamp.text
    simp only
    rw [h1]
    simp only
    rw [g1]
    simp only [List.append_assoc, List.cons_append]

theorem str_trichotomy (s t : Str) : s < t ∨ s = t ∨ t < s := by
  induction s generalizing t with
  | nil =>
    cases t with
    | nil => exact .inr (.inl rfl)
    | cons => exact .inl (List.nil_lt_cons _ _)
  | cons a s ih =>
    cases t with
    | nil => exact .inr (.inr (List.nil_lt_cons _ _))
    | cons b t =>
      rw [List.cons_lt_cons_iff, List.cons_lt_cons_iff]
      by_cases hab : a < b
      · exact .inl (.inl hab)
      by_cases hba : b < a
      · exact .inr (.inr (.inl hba))
      have : a = b := Char.le_antisymm (Char.not_lt.1 hba) (Char.not_lt.1 hab)
      subst this
      rcases ih t with h | h | h
      · exact .inl (.inr ⟨rfl, h⟩)
      · exact .inr (.inl (by rw [h]))
      · exact .inr (.inr (.inr ⟨rfl, h⟩))

/-- C58, partial: a time between 1677 and 2262 is written so that the text, read as a date and a
time of day, is that time, and texts are ordered as times are.  Missing: all other times, which
are written as another time (`times_violated`). -/
theorem times_told_partial (a : Nat) (ha : FitsNanos a) :
    Tells (formatDateTime (dateTimeFromFiletime a)) a ∧
      (formatDateTime (dateTimeFromFiletime a)).length = 28 ∧
      ∀ b, FitsNanos b →
        (formatDateTime (dateTimeFromFiletime a) < formatDateTime (dateTimeFromFiletime b) ↔ a < b) := by
  obtain ⟨s, hs1, hs2, hs3, hs4⟩ := format_stamp a ha
  refine ⟨⟨s, by rw [hs4]; exact readStamp_text s hs2, hs1, hs3⟩, ?_, fun b hb => ?_⟩
  · rw [hs4]
    unfold Spec.Stamp.text
    simp [padded_length]
  obtain ⟨t, ht1, ht2, ht3, ht4⟩ := format_stamp b hb
  rw [hs4, ht4, ← hs3, ← ht3]
  refine ⟨ticks_lt s t hs1 ht1 hs2 ht2, fun h => ?_⟩
  rcases str_trichotomy s.text t.text with h1 | h1 | h1
  · exact h1
  · have h2 := readStamp_text s hs2
    rw [h1, readStamp_text t ht2] at h2
    cases h2
    omega
  · have := ticks_lt t s ht1 hs1 ht2 hs2 h1
    omega

/-- The test of /repo/src/util.rs lines 363-368. -/
example : FitsNanos 129782011451468083 ∧
    formatDateTime (dateTimeFromFiletime 129782011451468083) = "2012-04-06T15:52:25.1468083Z".toList := by
  refine ⟨by unfold FitsNanos; decide +kernel, by decide +kernel⟩

/-- C58 is violated: FILETIME 0, the first of the year 1601, which Windows writes where no time is
known, is written as a time in the year 2185, with nine digits. -/
theorem times_violated :
    ¬ TimesTold (fun ft => formatDateTime (dateTimeFromFiletime ft)) ∧
      formatDateTime (dateTimeFromFiletime 0) = "2185-07-21T23:34:33.709551616Z".toList := by
  have h0 : formatDateTime (dateTimeFromFiletime 0) = "2185-07-21T23:34:33.709551616Z".toList := by
    decide +kernel
  refine ⟨fun h => ?_, h0⟩
  have hy : 0 < year10000 := by
    have h1 := daysFrom_mono 1601 1 (10000 - 1601) (by omega)
    have h2 : daysFrom 1601 1 = 365 := by decide
    unfold year10000
    omega
  obtain ⟨⟨t, ht, _⟩, _⟩ := h 0 hy
  simp only [h0] at ht
  have hn : readStamp "2185-07-21T23:34:33.709551616Z".toList = none := by decide +kernel
  rw [hn] at ht
  cases ht

end Notatin
