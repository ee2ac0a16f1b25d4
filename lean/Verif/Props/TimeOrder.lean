import Verif.Spec.TimeOrder
import Verif.Props.Time
/-!
# C110: timestamps in order, and their texts in order
-/

namespace Sawmill
open Cal

/-! ## The order of byte strings -/

theorem textBefore_iff : ∀ {s t : Bytes}, TextBefore s t ↔ bLt s t = true
  | [], [] => by simp only [bLt, Bool.false_eq_true, iff_false]; intro h; cases h
  | [], b :: t => by simp only [bLt, iff_true]; exact .shorter b t
  | a :: s, [] => by simp only [bLt, Bool.false_eq_true, iff_false]; intro h; cases h
  | a :: s, b :: t => by
    have ih := @textBefore_iff s t
    simp only [bLt]
    by_cases h1 : a < b
    · rw [if_pos h1]
      exact ⟨fun _ => rfl, fun _ => .smaller a b s t (UInt8.lt_iff_toNat_lt.1 h1)⟩
    · rw [if_neg h1]
      by_cases h2 : a = b
      · subst h2
        rw [if_pos rfl, ← ih]
        refine ⟨fun h => ?_, .same a s t⟩
        cases h with
        | smaller _ _ _ _ h => omega
        | same _ _ _ h => exact h
      · rw [if_neg h2]
        refine ⟨fun h => ?_, fun h => by cases h⟩
        cases h with
        | smaller _ _ _ _ h => exact absurd (UInt8.lt_iff_toNat_lt.2 h) h1
        | same => exact absurd rfl h2

theorem bLt_app_same : ∀ (p s t : Bytes), bLt (p ++ s) (p ++ t) = bLt s t
  | [], _, _ => rfl
  | a :: p, s, t => by
    simp only [List.cons_append, bLt, UInt8.lt_irrefl, if_false, if_true, bLt_app_same p s t]

theorem bLt_app_lt : ∀ {p q : Bytes}, p.length = q.length → bLt p q = true → ∀ s t : Bytes, bLt (p ++ s) (q ++ t) = true
  | [], [], _, h, _, _ => by simp [bLt] at h
  | a :: p, b :: q, hl, h, s, t => by
    simp only [List.length_cons, Nat.add_right_cancel_iff] at hl
    simp only [bLt, List.cons_append] at h ⊢
    split
    · rfl
    · rename_i h1
      rw [if_neg h1] at h
      split
      · rename_i h2
        rw [if_pos h2] at h
        exact bLt_app_lt hl h s t
      · rename_i h2
        rw [if_neg h2] at h
        cases h

/-! ## Digits of equal length -/

/-- Reading on digit by digit. -/
def readOn (acc : Option Nat) (s : Bytes) : Option Nat := s.foldl (fun acc b => acc.bind fun n => if isDigit b then some (10 * n + (b.toNat - 48)) else none) acc

theorem readOn_none : ∀ s : Bytes, readOn none s = none
  | [] => rfl
  | _ :: s => readOn_none s

theorem readOn_cons {p x : Nat} {a : UInt8} {s : Bytes} (h : readOn (some p) (a :: s) = some x) : isDigit a = true ∧ readOn (some (10 * p + (a.toNat - 48))) s = some x := by
  simp only [readOn, List.foldl_cons, Option.bind_some] at h
  by_cases hd : isDigit a = true
  · rw [if_pos hd] at h; exact ⟨hd, h⟩
  · rw [if_neg hd] at h
    have := readOn_none s
    simp only [readOn] at this
    rw [this] at h
    cases h

theorem isDigit_range {b : UInt8} (h : isDigit b = true) : 48 ≤ b.toNat ∧ b.toNat ≤ 57 := by
  simp only [isDigit, Bool.and_eq_true, decide_eq_true_eq, UInt8.le_iff_toNat_le] at h
  exact h

theorem readOn_lt : ∀ {s t : Bytes} {p q x y : Nat}, s.length = t.length → readOn (some p) s = some x → readOn (some q) t = some y → p < q → x < y
  | [], [], _, _, _, _, _, h1, h2, h => by cases h1; cases h2; exact h
  | a :: s, b :: t, p, q, x, y, hl, h1, h2, h => by
    obtain ⟨d1, h1⟩ := readOn_cons h1
    obtain ⟨d2, h2⟩ := readOn_cons h2
    have := isDigit_range d1
    have := isDigit_range d2
    exact readOn_lt (by simpa using hl) h1 h2 (by omega)

theorem readOn_before : ∀ {s t : Bytes} {p x y : Nat}, s.length = t.length → readOn (some p) s = some x → readOn (some p) t = some y → bLt s t = true → x < y
  | [], [], _, _, _, _, _, _, h => by simp [bLt] at h
  | a :: s, b :: t, p, x, y, hl, h1, h2, h => by
    obtain ⟨d1, h1⟩ := readOn_cons h1
    obtain ⟨d2, h2⟩ := readOn_cons h2
    have r1 := isDigit_range d1
    have r2 := isDigit_range d2
    simp only [bLt] at h
    by_cases h3 : a < b
    · have := UInt8.lt_iff_toNat_lt.1 h3
      exact readOn_lt (by simpa using hl) h1 h2 (by omega)
    · rw [if_neg h3] at h
      by_cases h4 : a = b
      · subst h4
        rw [if_pos rfl] at h
        exact readOn_before (by simpa using hl) h1 h2 h
      · rw [if_neg h4] at h; cases h

/-- Of numerals with equally many digits, the smaller number comes first. -/
theorem numeral_order {s t : Bytes} {x y : Nat} (hl : s.length = t.length) (h1 : number s = some x) (h2 : number t = some y) (h : x < y) : bLt s t = true := by
  rcases bLt_total s t with e | e | e
  · subst e; rw [h1] at h2; cases h2; omega
  · exact e
  · have := readOn_before (p := 0) hl.symm h2 h1 e; omega

/-! ## Dates -/

theorem year_length (y : Nat) : daysBeforeMonth y 13 = daysInYear y := by
  simp only [daysBeforeMonth, daysIn, daysInYear]
  split <;> rfl

theorem daysBeforeMonth_mono (y : Nat) {m m' : Nat} (h : m ≤ m') : daysBeforeMonth y m ≤ daysBeforeMonth y m' := by
  induction m' with
  | zero => rw [Nat.le_zero.1 h]; exact Nat.le_refl _
  | succ k ih =>
    rcases Nat.lt_or_ge m (k + 1) with h1 | h1
    · exact Nat.le_trans (ih (by omega)) (by simp only [daysBeforeMonth]; omega)
    · rw [Nat.le_antisymm h h1]; exact Nat.le_refl _

theorem daysBeforeYear_mono {y y' : Nat} (h : y ≤ y') : daysBeforeYear y ≤ daysBeforeYear y' := by
  induction y' with
  | zero => rw [Nat.le_zero.1 h]; exact Nat.le_refl _
  | succ k ih =>
    rcases Nat.lt_or_ge y (k + 1) with h1 | h1
    · exact Nat.le_trans (ih (by omega)) (by simp only [daysBeforeYear]; omega)
    · rw [Nat.le_antisymm h h1]; exact Nat.le_refl _

/-- A date of the calendar. -/
structure Dated (y m d : Nat) : Prop where
  m1 : 1 ≤ m
  m2 : m ≤ 12
  d1 : 1 ≤ d
  d2 : d ≤ daysIn y m

theorem date_later_year {y m d y' m' d' : Nat} (h : Dated y m d) (h' : Dated y' m' d') (hy : y < y') : dayNumber y m d < dayNumber y' m' d' := by
  have a := daysBeforeMonth_mono y (m := m + 1) (m' := 13) (by have := h.m2; omega)
  rw [year_length] at a
  have b := daysBeforeYear_mono (y := y + 1) (y' := y') hy
  simp only [daysBeforeMonth] at a
  simp only [daysBeforeYear] at b
  have := h.d1
  have := h.d2
  simp only [dayNumber]
  omega

theorem date_later_month {y m d m' d' : Nat} (h : Dated y m d) (h' : Dated y m' d') (hm : m < m') : dayNumber y m d < dayNumber y m' d' := by
  have a := daysBeforeMonth_mono y (m := m + 1) (m' := m') hm
  simp only [daysBeforeMonth] at a
  have := h.d1
  have := h.d2
  simp only [dayNumber]
  omega

/-- The digits of a number, in the given width. -/
abbrev dig (n w : Nat) : Bytes := appendInt (n : Int) w

/-- The text of a timestamp up to its seconds. -/
def upToSeconds (y mo d h mi s : Nat) : Bytes := dig y 4 ++ [45] ++ dig mo 2 ++ [45] ++ dig d 2 ++ [84] ++ dig h 2 ++ [58] ++ dig mi 2 ++ [58] ++ dig s 2

/-- The text of a timestamp, and the numbers in it. -/
theorem stamp_parts {n : Int} (h : IsI64 n) : ∃ y mo d hh mi s : Nat, (timeGoTime n).rfc3339Nano = upToSeconds y mo d hh mi s ++ (formatNano (n % 1000000000).toNat ++ [90]) ∧ y < 10000 ∧ Dated y mo d ∧ d < 100 ∧ hh < 24 ∧ mi < 60 ∧ s < 60 ∧
    n / 1000000000 = dayNumber y mo d * 86400 + (hh * 3600 + mi * 60 + s : Nat) := by
  rw [goTime_exact h]
  unfold IsI64 at h
  have habs : GoTime.abs ⟨n / 1000000000 + unixToInternal, (n % 1000000000).toNat⟩ = (n / 1000000000 + 62135596800 + 730692556 * 146097 * 86400).toNat := by
    simp only [GoTime.abs, absoluteToInternal, absoluteZeroYear, unixToInternal]
    omega
  simp only [GoTime.rfc3339Nano, absDate]
  rw [habs]
  generalize habs' : (n / 1000000000 + 62135596800 + 730692556 * 146097 * 86400).toNat = abs
  obtain ⟨y, yd, hy, hy1, hyd, hD⟩ := absYear_spec abs (by omega)
  obtain ⟨hh, mm, ss, hc, hh1, hm1, hs1, hsum⟩ := absClock_spec abs
  have hmd := monthDay_spec y yd hyd
  rw [hy, hc]
  simp only []
  generalize monthDay (y : Int) yd = md at *
  obtain ⟨mo, dd⟩ := md
  simp only [] at hmd ⊢
  obtain ⟨m1, m2, d1, d2, hmd⟩ := hmd
  have hyb : y < 10000 := by
    have := daysBeforeYear_eq y hy1
    omega
  have hdd : dd < 100 := by
    have : daysIn y mo ≤ 31 := by
      unfold daysIn
      repeat' split
      all_goals omega
    omega
  have h1970 : daysBeforeYear 1970 = 719528 := by decide +kernel
  refine ⟨y, mo, dd, hh, mm, ss, ?_, hyb, ⟨m1, m2, d1, d2⟩, hdd, hh1, hm1, hs1, ?_⟩
  · simp only [upToSeconds, List.append_assoc]
  · simp only [dayNumber, h1970]
    omega

/-- Numerals of one width in front of other text. -/
theorem dig_lt {x y w : Nat} (hx : x < 10 ^ w) (hy : y < 10 ^ w) (hw : 1 ≤ w) (h : x < y) (s t : Bytes) : bLt (dig x w ++ s) (dig y w ++ t) = true := by
  obtain ⟨l1, n1⟩ := appendInt_nat (n := x) hx hw
  obtain ⟨l2, n2⟩ := appendInt_nat (n := y) hy hw
  exact bLt_app_lt (by rw [l1, l2]) (numeral_order (by rw [l1, l2]) n1 n2 h) s t

/-- Timestamps in different seconds: the text of the earlier one comes first. -/
theorem seconds_order {n m : Int} (hn : IsI64 n) (hm : IsI64 m) (h : n / 1000000000 < m / 1000000000) : bLt (timeGoTime n).rfc3339Nano (timeGoTime m).rfc3339Nano = true := by
  obtain ⟨y, mo, d, hh, mi, s, e, b1, b2, b3, b4, b5, b6, b7⟩ := stamp_parts hn
  obtain ⟨y', mo', d', hh', mi', s', e', c1, c2, c3, c4, c5, c6, c7⟩ := stamp_parts hm
  rw [e, e']
  simp only [upToSeconds, List.append_assoc]
  have i1 := b2.m2
  have i2 := c2.m2
  rcases Nat.lt_trichotomy y y' with hy | rfl | hy
  · exact dig_lt (by omega) (by omega) (by omega) hy _ _
  · rw [bLt_app_same, bLt_app_same]
    rcases Nat.lt_trichotomy mo mo' with ho | rfl | ho
    · exact dig_lt (by omega) (by omega) (by omega) ho _ _
    · rw [bLt_app_same, bLt_app_same]
      rcases Nat.lt_trichotomy d d' with hd | rfl | hd
      · exact dig_lt (by omega) (by omega) (by omega) hd _ _
      · rw [bLt_app_same, bLt_app_same]
        rcases Nat.lt_trichotomy hh hh' with h1 | rfl | h1
        · exact dig_lt (by omega) (by omega) (by omega) h1 _ _
        · rw [bLt_app_same, bLt_app_same]
          rcases Nat.lt_trichotomy mi mi' with h2 | rfl | h2
          · exact dig_lt (by omega) (by omega) (by omega) h2 _ _
          · rw [bLt_app_same, bLt_app_same]
            have : s < s' := by omega
            exact dig_lt (by omega) (by omega) (by omega) this _ _
          · omega
        · omega
      · have := b2.d1
        have := c2.d1
        simp only [dayNumber] at b7 c7
        omega
    · have := date_later_month c2 b2 ho; omega
  · have := date_later_year c2 b2 hy; omega

/-- In the same second, the texts up to the seconds agree. -/
theorem same_second {n m : Int} (hn : IsI64 n) (hm : IsI64 m) (h : n / 1000000000 = m / 1000000000) : ∃ p : Bytes, (timeGoTime n).rfc3339Nano = p ++ (formatNano (n % 1000000000).toNat ++ [90]) ∧
    (timeGoTime m).rfc3339Nano = p ++ (formatNano (m % 1000000000).toNat ++ [90]) := by
  obtain ⟨y, mo, d, hh, mi, s, e, b1, b2, b3, b4, b5, b6, b7⟩ := stamp_parts hn
  obtain ⟨y', mo', d', hh', mi', s', e', c1, c2, c3, c4, c5, c6, c7⟩ := stamp_parts hm
  have hD : dayNumber y mo d = dayNumber y' mo' d' := by omega
  have hy : y = y' := by
    rcases Nat.lt_trichotomy y y' with hy | hy | hy
    · have := date_later_year b2 c2 hy; omega
    · exact hy
    · have := date_later_year c2 b2 hy; omega
  subst hy
  have ho : mo = mo' := by
    rcases Nat.lt_trichotomy mo mo' with ho | ho | ho
    · have := date_later_month b2 c2 ho; omega
    · exact ho
    · have := date_later_month c2 b2 ho; omega
  subst ho
  have hd : d = d' := by
    have := b2.d1
    have := c2.d1
    simp only [dayNumber] at hD
    omega
  subst hd
  have h1 : hh = hh' := by omega
  subst h1
  have h2 : mi = mi' := by omega
  subst h2
  have h3 : s = s' := by omega
  subst h3
  exact ⟨_, e, e'⟩

/-! ## The fraction -/

/-- Without the zeros at the end. -/
def strip : Bytes → Bytes
  | [] => []
  | b :: s => if b = 48 ∧ strip s = [] then [] else b :: strip s

theorem strip_eq (s : Bytes) : (s.reverse.dropWhile (· = 48)).reverse = strip s := by
  have key : ∀ (s r : Bytes), ((s.reverse ++ r).dropWhile (· = 48)) = if s.reverse.dropWhile (· = 48) = [] then r.dropWhile (· = 48) else s.reverse.dropWhile (· = 48) ++ r := by
    intro s r
    rw [List.dropWhile_append]
    simp [List.isEmpty_iff]
  induction s with
  | nil => rfl
  | cons b s ih =>
    rw [List.reverse_cons, key]
    simp only [strip, ← ih, List.reverse_eq_nil_iff]
    by_cases h : s.reverse.dropWhile (· = 48) = []
    · rw [if_pos h]
      by_cases hb : b = 48
      · simp [hb, h]
      · simp [hb, h]
    · rw [if_neg h]
      simp [h]

/-- `b` agrees with `a` except where `a` has nothing but zeros. -/
def DigitsBegin : Bytes → Bytes → Prop
  | a :: s, b :: t => (strip (a :: s) = []) ∨ (a = b ∧ DigitsBegin s t)
  | _, _ => True

theorem strip_order : ∀ {s t : Bytes}, s.length = t.length → (∀ b ∈ s, isDigit b = true) → (∀ b ∈ t, isDigit b = true) → bLt s t = true → (bLt (strip s ++ [90]) (strip t ++ [90]) = true ↔ ¬ DigitsBegin s t)
  | [], [], _, _, _, h => by simp [bLt] at h
  | a :: s, b :: t, hl, ha, hb, h => by
    have r1 := isDigit_range (ha a (by simp))
    have r2 := isDigit_range (hb b (by simp))
    have hne : ∀ {u v : Bytes}, u.length = v.length → (∀ b ∈ u, isDigit b = true) → bLt u v = true → strip v ≠ [] := by
      intro u
      induction u with
      | nil => intro v hl _ hv; cases v <;> simp [bLt] at hv hl
      | cons x u ih =>
        intro v hl hu hv
        cases v with
        | nil => simp at hl
        | cons y v =>
          have rx := isDigit_range (hu x (by simp))
          simp only [bLt] at hv
          simp only [strip]
          by_cases hxy : x < y
          · have := UInt8.lt_iff_toNat_lt.1 hxy
            rw [if_neg (fun hc => by rw [hc.1] at this; simp at this; omega)]
            simp
          · rw [if_neg hxy] at hv
            by_cases he : x = y
            · rw [if_pos he] at hv
              rw [if_neg (fun hc => ih (by simpa using hl) (fun b hb => hu b (by simp [hb])) hv hc.2)]
              simp
            · rw [if_neg he] at hv; cases hv
    have ht := hne hl ha h
    by_cases hz : strip (a :: s) = []
    · rw [hz]
      have hst : strip (b :: t) = b :: strip t := by
        simp only [strip] at ht ⊢
        split
        · rename_i hc; rw [if_pos hc] at ht; exact absurd rfl ht
        · rfl
      rw [hst]
      simp only [List.nil_append, List.cons_append, bLt, DigitsBegin, hz, true_or, not_true, iff_false]
      have h90 : ¬ ((90 : UInt8) < b) := by
        intro hc
        have := UInt8.lt_iff_toNat_lt.1 hc
        simp at this
        omega
      have h90' : (90 : UInt8) ≠ b := by rintro rfl; simp at r2
      simp [h90, h90']
    · have hs : strip (a :: s) = a :: strip s := by
        simp only [strip] at hz ⊢
        split
        · rename_i hc; rw [if_pos hc] at hz; exact absurd rfl hz
        · rfl
      have hst : strip (b :: t) = b :: strip t := by
        simp only [strip] at ht ⊢
        split
        · rename_i hc; rw [if_pos hc] at ht; exact absurd rfl ht
        · rfl
      simp only [DigitsBegin, hz, false_or]
      rw [hs, hst]
      simp only [List.cons_append, bLt] at h ⊢
      by_cases h3 : a < b
      · have : a ≠ b := fun e => by subst e; exact UInt8.lt_irrefl _ h3
        simp [h3, this]
      · rw [if_neg h3] at h ⊢
        by_cases h4 : a = b
        · subst h4
          simp only [if_true, true_and] at h ⊢
          exact strip_order (by simpa using hl) (fun b hb => ha b (by simp [hb])) (fun b' hb' => hb b' (by simp [hb'])) h
        · rw [if_neg h4] at h; cases h

theorem strip_zeros {s : Bytes} : strip s = [] ↔ s = List.replicate s.length 48 := by
  induction s with
  | nil => simp [strip]
  | cons b s ih =>
    simp only [strip, List.length_cons, List.replicate_succ, List.cons.injEq, ← ih]
    split
    · rename_i h; simp [h]
    · rename_i h; simpa using h

theorem begins_iff : ∀ {s t : Bytes}, s.length = t.length → (DigitsBegin s t ↔ ∃ p z r, s = p ++ List.replicate z 48 ∧ t = p ++ r)
  | [], [], _ => by simp only [DigitsBegin, true_iff]; exact ⟨[], 0, [], rfl, rfl⟩
  | a :: s, b :: t, hl => by
    simp only [DigitsBegin]
    constructor
    · rintro (h | ⟨rfl, h⟩)
      · exact ⟨[], _, b :: t, by rw [List.nil_append]; exact strip_zeros.1 h, rfl⟩
      · obtain ⟨p, z, r, rfl, rfl⟩ := (begins_iff (by simpa using hl)).1 h
        exact ⟨a :: p, z, r, rfl, rfl⟩
    · rintro ⟨p, z, r, h1, h2⟩
      cases p with
      | nil =>
        refine .inl (strip_zeros.2 ?_)
        rw [List.nil_append] at h1
        have := congrArg List.length h1
        rw [List.length_replicate] at this
        rw [this]; exact h1
      | cons x p =>
        simp only [List.cons_append, List.cons.injEq] at h1 h2
        exact .inr ⟨by rw [h1.1, h2.1], (begins_iff (by simpa using hl)).2 ⟨p, z, r, h1.2, h2.2⟩⟩

theorem readOn_total : ∀ (r : Bytes) (q : Nat), (∀ c ∈ r, isDigit c = true) → ∃ x, readOn (some q) r = some x
  | [], q, _ => ⟨q, rfl⟩
  | c :: r, q, hd => by
    have e : readOn (some q) (c :: r) = readOn (some (10 * q + (c.toNat - 48))) r := by
      simp only [readOn, List.foldl_cons, Option.bind_some, if_pos (hd c (by simp))]
    rw [e]
    exact readOn_total r _ (fun c hc => hd c (by simp [hc]))

theorem readOn_bound : ∀ {r : Bytes} {q x : Nat}, readOn (some q) r = some x → x < (q + 1) * 10 ^ r.length
  | [], q, x, h => by cases h; simp
  | c :: r, q, x, h => by
    obtain ⟨d, h⟩ := readOn_cons h
    have := isDigit_range d
    have ih := readOn_bound h
    have : (10 * q + (c.toNat - 48) + 1) * 10 ^ r.length ≤ ((q + 1) * 10) * 10 ^ r.length := Nat.mul_le_mul_right _ (by omega)
    rw [List.length_cons, Nat.pow_succ, Nat.mul_comm (10 ^ r.length) 10, ← Nat.mul_assoc]
    omega

theorem numeral_unique {s t : Bytes} {x : Nat} (hl : s.length = t.length) (h1 : number s = some x) (h2 : number t = some x) : s = t := by
  rcases bLt_total s t with e | e | e
  · exact e
  · have := readOn_before (p := 0) hl h1 h2 e; omega
  · have := readOn_before (p := 0) hl.symm h2 h1 e; omega

theorem numeral_exists {q w : Nat} (h : q < 10 ^ w) : ∃ p : Bytes, p.length = w ∧ number p = some q := by
  rcases Nat.eq_zero_or_pos w with rfl | hw
  · exact ⟨[], rfl, by simp at h; subst h; rfl⟩
  · exact ⟨_, appendInt_nat h hw⟩

/-- The digits of the fraction of a second agree exactly if the one number is the other one cut off. -/
theorem begins_cut {x y : Nat} (hx : x < 10 ^ 9) (hy : y < 10 ^ 9) : DigitsBegin (dig x 9) (dig y 9) ↔ ∃ k : Nat, k ≤ 9 ∧ x = y / 10 ^ k * 10 ^ k := by
  obtain ⟨l1, n1⟩ := appendInt_nat (n := x) (w := 9) hx (by omega)
  obtain ⟨l2, n2⟩ := appendInt_nat (n := y) (w := 9) hy (by omega)
  rw [begins_iff (by rw [l1, l2])]
  constructor
  · rintro ⟨p, z, r, h1, h2⟩
    rw [dig] at h1 h2
    rw [h1] at n1 l1
    rw [h2] at n2 l2
    obtain ⟨a, ha⟩ := number_prefix n1
    have e1 := number_app ha (number_zeros z)
    rw [n1] at e1
    simp only [List.length_append, List.length_replicate, Option.some.injEq, Nat.add_zero] at e1 l1 l2
    obtain ⟨b, hb⟩ := readOn_total r 0 (fun c hc => digits_of_number n2 c (by simp [hc]))
    have e2 := number_app ha (t := r) hb
    rw [n2] at e2
    have hz : r.length = z := by omega
    have hbz := readOn_bound hb
    rw [hz] at e2 hbz
    simp only [Option.some.injEq, Nat.zero_add, Nat.one_mul] at e2 hbz
    refine ⟨z, by omega, ?_⟩
    rw [e2, Nat.add_comm, Nat.add_mul_div_right _ _ (Nat.pow_pos (by omega)), Nat.div_eq_of_lt hbz, Nat.zero_add, ← e1]
  · rintro ⟨k, hk, h⟩
    have hq : y / 10 ^ k < 10 ^ (9 - k) := by
      rw [Nat.div_lt_iff_lt_mul (Nat.pow_pos (by omega)), ← Nat.pow_add, Nat.sub_add_cancel hk]
      exact hy
    obtain ⟨p, p1, p2⟩ := numeral_exists hq
    obtain ⟨r, r1, r2⟩ := numeral_exists (Nat.mod_lt y (Nat.pow_pos (by omega) : 0 < 10 ^ k))
    refine ⟨p, k, r, ?_, ?_⟩
    · refine numeral_unique (by simp [l1, p1]; omega) n1 ?_
      rw [number_app p2 (number_zeros k), List.length_replicate, h, Nat.add_zero]
    · refine numeral_unique (by simp [l2, p1, r1]; omega) n2 ?_
      rw [number_app p2 r2, r1, Nat.mul_comm, Nat.div_add_mod]

theorem formatNano_strip (x : Nat) : formatNano x = if strip (dig x 9) = [] then [] else 46 :: strip (dig x 9) := by
  simp only [formatNano, strip_eq, dig]

theorem fraction_order {x y : Nat} (hx : x < 10 ^ 9) (hy : y < 10 ^ 9) (h : x < y) : bLt (formatNano x ++ [90]) (formatNano y ++ [90]) = true ↔ ¬ ∃ k : Nat, k ≤ 9 ∧ x = y / 10 ^ k * 10 ^ k := by
  obtain ⟨l1, n1⟩ := appendInt_nat (n := x) (w := 9) hx (by omega)
  obtain ⟨l2, n2⟩ := appendInt_nat (n := y) (w := 9) hy (by omega)
  have hlt := numeral_order (by rw [l1, l2]) n1 n2 h
  have hs := strip_order (s := dig x 9) (t := dig y 9) (by rw [dig, dig, l1, l2]) (fun b hb => digits_of_number n1 b hb) (fun b hb => digits_of_number n2 b hb) hlt
  rw [begins_cut hx hy] at hs
  have hz : ∀ {n : Nat}, n < 10 ^ 9 → strip (dig n 9) = [] → n = 0 := by
    intro n hn hz
    obtain ⟨l, e⟩ := appendInt_nat (n := n) (w := 9) hn (by omega)
    rw [strip_zeros, dig, l] at hz
    rw [hz, number_zeros] at e
    cases e; rfl
  have hy0 : strip (dig y 9) ≠ [] := fun e => by have := hz hy e; omega
  rw [formatNano_strip, formatNano_strip, if_neg hy0]
  split
  · rename_i h0
    have := hz hx h0
    subst this
    have e : bLt ([] ++ [90]) (46 :: strip (dig y 9) ++ [90]) = false := by
      simp only [List.nil_append, List.cons_append, bLt]
      rfl
    rw [e]
    simp only [Bool.false_eq_true, false_iff, Classical.not_not]
    exact ⟨9, Nat.le_refl _, by rw [Nat.div_eq_of_lt hy, Nat.zero_mul]⟩
  · rw [← hs]
    simp only [List.cons_append, bLt, UInt8.lt_irrefl, if_false, if_true]

/-! ## Timestamps -/

theorem cutOff_iff {n m : Int} (h : n < m) : CutOff m n ↔ n / 1000000000 = m / 1000000000 ∧ ∃ k : Nat, k ≤ 9 ∧ (n % 1000000000).toNat = (m % 1000000000).toNat / 10 ^ k * 10 ^ k := by
  constructor
  · rintro ⟨k, hk, e⟩
    have key : n / 1000000000 = m / 1000000000 ∧ (n % 1000000000).toNat = (m % 1000000000).toNat / 10 ^ k * 10 ^ k := by
      match k, hk, e with
      | 0, _, e | 1, _, e | 2, _, e | 3, _, e | 4, _, e | 5, _, e | 6, _, e | 7, _, e | 8, _, e | 9, _, e => simp only [Int.reducePow, Nat.reducePow] at e ⊢; omega
      | k + 10, hk, _ => omega
    exact ⟨key.1, k, hk, key.2⟩
  · rintro ⟨e1, k, hk, e⟩
    refine ⟨k, hk, ?_⟩
    match k, hk, e with
    | 0, _, e | 1, _, e | 2, _, e | 3, _, e | 4, _, e | 5, _, e | 6, _, e | 7, _, e | 8, _, e | 9, _, e => simp only [Int.reducePow, Nat.reducePow] at e ⊢; omega
    | k + 10, hk, _ => omega

/-- **C110.** The texts of two timestamps are in the order of the timestamps, except if the earlier one is the later one cut off to fewer decimals (or to whole seconds): then the text of the earlier one comes last. -/
theorem timestamp_text_order {n m : Int} (hn : IsI64 n) (hm : IsI64 m) (h : n < m) {s t : Bytes} (hs : timeMarshalJSON n = [34] ++ s ++ [34]) (ht : timeMarshalJSON m = [34] ++ t ++ [34]) :
    (¬ CutOff m n → TextBefore s t) ∧ (CutOff m n → TextBefore t s) := by
  have e1 : (timeGoTime n).rfc3339Nano = s := by simpa [timeMarshalJSON] using hs
  have e2 : (timeGoTime m).rfc3339Nano = t := by simpa [timeMarshalJSON] using ht
  have hne : s ≠ t := by
    rintro rfl
    have := timestamp_text_injective hn hm (hs.trans ht.symm)
    omega
  have key : bLt s t = true ↔ ¬ CutOff m n := by
    rw [← e1, ← e2, cutOff_iff h]
    by_cases hq : n / 1000000000 = m / 1000000000
    · obtain ⟨p, a, b⟩ := same_second hn hm hq
      rw [a, b, bLt_app_same]
      simp only [hq, true_and]
      exact fraction_order (by omega) (by omega) (by omega)
    · have := seconds_order hn hm (by omega)
      simp [this, hq]
  refine ⟨fun hc => textBefore_iff.2 (key.2 hc), fun hc => ?_⟩
  rcases bLt_total s t with e | e | e
  · exact absurd e hne
  · exact absurd hc (key.1 e)
  · exact textBefore_iff.2 e

/-- C110: in different seconds, and for timestamps that are whole seconds, the texts are in the order of the timestamps. -/
theorem timestamp_text_order_seconds {n m : Int} (hn : IsI64 n) (hm : IsI64 m) {s t : Bytes} (hs : timeMarshalJSON n = [34] ++ s ++ [34]) (ht : timeMarshalJSON m = [34] ++ t ++ [34]) (h : n / 1000000000 < m / 1000000000) :
    TextBefore s t := by
  have hlt : n < m := by omega
  refine (timestamp_text_order hn hm hlt hs ht).1 ?_
  rw [cutOff_iff hlt]
  rintro ⟨e, _⟩
  omega

/-- C110: 2022-03-15T12:01:18Z is before 2022-03-15T12:01:18.9Z, but its text comes after that. 2022-03-15T12:01:18.85Z is before both 18.9Z and its text too. -/
theorem timestamp_text_order_sample : CutOff 1647345678900000000 1647345678000000000 ∧ ¬ CutOff 1647345678900000000 1647345678850000000 ∧
    timeMarshalJSON 1647345678000000000 = lit "\"2022-03-15T12:01:18Z\"" ∧ timeMarshalJSON 1647345678900000000 = lit "\"2022-03-15T12:01:18.9Z\"" ∧
    TextBefore (lit "2022-03-15T12:01:18.9Z") (lit "2022-03-15T12:01:18Z") ∧ TextBefore (lit "2022-03-15T12:01:18.85Z") (lit "2022-03-15T12:01:18.9Z") := by
  refine ⟨⟨9, by omega, by decide +kernel⟩, ?_, by decide +kernel, by decide +kernel, textBefore_iff.2 (by decide +kernel), textBefore_iff.2 (by decide +kernel)⟩
  rw [cutOff_iff (by omega)]
  rintro ⟨_, k, hk, e⟩
  have hall : ∀ k : Nat, k ≤ 9 → ¬ ((1647345678850000000 % 1000000000 : Int).toNat = (1647345678900000000 % 1000000000 : Int).toNat / 10 ^ k * 10 ^ k) := by decide +kernel
  exact hall k hk e

end Sawmill
