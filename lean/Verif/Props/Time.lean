import Verif.Lemmas.Calendar
/-!
# C48, C56: timestamps
-/

namespace Sawmill
open Cal

/-- The int64 numbers. -/
def IsI64 (n : Int) : Prop := -2 ^ 63 ≤ n ∧ n < 2 ^ 63

/-! ## C48 -/

/-- `GoTime` is exact: whole seconds (rounded down) and the nanoseconds above them, for every int64. No step of `time.Unix` overflows. -/
theorem goTime_exact {n : Int} (h : IsI64 n) : timeGoTime n = ⟨n / 1000000000 + unixToInternal, (n % 1000000000).toNat⟩ := by
  unfold IsI64 at h
  simp only [timeGoTime, goUnix, unixToInternal]
  by_cases hn : n < 0
  · have h1 : Int.tdiv n 1000000000 = -((-n) / 1000000000) := by
      have : n.tdiv 1000000000 = -((-n).tdiv 1000000000) := by rw [Int.neg_tdiv]; omega
      rw [this, Int.tdiv_eq_ediv_of_nonneg (by omega)]
    rw [if_pos (.inl hn), h1]
    have hs : wrapI64 (n - wrapI64 (-(-n / 1000000000) * 1000000000)) = n + (-n) / 1000000000 * 1000000000 := by simp only [wrapI64]; omega
    rw [hs]
    split <;> congr 1 <;> simp only [wrapI64] <;> omega
  · have h1 : Int.tdiv n 1000000000 = n / 1000000000 := by rw [Int.tdiv_eq_ediv_of_nonneg (by omega)]
    rw [h1]
    have hs : wrapI64 (n - wrapI64 (n / 1000000000 * 1000000000)) = n % 1000000000 := by simp only [wrapI64]; omega
    rw [hs, if_neg (show ¬ n % 1000000000 < 0 by omega)]
    split <;> congr 1 <;> simp only [wrapI64] <;> omega

/-- C48. The nanoseconds of the `time.Time` are those of the timestamp, for every int64. -/
theorem unixNano_goTime {n : Int} (h : IsI64 n) : (timeGoTime n).unixNano = n := by
  rw [goTime_exact h]
  unfold IsI64 at h
  simp only [GoTime.unixNano, unixToInternal, wrapI64]
  omega

/-- The nanoseconds since 1970 of a `time.Time`, without overflow. -/
def GoTime.exactNanos (t : GoTime) : Int := (t.ext - unixToInternal) * 1000000000 + t.nsec

/-- C48, other direction: a `time.Time` survives the conversion to a timestamp and back exactly when its nanoseconds fit an int64 (years 1678 to 2262, roughly). -/
theorem goTime_unixNano (t : GoTime) (hn : t.nsec < 1000000000) (he : IsI64 t.ext) : timeGoTime t.unixNano = t ↔ IsI64 t.exactNanos := by
  obtain ⟨ext, nsec⟩ := t
  have hw : IsI64 (GoTime.unixNano ⟨ext, nsec⟩) := by simp only [IsI64, GoTime.unixNano, wrapI64]; omega
  rw [goTime_exact hw]
  constructor
  · intro h
    generalize GoTime.unixNano ⟨ext, nsec⟩ = M at *
    unfold IsI64 at *
    simp only [GoTime.mk.injEq] at h
    simp only [GoTime.exactNanos]
    omega
  · intro h
    have : GoTime.unixNano ⟨ext, nsec⟩ = GoTime.exactNanos ⟨ext, nsec⟩ := by
      unfold IsI64 at *
      simp only [GoTime.unixNano, GoTime.exactNanos, wrapI64, unixToInternal] at *
      omega
    rw [this]
    simp only [GoTime.exactNanos] at *
    simp only [GoTime.mk.injEq]
    omega

example : IsI64 (-1) ∧ timeGoTime (-1) = ⟨unixToInternal - 1, 999999999⟩ ∧ ¬ IsI64 (GoTime.exactNanos ⟨unixToInternal + 9223372037, 0⟩) := by
  refine ⟨by simp [IsI64], by decide, by simp [IsI64, GoTime.exactNanos]; omega⟩

/-! ## C56: the text of a timestamp -/

theorem length4 {s : Bytes} (h : s.length = 4) : ∃ a b c d, s = [a, b, c, d] := by
  match s, h with
  | [a, b, c, d], _ => exact ⟨a, b, c, d, rfl⟩

theorem length2 {s : Bytes} (h : s.length = 2) : ∃ a b, s = [a, b] := by
  match s, h with
  | [a, b], _ => exact ⟨a, b, rfl⟩

theorem absClock_spec (abs : Nat) : ∃ h m s, absClock abs = (h, m, s) ∧ h < 24 ∧ m < 60 ∧ s < 60 ∧ h * 3600 + m * 60 + s = abs % 86400 := by
  refine ⟨_, _, _, rfl, ?_, ?_, ?_, ?_⟩ <;> omega

/-- C56. Read by the rules of the calendar (Spec/Time.lean), the text that `MarshalJSON` writes between the quotes is exactly the timestamp, to the nanosecond, for every int64. -/
theorem timestamp_text_denotes {n : Int} (h : IsI64 n) : ∃ s, timeMarshalJSON n = [34] ++ s ++ [34] ∧ parseRFC3339 s = some n := by
  refine ⟨_, rfl, ?_⟩
  rw [goTime_exact h]
  unfold IsI64 at h
  have habs : GoTime.abs ⟨n / 1000000000 + unixToInternal, (n % 1000000000).toNat⟩ = (n / 1000000000 + 62135596800 + 730692556 * 146097 * 86400).toNat := by
    simp only [GoTime.abs, absoluteToInternal, absoluteZeroYear, unixToInternal]
    omega
  simp only [GoTime.rfc3339Nano, absDate]
  rw [habs]
  generalize habs' : (n / 1000000000 + 62135596800 + 730692556 * 146097 * 86400).toNat = abs
  obtain ⟨y, yd, hy, hy1, hyd, hD⟩ := absYear_spec abs (by omega)
  obtain ⟨hh, mm, ss, hc, hh1, hm1, hs1, hsum⟩ := absClock_spec abs
  have hmd := monthDay_spec y yd hyd
  rw [hy, hc]
  simp only []
  generalize monthDay (y : Int) yd = md at *
  obtain ⟨mo, dd⟩ := md
  simp only [] at hmd ⊢
  obtain ⟨m1, m2, d1, d2, hmd⟩ := hmd
  have hyb : y < 10000 := by
    have := daysBeforeYear_eq y hy1
    omega
  have hdd : dd < 100 := by
    have : daysIn y mo ≤ 31 := by
      unfold daysIn
      repeat' split
      all_goals omega
    omega
  obtain ⟨l1, n1⟩ := appendInt_nat (n := y) (w := 4) (by omega) (by omega)
  obtain ⟨l2, n2⟩ := appendInt_nat (n := mo) (w := 2) (by omega) (by omega)
  obtain ⟨l3, n3⟩ := appendInt_nat (n := dd) (w := 2) (by omega) (by omega)
  obtain ⟨l4, n4⟩ := appendInt_nat (n := hh) (w := 2) (by omega) (by omega)
  obtain ⟨l5, n5⟩ := appendInt_nat (n := mm) (w := 2) (by omega) (by omega)
  obtain ⟨l6, n6⟩ := appendInt_nat (n := ss) (w := 2) (by omega) (by omega)
  obtain ⟨y1, y2, y3, y4, e1⟩ := length4 l1
  obtain ⟨a1, a2, e2⟩ := length2 l2
  obtain ⟨b1, b2, e3⟩ := length2 l3
  obtain ⟨c1, c2, e4⟩ := length2 l4
  obtain ⟨f1, f2, e5⟩ := length2 l5
  obtain ⟨g1, g2, e6⟩ := length2 l6
  rw [e1] at n1 ⊢; rw [e2] at n2 ⊢; rw [e3] at n3 ⊢; rw [e4] at n4 ⊢; rw [e5] at n5 ⊢; rw [e6] at n6 ⊢
  have h1970 : daysBeforeYear 1970 = 719528 := by decide +kernel
  have hfin : ((dayNumber y mo dd * 86400 + (hh * 3600 + mm * 60 + ss : Nat)) * 1000000000 + ((n % 1000000000).toNat : Nat)) = n := by
    simp only [dayNumber, h1970]
    omega
  have hcond : 1 ≤ mo ∧ mo ≤ 12 ∧ 1 ≤ dd ∧ dd ≤ daysIn y mo ∧ hh < 24 ∧ mm < 60 ∧ ss < 60 := ⟨m1, m2, d1, d2, hh1, hm1, hs1⟩
  rcases formatNano_spec (n := (n % 1000000000).toNat) (by omega) with ⟨z1, z2⟩ | ⟨fs, z1, z2, z3⟩
  · rw [z2]
    rw [z1] at hfin
    simp only [List.cons_append, List.nil_append, parseRFC3339, n1, n2, n3, n4, n5, n6, Option.bind_eq_bind, Option.bind_some, if_pos hcond, hfin]
  · rw [z1]
    have hlen : (fs ++ [90]).length ≥ 2 := by
      cases fs with
      | nil => exact absurd rfl z2
      | cons => simp
    simp only [List.cons_append, List.nil_append, List.append_assoc, parseRFC3339, n1, n2, n3, n4, n5, n6, Option.bind_eq_bind, Option.bind_some, List.getLast?_concat, hlen, and_self, if_true,
      List.dropLast_concat, z3, if_pos hcond, hfin]

/-- Different timestamps have different texts. -/
theorem timestamp_text_injective {n m : Int} (hn : IsI64 n) (hm : IsI64 m) (h : timeMarshalJSON n = timeMarshalJSON m) : n = m := by
  obtain ⟨s, h1, h2⟩ := timestamp_text_denotes hn
  obtain ⟨t, h3, h4⟩ := timestamp_text_denotes hm
  rw [h1, h3] at h
  have : s = t := by simpa using h
  subst this
  rw [h2] at h4
  exact Option.some.inj h4

/-- `String()` of a timestamp is its decimal numeral: an optional minus sign, then digits of the magnitude, so different timestamps have different strings. -/
theorem timestamp_string (n : Int) : ∃ d, timeString n = (if n < 0 then [45] else []) ++ d ∧ number d = some n.natAbs := by
  refine ⟨itoa n.natAbs, ?_, number_itoa _⟩
  simp [timeString, appendInt]

theorem timestamp_string_injective {n m : Int} (h : timeString n = timeString m) : n = m := by
  have hd : ∀ k, (itoa k).head? ≠ some 45 := by
    intro k hk
    have := itoa_digits k 45 (List.mem_of_mem_head? (by rw [hk]; simp))
    revert this; decide
  simp only [timeString, appendInt, Nat.zero_sub, List.replicate_zero, List.append_nil] at h
  split at h <;> split at h
  · have := itoa_inj (List.append_cancel_left h); omega
  · exfalso; apply hd m.natAbs; rw [show itoa m.natAbs = [45] ++ itoa n.natAbs by simpa using h.symm]; rfl
  · exfalso; apply hd n.natAbs; rw [show itoa n.natAbs = [45] ++ itoa m.natAbs by simpa using h]; rfl
  · have := itoa_inj (by simpa using h); omega

/-- `2022-03-15T12:01:18.9Z` -/
example : IsI64 1647345678900000000 ∧ parseRFC3339 [50, 48, 50, 50, 45, 48, 51, 45, 49, 53, 84, 49, 50, 58, 48, 49, 58, 49, 56, 46, 57, 90] = some 1647345678900000000 ∧
    parseRFC3339 [50, 48, 50, 50, 45, 48, 50, 45, 50, 57, 84, 49, 50, 58, 48, 49, 58, 49, 56, 90] = none := ⟨by simp [IsI64], by decide +kernel, by decide +kernel⟩

end Sawmill
