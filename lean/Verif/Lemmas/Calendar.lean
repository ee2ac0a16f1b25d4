import Verif.Model.Time
import Verif.Spec.Time
import Mathlib.Data.List.Induction
/-!
# Calendar arithmetic and decimal digits
-/

namespace Sawmill
open Cal

/-! ## Digits -/

theorem number_append (s t : Bytes) : number (s ++ t) = (number s).bind fun n => t.foldl (fun acc b => acc.bind fun n => if isDigit b then some (10 * n + (b.toNat - 48)) else none) (some n) := by
  unfold number
  rw [List.foldl_append]
  cases List.foldl _ (some 0) s with
  | some n => rfl
  | none =>
    simp only [Option.bind_none]
    induction t with
    | nil => rfl
    | cons b t ih => simpa using ih

theorem number_snoc {s : Bytes} {n d : Nat} (h : number s = some n) (hd : d < 10) : number (s ++ [UInt8.ofNat (48 + d)]) = some (10 * n + d) := by
  rw [number_append, h]
  simp [isDigit, digit_toNat hd]
  omega

theorem number_itoa (n : Nat) : number (itoa n) = some n := by
  induction n using itoa.induct with
  | case1 n h =>
    rw [itoa_lt h]
    have := number_snoc (s := []) (n := 0) rfl h
    simpa using this
  | case2 n h ih =>
    rw [itoa_ge h, number_snoc ih (Nat.mod_lt _ (by omega))]
    congr 1; omega

theorem number_zeros (k : Nat) : number (List.replicate k 48) = some 0 := by
  induction k with
  | zero => rfl
  | succ k ih =>
    rw [List.replicate_succ', number_append, ih]
    rfl

theorem foldl_digits (t : Bytes) (n m : Nat) (h : number t = some m) :
    t.foldl (fun acc b => acc.bind fun n => if isDigit b then some (10 * n + (b.toNat - 48)) else none) (some n) = some (n * 10 ^ t.length + m) := by
  induction t using List.reverseRecOn generalizing m with
  | nil => simp [number] at h; subst h; simp
  | append_singleton t b ih =>
    rw [number_append] at h
    cases hn : number t with
    | none => rw [hn] at h; simp at h
    | some m' =>
      rw [hn] at h
      simp only [Option.bind_some, List.foldl_cons, List.foldl_nil] at h
      rw [List.foldl_append, ih m' hn]
      simp only [Option.bind_some, List.foldl_cons, List.foldl_nil]
      split at h
      · rename_i hb
        rw [if_pos hb]
        simp only [Option.some.injEq] at h ⊢
        rw [← h]
        simp only [List.length_append, List.length_singleton, Nat.pow_succ]
        rw [Nat.mul_add, Nat.add_assoc, ← Nat.mul_assoc, ← Nat.mul_assoc, Nat.mul_comm 10 n, Nat.mul_right_comm]
      · simp at h

theorem number_app {s t : Bytes} {n m : Nat} (hs : number s = some n) (ht : number t = some m) : number (s ++ t) = some (n * 10 ^ t.length + m) := by
  rw [number_append, hs, Option.bind_some, foldl_digits t n m ht]

theorem itoa_length_le {n w : Nat} (h : n < 10 ^ w) (hw : 1 ≤ w) : (itoa n).length ≤ w := by
  induction n using itoa.induct generalizing w with
  | case1 n hn => rw [itoa_lt hn]; simpa
  | case2 n hn ih =>
    rw [itoa_ge hn]
    simp only [List.length_append, List.length_singleton]
    obtain ⟨w, rfl⟩ : ∃ k, w = k + 1 := ⟨w - 1, by omega⟩
    have h1 : n / 10 < 10 ^ w := by rw [Nat.pow_succ] at h; omega
    have h2 : 1 ≤ w := by
      rcases Nat.eq_zero_or_pos w with rfl | h3
      · simp at h1; omega
      · exact h3
    have := ih h1 h2
    omega

theorem appendInt_nat {n w : Nat} (h : n < 10 ^ w) (hw : 1 ≤ w) : (appendInt (n : Int) w).length = w ∧ number (appendInt (n : Int) w) = some n := by
  have hl := itoa_length_le h hw
  have hneg : ¬ ((n : Int) < 0) := by omega
  simp only [appendInt, Int.natAbs_natCast, hneg, if_false, List.nil_append]
  refine ⟨by simp; omega, ?_⟩
  rw [number_app (number_zeros _) (number_itoa n)]
  simp

/-! ## The fraction -/

theorem dropWhile_zeros (s : Bytes) : ∃ k, s = List.replicate k 48 ++ s.dropWhile (· = 48) := by
  induction s with
  | nil => exact ⟨0, rfl⟩
  | cons b s ih =>
    by_cases hb : b = 48
    · obtain ⟨k, hk⟩ := ih
      refine ⟨k + 1, ?_⟩
      rw [List.dropWhile_cons_of_pos (by simpa using hb), List.replicate_succ, List.cons_append, ← hk, hb]
    · exact ⟨0, by simp [List.dropWhile_cons_of_neg, hb]⟩

theorem digits_of_number {s : Bytes} {n : Nat} (h : number s = some n) : ∀ b ∈ s, isDigit b := by
  induction s using List.reverseRecOn generalizing n with
  | nil => simp
  | append_singleton s b ih =>
    rw [number_append] at h
    cases hn : number s with
    | none => rw [hn] at h; simp at h
    | some m =>
      rw [hn] at h
      simp only [Option.bind_some, List.foldl_cons, List.foldl_nil] at h
      intro x hx
      rcases List.mem_append.1 hx with hx | hx
      · exact ih hn x hx
      · simp at hx; subst hx
        split at h
        · assumption
        · simp at h

theorem number_prefix {s t : Bytes} {n : Nat} (h : number (s ++ t) = some n) : ∃ m, number s = some m := by
  rw [number_append] at h
  cases hn : number s with
  | none => rw [hn] at h; simp at h
  | some m => exact ⟨m, rfl⟩

theorem formatNano_spec {n : Nat} (h : n < 1000000000) :
    (n = 0 ∧ formatNano n = []) ∨ ∃ s, formatNano n = 46 :: s ∧ s ≠ [] ∧ fraction s = some n := by
  obtain ⟨hl, hn⟩ := appendInt_nat (n := n) (w := 9) h (by omega)
  obtain ⟨k, hk⟩ := dropWhile_zeros (appendInt (n : Int) 9).reverse
  have hk' : appendInt (n : Int) 9 = ((appendInt (n : Int) 9).reverse.dropWhile (· = 48)).reverse ++ List.replicate k 48 := by
    have := congrArg List.reverse hk
    simpa using this
  unfold formatNano
  simp only []
  generalize hd : ((appendInt (n : Int) 9).reverse.dropWhile (· = 48)).reverse = kept at *
  rw [hk'] at hl hn
  obtain ⟨m, hm⟩ := number_prefix hn
  rw [number_app hm (number_zeros k)] at hn
  simp only [List.length_replicate, Nat.add_zero, Option.some.injEq] at hn
  simp only [List.length_append, List.length_replicate] at hl
  by_cases hke : kept = []
  · left
    subst hke
    simp only [number, List.foldl_nil, Option.some.injEq] at hm
    subst hm
    simp at hn
    exact ⟨hn.symm, by simp⟩
  · right
    refine ⟨kept, by simp [hke], hke, ?_⟩
    unfold fraction
    rw [if_pos (by omega), hm, show 9 - kept.length = k by omega]
    simp [hn]

/-! ## The calendar -/

theorem daysBeforeYear_eq (y : Nat) (hy : 1 ≤ y) : (daysBeforeYear y : Int) = 365 * y + ((y : Int) - 1) / 4 - ((y : Int) - 1) / 100 + ((y : Int) - 1) / 400 + 1 := by
  induction y with
  | zero => omega
  | succ y ih =>
    rcases Nat.eq_zero_or_pos y with rfl | hp
    · decide
    · have := ih hp
      simp only [daysBeforeYear, daysInYear, leap, decide_eq_true_eq]
      by_cases hl : y % 4 = 0 ∧ (y % 100 ≠ 0 ∨ y % 400 = 0)
      · rw [if_pos hl]; omega
      · rw [if_neg hl]; omega

/-- The steps of `absYear`, in plain arithmetic. -/
theorem absYear_arith (D : Nat) :
    let n1 := D / 146097
    let d1 := D - 146097 * n1
    let n2 := d1 / 36524 - d1 / 36524 / 4
    let d2 := d1 - 36524 * n2
    let n3 := d2 / 1461
    let d3 := d2 - 1461 * n3
    let n4 := d3 / 365 - d3 / 365 / 4
    let z := 400 * n1 + 100 * n2 + 4 * n3 + n4
    let d := d3 - 365 * n4
    D = 365 * z + z / 4 - z / 100 + z / 400 + d ∧ (d < 365 ∨ d = 365 ∧ (z + 1) % 4 = 0 ∧ ((z + 1) % 100 ≠ 0 ∨ (z + 1) % 400 = 0)) := by
  intro n1 d1 n2 d2 n3 d3 n4 z d
  have h1 : d1 < 146097 := by omega
  have h2 : n2 ≤ 3 := by omega
  have h3 : d2 < 36525 ∧ (n2 < 3 → d2 < 36524) := by omega
  have h4 : n3 ≤ 24 ∧ d3 < 1461 := by omega
  have h5 : n4 ≤ 3 := by omega
  have h6 : d < 366 ∧ (n4 < 3 → d < 365) := by omega
  have z1 : z / 4 = 100 * n1 + 25 * n2 + n3 := by omega
  have z2 : z / 100 = 4 * n1 + n2 := by omega
  have z3 : z / 400 = n1 := by omega
  refine ⟨by omega, ?_⟩
  by_cases hd : d < 365
  · exact .inl hd
  · refine .inr ⟨by omega, by omega, ?_⟩
    have : n4 = 3 := by omega
    omega

theorem absYear_spec (abs : Nat) (h1 : 146097 * 730692556 ≤ abs / 86400) : ∃ y yd : Nat, absYear abs = ((y : Int), yd) ∧ 1 ≤ y ∧ yd < daysInYear y ∧
    ((abs / 86400 : Nat) : Int) = daysBeforeYear y + yd - 366 + 146097 * 730692556 := by
  have := absYear_arith (abs / 86400)
  simp only [absYear]
  generalize abs / 86400 = D at *
  simp only [] at this
  generalize hz : 400 * (D / 146097) + 100 * ((D - 146097 * (D / 146097)) / 36524 - (D - 146097 * (D / 146097)) / 36524 / 4) + 4 * _ + _ = z at *
  generalize hd : _ - 365 * _ = d at *
  obtain ⟨a1, a2⟩ := this
  clear hz hd
  have hz' : 400 * 730692556 ≤ z := by omega
  obtain ⟨w, rfl⟩ : ∃ w, z = w + 400 * 730692556 := ⟨z - 400 * 730692556, by omega⟩
  refine ⟨w + 1, d, ?_, by omega, ?_, ?_⟩
  · simp only [absoluteZeroYear, Prod.mk.injEq, and_true]; omega
  · simp only [daysInYear, leap, decide_eq_true_eq]; split <;> omega
  · rw [daysBeforeYear_eq _ (by omega)]
    have e1 : (w + 400 * 730692556) / 4 = w / 4 + 100 * 730692556 := by omega
    have e2 : (w + 400 * 730692556) / 100 = w / 100 + 4 * 730692556 := by omega
    have e3 : (w + 400 * 730692556) / 400 = w / 400 + 730692556 := by omega
    rw [e1, e2, e3] at a1
    omega

/-! ## Months -/

def monthDayB (l : Bool) (yday : Nat) : Nat × Nat :=
  if l ∧ yday = 31 + 29 - 1 then (2, 29)
  else
    let day := if l ∧ yday > 31 + 29 - 1 then yday - 1 else yday
    let month := day / 31
    let end_ := daysBefore.getD (month + 1) 0
    if day ≥ end_ then (month + 2, day - end_ + 1) else (month + 1, day - daysBefore.getD month 0 + 1)

def daysInB (l : Bool) (m : Nat) : Nat :=
  match m with
  | 1 => 31 | 2 => if l then 29 else 28 | 3 => 31 | 4 => 30 | 5 => 31 | 6 => 30
  | 7 => 31 | 8 => 31 | 9 => 30 | 10 => 31 | 11 => 30 | 12 => 31 | _ => 0

def daysBeforeMonthB (l : Bool) : Nat → Nat
  | 0 => 0
  | m + 1 => daysBeforeMonthB l m + daysInB l m

theorem daysBeforeMonth_eq (y m : Nat) : daysBeforeMonth y m = daysBeforeMonthB (leap y) m := by
  induction m with
  | zero => rfl
  | succ m ih => simp only [daysBeforeMonth, daysBeforeMonthB, ih]; rfl

/-- Every day of the two kinds of years (the whole domain). -/
theorem monthDayB_spec : ∀ l : Bool, ∀ d < 366, (d < 365 ∨ l = true) →
    1 ≤ (monthDayB l d).1 ∧ (monthDayB l d).1 ≤ 12 ∧ 1 ≤ (monthDayB l d).2 ∧ (monthDayB l d).2 ≤ daysInB l (monthDayB l d).1 ∧
    daysBeforeMonthB l (monthDayB l d).1 + ((monthDayB l d).2 - 1) = d := by decide +kernel

theorem monthDay_spec (y d : Nat) (hd : d < daysInYear y) :
    1 ≤ (monthDay y d).1 ∧ (monthDay y d).1 ≤ 12 ∧ 1 ≤ (monthDay y d).2 ∧ (monthDay y d).2 ≤ daysIn y (monthDay y d).1 ∧
    daysBeforeMonth y (monthDay y d).1 + ((monthDay y d).2 - 1) = d := by
  have hl : isLeap (y : Int) = leap y := by
    simp only [isLeap, leap, decide_eq_decide]; omega
  have he : monthDay y d = monthDayB (leap y) d := by simp only [monthDay, monthDayB, hl]
  rw [he, daysBeforeMonth_eq, show daysIn y = daysInB (leap y) from rfl]
  refine monthDayB_spec _ d ?_ ?_
  · simp only [daysInYear] at hd; split at hd <;> omega
  · simp only [daysInYear] at hd
    split at hd
    · right; assumption
    · left; exact hd

end Sawmill
