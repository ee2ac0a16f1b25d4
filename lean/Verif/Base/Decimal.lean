import Verif.Base.Bytes
/-!
# Decimal numerals (`strconv.Itoa` on non-negative numbers)
-/

namespace Sawmill

/-- Decimal digits, most significant first. -/
def itoa (n : Nat) : Bytes := if n < 10 then [UInt8.ofNat (48 + n)] else itoa (n / 10) ++ [UInt8.ofNat (48 + n % 10)]
termination_by n

def isDigit (b : UInt8) : Bool := 48 ≤ b.toNat && b.toNat ≤ 57

theorem digit_toNat {d : Nat} (h : d < 10) : (UInt8.ofNat (48 + d)).toNat = 48 + d := by
  simp [UInt8.toNat_ofNat']; omega

theorem itoa_lt {n : Nat} (h : n < 10) : itoa n = [UInt8.ofNat (48 + n)] := by rw [itoa, if_pos h]
theorem itoa_ge {n : Nat} (h : ¬ n < 10) : itoa n = itoa (n / 10) ++ [UInt8.ofNat (48 + n % 10)] := by
  conv => lhs; rw [itoa, if_neg h]

theorem itoa_digits (n : Nat) : ∀ b ∈ itoa n, isDigit b = true := by
  induction n using itoa.induct with
  | case1 n h => rw [itoa_lt h]; simp only [List.mem_singleton]; rintro b rfl; simp [isDigit, digit_toNat h]; omega
  | case2 n h ih =>
    rw [itoa_ge h]; simp only [List.mem_append, List.mem_singleton]
    rintro b (hb | rfl)
    · exact ih b hb
    · have : n % 10 < 10 := Nat.mod_lt _ (by omega)
      simp [isDigit, digit_toNat this]; omega

theorem itoa_ne_nil (n : Nat) : itoa n ≠ [] := by
  by_cases h : n < 10
  · simp [itoa_lt h]
  · simp [itoa_ge h]

theorem itoa_length_one {n : Nat} : (itoa n).length = 1 ↔ n < 10 := by
  by_cases h : n < 10
  · simp [itoa_lt h, h]
  · rw [itoa_ge h]
    have := itoa_ne_nil (n / 10)
    have : (itoa (n / 10)).length ≠ 0 := by simpa using this
    simp only [List.length_append, List.length_singleton]; omega

theorem itoa_inj {m n : Nat} (h : itoa m = itoa n) : m = n := by
  induction m using Nat.strongRecOn generalizing n with
  | _ m ih =>
    by_cases hm : m < 10
    · have hn : n < 10 := by rw [← itoa_length_one, ← h, itoa_length_one]; exact hm
      rw [itoa_lt hm, itoa_lt hn] at h
      have := congrArg UInt8.toNat (List.cons.inj h).1
      rw [digit_toNat hm, digit_toNat hn] at this
      omega
    · have hn : ¬ n < 10 := by rw [← itoa_length_one, ← h, itoa_length_one]; exact hm
      rw [itoa_ge hm, itoa_ge hn] at h
      have h' := List.append_inj' h rfl
      have hd := ih (m / 10) (by omega) h'.1
      have := congrArg UInt8.toNat (List.cons.inj h'.2).1
      rw [digit_toNat (Nat.mod_lt _ (by omega)), digit_toNat (Nat.mod_lt _ (by omega))] at this
      omega

/-- A separator that occurs in neither prefix splits a string in only one way. -/
theorem split_unique {u v x y : Bytes} {c : UInt8} (hu : c ∉ u) (hv : c ∉ v) (h : u ++ c :: x = v ++ c :: y) : u = v ∧ x = y := by
  induction u generalizing v with
  | nil =>
    cases v with
    | nil => simp at h; exact ⟨rfl, h⟩
    | cons b bs => simp at h; exact absurd h.1 (by intro hc; subst hc; simp at hv)
  | cons a as ih =>
    cases v with
    | nil => simp at h; exact absurd h.1.symm (by intro hc; subst hc; simp at hu)
    | cons b bs =>
      simp at h
      obtain ⟨rfl, h⟩ := h
      have := ih (by simp at hu; exact hu.2) (by simp at hv; exact hv.2) h
      exact ⟨by rw [this.1], this.2⟩

end Sawmill
