import Verif.Spec.Json
/-!
# UTF-8
-/

namespace Sawmill
open Rfc

theorem char_valid (c : Char) : c.toNat < 0xD800 ∨ (0xDFFF < c.toNat ∧ c.toNat < 0x110000) := c.valid

theorem char_of {n : Nat} (h : n < 0xD800 ∨ (0xDFFF < n ∧ n < 0x110000)) : ∃ c : Char, c.toNat = n := by
  refine ⟨Char.ofNatAux n h, ?_⟩
  simp [Char.toNat, Char.ofNatAux]

theorem encodeRune_utf8 (c : Char) : encodeRune c.toNat = utf8 c := by
  have hv : c.val.toNat < 0xD800 ∨ (0xDFFF < c.val.toNat ∧ c.val.toNat < 0x110000) := char_valid c
  unfold encodeRune utf8 String.utf8EncodeChar
  have e : c.toNat = c.val.toNat := rfl
  rw [e]
  generalize c.val.toNat = n at *
  dsimp only
  by_cases h1 : n < 0x80
  · rw [if_pos h1, if_pos (show n ≤ 127 by omega)]
  · rw [if_neg h1, if_neg (show ¬ n ≤ 127 by omega)]
    by_cases h2 : n < 0x800
    · rw [if_pos h2, if_pos (show n ≤ 2047 by omega), show 0xC0 + n / 64 = n / 64 % 32 + 192 by omega, show 0x80 + n % 64 = n % 64 + 128 by omega]
    · rw [if_neg h2, if_neg (show ¬ n ≤ 2047 by omega)]
      by_cases h3 : n < 0x10000
      · rw [if_pos h3, if_pos (show n ≤ 65535 by omega), show 0xE0 + n / 4096 = n / 4096 % 16 + 224 by omega, show 0x80 + n / 64 % 64 = n / 64 % 64 + 128 by omega, show 0x80 + n % 64 = n % 64 + 128 by omega]
      · rw [if_neg h3, if_neg (show ¬ n ≤ 65535 by omega), show 0xF0 + n / 262144 = n / 262144 % 8 + 240 by omega, show 0x80 + n / 4096 % 64 = n / 4096 % 64 + 128 by omega,
          show 0x80 + n / 64 % 64 = n / 64 % 64 + 128 by omega, show 0x80 + n % 64 = n % 64 + 128 by omega]

theorem ofNat_toNat {n : Nat} (h : n < 256) : (UInt8.ofNat n).toNat = n := by simp [UInt8.toNat_ofNat']; omega

theorem eq_ofNat {b : UInt8} {n : Nat} (h : b.toNat = n) : b = UInt8.ofNat n := by
  subst h; simp

theorem utf8_ascii {c : Char} (h : c.toNat < 128) : utf8 c = [UInt8.ofNat c.toNat] := by
  rw [← encodeRune_utf8, encodeRune, if_pos (by omega)]

/-- Every byte of a character that is not ASCII is at least 128. -/
theorem utf8_high {c : Char} (h : 128 ≤ c.toNat) : utf8 c ≠ [] ∧ ∀ b ∈ utf8 c, 128 ≤ b.toNat := by
  have hv := char_valid c
  rw [← encodeRune_utf8]
  generalize c.toNat = n at h hv
  unfold encodeRune
  rw [if_neg (by omega)]
  split
  · refine ⟨by simp, ?_⟩
    simp only [List.mem_cons, List.not_mem_nil, or_false]
    rintro b (rfl | rfl) <;> rw [ofNat_toNat] <;> omega
  · split
    · refine ⟨by simp, ?_⟩
      simp only [List.mem_cons, List.not_mem_nil, or_false]
      rintro b (rfl | rfl | rfl) <;> rw [ofNat_toNat] <;> omega
    · refine ⟨by simp, ?_⟩
      simp only [List.mem_cons, List.not_mem_nil, or_false]
      rintro b (rfl | rfl | rfl | rfl) <;> rw [ofNat_toNat] <;> omega

theorem multi_of_char {c : Char} (h : 128 ≤ c.toNat) (r : Bytes) : multi (utf8 c ++ r) = some (utf8 c, r) := by
  have hv := char_valid c
  rw [← encodeRune_utf8]
  generalize c.toNat = n at h hv
  unfold encodeRune
  rw [if_neg (by omega)]
  have hc : ∀ x, x < 64 → isCont (UInt8.ofNat (0x80 + x)) = true := by
    intro x hx
    simp only [isCont, Bool.and_eq_true, decide_eq_true_eq]
    rw [ofNat_toNat (by omega)]
    omega
  split
  · simp only [List.cons_append, List.nil_append, multi]
    rw [if_pos (by rw [ofNat_toNat (by omega)]; omega), if_pos (hc _ (by omega))]
  · split
    · simp only [List.cons_append, List.nil_append, multi]
      rw [if_neg (by rw [ofNat_toNat (by omega)]; omega), if_pos (by rw [ofNat_toNat (by omega)]; omega), if_pos]
      simp only [Bool.and_eq_true, Bool.or_eq_true, decide_eq_true_eq, hc _ (Nat.mod_lt _ (by omega : 64 > 0)), true_and]
      rw [ofNat_toNat (by omega), ofNat_toNat (by omega)]
      omega
    · simp only [List.cons_append, List.nil_append, multi]
      rw [if_neg (by rw [ofNat_toNat (by omega)]; omega), if_neg (by rw [ofNat_toNat (by omega)]; omega), if_pos (by rw [ofNat_toNat (by omega)]; omega), if_pos]
      simp only [Bool.and_eq_true, Bool.or_eq_true, decide_eq_true_eq, hc _ (Nat.mod_lt _ (by omega : 64 > 0)), true_and]
      rw [ofNat_toNat (by omega), ofNat_toNat (by omega)]
      omega

theorem char_of_multi {l m r : Bytes} (h : multi l = some (m, r)) : ∃ c : Char, 128 ≤ c.toNat ∧ m = utf8 c ∧ l = m ++ r := by
  match l with
  | [] => simp [multi] at h
  | [_] => simp [multi] at h
  | a :: b :: r0 =>
    simp only [multi] at h
    by_cases ha : 0xC2 ≤ a.toNat ∧ a.toNat ≤ 0xDF
    · rw [if_pos ha] at h
      by_cases hb : isCont b = true
      · rw [if_pos hb] at h
        simp only [Option.some.injEq, Prod.mk.injEq] at h
        obtain ⟨rfl, rfl⟩ := h
        simp only [isCont, Bool.and_eq_true, decide_eq_true_eq] at hb
        obtain ⟨c, hc⟩ := char_of (n := (a.toNat - 0xC0) * 64 + (b.toNat - 0x80)) (by omega)
        refine ⟨c, by omega, ?_, rfl⟩
        rw [← encodeRune_utf8, hc, encodeRune, if_neg (by omega), if_pos (by omega)]
        simp only [List.cons.injEq, and_true]
        exact ⟨eq_ofNat (by omega), eq_ofNat (by omega)⟩
      · rw [if_neg hb] at h; simp at h
    · rw [if_neg ha] at h
      match r0 with
      | [] => simp at h
      | c0 :: r1 =>
        simp only at h
        by_cases ha2 : 0xE0 ≤ a.toNat ∧ a.toNat ≤ 0xEF
        · rw [if_pos ha2] at h
          split at h
          · next hb =>
            simp only [Option.some.injEq, Prod.mk.injEq] at h
            obtain ⟨rfl, rfl⟩ := h
            simp only [isCont, Bool.and_eq_true, decide_eq_true_eq, Bool.or_eq_true] at hb
            obtain ⟨c, hc⟩ := char_of (n := (a.toNat - 0xE0) * 4096 + (b.toNat - 0x80) * 64 + (c0.toNat - 0x80)) (by omega)
            refine ⟨c, by omega, ?_, rfl⟩
            rw [← encodeRune_utf8, hc, encodeRune, if_neg (by omega), if_neg (by omega), if_pos (by omega)]
            simp only [List.cons.injEq, and_true]
            exact ⟨eq_ofNat (by omega), eq_ofNat (by omega), eq_ofNat (by omega)⟩
          · simp at h
        · rw [if_neg ha2] at h
          match r1 with
          | [] => simp at h
          | d0 :: r2 =>
            simp only at h
            by_cases ha3 : 0xF0 ≤ a.toNat ∧ a.toNat ≤ 0xF4
            · rw [if_pos ha3] at h
              split at h
              · next hb =>
                simp only [Option.some.injEq, Prod.mk.injEq] at h
                obtain ⟨rfl, rfl⟩ := h
                simp only [isCont, Bool.and_eq_true, decide_eq_true_eq, Bool.or_eq_true] at hb
                obtain ⟨c, hc⟩ := char_of (n := (a.toNat - 0xF0) * 262144 + (b.toNat - 0x80) * 4096 + (c0.toNat - 0x80) * 64 + (d0.toNat - 0x80)) (by omega)
                refine ⟨c, by omega, ?_, rfl⟩
                rw [← encodeRune_utf8, hc, encodeRune, if_neg (by omega), if_neg (by omega), if_neg (by omega)]
                simp only [List.cons.injEq, and_true]
                exact ⟨eq_ofNat (by omega), eq_ofNat (by omega), eq_ofNat (by omega), eq_ofNat (by omega)⟩
              · simp at h
            · rw [if_neg ha3] at h; simp at h

theorem multi_iff {l m r : Bytes} : multi l = some (m, r) ↔ ∃ c : Char, 128 ≤ c.toNat ∧ m = utf8 c ∧ l = m ++ r := by
  refine ⟨char_of_multi, ?_⟩
  rintro ⟨c, hc, rfl, rfl⟩
  exact multi_of_char hc r

/-- No valid character starts at a byte that is not ASCII: no character at all does. -/
theorem multi_none_iff {b : UInt8} {t : Bytes} (hb : 128 ≤ b.toNat) : multi (b :: t) = none ↔ ∀ (c : Char) r, b :: t ≠ utf8 c ++ r := by
  constructor
  · intro h c r he
    by_cases hc : c.toNat < 128
    · rw [utf8_ascii hc] at he
      simp only [List.cons_append, List.nil_append, List.cons.injEq] at he
      rw [he.1, ofNat_toNat (by omega)] at hb
      omega
    · rw [he, multi_of_char (by omega)] at h
      simp at h
  · intro h
    cases hm : multi (b :: t) with
    | none => rfl
    | some x =>
      obtain ⟨m, r⟩ := x
      obtain ⟨c, _, rfl, he⟩ := char_of_multi hm
      exact absurd he (h c r)

/-- An ASCII byte ends any character: whether a character starts does not depend on what follows it. -/
theorem multi_append {t : Bytes} {q : UInt8} {rest : Bytes} (hq : q.toNat < 128) :
    multi (t ++ q :: rest) = (multi t).map fun x => (x.1, x.2 ++ q :: rest) := by
  cases hm : multi t with
  | some x =>
    obtain ⟨m, r⟩ := x
    obtain ⟨c, hc, rfl, rfl⟩ := char_of_multi hm
    simp only [List.append_assoc, Option.map_some]
    exact multi_of_char hc _
  | none =>
    cases hm2 : multi (t ++ q :: rest) with
    | none => rfl
    | some x =>
      obtain ⟨m, r⟩ := x
      obtain ⟨c, hc, rfl, he⟩ := char_of_multi hm2
      have hh := (utf8_high hc).2
      rcases List.append_eq_append_iff.1 he with ⟨a, h1, h2⟩ | ⟨a, h1, h2⟩
      · cases a with
        | nil =>
          simp only [List.append_nil] at h1
          have := multi_of_char hc []
          rw [h1, List.append_nil] at this
          rw [this] at hm; simp at hm
        | cons x a =>
          simp only [List.cons_append, List.cons.injEq] at h2
          have := hh x (by rw [h1]; simp)
          rw [← h2.1] at this
          omega
      · rw [h1, multi_of_char hc] at hm; simp at hm

theorem replacement_utf8 : replacement = utf8 repl := by decide +kernel

end Sawmill
