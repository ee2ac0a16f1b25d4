import Verif.Model.Quote
import Verif.Spec.Quote
import Verif.Lemmas.JsonStr
import Verif.Lemmas.Trim
/-!
# C87: quoted names
-/

namespace Sawmill
open Rfc
variable {pr : Nat → Bool}

theorem hex4_digits (a b c d : Nat) (ha : a < 16) (hb : b < 16) (hc : c < 16) (hd : d < 16) : Hex4 [hexDigit a, hexDigit b, hexDigit c, hexDigit d] (a * 4096 + b * 256 + c * 16 + d) :=
  ⟨_, _, _, _, a, b, c, d, rfl, hexDigit_spec ha, hexDigit_spec hb, hexDigit_spec hc, hexDigit_spec hd, rfl⟩

theorem char_eq_of_toNat {c d : Char} (h : c.toNat = d.toNat) : c = d := by
  apply Char.ext
  apply UInt32.toNat_inj.1
  exact h

/-- One character, quoted, stands for itself. -/
theorem escRune_lit (c : Char) {t s : Bytes} (h : GoLit t s) : GoLit (escRune pr c.toNat (utf8 c) ++ t) (utf8 c ++ s) := by
  have hv := char_valid c
  have one : ∀ k, c.toNat = k → k < 128 → utf8 c = [UInt8.ofNat k] := fun k hk hl => by rw [utf8_ascii (by omega), hk]
  have esc : ∀ (e : UInt8) (k : Nat), c.toNat = k → k < 128 → (e, UInt8.ofNat k) ∈ goEscapes → GoLit (92 :: e :: t) (utf8 c ++ s) := by
    intro e k hk hl he
    rw [one k hk hl]
    exact .escape e _ t s he h
  unfold escRune
  by_cases hq : c.toNat = 34 ∨ c.toNat = 92
  · rw [if_pos hq]
    rcases hq with hq | hq
    · rw [one _ hq (by omega)]; exact .escape 34 34 t s (by decide) h
    · rw [one _ hq (by omega)]; exact .escape 92 92 t s (by decide) h
  rw [if_neg hq]
  by_cases hp : isPrintRune pr c.toNat = true
  · rw [if_pos hp]
    refine .char c t s ?_ ?_ ?_ h
    · rintro rfl; exact hq (.inl (by decide))
    · rintro rfl; exact hq (.inr (by decide))
    · rintro rfl; simp [isPrintRune] at hp
  rw [if_neg hp]
  by_cases h7 : c.toNat = 7
  · rw [if_pos h7]; exact esc 97 7 h7 (by omega) (by decide)
  rw [if_neg h7]
  by_cases h8 : c.toNat = 8
  · rw [if_pos h8]; exact esc 98 8 h8 (by omega) (by decide)
  rw [if_neg h8]
  by_cases h12 : c.toNat = 12
  · rw [if_pos h12]; exact esc 102 12 h12 (by omega) (by decide)
  rw [if_neg h12]
  by_cases h10 : c.toNat = 10
  · rw [if_pos h10]; exact esc 110 10 h10 (by omega) (by decide)
  rw [if_neg h10]
  by_cases h13 : c.toNat = 13
  · rw [if_pos h13]; exact esc 114 13 h13 (by omega) (by decide)
  rw [if_neg h13]
  by_cases h9 : c.toNat = 9
  · rw [if_pos h9]; exact esc 116 9 h9 (by omega) (by decide)
  rw [if_neg h9]
  by_cases h11 : c.toNat = 11
  · rw [if_pos h11]; exact esc 118 11 h11 (by omega) (by decide)
  rw [if_neg h11]
  by_cases hx : c.toNat < 32 ∨ c.toNat = 127
  · rw [if_pos hx]
    have := GoLit.byte _ _ _ _ t s (hexDigit_spec (n := c.toNat / 16) (by omega)) (hexDigit_spec (n := c.toNat % 16) (by omega)) h
    rw [show c.toNat / 16 * 16 + c.toNat % 16 = c.toNat by omega] at this
    rw [utf8_ascii (by omega)]
    exact this
  rw [if_neg hx]
  by_cases hy : c.toNat < 0x10000
  · rw [if_pos hy]
    have h4 := hex4_digits (c.toNat / 4096) (c.toNat / 256 % 16) (c.toNat / 16 % 16) (c.toNat % 16) (by omega) (by omega) (by omega) (by omega)
    rw [show c.toNat / 4096 * 4096 + c.toNat / 256 % 16 * 256 + c.toNat / 16 % 16 * 16 + c.toNat % 16 = c.toNat by omega] at h4
    exact .short _ c t s h4 h
  · rw [if_neg hy]
    have h4 := hex4_digits (c.toNat / 268435456) (c.toNat / 16777216 % 16) (c.toNat / 1048576 % 16) (c.toNat / 65536 % 16) (by omega) (by omega) (by omega) (by omega)
    have h5 := hex4_digits (c.toNat / 4096 % 16) (c.toNat / 256 % 16) (c.toNat / 16 % 16) (c.toNat % 16) (by omega) (by omega) (by omega) (by omega)
    exact .long _ _ c _ _ t s h4 h5 (by omega) h

theorem quoteChars_lit : ∀ (n : Nat) (s : Bytes), s.length ≤ n → GoLit (quoteChars pr n s) s := by
  intro n
  induction n with
  | zero =>
    intro s h
    cases s with
    | nil => exact .nil
    | cons => simp at h
  | succ n ih =>
    intro s h
    cases s with
    | nil => exact .nil
    | cons b r =>
      simp only [quoteChars]
      split
      · next hb =>
        obtain ⟨c, hc, hu⟩ := utf8_of_ascii hb
        have := escRune_lit (pr := pr) c (ih r (by simp at h; omega))
        rw [hc, hu] at this
        exact this
      · next hb =>
        cases hm : multi (b :: r) with
        | none =>
          have := b.toNat_lt
          have h1 := GoLit.byte _ _ _ _ _ _ (hexDigit_spec (n := b.toNat / 16) (by omega)) (hexDigit_spec (n := b.toNat % 16) (by omega)) (ih r (by simp at h; omega))
          rw [show b.toNat / 16 * 16 + b.toNat % 16 = b.toNat by omega, UInt8.ofNat_toNat] at h1
          exact h1
        | some x =>
          obtain ⟨m, r'⟩ := x
          obtain ⟨c, hc, rfl, he⟩ := char_of_multi hm
          have hlen : r'.length ≤ n := by
            have h0 := congrArg List.length he
            have : 0 < (utf8 c).length := List.length_pos_iff.2 (utf8_high hc).1
            rw [List.length_append] at h0
            simp only [List.length_cons] at h h0
            omega
          have := escRune_lit (pr := pr) c (ih r' hlen)
          rw [he]
          simp only [(utf8_shape c).1]
          exact this

/-- C87. A quoted name, whatever its bytes, is an interpreted string literal of Go that denotes the name. -/
theorem quote_denotes (pr : Nat → Bool) (s : Bytes) : ∃ t, goQuote pr s = 34 :: (t ++ [34]) ∧ GoLit t s :=
  ⟨_, rfl, quoteChars_lit _ _ (Nat.le_refl _)⟩

/-! ## What a quoted text stands for, and where it ends -/

theorem utf8_first {c : Char} {b : UInt8} {r t : Bytes} (h : utf8 c ++ r = b :: t) (hb : b.toNat < 128) : c.toNat = b.toNat ∧ r = t := by
  rcases utf8_cases c with ⟨hc, hu⟩ | hc
  · rw [hu] at h
    simp only [List.cons_append, List.nil_append, List.cons.injEq] at h
    rw [← h.1, ofNat_toNat (by omega)]
    exact ⟨rfl, h.2⟩
  · obtain ⟨hne, hh⟩ := utf8_high hc
    cases hu : utf8 c with
    | nil => exact absurd hu hne
    | cons x y =>
      rw [hu] at h
      simp only [List.cons_append, List.cons.injEq] at h
      have := hh x (by rw [hu]; simp)
      rw [h.1] at this
      omega

theorem hexDigit_fun {b : UInt8} {v w : Nat} (h1 : HexDigit b v) (h2 : HexDigit b w) : v = w := by
  simp only [HexDigit] at h1 h2; omega

theorem hex4_prefix {u w : Bytes} {m n : Nat} {x y : Bytes} (hu : Hex4 u m) (hw : Hex4 w n) (h : u ++ x = w ++ y) : u = w ∧ m = n ∧ x = y := by
  have := List.append_inj h (by rw [hu.length, hw.length])
  obtain ⟨rfl, rfl⟩ := this
  have a := hex4_iff (r := x).2 ⟨u, rfl, hu⟩
  have b := hex4_iff (r := x).2 ⟨u, rfl, hw⟩
  rw [a] at b
  simp only [Option.some.injEq, Prod.mk.injEq, and_true] at b
  exact ⟨rfl, b, rfl⟩

theorem goEscapes_fun {e v w : UInt8} (h1 : (e, v) ∈ goEscapes) (h2 : (e, w) ∈ goEscapes) : v = w := by
  simp only [goEscapes, List.mem_cons, Prod.mk.injEq, List.not_mem_nil, or_false] at h1 h2
  rcases h1 with ⟨rfl, rfl⟩ | ⟨rfl, rfl⟩ | ⟨rfl, rfl⟩ | ⟨rfl, rfl⟩ | ⟨rfl, rfl⟩ | ⟨rfl, rfl⟩ | ⟨rfl, rfl⟩ | ⟨rfl, rfl⟩ | ⟨rfl, rfl⟩ <;> simp at h2 <;> exact h2.symm

theorem goEscapes_plain {e v : UInt8} (h : (e, v) ∈ goEscapes) : e ≠ 120 ∧ e ≠ 117 ∧ e ≠ 85 := by
  simp only [goEscapes, List.mem_cons, Prod.mk.injEq, List.not_mem_nil, or_false] at h
  rcases h with ⟨rfl, rfl⟩ | ⟨rfl, rfl⟩ | ⟨rfl, rfl⟩ | ⟨rfl, rfl⟩ | ⟨rfl, rfl⟩ | ⟨rfl, rfl⟩ | ⟨rfl, rfl⟩ | ⟨rfl, rfl⟩ | ⟨rfl, rfl⟩ <;> decide

/-- The first `"` that is not escaped ends the literal, and the text before it denotes one string only. -/
theorem goLit_prefix {t s : Bytes} (h : GoLit t s) : ∀ {t' s' x y : Bytes}, GoLit t' s' → t ++ 34 :: x = t' ++ 34 :: y → t = t' ∧ s = s' ∧ x = y := by
  induction h with
  | nil =>
    intro t' s' x y h' he
    cases h' with
    | nil => simpa using he
    | char c t1 s1 h1 h2 h3 h' =>
      rw [List.nil_append, List.append_assoc] at he
      have := (utf8_first he.symm (by decide)).1
      exact absurd (char_eq_of_toNat (d := '"') this) h1
    | escape => simp at he
    | byte => simp at he
    | short => simp at he
    | long => simp at he
  | char c t s h1 h2 h3 h ih =>
    intro t' s' x y h' he
    rw [List.append_assoc] at he
    have bad : ∀ z : Bytes, utf8 c ++ (t ++ 34 :: x) = 92 :: z → False := fun z hz => h2 (char_eq_of_toNat (d := '\\') (utf8_first hz (by decide)).1)
    generalize ht : t' = t0 at h' he
    generalize hs : s' = s0 at h'
    cases h' with
    | nil => exact absurd (char_eq_of_toNat (d := '"') (utf8_first he (by decide)).1) h1
    | char d t1 s1 k1 k2 k3 h' =>
      rw [List.append_assoc] at he
      obtain ⟨e1, e2⟩ := utf8_prefix he
      obtain ⟨rfl, rfl, rfl⟩ := ih h' e2
      rw [e1]
      exact ⟨rfl, rfl, rfl⟩
    | escape => exact absurd he (bad _)
    | byte => exact absurd he (bad _)
    | short => exact absurd he (bad _)
    | long => exact absurd he (bad _)
  | escape e v t s hev h ih =>
    intro t' s' x y h' he
    cases h' with
    | nil => simp at he
    | char d t1 s1 k1 k2 k3 h' =>
      rw [List.append_assoc] at he
      exact absurd (char_eq_of_toNat (d := '\\') (utf8_first he.symm (by decide)).1) k2
    | escape e' v' t1 s1 hev' h' =>
      simp only [List.cons_append, List.cons.injEq, true_and] at he
      obtain ⟨rfl, he⟩ := he
      obtain ⟨rfl, rfl, rfl⟩ := ih h' he
      rw [goEscapes_fun hev hev']
      exact ⟨rfl, rfl, rfl⟩
    | byte => simp only [List.cons_append, List.cons.injEq, true_and] at he; exact absurd he.1 (goEscapes_plain hev).1
    | short => simp only [List.cons_append, List.cons.injEq, true_and] at he; exact absurd he.1 (goEscapes_plain hev).2.1
    | long => simp only [List.cons_append, List.cons.injEq, true_and] at he; exact absurd he.1 (goEscapes_plain hev).2.2
  | byte a b p q t s ha hb h ih =>
    intro t' s' x y h' he
    cases h' with
    | nil => simp at he
    | char d t1 s1 k1 k2 k3 h' =>
      rw [List.append_assoc] at he
      exact absurd (char_eq_of_toNat (d := '\\') (utf8_first he.symm (by decide)).1) k2
    | escape e' v' t1 s1 hev' h' => simp only [List.cons_append, List.cons.injEq, true_and] at he; exact absurd he.1.symm (goEscapes_plain hev').1
    | byte a' b' p' q' t1 s1 ha' hb' h' =>
      simp only [List.cons_append, List.cons.injEq, true_and] at he
      obtain ⟨rfl, rfl, he⟩ := he
      obtain ⟨rfl, rfl, rfl⟩ := ih h' he
      rw [hexDigit_fun ha ha', hexDigit_fun hb hb']
      exact ⟨rfl, rfl, rfl⟩
    | short => simp at he
    | long => simp at he
  | short u c t s hu h ih =>
    intro t' s' x y h' he
    cases h' with
    | nil => simp at he
    | char d t1 s1 k1 k2 k3 h' =>
      rw [List.append_assoc] at he
      exact absurd (char_eq_of_toNat (d := '\\') (utf8_first he.symm (by decide)).1) k2
    | escape e' v' t1 s1 hev' h' => simp only [List.cons_append, List.cons.injEq, true_and] at he; exact absurd he.1.symm (goEscapes_plain hev').2.1
    | byte => simp at he
    | short u' c' t1 s1 hu' h' =>
      simp only [List.cons_append, List.cons.injEq, true_and, List.append_assoc] at he
      obtain ⟨rfl, e2, e3⟩ := hex4_prefix hu hu' he
      obtain ⟨rfl, rfl, rfl⟩ := ih h' e3
      rw [char_eq_of_toNat e2]
      exact ⟨rfl, rfl, rfl⟩
    | long => simp at he
  | long u w c hi lo t s hu hw hc h ih =>
    intro t' s' x y h' he
    cases h' with
    | nil => simp at he
    | char d t1 s1 k1 k2 k3 h' =>
      rw [List.append_assoc] at he
      exact absurd (char_eq_of_toNat (d := '\\') (utf8_first he.symm (by decide)).1) k2
    | escape e' v' t1 s1 hev' h' => simp only [List.cons_append, List.cons.injEq, true_and] at he; exact absurd he.1.symm (goEscapes_plain hev').2.2
    | byte => simp at he
    | short => simp at he
    | long u' w' c' hi' lo' t1 s1 hu' hw' hc' h' =>
      simp only [List.cons_append, List.cons.injEq, true_and, List.append_assoc] at he
      obtain ⟨rfl, e2, e3⟩ := hex4_prefix hu hu' he
      obtain ⟨rfl, e4, e5⟩ := hex4_prefix hw hw' e3
      obtain ⟨rfl, rfl, rfl⟩ := ih h' e5
      rw [char_eq_of_toNat (c := c) (d := c') (by omega)]
      exact ⟨rfl, rfl, rfl⟩

/-- C87. A literal denotes one string. -/
theorem literal_denotes_one {t s s' : Bytes} (h : GoLit t s) (h' : GoLit t s') : s = s' :=
  (goLit_prefix h h' (x := []) (y := []) rfl).2.1

/-- C87. Whatever follows a quoted name in a message, the name can be read back: different names never give the same message. -/
theorem quote_delimits {pr pr' : Nat → Bool} {s s' x y : Bytes} (h : goQuote pr s ++ x = goQuote pr' s' ++ y) : s = s' ∧ x = y := by
  obtain ⟨t, e, ht⟩ := quote_denotes pr s
  obtain ⟨t', e', ht'⟩ := quote_denotes pr' s'
  rw [e, e'] at h
  simp only [List.cons_append, List.cons.injEq, true_and, List.append_assoc, List.nil_append] at h
  exact (goLit_prefix ht ht' h).2

/-! ## One line -/

/-- Not a control character. -/
def Visible (b : UInt8) : Prop := 32 ≤ b.toNat ∧ b.toNat ≠ 127

theorem hexDigit_visible {n : Nat} (h : n < 16) : Visible (hexDigit n) := by
  have := hexDigit_spec h
  simp only [HexDigit] at this
  unfold Visible
  omega

theorem escRune_visible (c : Char) : ∀ b ∈ escRune pr c.toNat (utf8 c), Visible b := by
  have hv := char_valid c
  have own : ∀ k, c.toNat = k → k < 128 → utf8 c = [UInt8.ofNat k] := fun k hk hl => by rw [utf8_ascii (by omega), hk]
  have two : ∀ (e : UInt8), Visible e → ∀ b ∈ [92, e], Visible b := by
    intro e he b hb
    simp only [List.mem_cons, List.not_mem_nil, or_false] at hb
    rcases hb with rfl | rfl
    · exact ⟨by decide, by decide⟩
    · exact he
  have fixed : ∀ (e : UInt8) (l : Bytes), Visible e → (∀ b ∈ l, Visible b) → ∀ b ∈ 92 :: e :: l, Visible b := by
    intro e l he hl b hb
    simp only [List.mem_cons] at hb
    rcases hb with rfl | rfl | hb
    · exact ⟨by decide, by decide⟩
    · exact he
    · exact hl b hb
  unfold escRune
  by_cases hq : c.toNat = 34 ∨ c.toNat = 92
  · rw [if_pos hq]
    rcases hq with hq | hq <;> rw [own _ hq (by omega)] <;> exact two _ ⟨by decide, by decide⟩
  rw [if_neg hq]
  by_cases hp : isPrintRune pr c.toNat = true
  · rw [if_pos hp]
    intro b hb
    rcases utf8_cases c with ⟨hc, hu⟩ | hc
    · rw [hu] at hb
      simp only [List.mem_cons, List.not_mem_nil, or_false] at hb
      subst hb
      simp only [isPrintRune, if_pos hc, Bool.and_eq_true, decide_eq_true_eq] at hp
      unfold Visible
      rw [ofNat_toNat (by omega)]
      omega
    · have := (utf8_high hc).2 b hb
      unfold Visible
      omega
  rw [if_neg hp]
  by_cases h7 : c.toNat = 7
  · rw [if_pos h7]; exact two 97 ⟨by decide, by decide⟩
  rw [if_neg h7]
  by_cases h8 : c.toNat = 8
  · rw [if_pos h8]; exact two 98 ⟨by decide, by decide⟩
  rw [if_neg h8]
  by_cases h12 : c.toNat = 12
  · rw [if_pos h12]; exact two 102 ⟨by decide, by decide⟩
  rw [if_neg h12]
  by_cases h10 : c.toNat = 10
  · rw [if_pos h10]; exact two 110 ⟨by decide, by decide⟩
  rw [if_neg h10]
  by_cases h13 : c.toNat = 13
  · rw [if_pos h13]; exact two 114 ⟨by decide, by decide⟩
  rw [if_neg h13]
  by_cases h9 : c.toNat = 9
  · rw [if_pos h9]; exact two 116 ⟨by decide, by decide⟩
  rw [if_neg h9]
  by_cases h11 : c.toNat = 11
  · rw [if_pos h11]; exact two 118 ⟨by decide, by decide⟩
  rw [if_neg h11]
  by_cases hx : c.toNat < 32 ∨ c.toNat = 127
  · rw [if_pos hx]
    refine fixed 120 [hexDigit (c.toNat / 16), hexDigit (c.toNat % 16)] ⟨by decide, by decide⟩ ?_
    simp only [List.mem_cons, List.not_mem_nil, or_false]
    rintro b (rfl | rfl) <;> exact hexDigit_visible (by omega)
  rw [if_neg hx]
  by_cases hy : c.toNat < 0x10000
  · rw [if_pos hy]
    refine fixed 117 [hexDigit (c.toNat / 4096), hexDigit (c.toNat / 256 % 16), hexDigit (c.toNat / 16 % 16), hexDigit (c.toNat % 16)] ⟨by decide, by decide⟩ ?_
    simp only [List.mem_cons, List.not_mem_nil, or_false]
    rintro b (rfl | rfl | rfl | rfl) <;> exact hexDigit_visible (by omega)
  · rw [if_neg hy]
    refine fixed 85 [hexDigit (c.toNat / 268435456), hexDigit (c.toNat / 16777216 % 16), hexDigit (c.toNat / 1048576 % 16), hexDigit (c.toNat / 65536 % 16), hexDigit (c.toNat / 4096 % 16), hexDigit (c.toNat / 256 % 16), hexDigit (c.toNat / 16 % 16), hexDigit (c.toNat % 16)] ⟨by decide, by decide⟩ ?_
    simp only [List.mem_cons, List.not_mem_nil, or_false]
    rintro b (rfl | rfl | rfl | rfl | rfl | rfl | rfl | rfl) <;> exact hexDigit_visible (by omega)

theorem quoteChars_visible : ∀ (n : Nat) (s : Bytes), ∀ b ∈ quoteChars pr n s, Visible b := by
  intro n
  induction n with
  | zero => intro s b hb; simp [quoteChars] at hb
  | succ n ih =>
    intro s
    cases s with
    | nil => intro b hb; simp [quoteChars] at hb
    | cons a r =>
      intro b hb
      simp only [quoteChars] at hb
      split at hb
      · next ha =>
        obtain ⟨c, hc, hu⟩ := utf8_of_ascii ha
        rw [← hc, ← hu] at hb
        rcases List.mem_append.1 hb with hb | hb
        · exact escRune_visible c b hb
        · exact ih _ b hb
      · next ha =>
        cases hm : multi (a :: r) with
        | none =>
          rw [hm] at hb
          have := a.toNat_lt
          have e : lit "\\x" = [92, 120] := by decide
          simp only [e, List.mem_append, List.mem_cons, List.not_mem_nil, or_false] at hb
          rcases hb with ((rfl | rfl) | (rfl | rfl)) | hb
          · exact ⟨by decide, by decide⟩
          · exact ⟨by decide, by decide⟩
          · exact hexDigit_visible (by omega)
          · exact hexDigit_visible (by omega)
          · exact ih _ b hb
        | some x =>
          obtain ⟨m, r'⟩ := x
          rw [hm] at hb
          obtain ⟨c, hc, rfl, he⟩ := char_of_multi hm
          simp only [(utf8_shape c).1] at hb
          rcases List.mem_append.1 hb with hb | hb
          · exact escRune_visible c b hb
          · exact ih _ b hb

/-- C87. A quoted name has no control characters: no name can break the line of a message or send a terminal escape. -/
theorem quote_one_line (pr : Nat → Bool) (s : Bytes) : ∀ b ∈ goQuote pr s, 32 ≤ b.toNat ∧ b.toNat ≠ 127 := by
  intro b hb
  simp only [goQuote, List.mem_cons, List.mem_append, List.not_mem_nil, or_false] at hb
  rcases hb with rfl | hb | rfl
  · exact ⟨by decide, by decide⟩
  · exact quoteChars_visible _ _ b hb
  · exact ⟨by decide, by decide⟩

/-- C87. Names of printable ASCII without quotes and backslashes are shown as they are. -/
theorem quote_plain (pr : Nat → Bool) (s : Bytes) (h : ∀ b ∈ s, 32 ≤ b.toNat ∧ b.toNat ≤ 126 ∧ b.toNat ≠ 34 ∧ b.toNat ≠ 92) : goQuote pr s = 34 :: (s ++ [34]) := by
  have : ∀ n, s.length ≤ n → quoteChars pr n s = s := by
    intro n
    induction n generalizing s with
    | zero => intro hn; cases s with
      | nil => rfl
      | cons => simp at hn
    | succ n ih =>
      intro hn
      cases s with
      | nil => rfl
      | cons b r =>
        obtain ⟨h1, h2, h3, h4⟩ := h b (by simp)
        simp only [quoteChars, if_pos (show b.toNat < 128 by omega), escRune]
        rw [if_neg (by omega), if_pos (show isPrintRune pr b.toNat = true by simp only [isPrintRune, if_pos (show b.toNat < 128 by omega), Bool.and_eq_true, decide_eq_true_eq]; omega), ih r (fun x hx => h x (by simp [hx])) (by simp at hn; omega)]
        rfl
  rw [goQuote, this _ (Nat.le_refl _)]

/-- Both kinds of escapes in one name: a quote, a newline, the byte 255 and U+200B (not printable), next to `é` (printable). -/
example : goQuote (fun n => n = 0xE9) ([97, 34, 10, 255] ++ [0xC3, 0xA9] ++ [0xE2, 0x80, 0x8B]) = lit "\"a\\\"\\n\\xff" ++ [0xC3, 0xA9] ++ lit "\\u200b\"" := by decide +kernel

end Sawmill
