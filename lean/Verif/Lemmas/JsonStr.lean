import Verif.Lemmas.Utf8
/-!
# Strings in JSON
-/

namespace Sawmill
open Rfc

theorem hexVal_iff {b : UInt8} {v : Nat} : hexVal b = some v ↔ HexDigit b v := by
  simp only [hexVal, HexDigit]
  split
  · simp only [Option.some.injEq]; omega
  · split
    · simp only [Option.some.injEq]; omega
    · split
      · simp only [Option.some.injEq]; omega
      · simp only [reduceCtorEq, false_iff]; omega

theorem Rfc.HexDigit.lt {b : UInt8} {v : Nat} (h : HexDigit b v) : v < 16 := by
  simp only [HexDigit] at h; omega

theorem hex4_iff {l r : Bytes} {n : Nat} : hex4 l = some (n, r) ↔ ∃ u, l = u ++ r ∧ Hex4 u n := by
  constructor
  · intro h
    match l with
    | [] => simp [hex4] at h
    | [_] => simp [hex4] at h
    | [_, _] => simp [hex4] at h
    | [_, _, _] => simp [hex4] at h
    | a :: b :: c :: d :: r0 =>
      simp only [hex4] at h
      cases ha : hexVal a with
      | none => rw [ha] at h; simp at h
      | some va =>
        cases hb : hexVal b with
        | none => rw [ha, hb] at h; simp at h
        | some vb =>
          cases hc : hexVal c with
          | none => rw [ha, hb, hc] at h; simp at h
          | some vc =>
            cases hd : hexVal d with
            | none => rw [ha, hb, hc, hd] at h; simp at h
            | some vd =>
              rw [ha, hb, hc, hd] at h
              simp only [Option.some.injEq, Prod.mk.injEq] at h
              obtain ⟨rfl, rfl⟩ := h
              exact ⟨[a, b, c, d], rfl, a, b, c, d, va, vb, vc, vd, rfl, hexVal_iff.1 ha, hexVal_iff.1 hb, hexVal_iff.1 hc, hexVal_iff.1 hd, by omega⟩
  · rintro ⟨u, rfl, a, b, c, d, va, vb, vc, vd, rfl, ha, hb, hc, hd, rfl⟩
    simp only [List.cons_append, List.nil_append, hex4, hexVal_iff.2 ha, hexVal_iff.2 hb, hexVal_iff.2 hc, hexVal_iff.2 hd, Option.some.injEq, Prod.mk.injEq, and_true]
    omega

theorem Rfc.Hex4.length {u : Bytes} {n : Nat} (h : Hex4 u n) : u.length = 4 := by
  obtain ⟨a, b, c, d, _, _, _, _, rfl, _⟩ := h; rfl

theorem Rfc.Hex4.lt {u : Bytes} {n : Nat} (h : Hex4 u n) : n < 65536 := by
  obtain ⟨a, b, c, d, _, _, _, _, rfl, ha, hb, hc, hd, rfl⟩ := h
  have := ha.lt; have := hb.lt; have := hc.lt; have := hd.lt
  omega

/-- A quote is not a hexadecimal digit: whether there are four digits does not depend on what follows it. -/
theorem hex4_append {t rest : Bytes} : hex4 (t ++ 34 :: rest) = (hex4 t).map fun x => (x.1, x.2 ++ 34 :: rest) := by
  have hq : hexVal 34 = none := by decide
  match t with
  | [] =>
    match rest with
    | [] => rfl
    | [_] => rfl
    | [_, _] => rfl
    | _ :: _ :: _ :: _ => simp [hex4, hq]
  | [a] =>
    match rest with
    | [] => rfl
    | [_] => rfl
    | _ :: _ :: _ => simp [hex4, hq]
  | [a, b] =>
    match rest with
    | [] => rfl
    | _ :: _ => simp [hex4, hq]
  | [a, b, c] => simp [hex4, hq]
  | a :: b :: c :: d :: r =>
    simp only [List.cons_append, hex4]
    cases hexVal a <;> cases hexVal b <;> cases hexVal c <;> cases hexVal d <;> rfl

theorem lowEscape_iff {l r : Bytes} {n : Nat} : lowEscape l = some (n, r) ↔ ∃ u, l = 92 :: 117 :: (u ++ r) ∧ Hex4 u n ∧ 0xDC00 ≤ n ∧ n ≤ 0xDFFF := by
  unfold lowEscape
  split
  · next r0 =>
    cases h4 : hex4 r0 with
    | none =>
      simp only [reduceCtorEq, false_iff]
      rintro ⟨u, he, hu, _⟩
      simp only [List.cons.injEq, true_and] at he
      rw [hex4_iff.2 ⟨u, he, hu⟩] at h4
      simp at h4
    | some x =>
      obtain ⟨m, r1⟩ := x
      simp only
      obtain ⟨u, hu, h4'⟩ := hex4_iff.1 h4
      split
      · next hr =>
        simp only [Option.some.injEq, Prod.mk.injEq]
        constructor
        · rintro ⟨rfl, rfl⟩; exact ⟨u, by rw [hu], h4', hr⟩
        · rintro ⟨u', he, hu', _⟩
          simp only [List.cons.injEq, true_and] at he
          rw [hex4_iff.2 ⟨u', he, hu'⟩] at h4
          simp only [Option.some.injEq, Prod.mk.injEq] at h4
          exact ⟨h4.1.symm, h4.2.symm⟩
      · next hr =>
        simp only [reduceCtorEq, false_iff]
        rintro ⟨u', he, hu', hr'⟩
        simp only [List.cons.injEq, true_and] at he
        rw [hex4_iff.2 ⟨u', he, hu'⟩] at h4
        simp only [Option.some.injEq, Prod.mk.injEq] at h4
        exact hr (h4.1 ▸ hr')
  · next hne =>
    simp only [reduceCtorEq, false_iff]
    rintro ⟨u, rfl, _⟩
    exact hne _ rfl

theorem lowEscape_append {t rest : Bytes} : lowEscape (t ++ 34 :: rest) = (lowEscape t).map fun x => (x.1, x.2 ++ 34 :: rest) := by
  match t with
  | [] => simp [lowEscape]
  | [a] =>
    by_cases ha : a = 92
    · subst ha; simp [lowEscape]
    · simp [lowEscape, ha]
  | a :: b :: r =>
    by_cases ha : a = 92
    · by_cases hb : b = 117
      · subst ha; subst hb
        simp only [List.cons_append, lowEscape, hex4_append]
        cases hex4 r with
        | none => rfl
        | some x => simp only [Option.map_some]; split <;> rfl
      · subst ha; simp [lowEscape, hb]
    · simp [lowEscape, ha]

theorem lowEscape_none_iff {t : Bytes} : lowEscape t = none ↔ ¬ ∃ u2 lo r, t = 92 :: 117 :: (u2 ++ r) ∧ Hex4 u2 lo ∧ 0xDC00 ≤ lo ∧ lo ≤ 0xDFFF := by
  constructor
  · rintro h ⟨u2, lo, r, he, hu⟩
    rw [lowEscape_iff.2 ⟨u2, he, hu⟩] at h
    simp at h
  · intro h
    cases hl : lowEscape t with
    | none => rfl
    | some x =>
      obtain ⟨n, r⟩ := x
      obtain ⟨u, hu⟩ := lowEscape_iff.1 hl
      exact absurd ⟨u, n, r, hu⟩ h

theorem simpleEscape_iff {c e : UInt8} : simpleEscape c = some e ↔ (c, e) ∈ escapes := by
  unfold simpleEscape escapes
  simp only [List.mem_cons, Prod.mk.injEq, List.not_mem_nil, or_false]
  split
  · next h => rcases h with rfl | rfl | rfl <;> simp [eq_comm]
  · next h =>
    simp only [not_or] at h
    obtain ⟨h1, h2, h3⟩ := h
    simp only [h1, h2, h3, false_and, false_or]
    split
    · next h => subst h; simp [eq_comm]
    · next h4 =>
      simp only [h4, false_and, false_or]
      split
      · next h => subst h; simp [eq_comm]
      · next h5 =>
        simp only [h5, false_and, false_or]
        split
        · next h => subst h; simp [eq_comm]
        · next h6 =>
          simp only [h6, false_and, false_or]
          split
          · next h => subst h; simp [eq_comm]
          · next h7 =>
            simp only [h7, false_and, false_or]
            split
            · next h => subst h; simp [eq_comm]
            · next h8 => simp [h8]

theorem simpleEscape_u : simpleEscape 117 = none := by decide

theorem unquote_complete {t s : Bytes} (h : Chars t s) : ∀ (n : Nat) (rest : Bytes), t.length < n → unquote n (t ++ 34 :: rest) = some (s, rest) := by
  induction h with
  | nil => intro n rest hn; cases n with
    | zero => simp at hn
    | succ n => simp [unquote]
  | ascii b t s h1 h2 h3 h4 hc ih =>
    intro n rest hn
    cases n with
    | zero => simp at hn
    | succ n =>
      simp only [List.cons_append, unquote]
      rw [if_neg h3, if_neg h4, if_neg (by omega), if_pos h2, ih n rest (by simp at hn; omega)]
      rfl
  | char c t s hch hc ih =>
    intro n rest hn
    cases n with
    | zero => simp at hn
    | succ n =>
      obtain ⟨hne, hhigh⟩ := utf8_high hch
      have hm := multi_of_char hch (t ++ 34 :: rest)
      rw [List.append_assoc]
      have hl : t.length < n := by
        have : 0 < (utf8 c).length := List.length_pos_iff.2 hne
        rw [List.length_append] at hn; omega
      cases hu : utf8 c with
      | nil => exact absurd hu hne
      | cons b r =>
        have hb := hhigh b (by rw [hu]; simp)
        rw [hu] at hm
        simp only [List.cons_append] at hm ⊢
        simp only [unquote]
        rw [if_neg (by rintro rfl; simp at hb), if_neg (by rintro rfl; simp at hb), if_neg (by omega), if_neg (by omega), hm]
        simp only [ih n rest hl, Option.map_some, List.cons_append]
  | invalid b t s h1 h2 hc ih =>
    intro n rest hn
    cases n with
    | zero => simp at hn
    | succ n =>
      have hm : multi (b :: (t ++ 34 :: rest)) = none := by
        have := multi_append (t := b :: t) (q := 34) (rest := rest) (by decide)
        rw [(multi_none_iff h1).2 h2] at this
        simpa using this
      simp only [List.cons_append, unquote]
      rw [if_neg (by rintro rfl; simp at h1), if_neg (by rintro rfl; simp at h1), if_neg (by omega), if_neg (by omega), hm]
      simp only [ih n rest (by simp at hn; omega), Option.map_some, replacement_utf8]
  | escape c e t s he hc ih =>
    intro n rest hn
    cases n with
    | zero => simp at hn
    | succ n =>
      have hs := simpleEscape_iff.2 he
      have hcu : c ≠ 117 := by rintro rfl; rw [simpleEscape_u] at hs; simp at hs
      simp only [List.cons_append, unquote]
      rw [if_neg (by decide), if_pos trivial, if_neg hcu, hs]
      simp only [ih n rest (by simp at hn; omega), Option.map_some]
  | unicode u c t s hu hc ih =>
    intro n rest hn
    cases n with
    | zero => simp at hn
    | succ n =>
      simp only [List.cons_append, List.append_assoc, unquote]
      rw [if_neg (by decide), if_pos trivial, if_pos trivial, hex4_iff.2 ⟨u, rfl, hu⟩]
      have hv := char_valid c
      simp only
      rw [if_neg (by omega), ih n rest (by simp at hn; omega)]
      simp only [Option.map_some, encodeRune_utf8]
  | pair u1 u2 hi lo c t s h1 h2 h3 h4 h5 hc ih =>
    intro n rest hn
    cases n with
    | zero => simp at hn
    | succ n =>
      simp only [List.cons_append, List.append_assoc, unquote]
      rw [if_neg (by decide), if_pos trivial, if_pos trivial, hex4_iff.2 ⟨u1, rfl, h1⟩]
      simp only
      rw [if_pos (by omega), if_pos h3.2, lowEscape_iff.2 ⟨u2, rfl, h2, h4⟩]
      simp only
      rw [ih n rest (by simp at hn; omega)]
      simp only [Option.map_some, ← h5, encodeRune_utf8]
  | lone u m t s h1 h2 h3 hc ih =>
    intro n rest hn
    cases n with
    | zero => simp at hn
    | succ n =>
      simp only [List.cons_append, List.append_assoc, unquote]
      rw [if_neg (by decide), if_pos trivial, if_pos trivial, hex4_iff.2 ⟨u, rfl, h1⟩]
      simp only
      rw [if_pos h2]
      have hl : (if m ≤ 0xDBFF then lowEscape (t ++ 34 :: rest) else none) = none := by
        split
        · next hm =>
          rw [lowEscape_append, lowEscape_none_iff.2 (fun hx => h3 ⟨hm, hx⟩)]
          rfl
        · rfl
      rw [hl]
      simp only [ih n rest (by simp at hn; omega), Option.map_some, replacement_utf8]

theorem unquote_sound : ∀ (n : Nat) (l s rest : Bytes), unquote n l = some (s, rest) → ∃ t, l = t ++ 34 :: rest ∧ Chars t s := by
  intro n
  induction n with
  | zero => intro l s rest h; simp [unquote] at h
  | succ n ih =>
    intro l s rest h
    cases l with
    | nil => simp [unquote] at h
    | cons b r =>
      simp only [unquote] at h
      split at h
      · next hb =>
        subst hb
        simp only [Option.some.injEq, Prod.mk.injEq] at h
        obtain ⟨rfl, rfl⟩ := h
        exact ⟨[], rfl, .nil⟩
      · next hb =>
        split at h
        · next hb2 =>
          subst hb2
          cases r with
          | nil => simp at h
          | cons c r =>
            simp only at h
            split at h
            · next hc =>
              subst hc
              cases h4 : hex4 r with
              | none => rw [h4] at h; simp at h
              | some x =>
                obtain ⟨u, r1⟩ := x
                rw [h4] at h
                obtain ⟨ut, rfl, hu⟩ := hex4_iff.1 h4
                simp only at h
                split at h
                · next hsur =>
                  cases hl : (if u ≤ 0xDBFF then lowEscape r1 else none) with
                  | some x =>
                    obtain ⟨u2, r2⟩ := x
                    rw [hl] at h
                    simp only at h
                    have hle : u ≤ 0xDBFF := by
                      by_cases hle : u ≤ 0xDBFF
                      · exact hle
                      · rw [if_neg hle] at hl; simp at hl
                    rw [if_pos hle] at hl
                    obtain ⟨u2t, rfl, hu2, hr2⟩ := lowEscape_iff.1 hl
                    cases hq : unquote n r2 with
                    | none => rw [hq] at h; simp at h
                    | some y =>
                      obtain ⟨s1, rest1⟩ := y
                      rw [hq] at h
                      simp only [Option.map_some, Option.some.injEq, Prod.mk.injEq] at h
                      obtain ⟨rfl, rfl⟩ := h
                      obtain ⟨t, rfl, ht⟩ := ih _ _ _ hq
                      obtain ⟨c, hc⟩ := char_of (n := 0x10000 + (u - 0xD800) * 1024 + (u2 - 0xDC00)) (by omega)
                      refine ⟨92 :: 117 :: (ut ++ 92 :: 117 :: (u2t ++ t)), by simp, ?_⟩
                      rw [← hc, encodeRune_utf8]
                      exact .pair ut u2t u u2 c t s1 hu hu2 ⟨hsur.1, hle⟩ hr2 hc ht
                  | none =>
                    rw [hl] at h
                    simp only at h
                    cases hq : unquote n r1 with
                    | none => rw [hq] at h; simp at h
                    | some y =>
                      obtain ⟨s1, rest1⟩ := y
                      rw [hq] at h
                      simp only [Option.map_some, Option.some.injEq, Prod.mk.injEq] at h
                      obtain ⟨rfl, rfl⟩ := h
                      obtain ⟨t, rfl, ht⟩ := ih _ _ _ hq
                      refine ⟨92 :: 117 :: (ut ++ t), by simp, ?_⟩
                      rw [replacement_utf8]
                      refine .lone ut u t s1 hu hsur ?_ ht
                      rintro ⟨hle, hx⟩
                      rw [if_pos hle, lowEscape_append] at hl
                      rw [Option.map_eq_none_iff] at hl
                      exact lowEscape_none_iff.1 hl hx
                · next hsur =>
                  cases hq : unquote n r1 with
                  | none => rw [hq] at h; simp at h
                  | some y =>
                    obtain ⟨s1, rest1⟩ := y
                    rw [hq] at h
                    simp only [Option.map_some, Option.some.injEq, Prod.mk.injEq] at h
                    obtain ⟨rfl, rfl⟩ := h
                    obtain ⟨t, rfl, ht⟩ := ih _ _ _ hq
                    have := hu.lt
                    obtain ⟨c, hc⟩ := char_of (n := u) (by omega)
                    refine ⟨92 :: 117 :: (ut ++ t), by simp, ?_⟩
                    rw [← hc, encodeRune_utf8]
                    exact .unicode ut c t s1 (hc ▸ hu) ht
            · next hc =>
              cases hs : simpleEscape c with
              | none => rw [hs] at h; simp at h
              | some e =>
                rw [hs] at h
                simp only at h
                cases hq : unquote n r with
                | none => rw [hq] at h; simp at h
                | some y =>
                  obtain ⟨s1, rest1⟩ := y
                  rw [hq] at h
                  simp only [Option.map_some, Option.some.injEq, Prod.mk.injEq] at h
                  obtain ⟨rfl, rfl⟩ := h
                  obtain ⟨t, rfl, ht⟩ := ih _ _ _ hq
                  exact ⟨92 :: c :: t, by simp, .escape c e t s1 (simpleEscape_iff.1 hs) ht⟩
        · next hb2 =>
          split at h
          · simp at h
          · next hb3 =>
            split at h
            · next hb4 =>
              cases hq : unquote n r with
              | none => rw [hq] at h; simp at h
              | some y =>
                obtain ⟨s1, rest1⟩ := y
                rw [hq] at h
                simp only [Option.map_some, Option.some.injEq, Prod.mk.injEq] at h
                obtain ⟨rfl, rfl⟩ := h
                obtain ⟨t, rfl, ht⟩ := ih _ _ _ hq
                exact ⟨b :: t, by simp, .ascii b t s1 (by omega) hb4 hb hb2 ht⟩
            · next hb4 =>
              cases hm : multi (b :: r) with
              | some x =>
                obtain ⟨m, r1⟩ := x
                rw [hm] at h
                simp only at h
                obtain ⟨c, hc, rfl, he⟩ := char_of_multi hm
                cases hq : unquote n r1 with
                | none => rw [hq] at h; simp at h
                | some y =>
                  obtain ⟨s1, rest1⟩ := y
                  rw [hq] at h
                  simp only [Option.map_some, Option.some.injEq, Prod.mk.injEq] at h
                  obtain ⟨rfl, rfl⟩ := h
                  obtain ⟨t, rfl, ht⟩ := ih _ _ _ hq
                  exact ⟨utf8 c ++ t, by rw [he]; simp, .char c t s1 hc ht⟩
              | none =>
                rw [hm] at h
                simp only at h
                cases hq : unquote n r with
                | none => rw [hq] at h; simp at h
                | some y =>
                  obtain ⟨s1, rest1⟩ := y
                  rw [hq] at h
                  simp only [Option.map_some, Option.some.injEq, Prod.mk.injEq] at h
                  obtain ⟨rfl, rfl⟩ := h
                  obtain ⟨t, rfl, ht⟩ := ih _ _ _ hq
                  refine ⟨b :: t, by simp, ?_⟩
                  rw [replacement_utf8]
                  refine .invalid b t s1 (by omega) ?_ ht
                  refine (multi_none_iff (by omega)).1 ?_
                  have := multi_append (t := b :: t) (q := 34) (rest := rest1) (by decide)
                  rw [List.cons_append, hm] at this
                  exact Option.map_eq_none_iff.1 this.symm

/-! ## Encoding -/

theorem hexDigit_spec {n : Nat} (h : n < 16) : HexDigit (hexDigit n) n := by
  unfold hexDigit HexDigit
  split
  · rw [ofNat_toNat (by omega)]; omega
  · rw [ofNat_toNat (by omega)]; omega

theorem utf8_cases (c : Char) : (c.toNat < 128 ∧ utf8 c = [UInt8.ofNat c.toNat]) ∨ (128 ≤ c.toNat) := by
  by_cases h : c.toNat < 128
  · exact .inl ⟨h, utf8_ascii h⟩
  · exact .inr (by omega)

theorem utf8_of_ascii {b : UInt8} (h : b.toNat < 128) : ∃ c : Char, c.toNat = b.toNat ∧ utf8 c = [b] := by
  obtain ⟨c, hc⟩ := char_of (n := b.toNat) (by omega)
  refine ⟨c, hc, ?_⟩
  rw [utf8_ascii (by omega), hc]
  simp

theorem encChars_spec : ∀ (n : Nat) (s : Bytes), s.length ≤ n → ∃ s', Repaired s s' ∧ Chars (encChars n s) s' := by
  intro n
  induction n with
  | zero =>
    intro s h
    cases s with
    | nil => exact ⟨[], .nil, .nil⟩
    | cons => simp at h
  | succ n ih =>
    intro s h
    cases s with
    | nil => exact ⟨[], .nil, .nil⟩
    | cons b r =>
      simp only [encChars]
      split
      · next hb =>
        obtain ⟨s', h1, h2⟩ := ih r (by simp at h; omega)
        obtain ⟨c, hc, hu⟩ := utf8_of_ascii hb
        refine ⟨b :: s', ?_, ?_⟩
        · have := Repaired.char c r s' h1
          rw [hu] at this
          exact this
        · split
          · next hq => exact .escape b b _ _ (by rcases hq with rfl | rfl <;> decide) h2
          · split
            · next hq => subst hq; exact .escape 110 10 _ _ (by decide) h2
            · split
              · next hq => subst hq; exact .escape 114 13 _ _ (by decide) h2
              · split
                · next hq => subst hq; exact .escape 116 9 _ _ (by decide) h2
                · split
                  · have hh := hexDigit_spec (n := b.toNat / 16) (by omega)
                    have hl := hexDigit_spec (n := b.toNat % 16) (by omega)
                    have := Chars.unicode [48, 48, hexDigit (b.toNat / 16), hexDigit (b.toNat % 16)] c _ s'
                      ⟨48, 48, _, _, 0, 0, _, _, rfl, .inl (by decide), .inl (by decide), hh, hl, by omega⟩ h2
                    rw [hu] at this
                    exact this
                  · next hq1 _ _ _ hq2 =>
                    simp only [not_or] at hq1 hq2
                    exact .ascii b _ _ (by omega) hb hq1.1 hq1.2 h2
      · next hb =>
        cases hm : multi (b :: r) with
        | none =>
          obtain ⟨s', h1, h2⟩ := ih r (by simp at h; omega)
          refine ⟨utf8 repl ++ s', .invalid b r s' ((multi_none_iff (by omega)).1 hm) h1, ?_⟩
          refine .unicode [102, 102, 102, 100] repl _ s' ?_ h2
          exact ⟨102, 102, 102, 100, 15, 15, 15, 13, rfl, .inr (.inl (by decide)), .inr (.inl (by decide)), .inr (.inl (by decide)), .inr (.inl (by decide)), by decide⟩
        | some x =>
          obtain ⟨m, r'⟩ := x
          obtain ⟨c, hc, rfl, he⟩ := char_of_multi hm
          have hlen : r'.length ≤ n := by
            have h0 := congrArg List.length he
            have : 0 < (utf8 c).length := List.length_pos_iff.2 (utf8_high hc).1
            rw [List.length_append] at h0
            omega
          obtain ⟨s', h1, h2⟩ := ih r' hlen
          refine ⟨utf8 c ++ s', he ▸ .char c r' s' h1, ?_⟩
          simp only
          split
          · next hq =>
            have e : utf8 c = utf8 '\u2028' := by rw [hq]; decide +kernel
            rw [e]
            refine .unicode [50, 48, 50, 56] _ _ s' ?_ h2
            exact ⟨50, 48, 50, 56, 2, 0, 2, 8, rfl, .inl (by decide), .inl (by decide), .inl (by decide), .inl (by decide), by decide⟩
          · split
            · next hq =>
              have e : utf8 c = utf8 '\u2029' := by rw [hq]; decide +kernel
              rw [e]
              refine .unicode [50, 48, 50, 57] _ _ s' ?_ h2
              exact ⟨50, 48, 50, 57, 2, 0, 2, 9, rfl, .inl (by decide), .inl (by decide), .inl (by decide), .inl (by decide), by decide⟩
            · exact .char c _ _ hc h2

theorem encStr_spec (s : Bytes) : ∃ u s', encStr s = 34 :: (u ++ [34]) ∧ Repaired s s' ∧ Chars u s' := by
  obtain ⟨s', h1, h2⟩ := encChars_spec s.length s (Nat.le_refl _)
  exact ⟨_, s', rfl, h1, h2⟩

/-! ## Repairing is a function, and leaves valid text alone -/

theorem utf8_ne_nil (c : Char) : utf8 c ≠ [] := by
  rcases utf8_cases c with ⟨_, h⟩ | h
  · rw [h]; simp
  · exact (utf8_high h).1

/-- UTF-8 is prefix free. -/
theorem utf8_prefix {c d : Char} {r s : Bytes} (h : utf8 c ++ r = utf8 d ++ s) : utf8 c = utf8 d ∧ r = s := by
  rcases utf8_cases c with ⟨hc, hcu⟩ | hc
  · rcases utf8_cases d with ⟨hd, hdu⟩ | hd
    · rw [hcu, hdu] at h ⊢
      simp only [List.cons_append, List.nil_append, List.cons.injEq] at h
      exact ⟨by rw [h.1], h.2⟩
    · obtain ⟨hne, hh⟩ := utf8_high hd
      cases hu : utf8 d with
      | nil => exact absurd hu hne
      | cons b t =>
        have := hh b (by rw [hu]; simp)
        rw [hcu, hu] at h
        simp only [List.cons_append, List.nil_append, List.cons.injEq] at h
        rw [← h.1, ofNat_toNat (by omega)] at this
        omega
  · rcases utf8_cases d with ⟨hd, hdu⟩ | hd
    · obtain ⟨hne, hh⟩ := utf8_high hc
      cases hu : utf8 c with
      | nil => exact absurd hu hne
      | cons b t =>
        have := hh b (by rw [hu]; simp)
        rw [hdu, hu] at h
        simp only [List.cons_append, List.nil_append, List.cons.injEq] at h
        rw [h.1, ofNat_toNat (by omega)] at this
        omega
    · have h1 := multi_of_char hc r
      rw [h, multi_of_char hd s] at h1
      simp only [Option.some.injEq, Prod.mk.injEq] at h1
      exact ⟨h1.1.symm, h1.2.symm⟩

theorem Repaired.unique {s a a' : Bytes} (h1 : Repaired s a) (h2 : Repaired s a') : a = a' := by
  induction h1 generalizing a' with
  | nil =>
    generalize he : ([] : Bytes) = l at h2
    cases h2 with
    | nil => rfl
    | char c t s h => exact absurd (List.append_eq_nil_iff.1 he.symm).1 (utf8_ne_nil c)
    | invalid => simp at he
  | char c t s h ih =>
    generalize he : utf8 c ++ t = l at h2
    cases h2 with
    | nil => exact absurd (List.append_eq_nil_iff.1 he).1 (utf8_ne_nil c)
    | char d t' s' h' =>
      obtain ⟨e1, rfl⟩ := utf8_prefix he
      rw [e1, ih h']
    | invalid b t' s' hb h' => exact absurd he.symm (hb c t)
  | invalid b t s hb h ih =>
    generalize he : b :: t = l at h2
    cases h2 with
    | nil => simp at he
    | char d t' s' h' => exact absurd he (hb d t')
    | invalid b' t' s' hb' h' =>
      simp only [List.cons.injEq] at he
      obtain ⟨rfl, rfl⟩ := he
      rw [ih h']

theorem Repaired.total (s : Bytes) : ∃ s', Repaired s s' := by
  obtain ⟨s', h, _⟩ := encChars_spec s.length s (Nat.le_refl _)
  exact ⟨s', h⟩

theorem Repaired.of_valid : ∀ {s : Bytes}, ValidUtf8 s → Repaired s s := by
  rintro _ ⟨cs, rfl⟩
  induction cs with
  | nil => exact .nil
  | cons c cs ih => exact .char c _ _ ih

theorem Repaired.valid {s s' : Bytes} (h : Repaired s s') : ValidUtf8 s' := by
  induction h with
  | nil => exact ⟨[], rfl⟩
  | char c t s h ih => obtain ⟨cs, rfl⟩ := ih; exact ⟨c :: cs, rfl⟩
  | invalid b t s hb h ih => obtain ⟨cs, rfl⟩ := ih; exact ⟨repl :: cs, rfl⟩

theorem Rfc.Chars.valid {t s : Bytes} (h : Chars t s) : ValidUtf8 s := by
  have hb : ∀ b : UInt8, b.toNat < 128 → ∀ s, ValidUtf8 s → ValidUtf8 (b :: s) := by
    rintro b hb s ⟨cs, rfl⟩
    obtain ⟨c, _, hu⟩ := utf8_of_ascii hb
    exact ⟨c :: cs, by simp [hu]⟩
  induction h with
  | nil => exact ⟨[], rfl⟩
  | ascii b t s h1 h2 h3 h4 hc ih => exact hb b h2 _ ih
  | char c t s h hc ih => obtain ⟨cs, rfl⟩ := ih; exact ⟨c :: cs, rfl⟩
  | invalid b t s h1 h2 hc ih => obtain ⟨cs, rfl⟩ := ih; exact ⟨repl :: cs, rfl⟩
  | escape c e t s h hc ih =>
    refine hb e ?_ _ ih
    simp only [escapes, List.mem_cons, Prod.mk.injEq, List.not_mem_nil, or_false] at h
    rcases h with ⟨_, rfl⟩ | ⟨_, rfl⟩ | ⟨_, rfl⟩ | ⟨_, rfl⟩ | ⟨_, rfl⟩ | ⟨_, rfl⟩ | ⟨_, rfl⟩ | ⟨_, rfl⟩ <;> decide
  | unicode u c t s h hc ih => obtain ⟨cs, rfl⟩ := ih; exact ⟨c :: cs, rfl⟩
  | pair u1 u2 hi lo c t s h1 h2 h3 h4 h5 hc ih => obtain ⟨cs, rfl⟩ := ih; exact ⟨c :: cs, rfl⟩
  | lone u n t s h1 h2 h3 hc ih => obtain ⟨cs, rfl⟩ := ih; exact ⟨repl :: cs, rfl⟩

end Sawmill
