import Verif.Lemmas.JsonFun
import Verif.Lemmas.ConfigEnc
import Verif.Spec.SameJson
/-!
# Texts of JSON strings can be told apart
-/

namespace Sawmill
open Rfc

/-! ## Strings -/

/-- How one ASCII character is written. -/
def encAscii (b : UInt8) : Bytes :=
  if b = 34 ∨ b = 92 then [92, b]
  else if b = 10 then [92, 110]
  else if b = 13 then [92, 114]
  else if b = 9 then [92, 116]
  else if b.toNat < 32 ∨ b = 60 ∨ b = 62 ∨ b = 38 then [92, 117, 48, 48, hexDigit (b.toNat / 16), hexDigit (b.toNat % 16)]
  else [b]

/-- How one other character is written. -/
def encWide (m : Bytes) : Bytes :=
  if m = [0xE2, 0x80, 0xA8] then [92, 117, 50, 48, 50, 56]
  else if m = [0xE2, 0x80, 0xA9] then [92, 117, 50, 48, 50, 57]
  else m

/-- How an invalid byte is written. -/
def encBad : Bytes := [92, 117, 102, 102, 102, 100]

theorem encChars_ascii (n : Nat) {b : UInt8} (r : Bytes) (h : b.toNat < 128) : encChars (n + 1) (b :: r) = encAscii b ++ encChars n r := by
  simp only [encChars, if_pos h, encAscii]

theorem encChars_wide (n : Nat) {c : Char} (r : Bytes) (h : 128 ≤ c.toNat) : encChars (n + 1) (utf8 c ++ r) = encWide (utf8 c) ++ encChars n r := by
  obtain ⟨hne, hh⟩ := utf8_high h
  have hm := multi_of_char h r
  cases hu : utf8 c with
  | nil => exact absurd hu hne
  | cons b t =>
    have hb := hh b (by rw [hu]; simp)
    rw [hu, List.cons_append] at hm
    rw [List.cons_append, encChars, if_neg (by omega), hm]
    rfl

theorem encChars_bad (n : Nat) {b : UInt8} (r : Bytes) (h : ∀ c r', b :: r ≠ utf8 c ++ r') : encChars (n + 1) (b :: r) = encBad ++ encChars n r := by
  have hb : ¬ b.toNat < 128 := by
    intro hb
    obtain ⟨c, _, hc⟩ := utf8_of_ascii hb
    exact h c r (by rw [hc]; rfl)
  rw [encChars, if_neg hb, (multi_none_iff (by omega)).2 h]
  rfl

/-- How many steps are allowed does not matter. -/
theorem encChars_fuel : ∀ (n : Nat) (s : Bytes), s.length ≤ n → encChars n s = encChars s.length s := by
  suffices H : ∀ (k : Nat) (s : Bytes), s.length ≤ k → ∀ n m, s.length ≤ n → s.length ≤ m → encChars n s = encChars m s by
    intro n s h; exact H n s h _ _ h (Nat.le_refl _)
  intro k
  induction k with
  | zero =>
    intro s h n m _ _
    have : s = [] := List.length_eq_zero_iff.1 (by omega)
    subst this
    cases n <;> cases m <;> rfl
  | succ k ih =>
    intro s h n m hn hm
    cases s with
    | nil => cases n <;> cases m <;> rfl
    | cons b r =>
      simp only [List.length_cons] at h hn hm
      obtain ⟨n, rfl⟩ : ∃ x, n = x + 1 := ⟨n - 1, by omega⟩
      obtain ⟨m, rfl⟩ : ∃ x, m = x + 1 := ⟨m - 1, by omega⟩
      by_cases hb : b.toNat < 128
      · rw [encChars_ascii n r hb, encChars_ascii m r hb, ih r (by omega) n m (by omega) (by omega)]
      · cases hmu : multi (b :: r) with
        | none =>
          have := (multi_none_iff (by omega)).1 hmu
          rw [encChars_bad n r this, encChars_bad m r this, ih r (by omega) n m (by omega) (by omega)]
        | some x =>
          obtain ⟨mm, r'⟩ := x
          obtain ⟨c, hc, rfl, he⟩ := char_of_multi hmu
          have hl : r'.length ≤ r.length := by
            have h0 := congrArg List.length he
            have : 0 < (utf8 c).length := List.length_pos_iff.2 (utf8_high hc).1
            simp only [List.length_append, List.length_cons] at h0
            omega
          rw [he, encChars_wide n r' hc, encChars_wide m r' hc, ih r' (by omega) n m (by omega) (by omega)]

theorem encChars_nil (n : Nat) : encChars n [] = [] := by cases n <;> rfl

theorem not_prefix_of_ne {α : Type} {a b x y : List α} (h1 : ¬ a <+: b) (h2 : ¬ b <+: a) : a ++ x ≠ b ++ y := by
  intro h
  rcases List.prefix_or_prefix_of_prefix (l₁ := a) (l₂ := b) (l₃ := a ++ x) ⟨x, rfl⟩ ⟨y, h.symm⟩ with h | h
  · exact h1 h
  · exact h2 h

/-- The ways ASCII characters are written are prefix free. -/
theorem encAscii_prefix : ∀ a : Fin 128, ∀ b : Fin 128, a ≠ b → (encAscii (UInt8.ofNat a)).isPrefixOf (encAscii (UInt8.ofNat b)) = false := by decide +kernel

theorem encAscii_bad : ∀ a : Fin 128, (encAscii (UInt8.ofNat a)).isPrefixOf encBad = false ∧ encBad.isPrefixOf (encAscii (UInt8.ofNat a)) = false ∧
    (encAscii (UInt8.ofNat a)).isPrefixOf [92, 117, 50, 48, 50, 56] = false ∧ [92, 117, 50, 48, 50, 56].isPrefixOf (encAscii (UInt8.ofNat a)) = false ∧
    (encAscii (UInt8.ofNat a)).isPrefixOf [92, 117, 50, 48, 50, 57] = false ∧ [92, 117, 50, 48, 50, 57].isPrefixOf (encAscii (UInt8.ofNat a)) = false := by decide +kernel

theorem encAscii_head : ∀ a : Fin 128, ∃ b r, encAscii (UInt8.ofNat a) = b :: r ∧ b.toNat < 128 := by
  intro a
  have : ∀ a : Fin 128, ((encAscii (UInt8.ofNat a)).head?.map fun b => decide (b.toNat < 128)) = some true := by decide +kernel
  have := this a
  cases h : encAscii (UInt8.ofNat a) with
  | nil => rw [h] at this; cases this
  | cons b r => rw [h] at this; exact ⟨b, r, rfl, by simpa using this⟩

/-- One piece of a string: a character below 128, another one, or an invalid byte. -/
inductive Piece where
  | ascii (b : UInt8) (h : b.toNat < 128)
  | wide (c : Char) (h : 128 ≤ c.toNat)
  | bad

def Piece.code : Piece → Bytes
  | .ascii b _ => encAscii b
  | .wide c _ => encWide (utf8 c)
  | .bad => encBad

theorem encWide_cases {c : Char} (h : 128 ≤ c.toNat) :
    (encWide (utf8 c) = utf8 c ∧ ∃ b t, utf8 c = b :: t ∧ 128 ≤ b.toNat) ∨
    (encWide (utf8 c) = [92, 117, 50, 48, 50, 56] ∧ utf8 c = [0xE2, 0x80, 0xA8]) ∨ (encWide (utf8 c) = [92, 117, 50, 48, 50, 57] ∧ utf8 c = [0xE2, 0x80, 0xA9]) := by
  unfold encWide
  by_cases h1 : utf8 c = [0xE2, 0x80, 0xA8]
  · exact .inr (.inl ⟨by rw [if_pos h1], h1⟩)
  · rw [if_neg h1]
    by_cases h2 : utf8 c = [0xE2, 0x80, 0xA9]
    · exact .inr (.inr ⟨by rw [if_pos h2], h2⟩)
    · rw [if_neg h2]
      obtain ⟨hne, hh⟩ := utf8_high h
      cases hu : utf8 c with
      | nil => exact absurd hu hne
      | cons b t => exact .inl ⟨rfl, b, t, rfl, hh b (by rw [hu]; simp)⟩

theorem isPrefixOf_false {a b : Bytes} (h : a.isPrefixOf b = false) : ¬ a <+: b := fun hp => by
  rw [List.isPrefixOf_iff_prefix.2 hp] at h; cases h

theorem ascii_code (b : UInt8) (h : b.toNat < 128) : ∃ a : Fin 128, b = UInt8.ofNat a := ⟨⟨b.toNat, h⟩, by simp⟩

theorem ascii_code_head {b : UInt8} (h : b.toNat < 128) : ∃ c r, encAscii b = c :: r ∧ c.toNat < 128 := by
  obtain ⟨a, rfl⟩ := ascii_code b h
  exact encAscii_head a

theorem ascii_wide {b : UInt8} (hb : b.toNat < 128) {c : Char} (hc : 128 ≤ c.toNat) (x y : Bytes) : encAscii b ++ x ≠ encWide (utf8 c) ++ y := by
  rcases encWide_cases hc with ⟨e, b', t, hu, hb'⟩ | ⟨e, _⟩ | ⟨e, _⟩
  · obtain ⟨d, r, hd, hlt⟩ := ascii_code_head hb
    rw [e, hu, hd]
    intro h
    simp only [List.cons_append, List.cons.injEq] at h
    rw [h.1] at hlt; omega
  · obtain ⟨a, rfl⟩ := ascii_code b hb
    rw [e]
    exact not_prefix_of_ne (isPrefixOf_false (encAscii_bad a).2.2.1) (isPrefixOf_false (encAscii_bad a).2.2.2.1)
  · obtain ⟨a, rfl⟩ := ascii_code b hb
    rw [e]
    exact not_prefix_of_ne (isPrefixOf_false (encAscii_bad a).2.2.2.2.1) (isPrefixOf_false (encAscii_bad a).2.2.2.2.2)

theorem ascii_bad {b : UInt8} (hb : b.toNat < 128) (x y : Bytes) : encAscii b ++ x ≠ encBad ++ y := by
  obtain ⟨a, rfl⟩ := ascii_code b hb
  exact not_prefix_of_ne (isPrefixOf_false (encAscii_bad a).1) (isPrefixOf_false (encAscii_bad a).2.1)

theorem wide_bad {c : Char} (hc : 128 ≤ c.toNat) (x y : Bytes) : encWide (utf8 c) ++ x ≠ encBad ++ y := by
  rcases encWide_cases hc with ⟨e, b', t, hu, hb'⟩ | ⟨e, _⟩ | ⟨e, _⟩
  · rw [e, hu]
    intro h
    simp only [encBad, List.cons_append, List.cons.injEq] at h
    rw [h.1] at hb'
    exact absurd hb' (by decide)
  · rw [e]; intro h; simp [encBad] at h
  · rw [e]; intro h; simp [encBad] at h

theorem wide_wide {c d : Char} (hc : 128 ≤ c.toNat) (hd : 128 ≤ d.toNat) {x y : Bytes} (h : encWide (utf8 c) ++ x = encWide (utf8 d) ++ y) : utf8 c = utf8 d ∧ x = y := by
  rcases encWide_cases hc with ⟨e, b, t, hu, hb⟩ | ⟨e, hu⟩ | ⟨e, hu⟩
  · rcases encWide_cases hd with ⟨e', b', t', hu', hb'⟩ | ⟨e', hu'⟩ | ⟨e', hu'⟩
    · rw [e, e'] at h; exact utf8_prefix h
    · rw [e, e', hu] at h
      simp only [List.cons_append, List.cons.injEq] at h
      rw [h.1] at hb; exact absurd hb (by decide)
    · rw [e, e', hu] at h
      simp only [List.cons_append, List.cons.injEq] at h
      rw [h.1] at hb; exact absurd hb (by decide)
  · rcases encWide_cases hd with ⟨e', b', t', hu', hb'⟩ | ⟨e', hu'⟩ | ⟨e', hu'⟩
    · rw [e, e', hu'] at h
      simp only [List.cons_append, List.cons.injEq] at h
      rw [← h.1] at hb'; exact absurd hb' (by decide)
    · rw [e, e'] at h; exact ⟨by rw [hu, hu'], by simpa using h⟩
    · rw [e, e'] at h; simp at h
  · rcases encWide_cases hd with ⟨e', b', t', hu', hb'⟩ | ⟨e', hu'⟩ | ⟨e', hu'⟩
    · rw [e, e', hu'] at h
      simp only [List.cons_append, List.cons.injEq] at h
      rw [← h.1] at hb'; exact absurd hb' (by decide)
    · rw [e, e'] at h; simp at h
    · rw [e, e'] at h; exact ⟨by rw [hu, hu'], by simpa using h⟩

theorem ascii_ascii {b d : UInt8} (hb : b.toNat < 128) (hd : d.toNat < 128) {x y : Bytes} (h : encAscii b ++ x = encAscii d ++ y) : b = d ∧ x = y := by
  by_cases e : b = d
  · subst e; exact ⟨rfl, List.append_cancel_left h⟩
  · obtain ⟨a, rfl⟩ := ascii_code b hb
    obtain ⟨a', rfl⟩ := ascii_code d hd
    have hne : a ≠ a' := fun hh => e (by rw [hh])
    exact absurd h (not_prefix_of_ne (isPrefixOf_false (encAscii_prefix a a' hne)) (isPrefixOf_false (encAscii_prefix a' a (Ne.symm hne))))

/-- How a string begins. -/
inductive Begins : Bytes → Piece → Bytes → Prop where
  | ascii (b : UInt8) (h : b.toNat < 128) (r : Bytes) : Begins (b :: r) (.ascii b h) r
  | wide (c : Char) (h : 128 ≤ c.toNat) (r : Bytes) : Begins (utf8 c ++ r) (.wide c h) r
  | bad (b : UInt8) (r : Bytes) (h : ∀ c r', b :: r ≠ utf8 c ++ r') : Begins (b :: r) .bad r

theorem begins (b : UInt8) (r : Bytes) : ∃ p r', Begins (b :: r) p r' := by
  by_cases hb : b.toNat < 128
  · exact ⟨_, _, .ascii b hb r⟩
  · cases hm : multi (b :: r) with
    | none => exact ⟨_, _, .bad b r ((multi_none_iff (by omega)).1 hm)⟩
    | some x =>
      obtain ⟨m, r'⟩ := x
      obtain ⟨c, hc, rfl, he⟩ := char_of_multi hm
      rw [he]
      exact ⟨_, _, .wide c hc r'⟩

theorem Begins.length {s r : Bytes} {p : Piece} (h : Begins s p r) : r.length < s.length := by
  cases h with
  | ascii => simp
  | wide c h r =>
    have : 0 < (utf8 c).length := List.length_pos_iff.2 (utf8_high h).1
    simp only [List.length_append]; omega
  | bad => simp

theorem Begins.enc {s r : Bytes} {p : Piece} (h : Begins s p r) : encChars s.length s = p.code ++ encChars r.length r := by
  have hl := h.length
  obtain ⟨n, hn⟩ : ∃ n, s.length = n + 1 := ⟨s.length - 1, by omega⟩
  rw [hn]
  cases h with
  | ascii b h r => rw [encChars_ascii _ _ h, encChars_fuel n r (by omega)]; rfl
  | wide c h r => rw [encChars_wide _ _ h, encChars_fuel n r (by omega)]; rfl
  | bad b r h => rw [encChars_bad _ _ h, encChars_fuel n r (by omega)]; rfl

theorem Piece.code_head (p : Piece) (x y : Bytes) : p.code ++ x ≠ 34 :: y := by
  intro h
  cases p with
  | ascii b hb =>
    obtain ⟨a, rfl⟩ := ascii_code b hb
    have : ∀ a : Fin 128, ((encAscii (UInt8.ofNat a)).head?.map fun b => decide (b = 34)) = some false := by decide +kernel
    have := this a
    rw [Piece.code] at h
    cases he : encAscii (UInt8.ofNat a) with
    | nil => rw [he] at this; cases this
    | cons b r =>
      rw [he] at this h
      simp only [List.cons_append, List.cons.injEq] at h
      rw [h.1] at this
      simp at this
  | wide c hc =>
    rw [Piece.code] at h
    rcases encWide_cases hc with ⟨e, b', t, hu, hb'⟩ | ⟨e, _⟩ | ⟨e, _⟩
    · rw [e, hu] at h
      simp only [List.cons_append, List.cons.injEq] at h
      rw [h.1] at hb'; exact absurd hb' (by decide)
    · rw [e] at h; simp at h
    · rw [e] at h; simp at h
  | bad => simp [Piece.code, encBad] at h

theorem Begins.twin {s s' r r' x y : Bytes} {p q : Piece} (h : Begins s p r) (h' : Begins s' q r') (he : p.code ++ x = q.code ++ y) : x = y ∧ (Twin r r' → Twin s s') := by
  cases h with
  | ascii b hb r =>
    obtain ⟨c, _, hc⟩ := utf8_of_ascii hb
    cases h' with
    | ascii d hd r' =>
      obtain ⟨rfl, e⟩ := ascii_ascii hb hd he
      refine ⟨e, fun t => ?_⟩
      have := Twin.char c r r' t
      rwa [hc] at this
    | wide d hd r' => exact absurd he (ascii_wide hb hd x y)
    | bad d r' hd => exact absurd he (ascii_bad hb x y)
  | wide c hc r =>
    cases h' with
    | ascii d hd r' => exact absurd he.symm (ascii_wide hd hc y x)
    | wide d hd r' =>
      obtain ⟨e1, e⟩ := wide_wide hc hd he
      refine ⟨e, fun t => ?_⟩
      rw [← e1]
      exact .char c r r' t
    | bad d r' hd => exact absurd he (wide_bad hc x y)
  | bad b r hb =>
    cases h' with
    | ascii d hd r' => exact absurd he.symm (ascii_bad hd y x)
    | wide d hd r' => exact absurd he.symm (wide_bad hd y x)
    | bad d r' hd => exact ⟨List.append_cancel_left he, fun t => .invalid b d r r' hb hd t⟩

/-- Strings that are written the same way are the same but for their invalid bytes; and the text shows where the string ends. -/
theorem encChars_split : ∀ (k : Nat) (s s' x y : Bytes), s.length ≤ k → encChars s.length s ++ 34 :: x = encChars s'.length s' ++ 34 :: y → Twin s s' ∧ x = y := by
  intro k
  induction k with
  | zero =>
    intro s s' x y hk h
    have : s = [] := List.length_eq_zero_iff.1 (by omega)
    subst this
    cases s' with
    | nil => simp only [encChars_nil, List.nil_append, List.cons.injEq, true_and] at h; exact ⟨.nil, h⟩
    | cons b t =>
      obtain ⟨p, r, hp⟩ := begins b t
      rw [hp.enc, encChars_nil, List.append_assoc] at h
      exact absurd h.symm (p.code_head _ _)
  | succ k ih =>
    intro s s' x y hk h
    cases s with
    | nil => exact ih [] s' x y (by simp) h
    | cons b t =>
      obtain ⟨p, r, hp⟩ := begins b t
      have hl := hp.length
      cases s' with
      | nil =>
        rw [hp.enc, List.append_assoc] at h
        exact absurd h (p.code_head _ _)
      | cons b' t' =>
        obtain ⟨q, r', hq⟩ := begins b' t'
        rw [hp.enc, hq.enc, List.append_assoc, List.append_assoc] at h
        obtain ⟨e, ht⟩ := hp.twin hq h
        obtain ⟨h1, h2⟩ := ih r r' x y (by omega) e
        exact ⟨ht h1, h2⟩

theorem encStr_split {s s' x y : Bytes} (h : encStr s ++ x = encStr s' ++ y) : Twin s s' ∧ x = y := by
  simp only [encStr, List.cons_append, List.append_assoc, List.singleton_append, List.cons.injEq, true_and] at h
  exact encChars_split _ s s' x y (Nat.le_refl _) h

theorem Twin.enc {s s' : Bytes} (h : Twin s s') : encChars s.length s = encChars s'.length s' := by
  induction h with
  | nil => rfl
  | char c t s h ih =>
    rcases utf8_cases c with ⟨hc, hu⟩ | hc
    · rw [hu]
      have hb : (UInt8.ofNat c.toNat).toNat < 128 := by rw [ofNat_toNat (by omega)]; exact hc
      rw [List.singleton_append, List.singleton_append, (Begins.ascii _ hb t).enc, (Begins.ascii _ hb s).enc, ih]
    · rw [(Begins.wide c hc t).enc, (Begins.wide c hc s).enc, ih]
  | invalid b b' t s hb hb' h ih => rw [(Begins.bad b t hb).enc, (Begins.bad b' s hb').enc, ih]

/-- Exactly the strings that are the same but for their invalid bytes are written the same way. -/
theorem encStr_same_iff {s s' : Bytes} : encStr s = encStr s' ↔ Twin s s' := by
  constructor
  · intro h
    exact (encStr_split (x := []) (y := []) (by rw [h])).1
  · intro h
    simp only [encStr, h.enc]

theorem Twin.refl (s : Bytes) : Twin s s := encStr_same_iff.1 rfl

theorem Twin.valid {s s' : Bytes} (h : Twin s s') (hs : ValidUtf8 s) : s = s' := by
  induction h with
  | nil => rfl
  | char c t s h ih =>
    obtain ⟨cs, he⟩ := hs
    cases cs with
    | nil => exact absurd (List.append_eq_nil_iff.1 he).1 (utf8_ne_nil c)
    | cons d cs =>
      rw [List.flatMap_cons] at he
      obtain ⟨_, e⟩ := utf8_prefix he
      rw [ih ⟨cs, e⟩]
  | invalid b b' t s hb hb' h ih =>
    obtain ⟨cs, he⟩ := hs
    cases cs with
    | nil => cases he
    | cons d cs => rw [List.flatMap_cons] at he; exact absurd he (hb d _)

end Sawmill
