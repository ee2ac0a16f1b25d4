import Verif.Lemmas.JsonStr
/-!
# Numbers in JSON
-/

namespace Sawmill
open Rfc

/-- The bytes are the rest of a number from the given state. -/
def accepts : NState → Bytes → Prop
  | s, [] => s.final = true
  | s, b :: t => ∃ s', s.step b = some s' ∧ accepts s' t

/-- What follows does not continue a number. -/
def Delim (rest : Bytes) : Prop := ∀ (s : NState) (b : UInt8) (r : Bytes), rest = b :: r → s.step b = none

theorem scanNum_complete : ∀ (t : Bytes) (s : NState) (rest : Bytes), accepts s t → Delim rest → scanNum s (t ++ rest) = some (t, rest) := by
  intro t
  induction t with
  | nil =>
    intro s rest h hd
    simp only [accepts] at h
    cases rest with
    | nil => simp [scanNum, h]
    | cons b r => simp [scanNum, h, hd s b r rfl]
  | cons b t ih =>
    intro s rest h hd
    obtain ⟨s', hs, ha⟩ := h
    simp only [List.cons_append, scanNum, hs, ih s' rest ha hd, Option.map_some]

theorem scanNum_sound : ∀ (l : Bytes) (s : NState) (t rest : Bytes), scanNum s l = some (t, rest) → l = t ++ rest ∧ accepts s t := by
  intro l
  induction l with
  | nil =>
    intro s t rest h
    simp only [scanNum] at h
    split at h
    · next hf =>
      simp only [Option.some.injEq, Prod.mk.injEq] at h
      obtain ⟨rfl, rfl⟩ := h
      exact ⟨rfl, hf⟩
    · simp at h
  | cons b l ih =>
    intro s t rest h
    simp only [scanNum] at h
    cases hs : s.step b with
    | some s' =>
      rw [hs] at h
      simp only at h
      cases hr : scanNum s' l with
      | none => rw [hr] at h; simp at h
      | some x =>
        obtain ⟨t', rest'⟩ := x
        rw [hr] at h
        simp only [Option.map_some, Option.some.injEq, Prod.mk.injEq] at h
        obtain ⟨rfl, rfl⟩ := h
        obtain ⟨rfl, ha⟩ := ih s' t' rest' hr
        exact ⟨rfl, s', hs, ha⟩
    | none =>
      rw [hs] at h
      simp only at h
      split at h
      · next hf =>
        simp only [Option.some.injEq, Prod.mk.injEq] at h
        obtain ⟨rfl, rfl⟩ := h
        exact ⟨rfl, hf⟩
      · simp at h

/-- Any number of digits. -/
def Ds (t : Bytes) : Prop := ∀ b ∈ t, 48 ≤ b.toNat ∧ b.toNat ≤ 57

theorem isDigit_iff {b : UInt8} : isDigit b = true ↔ 48 ≤ b.toNat ∧ b.toNat ≤ 57 := by
  simp only [isDigit, Bool.and_eq_true, decide_eq_true_eq]

def ExpPart (t : Bytes) : Prop := t = [] ∨ ∃ e s d, t = e :: (s ++ d) ∧ (e = 101 ∨ e = 69) ∧ (s = [] ∨ s = [43] ∨ s = [45]) ∧ Digits d
def FracPart (t : Bytes) : Prop := t = [] ∨ ∃ d, t = 46 :: d ∧ Digits d

theorem ds_nil : Ds [] := by intro b hb; simp at hb
theorem ds_cons {b : UInt8} {t : Bytes} : Ds (b :: t) ↔ isDigit b = true ∧ Ds t := by
  rw [isDigit_iff]; simp [Ds]

theorem digits_iff {t : Bytes} : Digits t ↔ ∃ b r, t = b :: r ∧ isDigit b = true ∧ Ds r := by
  unfold Digits
  cases t with
  | nil => simp
  | cons b r =>
    have := ds_cons (b := b) (t := r)
    simp only [Ds] at this
    simp only [ne_eq, reduceCtorEq, not_false_eq_true, true_and, this]
    constructor
    · rintro ⟨h1, h2⟩; exact ⟨b, r, rfl, h1, h2⟩
    · rintro ⟨_, _, he, h1, h2⟩
      simp only [List.cons.injEq] at he
      obtain ⟨rfl, rfl⟩ := he
      exact ⟨h1, h2⟩

theorem acc_e0 : ∀ {t : Bytes}, accepts .e0 t ↔ Ds t := by
  intro t
  induction t with
  | nil => simp [accepts, NState.final, ds_nil]
  | cons b t ih =>
    simp only [accepts, NState.step, ds_cons, ← ih]
    by_cases h : isDigit b = true
    · simp [h]
    · simp [h]

theorem acc_esign {t : Bytes} : accepts .esign t ↔ Digits t := by
  rw [digits_iff]
  cases t with
  | nil => simp [accepts, NState.final]
  | cons b t =>
    simp only [accepts, NState.step]
    constructor
    · rintro ⟨s', hs', h⟩
      by_cases hd : isDigit b = true
      · rw [if_pos hd] at hs'
        simp only [Option.some.injEq] at hs'
        subst hs'
        exact ⟨b, t, rfl, hd, acc_e0.1 h⟩
      · rw [if_neg hd] at hs'; simp at hs'
    · rintro ⟨_, _, he, hd, h⟩
      simp only [List.cons.injEq] at he
      obtain ⟨rfl, rfl⟩ := he
      exact ⟨.e0, by rw [if_pos hd], acc_e0.2 h⟩

theorem not_digit_dot : isDigit 46 = false := by decide
theorem not_digit_e : isDigit 101 = false := by decide
theorem not_digit_E : isDigit 69 = false := by decide
theorem not_digit_plus : isDigit 43 = false := by decide
theorem not_digit_minus : isDigit 45 = false := by decide

theorem acc_e {t : Bytes} : accepts .e t ↔ ∃ s d, t = s ++ d ∧ (s = [] ∨ s = [43] ∨ s = [45]) ∧ Digits d := by
  cases t with
  | nil =>
    simp only [accepts, NState.final, Bool.false_eq_true, false_iff]
    rintro ⟨s, d, he, _, hd⟩
    have := (List.append_eq_nil_iff.1 he.symm).2
    exact hd.1 this
  | cons b t =>
    simp only [accepts, NState.step]
    by_cases hs : b = 43 ∨ b = 45
    · simp only [if_pos hs, Option.some.injEq, exists_eq_left', acc_esign]
      constructor
      · intro h
        refine ⟨[b], t, rfl, ?_, h⟩
        rcases hs with rfl | rfl <;> simp
      · rintro ⟨s, d, he, h1, h2⟩
        rcases h1 with rfl | rfl | rfl
        · simp only [List.nil_append] at he
          subst he
          obtain ⟨_, _, he, hd, _⟩ := digits_iff.1 h2
          simp only [List.cons.injEq] at he
          obtain ⟨rfl, rfl⟩ := he
          rcases hs with rfl | rfl
          · rw [not_digit_plus] at hd; simp at hd
          · rw [not_digit_minus] at hd; simp at hd
        · simp only [List.cons_append, List.nil_append, List.cons.injEq] at he
          exact he.2 ▸ h2
        · simp only [List.cons_append, List.nil_append, List.cons.injEq] at he
          exact he.2 ▸ h2
    · rw [if_neg hs]
      constructor
      · rintro ⟨s', hs', h⟩
        by_cases hd : isDigit b = true
        · rw [if_pos hd] at hs'
          simp only [Option.some.injEq] at hs'
          subst hs'
          exact ⟨[], b :: t, rfl, .inl rfl, digits_iff.2 ⟨b, t, rfl, hd, acc_e0.1 h⟩⟩
        · rw [if_neg hd] at hs'; simp at hs'
      · rintro ⟨s, d, he, h1, h2⟩
        rcases h1 with rfl | rfl | rfl
        · simp only [List.nil_append] at he
          subst he
          obtain ⟨_, _, he, hd, hr⟩ := digits_iff.1 h2
          simp only [List.cons.injEq] at he
          obtain ⟨rfl, rfl⟩ := he
          exact ⟨.e0, by rw [if_pos hd], acc_e0.2 hr⟩
        · simp only [List.cons_append, List.nil_append, List.cons.injEq] at he
          exact absurd (.inl he.1) hs
        · simp only [List.cons_append, List.nil_append, List.cons.injEq] at he
          exact absurd (.inr he.1) hs

theorem expPart_cons {b : UInt8} {t : Bytes} : ExpPart (b :: t) ↔ (b = 101 ∨ b = 69) ∧ accepts .e t := by
  rw [acc_e]
  simp only [ExpPart, reduceCtorEq, false_or]
  constructor
  · rintro ⟨e, s, d, he, h1, h2, h3⟩
    simp only [List.cons.injEq] at he
    obtain ⟨rfl, rfl⟩ := he
    exact ⟨h1, s, d, rfl, h2, h3⟩
  · rintro ⟨h1, s, d, rfl, h2, h3⟩
    exact ⟨b, s, d, rfl, h1, h2, h3⟩

/-- Digits, and then an exponent (or nothing). -/
theorem acc_dot0 : ∀ {t : Bytes}, accepts .dot0 t ↔ ∃ d x, t = d ++ x ∧ Ds d ∧ ExpPart x := by
  intro t
  induction t with
  | nil => simp only [accepts, NState.final, true_iff]; exact ⟨[], [], rfl, ds_nil, .inl rfl⟩
  | cons b t ih =>
    simp only [accepts, NState.step]
    by_cases hd : isDigit b = true
    · simp only [if_pos hd, Option.some.injEq, exists_eq_left', ih]
      constructor
      · rintro ⟨d, x, rfl, h1, h2⟩
        exact ⟨b :: d, x, rfl, ds_cons.2 ⟨hd, h1⟩, h2⟩
      · rintro ⟨d, x, he, h1, h2⟩
        cases d with
        | nil =>
          simp only [List.nil_append] at he
          subst he
          rcases (expPart_cons.1 h2).1 with rfl | rfl
          · rw [not_digit_e] at hd; simp at hd
          · rw [not_digit_E] at hd; simp at hd
        | cons c d =>
          simp only [List.cons_append, List.cons.injEq] at he
          exact ⟨d, x, he.2, (ds_cons.1 h1).2, h2⟩
    · rw [if_neg hd]
      constructor
      · rintro ⟨s', hs', h⟩
        by_cases he : b = 101 ∨ b = 69
        · rw [if_pos he] at hs'
          simp only [Option.some.injEq] at hs'
          subst hs'
          exact ⟨[], b :: t, rfl, ds_nil, expPart_cons.2 ⟨he, h⟩⟩
        · rw [if_neg he] at hs'; simp at hs'
      · rintro ⟨d, x, he, h1, h2⟩
        cases d with
        | nil =>
          simp only [List.nil_append] at he
          subst he
          obtain ⟨h3, h4⟩ := expPart_cons.1 h2
          exact ⟨.e, by rw [if_pos h3], h4⟩
        | cons c d =>
          simp only [List.cons_append, List.cons.injEq] at he
          obtain ⟨rfl, _⟩ := he
          exact absurd (ds_cons.1 h1).1 hd

theorem acc_dot {t : Bytes} : accepts .dot t ↔ ∃ d x, t = d ++ x ∧ Digits d ∧ ExpPart x := by
  cases t with
  | nil =>
    simp only [accepts, NState.final, Bool.false_eq_true, false_iff]
    rintro ⟨d, x, he, hd, _⟩
    exact hd.1 (List.append_eq_nil_iff.1 he.symm).1
  | cons b t =>
    simp only [accepts, NState.step]
    constructor
    · rintro ⟨s', hs', h⟩
      by_cases hd : isDigit b = true
      · rw [if_pos hd] at hs'
        simp only [Option.some.injEq] at hs'
        subst hs'
        obtain ⟨d, x, rfl, h1, h2⟩ := acc_dot0.1 h
        exact ⟨b :: d, x, rfl, digits_iff.2 ⟨b, d, rfl, hd, h1⟩, h2⟩
      · rw [if_neg hd] at hs'; simp at hs'
    · rintro ⟨d, x, he, h1, h2⟩
      obtain ⟨c, r, rfl, hd, hr⟩ := digits_iff.1 h1
      simp only [List.cons_append, List.cons.injEq] at he
      obtain ⟨rfl, rfl⟩ := he
      exact ⟨.dot0, by rw [if_pos hd], acc_dot0.2 ⟨r, x, rfl, hr, h2⟩⟩

/-- A fraction and an exponent, both optional. -/
def TailPart (t : Bytes) : Prop := ∃ f x, t = f ++ x ∧ FracPart f ∧ ExpPart x

theorem tailPart_cons {b : UInt8} {t : Bytes} : TailPart (b :: t) ↔ (b = 46 ∧ accepts .dot t) ∨ ((b = 101 ∨ b = 69) ∧ accepts .e t) := by
  constructor
  · rintro ⟨f, x, he, h1, h2⟩
    rcases h1 with rfl | ⟨d, rfl, hd⟩
    · simp only [List.nil_append] at he
      subst he
      exact .inr (expPart_cons.1 h2)
    · simp only [List.cons_append, List.cons.injEq] at he
      obtain ⟨rfl, rfl⟩ := he
      exact .inl ⟨rfl, acc_dot.2 ⟨d, x, rfl, hd, h2⟩⟩
  · rintro (⟨rfl, h⟩ | ⟨h1, h2⟩)
    · obtain ⟨d, x, rfl, hd, hx⟩ := acc_dot.1 h
      exact ⟨46 :: d, x, rfl, .inr ⟨d, rfl, hd⟩, hx⟩
    · exact ⟨[], b :: t, rfl, .inl rfl, expPart_cons.2 ⟨h1, h2⟩⟩

theorem tailPart_nil : TailPart [] := ⟨[], [], rfl, .inl rfl, .inl rfl⟩

theorem acc_zero {t : Bytes} : accepts .zero t ↔ TailPart t := by
  cases t with
  | nil => simp only [accepts, NState.final, true_iff]; exact tailPart_nil
  | cons b t =>
    simp only [accepts, NState.step, tailPart_cons]
    by_cases h1 : b = 46
    · subst h1; simp
    · by_cases h2 : b = 101 ∨ b = 69
      · simp [h1, h2]
      · simp [h1, h2]

theorem acc_one : ∀ {t : Bytes}, accepts .one t ↔ ∃ d x, t = d ++ x ∧ Ds d ∧ TailPart x := by
  intro t
  induction t with
  | nil => simp only [accepts, NState.final, true_iff]; exact ⟨[], [], rfl, ds_nil, tailPart_nil⟩
  | cons b t ih =>
    have key : accepts .one (b :: t) ↔ (isDigit b = true ∧ accepts .one t) ∨ (isDigit b = false ∧ TailPart (b :: t)) := by
      simp only [accepts, NState.step, tailPart_cons]
      by_cases hd : isDigit b = true
      · simp [hd]
      · by_cases h1 : b = 46
        · subst h1; simp [not_digit_dot]
        · by_cases h2 : b = 101 ∨ b = 69
          · simp [hd, h1, h2]
          · simp [hd, h1, h2]
    rw [key]
    constructor
    · rintro (⟨h1, h2⟩ | ⟨_, h⟩)
      · obtain ⟨d, x, rfl, h3, h4⟩ := ih.1 h2
        exact ⟨b :: d, x, rfl, ds_cons.2 ⟨h1, h3⟩, h4⟩
      · exact ⟨[], b :: t, rfl, ds_nil, h⟩
    · rintro ⟨d, x, he, h1, h2⟩
      cases d with
      | nil =>
        simp only [List.nil_append] at he
        subst he
        refine .inr ⟨?_, h2⟩
        rcases tailPart_cons.1 h2 with ⟨rfl, _⟩ | ⟨rfl | rfl, _⟩ <;> decide
      | cons c d =>
        simp only [List.cons_append, List.cons.injEq] at he
        obtain ⟨rfl, rfl⟩ := he
        exact .inl ⟨(ds_cons.1 h1).1, ih.2 ⟨d, x, rfl, (ds_cons.1 h1).2, h2⟩⟩

/-- The integer part without sign. -/
def IntPart (t : Bytes) : Prop := t = [48] ∨ Digits t ∧ t.head? ≠ some 48

theorem acc_neg_cons {b : UInt8} {t : Bytes} :
    (b = 48 ∧ accepts .zero t ∨ b ≠ 48 ∧ isDigit b = true ∧ accepts .one t) ↔ ∃ i x, b :: t = i ++ x ∧ IntPart i ∧ TailPart x := by
  constructor
  · rintro (⟨rfl, h⟩ | ⟨hb, hd, h⟩)
    · exact ⟨[48], t, rfl, .inl rfl, acc_zero.1 h⟩
    · obtain ⟨d, x, rfl, h1, h2⟩ := acc_one.1 h
      exact ⟨b :: d, x, rfl, .inr ⟨digits_iff.2 ⟨b, d, rfl, hd, h1⟩, by simpa using hb⟩, h2⟩
  · rintro ⟨i, x, he, rfl | ⟨h1, h2⟩, hx⟩
    · simp only [List.cons_append, List.nil_append, List.cons.injEq] at he
      obtain ⟨rfl, rfl⟩ := he
      exact .inl ⟨rfl, acc_zero.2 hx⟩
    · obtain ⟨c, r, rfl, hd, hr⟩ := digits_iff.1 h1
      simp only [List.cons_append, List.cons.injEq] at he
      obtain ⟨rfl, rfl⟩ := he
      exact .inr ⟨by simpa using h2, hd, acc_one.2 ⟨r, x, rfl, hr, hx⟩⟩

theorem acc_neg {t : Bytes} : accepts .neg t ↔ ∃ i x, t = i ++ x ∧ IntPart i ∧ TailPart x := by
  cases t with
  | nil =>
    simp only [accepts, NState.final, Bool.false_eq_true, false_iff]
    rintro ⟨i, x, he, hi, _⟩
    have := (List.append_eq_nil_iff.1 he.symm).1
    subst this
    rcases hi with h | ⟨h, _⟩
    · simp at h
    · exact h.1 rfl
  | cons b t =>
    rw [← acc_neg_cons]
    simp only [accepts, NState.step]
    by_cases h1 : b = 48
    · subst h1; simp
    · by_cases h2 : isDigit b = true
      · simp [h1, h2]
      · simp [h1, h2]

theorem number_iff {t : Bytes} : Number t ↔ (∃ r, t = 45 :: r ∧ accepts .neg r) ∨ (∃ r, t = 48 :: r ∧ accepts .zero r) ∨ (∃ b r, t = b :: r ∧ b ≠ 48 ∧ isDigit b = true ∧ accepts .one r) := by
  constructor
  · rintro ⟨s, i, f, x, rfl, hs, hi, hf, hx⟩
    rcases hs with rfl | rfl
    · have hne : i ≠ [] := by rintro rfl; rcases hi with h | ⟨h, _⟩; · simp at h
                              · exact h.1 rfl
      cases i with
      | nil => exact absurd rfl hne
      | cons b r =>
        rcases acc_neg_cons.2 ⟨b :: r, f ++ x, (List.cons_append (a := b) (as := r)).symm, hi, f, x, rfl, hf, hx⟩ with ⟨rfl, h⟩ | ⟨h1, h2, h3⟩
        · exact .inr (.inl ⟨_, by simp, h⟩)
        · exact .inr (.inr ⟨b, _, by simp, h1, h2, h3⟩)
    · exact .inl ⟨i ++ (f ++ x), by simp, acc_neg.2 ⟨i, f ++ x, rfl, hi, f, x, rfl, hf, hx⟩⟩
  · rintro (⟨r, rfl, h⟩ | ⟨r, rfl, h⟩ | ⟨b, r, rfl, h1, h2, h3⟩)
    · obtain ⟨i, x, rfl, hi, f, x, rfl, hf, hx⟩ := acc_neg.1 h
      exact ⟨[45], i, f, x, by simp, .inr rfl, hi, hf, hx⟩
    · obtain ⟨i, x, he, hi, f, x, rfl, hf, hx⟩ := acc_neg_cons.1 (.inl ⟨rfl, h⟩)
      exact ⟨[], i, f, x, by rw [he]; simp, .inl rfl, hi, hf, hx⟩
    · obtain ⟨i, x, he, hi, f, x, rfl, hf, hx⟩ := acc_neg_cons.1 (.inr ⟨h1, h2, h3⟩)
      exact ⟨[], i, f, x, by rw [he]; simp, .inl rfl, hi, hf, hx⟩

end Sawmill
