import Verif.Lemmas.JsonEnc
/-!
# The bytes of encoded events
-/

namespace Sawmill
open Rfc

theorem tidy_nil : Tidy [] := ⟨[], rfl, by simp⟩

theorem Tidy.append {a b : Bytes} (ha : Tidy a) (hb : Tidy b) : Tidy (a ++ b) := by
  obtain ⟨cs, rfl, h1⟩ := ha
  obtain ⟨ds, rfl, h2⟩ := hb
  refine ⟨cs ++ ds, by simp, ?_⟩
  intro c hc
  rcases List.mem_append.1 hc with h | h
  · exact h1 c h
  · exact h2 c h

/-- The ASCII bytes that are allowed. -/
def tidyByte (b : UInt8) : Prop := 32 ≤ b.toNat ∧ b.toNat < 128 ∧ b.toNat ≠ 60 ∧ b.toNat ≠ 62 ∧ b.toNat ≠ 38

theorem char_ne {c d : Char} (h : c.toNat ≠ d.toNat) : c ≠ d := by rintro rfl; exact h rfl

theorem tidy_byte {b : UInt8} (h : tidyByte b) : Tidy [b] := by
  obtain ⟨h1, h2, h3, h4, h5⟩ := h
  obtain ⟨c, hc, hu⟩ := utf8_of_ascii h2
  refine ⟨[c], by simp [hu], ?_⟩
  simp only [List.mem_singleton, forall_eq]
  refine ⟨by omega, char_ne ?_, char_ne ?_, char_ne ?_, char_ne ?_, char_ne ?_⟩ <;> rw [hc]
  · exact h3
  · exact h4
  · exact h5
  · show b.toNat ≠ 0x2028; omega
  · show b.toNat ≠ 0x2029; omega

theorem tidy_bytes : ∀ {s : Bytes}, (∀ b ∈ s, tidyByte b) → Tidy s
  | [], _ => tidy_nil
  | b :: s, h => (tidy_byte (h b (by simp))).append (tidy_bytes (s := s) fun x hx => h x (by simp [hx]))

instance (b : UInt8) : Decidable (tidyByte b) := by unfold tidyByte; infer_instance

theorem tidy_lit {s : Bytes} (h : s.all (fun b => decide (tidyByte b)) = true) : Tidy s := by
  refine tidy_bytes fun b hb => ?_
  have := List.all_eq_true.1 h b hb
  simpa using this

theorem Tidy.cons {b : UInt8} {s : Bytes} (hs : Tidy s) (hb : tidyByte b) : Tidy (b :: s) := (tidy_byte hb).append hs

theorem tidy_hexDigit {n : Nat} (h : n < 16) : tidyByte (hexDigit n) := by
  have := hexDigit_spec h
  simp only [HexDigit] at this
  simp only [tidyByte]
  omega

theorem tidy_digit {b : UInt8} (h : isDigit b = true) : tidyByte b := by
  have := isDigit_iff.1 h
  simp only [tidyByte]
  omega

theorem tidy_encChars : ∀ (n : Nat) (s : Bytes), Tidy (encChars n s) := by
  intro n
  induction n with
  | zero => intro s; exact tidy_nil
  | succ n ih =>
    intro s
    cases s with
    | nil => exact tidy_nil
    | cons b r =>
      simp only [encChars]
      split
      · next hb =>
        refine Tidy.append ?_ (ih r)
        split
        · next h => rcases h with rfl | rfl <;> exact tidy_lit (by decide)
        · split
          · exact tidy_lit (by decide)
          · split
            · exact tidy_lit (by decide)
            · split
              · exact tidy_lit (by decide)
              · split
                · next h =>
                  have : b.toNat < 128 := hb
                  refine tidy_bytes fun x hx => ?_
                  simp only [List.mem_cons, List.not_mem_nil, or_false] at hx
                  rcases hx with rfl | rfl | rfl | rfl | rfl | rfl
                  · decide
                  · decide
                  · decide
                  · decide
                  · exact tidy_hexDigit (by omega)
                  · exact tidy_hexDigit (by omega)
                · next h =>
                  simp only [not_or] at h
                  obtain ⟨h1, h2, h3, h4⟩ := h
                  refine tidy_byte ⟨by omega, hb, ?_, ?_, ?_⟩
                  · intro e; exact h2 (UInt8.toNat_inj.1 e)
                  · intro e; exact h3 (UInt8.toNat_inj.1 e)
                  · intro e; exact h4 (UInt8.toNat_inj.1 e)
      · split
        · exact Tidy.append (tidy_lit (by decide)) (ih r)
        · next m r' hm =>
          refine Tidy.append ?_ (ih r')
          obtain ⟨c, hc, rfl, _⟩ := char_of_multi hm
          split
          · exact tidy_lit (by decide)
          · split
            · exact tidy_lit (by decide)
            · next h1 h2 =>
              refine ⟨[c], by simp, ?_⟩
              simp only [List.mem_singleton, forall_eq]
              refine ⟨by omega, char_ne ?_, char_ne ?_, char_ne ?_, ?_, ?_⟩
              · show c.toNat ≠ 60; omega
              · show c.toNat ≠ 62; omega
              · show c.toNat ≠ 38; omega
              · rintro rfl; exact h1 (by decide +kernel)
              · rintro rfl; exact h2 (by decide +kernel)

theorem tidy_encStr (s : Bytes) : Tidy (encStr s) := by
  unfold encStr
  exact ((tidy_encChars _ _).append (tidy_lit (by decide))).cons (by decide)

theorem tidy_digits {t : Bytes} (h : Digits t) : ∀ b ∈ t, tidyByte b := fun b hb => tidy_digit (isDigit_iff.2 (h.2 b hb))

theorem tidy_number {t : Bytes} (h : Number t) : Tidy t := by
  obtain ⟨s, i, f, e, rfl, hs, hi, hf, he⟩ := h
  refine Tidy.append (Tidy.append (Tidy.append ?_ ?_) ?_) ?_
  · rcases hs with rfl | rfl <;> exact tidy_lit (by decide)
  · rcases hi with rfl | hi
    · exact tidy_lit (by decide)
    · exact tidy_bytes (tidy_digits hi.1)
  · rcases hf with rfl | ⟨d, rfl, hd⟩
    · exact tidy_nil
    · exact (tidy_bytes (tidy_digits hd)).cons (by decide)
  · rcases he with rfl | ⟨e, s, d, rfl, he, hs, hd⟩
    · exact tidy_nil
    · refine Tidy.cons (Tidy.append ?_ (tidy_bytes (tidy_digits hd))) ?_
      · rcases hs with rfl | rfl | rfl <;> exact tidy_lit (by decide)
      · rcases he with rfl | rfl <;> decide

theorem tidy_appendInt (x : Int) (w : Nat) : ∀ b ∈ appendInt x w, tidyByte b := by
  intro b hb
  unfold appendInt at hb
  simp only [List.mem_append, List.mem_replicate] at hb
  rcases hb with (hb | ⟨_, rfl⟩) | hb
  · split at hb
    · simp only [List.mem_singleton] at hb; subst hb; decide
    · simp at hb
  · decide
  · exact tidy_digit (itoa_digits _ b hb)

theorem tidy_formatNano (n : Nat) : ∀ b ∈ formatNano n, tidyByte b := by
  intro b hb
  unfold formatNano at hb
  simp only at hb
  split at hb
  · simp at hb
  · simp only [List.mem_cons, List.mem_reverse] at hb
    rcases hb with rfl | hb
    · decide
    · have := (List.dropWhile_sublist _).subset hb
      rw [List.mem_reverse] at this
      exact tidy_appendInt _ _ b this

theorem tidy_rfc3339 (t : GoTime) : ∀ b ∈ t.rfc3339Nano, tidyByte b := by
  intro b hb
  unfold GoTime.rfc3339Nano at hb
  simp only [List.mem_append, List.mem_singleton] at hb
  have lits : ∀ c : UInt8, c = 45 ∨ c = 84 ∨ c = 58 ∨ c = 90 → tidyByte c := by
    rintro c (rfl | rfl | rfl | rfl) <;> decide
  rcases hb with (((((((((((hb | rfl) | hb) | rfl) | hb) | rfl) | hb) | rfl) | hb) | rfl) | hb) | hb) | rfl
  any_goals exact tidy_appendInt _ _ b hb
  any_goals exact tidy_formatNano _ b hb
  all_goals exact lits _ (by simp)

theorem tidy_time (t : Int) : Tidy (timeMarshalJSON t) := by
  unfold timeMarshalJSON
  refine Tidy.append (Tidy.append (tidy_lit (by decide)) (tidy_bytes (tidy_rfc3339 _))) (tidy_lit (by decide))

/-- Whatever is encoded, if it succeeds, is tidy. -/
def TidyOut (r : JOut Bytes) : Prop := ∀ bs, r = .ok bs → Tidy bs

theorem tidyOut_ok {bs : Bytes} (h : Tidy bs) : TidyOut (.ok bs) := by rintro _ ⟨⟩; exact h
theorem tidyOut_error : TidyOut .error := by rintro _ ⟨⟩
theorem tidyOut_fuel : TidyOut .fuel := by rintro _ ⟨⟩

theorem TidyOut.bind {r : JOut Bytes} {f : Bytes → JOut Bytes} (h : TidyOut r) (hf : ∀ bs, Tidy bs → TidyOut (f bs)) : TidyOut (r.bind f) := by
  cases r with
  | ok bs => exact hf bs (h bs rfl)
  | error => exact tidyOut_error
  | fuel => exact tidyOut_fuel

theorem tidyOut_compact {bs : Bytes} (h : Tidy bs) : TidyOut (compact bs) := by
  unfold compact
  split
  · exact tidyOut_ok h
  · exact tidyOut_error

theorem tidyOut_join {α : Type} {f : α → JOut Bytes} (h : ∀ x, TidyOut (f x)) : ∀ xs, TidyOut (joinText f xs)
  | [] => tidyOut_ok tidy_nil
  | [x] => h x
  | x :: y :: r => by
    rw [joinText_cons]
    exact (h x).bind fun a ha => (tidyOut_join h (y :: r)).bind fun b hb => tidyOut_ok (ha.append (hb.cons (by decide)))

theorem tidy_fields {f : Ptr → JOut Bytes} (h : ∀ p, TidyOut (f p)) (es : List (Bytes × Ptr)) :
    TidyOut ((joinText (fun e : Bytes × Ptr => (f e.2).bind fun t => .ok (encStr e.1 ++ 58 :: t)) es).bind fun t => .ok (123 :: (t ++ [125]))) := by
  refine TidyOut.bind (tidyOut_join (fun e => (h e.2).bind fun t ht => tidyOut_ok ((tidy_encStr _).append (ht.cons (by decide)))) es) fun t ht => ?_
  exact tidyOut_ok ((ht.append (tidy_lit (by decide))).cons (by decide))

theorem tidy_marshalPtr {env : JEnv} (hl : env.Lawful) (h : Heap) : ∀ n p, TidyOut (marshalPtr env h n p) := by
  intro n
  induction n with
  | zero => intro p; exact tidyOut_fuel
  | succ n ih =>
    intro p
    simp only [marshalPtr]
    split
    · exact tidyOut_ok (tidy_lit (by decide))
    · next c hc =>
      refine TidyOut.bind ?_ fun bs hb => tidyOut_compact hb
      split
      · split
        · exact tidyOut_ok (tidy_lit (by decide))
        · exact (tidyOut_join ih _).bind fun t ht => tidyOut_ok ((ht.append (tidy_lit (by decide))).cons (by decide))
      · refine tidyOut_ok ?_; split <;> exact tidy_lit (by decide)
      · split
        · next hf => exact tidyOut_ok (tidy_number (hl.number _ hf))
        · exact tidyOut_error
      · exact tidyOut_ok (tidy_number (intLit_int _).1)
      · split
        · exact tidyOut_ok (tidy_lit (by decide))
        · exact tidy_fields ih _
      · exact tidyOut_ok (tidy_encStr _)
      · exact tidyOut_compact (tidy_time _)
      · exact tidyOut_ok (tidy_number (intLit_nat _).1)
      · exact tidyOut_ok (tidy_lit (by decide))
      · exact tidyOut_ok (tidy_lit (by decide))

/-- Tidy text has no control byte in it, and none of `<`, `>`, `&`. -/
theorem Tidy.bytes {s : Bytes} (h : Tidy s) : ∀ b ∈ s, 32 ≤ b.toNat ∧ b ≠ 60 ∧ b ≠ 62 ∧ b ≠ 38 := by
  obtain ⟨cs, rfl, hc⟩ := h
  intro b hb
  obtain ⟨c, hm, hb⟩ := List.mem_flatMap.1 hb
  obtain ⟨h1, h2, h3, h4, _⟩ := hc c hm
  rcases utf8_cases c with ⟨h, hu⟩ | h
  · rw [hu, List.mem_singleton] at hb
    have e : b.toNat = c.toNat := by rw [hb, ofNat_toNat (by omega)]
    have inj : ∀ d : Char, c ≠ d → c.toNat ≠ d.toNat := fun d hd he => hd (Char.toNat_inj.1 he)
    refine ⟨by omega, ?_, ?_, ?_⟩
    · rintro rfl; exact inj _ h2 e.symm
    · rintro rfl; exact inj _ h3 e.symm
    · rintro rfl; exact inj _ h4 e.symm
  · have := (utf8_high h).2 b hb
    refine ⟨by omega, ?_, ?_, ?_⟩ <;> rintro rfl <;> revert this <;> decide

end Sawmill
