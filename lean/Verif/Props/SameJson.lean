import Verif.Lemmas.SameJson
import Verif.Props.Json
import Verif.Lemmas.JsonTidy
import Verif.Props.ConfigString
/-!
# C107: when two events are the same JSON
-/

namespace Sawmill
open Rfc

/-! ## Numbers -/

theorem calNumber_snoc (l : Bytes) (b : UInt8) : Cal.number (l ++ [b]) = (Cal.number l).bind fun n => if isDigit b then some (10 * n + (b.toNat - 48)) else none := by
  simp [Cal.number]

theorem calNumber_decimal (d : Bytes) : ∀ (m : Nat), Cal.number d = some m → IntPart d → d = itoa m := by
  suffices H : ∀ (k : Nat) (d : Bytes), d.length ≤ k → ∀ (m : Nat), Cal.number d = some m → IntPart d → d = itoa m from H _ d (Nat.le_refl _)
  intro k
  induction k with
  | zero =>
    intro d hk m _ hi
    have : d = [] := List.length_eq_zero_iff.1 (by omega)
    subst this
    rcases hi with h | ⟨h, _⟩
    · cases h
    · exact absurd rfl h.1
  | succ k ih =>
    intro d hk m hm hi
    rcases List.eq_nil_or_concat d with rfl | ⟨l, b, rfl⟩
    · rcases hi with h | ⟨h, _⟩
      · cases h
      · exact absurd rfl h.1
    · rw [List.concat_eq_append] at hm hi hk ⊢
      rw [calNumber_snoc] at hm
      by_cases hb : isDigit b = true
      · have hb2 := isDigit_iff.1 hb
        have eb : ∀ q, 10 * q + (b.toNat - 48) = m → UInt8.ofNat (48 + m % 10) = b := by
          intro q hq
          rw [show 48 + m % 10 = b.toNat by omega]; simp
        cases l with
        | nil =>
          simp only [Cal.number, List.foldl_nil, Option.bind_some, if_pos hb, Option.some.injEq] at hm
          rw [itoa_lt (by omega), ← eb 0 hm, List.nil_append, show m % 10 = m by omega]
        | cons c l =>
          have hi2 : Digits (c :: l) ∧ (c :: l).head? ≠ some 48 := by
            rcases hi with h | ⟨h1, h2⟩
            · simp at h
            · exact ⟨⟨by simp, fun x hx => h1.2 x (List.mem_append_left _ hx)⟩, by simpa using h2⟩
          cases hq : Cal.number (c :: l) with
          | none => rw [hq] at hm; cases hm
          | some q =>
            rw [hq, Option.bind_some, if_pos hb, Option.some.injEq] at hm
            have hr := ih (c :: l) (by simp at hk ⊢; omega) q hq (.inr hi2)
            have hq0 : q ≠ 0 := by
              rintro rfl
              rw [itoa_lt (by omega)] at hr
              exact hi2.2 (by rw [hr]; rfl)
            rw [itoa_ge (by omega), eb q hm, show m / 10 = q by omega, ← hr]
      · cases h : Cal.number l with
        | none => rw [h] at hm; cases hm
        | some q => rw [h, Option.bind_some, if_neg hb] at hm; cases hm

/-- A number that is an integer in decimal is written in one way. -/
theorem intLit_text {t : Bytes} {i : Int} (h : IntLit t i) : t = intText i := by
  obtain ⟨⟨sign, int, frac, exp, rfl, hs, hi, hf, he⟩, d, h1, h2⟩ := h
  have hd : ∀ b ∈ d, isDigit b = true := by
    clear h1
    suffices H : ∀ (k : Nat) (d : Bytes), d.length ≤ k → ∀ m, Cal.number d = some m → ∀ b ∈ d, isDigit b = true from H _ d (Nat.le_refl _) _ h2
    intro k
    induction k with
    | zero =>
      intro d hk m _ b hb
      have : d = [] := List.length_eq_zero_iff.1 (by omega)
      subst this; cases hb
    | succ k ih =>
      intro d hk m hm b hb
      rcases List.eq_nil_or_concat d with rfl | ⟨l, c, rfl⟩
      · cases hb
      · rw [List.concat_eq_append] at hm hb hk
        rw [calNumber_snoc] at hm
        cases hl : Cal.number l with
        | none => rw [hl] at hm; cases hm
        | some q =>
          rw [hl, Option.bind_some] at hm
          by_cases hc : isDigit c = true
          · rcases List.mem_append.1 hb with h | h
            · exact ih l (by simp at hk; omega) q hl b h
            · simp only [List.mem_singleton] at h; rw [h]; exact hc
          · rw [if_neg hc] at hm; cases hm
  have key : ∀ {i' : Bytes}, IntPart i' → ∃ b r, i' = b :: r ∧ isDigit b = true := by
    rintro i' (rfl | ⟨⟨hne, hd⟩, _⟩)
    · exact ⟨48, [], rfl, by decide⟩
    · cases i' with
      | nil => exact absurd rfl hne
      | cons b r => exact ⟨b, r, rfl, isDigit_iff.2 (hd b (by simp))⟩
  obtain ⟨b, r, hb, hbd⟩ := key hi
  have hb45 : b ≠ 45 := by rintro rfl; exact absurd hbd (by decide)
  -- the sign is the sign
  have hsd : sign = (if i < 0 then [45] else []) ∧ d = int ++ frac ++ exp := by
    by_cases hneg : i < 0
    · rw [if_pos hneg] at h1 ⊢
      rcases hs with rfl | rfl
      · rw [hb] at h1; simp only [List.nil_append, List.cons_append, List.append_assoc, List.cons.injEq] at h1; exact absurd h1.1 hb45
      · simp only [List.cons_append, List.nil_append, List.append_assoc, List.cons.injEq, true_and] at h1
        exact ⟨rfl, by rw [← h1]; simp⟩
    · rw [if_neg hneg] at h1 ⊢
      rcases hs with rfl | rfl
      · simp only [List.nil_append] at h1
        exact ⟨rfl, h1.symm⟩
      · exfalso
        have := hd 45 (by rw [List.nil_append] at h1; rw [← h1]; simp)
        exact absurd this (by decide)
  obtain ⟨hs1, rfl⟩ := hsd
  have hf0 : frac = [] := by
    rcases hf with h | ⟨e, rfl, _⟩
    · exact h
    · exact absurd (hd 46 (by simp)) (by decide)
  have he0 : exp = [] := by
    rcases he with h | ⟨e, s, e', rfl, h, _⟩
    · exact h
    · rcases h with rfl | rfl
      · exact absurd (hd 101 (by simp)) (by decide)
      · exact absurd (hd 69 (by simp)) (by decide)
  subst hf0 he0
  rw [hs1, intText]
  simp only [List.append_nil] at h2 ⊢
  rw [calNumber_decimal int _ h2 hi]

/-! ## Same text, same JSON -/

theorem enc_says {env : JEnv} (hl : env.Lawful) {v : Val} {t : Bytes} (h : encI env v = .ok t) : ∃ j, Text j t ∧ Says env v j := by
  rcases encI_spec hl v with ⟨_, t', j, e, h1, h2⟩ | ⟨e, _⟩
  · rw [h] at e; cases e; exact ⟨j, h1, h2⟩
  · rw [h] at e; cases e

/-- The text of a value shows where it ends. -/
theorem enc_split {env : JEnv} (hl : env.Lawful) {v w : Val} {t u x y : Bytes} (h1 : encI env v = .ok t) (h2 : encI env w = .ok u) (dx : Delim x) (dy : Delim y) (h : t ++ x = u ++ y) :
    t = u ∧ x = y := by
  obtain ⟨j, ht, _⟩ := enc_says hl h1
  obtain ⟨j', hu, _⟩ := enc_says hl h2
  have r1 := parse_complete j (max (depth j) (depth j')) t ht (by omega) [] x ws_nil dx
  have r2 := parse_complete j' (max (depth j) (depth j')) u hu (by omega) [] y ws_nil dy
  rw [h] at r1
  rw [r1] at r2
  simp only [Option.some.injEq, Prod.mk.injEq] at r2
  obtain ⟨_, rfl⟩ := r2
  exact ⟨List.append_cancel_right h, rfl⟩

theorem enc_both {env : JEnv} (hl : env.Lawful) {v w : Val} {t : Bytes} (h1 : encI env v = .ok t) (h2 : encI env w = .ok t) : ∃ j, Says env v j ∧ Says env w j := by
  obtain ⟨j, ht, hs⟩ := enc_says hl h1
  obtain ⟨j', hu, hs'⟩ := enc_says hl h2
  rw [document_unique (document_text ht) (document_text hu)] at hs
  exact ⟨j', hs, hs'⟩

theorem enc_ne_nil {env : JEnv} (hl : env.Lawful) {v : Val} {t : Bytes} (h : encI env v = .ok t) : t ≠ [] := by
  obtain ⟨j, ht, _⟩ := enc_says hl h
  obtain ⟨b, r, rfl, _⟩ := text_head ht
  simp

theorem says_null {env : JEnv} {v : Val} (h : Says env v .null) : v.Nullish := by
  cases v with
  | nilp => exact .nilp
  | scalar s => cases s <;> simp [Says] at h <;> exact .null
  | arrNil => exact .arrNil
  | arr => simp [Says] at h
  | objNil => exact .objNil
  | obj => simp [Says] at h

theorem says_bool {env : JEnv} {v : Val} {b : Bool} (h : Says env v (.bool b)) : v = .scalar (.bool b) := by
  cases v with
  | scalar s => cases s <;> simp [Says] at h; rw [h]
  | _ => simp [Says] at h

theorem says_num {env : JEnv} {v : Val} {t : Bytes} (h : Says env v (.num t)) : (∃ i, v.Numeral env i ∧ IntLit t i) ∨ ∃ f, v = .scalar (.float f) ∧ t = env.ftoa f := by
  cases v with
  | scalar s =>
    cases s <;> simp [Says] at h
    · exact .inl ⟨_, .int _, h⟩
    · exact .inl ⟨_, .uint _, h⟩
    · exact .inr ⟨_, rfl, h⟩
  | _ => simp [Says] at h

theorem says_str {env : JEnv} {v : Val} {s : Bytes} (h : Says env v (.str s)) : (∃ t, v = .scalar (.ts t)) ∨ ∃ s', v = .scalar (.str s') := by
  cases v with
  | scalar s => cases s <;> simp [Says] at h <;> simp
  | _ => simp [Says] at h

theorem says_arr {env : JEnv} {v : Val} {js : List Json} (h : Says env v (.arr js)) : ∃ vs, v = .arr vs := by
  cases v with
  | scalar s => cases s <;> simp [Says] at h
  | arr vs => exact ⟨vs, rfl⟩
  | _ => simp [Says] at h

theorem says_obj {env : JEnv} {v : Val} {js : List (Bytes × Json)} (h : Says env v (.obj js)) : ∃ es, v = .obj es := by
  cases v with
  | scalar s => cases s <;> simp [Says] at h
  | obj es => exact ⟨es, rfl⟩
  | _ => simp [Says] at h

theorem enc_ts (env : JEnv) (t : BitVec 64) : encI env (.scalar (.ts t)) = .ok (timeMarshalJSON t.toInt) := by
  obtain ⟨s, h, _⟩ := timestamp_json t
  rw [encI, compact_ok h (by simp [depth])]

theorem stampText (t : BitVec 64) : ∃ s, StampText t s := by
  obtain ⟨s, h, _⟩ := timestamp_text_denotes (n := t.toInt) ⟨by have := BitVec.le_toInt t; simpa using this, by have := BitVec.toInt_lt (x := t); simpa using this⟩
  exact ⟨s, h⟩

/-- The text of a timestamp is written as the string that it is. -/
theorem stamp_plain {t : BitVec 64} {s : Bytes} (h : StampText t s) : encStr s = timeMarshalJSON t.toInt := by
  have e : s = (timeGoTime t.toInt).rfc3339Nano := by
    unfold StampText timeMarshalJSON at h
    simp only [List.cons_append, List.nil_append, List.cons.injEq, true_and] at h
    exact (List.append_cancel_right h).symm
  have hs : ∀ b ∈ s, encAscii b = [b] ∧ b.toNat < 128 := by
    intro b hb
    rw [e] at hb
    obtain ⟨h1, h2, h3, h4⟩ := rfc3339_plain _ b hb
    obtain ⟨_, _, h5, h6, h7⟩ := tidy_rfc3339 _ b hb
    refine ⟨?_, h2⟩
    have n (x : UInt8) (hx : b.toNat ≠ x.toNat) : b ≠ x := fun he => hx (by rw [he])
    have h10 := n 10 (by rw [show (10 : UInt8).toNat = 10 from rfl]; omega)
    have h13 := n 13 (by rw [show (13 : UInt8).toNat = 13 from rfl]; omega)
    have h9 := n 9 (by rw [show (9 : UInt8).toNat = 9 from rfl]; omega)
    have h60 := n 60 h5
    have h62 := n 62 h6
    have h38 := n 38 h7
    have h32 : ¬ b.toNat < 32 := by omega
    simp [encAscii, h3, h4, h10, h13, h9, h60, h62, h38, h32]
  have key : ∀ (l : Bytes), (∀ b ∈ l, encAscii b = [b] ∧ b.toNat < 128) → encChars l.length l = l := by
    intro l
    induction l with
    | nil => intro _; rfl
    | cons b l ih =>
      intro hl
      obtain ⟨h1, h2⟩ := hl b (by simp)
      rw [List.length_cons, encChars_ascii _ _ h2, h1, ih fun x hx => hl x (by simp [hx])]
      rfl
  rw [encStr, key s hs, h]
  rfl

theorem stamp_valid {t : BitVec 64} {s : Bytes} (h : StampText t s) : ValidUtf8 s := by
  have e : s = (timeGoTime t.toInt).rfc3339Nano := by
    unfold StampText timeMarshalJSON at h
    simp only [List.cons_append, List.nil_append, List.cons.injEq, true_and] at h
    exact (List.append_cancel_right h).symm
  rw [e]
  exact (chars_plain (rfc3339_plain _)).valid

theorem ts_says {env : JEnv} {t t' : BitVec 64} {j : Json} (h1 : Says env (.scalar (.ts t)) j) (h2 : Says env (.scalar (.ts t')) j) : t = t' := by
  obtain ⟨s, rfl, h1⟩ := h1
  obtain ⟨s', e, h2⟩ := h2
  cases e
  rw [h1] at h2
  exact BitVec.eq_of_toInt_eq (Option.some.inj h2)

theorem says_int {env : JEnv} {v : Val} {i : Int} {j : Json} (hv : v.Numeral env i) (h : Says env v j) : ∃ t, j = .num t ∧ IntLit t i := by
  cases hv with
  | int i => exact h
  | uint u => exact h
  | float f i hi => exact ⟨_, h, hi⟩

theorem same_leaf {env : JEnv} (hl : env.Lawful) (x : Scalar) (w : Val) (t : Bytes) (h1 : encI env (.scalar x) = .ok t) (h2 : encI env w = .ok t) : SameJson env (.scalar x) w := by
  obtain ⟨j, s1, s2⟩ := enc_both hl h1 h2
  cases x with
  | null => rw [show j = .null from s1] at s2; exact .null .null (says_null s2)
  | bool b => rw [show j = .bool b from s1] at s2; rw [says_bool s2]; exact .bool b
  | int i =>
      obtain ⟨u, rfl, hi⟩ := s1
      rcases says_num s2 with ⟨i', hn, hi'⟩ | ⟨f, rfl, rfl⟩
      · rw [intLit_inj hi' hi] at hn; exact .number (.int i) hn
      · exact .number (.int i) (.float f _ hi)
  | uint i =>
      obtain ⟨u, rfl, hi⟩ := s1
      rcases says_num s2 with ⟨i', hn, hi'⟩ | ⟨f, rfl, rfl⟩
      · rw [intLit_inj hi' hi] at hn; exact .number (.uint i) hn
      · exact .number (.uint i) (.float f _ hi)
  | float f =>
      rw [show j = .num (env.ftoa f) from s1] at s2
      rcases says_num s2 with ⟨i', hn, hi'⟩ | ⟨g, rfl, he⟩
      · exact .number (.float f _ hi') hn
      · have h1 : finite f = true := by
          by_cases hf : finite f = true
          · exact hf
          · rw [encI, if_neg hf] at h1; cases h1
        have h2 : finite g = true := by
          by_cases hf : finite g = true
          · exact hf
          · rw [encI, if_neg hf] at h2; cases h2
        have e1 := hl.exact f h1
        rw [he, hl.exact g h2] at e1
        rw [Option.some.inj e1]
        exact .float f
  | str s =>
      obtain ⟨s', rfl, _⟩ := id s1
      rcases says_str s2 with ⟨t', rfl⟩ | ⟨s'', rfl⟩
      · obtain ⟨x, hx⟩ := stampText t'
        rw [enc_ts, ← stamp_plain hx] at h2
        simp only [encI] at h1
        rw [← h1, JOut.ok.injEq] at h2
        have := (encStr_same_iff.1 h2).valid (stamp_valid hx)
        rw [this] at hx
        exact .strTs hx
      · simp only [encI] at h1 h2
        rw [← h2, JOut.ok.injEq] at h1
        exact .str (encStr_same_iff.1 h1)
  | ts t' =>
      obtain ⟨s', rfl, _⟩ := id s1
      rcases says_str s2 with ⟨t'', rfl⟩ | ⟨s'', rfl⟩
      · rw [ts_says s1 s2]; exact .ts _
      · obtain ⟨x, hx⟩ := stampText t'
        rw [enc_ts, ← stamp_plain hx] at h1
        simp only [encI] at h2
        rw [← h2, JOut.ok.injEq] at h1
        have := (encStr_same_iff.1 h1).valid (stamp_valid hx)
        rw [this] at hx
        exact .tsStr hx

mutual
/-- Values with the same text cannot be told apart by their JSON. -/
theorem same_of {env : JEnv} (hl : env.Lawful) : ∀ (v w : Val) (t : Bytes), encI env v = .ok t → encI env w = .ok t → SameJson env v w
  | .nilp, w, t, h1, h2 => by
    obtain ⟨j, s1, s2⟩ := enc_both hl h1 h2
    rw [show j = .null from s1] at s2; exact .null .nilp (says_null s2)
  | .arrNil, w, t, h1, h2 => by
    obtain ⟨j, s1, s2⟩ := enc_both hl h1 h2
    rw [show j = .null from s1] at s2; exact .null .arrNil (says_null s2)
  | .objNil, w, t, h1, h2 => by
    obtain ⟨j, s1, s2⟩ := enc_both hl h1 h2
    rw [show j = .null from s1] at s2; exact .null .objNil (says_null s2)
  | .scalar x, w, t, h1, h2 => same_leaf hl x w t h1 h2
  | .arr vs, w, t, h1, h2 => by
      obtain ⟨j, s1, s2⟩ := enc_both hl h1 h2
      obtain ⟨js, rfl, _⟩ := s1
      obtain ⟨ws, rfl⟩ := says_arr s2
      simp only [encI, arrText] at h1 h2
      obtain ⟨a, a1, a2⟩ := bind_eq_ok h1
      obtain ⟨b, b1, b2⟩ := bind_eq_ok h2
      rw [← b2] at a2
      simp only [JOut.ok.injEq, List.cons.injEq, true_and, List.append_cancel_right_eq] at a2
      rw [a2] at a1
      exact .arr (same_ofL hl vs ws b a1 b1)
  | .obj es, w, t, h1, h2 => by
      obtain ⟨j, s1, s2⟩ := enc_both hl h1 h2
      obtain ⟨js, rfl, _⟩ := s1
      obtain ⟨fs, rfl⟩ := says_obj s2
      simp only [encI, mapText] at h1 h2
      obtain ⟨a, a1, a2⟩ := bind_eq_ok h1
      obtain ⟨b, b1, b2⟩ := bind_eq_ok h2
      rw [← b2] at a2
      simp only [JOut.ok.injEq, List.cons.injEq, true_and, List.append_cancel_right_eq] at a2
      rw [a2] at a1
      exact .obj (same_ofE hl es fs b a1 b1)
theorem same_ofL {env : JEnv} (hl : env.Lawful) : ∀ (vs ws : List Val) (t : Bytes), joinText id (encIL env vs) = .ok t → joinText id (encIL env ws) = .ok t → SameJsonL env vs ws
  | [], [], _, _, _ => .nil
  | [], [w], t, h1, h2 => by cases h1; exact absurd rfl (enc_ne_nil hl (show encI env w = .ok [] from h2))
  | [], w :: w' :: ws, t, h1, h2 => by
    cases h1
    simp only [encIL] at h2
    rw [joinText_cons] at h2
    obtain ⟨a, _, a2⟩ := bind_eq_ok h2
    obtain ⟨b, _, b2⟩ := bind_eq_ok a2
    simp at b2
  | [v], [], t, h1, h2 => by cases h2; exact absurd rfl (enc_ne_nil hl (show encI env v = .ok [] from h1))
  | v :: v' :: vs, [], t, h1, h2 => by
    cases h2
    simp only [encIL] at h1
    rw [joinText_cons] at h1
    obtain ⟨a, _, a2⟩ := bind_eq_ok h1
    obtain ⟨b, _, b2⟩ := bind_eq_ok a2
    simp at b2
  | [v], [w], t, h1, h2 => .cons (same_of hl v w t h1 h2) .nil
  | [v], w :: w' :: ws, t, h1, h2 => by
    simp only [encIL] at h2
    rw [joinText_cons] at h2
    obtain ⟨a, a1, a2⟩ := bind_eq_ok h2
    obtain ⟨b, _, b2⟩ := bind_eq_ok a2
    simp only [JOut.ok.injEq] at b2
    have := enc_split hl (show encI env v = .ok t from h1) (show encI env w = .ok a from a1) delim_nil (delim_cons (b := 44) (r := b) (by decide)) (by rw [List.append_nil, b2])
    cases this.2
  | v :: v' :: vs, [w], t, h1, h2 => by
    simp only [encIL] at h1
    rw [joinText_cons] at h1
    obtain ⟨a, a1, a2⟩ := bind_eq_ok h1
    obtain ⟨b, _, b2⟩ := bind_eq_ok a2
    simp only [JOut.ok.injEq] at b2
    have := enc_split hl (show encI env w = .ok t from h2) (show encI env v = .ok a from a1) delim_nil (delim_cons (b := 44) (r := b) (by decide)) (by rw [List.append_nil, b2])
    cases this.2
  | v :: v' :: vs, w :: w' :: ws, t, h1, h2 => by
    simp only [encIL] at h1 h2
    rw [joinText_cons] at h1 h2
    obtain ⟨a, a1, a2⟩ := bind_eq_ok h1
    obtain ⟨b, b1, b2⟩ := bind_eq_ok a2
    obtain ⟨c, c1, c2⟩ := bind_eq_ok h2
    obtain ⟨d, d1, d2⟩ := bind_eq_ok c2
    simp only [JOut.ok.injEq] at b2 d2
    obtain ⟨e1, e2⟩ := enc_split hl (show encI env v = .ok a from a1) (show encI env w = .ok c from c1) (delim_cons (b := 44) (r := b) (by decide)) (delim_cons (b := 44) (r := d) (by decide)) (by rw [b2, d2])
    simp only [List.cons.injEq, true_and] at e2
    rw [e1] at a1
    rw [e2] at b1
    exact .cons (same_of hl v w c a1 c1) (same_ofL hl (v' :: vs) (w' :: ws) d b1 d1)
theorem same_ofE {env : JEnv} (hl : env.Lawful) : ∀ (es fs : List (Bytes × Val)) (t : Bytes),
    joinText (fun e : Bytes × JOut Bytes => e.2.bind fun t => .ok (encStr e.1 ++ 58 :: t)) (encIE env es) = .ok t →
    joinText (fun e : Bytes × JOut Bytes => e.2.bind fun t => .ok (encStr e.1 ++ 58 :: t)) (encIE env fs) = .ok t → SameJsonE env es fs
  | [], [], _, _, _ => .nil
  | [], [(k, w)], t, h1, h2 => by
    cases h1
    obtain ⟨a, _, a2⟩ := bind_eq_ok (show (encI env w).bind _ = _ from h2)
    simp at a2
  | [], (k, w) :: w' :: ws, t, h1, h2 => by
    cases h1
    simp only [encIE] at h2
    rw [joinText_cons] at h2
    obtain ⟨a, _, a2⟩ := bind_eq_ok h2
    obtain ⟨b, _, b2⟩ := bind_eq_ok a2
    simp at b2
  | [(k, v)], [], t, h1, h2 => by
    cases h2
    obtain ⟨a, _, a2⟩ := bind_eq_ok (show (encI env v).bind _ = _ from h1)
    simp at a2
  | (k, v) :: v' :: vs, [], t, h1, h2 => by
    cases h2
    simp only [encIE] at h1
    rw [joinText_cons] at h1
    obtain ⟨a, _, a2⟩ := bind_eq_ok h1
    obtain ⟨b, _, b2⟩ := bind_eq_ok a2
    simp at b2
  | [(k, v)], [(k', w)], t, h1, h2 => by
    obtain ⟨a, a1, a2⟩ := bind_eq_ok (show (encI env v).bind _ = _ from h1)
    obtain ⟨b, b1, b2⟩ := bind_eq_ok (show (encI env w).bind _ = _ from h2)
    rw [← b2] at a2
    simp only [JOut.ok.injEq] at a2
    obtain ⟨ht, e⟩ := encStr_split a2
    simp only [List.cons.injEq, true_and] at e
    rw [e] at a1
    exact .cons ht (same_of hl v w b a1 b1) .nil
  | [(k, v)], (k', w) :: kw' :: ws, t, h1, h2 => by
    obtain ⟨a, a1, a2⟩ := bind_eq_ok (show (encI env v).bind _ = _ from h1)
    simp only [encIE] at h2
    rw [joinText_cons] at h2
    obtain ⟨c, c1, c2⟩ := bind_eq_ok h2
    obtain ⟨d, _, d2⟩ := bind_eq_ok c2
    obtain ⟨b, b1, b2⟩ := bind_eq_ok c1
    simp only [JOut.ok.injEq] at a2 b2 d2
    rw [← a2, ← b2, List.append_assoc] at d2
    obtain ⟨_, e⟩ := encStr_split d2
    simp only [List.cons_append, List.cons.injEq, true_and] at e
    have := enc_split hl a1 b1 delim_nil (delim_cons (b := 44) (r := d) (by decide)) (by rw [List.append_nil, ← e])
    cases this.2
  | (k, v) :: kv' :: vs, [(k', w)], t, h1, h2 => by
    obtain ⟨a, a1, a2⟩ := bind_eq_ok (show (encI env w).bind _ = _ from h2)
    simp only [encIE] at h1
    rw [joinText_cons] at h1
    obtain ⟨c, c1, c2⟩ := bind_eq_ok h1
    obtain ⟨d, _, d2⟩ := bind_eq_ok c2
    obtain ⟨b, b1, b2⟩ := bind_eq_ok c1
    simp only [JOut.ok.injEq] at a2 b2 d2
    rw [← a2, ← b2, List.append_assoc] at d2
    obtain ⟨_, e⟩ := encStr_split d2
    simp only [List.cons_append, List.cons.injEq, true_and] at e
    have := enc_split hl a1 b1 delim_nil (delim_cons (b := 44) (r := d) (by decide)) (by rw [List.append_nil, ← e])
    cases this.2
  | (k, v) :: kv' :: vs, (k', w) :: kw' :: ws, t, h1, h2 => by
    simp only [encIE] at h1 h2
    rw [joinText_cons] at h1 h2
    obtain ⟨a, a1, a2⟩ := bind_eq_ok h1
    obtain ⟨b, b1, b2⟩ := bind_eq_ok a2
    obtain ⟨a', a1', a2'⟩ := bind_eq_ok a1
    obtain ⟨c, c1, c2⟩ := bind_eq_ok h2
    obtain ⟨d, d1, d2⟩ := bind_eq_ok c2
    obtain ⟨c', c1', c2'⟩ := bind_eq_ok c1
    simp only [JOut.ok.injEq] at b2 d2 a2' c2'
    rw [← d2, ← a2', ← c2', List.append_assoc, List.append_assoc] at b2
    obtain ⟨ht, e⟩ := encStr_split b2
    simp only [List.cons_append, List.cons.injEq, true_and] at e
    obtain ⟨e1, e2⟩ := enc_split hl a1' c1' (delim_cons (b := 44) (r := b) (by decide)) (delim_cons (b := 44) (r := d) (by decide)) e
    simp only [List.cons.injEq, true_and] at e2
    rw [e1] at a1'
    rw [e2] at b1
    obtain ⟨k2, v2⟩ := kv'
    obtain ⟨k3, w3⟩ := kw'
    exact .cons ht (same_of hl v w c' a1' c1') (same_ofE hl ((k2, v2) :: vs) ((k3, w3) :: ws) d b1 d1)
end

/-! ## And the other way -/

theorem itoa_text (n : Nat) : itoa n = intText (n : Int) := by
  simp [intText]

/-- What is written for `null`. -/
theorem nullish_text {env : JEnv} {v : Val} (hv : v.Nullish) : encI env v = .ok (lit "null") := by
  cases hv <;> rfl

/-- What is written for a number that is an integer. -/
theorem numeral_text {env : JEnv} {v : Val} {i : Int} {t : Bytes} (hv : v.Numeral env i) (h : encI env v = .ok t) : t = intText i := by
  cases hv with
  | int i => simp only [encI, JOut.ok.injEq] at h; exact h.symm
  | uint u => simp only [encI, JOut.ok.injEq] at h; rw [← h, itoa_text]
  | float f i hi =>
      by_cases hf : finite f = true
      · rw [encI, if_pos hf, JOut.ok.injEq] at h
        rw [← h]
        exact intLit_text hi
      · rw [encI, if_neg hf] at h; cases h

/-- Values that are neither slices nor maps. -/
theorem text_leaf {env : JEnv} {v w : Val} (hs : SameJson env v w) (ha : ∀ vs, v ≠ .arr vs) (ho : ∀ es, v ≠ .obj es) {t u : Bytes} (h1 : encI env v = .ok t) (h2 : encI env w = .ok u) : t = u := by
  cases hs with
  | null a b =>
    rw [nullish_text a, JOut.ok.injEq] at h1
    rw [nullish_text b, JOut.ok.injEq] at h2
    rw [← h1, h2]
  | bool b => rw [h1, JOut.ok.injEq] at h2; exact h2
  | number a b => rw [numeral_text a h1, numeral_text b h2]
  | float f => rw [h1, JOut.ok.injEq] at h2; exact h2
  | str a =>
    simp only [encI, JOut.ok.injEq] at h1 h2
    rw [← h1, ← h2]
    exact encStr_same_iff.2 a
  | ts x => rw [h1, JOut.ok.injEq] at h2; exact h2
  | tsStr a =>
    rw [enc_ts, JOut.ok.injEq] at h1
    simp only [encI, JOut.ok.injEq] at h2
    rw [← h1, ← h2, stamp_plain a]
  | strTs a =>
    rw [enc_ts, JOut.ok.injEq] at h2
    simp only [encI, JOut.ok.injEq] at h1
    rw [← h1, ← h2, stamp_plain a]
  | arr a => exact absurd rfl (ha _)
  | obj a => exact absurd rfl (ho _)

theorem same_arr {env : JEnv} {vs : List Val} {w : Val} (h : SameJson env (.arr vs) w) : ∃ ws, w = .arr ws ∧ SameJsonL env vs ws := by
  cases h with
  | null a _ => cases a
  | number a _ => cases a
  | arr a => exact ⟨_, rfl, a⟩

theorem same_obj {env : JEnv} {es : List (Bytes × Val)} {w : Val} (h : SameJson env (.obj es) w) : ∃ fs, w = .obj fs ∧ SameJsonE env es fs := by
  cases h with
  | null a _ => cases a
  | number a _ => cases a
  | obj a => exact ⟨_, rfl, a⟩

mutual
/-- Values that cannot be told apart by their JSON have the same text. -/
theorem text_of {env : JEnv} : ∀ (v w : Val), SameJson env v w → ∀ (t u : Bytes), encI env v = .ok t → encI env w = .ok u → t = u
  | .nilp, w, a, t, u, h1, h2 => text_leaf a (fun _ => nofun) (fun _ => nofun) h1 h2
  | .arrNil, w, a, t, u, h1, h2 => text_leaf a (fun _ => nofun) (fun _ => nofun) h1 h2
  | .objNil, w, a, t, u, h1, h2 => text_leaf a (fun _ => nofun) (fun _ => nofun) h1 h2
  | .scalar x, w, a, t, u, h1, h2 => text_leaf a (fun _ => nofun) (fun _ => nofun) h1 h2
  | .arr vs, w, a, t, u, h1, h2 => by
    obtain ⟨ws, rfl, c⟩ := same_arr a
    simp only [encI, arrText] at h1 h2
    obtain ⟨x, x1, x2⟩ := bind_eq_ok h1
    obtain ⟨y, y1, y2⟩ := bind_eq_ok h2
    simp only [JOut.ok.injEq] at x2 y2
    rw [← x2, ← y2, text_ofL vs ws c x y x1 y1]
  | .obj es, w, a, t, u, h1, h2 => by
    obtain ⟨fs, rfl, c⟩ := same_obj a
    simp only [encI, mapText] at h1 h2
    obtain ⟨x, x1, x2⟩ := bind_eq_ok h1
    obtain ⟨y, y1, y2⟩ := bind_eq_ok h2
    simp only [JOut.ok.injEq] at x2 y2
    rw [← x2, ← y2, text_ofE es fs c x y x1 y1]
theorem text_ofL {env : JEnv} : ∀ (vs ws : List Val), SameJsonL env vs ws → ∀ (t u : Bytes), joinText id (encIL env vs) = .ok t → joinText id (encIL env ws) = .ok u → t = u
  | _, _, .nil, t, u, h1, h2 => by rw [h1, JOut.ok.injEq] at h2; exact h2
  | [v], [w], .cons a .nil, t, u, h1, h2 => text_of v w a t u h1 h2
  | v :: v' :: vs, w :: w' :: ws, .cons a b, t, u, h1, h2 => by
    simp only [encIL] at h1 h2
    rw [joinText_cons] at h1 h2
    obtain ⟨x, x1, x2⟩ := bind_eq_ok h1
    obtain ⟨y, y1, y2⟩ := bind_eq_ok x2
    obtain ⟨z, z1, z2⟩ := bind_eq_ok h2
    obtain ⟨r, r1, r2⟩ := bind_eq_ok z2
    simp only [JOut.ok.injEq] at y2 r2
    rw [← y2, ← r2, text_of v w a x z x1 z1, text_ofL (v' :: vs) (w' :: ws) b y r y1 r1]
theorem text_ofE {env : JEnv} : ∀ (es fs : List (Bytes × Val)), SameJsonE env es fs → ∀ (t u : Bytes),
    joinText (fun e : Bytes × JOut Bytes => e.2.bind fun t => .ok (encStr e.1 ++ 58 :: t)) (encIE env es) = .ok t →
    joinText (fun e : Bytes × JOut Bytes => e.2.bind fun t => .ok (encStr e.1 ++ 58 :: t)) (encIE env fs) = .ok u → t = u
  | _, _, .nil, t, u, h1, h2 => by rw [h1, JOut.ok.injEq] at h2; exact h2
  | [(k, v)], [(k', w)], .cons n a .nil, t, u, h1, h2 => by
    obtain ⟨x, x1, x2⟩ := bind_eq_ok (show (encI env v).bind _ = _ from h1)
    obtain ⟨y, y1, y2⟩ := bind_eq_ok (show (encI env w).bind _ = _ from h2)
    simp only [JOut.ok.injEq] at x2 y2
    rw [← x2, ← y2, encStr_same_iff.2 n, text_of v w a x y x1 y1]
  | (k, v) :: (k2, v') :: vs, (k', w) :: (k3, w') :: ws, .cons n a b, t, u, h1, h2 => by
    simp only [encIE] at h1 h2
    rw [joinText_cons] at h1 h2
    obtain ⟨x, x1, x2⟩ := bind_eq_ok h1
    obtain ⟨y, y1, y2⟩ := bind_eq_ok x2
    obtain ⟨z, z1, z2⟩ := bind_eq_ok h2
    obtain ⟨r, r1, r2⟩ := bind_eq_ok z2
    obtain ⟨x', x1', x2'⟩ := bind_eq_ok x1
    obtain ⟨z', z1', z2'⟩ := bind_eq_ok z1
    simp only [JOut.ok.injEq] at y2 r2 x2' z2'
    rw [← y2, ← r2, ← x2', ← z2', encStr_same_iff.2 n, text_of v w a x' z' x1' z1', text_ofE ((k2, v') :: vs) ((k3, w') :: ws) b y r y1 r1]
end

/-! ## Events -/

/-- C107: two events with contents, wherever they are kept, have the same JSON exactly if their fields cannot be told apart by their JSON. -/
theorem json_same {env : JEnv} (hl : env.Lawful) {h h' : Heap} {e e' : Event} {es fs : AMap Val} (hh : Holds h e (some es)) (hh' : Holds h' e' (some fs)) {n n' : Nat} {t u : Bytes}
    (ht : marshalEvent env n h e = .ok t) (hu : marshalEvent env n' h' e' = .ok u) : t = u ↔ SameJsonE env es fs := by
  have h1 := marshalEvent_enc hh ht
  have h2 := marshalEvent_enc hh' hu
  constructor
  · rintro rfl
    cases same_of hl _ _ _ h1 h2 with
    | obj a => exact a
    | null a _ => cases a
    | number a _ => cases a
  · exact fun a => text_of _ _ (.obj a) _ _ h1 h2

/-- C107: and no event with contents has the JSON of an event without. -/
theorem json_same_empty {env : JEnv} (hl : env.Lawful) {h h' : Heap} {e : Event} {es : AMap Val} (hh : Holds h e (some es)) {n n' : Nat} {t u : Bytes}
    (ht : marshalEvent env n h e = .ok t) (hu : marshalEvent env n' h' none = .ok u) : t ≠ u := by
  rw [(json_round_trip_empty env n' h' h').1, JOut.ok.injEq] at hu
  subst hu
  rintro rfl
  cases same_of hl (.obj es) .nilp _ (marshalEvent_enc hh ht) rfl with
  | null a _ => cases a
  | number a _ => cases a

theorem same_eq_leaf {env : JEnv} (hl : env.Lawful) {v w : Val} (h : SameJson env v w) (ha : ∀ vs, v ≠ .arr vs) (ho : ∀ es, v ≠ .obj es) (j : v.JsonOnly) (k : w.JsonOnly) (x : v.ValidText)
    (ff : v.FiniteFloats) (fg : w.FiniteFloats) : v = w := by
  cases h with
  | null a b => cases a <;> cases b <;> simp_all [Val.JsonOnly]
  | bool b => rfl
  | number a b =>
    cases a with
    | int i => exact j.elim
    | uint i => exact j.elim
    | float f i hi =>
      cases b with
      | int i => exact k.elim
      | uint i => exact k.elim
      | float g i hg =>
        have e1 := hl.exact f ff
        rw [intLit_text hi, ← intLit_text hg, hl.exact g fg] at e1
        rw [Option.some.inj e1]
  | float f => rfl
  | str a => rw [a.valid x]
  | ts x => rfl
  | tsStr a => exact j.elim
  | strTs a => exact k.elim
  | arr a => exact absurd rfl (ha _)
  | obj a => exact absurd rfl (ho _)

mutual
/-- Where JSON loses nothing, only equal values are the same JSON. -/
theorem same_eq {env : JEnv} (hl : env.Lawful) : ∀ (v w : Val), SameJson env v w → v.JsonOnly → w.JsonOnly → v.ValidText → w.ValidText → v.FiniteFloats → w.FiniteFloats → v = w
  | .nilp, w, a, j, k, x, y, f, g => same_eq_leaf hl a (fun _ => nofun) (fun _ => nofun) j k x f g
  | .arrNil, w, a, j, k, x, y, f, g => same_eq_leaf hl a (fun _ => nofun) (fun _ => nofun) j k x f g
  | .objNil, w, a, j, k, x, y, f, g => same_eq_leaf hl a (fun _ => nofun) (fun _ => nofun) j k x f g
  | .scalar _, w, a, j, k, x, y, f, g => same_eq_leaf hl a (fun _ => nofun) (fun _ => nofun) j k x f g
  | .arr vs, w, a, j, k, x, y, f, g => by
    obtain ⟨ws, rfl, c⟩ := same_arr a
    rw [same_eqL hl vs ws c j k x y f g]
  | .obj es, w, a, j, k, x, y, f, g => by
    obtain ⟨fs, rfl, c⟩ := same_obj a
    rw [same_eqE hl es fs c j k x y f g]
theorem same_eqL {env : JEnv} (hl : env.Lawful) : ∀ (vs ws : List Val), SameJsonL env vs ws → Val.JsonOnlyL vs → Val.JsonOnlyL ws → Val.ValidTextL vs → Val.ValidTextL ws →
    Val.FiniteFloatsL vs → Val.FiniteFloatsL ws → vs = ws
  | _, _, .nil, _, _, _, _, _, _ => rfl
  | v :: vs, w :: ws, .cons a b, j, k, x, y, f, g => by
    rw [same_eq hl v w a j.1 k.1 x.1 y.1 f.1 g.1, same_eqL hl vs ws b j.2 k.2 x.2 y.2 f.2 g.2]
theorem same_eqE {env : JEnv} (hl : env.Lawful) : ∀ (es fs : List (Bytes × Val)), SameJsonE env es fs → Val.JsonOnlyE es → Val.JsonOnlyE fs → Val.ValidTextE es → Val.ValidTextE fs →
    Val.FiniteFloatsE es → Val.FiniteFloatsE fs → es = fs
  | _, _, .nil, _, _, _, _, _, _ => rfl
  | (k1, v) :: es, (k2, w) :: fs, .cons n a b, j, k, x, y, f, g => by
    rw [n.valid x.1, same_eq hl v w a j.1 k.1 x.2.1 y.2.1 f.1 g.1, same_eqE hl es fs b j.2 k.2 x.2.2 y.2.2 f.2 g.2]
end

/-- C107: two events that came from JSON have the same JSON only if they have the same contents. -/
theorem json_same_decoded {env : JEnv} (hl : env.Lawful) {bs bs' : Bytes} {h0 h0' h h' : Heap} {e e' : Event} (hd : unmarshalEvent env bs h0 = some (h, e)) (hd' : unmarshalEvent env bs' h0' = some (h', e'))
    {n n' : Nat} {t u : Bytes} (ht : marshalEvent env n h e = .ok t) (hu : marshalEvent env n' h' e' = .ok u) : t = u ↔ ∃ fs : Fields, Holds h e fs ∧ Holds h' e' fs := by
  obtain ⟨fs, hh, hk⟩ := unmarshalEvent_kinds hl hd
  obtain ⟨gs, hh', hk'⟩ := unmarshalEvent_kinds hl hd'
  have key : (∃ x : Fields, Holds h e x ∧ Holds h' e' x) ↔ fs = gs := by
    constructor
    · rintro ⟨x, a, b⟩; rw [hh.unique a, hh'.unique b]
    · rintro rfl; exact ⟨fs, hh, hh'⟩
  rw [key]
  cases fs with
  | none =>
    obtain rfl : e = none := hh
    cases gs with
    | none =>
      obtain rfl : e' = none := hh'
      rw [(json_round_trip_empty env _ _ []).1] at ht hu
      rw [ht, JOut.ok.injEq] at hu
      simp [hu]
    | some es => exact ⟨fun x => absurd x.symm (json_same_empty hl hh' hu ht), fun x => by cases x⟩
  | some es =>
    cases gs with
    | none =>
      obtain rfl : e' = none := hh'
      exact ⟨fun x => absurd x (json_same_empty hl hh ht hu), fun x => by cases x⟩
    | some gs =>
      obtain ⟨a1, a2, a3, _⟩ := hk es rfl
      obtain ⟨b1, b2, b3, _⟩ := hk' gs rfl
      rw [json_same hl hh hh' ht hu]
      constructor
      · intro x; rw [same_eqE hl _ _ x a1 b1 a2 b2 a3 b3]
      · intro x
        obtain rfl := Option.some.inj x
        rw [← json_same hl hh hh' ht hu]
        have h1 := marshalEvent_enc hh ht
        have h2 := marshalEvent_enc hh' hu
        rw [h1, JOut.ok.injEq] at h2
        exact h2

/-- C107: an integer and an unsigned integer, a nil pointer and a null, two different invalid bytes: the same JSON. -/
theorem json_same_sample : ∃ (h h' : Heap) (e e' : Event) (es fs : AMap Val) (t : Bytes), Holds h e (some es) ∧ Holds h' e' (some fs) ∧ es ≠ fs ∧ es.length = 3 ∧ marshalEvent bitsEnv 3 h e = .ok t ∧ marshalEvent bitsEnv 3 h' e' = .ok t ∧
    SameJsonE bitsEnv es fs := by
  have h1 : marshalEvent bitsEnv 3 [.cell (intCell 5), .cell (strCell [254]), .map [(lit "a", some 0), (lit "b", none), (lit "c", some 1)]] (some 2) =
    .ok (lit "{\"a\":5,\"b\":null,\"c\":\"" ++ [92] ++ lit "ufffd\"}") := by decide +kernel
  have h2 : marshalEvent bitsEnv 3 [.cell (uintCell 5), .cell (strCell [255]), .cell nullCell, .map [(lit "a", some 0), (lit "b", some 2), (lit "c", some 1)]] (some 3) =
    .ok (lit "{\"a\":5,\"b\":null,\"c\":\"" ++ [92] ++ lit "ufffd\"}") := by decide +kernel
  have hh : Holds [.cell (intCell 5), .cell (strCell [254]), .map [(lit "a", some 0), (lit "b", none), (lit "c", some 1)]] (some 2)
    (some [(lit "a", .scalar (.int 5)), (lit "b", .nilp), (lit "c", .scalar (.str [254]))]) := ⟨2, _, rfl, rfl, rfl, rfl, rfl, rfl, rfl, rfl, trivial⟩
  have hh' : Holds [.cell (uintCell 5), .cell (strCell [255]), .cell nullCell, .map [(lit "a", some 0), (lit "b", some 2), (lit "c", some 1)]] (some 3)
    (some [(lit "a", .scalar (.uint 5)), (lit "b", .scalar .null), (lit "c", .scalar (.str [255]))]) := ⟨3, _, rfl, rfl, rfl, rfl, rfl, rfl, rfl, rfl, trivial⟩
  exact ⟨_, _, _, _, _, _, _, hh, hh', by simp, rfl, h1, h2, (json_same bitsEnv_lawful hh hh' h1 h2).1 rfl⟩

/-- C107: an invalid byte and the character U+FFFD are not the same JSON, although JSON with either is decoded to that character. -/
theorem json_same_invalid : ∃ (h h' : Heap) (e e' : Event) (t u : Bytes) (r : Heap × Event), marshalEvent bitsEnv 3 h e = .ok t ∧ marshalEvent bitsEnv 3 h' e' = .ok u ∧ t ≠ u ∧
    Holds h e (some [(lit "a", .scalar (.str [255]))]) ∧ Holds h' e' (some [(lit "a", .scalar (.str [0xEF, 0xBF, 0xBD]))]) ∧
    unmarshalEvent bitsEnv t [] = some r ∧ unmarshalEvent bitsEnv u [] = some r ∧ Holds r.1 r.2 (some [(lit "a", .scalar (.str [0xEF, 0xBF, 0xBD]))]) := by
  have h1 : marshalEvent bitsEnv 3 [.cell (strCell [255]), .map [(lit "a", some 0)]] (some 1) = .ok [123, 34, 97, 34, 58, 34, 92, 117, 102, 102, 102, 100, 34, 125] := by decide +kernel
  have h2 : marshalEvent bitsEnv 3 [.cell (strCell [0xEF, 0xBF, 0xBD]), .map [(lit "a", some 0)]] (some 1) = .ok [123, 34, 97, 34, 58, 34, 0xEF, 0xBF, 0xBD, 34, 125] := by decide +kernel
  have h3 : unmarshalEvent bitsEnv [123, 34, 97, 34, 58, 34, 92, 117, 102, 102, 102, 100, 34, 125] [] = some ([.map [([97], some 1)], .cell (strCell [0xEF, 0xBF, 0xBD])], some 0) := by decide +kernel
  have h4 : unmarshalEvent bitsEnv [123, 34, 97, 34, 58, 34, 0xEF, 0xBF, 0xBD, 34, 125] [] = some ([.map [([97], some 1)], .cell (strCell [0xEF, 0xBF, 0xBD])], some 0) := by decide +kernel
  exact ⟨_, _, _, _, _, _, _, h1, h2, by decide, ⟨1, _, rfl, rfl, rfl, rfl, trivial⟩, ⟨1, _, rfl, rfl, rfl, rfl, trivial⟩, h3, h4, ⟨0, _, rfl, rfl, rfl, rfl, trivial⟩⟩

end Sawmill
