import Verif.Spec.Bomb
import Verif.Props.WireText
import Verif.Props.Wire
/-!
# C101: short messages with many values
-/

namespace Sawmill.Wire
open Text

theorem varint_length {n k : Nat} (hk : 0 < k) (h : n < 128 ^ k) : (varint n).length ≤ k := by
  induction k generalizing n with
  | zero => omega
  | succ k ih =>
    rw [varint]
    split
    · simp
    · simp only [List.length_cons]
      have hk : 0 < k := by
        rcases k with _ | k
        · simp at h; omega
        · omega
      have := ih (n := n / 128) hk (by rw [Nat.pow_succ] at h; omega)
      omega

theorem varint_shape (n : Nat) : ∃ init last, varint n = init ++ [last] ∧ (∀ b ∈ init, 128 ≤ b.toNat) ∧ last.toNat < 128 := by
  induction n using varint.induct with
  | case1 n h => exact ⟨[], UInt8.ofNat n, by rw [varint, if_pos h]; rfl, by simp, by simp; omega⟩
  | case2 n h ih =>
    obtain ⟨init, last, h1, h2, h3⟩ := ih
    refine ⟨UInt8.ofNat (n % 128 + 128) :: init, last, by rw [varint, if_neg h, h1]; rfl, ?_, h3⟩
    intro b hb
    rcases List.mem_cons.1 hb with rfl | hb
    · simp; omega
    · exact h2 b hb

theorem groups_varint (n : Nat) : groups (varint n) = n := by
  induction n using varint.induct with
  | case1 n h => rw [varint, if_pos h]; simp [groups]; omega
  | case2 n h ih => rw [varint, if_neg h]; simp only [groups, ih]; simp; omega

theorem number_varint {n : Nat} (h : n < 2 ^ 64) : Number n (varint n) := by
  obtain ⟨init, last, h1, h2, h3⟩ := varint_shape n
  exact ⟨⟨init, last, h1, h2, h3, varint_length (by omega) (Nat.lt_of_lt_of_le h (by decide))⟩, by rw [groups_varint, Nat.mod_eq_of_lt h]⟩

theorem varint_inj {n m : Nat} (h : varint n = varint m) : n = m := by rw [← groups_varint n, h, groups_varint]

theorem key_tag {num wt : Nat} (h : num < 2 ^ 29) (hw : wt < 8) : Key num wt (tag num wt) :=
  ⟨num * 8 + wt, number_varint (by omega), by omega, by omega⟩

theorem counted_varint {c : Bytes} (h : c.length < 2 ^ 64) : Counted c (varint c.length ++ c) := ⟨_, number_varint h, rfl⟩

/-- The message that it is. -/
def bombFields : Nat → List (Bytes × PValue)
  | 0 => []
  | n + 1 => bombFields n ++ [(varint n, .mk (.object (.mk (bombFields n) [])) [])]

theorem bombFields_keys {n : Nat} {e : Bytes × PValue} (h : e ∈ bombFields n) : ∃ i, i < n ∧ e.1 = varint i := by
  induction n with
  | zero => simp [bombFields] at h
  | succ n ih =>
    rcases List.mem_append.1 h with h | h
    · obtain ⟨i, h1, h2⟩ := ih h; exact ⟨i, by omega, h2⟩
    · simp at h; exact ⟨n, by omega, by rw [h]⟩

theorem tag_one {num wt : Nat} (h : num * 8 + wt < 128) : (tag num wt).length = 1 := by rw [tag, varint, if_pos h]; rfl

/-- Each entry adds at most 46 bytes. -/
theorem bombObject_length : ∀ {n : Nat}, n < 2 ^ 57 → (bombObject n).length ≤ 46 * n
  | 0, _ => by simp [bombObject]
  | n + 1, hn => by
    have ih := bombObject_length (n := n) (by omega)
    have v1 : (varint n).length ≤ 10 := varint_length (by omega) (Nat.lt_of_lt_of_le (m := 2 ^ 57) (by omega) (by decide))
    have v2 : (varint (varint n).length).length ≤ 1 := varint_length (by omega) (by simp; omega)
    have p : (2 : Nat) ^ 64 ≤ 128 ^ 10 := by decide
    have v3 : (varint (bombObject n).length).length ≤ 10 := varint_length (by omega) (by omega)
    have l1 : (lenField 6 (bombObject n)).length ≤ 11 + (bombObject n).length := by simp only [lenField, List.length_append, tag_one (num := 6) (wt := 2) (by omega)]; omega
    have v4 : (varint (lenField 6 (bombObject n)).length).length ≤ 10 := varint_length (by omega) (by omega)
    have c1 : (cutEntry (varint n) (bombObject n)).length ≤ 34 := by
      simp only [cutEntry, lenField, List.length_append, tag_one (num := 1) (wt := 2) (by omega), tag_one (num := 2) (wt := 2) (by omega), tag_one (num := 6) (wt := 2) (by omega)] at v4 ⊢
      omega
    have v5 : (varint (cutEntry (varint n) (bombObject n)).length).length ≤ 1 := varint_length (by omega) (by simp; omega)
    simp only [bombObject, List.length_append, tag_one (num := 1) (wt := 2) (by omega)]
    omega

theorem bombObject_reads : ∀ {n : Nat}, n < 2 ^ 57 → ∀ (fs : List (Bytes × PValue)), (∀ e ∈ fs, ∀ i, i < n → e.1 ≠ varint i) → ObjectFrom fs [] (bombObject n) (bombFields n ++ fs) []
  | 0, _, fs, _ => .done
  | n + 1, hn, fs, hfs => by
    have ih := @bombObject_reads n (by omega)
    have hl := bombObject_length (n := n) (by omega)
    have hlv : (lenField 6 (bombObject n)).length < 2 ^ 64 := by
      have v3 : (varint (bombObject n).length).length ≤ 10 := varint_length (by omega) (Nat.lt_of_lt_of_le (m := 2 ^ 64) (by omega) (by decide))
      simp only [lenField, List.length_append, tag_one (num := 6) (wt := 2) (by omega)]; omega
    have hk : (varint n).length ≤ 10 := varint_length (by omega) (Nat.lt_of_lt_of_le (m := 2 ^ 57) (by omega) (by decide))
    have hce : (cutEntry (varint n) (bombObject n)).length < 2 ^ 64 := by
      have h0 : (bombObject (n + 1)).length ≤ 46 * (n + 1) := bombObject_length hn
      have : (cutEntry (varint n) (bombObject n)).length ≤ (bombObject (n + 1)).length := by simp only [bombObject, List.length_append]; omega
      omega
    -- the value of the entry
    have hv : ValueFrom .unset [] (lenField 6 (bombObject n)) (.object (.mk (bombFields n) [])) [] := by
      have := ValueFrom.object (k := .unset) (u := []) (key_tag (num := 6) (wt := 2) (by omega) (by omega)) (counted_varint (c := bombObject n) (by omega)) (by simpa using ih [] (by simp)) (ValueFrom.done (u := []))
      simpa [lenField] using this
    have he : EntryFrom (cutEntry (varint n) (bombObject n)).length [] .nil (cutEntry (varint n) (bombObject n) ++ bombObject n) (varint n) (.mk (.object (.mk (bombFields n) [])) []) := by
      have e2 : EntryFrom ((cutEntry (varint n) (bombObject n)).length - (tag 1 2 ++ (varint (varint n).length ++ varint n)).length) (varint n) .nil (tag 2 2 ++ (varint (lenField 6 (bombObject n)).length ++ lenField 6 (bombObject n)) ++ []) (varint n) (.mk (.object (.mk (bombFields n) [])) []) := by
        refine .value ?_ (key_tag (num := 2) (wt := 2) (by omega) (by omega)) (counted_varint hlv) hv ?_
        · simp only [cutEntry, lenField, List.length_append, tag_one (num := 2) (wt := 2) (by omega)]; omega
        · have : (cutEntry (varint n) (bombObject n)).length - (tag 1 2 ++ (varint (varint n).length ++ varint n)).length - (tag 2 2 ++ (varint (lenField 6 (bombObject n)).length ++ lenField 6 (bombObject n))).length = 0 := by
            simp only [cutEntry, lenField, List.length_append]; omega
          rw [this]
          exact .done
      have e1 := EntryFrom.key (k := []) (v := .nil) (left := (cutEntry (varint n) (bombObject n)).length) (wt := 2) (by simp only [cutEntry, lenField, List.length_append, tag_one (num := 2) (wt := 2) (by omega)]; omega)
        (key_tag (num := 1) (wt := 2) (by omega) (by omega)) (counted_varint (c := varint n) (by omega)) e2
      simpa [cutEntry, lenField] using e1
    have hput : put fs (varint n) (.mk (.object (.mk (bombFields n) [])) []) = (varint n, .mk (.object (.mk (bombFields n) [])) []) :: fs := by
      rw [put, List.filter_eq_self.2]
      intro e he
      simpa using hfs e he n (by omega)
    have hrest := ih (put fs (varint n) (.mk (.object (.mk (bombFields n) [])) [])) (by
      rw [hput]
      intro e he i hi
      rcases List.mem_cons.1 he with rfl | he
      · intro hh; have := varint_inj hh; omega
      · exact hfs e he i (by omega))
    have := ObjectFrom.entry (fs := fs) (u := []) (key_tag (num := 1) (wt := 2) (by omega) (by omega)) (number_varint hce) he hrest
    rw [hput] at this
    simpa [bombObject, bombFields] using this

theorem valuesE_append (a b : List (Bytes × PValue)) : PValue.valuesE (a ++ b) = PValue.valuesE a + PValue.valuesE b := by
  induction a with
  | nil => simp [PValue.valuesE]
  | cons e a ih => obtain ⟨k, v⟩ := e; simp [PValue.valuesE, ih]; omega

theorem bombFields_values (n : Nat) : PValue.valuesE (bombFields n) + 1 = 2 ^ n := by
  induction n with
  | zero => rfl
  | succ n ih =>
    simp only [bombFields, valuesE_append, PValue.valuesE, PValue.values, PKind.values, PObject.values]
    rw [Nat.pow_succ]; omega

/-- **C101.** A message of at most 46 n + 22 bytes that `Unmarshal` accepts and makes 2^n - 1 values of. -/
theorem bomb_goes_off {n : Nat} (hn : n < 2 ^ 57) : (bomb n).length ≤ 46 * n + 22 ∧ ∃ m, unmarshal (bomb n) = .ok m ∧ m.values + 1 = 2 ^ n := by
  have hl := bombObject_length hn
  have p : (2 : Nat) ^ 64 ≤ 128 ^ 10 := by decide
  have v1 : (varint (bombObject n).length).length ≤ 10 := varint_length (by omega) (by omega)
  have l1 : (lenField 1 (bombObject n)).length ≤ 46 * n + 11 := by simp only [lenField, List.length_append, tag_one (num := 1) (wt := 2) (by omega)]; omega
  have v2 : (varint (lenField 1 (bombObject n)).length).length ≤ 10 := varint_length (by omega) (by omega)
  have l2 : (bomb n).length ≤ 46 * n + 22 := by simp only [bomb, lenField, List.length_append, tag_one (num := 1) (wt := 2) (by omega)] at v2 l1 ⊢; omega
  refine ⟨l2, ⟨some (.mk (.mk (bombFields n) []) []), []⟩, ?_, bombFields_values n⟩
  refine ((unmarshal_reads _ (by omega)).1 _).2 ?_
  have o := bombObject_reads hn [] (by simp)
  have lg := LogFrom.first (u := []) (key_tag (num := 1) (wt := 2) (by omega) (by omega)) (counted_varint (c := bombObject n) (by omega)) (by simpa using o) (LogFrom.done (u := []))
  have w := WrapperFrom.log (m := ⟨none, []⟩) (key_tag (num := 1) (wt := 2) (by omega) (by omega)) (counted_varint (c := lenField 1 (bombObject n)) (by omega)) (by simpa [lenField] using lg) .done
  have : bomb n = tag 1 2 ++ (varint (lenField 1 (bombObject n)).length ++ lenField 1 (bombObject n)) ++ [] := by simp [bomb, lenField]
  rw [Message, this]
  exact w

/-! ## What `Marshal` writes is no shorter than what it holds -/

theorem sov_pos (x : Nat) : 1 ≤ sov x := by
  have : 1 ≤ len64 (x ||| 1) := by
    rw [len64]
    split
    · rename_i h; have := Nat.or_eq_zero_iff.1 h; omega
    · omega
  simp only [sov]; omega

mutual
theorem values_size : ∀ v : PValue, v.values ≤ sizeValue v + 1
  | .nil => by simp [PValue.values]
  | .mk kind _ => by have := values_sizeK kind; simp only [PValue.values, sizeValue]; omega
theorem values_sizeK : ∀ k : PKind, k.values ≤ sizeKind k
  | .unset | .null _ | .boolean _ | .float _ | .integer _ | .string _ | .timestamp _ | .unsigned _ => by simp [PKind.values]
  | .array .nil => by simp [PKind.values, PArray.values]
  | .object .nil => by simp [PKind.values, PObject.values]
  | .array (.mk items u) => by have := values_sizeL items; simp only [PKind.values, PArray.values, sizeKind, PArray.isNil, sizeArray]; simp; omega
  | .object (.mk es u) => by have := values_sizeE es; simp only [PKind.values, PObject.values, sizeKind, PObject.isNil, sizeObject]; simp; omega
theorem values_sizeL : ∀ vs : List PValue, PValue.valuesL vs ≤ sizeItems vs
  | [] => by simp [PValue.valuesL]
  | v :: vs => by
    have h1 := values_size v; have h2 := values_sizeL vs
    simp only [PValue.valuesL, sizeItems]; omega
theorem values_sizeE : ∀ es : List (Bytes × PValue), PValue.valuesE es ≤ sizeFields es
  | [] => by simp [PValue.valuesE]
  | (k, .nil) :: es => by have h2 := values_sizeE es; simp only [PValue.valuesE, PValue.values, sizeFields]; omega
  | (k, .mk kd u) :: es => by
    have h1 := values_size (.mk kd u); have h2 := values_sizeE es
    simp only [PValue.valuesE, sizeFields, PValue.isNil]; simp; omega
end

/-- **C101.** What `Marshal` writes has at least a byte for each value: it never writes such a message. -/
theorem marshal_no_bomb {m : PWrapper} (h : NoNil m) : ∃ bs, marshal m = .ok bs ∧ m.values ≤ bs.length := by
  obtain ⟨bs, h1, h2, _⟩ := marshal_exact h
  refine ⟨bs, h1, h2 ▸ ?_⟩
  obtain ⟨msg, u⟩ := m
  rcases msg with _ | l
  · simp [PWrapper.values]
  · rcases l with _ | ⟨o, ul⟩
    · simp [PWrapper.values]
    · rcases o with _ | ⟨es, uo⟩
      · simp [PWrapper.values, PObject.values]
      · have := values_sizeE es
        simp only [PWrapper.values, PObject.values, sizeWrapper, sizeLogField, PLog.isNil, sizeLog, PObject.isNil, sizeObject]
        simp; omega

/-- The message for two entries has 22 bytes; behind the entry `1`, which ends at the thirteenth byte, all bytes are read twice. -/
theorem bomb_sample : bomb 2 = [10, 20, 10, 18, 10, 7, 10, 1, 1, 18, 11, 50, 9, 10, 7, 10, 1, 0, 18, 2, 50, 0] ∧
    unmarshal (bomb 2) = .ok ⟨some (.mk (.mk [([0], .mk (.object (.mk [] [])) []), ([1], .mk (.object (.mk [([0], .mk (.object (.mk [] [])) [])] [])) [])] []) []), []⟩ := by
  have h : bomb 2 = [10, 20, 10, 18, 10, 7, 10, 1, 1, 18, 11, 50, 9, 10, 7, 10, 1, 0, 18, 2, 50, 0] := by simp [bomb, bombObject, cutEntry, lenField, tag, varint]
  exact ⟨h, by rw [h]; rfl⟩

/-- A message of less than 4700 bytes with more than 10^30 values. -/
theorem bomb_hundred : (bomb 100).length < 4700 ∧ ∃ m, unmarshal (bomb 100) = .ok m ∧ 10 ^ 30 < m.values := by
  obtain ⟨h1, m, h2, h3⟩ := bomb_goes_off (n := 100) (by decide)
  exact ⟨by omega, m, h2, by have : (10 : Nat) ^ 30 + 1 < 2 ^ 100 := by decide
                             omega⟩

/-! ## The worst case -/

theorem pow_split {a b c : Nat} (h1 : 0 < a) (h2 : a + b ≤ c) : 2 ^ b + 2 ^ b ≤ 2 ^ c := by
  have : 2 ^ (b + 1) ≤ 2 ^ c := Nat.pow_le_pow_right (by omega) (by omega)
  rw [Nat.pow_succ] at this; omega

theorem pow_mono {a b : Nat} (h : a ≤ b) : 2 ^ a ≤ 2 ^ b := Nat.pow_le_pow_right (by omega) h

theorem valuesE_filter (fs : List (Bytes × PValue)) (p : Bytes × PValue → Bool) : PValue.valuesE (fs.filter p) ≤ PValue.valuesE fs := by
  induction fs with
  | nil => simp
  | cons e fs ih =>
    obtain ⟨k, v⟩ := e
    rw [List.filter_cons]
    split <;> simp only [PValue.valuesE] <;> omega

theorem put_values (fs : List (Bytes × PValue)) (k : Bytes) (v : PValue) : PValue.valuesE (put fs k v) ≤ v.values + PValue.valuesE fs := by
  have := valuesE_filter fs fun e => e.1 ≠ k
  simp only [put, PValue.valuesE]; omega

theorem valuesL_append (a b : List PValue) : PValue.valuesL (a ++ b) = PValue.valuesL a + PValue.valuesL b := by
  induction a with
  | nil => simp [PValue.valuesL]
  | cons e a ih => simp [PValue.valuesL, ih]; omega

theorem counted_length {c b : Bytes} (h : Counted c b) : c.length + 1 ≤ b.length := by
  obtain ⟨v, h1, h2⟩ := h
  have : 0 < v.length := by obtain ⟨_, _, rfl, _⟩ := h1.1; simp
  subst h2; simp; omega

mutual
theorem value_bound : ∀ {k u c k' u'}, ValueFrom k u c k' u' → k'.values ≤ max k.values (2 ^ c.length - 1)
  | _, _, _, _, _, .done => by omega
  | _, _, _, _, _, .null (t := t) (v := v) (rest := rest) _ _ h => by
    have ih := value_bound h
    have := pow_mono (a := rest.length) (b := (t ++ v ++ rest).length) (by simp only [List.length_append]; omega)
    simp only [PKind.values] at ih; omega
  | _, _, _, _, _, .array (t := t) (b := b) (c := c) (rest := rest) _ hc ha h => by
    have ih := value_bound h
    have ia := array_bound ha
    have := pow_mono (a := rest.length) (b := (t ++ b ++ rest).length) (by simp only [List.length_append]; omega)
    have := pow_mono (a := c.length) (b := (t ++ b ++ rest).length) (by have := counted_length hc; simp; omega)
    simp only [PKind.values, PArray.values, PValue.valuesL] at ih ia; omega
  | _, _, _, _, _, .boolean (t := t) (v := v) (rest := rest) _ _ h => by
    have ih := value_bound h
    have := pow_mono (a := rest.length) (b := (t ++ v ++ rest).length) (by simp only [List.length_append]; omega)
    simp only [PKind.values] at ih; omega
  | _, _, _, _, _, .float (t := t) (c := v) (rest := rest) _ _ h => by
    have ih := value_bound h
    have := pow_mono (a := rest.length) (b := (t ++ v ++ rest).length) (by simp only [List.length_append]; omega)
    simp only [PKind.values] at ih; omega
  | _, _, _, _, _, .integer (t := t) (v := v) (rest := rest) _ _ h => by
    have ih := value_bound h
    have := pow_mono (a := rest.length) (b := (t ++ v ++ rest).length) (by simp only [List.length_append]; omega)
    simp only [PKind.values] at ih; omega
  | _, _, _, _, _, .object (t := t) (b := b) (c := c) (rest := rest) _ hc ha h => by
    have ih := value_bound h
    have ia := object_bound ha
    have := pow_mono (a := rest.length) (b := (t ++ b ++ rest).length) (by simp only [List.length_append]; omega)
    have := pow_mono (a := c.length) (b := (t ++ b ++ rest).length) (by have := counted_length hc; simp; omega)
    simp only [PKind.values, PObject.values, PValue.valuesE] at ih ia; omega
  | _, _, _, _, _, .string (t := t) (b := v) (rest := rest) _ _ h => by
    have ih := value_bound h
    have := pow_mono (a := rest.length) (b := (t ++ v ++ rest).length) (by simp only [List.length_append]; omega)
    simp only [PKind.values] at ih; omega
  | _, _, _, _, _, .timestamp (t := t) (v := v) (rest := rest) _ _ h => by
    have ih := value_bound h
    have := pow_mono (a := rest.length) (b := (t ++ v ++ rest).length) (by simp only [List.length_append]; omega)
    simp only [PKind.values] at ih; omega
  | _, _, _, _, _, .unsigned (t := t) (v := v) (rest := rest) _ _ h => by
    have ih := value_bound h
    have := pow_mono (a := rest.length) (b := (t ++ v ++ rest).length) (by simp only [List.length_append]; omega)
    simp only [PKind.values] at ih; omega
  | _, _, _, _, _, .unknown (f := f) (rest := rest) _ _ _ h => by
    have ih := value_bound h
    have := pow_mono (a := rest.length) (b := (f ++ rest).length) (by simp only [List.length_append]; omega)
    omega
theorem array_bound : ∀ {vs u c vs' u'}, ArrayFrom vs u c vs' u' → PValue.valuesL vs' + 1 ≤ PValue.valuesL vs + 2 ^ c.length
  | _, _, _, _, _, .done => by simp
  | _, _, _, _, _, .item (t := t) (b := b) (c := c) (rest := rest) ht hc hv h => by
    have ih := array_bound h
    have iv := value_bound hv
    have := ht.pos
    have hl := counted_length hc
    have := pow_mono (a := c.length) (b := (t ++ b ++ rest).length - 1) (by simp; omega)
    have := pow_mono (a := rest.length) (b := (t ++ b ++ rest).length - 1) (by simp; omega)
    have := pow_split (a := 1) (b := (t ++ b ++ rest).length - 1) (c := (t ++ b ++ rest).length) (by omega) (by simp; omega)
    have := Nat.one_le_two_pow (n := c.length)
    simp only [valuesL_append, PValue.valuesL, PValue.values, PKind.values] at ih iv; omega
  | _, _, _, _, _, .unknown (f := f) (rest := rest) _ _ _ h => by
    have ih := array_bound h
    have := pow_mono (a := rest.length) (b := (f ++ rest).length) (by simp only [List.length_append]; omega)
    omega
theorem object_bound : ∀ {fs u c fs' u'}, ObjectFrom fs u c fs' u' → PValue.valuesE fs' + 1 ≤ PValue.valuesE fs + 2 ^ c.length
  | _, _, _, _, _, .done => by simp
  | fs, _, _, _, _, .entry (t := t) (n := n) (e := e) (rest := rest) (k := k) (v := v) ht hn he h => by
    have ih := object_bound h
    have iv := entry_bound he
    have := ht.pos
    have := put_values fs k v
    have := pow_mono (a := (e ++ rest).length) (b := (t ++ n ++ e ++ rest).length - 1) (by simp; omega)
    have := pow_mono (a := rest.length) (b := (t ++ n ++ e ++ rest).length - 1) (by simp; omega)
    have := pow_split (a := 1) (b := (t ++ n ++ e ++ rest).length - 1) (c := (t ++ n ++ e ++ rest).length) (by omega) (by simp; omega)
    have := Nat.one_le_two_pow (n := (e ++ rest).length)
    simp only [PValue.values] at iv; omega
  | _, _, _, _, _, .unknown (f := f) (rest := rest) _ _ _ h => by
    have ih := object_bound h
    have := pow_mono (a := rest.length) (b := (f ++ rest).length) (by simp only [List.length_append]; omega)
    omega
theorem entry_bound : ∀ {left k v s k' v'}, EntryFrom left k v s k' v' → v'.values ≤ max v.values (2 ^ s.length)
  | _, _, _, _, _, _, .done => by omega
  | _, _, _, _, _, _, .key (t := t) (b := b) (rest := rest) _ _ _ h => by
    have ih := entry_bound h
    have := pow_mono (a := rest.length) (b := (t ++ b ++ rest).length) (by simp only [List.length_append]; omega)
    omega
  | _, _, _, _, _, _, .value (t := t) (b := b) (c := c) (rest := rest) _ _ hc hv h => by
    have ih := entry_bound h
    have iv := value_bound hv
    have := counted_length hc
    have := pow_mono (a := rest.length) (b := (t ++ b ++ rest).length) (by simp only [List.length_append]; omega)
    have := pow_mono (a := c.length) (b := (t ++ b ++ rest).length) (by simp; omega)
    have := Nat.one_le_two_pow (n := c.length)
    simp only [PValue.values, PKind.values] at ih iv; omega
  | _, _, _, _, _, _, .unknown (f := f) (rest := rest) _ _ _ _ _ h => by
    have ih := entry_bound h
    have := pow_mono (a := rest.length) (b := (f ++ rest).length) (by simp only [List.length_append]; omega)
    omega
end

theorem log_bound {o o' : PObject} {u c u' : Bytes} (h : LogFrom o u c o' u') : o'.values + 1 ≤ o.values + 2 ^ c.length := by
  induction h with
  | done => simp
  | @first _ _ _ t b c rest _ _ _ hc ho _ ih =>
    have io := object_bound ho
    have := counted_length hc
    have := pow_mono (a := c.length) (b := (t ++ b ++ rest).length - 1) (by simp; omega)
    have := pow_mono (a := rest.length) (b := (t ++ b ++ rest).length - 1) (by simp; omega)
    have := pow_split (a := 1) (b := (t ++ b ++ rest).length - 1) (c := (t ++ b ++ rest).length) (by omega) (by simp; omega)
    simp only [PObject.values, PValue.valuesE] at ih io ⊢; omega
  | @again _ _ _ t b c rest _ _ _ _ _ hc ho _ ih =>
    have io := object_bound ho
    have := counted_length hc
    have := pow_mono (a := c.length) (b := (t ++ b ++ rest).length - 1) (by simp; omega)
    have := pow_mono (a := rest.length) (b := (t ++ b ++ rest).length - 1) (by simp; omega)
    have := pow_split (a := 1) (b := (t ++ b ++ rest).length - 1) (c := (t ++ b ++ rest).length) (by omega) (by simp; omega)
    simp only [PObject.values] at ih io ⊢; omega
  | @unknown _ _ _ _ f rest _ _ _ _ _ ih =>
    have := pow_mono (a := rest.length) (b := (f ++ rest).length) (by simp only [List.length_append]; omega)
    omega

/-- **C101.** It cannot be worse: a message of `n` bytes has fewer than 2^n values. -/
theorem bomb_worst {d : Bytes} (hd : d.length < 2 ^ 63 - 8) {m : PWrapper} (h : unmarshal d = .ok m) : m.values < 2 ^ d.length := by
  have h := ((unmarshal_reads d hd).1 m).1 h
  have key : ∀ {m d m'}, WrapperFrom m d m' → m'.values + 1 ≤ max (m.values + 1) (2 ^ d.length) := by
    intro m d m' h
    induction h with
    | done => omega
    | @log _ _ t b c rest _ o _ hc hl _ ih =>
      have il := log_bound hl
      have := counted_length hc
      have := pow_mono (a := c.length) (b := (t ++ b ++ rest).length) (by simp; omega)
      have := pow_mono (a := rest.length) (b := (t ++ b ++ rest).length) (by simp only [List.length_append]; omega)
      simp only [PWrapper.values, PObject.values] at ih il ⊢; omega
    | @unknown _ _ f rest _ _ _ _ _ ih =>
      have := pow_mono (a := rest.length) (b := (f ++ rest).length) (by simp only [List.length_append]; omega)
      simp only [PWrapper.values] at ih ⊢; omega
  have := key h
  have := Nat.one_le_two_pow (n := d.length)
  simp only [PWrapper.values] at *; omega

end Sawmill.Wire
