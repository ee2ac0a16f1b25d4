import Verif.Spec.Wire
/-!
# The backwards writer produces the wire format
-/

namespace Sawmill.Wire

/-! ## Varints and sizes -/

theorem log2_or_one {v : Nat} (h : v ≠ 0) : (v ||| 1).log2 = v.log2 := by
  have h1 := Nat.log2_self_le h
  have h2 := @Nat.lt_log2_self v
  have hor : v ≤ v ||| 1 := Nat.left_le_or
  rw [Nat.log2_eq_iff (by omega)]
  refine ⟨by omega, ?_⟩
  exact Nat.or_lt_two_pow h2 (by
    have : 2 ^ 1 ≤ 2 ^ (v.log2 + 1) := Nat.pow_le_pow_right (by omega) (by omega)
    omega)

theorem log2_div128 {v : Nat} (h : 128 ≤ v) : v.log2 = (v / 128).log2 + 7 := by
  have h0 : v / 128 ≠ 0 := by omega
  have h1 := Nat.log2_self_le h0
  have h2 := @Nat.lt_log2_self (v / 128)
  rw [Nat.log2_eq_iff (by omega)]
  have e1 : 2 ^ ((v / 128).log2 + 7) = 2 ^ (v / 128).log2 * 128 := by rw [Nat.pow_add]
  have e2 : 2 ^ ((v / 128).log2 + 7 + 1) = 2 ^ ((v / 128).log2 + 1) * 128 := by rw [Nat.add_right_comm, Nat.pow_add]
  rw [e1, e2]
  omega

/-- `sovEvent` is the number of bytes of the varint. -/
theorem sov_eq (v : Nat) : sov v = (varint v).length := by
  induction v using Nat.strongRecOn with
  | ind v ih =>
    unfold varint
    split
    · rename_i h
      have hne : v ||| 1 ≠ 0 := by have : 1 ≤ v ||| 1 := Nat.right_le_or; omega
      have hlt : v ||| 1 < 2 ^ 7 := Nat.or_lt_two_pow (by omega) (by omega)
      have : (v ||| 1).log2 < 7 := (Nat.log2_lt hne).2 hlt
      simp only [sov, len64, hne, if_false, List.length_singleton]
      omega
    · rename_i h
      have hne : v ||| 1 ≠ 0 := by have : 1 ≤ v ||| 1 := Nat.right_le_or; omega
      have hne2 : v / 128 ||| 1 ≠ 0 := by have : 1 ≤ v / 128 ||| 1 := Nat.right_le_or; omega
      have := ih (v / 128) (by omega)
      simp only [sov, len64, hne, hne2, if_false, List.length_cons, log2_or_one (show v ≠ 0 by omega), log2_or_one (show v / 128 ≠ 0 by omega)] at this ⊢
      rw [log2_div128 (show 128 ≤ v by omega)]
      omega

theorem varint_small {v : Nat} (h : v < 128) : varint v = [UInt8.ofNat v] := by rw [varint, if_pos h]

theorem varint_pos (v : Nat) : 0 < (varint v).length := by rw [varint]; split <;> simp

theorem tag_len {num wt : Nat} (h : num * 8 + wt < 128) : tag num wt = [UInt8.ofNat (num * 8 + wt)] := varint_small h

theorem lenField_length {num : Nat} (h : num < 15) (c : Bytes) : (lenField num c).length = 1 + (varint c.length).length + c.length := by
  simp only [lenField, tag_len (show num * 8 + 2 < 128 by omega), List.length_append, List.length_singleton]

theorem varintField_length {num : Nat} (h : num < 15) (v : Nat) : (varintField num v).length = 1 + (varint v).length := by
  simp only [varintField, tag_len (show num * 8 + 0 < 128 by omega), List.length_append, List.length_singleton]

theorem le64_length (v : BitVec 64) : (le64 v).length = 8 := by simp [le64, leBytes]

mutual
theorem sizeValue_eq : ∀ (v : PValue), sizeValue v = (encValue v).length
  | .nil => rfl
  | .mk k u => by simp only [sizeValue, encValue, sizeKind_eq k, List.length_append]
theorem sizeKind_eq : ∀ (k : PKind), sizeKind k = (encKind k).length
  | .unset => rfl
  | .null v => by simp only [sizeKind, encKind, varintField_length (show 1 < 15 by omega), sov_eq, nullBits]
  | .array .nil => rfl
  | .array (.mk items u) => by
    simp only [sizeKind, encKind, PArray.isNil, sizeArray, sizeItems_eq items, lenField_length (show 2 < 15 by omega), sov_eq, List.length_append, Bool.false_eq_true, if_false]
    omega
  | .boolean b => by cases b <;> simp [sizeKind, encKind, varintField, varint_small, tag]
  | .float f => by simp [sizeKind, encKind, varint_small, tag, le64_length]
  | .integer i => by simp only [sizeKind, encKind, varintField_length (show 5 < 15 by omega), sov_eq]
  | .object .nil => rfl
  | .object (.mk fs u) => by
    simp only [sizeKind, encKind, PObject.isNil, sizeObject, sizeFields_eq fs, lenField_length (show 6 < 15 by omega), sov_eq, List.length_append, Bool.false_eq_true, if_false]
    omega
  | .string none => rfl
  | .string (some s) => by
    simp only [sizeKind, encKind, lenField_length (show 7 < 15 by omega), sov_eq]
    omega
  | .timestamp t => by simp only [sizeKind, encKind, varintField_length (show 8 < 15 by omega), sov_eq]
  | .unsigned t => by simp only [sizeKind, encKind, varintField_length (show 9 < 15 by omega), sov_eq]
theorem sizeItems_eq : ∀ (vs : List PValue), sizeItems vs = (encItems vs).length
  | [] => rfl
  | v :: vs => by
    simp only [sizeItems, encItems, sizeValue_eq v, sizeItems_eq vs, List.length_append, lenField_length (show 1 < 15 by omega), sov_eq]
    omega
theorem sizeFields_eq : ∀ (es : List (Bytes × PValue)), sizeFields es = (encFields es).length
  | [] => rfl
  | (k, v) :: es => by
    simp only [sizeFields, encFields, sizeValue_eq v, sizeFields_eq es, List.length_append, lenField_length (show 1 < 15 by omega), sov_eq]
    cases v with
    | nil =>
      simp only [PValue.isNil, if_true, List.length_nil, Nat.add_zero, Nat.add_right_comm 1 k.length]
      omega
    | mk kd u =>
      simp only [PValue.isNil, Bool.false_eq_true, if_false, lenField_length (show 2 < 15 by omega)]
      have : 1 + k.length + (varint k.length).length + ((encValue (.mk kd u)).length + (1 + (varint (encValue (.mk kd u)).length).length)) =
        1 + (varint k.length).length + k.length + (1 + (varint (encValue (.mk kd u)).length).length + (encValue (.mk kd u)).length) := by omega
      rw [this]
      omega
end

theorem sizeLog_eq (l : PLog) : sizeLog l = (encLog l).length := by
  match l with
  | .nil => rfl
  | .mk .nil u => simp [sizeLog, encLog, PObject.isNil]
  | .mk (.mk fs w) u =>
    simp only [sizeLog, encLog, PObject.isNil, sizeObject, sizeFields_eq fs, lenField_length (show 1 < 15 by omega), sov_eq, List.length_append, Bool.false_eq_true, if_false]
    omega

theorem sizeWrapper_eq (m : PWrapper) : sizeWrapper m = (encWrapper m).length := by
  match m with
  | ⟨none, u⟩ => simp [sizeWrapper, encWrapper]
  | ⟨some .nil, u⟩ => simp [sizeWrapper, encWrapper, sizeLogField, PLog.isNil]
  | ⟨some (.mk o w), u⟩ =>
    simp only [sizeWrapper, encWrapper, sizeLogField, PLog.isNil, sizeLog_eq, lenField_length (show 1 < 15 by omega), sov_eq, List.length_append, Bool.false_eq_true, if_false]
    omega

/-! ## Writing -/

theorem writeAt_length {mem : Bytes} {pos : Nat} {bs : Bytes} (h : pos + bs.length ≤ mem.length) : (writeAt mem pos bs).length = mem.length := by
  simp only [writeAt, List.length_append, List.length_take, List.length_drop]; omega

theorem writeAt_prepend {mem : Bytes} {q : Nat} {t s : Bytes} (h : q + t.length + s.length ≤ mem.length) :
    writeAt (writeAt mem (q + t.length) s) q t = writeAt mem q (t ++ s) := by
  apply List.ext_getElem?
  intro i
  simp only [writeAt, List.getElem?_append, List.getElem?_take, List.getElem?_drop, List.length_append, List.length_take, List.length_drop]
  grind

theorem writeAt_prepend' {mem : Bytes} {p q : Nat} {t s : Bytes} (hp : p = q + t.length) (h : q + t.length + s.length ≤ mem.length) :
    writeAt (writeAt mem p s) q t = writeAt mem q (t ++ s) := by
  subst hp; exact writeAt_prepend h

theorem writeAt_nil (mem : Bytes) (pos : Nat) : writeAt mem pos [] = mem := by simp [writeAt]

theorem setByte_eq {mem : Bytes} {off len j : Nat} {b : UInt8} (h : j < len) (hm : off + len ≤ mem.length) : setByte mem off len j b = .ok (writeAt mem (off + j) [b]) := by
  rw [setByte, if_pos h, writeAt]
  congr 1
  rw [List.set_eq_take_append_cons_drop, if_pos (by omega)]
  simp

theorem pushByte_eq {mem : Bytes} {off len j : Nat} {b : UInt8} (h : j + 1 ≤ len) (hm : off + len ≤ mem.length) : pushByte off len b mem (j + 1) = .ok (writeAt mem (off + j) [b], j) := by
  rw [pushByte, if_neg (by omega), Nat.add_sub_cancel, setByte_eq (by omega) hm]
  rfl

theorem pushBytes_eq {mem : Bytes} {off len j : Nat} {src : Bytes} (h : j + src.length ≤ len) (_hm : off + len ≤ mem.length) :
    pushBytes off len src mem (j + src.length) = .ok (writeAt mem (off + j) src, j) := by
  rw [pushBytes, if_neg (by omega), Nat.add_sub_cancel, copyAt, if_pos (by omega), List.take_of_length_le (by omega)]
  rfl

theorem encodeVarintLoop_eq {off len : Nat} (v : Nat) : ∀ {mem : Bytes} {j : Nat}, j + (varint v).length ≤ len → off + len ≤ mem.length →
    encodeVarintLoop off len mem j v = .ok (writeAt mem (off + j) (varint v)) := by
  induction v using Nat.strongRecOn with
  | ind v ih =>
    intro mem j h hm
    rw [encodeVarintLoop]
    rw [varint] at h ⊢
    split
    · rename_i hv
      rw [if_neg (by omega)] at h ⊢
      simp only [List.length_cons] at h
      rw [setByte_eq (by omega) hm]
      dsimp only
      have hl : (writeAt mem (off + j) [UInt8.ofNat (v % 128 + 128)]).length = mem.length := writeAt_length (by simp; omega)
      rw [ih (v / 128) (by omega) (by omega) (by omega)]
      congr 1
      apply List.ext_getElem?
      intro i
      simp only [writeAt, List.getElem?_append, List.getElem?_take, List.getElem?_drop, List.length_append, List.length_take, List.length_drop, List.length_cons, List.length_nil,
        List.getElem?_cons]
      grind
    · rename_i hv
      rw [if_pos (by omega)] at h ⊢
      simp only [List.length_singleton] at h
      exact setByte_eq (by omega) hm

theorem encodeVarint_eq {mem : Bytes} {off len j v : Nat} (h : j + (varint v).length ≤ len) (hm : off + len ≤ mem.length) :
    encodeVarint off len v mem (j + (varint v).length) = .ok (writeAt mem (off + j) (varint v), j) := by
  rw [encodeVarint, sov_eq, if_neg (by omega), Nat.add_sub_cancel, encodeVarintLoop_eq v h hm]
  rfl

theorem pushHeader_eq {mem : Bytes} {off len j size : Nat} {t : UInt8} (h : j + 1 + (varint size).length + size ≤ len) (hm : off + len ≤ mem.length) :
    pushHeader off len t size mem (j + 1 + (varint size).length + size) = .ok (writeAt mem (off + j) ([t] ++ varint size), j) := by
  rw [pushHeader, if_neg (by omega), Nat.add_sub_cancel, encodeVarint_eq (by omega) hm]
  dsimp only
  rw [pushByte_eq (by omega) (by rw [writeAt_length (by omega)]; exact hm), ← Nat.add_assoc off j 1]
  congr 2
  exact writeAt_prepend (t := [t]) (by simp; omega)

/-- A header pushed in front of contents already written. -/
theorem pushHeader_done {mem : Bytes} {off len j : Nat} {t : UInt8} {c : Bytes} (h : j + 1 + (varint c.length).length + c.length ≤ len) (hm : off + len ≤ mem.length) :
    pushHeader off len t c.length (writeAt mem (off + (j + 1 + (varint c.length).length)) c) (j + 1 + (varint c.length).length + c.length) =
      .ok (writeAt mem (off + j) ([t] ++ varint c.length ++ c), j) := by
  rw [pushHeader_eq h (by rw [writeAt_length (by omega)]; exact hm)]
  congr 2
  rw [← writeAt_prepend (t := [t] ++ varint c.length) (s := c) (by simp only [List.length_append, List.length_singleton]; omega)]
  simp only [List.length_append, List.length_singleton]
  congr 2
  omega

theorem lenField_eq {num : Nat} (h : num < 15) (c : Bytes) : lenField num c = [UInt8.ofNat (num * 8 + 2)] ++ varint c.length ++ c := by
  rw [lenField, tag_len (by omega)]

theorem varintKind_eq {mem : Bytes} {off v : Nat} {t : UInt8} (hm : off + (1 + (varint v).length) ≤ mem.length) :
    (do
      let (mem, i) ← encodeVarint off (1 + (varint v).length) v mem (1 + (varint v).length)
      let (mem, _) ← pushByte off (1 + (varint v).length) t mem i
      Res.ok mem) = Res.ok (writeAt mem off ([t] ++ varint v)) := by
  rw [encodeVarint_eq (Nat.le_refl _) hm, Res.bind_ok]
  dsimp only
  rw [show (1 : Nat) = 0 + 1 from rfl, pushByte_eq (by omega) (by rw [writeAt_length (by omega)]; omega), Res.bind_ok]
  dsimp only
  rw [← writeAt_prepend (by simp; omega)]
  rfl

theorem varintField_eq {num : Nat} (h : num < 15) (v : Nat) : varintField num v = [UInt8.ofNat (num * 8 + 0)] ++ varint v := by
  rw [varintField, tag_len (by omega)]

/-- A header in front of the contents of a window, in a window that it fills. -/
theorem headerKind_eq {mem : Bytes} {off : Nat} {t : UInt8} {c : Bytes} (hm : off + (1 + (varint c.length).length + c.length) ≤ mem.length) :
    (do
      let (mem, _) ← pushHeader off (1 + (varint c.length).length + c.length) t c.length (writeAt mem (off + (1 + (varint c.length).length)) c) (1 + (varint c.length).length + c.length)
      Res.ok mem) = Res.ok (writeAt mem off ([t] ++ varint c.length ++ c)) := by
  have := pushHeader_done (t := t) (c := c) (mem := mem) (off := off) (len := 1 + (varint c.length).length + c.length) (j := 0) (by omega) (by omega)
  rw [Nat.zero_add, Nat.add_zero] at this
  rw [this]; rfl

mutual
theorem marshalValue_eq : ∀ (v : PValue), NoNilValue v → ∀ {mem : Bytes} {off a : Nat}, off + (a + (encValue v).length) ≤ mem.length →
    marshalValue v mem off (a + (encValue v).length) = .ok (writeAt mem (off + a) (encValue v), (encValue v).length)
  | .nil, h, _, _, _, _ => h.elim
  | .mk k u, h, mem, off, a, hm => by
    simp only [encValue, List.length_append] at hm ⊢
    rw [marshalValue, ← Nat.add_assoc, pushBytes_eq (by omega) (by omega), Res.bind_ok]
    dsimp only
    rw [sizeKind_eq, if_neg (by omega), Nat.add_sub_cancel]
    have hl : (writeAt mem (off + (a + (encKind k).length)) u).length = mem.length := writeAt_length (by omega)
    rw [marshalKind_eq k h (by omega), Res.bind_ok, ← Nat.add_assoc off, writeAt_prepend (by omega)]
    congr 2
    omega
theorem marshalKind_eq : ∀ (k : PKind), NoNilKind k → ∀ {mem : Bytes} {off : Nat}, off + (encKind k).length ≤ mem.length →
    marshalKind k mem off (encKind k).length = .ok (writeAt mem off (encKind k))
  | .unset, _, mem, off, _ => by simp [marshalKind, encKind, writeAt_nil]
  | .null v, _, mem, off, hm => by
    rw [encKind, varintField_length (by omega)] at hm ⊢
    rw [marshalKind, varintField_eq (by omega)]
    exact varintKind_eq hm
  | .array .nil, _, mem, off, hm => by simp [marshalKind, encKind, writeAt_nil, PArray.isNil]
  | .array (.mk items u), h, mem, off, hm => by
    rw [encKind, lenField_length (by omega)] at hm ⊢
    rw [marshalKind, lenField_eq (by omega), marshalArray]
    simp only [PArray.isNil, Bool.false_eq_true, if_false]
    rw [List.length_append, ← Nat.add_assoc, pushBytes_eq (by omega) (by simp only [List.length_append] at hm; omega), Res.bind_ok]
    dsimp only
    simp only [List.length_append] at hm
    rw [marshalItems_eq items h (by omega) (by rw [writeAt_length (by omega)]; omega), Res.bind_ok]
    dsimp only
    rw [Res.bind_ok, ← Nat.add_assoc off, writeAt_prepend (by omega)]
    dsimp only
    have := headerKind_eq (mem := mem) (off := off) (t := 0x12) (c := encItems items ++ u) (by simp only [List.length_append]; omega)
    simp only [List.length_append] at this
    have e : 1 + (varint ((encItems items).length + u.length)).length + (encItems items).length + u.length - (1 + (varint ((encItems items).length + u.length)).length) =
      (encItems items).length + u.length := by omega
    rw [e, Nat.add_assoc _ (encItems items).length]
    exact this
  | .boolean b, _, mem, off, hm => by
    have e : encKind (.boolean b) = [0x18, if b then 1 else 0] := by cases b <;> simp [encKind, varintField, tag, varint_small]
    rw [e] at hm ⊢
    simp only [List.length_cons, List.length_nil] at hm ⊢
    rw [marshalKind, pushByte_eq (by omega) (by omega), Res.bind_ok]
    dsimp only
    rw [pushByte_eq (by omega) (by rw [writeAt_length (by simp; omega)]; omega), Res.bind_ok]
    dsimp only
    rw [show off + (0 + 1) = off + 0 + [(0x18 : UInt8)].length from rfl, writeAt_prepend (by simp; omega)]
    rfl
  | .float f, _, mem, off, hm => by
    rw [encKind, tag_len (by omega)] at hm ⊢
    simp only [List.length_append, List.length_singleton] at hm ⊢
    rw [marshalKind, pushBytes_eq (by omega) (by omega), Res.bind_ok]
    dsimp only
    rw [show (1 : Nat) = 0 + 1 from rfl, pushByte_eq (by omega) (by rw [writeAt_length (by omega)]; omega), Res.bind_ok]
    dsimp only
    rw [← writeAt_prepend (by simp; omega)]
    rfl
  | .integer v, _, mem, off, hm => by
    rw [encKind, varintField_length (by omega)] at hm ⊢
    rw [marshalKind, varintField_eq (by omega)]
    exact varintKind_eq hm
  | .object .nil, _, mem, off, hm => by simp [marshalKind, encKind, writeAt_nil, PObject.isNil]
  | .object (.mk fs u), h, mem, off, hm => by
    rw [encKind, lenField_length (by omega)] at hm ⊢
    rw [marshalKind, lenField_eq (by omega), marshalObject]
    simp only [PObject.isNil, Bool.false_eq_true, if_false]
    rw [List.length_append, ← Nat.add_assoc, pushBytes_eq (by omega) (by simp only [List.length_append] at hm; omega), Res.bind_ok]
    dsimp only
    simp only [List.length_append] at hm
    rw [marshalFields_eq fs h (by omega) (by rw [writeAt_length (by omega)]; omega), Res.bind_ok]
    dsimp only
    rw [Res.bind_ok, ← Nat.add_assoc off, writeAt_prepend (by omega)]
    dsimp only
    have := headerKind_eq (mem := mem) (off := off) (t := 0x32) (c := encFields fs ++ u) (by simp only [List.length_append]; omega)
    simp only [List.length_append] at this
    have e : 1 + (varint ((encFields fs).length + u.length)).length + (encFields fs).length + u.length - (1 + (varint ((encFields fs).length + u.length)).length) =
      (encFields fs).length + u.length := by omega
    rw [e, Nat.add_assoc _ (encFields fs).length]
    exact this
  | .string none, _, mem, off, hm => by simp [marshalKind, encKind, writeAt_nil]
  | .string (some s), _, mem, off, hm => by
    rw [encKind, lenField_length (by omega)] at hm ⊢
    rw [marshalKind, lenField_eq (by omega), pushBytes_eq (by omega) (by omega), Res.bind_ok]
    dsimp only
    rw [encodeVarint_eq (by omega) (by rw [writeAt_length (by omega)]; omega), Res.bind_ok, ← Nat.add_assoc off, writeAt_prepend (by omega)]
    dsimp only
    rw [show (1 : Nat) = 0 + 1 from rfl, pushByte_eq (by omega) (by rw [writeAt_length (by simp; omega)]; omega), Res.bind_ok]
    dsimp only
    rw [show off + (0 + 1) = off + 0 + [(0x3a : UInt8)].length from rfl, writeAt_prepend (by simp; omega), List.append_assoc]
    rfl
  | .timestamp v, _, mem, off, hm => by
    rw [encKind, varintField_length (by omega)] at hm ⊢
    rw [marshalKind, varintField_eq (by omega)]
    exact varintKind_eq hm
  | .unsigned v, _, mem, off, hm => by
    rw [encKind, varintField_length (by omega)] at hm ⊢
    rw [marshalKind, varintField_eq (by omega)]
    exact varintKind_eq hm
theorem marshalItems_eq : ∀ (vs : List PValue), NoNilItems vs → ∀ {mem : Bytes} {off len j : Nat}, j + (encItems vs).length ≤ len → off + len ≤ mem.length →
    marshalItems vs mem off len (j + (encItems vs).length) = .ok (writeAt mem (off + j) (encItems vs), j)
  | [], _, mem, off, len, j, _, _ => by simp [marshalItems, encItems, writeAt_nil]
  | v :: vs, h, mem, off, len, j, hl, hm => by
    simp only [encItems, List.length_append, lenField_length (show 1 < 15 by omega)] at hl ⊢
    rw [marshalItems, ← Nat.add_assoc, marshalItems_eq vs h.2 (by omega) (by omega), Res.bind_ok]
    dsimp only
    rw [← Nat.add_assoc j, ← Nat.add_assoc j, marshalValue_eq v h.1 (by rw [writeAt_length (by omega)]; omega), Res.bind_ok]
    dsimp only
    rw [pushHeader_done (by omega) (by rw [writeAt_length (by omega)]; omega)]
    rw [lenField_eq (by omega), writeAt_prepend' (by simp only [List.length_append, List.length_singleton]; omega) (by simp only [List.length_append, List.length_singleton]; omega)]
    rfl
theorem marshalFields_eq : ∀ (es : List (Bytes × PValue)), NoNilFields es → ∀ {mem : Bytes} {off len j : Nat}, j + (encFields es).length ≤ len → off + len ≤ mem.length →
    marshalFields es mem off len (j + (encFields es).length) = .ok (writeAt mem (off + j) (encFields es), j)
  | [], _, mem, off, len, j, _, _ => by simp [marshalFields, encFields, writeAt_nil]
  | (k, v) :: es, h, mem, off, len, j, hl, hm => by
    have hv : ∀ {b : Nat}, b + (if v.isNil then [] else lenField 2 (encValue v)).length ≤ len →
        (if v.isNil then Res.ok (mem, b + (if v.isNil then [] else lenField 2 (encValue v)).length) else do
          let (mem, size) ← marshalValue v mem off (b + (if v.isNil then [] else lenField 2 (encValue v)).length)
          pushHeader off len 0x12 size mem (b + (if v.isNil then [] else lenField 2 (encValue v)).length)) =
        .ok (writeAt mem (off + b) (if v.isNil then [] else lenField 2 (encValue v)), b) := by
      intro b hb
      rcases h.1 with rfl | hv
      · simp [PValue.isNil, writeAt_nil]
      · have hn : v.isNil = false := by cases v <;> first | rfl | exact hv.elim
        simp only [hn, Bool.false_eq_true, if_false, lenField_length (show 2 < 15 by omega)] at hb ⊢
        rw [← Nat.add_assoc b, ← Nat.add_assoc b, marshalValue_eq v hv (by omega), Res.bind_ok]
        dsimp only
        rw [pushHeader_done (by omega) (by omega), lenField_eq (by omega)]
        rfl
    simp only [encFields]
    simp only [encFields] at hl
    generalize (if v.isNil then [] else lenField 2 (encValue v)) = V at *
    rw [List.length_append] at hl ⊢
    simp only [lenField_length (show 1 < 15 by omega), List.length_append] at hl ⊢
    generalize hI : 1 + (varint k.length).length + k.length + V.length = I at *
    have e0 : j + ((encFields es).length + (1 + (varint I).length + I)) = j + (encFields es).length + 1 + (varint I).length + 1 + (varint k.length).length + k.length + V.length := by omega
    rw [e0, marshalFields, hv (by omega), Res.bind_ok]
    dsimp only
    have l1 : (writeAt mem (off + (j + (encFields es).length + 1 + (varint I).length + 1 + (varint k.length).length + k.length)) V).length = mem.length := writeAt_length (by omega)
    rw [pushBytes_eq (by omega) (by omega), Res.bind_ok, writeAt_prepend' (by omega) (by omega)]
    dsimp only
    rw [encodeVarint_eq (by omega) (by rw [writeAt_length (by simp; omega)]; omega), Res.bind_ok, writeAt_prepend' (by omega) (by simp; omega)]
    dsimp only
    rw [pushByte_eq (by omega) (by rw [writeAt_length (by simp; omega)]; omega), Res.bind_ok, writeAt_prepend' (by simp; omega) (by simp; omega)]
    dsimp only
    have e1 : j + (encFields es).length + 1 + (varint I).length + 1 + (varint k.length).length + k.length + V.length - (j + (encFields es).length + 1 + (varint I).length) = I := by omega
    rw [e1, encodeVarint_eq (by omega) (by rw [writeAt_length (by simp; omega)]; omega), Res.bind_ok, writeAt_prepend' (by omega) (by simp; omega)]
    dsimp only
    rw [pushByte_eq (by omega) (by rw [writeAt_length (by simp; omega)]; omega), Res.bind_ok, writeAt_prepend' (by simp; omega) (by simp; omega)]
    dsimp only
    rw [marshalFields_eq es h.2 (by omega) (by rw [writeAt_length (by simp; omega)]; omega), writeAt_prepend' (by omega) (by simp; omega)]
    congr 3
    rw [lenField_eq (by omega), lenField_eq (by omega)]
    have hI' : 1 + ((varint k.length).length + (k.length + V.length)) = I := by omega
    simp only [List.length_append, List.length_singleton, List.append_assoc, hI']
    rfl
end

theorem marshalLog_eq {l : PLog} (hn : l ≠ .nil) (h : ∀ fs w u, l = .mk (.mk fs w) u → NoNilFields fs) {mem : Bytes} {off a : Nat} (hm : off + (a + (encLog l).length) ≤ mem.length) :
    marshalLog l mem off (a + (encLog l).length) = .ok (writeAt mem (off + a) (encLog l), (encLog l).length) := by
  match l with
  | .nil => exact absurd rfl hn
  | .mk .nil u =>
    simp only [encLog] at hm ⊢
    rw [marshalLog, pushBytes_eq (by omega) (by omega), Res.bind_ok]
    simp only [PObject.isNil, if_true, Res.bind_ok]
    congr 2
    omega
  | .mk (.mk fs w) u =>
    simp only [encLog, List.length_append, lenField_length (show 1 < 15 by omega)] at hm ⊢
    rw [marshalLog, ← Nat.add_assoc, pushBytes_eq (by omega) (by omega), Res.bind_ok]
    simp only [PObject.isNil, Bool.false_eq_true, if_false]
    generalize hc : (varint ((encFields fs).length + w.length)).length = c at *
    have l1 : (writeAt mem (off + (a + (1 + c + ((encFields fs).length + w.length)))) u).length = mem.length := writeAt_length (by omega)
    have hobj : marshalObject (.mk fs w) (writeAt mem (off + (a + (1 + c + ((encFields fs).length + w.length)))) u) off (a + (1 + c + ((encFields fs).length + w.length))) =
        .ok (writeAt (writeAt mem (off + (a + (1 + c + ((encFields fs).length + w.length)))) u) (off + (a + 1 + c)) (encFields fs ++ w), (encFields fs ++ w).length) := by
      have e : a + (1 + c + ((encFields fs).length + w.length)) = a + 1 + c + (encFields fs).length + w.length := by omega
      rw [e] at l1 ⊢
      rw [marshalObject, pushBytes_eq (by omega) (by omega), Res.bind_ok]
      dsimp only
      rw [marshalFields_eq fs (h fs w u rfl) (by omega) (by rw [writeAt_length (by omega)]; omega), Res.bind_ok, writeAt_prepend' (by omega) (by omega)]
      dsimp only
      congr 2
      rw [List.length_append]
      omega
    rw [hobj, Res.bind_ok]
    dsimp only
    have hh := pushHeader_done (mem := writeAt mem (off + (a + (1 + c + ((encFields fs).length + w.length)))) u) (off := off) (len := a + (1 + c + ((encFields fs).length + w.length)) + u.length)
      (j := a) (t := 0xa) (c := encFields fs ++ w) (by simp only [List.length_append, hc]; omega) (by omega)
    simp only [List.length_append, hc] at hh
    have e2 : a + (1 + c + ((encFields fs).length + w.length)) = a + 1 + c + ((encFields fs).length + w.length) := by omega
    rw [← e2] at hh
    rw [List.length_append, hh, Res.bind_ok]
    dsimp only
    rw [writeAt_prepend' (by simp [hc]; omega) (by simp [hc]; omega), lenField_eq (by omega)]
    congr 2
    · simp
    · omega

theorem marshal_eq {m : PWrapper} (h : NoNil m) : marshal m = .ok (encWrapper m) := by
  have key : marshalWrapper m (List.replicate (encWrapper m).length 0) 0 (encWrapper m).length = .ok (encWrapper m, (encWrapper m).length) := by
    generalize hmem : List.replicate (encWrapper m).length (0 : UInt8) = mem
    have hl : mem.length = (encWrapper m).length := by rw [← hmem]; simp
    have hfull : ∀ bs : Bytes, bs.length = mem.length → writeAt mem 0 bs = bs := by
      intro bs hbs
      simp [writeAt, hbs]
    match m with
    | ⟨none, u⟩ =>
      simp only [encWrapper] at *
      have := pushBytes_eq (mem := mem) (off := 0) (len := u.length) (j := 0) (src := u) (by omega) (by omega)
      rw [Nat.zero_add] at this
      rw [marshalWrapper, this, Res.bind_ok]
      simp [hfull u (by omega)]
    | ⟨some .nil, u⟩ =>
      simp only [encWrapper] at *
      have := pushBytes_eq (mem := mem) (off := 0) (len := u.length) (j := 0) (src := u) (by omega) (by omega)
      rw [Nat.zero_add] at this
      rw [marshalWrapper, this, Res.bind_ok]
      simp [hfull u (by omega), sizeLogField, marshalLogField, PLog.isNil]
    | ⟨some (.mk o w), u⟩ =>
      have e0 : encWrapper ⟨some (.mk o w), u⟩ = lenField 1 (encLog (.mk o w)) ++ u := rfl
      have hno : ∀ fs w' u', PLog.mk o w = .mk (.mk fs w') u' → NoNilFields fs := by
        rintro fs w' u' ⟨⟩
        exact h
      have hnil : PLog.mk o w ≠ .nil := by simp
      have hlf : sizeLogField (.mk o w) = 1 + (varint (encLog (.mk o w)).length).length + (encLog (.mk o w)).length := by
        simp only [sizeLogField, PLog.isNil, Bool.false_eq_true, if_false, sizeLog_eq, sov_eq]; omega
      have hmf : ∀ mem off len, marshalLogField (.mk o w) mem off len = (do
          let (mem, size) ← marshalLog (.mk o w) mem off len
          let (mem, _) ← pushHeader off len 0xa size mem len
          .ok mem) := fun _ _ _ => rfl
      rw [e0] at hl ⊢
      clear h e0 hmem
      generalize PLog.mk o w = l at *
      have hlen := lenField_length (show 1 < 15 by omega) (encLog l)
      rw [List.length_append, hlen] at hl ⊢
      have hlen' : lenField 1 (encLog l) = [0xa] ++ varint (encLog l).length ++ encLog l := lenField_eq (by omega) _
      rw [marshalWrapper]
      dsimp only
      rw [pushBytes_eq (by omega) (by omega), Res.bind_ok]
      dsimp only
      have l1 : (writeAt mem (0 + (1 + (varint (encLog l).length).length + (encLog l).length)) u).length = mem.length := writeAt_length (by omega)
      rw [hlf, if_neg (by omega), Nat.sub_self, hmf, marshalLog_eq hnil hno (by omega), Res.bind_ok]
      dsimp only
      rw [headerKind_eq (by omega), Res.bind_ok, ← hlen', writeAt_prepend' (by omega) (by omega), hfull _ (by rw [List.length_append]; omega)]
      rfl
  simp only [marshal, sizeWrapper_eq]
  rw [key, Res.bind_ok]
  simp

end Sawmill.Wire
