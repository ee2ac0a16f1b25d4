import Verif.Spec.WireText
import Verif.Lemmas.WireRound
import Verif.Lemmas.WireConcat
/-!
# The decoder reads the grammar of `Spec/WireText`: varints, keys, lengths and skipped fields
-/

namespace Sawmill.Wire.Text

theorem bv_groups (w shift b g : Nat) :
    BitVec.ofNat w (b % 128) <<< shift ||| BitVec.ofNat w g <<< (shift + 7) = BitVec.ofNat w (b % 128 + 128 * g) <<< shift := by
  have h := bv_split w (b % 128 + 128 * g) shift
  rw [show (b % 128 + 128 * g) % 128 = b % 128 by omega, show (b % 128 + 128 * g) / 128 = g by omega] at h
  exact h

theorem groups_single (b : UInt8) (h : b.toNat < 128) : groups [b] = b.toNat := by simp only [groups]; omega

/-- The bytes of a varint which begins at the given shift. -/
def VarintAt (shift : Nat) (t : Bytes) : Prop := ∃ init last, t = init ++ [last] ∧ (∀ b ∈ init, 128 ≤ b.toNat) ∧ last.toNat < 128 ∧ shift + 7 * t.length ≤ 70

theorem varintAt_zero {t : Bytes} : VarintAt 0 t ↔ Varint t := by
  simp only [VarintAt, Varint]
  constructor <;> rintro ⟨a, b, h1, h2, h3, h4⟩ <;> exact ⟨a, b, h1, h2, h3, by omega⟩

theorem varintAt_cons_lt {shift : Nat} {b : UInt8} (h : b.toNat < 128) (hs : shift < 64) : VarintAt shift [b] := ⟨[], b, rfl, by simp, h, by simp; omega⟩

theorem varintAt_cons_ge {shift : Nat} {b : UInt8} {t : Bytes} (h : 128 ≤ b.toNat) (ht : VarintAt (shift + 7) t) : VarintAt shift (b :: t) := by
  obtain ⟨init, last, rfl, h1, h2, h3⟩ := ht
  refine ⟨b :: init, last, rfl, ?_, h2, ?_⟩
  · intro x hx
    rcases List.mem_cons.1 hx with rfl | hx
    · exact h
    · exact h1 x hx
  · simp only [List.length_cons, List.length_append, List.length_nil] at *; omega

theorem varintAt_cases {shift : Nat} {t : Bytes} (h : VarintAt shift t) :
    (∃ b : UInt8, t = [b] ∧ b.toNat < 128 ∧ shift ≤ 63) ∨ ∃ (b : UInt8) (t' : Bytes), t = b :: t' ∧ 128 ≤ b.toNat ∧ VarintAt (shift + 7) t' ∧ shift ≤ 63 := by
  obtain ⟨init, last, rfl, h1, h2, h3⟩ := h
  cases init with
  | nil => exact .inl ⟨last, rfl, h2, by simp at h3; omega⟩
  | cons b init =>
    simp only [List.cons_append, List.length_cons, List.length_append, List.length_nil] at h3
    exact .inr ⟨b, init ++ [last], rfl, h1 b (by simp), ⟨init, last, rfl, fun x hx => h1 x (by simp [hx]), h2, by simp; omega⟩, by omega⟩

theorem rd_mid {pre : Bytes} {b : UInt8} {post : Bytes} : rd (pre ++ b :: post) pre.length = .ok b := by
  have := @rd_at pre post b
  simpa using this

theorem varintLoop_sound (w : Nat) : ∀ (fuel shift : Nat) (pre s : Bytes) (acc : BitVec w) {v : BitVec w} {j : Int},
    varintLoop w (pre ++ s) fuel shift pre.length acc = .ok (v, j) →
    ∃ t rest, s = t ++ rest ∧ VarintAt shift t ∧ v = acc ||| BitVec.ofNat w (groups t) <<< shift ∧ j = ((pre.length + t.length : Nat) : Int)
  | 0, _, _, _, _, _, _, h => by simp [varintLoop] at h
  | fuel + 1, shift, pre, s, acc, v, j, h => by
    simp only [varintLoop] at h
    split at h
    · simp at h
    rename_i hs
    split at h
    · simp at h
    rename_i hl
    cases s with
    | nil => simp [dlen] at hl
    | cons b s =>
      rw [rd_mid] at h
      dsimp only at h
      split at h
      · rename_i hb
        simp only [UOut.ok.injEq, Prod.mk.injEq] at h
        refine ⟨[b], s, rfl, varintAt_cons_lt hb (by omega), ?_, ?_⟩
        · rw [groups_single b hb, ← h.1, Nat.mod_eq_of_lt hb]
        · rw [← h.2]; simp
      · rename_i hb
        have h' : varintLoop w ((pre ++ [b]) ++ s) fuel (shift + 7) ((pre ++ [b]).length : Int) (acc ||| BitVec.ofNat w (b.toNat % 128) <<< shift) = .ok (v, j) := by
          simpa using h
        obtain ⟨t, rest, rfl, ht, hv, hj⟩ := varintLoop_sound w fuel (shift + 7) (pre ++ [b]) s _ h'
        refine ⟨b :: t, rest, rfl, varintAt_cons_ge (by omega) ht, ?_, ?_⟩
        · rw [hv, BitVec.or_assoc, bv_groups]; rfl
        · rw [hj]; simp; omega

theorem varintLoop_complete (w : Nat) : ∀ (fuel shift : Nat) (pre t rest : Bytes) (acc : BitVec w), VarintAt shift t → 70 < shift + 7 * fuel →
    varintLoop w (pre ++ (t ++ rest)) fuel shift pre.length acc = .ok (acc ||| BitVec.ofNat w (groups t) <<< shift, ((pre.length + t.length : Nat) : Int))
  | 0, shift, _, _, _, _, h, hf => by
    rcases varintAt_cases h with ⟨_, _, _, h⟩ | ⟨_, _, _, _, _, h⟩ <;> omega
  | fuel + 1, shift, pre, t, rest, acc, h, hf => by
    rcases varintAt_cases h with ⟨b, rfl, hb, hs⟩ | ⟨b, t, rfl, hb, ht, hs⟩
    · simp only [varintLoop]
      rw [if_neg (by omega), if_neg (by simp [dlen]; omega)]
      simp only [List.cons_append, List.nil_append]
      rw [rd_mid]
      dsimp only
      rw [if_pos hb, groups_single b hb, Nat.mod_eq_of_lt hb]
      simp
    · simp only [varintLoop]
      rw [if_neg (by omega), if_neg (by simp [dlen]; omega)]
      simp only [List.cons_append]
      rw [rd_mid]
      dsimp only
      rw [if_neg (by omega)]
      have := varintLoop_complete w fuel (shift + 7) (pre ++ [b]) t rest (acc ||| BitVec.ofNat w (b.toNat % 128) <<< shift) ht (by omega)
      rw [BitVec.or_assoc, bv_groups] at this
      simp only [List.append_assoc, List.cons_append, List.nil_append, List.length_append, List.length_singleton, Int.natCast_add] at this
      simp only [Int.natCast_one] at this
      rw [this]
      simp only [groups, List.length_cons]
      congr 2
      omega

theorem readVarint_sound {w : Nat} {pre s : Bytes} {v : BitVec w} {j : Int} (h : readVarint w (pre ++ s) pre.length = .ok (v, j)) :
    ∃ t rest, s = t ++ rest ∧ Varint t ∧ v = BitVec.ofNat w (groups t) ∧ j = ((pre ++ t).length : Nat) := by
  obtain ⟨t, rest, h1, h2, h3, h4⟩ := varintLoop_sound w 11 0 pre s 0 h
  exact ⟨t, rest, h1, varintAt_zero.1 h2, by rw [h3]; simp, by rw [h4]; simp⟩

theorem readVarint_complete {w : Nat} {pre t rest : Bytes} (ht : Varint t) :
    readVarint w (pre ++ (t ++ rest)) pre.length = .ok (BitVec.ofNat w (groups t), ((pre ++ t).length : Nat)) := by
  rw [readVarint, varintLoop_complete w 11 0 pre t rest 0 (varintAt_zero.2 ht) (by omega)]
  simp

theorem varint_pos {t : Bytes} (h : Varint t) : 0 < t.length := by
  obtain ⟨init, last, rfl, _⟩ := h; simp

/-! ## Keys -/

theorem toNat_groups (g : Nat) : (BitVec.ofNat 64 g).toNat = g % 2 ^ 64 := by simp

theorem fieldNumber_eq (g : Nat) : fieldNumber (BitVec.ofNat 64 g) = ((g % 2 ^ 64 / 8 % 2 ^ 32 : Nat) : Int) - (if g % 2 ^ 64 / 8 % 2 ^ 32 < 2 ^ 31 then 0 else 2 ^ 32) := by
  have h2 : ((BitVec.ofNat 64 g >>> 3).setWidth 32).toNat = g % 2 ^ 64 / 8 % 2 ^ 32 := by
    rw [BitVec.toNat_setWidth, BitVec.toNat_ushiftRight, toNat_groups, Nat.shiftRight_eq_div_pow]
  rw [fieldNumber, BitVec.toInt_eq_toNat_cond, h2]
  split <;> split <;> omega

theorem key_of_varint {t : Bytes} (h : Varint t) : Key (groups t % 2 ^ 64 / 8 % 2 ^ 32) (groups t % 2 ^ 64 % 8) t := ⟨_, ⟨h, rfl⟩, rfl, rfl⟩

theorem key_num {num wt : Nat} {t : Bytes} (h : Key num wt t) (hl : Legal num) : fieldNumber (BitVec.ofNat 64 (groups t)) = num := by
  obtain ⟨n, ⟨_, rfl⟩, rfl, _⟩ := h
  rw [fieldNumber_eq, if_pos hl.2]; omega

theorem key_num_iff {num wt : Nat} {t : Bytes} (h : Key num wt t) {m : Nat} (hm : m < 2 ^ 31) : fieldNumber (BitVec.ofNat 64 (groups t)) = m ↔ num = m := by
  obtain ⟨n, ⟨_, rfl⟩, rfl, _⟩ := h
  rw [fieldNumber_eq]
  split <;> omega

theorem key_one {num wt : Nat} {t : Bytes} (h : Key num wt t) : fieldNumber (BitVec.ofNat 64 (groups t)) = 1 ↔ num = 1 := key_num_iff h (m := 1) (by omega)
theorem key_two {num wt : Nat} {t : Bytes} (h : Key num wt t) : fieldNumber (BitVec.ofNat 64 (groups t)) = 2 ↔ num = 2 := key_num_iff h (m := 2) (by omega)

theorem key_legal {num wt : Nat} {t : Bytes} (h : Key num wt t) : 0 < fieldNumber (BitVec.ofNat 64 (groups t)) ↔ Legal num := by
  obtain ⟨n, ⟨_, rfl⟩, rfl, _⟩ := h
  rw [fieldNumber_eq, Legal]
  split <;> omega

theorem key_wt {num wt : Nat} {t : Bytes} (h : Key num wt t) : (BitVec.ofNat 64 (groups t)).toNat % 8 = wt := by
  obtain ⟨n, ⟨_, rfl⟩, _, rfl⟩ := h
  rw [toNat_groups]

theorem Key.varint {num wt : Nat} {t : Bytes} (h : Key num wt t) : Varint t := by obtain ⟨n, ⟨h, _⟩, _⟩ := h; exact h

theorem Key.pos {num wt : Nat} {t : Bytes} (h : Key num wt t) : 0 < t.length := varint_pos h.varint

/-- The key read is the key. -/
theorem key_unique {num wt num' wt' : Nat} {t t' rest rest' : Bytes} (h : Key num wt t) (h' : Key num' wt' t') (he : t ++ rest = t' ++ rest') : num = num' ∧ wt = wt' ∧ t = t' := by
  have h1 := readVarint_complete (w := 64) (pre := []) (rest := rest) h.varint
  have h2 := readVarint_complete (w := 64) (pre := []) (rest := rest') h'.varint
  simp only [List.nil_append] at h1 h2
  rw [he, h2] at h1
  simp only [UOut.ok.injEq, Prod.mk.injEq] at h1
  have hl : t.length = t'.length := by omega
  have := (List.append_inj he hl).1
  subst this
  obtain ⟨n, ⟨_, rfl⟩, rfl, rfl⟩ := h
  obtain ⟨n, ⟨_, rfl⟩, rfl, rfl⟩ := h'
  exact ⟨rfl, rfl, rfl⟩

/-! ## Lengths -/

theorem Small.right {a b : Bytes} (h : Small (a ++ b)) : Small b := h.mono (by simp)

theorem toInt_small {n : Nat} {g : Nat} (h : n = g % 2 ^ 64) (hn : n < 2 ^ 63) : (BitVec.ofNat 64 g).toInt = n := by
  rw [BitVec.toInt_eq_toNat_of_lt (by rw [toNat_groups]; omega), toNat_groups, h]

theorem toInt_nonneg {g : Nat} (h : ¬ (BitVec.ofNat 64 g).toInt < 0) : (BitVec.ofNat 64 g).toInt = ((g % 2 ^ 64 : Nat) : Int) ∧ g % 2 ^ 64 < 2 ^ 63 := by
  rw [BitVec.toInt_eq_toNat_cond, toNat_groups] at *
  split at h
  · split <;> omega
  · omega

theorem readLength_sound {pre s : Bytes} (hs : Small (pre ++ s)) {a b : Int} (h : readLength (pre ++ s) pre.length = .ok (a, b)) :
    ∃ v c rest, s = v ++ c ++ rest ∧ Number c.length v ∧ a = ((pre ++ v).length : Nat) ∧ b = ((pre ++ v ++ c).length : Nat) := by
  simp only [readLength] at h
  obtain ⟨⟨m, i⟩, h1, h⟩ := ubind_eq_ok.1 h
  obtain ⟨v, rest, rfl, hv, rfl, rfl⟩ := readVarint_sound h1
  dsimp only at h
  split at h
  · simp at h
  rename_i hneg
  obtain ⟨hi, hlt⟩ := toInt_nonneg hneg
  rw [hi] at h
  split at h
  · simp at h
  rename_i hw
  split at h
  · simp at h
  rename_i hlim
  simp only [UOut.ok.injEq, Prod.mk.injEq] at h
  obtain ⟨rfl, rfl⟩ := h
  simp only [Small, dlen, List.length_append, Int.natCast_add] at *
  rw [wrap64_nonneg (by omega) (by omega) (by omega)] at *
  refine ⟨v, rest.take (groups v % 2 ^ 64), rest.drop (groups v % 2 ^ 64), by simp, ⟨hv, by simp; omega⟩, rfl, ?_⟩
  rw [List.length_take]
  omega

theorem readLength_complete {pre v c rest : Bytes} (hs : Small (pre ++ (v ++ c ++ rest))) (h : Number c.length v) :
    readLength (pre ++ (v ++ c ++ rest)) pre.length = .ok (((pre ++ v).length : Nat), ((pre ++ v ++ c).length : Nat)) := by
  simp only [readLength]
  rw [List.append_assoc v c rest, readVarint_complete h.1, ubind_ok]
  dsimp only
  simp only [Small, dlen, List.length_append, Int.natCast_add] at *
  rw [toInt_small h.2 (by omega), if_neg (by omega), wrap64_lo (by omega) (by omega), if_neg (by omega), if_neg (by omega)]

theorem slice_len {pre v c rest : Bytes} : slice (pre ++ (v ++ c ++ rest)) ((pre ++ v).length : Nat) ((pre ++ v ++ c).length : Nat) = .ok c := by
  have := @slice_mid (pre ++ v) c rest
  simpa [Nat.add_assoc] using this

/-! ## Skipped fields -/

/-- A number of groups that are still open. -/
inductive Bodies : Nat → Bytes → Prop where
  | nil : Bodies 0 []
  | cons {k : Nat} {a b : Bytes} : Members a → Bodies k b → Bodies (k + 1) (a ++ b)

theorem Bodies.field {k num : Nat} {f b : Bytes} (hf : Extent num f) (h : Bodies (k + 1) b) : Bodies (k + 1) (f ++ b) := by
  cases h with
  | cons ha hb => rw [← List.append_assoc]; exact .cons (.field hf ha) hb

theorem Extent.pos {num : Nat} {f : Bytes} (h : Extent num f) : 0 < f.length := by
  cases h with
  | varint h _ => have := h.pos; simp; omega
  | fixed64 h _ => have := h.pos; simp; omega
  | bytes h _ => have := h.pos; simp; omega
  | group h _ => have := h.pos; simp; omega
  | fixed32 h _ => have := h.pos; simp; omega

theorem Extent.head {num : Nat} {f : Bytes} (h : Extent num f) : ∃ wt t rest, Key num wt t ∧ f = t ++ rest ∧ wt ≠ 4 := by
  cases h with
  | varint h _ => exact ⟨_, _, _, h, rfl, by omega⟩
  | fixed64 h _ => exact ⟨_, _, _, h, rfl, by omega⟩
  | bytes h _ => exact ⟨_, _, _, h, rfl, by omega⟩
  | group h _ => exact ⟨_, _, _, h, rfl, by omega⟩
  | fixed32 h _ => exact ⟨_, _, _, h, rfl, by omega⟩

theorem Extent.num_unique {num num' wt : Nat} {f t rest rest' : Bytes} (h : Extent num f) (hk : Key num' wt t) (he : t ++ rest = f ++ rest') : num = num' := by
  obtain ⟨wt', t', r, hk', rfl, _⟩ := h.head
  rw [List.append_assoc] at he
  exact (key_unique hk hk' he).1.symm

/-- What one pass of the loop reads: a whole field, or one end of a group. -/
theorem skipLoop_sound {d : Bytes} (hd : Small d) : ∀ (n : Nat) (pre s : Bytes) (depth : Nat) {j : Int}, d = pre ++ s →
    skipLoop d n pre.length depth = .ok j → j ≤ dlen d →
    ∃ t rest, s = t ++ rest ∧ j = ((pre ++ t).length : Nat) ∧ ((depth = 0 ∧ ∃ num, Extent num t) ∨ (0 < depth ∧ Bodies depth t))
  | 0, _, _, _, _, _, h, _ => by simp [skipLoop] at h
  | n + 1, pre, s, depth, j, hds, h, hj => by
    subst hds
    simp only [skipLoop] at h
    split at h
    case isFalse => simp at h
    replace h := ubind_eq_ok.1 h
    obtain ⟨⟨wire, a⟩, h1, h⟩ := h
    obtain ⟨t, s, rfl, ht, rfl, rfl⟩ := readVarint_sound h1
    replace h := ubind_eq_ok.1 h
    obtain ⟨⟨b, dp⟩, h2, h⟩ := h
    dsimp only at h h2
    have hk := key_of_varint ht
    rw [key_wt hk] at h2
    generalize groups t % 2 ^ 64 / 8 % 2 ^ 32 = num at hk
    generalize groups t % 2 ^ 64 % 8 = wt at hk h2
    have hpre : pre ++ (t ++ s) = (pre ++ t) ++ s := by simp
    split at h
    · simp at h
    rename_i hb0
    have hbj : b ≤ j := by
      split at h
      · simp only [UOut.ok.injEq] at h; omega
      · exact Int.le_of_lt (skipLoop_take hd (s := j.toNat) n dp (by omega) (by
          have := (skipLoop_take hd (s := (pre ++ (t ++ s)).length) n dp (by omega) hj h).2
          omega) h).2
    -- a field that leaves the depth as it is
    have whole : ∀ (c rest : Bytes), s = c ++ rest → b = ((pre ++ t ++ c).length : Nat) → dp = depth → Extent num (t ++ c) →
        ∃ t' rest', t ++ s = t' ++ rest' ∧ j = ((pre ++ t').length : Nat) ∧ ((depth = 0 ∧ ∃ num, Extent num t') ∨ (0 < depth ∧ Bodies depth t')) := by
      rintro c rest rfl rfl rfl hx
      split at h
      · rename_i hd0
        simp only [UOut.ok.injEq] at h
        exact ⟨t ++ c, rest, by simp, by rw [← h]; simp, .inl ⟨hd0, num, hx⟩⟩
      · rename_i hd0
        obtain ⟨t', rest', rfl, hj', hor⟩ := skipLoop_sound hd n (pre ++ t ++ c) rest dp (by simp) h hj
        rcases hor with ⟨h0, _⟩ | ⟨h0, hbod⟩
        · exact absurd h0 hd0
        · obtain ⟨k, rfl⟩ : ∃ k, dp = k + 1 := ⟨dp - 1, by omega⟩
          exact ⟨t ++ c ++ t', rest', by simp, by rw [hj']; simp, .inr ⟨h0, hbod.field hx⟩⟩
    -- fixed size
    have fixed : ∀ k : Nat, k ≤ 8 → b = wrap64 (((pre ++ t).length : Nat) + (k : Int)) → ∃ c rest, s = c ++ rest ∧ c.length = k ∧ b = ((pre ++ t ++ c).length : Nat) := by
      intro k hk8 hb
      simp only [Small, dlen] at hd hj
      have hlen : ((pre ++ (t ++ s)).length : Int) = ((pre ++ t).length : Int) + s.length := by simp; omega
      rw [wrap64_lo (by omega) (by omega)] at hb
      have hk' : k ≤ s.length := by omega
      refine ⟨s.take k, s.drop k, by simp, by simp; omega, ?_⟩
      rw [hb, List.length_append (as := pre ++ t), List.length_take]; omega
    unfold skipField at h2
    split at h2
    · obtain ⟨⟨v, i⟩, h3, h4⟩ := ubind_eq_ok.1 h2
      rw [hpre] at h3
      obtain ⟨v, rest, rfl, hv, rfl, rfl⟩ := readVarint_sound h3
      simp only [UOut.ok.injEq, Prod.mk.injEq] at h4
      exact whole v rest rfl h4.1.symm h4.2.symm (.varint hk hv)
    · simp only [UOut.ok.injEq, Prod.mk.injEq] at h2
      obtain ⟨c, rest, rfl, hc, hb⟩ := fixed 8 (by omega) h2.1.symm
      exact whole c rest rfl hb h2.2.symm (.fixed64 hk hc)
    · obtain ⟨⟨v, i⟩, h3, h4⟩ := ubind_eq_ok.1 h2
      rw [hpre] at h3
      obtain ⟨v, rest, rfl, hv, rfl, rfl⟩ := readVarint_sound h3
      dsimp only at h4
      split at h4
      · simp at h4
      rename_i hneg
      obtain ⟨hi, hlt⟩ := toInt_nonneg hneg
      rw [hi] at h4
      simp only [UOut.ok.injEq, Prod.mk.injEq] at h4
      simp only [Small, dlen] at hd hj
      have hlen : ((pre ++ (t ++ (v ++ rest))).length : Int) = ((pre ++ t ++ v).length : Int) + rest.length := by simp; omega
      rw [wrap64_nonneg (by omega) (by omega) (by omega)] at h4
      have hk' : groups v % 2 ^ 64 ≤ rest.length := by omega
      refine whole (v ++ rest.take (groups v % 2 ^ 64)) (rest.drop (groups v % 2 ^ 64)) (by simp) ?_ h4.2.symm (.bytes hk ⟨v, ⟨hv, ?_⟩, rfl⟩)
      · rw [← h4.1, ← List.append_assoc, List.length_append (as := pre ++ t ++ v), List.length_take]; omega
      · rw [List.length_take]; omega
    · simp only [UOut.ok.injEq, Prod.mk.injEq] at h2
      obtain ⟨rfl, rfl⟩ := h2
      rw [if_neg (by omega)] at h
      obtain ⟨t', rest', rfl, hj', hor⟩ := skipLoop_sound hd n (pre ++ t) s (depth + 1) (by simp) h hj
      rcases hor with ⟨h0, _⟩ | ⟨_, hbod⟩
      · omega
      · cases hbod with
        | @cons _ a b ha hb =>
          cases depth with
          | zero =>
            cases hb
            exact ⟨t ++ a, rest', by simp, by rw [hj']; simp, .inl ⟨rfl, num, .group hk ha⟩⟩
          | succ k => exact ⟨t ++ a ++ b, rest', by simp, by rw [hj']; simp, .inr ⟨by omega, hb.field (.group hk ha)⟩⟩
    · split at h2
      · simp at h2
      rename_i hd0
      simp only [UOut.ok.injEq, Prod.mk.injEq] at h2
      obtain ⟨rfl, rfl⟩ := h2
      obtain ⟨k, rfl⟩ : ∃ k, depth = k + 1 := ⟨depth - 1, by omega⟩
      simp only [Nat.add_sub_cancel] at h
      split at h
      · rename_i hk0
        subst hk0
        simp only [UOut.ok.injEq] at h
        refine ⟨t, s, rfl, h.symm, .inr ⟨by omega, ?_⟩⟩
        have := Bodies.cons (.close hk) .nil
        rwa [List.append_nil] at this
      · rename_i hk0
        obtain ⟨t', rest', rfl, hj', hor⟩ := skipLoop_sound hd n (pre ++ t) s k (by simp) h hj
        rcases hor with ⟨h0, _⟩ | ⟨_, hbod⟩
        · exact absurd h0 hk0
        · exact ⟨t ++ t', rest', by simp, by rw [hj']; simp, .inr ⟨by omega, .cons (.close hk) hbod⟩⟩
    · simp only [UOut.ok.injEq, Prod.mk.injEq] at h2
      obtain ⟨c, rest, rfl, hc, hb⟩ := fixed 4 (by omega) h2.1.symm
      exact whole c rest rfl hb h2.2.symm (.fixed32 hk hc)
    · simp at h2

/-- With enough fuel, the loop of the skipper started at `i` gives `r`. -/
def SkipL (d : Bytes) (i : Int) (depth : Nat) (r : UOut Int) : Prop := ∀ n : Nat, dlen d + 1 ≤ i + n → skipLoop d n i depth = r

theorem skip_step {pre t s : Bytes} {num wt depth dp : Nat} {r : UOut Int} {e : Int} (hk : Key num wt t)
    (hf : skipField (pre ++ (t ++ s)) wt ((pre ++ t).length : Nat) depth = .ok (e, dp)) (he : ((pre ++ t).length : Int) ≤ e)
    (h0 : dp = 0 → r = .ok e) (h1 : dp ≠ 0 → SkipL (pre ++ (t ++ s)) e dp r) : SkipL (pre ++ (t ++ s)) pre.length depth r := by
  intro n hn
  have hp := hk.pos
  have hlen : (pre ++ t).length = pre.length + t.length := by simp
  obtain ⟨n, rfl⟩ : ∃ k, n = k + 1 := ⟨n - 1, by simp only [dlen, List.length_append] at hn; omega⟩
  simp only [skipLoop]
  rw [if_pos (by simp only [dlen, List.length_append]; omega), readVarint_complete hk.varint, ubind_ok]
  dsimp only
  rw [key_wt hk, hf, ubind_ok]
  dsimp only
  rw [if_neg (by omega)]
  by_cases hd : dp = 0
  · rw [if_pos hd, h0 hd]
  · rw [if_neg hd]
    exact h1 hd n (by omega)

mutual
theorem extent_skips {num : Nat} {f : Bytes} (h : Extent num f) {pre rest : Bytes} {depth : Nat} {r : UOut Int} (hs : Small (pre ++ (f ++ rest)))
    (h0 : depth = 0 → r = .ok ((pre ++ f).length : Nat)) (h1 : depth ≠ 0 → SkipL (pre ++ (f ++ rest)) ((pre ++ f).length : Nat) depth r) :
    SkipL (pre ++ (f ++ rest)) pre.length depth r := by
  match h with
  | .varint (t := t) (v := v) hk hv =>
    rw [List.append_assoc t v rest] at *
    rw [← List.append_assoc pre t v] at *
    refine skip_step hk ?_ ?_ h0 h1
    · simp only [skipField]
      rw [← List.append_assoc pre t (v ++ rest), readVarint_complete hv]; rfl
    · simp only [List.length_append (as := pre ++ t)]; omega
  | .fixed64 (t := t) (c := c) hk hc =>
    rw [List.append_assoc t c rest] at *
    rw [← List.append_assoc pre t c] at *
    simp only [Small, dlen, List.length_append, Int.natCast_add] at hs
    refine skip_step hk ?_ ?_ h0 h1
    · simp only [skipField]
      rw [wrap64_lo (by omega) (by simp only [List.length_append, Int.natCast_add]; omega), List.length_append (as := pre ++ t), hc]; rfl
    · simp only [List.length_append (as := pre ++ t)]; omega
  | .fixed32 (t := t) (c := c) hk hc =>
    rw [List.append_assoc t c rest] at *
    rw [← List.append_assoc pre t c] at *
    simp only [Small, dlen, List.length_append, Int.natCast_add] at hs
    refine skip_step hk ?_ ?_ h0 h1
    · simp only [skipField]
      rw [wrap64_lo (by omega) (by simp only [List.length_append, Int.natCast_add]; omega), List.length_append (as := pre ++ t), hc]; rfl
    · simp only [List.length_append (as := pre ++ t)]; omega
  | .bytes (t := t) (c := c) (b := b) hk hb =>
    obtain ⟨v, hv, rfl⟩ := hb
    rw [List.append_assoc t (v ++ c) rest] at *
    rw [← List.append_assoc pre t (v ++ c)] at *
    simp only [Small, dlen, List.length_append, Int.natCast_add] at hs
    refine skip_step hk ?_ ?_ h0 h1
    · simp only [skipField]
      rw [← List.append_assoc pre t (v ++ c ++ rest), List.append_assoc v c rest, readVarint_complete hv.1, ubind_ok]
      dsimp only
      rw [toInt_small hv.2 (by omega), if_neg (by omega), wrap64_lo (by omega) (by simp only [List.length_append, Int.natCast_add]; omega)]
      simp only [List.length_append, Int.natCast_add]
      congr 2; omega
    · simp only [List.length_append (as := pre ++ t)]; omega
  | .group (t := t) (b := b) hk hb =>
    rw [List.append_assoc t b rest] at *
    rw [← List.append_assoc pre t b] at *
    refine skip_step hk (by simp only [skipField]; rfl) (by omega) (by omega) fun _ => ?_
    rw [← List.append_assoc pre t] at *
    exact members_skip hb hs h0 h1

theorem members_skip {b : Bytes} (h : Members b) {pre rest : Bytes} {k : Nat} {r : UOut Int} (hs : Small (pre ++ (b ++ rest)))
    (h0 : k = 0 → r = .ok ((pre ++ b).length : Nat)) (h1 : k ≠ 0 → SkipL (pre ++ (b ++ rest)) ((pre ++ b).length : Nat) k r) :
    SkipL (pre ++ (b ++ rest)) pre.length (k + 1) r := by
  match h with
  | .close hk =>
    exact skip_step hk (by simp only [skipField]; rw [if_neg (by omega)]; rfl) (by omega) h0 h1
  | .field (f := f) (b := b) hf hb =>
    rw [List.append_assoc f b rest] at *
    refine extent_skips hf hs (by omega) fun _ => ?_
    rw [← List.append_assoc pre f b] at *
    rw [← List.append_assoc pre f] at *
    exact members_skip hb hs h0 h1
end

theorem skipAt_sound {pre s : Bytes} (hs : Small (pre ++ s)) {limit k : Int} (hl : limit ≤ dlen (pre ++ s)) (h : skipAt (pre ++ s) pre.length limit = .ok k) :
    ∃ num f rest, s = f ++ rest ∧ Extent num f ∧ k = ((pre ++ f).length : Nat) ∧ k ≤ limit := by
  unfold skipAt at h
  have hlen : dlen (pre ++ s) = pre.length + s.length := by simp [dlen]
  rw [slice_ok (by omega) (by omega) (by omega), ubind_ok] at h
  have hfull : (pre ++ s).take (dlen (pre ++ s)).toNat = pre ++ s := List.take_of_length_le (by simp only [dlen]; omega)
  rw [hfull, Int.toNat_natCast, List.drop_left] at h
  obtain ⟨j, hj, h⟩ := ubind_eq_ok.1 h
  split at h
  · simp at h
  rename_i h0
  split at h
  · simp at h
  rename_i h1
  simp only [UOut.ok.injEq] at h
  have hs' := hs
  have hp := skipEvent_post (Small.right hs)
  rw [hj] at hp
  have hp : 0 < j ∧ j < 2 ^ 63 := hp
  simp only [Small] at hs
  rw [wrap64_nonneg (by omega) (by omega) (by omega)] at *
  obtain ⟨t, rest, rfl, rfl, hor⟩ := skipLoop_sound (Small.right hs') (n := s.length + 1) (pre := []) (s := s) (depth := 0) (by simp) (by simpa [skipEvent] using hj) (by simp only [dlen] at *; omega)
  rcases hor with ⟨_, num, hx⟩ | ⟨h, _⟩
  · exact ⟨num, t, rest, rfl, hx, by rw [← h]; simp, by omega⟩
  · omega

theorem skipAt_complete {pre f rest : Bytes} (hs : Small (pre ++ (f ++ rest))) {num : Nat} (hf : Extent num f) {limit : Int} (hl : ((pre ++ f).length : Int) ≤ limit) :
    skipAt (pre ++ (f ++ rest)) pre.length limit = .ok ((pre ++ f).length : Nat) := by
  have hlen : dlen (pre ++ (f ++ rest)) = pre.length + f.length + rest.length := by simp [dlen]; omega
  have hlf : (pre ++ f).length = pre.length + f.length := by simp
  unfold skipAt
  rw [slice_ok (by omega) (by omega) (by omega), ubind_ok]
  have hfull : List.take (dlen (pre ++ (f ++ rest))).toNat (pre ++ (f ++ rest)) = pre ++ (f ++ rest) := List.take_of_length_le (by simp only [dlen, Int.toNat_natCast]; omega)
  rw [hfull, Int.toNat_natCast, List.drop_left]
  have := extent_skips hf (pre := []) (rest := rest) (depth := 0) (r := .ok ((f.length : Nat) : Int)) (by simpa using Small.right hs) (by simp) (by simp)
  have := this ((f ++ rest).length + 1) (by simp [dlen])
  simp only [List.nil_append, List.length_nil] at this
  rw [skipEvent]
  rw [show skipLoop (f ++ rest) ((f ++ rest).length + 1) 0 0 = _ from this, ubind_ok]
  simp only [Small] at hs
  rw [wrap64_lo (by omega) (by omega), if_neg (by omega), if_neg (by omega)]
  congr 1; omega

end Sawmill.Wire.Text
