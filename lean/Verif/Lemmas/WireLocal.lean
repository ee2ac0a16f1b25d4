import Verif.Lemmas.WireBasic
/-!
# Locality: what the decoder does with a field depends on the bytes of the field only
-/

namespace Sawmill.Wire

theorem rd_local {u : Bytes} {i : Int} {b : UInt8} (h : rd u i = .ok b) (pre post : Bytes) : rd (pre ++ u ++ post) (pre.length + i) = .ok b := by
  simp only [rd] at *
  split at h
  · simp at h
  · rename_i hi
    rw [if_neg (by omega)]
    have : ((pre.length : Int) + i).toNat = pre.length + i.toNat := by omega
    rw [this, List.append_assoc, List.getElem?_append_right (by omega), Nat.add_sub_cancel_left]
    split at h
    · rename_i b' hb
      have hlt : i.toNat < u.length := by
        rcases Nat.lt_or_ge i.toNat u.length with h | h
        · exact h
        · rw [List.getElem?_eq_none h] at hb; simp at hb
      rw [List.getElem?_append_left hlt, hb]
      exact h
    · simp at h

theorem rd_bounds {u : Bytes} {i : Int} {b : UInt8} (h : rd u i = .ok b) : 0 ≤ i ∧ i < dlen u := by
  simp only [rd, dlen] at *
  split at h
  · simp at h
  · rename_i hi
    refine ⟨by omega, ?_⟩
    rcases Nat.lt_or_ge i.toNat u.length with h2 | h2
    · omega
    · rw [List.getElem?_eq_none h2] at h; simp at h

theorem dlen_append (a b : Bytes) : dlen (a ++ b) = dlen a + dlen b := by simp [dlen]

theorem varintLoop_local {w : Nat} {u : Bytes} (pre post : Bytes) : ∀ (n shift : Nat) {i : Int} (v : BitVec w) {r : BitVec w} {j : Int},
    varintLoop w u n shift i v = .ok (r, j) → varintLoop w (pre ++ u ++ post) n shift (pre.length + i) v = .ok (r, pre.length + j)
  | 0, _, _, _, _, _, h => by simp [varintLoop] at h
  | n + 1, shift, i, v, r, j, h => by
    simp only [varintLoop] at h ⊢
    split at h
    · simp at h
    · rename_i hs
      rw [if_neg hs]
      split at h
      · simp at h
      · rename_i hi
        split at h
        · rename_i b hb
          have hbd := rd_bounds hb
          rw [if_neg (by simp only [dlen, List.length_append] at *; omega), rd_local hb pre post]
          dsimp only
          split at h
          · rename_i hlt
            rw [if_pos hlt]
            simp only [UOut.ok.injEq, Prod.mk.injEq] at h ⊢
            exact ⟨h.1, by omega⟩
          · rename_i hlt
            rw [if_neg hlt]
            have := varintLoop_local pre post n (shift + 7) _ h
            rwa [← Int.add_assoc] at this
        all_goals simp at h

theorem readVarint_local {w : Nat} {u : Bytes} (pre post : Bytes) {i : Int} {r : BitVec w} {j : Int} (h : readVarint w u i = .ok (r, j)) :
    readVarint w (pre ++ u ++ post) (pre.length + i) = .ok (r, pre.length + j) := varintLoop_local pre post 11 0 _ h

theorem readVarint_right {w : Nat} {u : Bytes} (post : Bytes) {i : Int} {r : BitVec w} {j : Int} (h : readVarint w u i = .ok (r, j)) :
    readVarint w (u ++ post) i = .ok (r, j) := by
  simpa using readVarint_local [] post h

theorem rd_take {u : Bytes} {i : Int} {b : UInt8} {s : Nat} (h : rd u i = .ok b) (hs : i < s) : rd (u.take s) i = .ok b := by
  simp only [rd] at *
  split at h
  · simp at h
  · rename_i hi
    rw [if_neg hi, List.getElem?_take_of_lt (by omega)]
    exact h

theorem varintLoop_take {w : Nat} {u : Bytes} {s : Nat} : ∀ (n shift : Nat) {i : Int} (v : BitVec w) {r : BitVec w} {j : Int},
    varintLoop w u n shift i v = .ok (r, j) → j ≤ s → varintLoop w (u.take s) n shift i v = .ok (r, j) ∧ i < j
  | 0, _, _, _, _, _, h, _ => by simp [varintLoop] at h
  | n + 1, shift, i, v, r, j, h, hj => by
    simp only [varintLoop] at h ⊢
    split at h
    · simp at h
    · rename_i hs
      rw [if_neg hs]
      split at h
      · simp at h
      · rename_i hi
        split at h
        · rename_i b hb
          have hbd := rd_bounds hb
          split at h
          · rename_i hlt
            simp only [UOut.ok.injEq, Prod.mk.injEq] at h
            rw [if_neg (by simp only [dlen, List.length_take] at *; omega), rd_take hb (by omega)]
            dsimp only
            rw [if_pos hlt]
            exact ⟨by simp only [UOut.ok.injEq, Prod.mk.injEq]; exact h, by omega⟩
          · rename_i hlt
            have := varintLoop_take n (shift + 7) _ h hj
            rw [if_neg (by simp only [dlen, List.length_take] at *; omega), rd_take hb (by omega)]
            dsimp only
            rw [if_neg hlt]
            exact ⟨this.1, by omega⟩
        all_goals simp at h

theorem readVarint_take {w : Nat} {u : Bytes} {s : Nat} {i : Int} {r : BitVec w} {j : Int} (h : readVarint w u i = .ok (r, j)) (hj : j ≤ s) :
    readVarint w (u.take s) i = .ok (r, j) ∧ i < j := varintLoop_take 11 0 _ h hj

theorem readVarint_bounds {w : Nat} {u : Bytes} {i : Int} {r : BitVec w} {j : Int} (h0 : 0 ≤ i) (h1 : i ≤ dlen u) (h : readVarint w u i = .ok (r, j)) : i < j ∧ j ≤ dlen u := by
  have := readVarint_post w h0 h1
  rw [h] at this
  exact this

theorem skipField_local {u : Bytes} (post : Bytes) {wt : Nat} {i : Int} {depth : Nat} {r : Int × Nat} (h : skipField u wt i depth = .ok r) :
    skipField (u ++ post) wt i depth = .ok r := by
  unfold skipField at *
  split at h
  · obtain ⟨⟨v, j⟩, h1, h2⟩ := ubind_eq_ok.1 h
    rw [readVarint_right post h1]; exact h2
  · exact h
  · obtain ⟨⟨v, j⟩, h1, h2⟩ := ubind_eq_ok.1 h
    rw [readVarint_right post h1]; exact h2
  all_goals exact h

theorem skipLoop_local {u : Bytes} (post : Bytes) : ∀ (n k : Nat) {i : Int} (depth : Nat) {j : Int},
    skipLoop u n i depth = .ok j → skipLoop (u ++ post) (n + k) i depth = .ok j
  | 0, _, _, _, _, h => by simp [skipLoop] at h
  | n + 1, k, i, depth, j, h => by
    rw [Nat.add_right_comm]
    simp only [skipLoop] at h ⊢
    split at h
    · rename_i hi
      rw [if_pos (by rw [dlen_append]; simp only [dlen] at *; omega)]
      obtain ⟨⟨wire, a⟩, h1, h⟩ := ubind_eq_ok.1 h
      obtain ⟨⟨b, dp⟩, h2, h⟩ := ubind_eq_ok.1 h
      rw [readVarint_right post h1, ubind_ok]
      dsimp only
      rw [skipField_local post h2, ubind_ok]
      dsimp only at h ⊢
      split at h
      · simp at h
      · rename_i hb
        rw [if_neg hb]
        split at h
        · rename_i hd
          rw [if_pos hd]; exact h
        · rename_i hd
          rw [if_neg hd]
          exact skipLoop_local post n k dp h
    · simp at h

theorem skipEvent_local {u : Bytes} (post : Bytes) {j : Int} (h : skipEvent u = .ok j) : skipEvent (u ++ post) = .ok j := by
  have := skipLoop_local post _ post.length 0 h
  simp only [skipEvent, List.length_append]
  rw [Nat.add_right_comm]; exact this

theorem skipField_take {u : Bytes} (hu : Small u) {s : Nat} {wt : Nat} {i : Int} {depth : Nat} {r : Int × Nat} (h0 : 0 ≤ i) (h1 : i ≤ dlen u) (h : skipField u wt i depth = .ok r)
    (hr : 0 ≤ r.1) (hs : r.1 ≤ s) : skipField (u.take s) wt i depth = .ok r := by
  have hp := skipField_post hu wt depth h0 h1
  rw [h] at hp
  unfold skipField at *
  split at h
  · obtain ⟨⟨v, j⟩, h1, h2⟩ := ubind_eq_ok.1 h
    simp only [UOut.ok.injEq] at h2; subst h2
    rw [(readVarint_take h1 hs).1]; rfl
  · exact h
  · obtain ⟨⟨v, j⟩, h2, h3⟩ := ubind_eq_ok.1 h
    have hb := readVarint_bounds h0 h1 h2
    dsimp only at h3
    split at h3
    · simp at h3
    · rename_i hv
      simp only [UOut.ok.injEq] at h3; subst h3
      dsimp only at *
      have := toInt_lt v
      simp only [Small] at hu
      have hw := wrap64_nonneg (x := j + v.toInt) (by omega) (by omega) hr
      rw [(readVarint_take h2 (s := s) (by omega)).1, ubind_ok]
      dsimp only
      rw [if_neg hv]
  all_goals exact h

theorem skipLoop_take {u : Bytes} (hu : Small u) {s : Nat} : ∀ (n : Nat) {i : Int} (depth : Nat) {j : Int}, 0 ≤ i → j ≤ s →
    skipLoop u n i depth = .ok j → skipLoop (u.take s) n i depth = .ok j ∧ i < j
  | 0, _, _, _, _, _, h => by simp [skipLoop] at h
  | n + 1, i, depth, j, h0, hs, h => by
    simp only [skipLoop] at h ⊢
    split at h
    · rename_i hi
      obtain ⟨⟨wire, a⟩, h1, h⟩ := ubind_eq_ok.1 h
      obtain ⟨⟨b, dp⟩, h2, h⟩ := ubind_eq_ok.1 h
      dsimp only at h h2
      have hb1 := readVarint_bounds h0 (by omega) h1
      have hp := skipField_post hu (wire.toNat % 8) depth (i := a) (by omega) (by omega)
      rw [h2] at hp
      have hp : (b < 0 ∨ a ≤ b) ∧ b < 2 ^ 63 := hp
      split at h
      · simp at h
      · rename_i hb
        have key : b ≤ j := by
          split at h
          · simp only [UOut.ok.injEq] at h; omega
          · have := (skipLoop_take hu n dp (by omega) hs h).2
            omega
        rw [if_pos (by simp only [dlen, List.length_take] at *; omega), (readVarint_take h1 (s := s) (by omega)).1, ubind_ok]
        dsimp only
        rw [skipField_take hu (by omega) (by omega) h2 (by dsimp only; omega) (by dsimp only; omega), ubind_ok]
        dsimp only
        rw [if_neg hb]
        split at h
        · rename_i hd
          rw [if_pos hd]; exact ⟨h, by omega⟩
        · rename_i hd
          rw [if_neg hd]
          exact ⟨(skipLoop_take hu n dp (by omega) hs h).1, by omega⟩
    · simp at h

/-- Less fuel is enough, as long as there is one unit per byte. -/
theorem skipLoop_fuel {u : Bytes} (hu : Small u) : ∀ (n m : Nat) {i : Int} (depth : Nat) {j : Int}, 0 ≤ i → dlen u + 1 ≤ i + m → 0 < m →
    skipLoop u n i depth = .ok j → skipLoop u m i depth = .ok j
  | 0, _, _, _, _, _, _, _, h => by simp [skipLoop] at h
  | n + 1, 0, _, _, _, _, _, h, _ => by omega
  | n + 1, m + 1, i, depth, j, h0, hf, _, h => by
    simp only [skipLoop] at h ⊢
    split at h
    · rename_i hi
      rw [if_pos hi]
      obtain ⟨⟨wire, a⟩, h1, h⟩ := ubind_eq_ok.1 h
      obtain ⟨⟨b, dp⟩, h2, h⟩ := ubind_eq_ok.1 h
      dsimp only at h h2
      have hb1 := readVarint_bounds h0 (by omega) h1
      have hp := skipField_post hu (wire.toNat % 8) depth (i := a) (by omega) (by omega)
      rw [h2] at hp
      have hp : (b < 0 ∨ a ≤ b) ∧ b < 2 ^ 63 := hp
      rw [h1, ubind_ok]
      dsimp only
      rw [h2, ubind_ok]
      dsimp only
      split at h
      · simp at h
      · rename_i hb
        rw [if_neg hb]
        split at h
        · rename_i hd
          rw [if_pos hd]; exact h
        · rename_i hd
          rw [if_neg hd]
          exact skipLoop_fuel hu n m dp (by omega) (by omega) (by omega) h
    · simp at h

theorem skipEvent_take {u : Bytes} (hu : Small u) {j : Int} {s : Nat} (hs : j ≤ s) (h : skipEvent u = .ok j) : skipEvent (u.take s) = .ok j := by
  have h2 := (skipLoop_take hu _ 0 (by omega) hs h).1
  exact skipLoop_fuel (hu.mono (by simp only [List.length_take]; omega)) _ _ 0 (by omega) (by simp only [dlen]; omega) (by omega) h2

theorem rd_drop (pre u : Bytes) {i : Int} (h0 : 0 ≤ i) : rd (pre ++ u) (pre.length + i) = rd u i := by
  simp only [rd]
  rw [if_neg (by omega), if_neg (by omega)]
  have : ((pre.length : Int) + i).toNat = pre.length + i.toNat := by omega
  rw [this, List.getElem?_append_right (by omega), Nat.add_sub_cancel_left]

theorem varintLoop_drop {w : Nat} {u : Bytes} (pre : Bytes) : ∀ (n shift : Nat) {i : Int} (v : BitVec w) {r : BitVec w} {j : Int}, 0 ≤ i →
    varintLoop w (pre ++ u) n shift (pre.length + i) v = .ok (r, j) → varintLoop w u n shift i v = .ok (r, j - pre.length)
  | 0, _, _, _, _, _, _, h => by simp [varintLoop] at h
  | n + 1, shift, i, v, r, j, h0, h => by
    simp only [varintLoop] at h ⊢
    split at h
    · simp at h
    · rename_i hs
      rw [if_neg hs]
      split at h
      · simp at h
      · rename_i hi
        rw [if_neg (by simp only [dlen, List.length_append] at *; omega)]
        rw [rd_drop pre u h0] at h
        split at h
        · rename_i b hb
          split at h
          · rename_i hlt
            rw [if_pos hlt]
            simp only [UOut.ok.injEq, Prod.mk.injEq] at h ⊢
            exact ⟨h.1, by omega⟩
          · rename_i hlt
            rw [if_neg hlt]
            rw [Int.add_assoc] at h
            exact varintLoop_drop pre n (shift + 7) _ (by omega) h
        all_goals simp at h

theorem readVarint_drop {w : Nat} {d : Bytes} {i : Int} {r : BitVec w} {j : Int} (h0 : 0 ≤ i) (h1 : i ≤ dlen d) (h : readVarint w d i = .ok (r, j)) :
    readVarint w (d.drop i.toNat) 0 = .ok (r, j - i) := by
  have hi : (((d.take i.toNat).length : Nat) : Int) = i := by simp only [dlen, List.length_take] at *; omega
  have h2 := varintLoop_drop (w := w) (u := d.drop i.toNat) (d.take i.toNat) 11 0 (i := 0) 0 (r := r) (j := j) (by omega)
    (by rw [List.take_append_drop, hi, Int.add_zero]; exact h)
  rw [hi] at h2; exact h2

theorem skipEvent_head {u : Bytes} (hu : Small u) {s : Int} (h : skipEvent u = .ok s) : ∃ (wire : BitVec 64) (j : Int), readVarint 64 u 0 = .ok (wire, j) ∧ j ≤ s := by
  simp only [skipEvent, skipLoop] at h
  split at h
  · rename_i hi
    obtain ⟨⟨wire, a⟩, h1, h⟩ := ubind_eq_ok.1 h
    obtain ⟨⟨b, dp⟩, h2, h⟩ := ubind_eq_ok.1 h
    dsimp only at h h2
    refine ⟨wire, a, h1, ?_⟩
    have hb1 := readVarint_bounds (by omega) (by omega) h1
    have hp := skipField_post hu (wire.toNat % 8) 0 (i := a) (by omega) (by omega)
    rw [h2] at hp
    have hp : (b < 0 ∨ a ≤ b) ∧ b < 2 ^ 63 := hp
    split at h
    · simp at h
    · split at h
      · simp only [UOut.ok.injEq] at h; omega
      · have hpo := skipLoop_post hu u.length (i := b) dp (by omega) (by simp only [dlen] at *; omega) (by simp only [dlen] at *; omega)
        rw [h] at hpo
        have hpo : b < s ∧ _ := hpo
        omega
  · simp at h

/-- One unknown field, as the decoder of a message with the fields `1 .. own` sees it. -/
def Piece (own : Nat) (u : Bytes) : Prop :=
  ∃ wire i, readVarint 64 u 0 = .ok (wire, i) ∧ wire.toNat % 8 ≠ 4 ∧ (own : Int) < fieldNumber wire ∧ skipEvent u = .ok u.length

/-- A sequence of such fields. -/
inductive Pieces (own : Nat) : Bytes → Prop where
  | nil : Pieces own []
  | cons (f bs : Bytes) : Piece own f → Pieces own bs → Pieces own (f ++ bs)

theorem Pieces.append {own : Nat} {a b : Bytes} (ha : Pieces own a) (hb : Pieces own b) : Pieces own (a ++ b) := by
  induction ha with
  | nil => exact hb
  | cons f bs hf _ ih => rw [List.append_assoc]; exact .cons _ _ hf ih

theorem Pieces.single {own : Nat} {a : Bytes} (ha : Piece own a) : Pieces own a := by
  have := Pieces.cons a [] ha .nil
  rwa [List.append_nil] at this

end Sawmill.Wire
