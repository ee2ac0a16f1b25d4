import Verif.Props.WireText
/-!
# Lemmas: truncated encodings
-/

namespace Sawmill.Wire

theorem dlen_take_le (u : Bytes) (s : Nat) : dlen (u.take s) ≤ dlen u ∧ dlen (u.take s) ≤ s := by
  simp only [dlen, List.length_take]; omega

theorem lt_dlen_take {u : Bytes} {s : Nat} {i : Int} (h : i < dlen u) (h2 : i < s) : i < dlen (u.take s) := by
  simp only [dlen, List.length_take] at *; omega

theorem varintLoop_cut {w : Nat} {u : Bytes} (s : Nat) : ∀ (n shift : Nat) {i : Int} (v : BitVec w) {r : BitVec w} {j : Int},
    varintLoop w u n shift i v = .ok (r, j) → varintLoop w (u.take s) n shift i v = .ok (r, j) ∨ varintLoop w (u.take s) n shift i v = .err .unexpectedEOF
  | 0, _, _, _, _, _, h => by simp [varintLoop] at h
  | n + 1, shift, i, v, r, j, h => by
    simp only [varintLoop] at h ⊢
    split at h
    · simp at h
    · rename_i hs
      rw [if_neg hs]
      split at h
      · simp at h
      · rename_i hi
        by_cases hl : i ≥ dlen (u.take s)
        · rw [if_pos hl]; exact .inr rfl
        rw [if_neg hl]
        have hk := dlen_take_le u s
        split at h
        · rename_i b hb
          have hbd := rd_bounds hb
          rw [rd_take hb (by omega)]
          dsimp only
          split at h
          · rename_i hlt
            rw [if_pos hlt]
            exact .inl h
          · rename_i hlt
            rw [if_neg hlt]
            exact varintLoop_cut s n (shift + 7) _ h
        all_goals simp at h

theorem readVarint_cut {w : Nat} {u : Bytes} (s : Nat) {i : Int} {r : BitVec w} {j : Int} (h : readVarint w u i = .ok (r, j)) :
    readVarint w (u.take s) i = .ok (r, j) ∨ readVarint w (u.take s) i = .err .unexpectedEOF := varintLoop_cut s 11 0 _ h

theorem readLength_cut {u : Bytes} (s : Nat) {i a b : Int} (h : readLength u i = .ok (a, b)) :
    (readLength (u.take s) i = .ok (a, b) ∧ b ≤ dlen (u.take s)) ∨ readLength (u.take s) i = .err .unexpectedEOF := by
  unfold readLength at *
  obtain ⟨⟨m, j⟩, hm, h⟩ := ubind_eq_ok.1 h
  rcases readVarint_cut s hm with e | e
  · rw [e, ubind_ok]
    dsimp only at h ⊢
    split at h
    · simp at h
    · split at h
      · simp at h
      · split at h
        · simp at h
        · rename_i h1 h2 h3
          rw [if_neg h1, if_neg h2]
          simp only [UOut.ok.injEq, Prod.mk.injEq] at h
          obtain ⟨rfl, rfl⟩ := h
          by_cases hl : wrap64 (j + m.toInt) > dlen (u.take s)
          · rw [if_pos hl]; exact .inr rfl
          · rw [if_neg hl]; exact .inl ⟨rfl, by omega⟩
  · rw [e]; exact .inr rfl

theorem slice_cut {u : Bytes} {s : Nat} {i j : Int} {c : Bytes} (h : slice u i j = .ok c) (hj : j ≤ dlen (u.take s)) : slice (u.take s) i j = .ok c := by
  obtain ⟨h0, h1, h2, rfl⟩ := slice_eq_ok h
  have hk := dlen_take_le u s
  rw [slice_ok h0 h1 hj, List.take_take, Nat.min_eq_left (by omega)]

theorem lengthCase_cut {σ : Type} {u : Bytes} (s : Nat) {wt : Nat} {i j : Int} {body : Bytes → UOut σ} {v : σ} (h : lengthCase u wt i body = .ok (v, j)) :
    (lengthCase (u.take s) wt i body = .ok (v, j) ∧ j ≤ dlen (u.take s)) ∨ lengthCase (u.take s) wt i body = .err .unexpectedEOF := by
  unfold lengthCase at *
  split at h
  · simp at h
  · rename_i hw
    rw [if_neg hw]
    obtain ⟨⟨a, b⟩, hl, h⟩ := ubind_eq_ok.1 h
    obtain ⟨c, hc, h⟩ := ubind_eq_ok.1 h
    obtain ⟨v', hv, h⟩ := ubind_eq_ok.1 h
    simp only [UOut.ok.injEq, Prod.mk.injEq] at h
    obtain ⟨rfl, rfl⟩ := h
    rcases readLength_cut s hl with ⟨e, hb⟩ | e
    · rw [e, ubind_ok]
      dsimp only at hc ⊢
      rw [slice_cut hc hb, ubind_ok, hv]
      exact .inl ⟨rfl, hb⟩
    · rw [e]; exact .inr rfl

theorem skipField_cut {u : Bytes} (s : Nat) {wt : Nat} {i : Int} {depth : Nat} {r : Int × Nat} (h : skipField u wt i depth = .ok r) :
    skipField (u.take s) wt i depth = .ok r ∨ skipField (u.take s) wt i depth = .err .unexpectedEOF := by
  unfold skipField at *
  split at h
  · obtain ⟨⟨v, j⟩, h1, h2⟩ := ubind_eq_ok.1 h
    rcases readVarint_cut s h1 with e | e
    · rw [e]; exact .inl h2
    · rw [e]; exact .inr rfl
  · exact .inl h
  · obtain ⟨⟨v, j⟩, h1, h2⟩ := ubind_eq_ok.1 h
    rcases readVarint_cut s h1 with e | e
    · rw [e]; exact .inl h2
    · rw [e]; exact .inr rfl
  all_goals exact .inl h

theorem skipLoop_cut {u : Bytes} (s : Nat) : ∀ (n m : Nat) {i : Int} (depth : Nat) {j : Int}, skipLoop u n i depth = .ok j →
    skipLoop (u.take s) m i depth = .ok j ∨ skipLoop (u.take s) m i depth = .err .unexpectedEOF ∨ skipLoop (u.take s) m i depth = .fuel
  | 0, _, _, _, _, h => by simp [skipLoop] at h
  | n + 1, 0, _, _, _, _ => .inr (.inr rfl)
  | n + 1, m + 1, i, depth, j, h => by
    simp only [skipLoop] at h ⊢
    split at h
    · by_cases hl : i < dlen (u.take s)
      · rw [if_pos hl]
        obtain ⟨⟨wire, a⟩, h1, h⟩ := ubind_eq_ok.1 h
        obtain ⟨⟨b, dp⟩, h2, h⟩ := ubind_eq_ok.1 h
        rcases readVarint_cut s h1 with e | e
        · rw [e, ubind_ok]
          dsimp only at h h2 ⊢
          rcases skipField_cut s h2 with e | e
          · rw [e, ubind_ok]
            dsimp only
            split at h
            · simp at h
            · rename_i hb
              rw [if_neg hb]
              split at h
              · rename_i hd
                rw [if_pos hd]; exact .inl h
              · rename_i hd
                rw [if_neg hd]
                exact skipLoop_cut s n m _ h
          · rw [e]; exact .inr (.inl rfl)
        · rw [e]; exact .inr (.inl rfl)
      · rw [if_neg hl]; exact .inr (.inl rfl)
    · simp at h

theorem skipEvent_cut {u : Bytes} (hu : Small u) (s : Nat) {j : Int} (h : skipEvent u = .ok j) : skipEvent (u.take s) = .ok j ∨ skipEvent (u.take s) = .err .unexpectedEOF := by
  rcases skipLoop_cut s _ ((u.take s).length + 1) 0 h with e | e | e
  · exact .inl e
  · exact .inr e
  · have := skipEvent_post (hu.mono (by simp; omega) : Small (u.take s))
    rw [show skipEvent (u.take s) = .fuel from e] at this
    exact this.elim

theorem skipAt_cut {u : Bytes} (hu : Small u) (s : Nat) {i k : Int} (hi : i ≤ dlen (u.take s)) (h : skipAt u i (dlen u) = .ok k) :
    (skipAt (u.take s) i (dlen (u.take s)) = .ok k ∧ k ≤ dlen (u.take s)) ∨ skipAt (u.take s) i (dlen (u.take s)) = .err .unexpectedEOF := by
  unfold skipAt at *
  obtain ⟨rest, hr, h'⟩ := ubind_eq_ok.1 h
  clear h
  obtain ⟨x, hx, h⟩ := ubind_eq_ok.1 h'
  clear h'
  obtain ⟨h0, h1, h2, rfl⟩ := slice_eq_ok hr
  rw [slice_ok h0 hi (Int.le_refl _), ubind_ok]
  have e : ((u.take s).take (dlen (u.take s)).toNat).drop i.toNat = (((u.take (dlen u).toNat).drop i.toNat)).take (s - i.toNat) := by
    simp only [dlen, Int.toNat_natCast, List.take_length]
    rw [List.drop_take]
  rw [e]
  rcases skipEvent_cut (hu.mono (by simp only [List.length_drop, List.length_take]; omega)) (s - i.toNat) hx with e | e
  · rw [e, ubind_ok]
    split at h
    · simp at h
    · split at h
      · simp at h
      · rename_i h3 h4
        rw [if_neg h3]
        simp only [UOut.ok.injEq] at h
        subst h
        by_cases hl : wrap64 (i + x) > dlen (u.take s)
        · rw [if_pos hl]; exact .inr rfl
        · rw [if_neg hl]; exact .inl ⟨rfl, by omega⟩
  · rw [e]; exact .inr rfl

theorem handleWrapper_cut {u : Bytes} {s : Nat} {num wt : Nat} {i : Int} {m : PWrapper} :
    (handleWrapper u num wt i m = none → handleWrapper (u.take s) num wt i m = none) ∧
    ∀ x j, handleWrapper u num wt i m = some (.ok (x, j)) →
      (handleWrapper (u.take s) num wt i m = some (.ok (x, j)) ∧ j ≤ dlen (u.take s)) ∨ handleWrapper (u.take s) num wt i m = some (.err .unexpectedEOF) := by
  unfold handleWrapper
  constructor
  · split <;> simp
  · intro x j h
    split at h
    · simp only [Option.some.injEq] at h ⊢
      exact lengthCase_cut s h
    · simp at h

theorem fieldLoop_cut {u : Bytes} (hu : Small u) (s : Nat) {keep : PWrapper → Bytes → PWrapper} {m' : PWrapper} :
    ∀ (n k : Nat) {i : Int} {m : PWrapper}, i ≤ dlen (u.take s) → fieldLoop u (handleWrapper u) keep n i m = .ok m' →
      (∃ x, fieldLoop (u.take s) (handleWrapper (u.take s)) keep k i m = .ok x) ∨ fieldLoop (u.take s) (handleWrapper (u.take s)) keep k i m = .err .unexpectedEOF ∨
        fieldLoop (u.take s) (handleWrapper (u.take s)) keep k i m = .fuel
  | 0, _, _, _, _, h => by simp [fieldLoop] at h
  | n + 1, 0, _, _, _, _ => .inr (.inr rfl)
  | n + 1, k + 1, i, m, hi, h => by
    simp only [fieldLoop] at h ⊢
    by_cases hl : i < dlen (u.take s)
    · rw [if_pos hl]
      rw [if_pos (by have := dlen_take_le u s; omega)] at h
      obtain ⟨⟨wire, j⟩, hv, h⟩ := ubind_eq_ok.1 h
      rcases readVarint_cut s hv with e | e
      · rw [e, ubind_ok]
        dsimp only at h ⊢
        split at h
        · simp at h
        · rename_i h4
          rw [if_neg h4]
          split at h
          · simp at h
          · rename_i hn
            rw [if_neg hn]
            split at h
            · rename_i q hq
              obtain ⟨⟨m1, i1⟩, rfl, h⟩ := ubind_eq_ok.1 h
              rcases handleWrapper_cut.2 _ _ hq with ⟨e, hb⟩ | e
              · rw [e]
                dsimp only at h ⊢
                rw [ubind_ok]
                exact fieldLoop_cut hu s n k hb h
              · rw [e]; exact .inr (.inl rfl)
            · rename_i hq
              obtain ⟨next, hk, h⟩ := ubind_eq_ok.1 h
              obtain ⟨x, hx, h⟩ := ubind_eq_ok.1 h
              rw [handleWrapper_cut.1 hq]
              dsimp only at h ⊢
              rcases skipAt_cut hu s hi hk with ⟨e, hb⟩ | e
              · rw [e, ubind_ok, slice_cut hx hb, ubind_ok]
                exact fieldLoop_cut hu s n k hb h
              · rw [e]; exact .inr (.inl rfl)
      · rw [e]; exact .inr (.inl rfl)
    · rw [if_neg hl, if_neg (by omega)]
      exact .inl ⟨_, rfl⟩

end Sawmill.Wire
