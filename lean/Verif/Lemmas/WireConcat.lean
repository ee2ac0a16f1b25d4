import Verif.Lemmas.WireUnknown
/-!
# Appending bytes to an accepted message

What `Unmarshal` does with an accepted byte string does not change when more bytes follow it.
-/

namespace Sawmill.Wire

theorem slice_eq_ok {u : Bytes} {i j : Int} {c : Bytes} (h : slice u i j = .ok c) : 0 ≤ i ∧ i ≤ j ∧ j ≤ dlen u ∧ c = (u.take j.toNat).drop i.toNat := by
  simp only [slice] at h
  split at h
  · rename_i hb
    simp only [UOut.ok.injEq] at h
    exact ⟨hb.1, hb.2.1, hb.2.2, h.symm⟩
  · simp at h

theorem slice_right {u : Bytes} (post : Bytes) {i j : Int} {c : Bytes} (h : slice u i j = .ok c) : slice (u ++ post) i j = .ok c := by
  obtain ⟨h0, h1, h2, rfl⟩ := slice_eq_ok h
  rw [slice_ok h0 h1 (by rw [dlen_append]; simp only [dlen] at *; omega), List.take_append_of_le_length (by simp only [dlen] at h2; omega)]

theorem readLength_right {u : Bytes} (post : Bytes) {i a b : Int} (h : readLength u i = .ok (a, b)) : readLength (u ++ post) i = .ok (a, b) := by
  unfold readLength at *
  obtain ⟨⟨m, j⟩, hm, h⟩ := ubind_eq_ok.1 h
  rw [readVarint_right post hm, ubind_ok]
  dsimp only at h ⊢
  split at h
  · simp at h
  · split at h
    · simp at h
    · split at h
      · simp at h
      · rename_i h1 h2 h3
        rw [if_neg h1, if_neg h2, if_neg (by rw [dlen_append]; simp only [dlen] at *; omega)]
        exact h

theorem lengthCase_right {σ : Type} {u : Bytes} (post : Bytes) {wt : Nat} {i j : Int} {body : Bytes → UOut σ} {v : σ} (h : lengthCase u wt i body = .ok (v, j)) :
    lengthCase (u ++ post) wt i body = .ok (v, j) := by
  unfold lengthCase at *
  split at h
  · simp at h
  · rename_i hw
    rw [if_neg hw]
    obtain ⟨⟨a, b⟩, hl, h⟩ := ubind_eq_ok.1 h
    obtain ⟨c, hc, h⟩ := ubind_eq_ok.1 h
    rw [readLength_right post hl, ubind_ok]
    dsimp only at hc h ⊢
    rw [slice_right post hc, ubind_ok]
    exact h

theorem skipAt_right {u : Bytes} (post : Bytes) {i k : Int} (h : skipAt u i (dlen u) = .ok k) : skipAt (u ++ post) i (dlen (u ++ post)) = .ok k := by
  unfold skipAt at *
  obtain ⟨rest, hr, h'⟩ := ubind_eq_ok.1 h
  clear h
  obtain ⟨s, hs, h⟩ := ubind_eq_ok.1 h'
  clear h'
  obtain ⟨h0, h1, h2, rfl⟩ := slice_eq_ok hr
  rw [slice_ok h0 (by rw [dlen_append]; simp only [dlen] at *; omega) (Int.le_refl _), ubind_ok]
  have e : ((u ++ post).take (dlen (u ++ post)).toNat).drop i.toNat = (u.take (dlen u).toNat).drop i.toNat ++ post := by
    simp only [dlen, Int.toNat_natCast, List.take_length]
    rw [List.drop_append_of_le_length (by simp only [dlen] at h1; omega)]
  rw [e, skipEvent_local post hs, ubind_ok]
  split at h
  · simp at h
  · split at h
    · simp at h
    · rename_i h3 h4
      rw [if_neg h3, if_neg (by rw [dlen_append]; simp only [dlen] at *; omega)]
      exact h

/-- The outcome of a case does not change when bytes are appended. -/
def RightLocal {σ : Type} (handle big : Nat → Nat → Int → σ → Option (UOut (σ × Int))) : Prop :=
  ∀ num wt i m, (handle num wt i m = none → big num wt i m = none) ∧ ∀ r, handle num wt i m = some (.ok r) → big num wt i m = some (.ok r)

theorem fieldLoop_right {σ : Type} {u post : Bytes} (hu : Small u) {P : σ → Prop} {handle big : Nat → Nat → Int → σ → Option (UOut (σ × Int))} {keep : σ → Bytes → σ} (hb : RightLocal handle big)
    (hh : HandleOK u P handle) (hP : ∀ m x, P m → P (keep m x)) {m' : σ} {r : UOut σ} (hl : Loop (u ++ post) big keep (dlen u) m' r) :
    ∀ (n : Nat) {i : Int} {m : σ}, 0 ≤ i → P m → fieldLoop u handle keep n i m = .ok m' → Loop (u ++ post) big keep i m r
  | 0, _, _, _, _, h => by simp [fieldLoop] at h
  | n + 1, i, m, h0, hm, h => by
    simp only [fieldLoop] at h
    split at h
    · rename_i hi
      obtain ⟨⟨wire, j⟩, hv, h⟩ := ubind_eq_ok.1 h
      have hj := readVarint_bounds h0 (by omega) hv
      dsimp only at h
      split at h
      · simp at h
      · split at h
        · simp at h
        · rename_i h4 hn
          intro f hf
          have hge : dlen u ≤ dlen (u ++ post) := by rw [dlen_append]; simp only [dlen]; omega
          obtain ⟨f, rfl⟩ : ∃ k, f = k + 1 := ⟨f - 1, by omega⟩
          have hi' : i < dlen (u ++ post) := by rw [dlen_append]; simp only [dlen] at *; omega
          rw [fieldLoop, if_pos hi', readVarint_right post hv, ubind_ok]
          dsimp only
          rw [if_neg h4, if_neg hn]
          split at h
          · rename_i q hq
            obtain ⟨⟨m1, i1⟩, hq1, h⟩ := ubind_eq_ok.1 h
            subst hq1
            rw [(hb _ _ _ _).2 _ hq]
            dsimp only at h ⊢
            rw [ubind_ok]
            dsimp only
            have hok := hh _ _ _ m _ (by omega) hj.2 hm hq
            have hok : P m1 ∧ j < i1 ∧ i1 ≤ dlen u := hok
            exact fieldLoop_right hu hb hh hP hl n (by omega) hok.1 h f (by omega)
          · rename_i hq
            obtain ⟨next, hk, h⟩ := ubind_eq_ok.1 h
            obtain ⟨x, hx, h⟩ := ubind_eq_ok.1 h
            rw [(hb _ _ _ _).1 hq]
            dsimp only at h ⊢
            have hpost := skipAt_post hu h0 (by omega : i ≤ dlen u) (limit := dlen u)
            rw [hk] at hpost
            have hpost : i < next ∧ next ≤ dlen u := hpost
            rw [skipAt_right post hk, ubind_ok, slice_right post hx, ubind_ok]
            exact fieldLoop_right hu hb hh hP hl n (by omega) (hP _ _ hm) h f (by omega)
    · split at h
      · simp at h
      · simp only [UOut.ok.injEq] at h
        subst h
        have : i = dlen u := by omega
        rw [this]; exact hl


theorem unmarshalInto_pieces {d f : Bytes} {m m' : PWrapper} (hs : Small (d ++ f)) (h : unmarshalInto d m = .ok m') (hf : Pieces 1 f) :
    unmarshalInto (d ++ f) m = .ok { m' with unrec := m'.unrec ++ f } := by
  have hd : Small d := hs.mono (by simp)
  refine fields_loop (fieldLoop_right (P := fun _ => True) (handle := handleWrapper d) hd ?_ ?_ (fun _ _ _ => trivial) ?_ _ (Int.le_refl 0) trivial h)
  · intro num wt i m
    constructor
    · unfold handleWrapper; split <;> simp
    · intro r hr
      unfold handleWrapper at *
      split at hr
      · simp only [Option.some.injEq] at hr ⊢
        exact lengthCase_right f hr
      · simp at hr
  · intro num wt i m r h0 h1 _ hr
    unfold handleWrapper at hr
    split at hr
    · obtain rfl := Option.some.inj hr
      refine lengthCase_post (P := fun _ => True) hd h0 h1 fun c hc => ?_
      exact Post.bind (unmarshalLog_post (hd.mono (by omega))) fun l hl => trivial
    · simp at hr
  · exact loop_pieces (own_wrapper _) (fun m => by simp) (fun m a b => by simp) hf hs m'

end Sawmill.Wire
