import Verif.Model.WireUnmarshal
/-!
# Bounds: the basic steps of the decoder neither crash nor run out of fuel
-/

namespace Sawmill.Wire

@[simp] theorem ubind_ok {α β : Type} (a : α) (f : α → UOut β) : (UOut.ok a >>= f) = f a := rfl
@[simp] theorem ubind_err {α β : Type} (e : UErr) (f : α → UOut β) : ((UOut.err e : UOut α) >>= f) = .err e := rfl
@[simp] theorem ubind_panic {α β : Type} (f : α → UOut β) : ((UOut.panic : UOut α) >>= f) = .panic := rfl
@[simp] theorem ubind_fuel {α β : Type} (f : α → UOut β) : ((UOut.fuel : UOut α) >>= f) = .fuel := rfl

theorem ubind_eq_ok {α β : Type} {r : UOut α} {f : α → UOut β} {b : β} : (r >>= f) = .ok b ↔ ∃ a, r = .ok a ∧ f a = .ok b := by
  cases r <;> simp

/-- The outcome is a result satisfying `P`, or an error. -/
def Post {α : Type} (P : α → Prop) : UOut α → Prop
  | .ok a => P a
  | .err _ => True
  | .panic => False
  | .fuel => False

theorem Post.bind {α β : Type} {P : α → Prop} {Q : β → Prop} {r : UOut α} {f : α → UOut β} (h : Post P r) (hf : ∀ a, P a → Post Q (f a)) : Post Q (r >>= f) := by
  cases r with
  | ok a => exact hf a h
  | err e => trivial
  | panic => exact h.elim
  | fuel => exact h.elim

theorem Post.mono {α : Type} {P Q : α → Prop} {r : UOut α} (h : Post P r) (hpq : ∀ a, P a → Q a) : Post Q r := by
  cases r with
  | ok a => exact hpq a h
  | err e => trivial
  | panic => exact h.elim
  | fuel => exact h.elim

/-- Inputs a Go slice can hold (a slice of 2^63-8 bytes or more does not fit in any address space). -/
@[irreducible] def Small (d : Bytes) : Prop := dlen d < 2 ^ 63 - 8

theorem Small.mono {d e : Bytes} (h : Small d) (he : e.length ≤ d.length) : Small e := by
  simp only [Small, dlen] at *; omega

theorem wrap64_lo {x : Int} (h0 : 0 ≤ x) (h : x < 2 ^ 63) : wrap64 x = x := by simp only [wrap64]; omega
theorem wrap64_hi {x : Int} (h0 : 2 ^ 63 ≤ x) (h : x < 2 ^ 64) : wrap64 x < 0 := by simp only [wrap64]; omega
theorem wrap64_le {x : Int} (h0 : 0 ≤ x) : wrap64 x ≤ x := by simp only [wrap64]; omega
theorem wrap64_nonneg {x : Int} (h0 : 0 ≤ x) (h : x < 2 ^ 64) (hw : 0 ≤ wrap64 x) : wrap64 x = x := by simp only [wrap64] at *; omega

theorem toInt_lt (b : BitVec 64) : b.toInt < 2 ^ 63 := by have := @BitVec.toInt_lt 64 b; omega

theorem rd_ok {d : Bytes} {i : Int} (h0 : 0 ≤ i) (h : i < dlen d) : ∃ b, rd d i = .ok b := by
  simp only [rd, dlen] at *
  have : i.toNat < d.length := by omega
  rw [if_neg (by omega), List.getElem?_eq_getElem this]
  exact ⟨_, rfl⟩

theorem slice_ok {d : Bytes} {i j : Int} (h0 : 0 ≤ i) (h : i ≤ j) (h2 : j ≤ dlen d) : slice d i j = .ok ((d.take j.toNat).drop i.toNat) := by
  simp [slice, h0, h, h2]

theorem varintLoop_post (w : Nat) {d : Bytes} : ∀ (n shift : Nat) {i : Int} (v : BitVec w), 0 ≤ i → i ≤ dlen d → shift ≤ 70 → shift + 7 * n = 77 →
    Post (fun r => i < r.2 ∧ r.2 ≤ dlen d) (varintLoop w d n shift i v)
  | 0, shift, i, v, h0, h1, h2, hf => by omega
  | n + 1, shift, i, v, h0, h1, h2, hf => by
    simp only [varintLoop]
    by_cases hs : shift ≥ 64
    · rw [if_pos hs]; trivial
    · rw [if_neg hs]
      by_cases hi : i ≥ dlen d
      · rw [if_pos hi]; trivial
      · rw [if_neg hi]
        obtain ⟨b, hb⟩ := rd_ok (d := d) h0 (by omega)
        simp only [hb]
        split
        · exact ⟨by dsimp only; omega, by dsimp only; omega⟩
        · exact (varintLoop_post w n (shift + 7) _ (by omega) (by omega) (by omega) (by omega)).mono (fun a ha => ⟨by omega, ha.2⟩)

theorem readVarint_post (w : Nat) {d : Bytes} {i : Int} (h0 : 0 ≤ i) (h1 : i ≤ dlen d) : Post (fun r => i < r.2 ∧ r.2 ≤ dlen d) (readVarint w d i) :=
  varintLoop_post w 11 0 _ h0 h1 (by omega) (by omega)

theorem readLength_post {d : Bytes} (hd : Small d) {i : Int} (h0 : 0 ≤ i) (h1 : i ≤ dlen d) :
    Post (fun r => i < r.1 ∧ r.1 ≤ r.2 ∧ r.2 ≤ dlen d) (readLength d i) := by
  refine Post.bind (readVarint_post 64 h0 h1) ?_
  rintro ⟨m, j⟩ ⟨hj, hj2⟩
  dsimp only at hj hj2 ⊢
  split
  · trivial
  · rename_i hm
    split
    · trivial
    · rename_i hp
      split
      · trivial
      · have := toInt_lt m
        simp only [Small] at hd
        have hw := wrap64_nonneg (x := j + m.toInt) (by omega) (by omega) (by omega)
        exact ⟨hj, by dsimp only; omega, by dsimp only; omega⟩

theorem wrap64_lt (x : Int) : wrap64 x < 2 ^ 63 := by simp only [wrap64]; omega

theorem skipField_post {d : Bytes} (hd : Small d) (wt : Nat) {i : Int} (depth : Nat) (h0 : 0 ≤ i) (h1 : i ≤ dlen d) :
    Post (fun r => (r.1 < 0 ∨ i ≤ r.1) ∧ r.1 < 2 ^ 63) (skipField d wt i depth) := by
  simp only [Small] at hd
  unfold skipField
  split
  · exact Post.bind (readVarint_post 64 h0 h1) fun a ha => ⟨.inr (by dsimp only; omega), by dsimp only; omega⟩
  · refine ⟨.inr ?_, wrap64_lt _⟩; dsimp only; rw [wrap64_lo (by omega) (by omega)]; omega
  · refine Post.bind (readVarint_post 64 h0 h1) ?_
    rintro ⟨m, j⟩ ⟨hj, hj2⟩
    dsimp only at hj hj2 ⊢
    split
    · trivial
    · have := toInt_lt m
      show (wrap64 _ < 0 ∨ _ ≤ wrap64 _) ∧ _
      refine ⟨?_, wrap64_lt _⟩
      by_cases hw : 0 ≤ wrap64 (j + m.toInt)
      · rw [wrap64_nonneg (by omega) (by omega) hw]; omega
      · omega
  · exact ⟨.inr (by dsimp only; omega), by dsimp only; omega⟩
  · split
    · trivial
    · exact ⟨.inr (by dsimp only; omega), by dsimp only; omega⟩
  · refine ⟨.inr ?_, wrap64_lt _⟩; dsimp only; rw [wrap64_lo (by omega) (by omega)]; omega
  · trivial

theorem skipLoop_post {d : Bytes} (hd : Small d) : ∀ (n : Nat) {i : Int} (depth : Nat), 0 ≤ i → dlen d + 1 ≤ i + n → 0 < n →
    Post (fun r => i < r ∧ r < 2 ^ 63) (skipLoop d n i depth)
  | 0, _, _, _, _, h => by omega
  | n + 1, i, depth, h0, hf, _ => by
    simp only [skipLoop]
    split
    · rename_i hi
      refine Post.bind (readVarint_post 64 h0 (by omega)) ?_
      rintro ⟨wire, j⟩ ⟨hj, hj2⟩
      dsimp only at hj hj2 ⊢
      refine Post.bind (skipField_post hd _ depth (by omega) hj2) ?_
      rintro ⟨k, depth'⟩ hk
      dsimp only at hk ⊢
      split
      · trivial
      · split
        · show i < k ∧ _
          omega
        · refine (skipLoop_post hd n depth' (by omega) (by omega) (by omega)).mono fun a ha => ?_
          omega
    · trivial

theorem skipEvent_post {d : Bytes} (hd : Small d) : Post (fun r => 0 < r ∧ r < 2 ^ 63) (skipEvent d) :=
  skipLoop_post hd _ 0 (by omega) (by simp only [dlen]; omega) (by omega)

theorem skipAt_post {d : Bytes} (hd : Small d) {i limit : Int} (h0 : 0 ≤ i) (h1 : i ≤ dlen d) :
    Post (fun r => i < r ∧ r ≤ limit) (skipAt d i limit) := by
  unfold skipAt
  rw [slice_ok h0 h1 (by omega), ubind_ok]
  refine Post.bind (skipEvent_post (hd.mono ?_)) ?_
  · simp only [List.length_drop, List.length_take, dlen]; omega
  intro s hs
  split
  · trivial
  · split
    · trivial
    · rename_i hn hl
      show i < wrap64 _ ∧ wrap64 _ ≤ limit
      refine ⟨?_, by omega⟩
      simp only [Small] at hd
      rw [wrap64_nonneg (by omega) (by omega) (by omega)]; omega

end Sawmill.Wire
