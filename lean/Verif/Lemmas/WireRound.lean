import Verif.Lemmas.WireTotal
import Verif.Lemmas.WireMarshal
/-!
# Decoding what was encoded
-/

namespace Sawmill.Wire

/-! ## Varints -/

theorem bv_split (w n shift : Nat) :
    BitVec.ofNat w (n % 128) <<< shift ||| BitVec.ofNat w (n / 128) <<< (shift + 7) = BitVec.ofNat w n <<< shift := by
  apply BitVec.eq_of_getLsbD_eq
  intro i hi
  simp only [BitVec.getLsbD_or, BitVec.getLsbD_shiftLeft, BitVec.getLsbD_ofNat, hi, decide_true, Bool.true_and]
  rw [show (128 : Nat) = 2 ^ 7 from rfl, Nat.testBit_mod_two_pow, Nat.testBit_div_two_pow]
  by_cases h1 : i < shift
  · have : i < shift + 7 := by omega
    simp [h1, this]
  · by_cases h2 : i < shift + 7
    · have : i - shift < w := by omega
      simp [h1, h2, this]
      intro _; omega
    · have e : i - (shift + 7) + 7 = i - shift := by omega
      have h3 : i - shift < w := by omega
      have h4 : i - (shift + 7) < w := by omega
      simp [h1, h2, h3, h4, e]

theorem rd_at {pre post : Bytes} {b : UInt8} : rd (pre ++ [b] ++ post) pre.length = .ok b := by
  simp only [rd]
  rw [if_neg (by omega)]
  simp

theorem varintLoop_enc (w : Nat) (n : Nat) : ∀ (pre post : Bytes) (fuel shift : Nat) (acc : BitVec w), shift < 64 → n < 2 ^ (64 - shift) → 70 ≤ shift + 7 * fuel →
    varintLoop w (pre ++ varint n ++ post) fuel shift pre.length acc = .ok (acc ||| BitVec.ofNat w n <<< shift, ((pre.length + (varint n).length : Nat) : Int)) := by
  induction n using Nat.strongRecOn with
  | ind n ih =>
    intro pre post fuel shift acc hs hn hf
    obtain ⟨fuel, rfl⟩ : ∃ f, fuel = f + 1 := ⟨fuel - 1, by omega⟩
    by_cases h : n < 128
    · rw [varint_small h]
      simp only [varintLoop]
      rw [if_neg (by omega), if_neg (by simp [dlen]; omega), rd_at]
      dsimp only
      have hb : (UInt8.ofNat n).toNat = n := by simp; omega
      rw [hb, if_pos h, Nat.mod_eq_of_lt h]
      simp
    · have hv : varint n = UInt8.ofNat (n % 128 + 128) :: varint (n / 128) := by rw [varint, if_neg h]
      rw [hv]
      have hd : pre ++ (UInt8.ofNat (n % 128 + 128) :: varint (n / 128)) ++ post = pre ++ [UInt8.ofNat (n % 128 + 128)] ++ (varint (n / 128) ++ post) := by simp
      have hb : (UInt8.ofNat (n % 128 + 128)).toNat = n % 128 + 128 := by simp; omega
      have hsh : shift + 7 < 64 := by
        rcases Nat.lt_or_ge (shift + 7) 64 with h | h
        · exact h
        · have : 2 ^ (64 - shift) ≤ 2 ^ 7 := Nat.pow_le_pow_right (by omega) (by omega)
          omega
      have hpow : 2 ^ (64 - shift) = 2 ^ (64 - (shift + 7)) * 128 := by
        rw [show (128 : Nat) = 2 ^ 7 from rfl, ← Nat.pow_add]; congr 1; omega
      simp only [varintLoop]
      rw [if_neg (by omega), if_neg (by simp [dlen]; omega), hd, rd_at]
      dsimp only
      rw [hb, if_neg (by omega), show (n % 128 + 128) % 128 = n % 128 by omega]
      have := ih (n / 128) (by omega) (pre ++ [UInt8.ofNat (n % 128 + 128)]) post fuel (shift + 7) (acc ||| BitVec.ofNat w (n % 128) <<< shift) hsh (by omega) (by omega)
      rw [List.append_assoc] at this
      simp only [List.length_append, List.length_singleton] at this
      rw [show ((pre.length : Int) + 1) = ((pre.length + 1 : Nat) : Int) by omega, this, BitVec.or_assoc, bv_split]
      simp only [List.length_cons]
      congr 2
      omega

theorem readVarint_enc (w : Nat) {n : Nat} (hn : n < 2 ^ 64) (pre post : Bytes) :
    readVarint w (pre ++ varint n ++ post) pre.length = .ok (BitVec.ofNat w n, ((pre.length + (varint n).length : Nat) : Int)) := by
  rw [readVarint, varintLoop_enc w n pre post 11 0 0 (by omega) hn (by omega)]
  simp

theorem fieldNumber_tag {num wt : Nat} (h : num < 2 ^ 29) (hw : wt < 8) : fieldNumber (BitVec.ofNat 64 (num * 8 + wt)) = num := by
  have h1 : (BitVec.ofNat 64 (num * 8 + wt)).toNat = num * 8 + wt := by
    rw [BitVec.toNat_ofNat]; omega
  have h2 : ((BitVec.ofNat 64 (num * 8 + wt) >>> 3).setWidth 32).toNat = num := by
    rw [BitVec.toNat_setWidth, BitVec.toNat_ushiftRight, h1, Nat.shiftRight_eq_div_pow]
    omega
  rw [fieldNumber, BitVec.toInt_eq_toNat_of_lt (by rw [h2]; omega), h2]

theorem wireType_tag {num wt : Nat} (h : num < 2 ^ 29) (hw : wt < 8) : (BitVec.ofNat 64 (num * 8 + wt)).toNat % 8 = wt := by
  rw [BitVec.toNat_ofNat]; omega

/-! ## One field -/

/-- With enough fuel, the loop started at `i` gives `r`. -/
def Loop {σ : Type} (d : Bytes) (handle : Nat → Nat → Int → σ → Option (UOut (σ × Int))) (keep : σ → Bytes → σ) (i : Int) (m : σ) (r : UOut σ) : Prop :=
  ∀ n : Nat, dlen d + 1 ≤ i + n → fieldLoop d handle keep n i m = r

theorem loop_end {σ : Type} {d : Bytes} {handle : Nat → Nat → Int → σ → Option (UOut (σ × Int))} {keep : σ → Bytes → σ} {m : σ} :
    Loop d handle keep (dlen d) m (.ok m) := by
  intro n hn
  obtain ⟨n, rfl⟩ : ∃ k, n = k + 1 := ⟨n - 1, by omega⟩
  simp [fieldLoop]

theorem fields_loop {σ : Type} {d : Bytes} {handle : Nat → Nat → Int → σ → Option (UOut (σ × Int))} {keep : σ → Bytes → σ} {m : σ} {r : UOut σ}
    (h : Loop d handle keep 0 m r) : fields d handle keep m = r := h _ (by simp only [dlen]; omega)

theorem loop_known {σ : Type} {handle : Nat → Nat → Int → σ → Option (UOut (σ × Int))} {keep : σ → Bytes → σ} {pre post : Bytes} {num wt : Nat} (h0 : 0 < num) (h : num < 2 ^ 29)
    (hw : wt < 8) (hw4 : wt ≠ 4) {m m' : σ} {j : Int} {r : UOut σ} (hj : (pre.length : Int) < j)
    (hh : handle num wt ((pre.length + (tag num wt).length : Nat) : Int) m = some (.ok (m', j)))
    (hl : Loop (pre ++ tag num wt ++ post) handle keep j m' r) : Loop (pre ++ tag num wt ++ post) handle keep pre.length m r := by
  intro n hn
  obtain ⟨n, rfl⟩ : ∃ k, n = k + 1 := ⟨n - 1, by simp only [dlen, List.length_append] at hn; omega⟩
  have hpos : 0 < (tag num wt).length := varint_pos _
  simp only [fieldLoop]
  rw [if_pos (by simp only [dlen, List.length_append]; omega), tag, readVarint_enc 64 (by omega), ubind_ok, ← tag]
  dsimp only
  rw [wireType_tag h hw, fieldNumber_tag h hw, if_neg hw4, if_neg (by omega)]
  simp only [Int.toNat_natCast, hh]
  exact hl n (by omega)

theorem skipAt_piece {own : Nat} {pre f post : Bytes} (hs : Small (pre ++ f ++ post)) (hf : Piece own f) :
    skipAt (pre ++ f ++ post) pre.length (dlen (pre ++ f ++ post)) = .ok ((pre.length + f.length : Nat) : Int) := by
  obtain ⟨wire, i, h1, h2, h3, h4⟩ := hf
  have hl : dlen (pre ++ f ++ post) = pre.length + f.length + post.length := by simp [dlen]; omega
  have hdrop : List.drop pre.length (pre ++ f ++ post) = f ++ post := by simp
  unfold skipAt
  rw [slice_ok (by omega) (by omega) (by omega), ubind_ok]
  have hfull : List.take (dlen (pre ++ f ++ post)).toNat (pre ++ f ++ post) = pre ++ f ++ post := List.take_of_length_le (by simp only [dlen, Int.toNat_natCast]; omega)
  rw [hfull, Int.toNat_natCast, hdrop, skipEvent_local post h4, ubind_ok]
  simp only [Small] at hs
  rw [wrap64_lo (by omega) (by omega), if_neg (by omega), if_neg (by omega)]
  congr 1

theorem piece_pos {own : Nat} {f : Bytes} (hs : Small f) (hf : Piece own f) : 0 < f.length := by
  obtain ⟨wire, i, h1, h2, h3, h4⟩ := hf
  have := skipEvent_post hs
  rw [h4] at this
  have : 0 < (f.length : Int) ∧ _ := this
  omega

theorem slice_mid {pre f post : Bytes} : slice (pre ++ f ++ post) pre.length ((pre.length + f.length : Nat) : Int) = .ok f := by
  rw [slice_ok (by omega) (by omega) (by simp only [dlen, List.length_append]; omega)]
  congr 1
  rw [Int.toNat_natCast, Int.toNat_natCast, ← List.length_append, List.take_left, List.drop_left]

theorem loop_piece {σ : Type} {handle : Nat → Nat → Int → σ → Option (UOut (σ × Int))} {keep : σ → Bytes → σ} {own : Nat} (ho : Own own handle) {pre f post : Bytes}
    (hs : Small (pre ++ f ++ post)) (hf : Piece own f) {m : σ} {r : UOut σ}
    (hl : Loop (pre ++ f ++ post) handle keep ((pre.length + f.length : Nat) : Int) (keep m f) r) : Loop (pre ++ f ++ post) handle keep pre.length m r := by
  intro n hn
  have hpos := piece_pos (hs.mono (by simp; omega)) hf
  obtain ⟨n, rfl⟩ : ∃ k, n = k + 1 := ⟨n - 1, by simp only [dlen, List.length_append] at hn; omega⟩
  have hsk := skipAt_piece hs hf
  obtain ⟨wire, i, h1, h2, h3, h4⟩ := hf
  have hrv := readVarint_local pre post h1
  rw [Int.add_zero] at hrv
  simp only [fieldLoop]
  rw [if_pos (by simp only [dlen, List.length_append]; omega), hrv, ubind_ok]
  dsimp only
  rw [if_neg h2, if_neg (by omega), (ho _ _ _ _).2 (.inr (by omega))]
  dsimp only
  rw [hsk, ubind_ok, slice_mid, ubind_ok]
  exact hl n (by omega)

/-- The unknown fields at the end of a message are kept. -/
theorem loop_pieces {σ : Type} {handle : Nat → Nat → Int → σ → Option (UOut (σ × Int))} {keep : σ → Bytes → σ} {own : Nat} (ho : Own own handle)
    (hk0 : ∀ m, keep m [] = m) (hk : ∀ m a b, keep (keep m a) b = keep m (a ++ b)) {u : Bytes} (hu : Pieces own u) :
    ∀ {pre : Bytes} (_ : Small (pre ++ u)) (m : σ), Loop (pre ++ u) handle keep pre.length m (.ok (keep m u)) := by
  induction hu with
  | nil =>
    intro pre hs m
    have := loop_end (d := pre ++ []) (handle := handle) (keep := keep) (m := m)
    rw [List.append_nil] at this ⊢
    rw [hk0]
    exact this
  | cons f bs hf _ ih =>
    intro pre hs m
    rw [← List.append_assoc] at hs ⊢
    refine loop_piece ho hs hf ?_
    have := ih hs (keep m f)
    rw [List.length_append, hk] at this
    exact this

theorem ofNat_toInt {n : Nat} (h : n < 2 ^ 63) : (BitVec.ofNat 64 n).toInt = n := by
  have h1 : (BitVec.ofNat 64 n).toNat = n := by rw [BitVec.toNat_ofNat]; omega
  rw [BitVec.toInt_eq_toNat_of_lt (by rw [h1]; omega), h1]

theorem readLength_enc {pre c post : Bytes} (hs : Small (pre ++ (varint c.length ++ c) ++ post)) :
    readLength (pre ++ (varint c.length ++ c) ++ post) pre.length =
      .ok (((pre.length + (varint c.length).length : Nat) : Int), ((pre.length + (varint c.length).length + c.length : Nat) : Int)) := by
  have hl : dlen (pre ++ (varint c.length ++ c) ++ post) = pre.length + (varint c.length).length + c.length + post.length := by simp [dlen]; omega
  simp only [Small] at hs
  have e : pre ++ (varint c.length ++ c) ++ post = pre ++ varint c.length ++ (c ++ post) := by simp
  have hr := readVarint_enc 64 (n := c.length) (by omega) pre (c ++ post)
  rw [← e] at hr
  unfold readLength
  rw [hr, ubind_ok]
  dsimp only
  rw [ofNat_toInt (by omega), if_neg (by omega), wrap64_lo (by omega) (by omega), if_neg (by omega), if_neg (by omega)]
  congr 1

theorem slice_contents {pre c post : Bytes} :
    slice (pre ++ (varint c.length ++ c) ++ post) ((pre.length + (varint c.length).length : Nat) : Int) ((pre.length + (varint c.length).length + c.length : Nat) : Int) = .ok c := by
  have := slice_mid (pre := pre ++ varint c.length) (f := c) (post := post)
  rw [List.length_append] at this
  rw [show pre ++ (varint c.length ++ c) ++ post = pre ++ varint c.length ++ c ++ post by simp]
  exact this

theorem lengthCase_enc {σ : Type} {pre c post : Bytes} (hs : Small (pre ++ (varint c.length ++ c) ++ post)) {body : Bytes → UOut σ} {v : σ} (hb : body c = .ok v) :
    lengthCase (pre ++ (varint c.length ++ c) ++ post) 2 pre.length body = .ok (v, ((pre.length + (varint c.length).length + c.length : Nat) : Int)) := by
  rw [lengthCase, if_neg (by simp), readLength_enc hs, ubind_ok]
  dsimp only
  rw [slice_contents, ubind_ok, hb, ubind_ok]

/-- A length-delimited field. -/
theorem loop_len {σ : Type} {handle : Nat → Nat → Int → σ → Option (UOut (σ × Int))} {keep : σ → Bytes → σ} {pre c post : Bytes} {num : Nat} (h0 : 0 < num) (h : num < 2 ^ 29)
    {m m' : σ} {r : UOut σ} (hs : Small (pre ++ lenField num c ++ post))
    (hh : ∀ p : Bytes, p = pre ++ tag num 2 → pre ++ lenField num c ++ post = p ++ (varint c.length ++ c) ++ post →
      handle num 2 p.length m = some (.ok (m', ((p.length + (varint c.length).length + c.length : Nat) : Int))))
    (hl : Loop (pre ++ lenField num c ++ post) handle keep ((pre.length + (lenField num c).length : Nat) : Int) m' r) :
    Loop (pre ++ lenField num c ++ post) handle keep pre.length m r := by
  have e : pre ++ lenField num c ++ post = pre ++ tag num 2 ++ (varint c.length ++ c ++ post) := by simp [lenField]
  have hpos : 0 < (tag num 2).length := varint_pos _
  have hh := hh _ rfl (by rw [e]; simp)
  rw [e]
  refine loop_known h0 h (by omega) (by omega) (j := ((pre.length + (lenField num c).length : Nat) : Int)) (m' := m') ?_ ?_ ?_
  · simp only [lenField, List.length_append]; omega
  · rw [List.length_append] at hh
    rw [hh]
    simp only [lenField, List.length_append]
    congr 4
    omega
  · rw [← e]; exact hl

/-! ## Arrays and objects -/

/-- `value` decodes the encoding of `v`. -/
def Dec (value : Bytes → UOut ValueMsg) (v : PValue) : Prop := ∃ k u, v = .mk k u ∧ value (encValue v) = .ok ⟨k, u⟩

theorem items_loop {value : Bytes → UOut ValueMsg} {keep : ArrayMsg → Bytes → ArrayMsg} {r : UOut ArrayMsg} {d post u : Bytes} (hs : Small d) :
    ∀ (vs : List PValue) (pre : Bytes) (acc : List PValue), (∀ v ∈ vs, Dec value v) → d = pre ++ encItems vs ++ post →
      Loop d (handleArray value d) keep ((pre.length + (encItems vs).length : Nat) : Int) ⟨acc ++ vs, u⟩ r → Loop d (handleArray value d) keep pre.length ⟨acc, u⟩ r
  | [], pre, acc, _, _, h => by simpa [encItems] using h
  | v :: vs, pre, acc, hv, hd, h => by
    have ih := items_loop (value := value) (keep := keep) (r := r) (post := post) (u := u) hs vs (pre ++ lenField 1 (encValue v)) (acc ++ [v])
      (fun x hx => hv x (List.mem_cons_of_mem _ hx)) (by rw [hd]; simp [encItems])
    simp only [encItems, List.length_append] at h ih
    have e : d = pre ++ lenField 1 (encValue v) ++ (encItems vs ++ post) := by rw [hd]; simp [encItems]
    obtain ⟨k, un, rfl, hval⟩ := hv v (List.mem_cons_self ..)
    rw [e] at hs
    have key := loop_len (handle := handleArray value d) (keep := keep) (pre := pre) (c := encValue (.mk k un)) (post := encItems vs ++ post) (num := 1) (by omega) (by omega)
      (m := ⟨acc, u⟩) (m' := ⟨acc ++ [.mk k un], u⟩) (r := r) hs ?_ ?_
    · rw [← e] at key; exact key
    · intro p _ hdp
      simp only [handleArray]
      rw [e, hdp]
      rw [hdp] at hs
      congr 1
      exact lengthCase_enc hs (by rw [hval]; rfl)
    · rw [← e]
      refine ih ?_
      rw [List.append_assoc, List.singleton_append]
      rw [Nat.add_assoc]
      exact h

theorem array_dec {value : Bytes → UOut ValueMsg} {vs : List PValue} {u : Bytes} (hs : Small (encItems vs ++ u)) (hv : ∀ v ∈ vs, Dec value v) (hu : Pieces 1 u) :
    unmarshalArray value (encItems vs ++ u) = .ok ⟨vs, u⟩ := by
  refine fields_loop ?_
  refine items_loop (post := u) hs vs [] [] hv rfl ?_
  have := loop_pieces (handle := handleArray value (encItems vs ++ u)) (keep := fun (m : ArrayMsg) u => { m with unrec := m.unrec ++ u }) (own_array _ _) (by simp) (by simp) hu hs ⟨vs, []⟩
  simpa using this

theorem setField_fresh {es : List (Bytes × PValue)} {k : Bytes} {v : PValue} (h : k ∉ es.map Prod.fst) : setField es k v = (k, v) :: es := by
  rw [setField, List.filter_eq_self.2]
  intro e he
  have : e.1 ≠ k := fun hk => h (hk ▸ List.mem_map_of_mem he)
  simpa using this

theorem entry_dec {value : Bytes → UOut ValueMsg} {p k post : Bytes} {v : PValue} (hv : v = .nil ∨ Dec value v) {d : Bytes}
    (hd : d = p ++ (lenField 1 k ++ (if v.isNil then [] else lenField 2 (encValue v))) ++ post) (hs : Small d) :
    entryLoop value d ((p.length + (lenField 1 k ++ (if v.isNil then [] else lenField 2 (encValue v))).length : Nat) : Int) (d.length + 1) p.length [] .nil = .ok (k, v) := by
  have hl1 := lenField_length (show 1 < 15 by omega) k
  have t1 : (tag 1 2).length = 1 := by rw [tag_len (by omega)]; rfl
  have t2 : (tag 2 2).length = 1 := by rw [tag_len (by omega)]; rfl
  obtain ⟨n, hn⟩ : ∃ n, d.length + 1 = n + 1 + 1 + 1 := ⟨d.length - 2, by rw [hd]; simp only [List.length_append, hl1]; have := varint_pos k.length; omega⟩
  have hvp := varint_pos k.length
  have d1 : d = p ++ tag 1 2 ++ (varint k.length ++ k ++ (if v.isNil then [] else lenField 2 (encValue v)) ++ post) := by rw [hd]; simp [lenField]
  have d2 : d = (p ++ tag 1 2) ++ (varint k.length ++ k) ++ ((if v.isNil then [] else lenField 2 (encValue v)) ++ post) := by rw [hd]; simp [lenField]
  have r1 : readVarint 64 d p.length = .ok (BitVec.ofNat 64 (1 * 8 + 2), ((p.length + (tag 1 2).length : Nat) : Int)) := by
    rw [d1]; exact readVarint_enc 64 (by omega) _ _
  have r2 := readLength_enc (pre := p ++ tag 1 2) (c := k) (post := (if v.isNil then [] else lenField 2 (encValue v)) ++ post) (by rw [← d2]; exact hs)
  rw [← d2, List.length_append] at r2
  have r3 : slice d ((p.length + (tag 1 2).length + (varint k.length).length : Nat) : Int) ((p.length + (tag 1 2).length + (varint k.length).length + k.length : Nat) : Int) = .ok k := by
    have := slice_contents (pre := p ++ tag 1 2) (c := k) (post := (if v.isNil then [] else lenField 2 (encValue v)) ++ post)
    rw [← d2, List.length_append] at this
    exact this
  rw [hn]
  simp only [entryLoop]
  rw [if_pos (by simp only [List.length_append, hl1]; omega), r1, ubind_ok]
  dsimp only
  rw [fieldNumber_tag (by omega) (by omega), if_pos (show ((1 : Nat) : Int) = 1 by omega), r2, ubind_ok]
  dsimp only
  rw [r3, ubind_ok]
  rcases hv with rfl | ⟨kd, u, rfl, hval⟩
  · rw [if_neg (by simp only [PValue.isNil, if_true, List.length_append, List.length_nil, hl1, t1]; omega)]
  · simp only [PValue.isNil, Bool.false_eq_true, if_false] at *
    have hl2 := lenField_length (show 2 < 15 by omega) (encValue (.mk kd u))
    have hvp2 := varint_pos (encValue (.mk kd u)).length
    have d3 : d = (p ++ lenField 1 k) ++ tag 2 2 ++ (varint (encValue (.mk kd u)).length ++ encValue (.mk kd u) ++ post) := by rw [hd]; simp [lenField]
    have d4 : d = (p ++ lenField 1 k ++ tag 2 2) ++ (varint (encValue (.mk kd u)).length ++ encValue (.mk kd u)) ++ post := by rw [hd]; simp [lenField]
    have lp : p.length + (tag 1 2).length + (varint k.length).length + k.length = (p ++ lenField 1 k).length := by simp only [List.length_append, hl1, t1]; omega
    have q1 : readVarint 64 d (p ++ lenField 1 k).length = .ok (BitVec.ofNat 64 (2 * 8 + 2), (((p ++ lenField 1 k).length + (tag 2 2).length : Nat) : Int)) := by
      rw [d3]; exact readVarint_enc 64 (by omega) _ _
    have q2 := readLength_enc (pre := p ++ lenField 1 k ++ tag 2 2) (c := encValue (.mk kd u)) (post := post) (by rw [← d4]; exact hs)
    rw [← d4, List.length_append (as := p ++ lenField 1 k)] at q2
    have q3 := slice_contents (pre := p ++ lenField 1 k ++ tag 2 2) (c := encValue (.mk kd u)) (post := post)
    rw [← d4, List.length_append (as := p ++ lenField 1 k)] at q3
    rw [lp, if_pos (by simp only [List.length_append, hl2]; omega), q1, ubind_ok]
    dsimp only
    rw [fieldNumber_tag (by omega) (by omega), if_neg (by omega), if_pos (by omega), q2, ubind_ok]
    dsimp only
    rw [q3, ubind_ok, hval, ubind_ok, if_neg (by simp only [List.length_append, hl1, hl2, t2]; omega)]

theorem fields_dec_loop {value : Bytes → UOut ValueMsg} {keep : ObjectMsg → Bytes → ObjectMsg} {r : UOut ObjectMsg} {d u : Bytes} (hs : Small d) :
    ∀ (es : List (Bytes × PValue)) (post : Bytes), (∀ e ∈ es, e.2 = .nil ∨ Dec value e.2) → (es.map Prod.fst).Nodup → d = encFields es ++ post →
      Loop d (handleObject value d) keep ((encFields es).length : Nat) ⟨es, u⟩ r → Loop d (handleObject value d) keep 0 ⟨[], u⟩ r
  | [], _, _, _, _, h => by simpa [encFields] using h
  | (k, v) :: es, post, hv, hnd, hd, h => by
    have e : d = encFields es ++ lenField 1 (lenField 1 k ++ (if v.isNil then [] else lenField 2 (encValue v))) ++ post := by rw [hd]; simp [encFields]
    simp only [List.map_cons, List.nodup_cons] at hnd
    refine fields_dec_loop hs es (lenField 1 (lenField 1 k ++ (if v.isNil then [] else lenField 2 (encValue v))) ++ post) (fun x hx => hv x (List.mem_cons_of_mem _ hx)) hnd.2
      (by rw [e]; simp) ?_
    have hs' := hs
    rw [e] at hs'
    have key := loop_len (handle := handleObject value d) (keep := keep) (pre := encFields es) (c := lenField 1 k ++ (if v.isNil then [] else lenField 2 (encValue v))) (post := post)
      (num := 1) (by omega) (by omega) (m := ⟨es, u⟩) (m' := ⟨(k, v) :: es, u⟩) (r := r) hs' ?_ ?_
    · rw [← e] at key; exact key
    · intro p _ hdp
      rw [← e] at hdp
      have hc : d = p ++ varint (lenField 1 k ++ (if v.isNil then [] else lenField 2 (encValue v))).length ++ (lenField 1 k ++ (if v.isNil then [] else lenField 2 (encValue v))) ++ post := by
        rw [hdp]; simp
      have hsd := hs
      rw [hdp] at hsd
      have hrl := readLength_enc hsd
      rw [← hdp] at hrl
      have hen := entry_dec (value := value) (hv (k, v) (List.mem_cons_self ..)) hc hs
      rw [List.length_append (as := p)] at hen
      simp only [handleObject, ne_eq, not_true, if_false]
      rw [hrl, ubind_ok]
      dsimp only
      rw [hen, ubind_ok]
      dsimp only
      rw [setField_fresh hnd.1]
    · rw [← e]
      simp only [encFields, List.length_append (as := encFields es)] at h
      exact h

theorem object_dec {value : Bytes → UOut ValueMsg} {es : List (Bytes × PValue)} {u : Bytes} (hs : Small (encFields es ++ u)) (hv : ∀ e ∈ es, e.2 = .nil ∨ Dec value e.2)
    (hnd : (es.map Prod.fst).Nodup) (hu : Pieces 1 u) : unmarshalObject value (encFields es ++ u) ⟨[], []⟩ = .ok ⟨es, u⟩ := by
  refine fields_loop ?_
  refine fields_dec_loop hs es u hv hnd rfl ?_
  have := loop_pieces (handle := handleObject value (encFields es ++ u)) (keep := fun (m : ObjectMsg) u => { m with unrec := m.unrec ++ u }) (own_object _ _) (by simp) (by simp) hu hs ⟨es, []⟩
  simpa using this

/-! ## Values -/

theorem leBytes_round : ∀ (k n : Nat), n < 256 ^ k → (leBytes k n).foldr (fun x acc => x.toNat + 256 * acc) 0 = n
  | 0, n, h => by simp at h; simp [leBytes, h]
  | k + 1, n, h => by
    have ih := leBytes_round k (n / 256) (by
      apply Nat.div_lt_of_lt_mul
      rw [Nat.mul_comm, ← Nat.pow_succ]
      exact h)
    rw [leBytes, List.foldr_cons, ih, UInt8.toNat_ofNat', Nat.mod_mod]
    exact Nat.mod_add_div n 256

theorem le64_round (v : BitVec 64) : uint64le (le64 v) = v := by
  rw [uint64le, le64, leBytes_round 8 v.toNat (by rw [show 256 ^ 8 = 2 ^ (8 * 8) from (Nat.pow_mul 2 8 8).symm]; exact v.isLt)]
  simp

theorem signExtend_round (v : BitVec 32) : BitVec.ofNat 32 (v.signExtend 64).toNat = v := by
  apply BitVec.eq_of_getLsbD_eq
  intro i hi
  rw [BitVec.getLsbD_ofNat, ← BitVec.getLsbD, BitVec.getLsbD_signExtend]
  simp [hi]
  omega

/-- A varint field. -/
theorem loop_varint {σ : Type} {handle : Nat → Nat → Int → σ → Option (UOut (σ × Int))} {keep : σ → Bytes → σ} {pre post : Bytes} {num n w : Nat} (h0 : 0 < num) (h : num < 2 ^ 29)
    (hn : n < 2 ^ 64) {m m' : σ} {r : UOut σ}
    (hh : ∀ (i j : Int), readVarint w (pre ++ varintField num n ++ post) i = .ok (BitVec.ofNat w n, j) → handle num 0 i m = some (.ok (m', j)))
    (hl : Loop (pre ++ varintField num n ++ post) handle keep ((pre.length + (varintField num n).length : Nat) : Int) m' r) :
    Loop (pre ++ varintField num n ++ post) handle keep pre.length m r := by
  have e : pre ++ varintField num n ++ post = pre ++ tag num 0 ++ (varint n ++ post) := by simp [varintField]
  have e2 : pre ++ varintField num n ++ post = (pre ++ tag num 0) ++ varint n ++ post := by simp [varintField]
  have hpos : 0 < (tag num 0).length := varint_pos _
  have hr := readVarint_enc w hn (pre ++ tag num 0) post
  rw [← e2] at hr
  have := hh _ _ hr
  rw [e]
  refine loop_known h0 h (by omega) (by omega) (j := ((pre.length + (varintField num n).length : Nat) : Int)) (m' := m') ?_ ?_ ?_
  · simp only [varintField, List.length_append]; omega
  · rw [List.length_append] at this
    rw [this]
    simp only [varintField, List.length_append]
    congr 4
    omega
  · rw [← e]; exact hl

theorem kind_loop {value : Bytes → UOut ValueMsg} {keep : ValueMsg → Bytes → ValueMsg} {r : UOut ValueMsg} {k : PKind} {u d : Bytes} (hd : d = encKind k ++ u) (hs : Small d) (hk : WfKind Pieces k)
    (hitems : ∀ items w, k = .array (.mk items w) → ∀ v ∈ items, Dec value v)
    (hfields : ∀ fs w, k = .object (.mk fs w) → ∀ e ∈ fs, e.2 = .nil ∨ Dec value e.2)
    (hl : Loop d (handleValue value d) keep ((encKind k).length : Nat) ⟨k, []⟩ r) : Loop d (handleValue value d) keep 0 ⟨.unset, []⟩ r := by
  have zero : (0 : Int) = (([] : Bytes).length : Nat) := rfl
  cases k with
  | unset => simpa [encKind] using hl
  | null v =>
    subst hd
    rw [zero]
    refine loop_varint (pre := []) (w := 32) (m' := ⟨.null v, []⟩) (by omega) (by omega) (BitVec.isLt _) ?_ (by simpa [encKind] using hl)
    intro i j hr
    simp only [List.nil_append] at hr
    simp only [handleValue, varintCase, encKind, hr, ne_eq, not_true, if_false, ubind_ok, signExtend_round]
  | array a =>
    cases a with
    | nil => exact hk.elim
    | mk items w =>
      subst hd
      rw [zero]
      refine loop_len (pre := []) (m' := ⟨.array (.mk items w), []⟩) (by omega) (by omega) (by simpa [encKind] using hs) ?_ (by simpa [encKind] using hl)
      intro p hp hdp
      rw [List.nil_append] at hdp
      have e : encKind (.array (.mk items w)) ++ u = p ++ (varint (encItems items ++ w).length ++ (encItems items ++ w)) ++ u := by rw [encKind, hdp]
      have hs' := hs
      rw [e] at hs'
      have ha := array_dec (value := value) (hs'.mono (by simp; omega)) (hitems items w rfl) hk.2
      simp only [handleValue]
      rw [e, lengthCase_enc hs' (v := PKind.array (.mk items w)) (by rw [ha]; rfl)]
      rfl
  | boolean b =>
    subst hd
    rw [zero]
    refine loop_varint (pre := []) (w := 64) (n := if b then 1 else 0) (m' := ⟨.boolean b, []⟩) (by omega) (by omega) (by cases b <;> simp) ?_ (by simpa [encKind] using hl)
    intro i j hr
    simp only [List.nil_append] at hr
    simp only [handleValue, varintCase, encKind, hr, ne_eq, not_true, if_false, ubind_ok]
    cases b <;> rfl
  | float f =>
    subst hd
    rw [zero]
    have e : encKind (.float f) ++ u = [] ++ tag 4 1 ++ (le64 f ++ u) := by simp [encKind]
    have e2 : encKind (.float f) ++ u = tag 4 1 ++ le64 f ++ u := by simp [encKind]
    have t : (tag 4 1).length = 1 := by rw [tag_len (by omega)]; rfl
    have hlen : dlen (encKind (.float f) ++ u) = 9 + u.length := by simp only [dlen, e2, List.length_append, t, le64_length]; omega
    have hsl := slice_mid (pre := tag 4 1) (f := le64 f) (post := u)
    rw [t, le64_length, ← e2] at hsl
    have key := loop_known (handle := handleValue value (encKind (.float f) ++ u)) (keep := keep) (pre := []) (post := le64 f ++ u) (num := 4) (wt := 1) (m := ⟨.unset, []⟩) (m' := ⟨.float f, []⟩)
      (j := 9) (r := r) (by omega) (by omega) (by omega) (by omega) (by simp) ?_ ?_
    · rw [← e] at key; exact key
    · rw [t]
      simp only [List.length_nil, handleValue, float64Case, ne_eq, not_true, if_false]
      rw [if_neg (by rw [wrap64_lo (by omega) (by omega), hlen]; omega)]
      rw [show (((0 + 1 : Nat) : Int) + 8) = ((1 + 8 : Nat) : Int) from rfl, show ((0 + 1 : Nat) : Int) = ((1 : Nat) : Int) from rfl, hsl]
      simp only [ubind_ok, le64_round]
      rfl
    · rw [← e]
      have : (((encKind (.float f)).length : Nat) : Int) = 9 := by simp only [encKind, List.length_append, t, le64_length]; rfl
      rw [this] at hl
      exact hl
  | integer v =>
    subst hd
    rw [zero]
    refine loop_varint (pre := []) (w := 64) (m' := ⟨.integer v, []⟩) (by omega) (by omega) (BitVec.isLt _) ?_ (by simpa [encKind] using hl)
    intro i j hr
    simp only [List.nil_append] at hr
    simp only [handleValue, varintCase, encKind, hr, ne_eq, not_true, if_false, ubind_ok, BitVec.ofNat_toNat, BitVec.setWidth_eq]
  | object o =>
    cases o with
    | nil => exact hk.elim
    | mk fs w =>
      subst hd
      rw [zero]
      refine loop_len (pre := []) (m' := ⟨.object (.mk fs w), []⟩) (by omega) (by omega) (by simpa [encKind] using hs) ?_ (by simpa [encKind] using hl)
      intro p hp hdp
      rw [List.nil_append] at hdp
      have e : encKind (.object (.mk fs w)) ++ u = p ++ (varint (encFields fs ++ w).length ++ (encFields fs ++ w)) ++ u := by rw [encKind, hdp]
      have hs' := hs
      rw [e] at hs'
      have ha := object_dec (value := value) (hs'.mono (by simp; omega)) (hfields fs w rfl) ((wfFields_iff _ _).1 hk.1).2 hk.2
      simp only [handleValue]
      rw [e, lengthCase_enc hs' (v := PKind.object (.mk fs w)) (by rw [ha]; rfl)]
      rfl
  | string s =>
    cases s with
    | none => exact hk.elim
    | some s =>
      subst hd
      rw [zero]
      refine loop_len (pre := []) (m' := ⟨.string (some s), []⟩) (by omega) (by omega) (by simpa [encKind] using hs) ?_ (by simpa [encKind] using hl)
      intro p hp hdp
      rw [List.nil_append] at hdp
      have e : encKind (.string (some s)) ++ u = p ++ (varint s.length ++ s) ++ u := by rw [encKind, hdp]
      rw [e] at hs
      simp only [handleValue]
      rw [e, lengthCase_enc hs (v := PKind.string (some s)) rfl]
      rfl
  | timestamp v =>
    subst hd
    rw [zero]
    refine loop_varint (pre := []) (w := 64) (m' := ⟨.timestamp v, []⟩) (by omega) (by omega) (BitVec.isLt _) ?_ (by simpa [encKind] using hl)
    intro i j hr
    simp only [List.nil_append] at hr
    simp only [handleValue, varintCase, encKind, hr, ne_eq, not_true, if_false, ubind_ok, BitVec.ofNat_toNat, BitVec.setWidth_eq]
  | unsigned v =>
    subst hd
    rw [zero]
    refine loop_varint (pre := []) (w := 64) (m' := ⟨.unsigned v, []⟩) (by omega) (by omega) (BitVec.isLt _) ?_ (by simpa [encKind] using hl)
    intro i j hr
    simp only [List.nil_append] at hr
    simp only [handleValue, varintCase, encKind, hr, ne_eq, not_true, if_false, ubind_ok, BitVec.ofNat_toNat, BitVec.setWidth_eq]

theorem value_dec_step {n : Nat} {k : PKind} {u : Bytes} (hs : Small (encValue (.mk k u))) (hk : WfKind Pieces k) (hu : Pieces 9 u)
    (hitems : ∀ items w, k = .array (.mk items w) → ∀ v ∈ items, Dec (unmarshalValue n) v)
    (hfields : ∀ fs w, k = .object (.mk fs w) → ∀ e ∈ fs, e.2 = .nil ∨ Dec (unmarshalValue n) e.2) :
    unmarshalValue (n + 1) (encValue (.mk k u)) = .ok ⟨k, u⟩ := by
  rw [unmarshalValue]
  refine fields_loop (kind_loop (by rw [encValue]) hs hk hitems hfields ?_)
  have := loop_pieces (handle := handleValue (unmarshalValue n) (encValue (.mk k u))) (keep := fun (m : ValueMsg) u => { m with unrec := m.unrec ++ u }) (own_value _ _) (by simp) (by simp) hu
    (pre := encKind k) (by rw [encValue] at hs; exact hs) ⟨k, []⟩
  simpa [encValue] using this

mutual
theorem value_dec : ∀ (v : PValue), WfValue Pieces v → Small (encValue v) → ∀ (n : Nat), (encValue v).length < n → Dec (unmarshalValue n) v
  | .nil, h, _, _, _ => h.elim
  | .mk k u, h, hs, n, hn => by
    obtain ⟨j, hj⟩ : ∃ j, n = j + 1 := ⟨n - 1, by omega⟩
    simp only [encValue, List.length_append] at hn
    have hkd := kind_dec k h.1 (hs.mono (by simp only [encValue, List.length_append]; omega)) j (by omega)
    rw [hj]
    exact ⟨k, u, rfl, value_dec_step hs h.1 h.2 hkd.1 hkd.2⟩
theorem kind_dec : ∀ (k : PKind), WfKind Pieces k → Small (encKind k) → ∀ (n : Nat), (encKind k).length ≤ n →
    (∀ items w, k = .array (.mk items w) → ∀ v ∈ items, Dec (unmarshalValue n) v) ∧
    (∀ fs w, k = .object (.mk fs w) → ∀ e ∈ fs, e.2 = .nil ∨ Dec (unmarshalValue n) e.2)
  | .array (.mk items w), h, hs, n, hn => by
    have hl := lenField_length (show 2 < 15 by omega) (encItems items ++ w)
    simp only [encKind, List.length_append] at hn hl
    have := items_dec items h.1 (hs.mono (by simp only [encKind]; omega)) n (by omega)
    exact ⟨by rintro _ _ ⟨⟩; exact this, by rintro _ _ ⟨⟩⟩
  | .object (.mk fs w), h, hs, n, hn => by
    have hl := lenField_length (show 6 < 15 by omega) (encFields fs ++ w)
    simp only [encKind, List.length_append] at hn hl
    have := entries_dec fs h.1 (hs.mono (by simp only [encKind]; omega)) n (by omega)
    exact ⟨by rintro _ _ ⟨⟩, by rintro _ _ ⟨⟩; exact this⟩
  | .unset, _, _, _, _ => ⟨(nomatch ·, ·, ·), (nomatch ·, ·, ·)⟩
  | .array .nil, _, _, _, _ => ⟨by rintro _ _ ⟨⟩, by rintro _ _ ⟨⟩⟩
  | .object .nil, _, _, _, _ => ⟨by rintro _ _ ⟨⟩, by rintro _ _ ⟨⟩⟩
  | .null _, _, _, _, _ => ⟨by rintro _ _ ⟨⟩, by rintro _ _ ⟨⟩⟩
  | .boolean _, _, _, _, _ => ⟨by rintro _ _ ⟨⟩, by rintro _ _ ⟨⟩⟩
  | .float _, _, _, _, _ => ⟨by rintro _ _ ⟨⟩, by rintro _ _ ⟨⟩⟩
  | .integer _, _, _, _, _ => ⟨by rintro _ _ ⟨⟩, by rintro _ _ ⟨⟩⟩
  | .string _, _, _, _, _ => ⟨by rintro _ _ ⟨⟩, by rintro _ _ ⟨⟩⟩
  | .timestamp _, _, _, _, _ => ⟨by rintro _ _ ⟨⟩, by rintro _ _ ⟨⟩⟩
  | .unsigned _, _, _, _, _ => ⟨by rintro _ _ ⟨⟩, by rintro _ _ ⟨⟩⟩
theorem items_dec : ∀ (vs : List PValue), WfItems Pieces vs → Small (encItems vs) → ∀ (n : Nat), (encItems vs).length < n → ∀ v ∈ vs, Dec (unmarshalValue n) v
  | [], _, _, _, _, v, h => by simp at h
  | x :: vs, h, hs, n, hn, v, hv => by
    have hl := lenField_length (show 1 < 15 by omega) (encValue x)
    simp only [encItems, List.length_append] at hn
    have h1 := value_dec x h.1 (hs.mono (by simp only [encItems, List.length_append]; omega)) n (by omega)
    have h2 := items_dec vs h.2 (hs.mono (by simp only [encItems, List.length_append]; omega)) n (by omega)
    rcases List.mem_cons.1 hv with hx | hx
    · rw [hx]; exact h1
    · exact h2 v hx
theorem entries_dec : ∀ (es : List (Bytes × PValue)), WfFields Pieces es → Small (encFields es) → ∀ (n : Nat), (encFields es).length < n →
    ∀ e ∈ es, e.2 = .nil ∨ Dec (unmarshalValue n) e.2
  | [], _, _, _, _, v, h => by simp at h
  | (k, x) :: es, h, hs, n, hn, e, he => by
    have hl := lenField_length (show 1 < 15 by omega) (lenField 1 k ++ (if x.isNil then [] else lenField 2 (encValue x)))
    have hl2 := lenField_length (show 2 < 15 by omega) (encValue x)
    simp only [encFields, List.length_append] at hn hl
    have h1 : WfValue Pieces x → Dec (unmarshalValue n) x := by
      intro hx
      have hn' : x.isNil = false := by
        generalize x = y at hx
        cases y <;> first | rfl | exact hx.elim
      simp only [hn', Bool.false_eq_true, if_false] at hn hl
      refine value_dec x hx (hs.mono ?_) n (by omega)
      simp only [encFields, List.length_append, hn', Bool.false_eq_true, if_false]; omega
    have h2 := entries_dec es h.2.2 (hs.mono (by simp only [encFields, List.length_append]; omega)) n (by omega)
    rcases List.mem_cons.1 he with hx | hx
    · rw [hx]
      exact h.1.imp id h1
    · exact h2 e hx
end

end Sawmill.Wire
