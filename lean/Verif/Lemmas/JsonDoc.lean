import Verif.Lemmas.JsonNum
/-!
# JSON texts: the scanner accepts the texts of the grammar, and reads what they stand for
-/

namespace Sawmill
open Rfc

theorem isWs_iff {b : UInt8} : isWs b = true ↔ b = 32 ∨ b = 9 ∨ b = 10 ∨ b = 13 := by
  simp [isWs, or_assoc]

theorem dropWs {w l : Bytes} (hw : Ws w) (hl : ∀ b r, l = b :: r → isWs b = false) : (w ++ l).dropWhile isWs = l := by
  induction w with
  | nil =>
    cases l with
    | nil => rfl
    | cons b r => simp [List.dropWhile, hl b r rfl]
  | cons b w ih =>
    have hb : isWs b = true := isWs_iff.2 (hw b (by simp))
    simp only [List.cons_append, List.dropWhile, hb]
    exact ih (fun x hx => hw x (by simp [hx]))

theorem dropWs_cons {w r : Bytes} {b : UInt8} (hw : Ws w) (hb : isWs b = false) : (w ++ b :: r).dropWhile isWs = b :: r := by
  refine dropWs hw ?_
  intro b' r' h
  simp only [List.cons.injEq] at h
  rw [← h.1]; exact hb

theorem dropWs_split (l : Bytes) : ∃ w, l = w ++ l.dropWhile isWs ∧ Ws w := by
  refine ⟨l.takeWhile isWs, List.takeWhile_append_dropWhile.symm, ?_⟩
  intro b hb
  have : isWs b = true := by
    induction l with
    | nil => simp at hb
    | cons x l ih =>
      simp only [List.takeWhile] at hb
      split at hb
      · next hx =>
        simp only [List.mem_cons] at hb
        rcases hb with rfl | hb
        · exact hx
        · exact ih hb
      · simp at hb
  exact isWs_iff.1 this

theorem ws_nil : Ws [] := by intro b hb; simp at hb

/-- A byte that does not continue a number. -/
def delimByte (b : UInt8) : Bool := !isDigit b && b != 46 && b != 101 && b != 69 && b != 43 && b != 45

theorem delim_cons {b : UInt8} {r : Bytes} (h : delimByte b = true) : Delim (b :: r) := by
  intro s b' r' he
  simp only [List.cons.injEq] at he
  obtain ⟨rfl, rfl⟩ := he
  simp only [delimByte, Bool.and_eq_true, Bool.not_eq_true', bne_iff_ne, ne_eq] at h
  obtain ⟨⟨⟨⟨⟨h1, h2⟩, h3⟩, h4⟩, h5⟩, h6⟩ := h
  have h7 : b ≠ 48 := by rintro rfl; revert h1; decide
  cases s <;> simp [NState.step, h1, h2, h3, h4, h5, h6, h7]

theorem delim_nil : Delim [] := by intro s b r h; simp at h

theorem delim_ws {w l : Bytes} (hw : Ws w) (hl : Delim l) : Delim (w ++ l) := by
  cases w with
  | nil => exact hl
  | cons b w =>
    refine delim_cons ?_
    rcases hw b (by simp) with rfl | rfl | rfl | rfl <;> decide

theorem delim_only_ws {w : Bytes} (hw : Ws w) : Delim w := by
  have := delim_ws hw delim_nil
  simpa using this

theorem lit_null : lit "null" = [110, 117, 108, 108] := by decide +kernel
theorem lit_true : lit "true" = [116, 114, 117, 101] := by decide +kernel
theorem lit_false : lit "false" = [102, 97, 108, 115, 101] := by decide +kernel

/-- How a text starts. -/
theorem text_head {j : Json} {t : Bytes} (h : Text j t) : ∃ b r, t = b :: r ∧ isWs b = false ∧ b ≠ 93 ∧ b ≠ 125 := by
  match j with
  | .null => simp only [Text] at h; exact ⟨_, _, h.trans lit_null, by decide, by decide, by decide⟩
  | .bool true => simp only [Text, ↓reduceIte] at h; exact ⟨_, _, h.trans lit_true, by decide, by decide, by decide⟩
  | .bool false => simp only [Text, Bool.false_eq_true, ↓reduceIte] at h; exact ⟨_, _, h.trans lit_false, by decide, by decide, by decide⟩
  | .num n =>
    simp only [Text] at h
    obtain ⟨rfl, h⟩ := h
    rcases number_iff.1 h with ⟨r, rfl, _⟩ | ⟨r, rfl, _⟩ | ⟨b, r, rfl, _, hd, _⟩
    · exact ⟨_, _, rfl, by decide, by decide, by decide⟩
    · exact ⟨_, _, rfl, by decide, by decide, by decide⟩
    · refine ⟨_, _, rfl, ?_, ?_, ?_⟩
      · rw [isDigit_iff] at hd
        cases hw : isWs b with
        | false => rfl
        | true =>
          rcases isWs_iff.1 hw with rfl | rfl | rfl | rfl <;> revert hd <;> decide
      · rintro rfl; revert hd; decide
      · rintro rfl; revert hd; decide
  | .str s => obtain ⟨u, rfl, _⟩ := h; exact ⟨_, _, rfl, by decide, by decide, by decide⟩
  | .arr [] => obtain ⟨u, rfl, _⟩ := h; exact ⟨_, _, rfl, by decide, by decide, by decide⟩
  | .arr (_ :: _) => obtain ⟨_, _, _, _, rfl, _⟩ := h; exact ⟨_, _, rfl, by decide, by decide, by decide⟩
  | .obj [] => obtain ⟨u, rfl, _⟩ := h; exact ⟨_, _, rfl, by decide, by decide, by decide⟩
  | .obj ((_, _) :: _) => obtain ⟨_, _, _, _, _, _, _, rfl, _⟩ := h; exact ⟨_, _, rfl, by decide, by decide, by decide⟩

/-- The value is read by the function, wherever it stands. -/
def ReadsAt (f : Bytes → Option (Json × Bytes)) (j : Json) (t : Bytes) : Prop :=
  ∀ w rest, Ws w → Delim rest → f (w ++ (t ++ rest)) = some (j, rest)

theorem ws_93 : isWs 93 = false := by decide
theorem ws_44 : isWs 44 = false := by decide
theorem ws_125 : isWs 125 = false := by decide
theorem ws_58 : isWs 58 = false := by decide
theorem ws_34 : isWs 34 = false := by decide

/-- What stands between the brackets, from the first item on. -/
theorem parseItems_end {f : Bytes → Option (Json × Bytes)} {j : Json} {u : Bytes} (hj : ReadsAt f j u) {w w' rest : Bytes} (hw : Ws w) (hw' : Ws w') (n : Nat) :
    parseItems f (n + 1) (w ++ (u ++ (w' ++ 93 :: rest))) = some ([j], rest) := by
  simp only [parseItems]
  rw [hj w _ hw (delim_ws hw' (delim_cons (by decide)))]
  simp only
  rw [dropWs_cons hw' ws_93]
  rfl

theorem parseItems_step {f : Bytes → Option (Json × Bytes)} {j : Json} {u : Bytes} (hj : ReadsAt f j u) {w w' l : Bytes} (hw : Ws w) (hw' : Ws w') (n : Nat) :
    parseItems f (n + 1) (w ++ (u ++ (w' ++ 44 :: l))) = (parseItems f n l).map fun x => (j :: x.1, x.2) := by
  simp only [parseItems]
  rw [hj w _ hw (delim_ws hw' (delim_cons (by decide)))]
  simp only
  rw [dropWs_cons hw' ws_44]
  rfl

theorem parseEntries_end {f : Bytes → Option (Json × Bytes)} {j : Json} {u q k : Bytes} (hj : ReadsAt f j u) (hq : Chars q k) {w w1 w2 w3 rest : Bytes}
    (hw : Ws w) (hw1 : Ws w1) (hw2 : Ws w2) (hw3 : Ws w3) (n : Nat) :
    parseEntries f (n + 1) (w ++ 34 :: (q ++ 34 :: (w1 ++ 58 :: (w2 ++ (u ++ (w3 ++ 125 :: rest)))))) = some ([(k, j)], rest) := by
  simp only [parseEntries]
  rw [dropWs_cons hw ws_34]
  simp only
  rw [unquote_complete hq _ _ (by simp)]
  simp only
  rw [dropWs_cons hw1 ws_58]
  simp only
  rw [hj w2 _ hw2 (delim_ws hw3 (delim_cons (by decide)))]
  simp only
  rw [dropWs_cons hw3 ws_125]
  rfl

theorem parseEntries_step {f : Bytes → Option (Json × Bytes)} {j : Json} {u q k : Bytes} (hj : ReadsAt f j u) (hq : Chars q k) {w w1 w2 w3 l : Bytes}
    (hw : Ws w) (hw1 : Ws w1) (hw2 : Ws w2) (hw3 : Ws w3) (n : Nat) :
    parseEntries f (n + 1) (w ++ 34 :: (q ++ 34 :: (w1 ++ 58 :: (w2 ++ (u ++ (w3 ++ 44 :: l)))))) = (parseEntries f n l).map fun x => ((k, j) :: x.1, x.2) := by
  simp only [parseEntries]
  rw [dropWs_cons hw ws_34]
  simp only
  rw [unquote_complete hq _ _ (by simp)]
  simp only
  rw [dropWs_cons hw1 ws_58]
  simp only
  rw [hj w2 _ hw2 (delim_ws hw3 (delim_cons (by decide)))]
  simp only
  rw [dropWs_cons hw3 ws_44]
  rfl

theorem digit_not {b : UInt8} (h : isDigit b = true) : b ≠ 34 ∧ b ≠ 91 ∧ b ≠ 123 ∧ b ≠ 116 ∧ b ≠ 102 ∧ b ≠ 110 ∧ b ≠ 45 := by
  refine ⟨?_, ?_, ?_, ?_, ?_, ?_, ?_⟩ <;> rintro rfl <;> revert h <;> decide

theorem parse_number {n : Bytes} (h : Number n) (d : Nat) : ReadsAt (parseValue d) (.num n) n := by
  intro w rest hw hd
  rcases number_iff.1 h with ⟨r, rfl, ha⟩ | ⟨r, rfl, ha⟩ | ⟨b, r, rfl, hb, hdig, ha⟩
  · unfold parseValue
    rw [List.cons_append, dropWs_cons hw (by decide)]
    simp [scanNum_complete r _ rest ha hd]
  · unfold parseValue
    rw [List.cons_append, dropWs_cons hw (by decide)]
    simp [scanNum_complete r _ rest ha hd]
  · obtain ⟨h1, h2, h3, h4, h5, h6, h7⟩ := digit_not hdig
    obtain ⟨b', r', he, hws, _⟩ := text_head (j := .num (b :: r)) (t := b :: r) ⟨rfl, h⟩
    simp only [List.cons.injEq] at he
    unfold parseValue
    rw [List.cons_append, dropWs_cons hw (he.1 ▸ hws)]
    simp [h1, h2, h3, h4, h5, h6, h7, hb, hdig, scanNum_complete r _ rest ha hd]

mutual
theorem parse_complete : ∀ (j : Json) (d : Nat) (t : Bytes), Text j t → depth j ≤ d → ReadsAt (parseValue d) j t
  | .null, d, t, h, hd => by
    intro w rest hw _
    rw [show t = _ from h, lit_null]
    unfold parseValue
    simp only [List.cons_append, List.nil_append]
    rw [dropWs_cons hw (by decide)]
    rfl
  | .bool true, d, t, h, hd => by
    intro w rest hw _
    simp only [Text, ↓reduceIte] at h
    rw [h, lit_true]
    unfold parseValue
    simp only [List.cons_append, List.nil_append]
    rw [dropWs_cons hw (by decide)]
    rfl
  | .bool false, d, t, h, hd => by
    intro w rest hw _
    simp only [Text, Bool.false_eq_true, ↓reduceIte] at h
    rw [h, lit_false]
    unfold parseValue
    simp only [List.cons_append, List.nil_append]
    rw [dropWs_cons hw (by decide)]
    rfl
  | .num n, d, t, h, hd => by
    obtain ⟨rfl, h⟩ := h
    exact parse_number h d
  | .str s, d, t, h, hd => by
    intro w rest hw _
    obtain ⟨u, rfl, hu⟩ := h
    unfold parseValue
    simp only [List.cons_append, List.append_assoc, List.nil_append]
    rw [dropWs_cons hw (by decide)]
    simp only [↓reduceIte]
    rw [unquote_complete hu _ _ (by simp)]
    rfl
  | .arr [], d, t, h, hd => by
    intro w rest hw _
    obtain ⟨u, rfl, hu⟩ := h
    unfold parseValue
    simp only [List.cons_append, List.append_assoc, List.nil_append]
    rw [dropWs_cons hw (by decide)]
    cases d with
    | zero => simp [depth] at hd
    | succ d =>
      simp only [show ¬ ((91 : UInt8) = 34) by decide, ↓reduceIte]
      rw [dropWs_cons hu ws_93]
      rfl
  | .arr (j :: js), d, t, h, hd => by
    intro w rest hw hdel
    obtain ⟨w1, u, w2, r, rfl, hw1, hw2, hj, hjs⟩ := h
    simp only [depth, depthL] at hd
    cases d with
    | zero => simp at hd
    | succ d =>
      have hrd := parse_complete j d u hj (by omega)
      have hit := items_complete js d r hjs (by omega) j u hrd (r.length + rest.length + w2.length + w1.length + u.length + 1) w1 w2 rest hw1 hw2 (by omega)
      obtain ⟨b, ur, rfl, hb, hb93, _⟩ := text_head hj
      unfold parseValue
      simp only [List.cons_append, List.append_assoc, List.nil_append] at hit ⊢
      rw [dropWs_cons hw (by decide)]
      simp only [show ¬ ((91 : UInt8) = 34) by decide, ↓reduceIte]
      rw [dropWs_cons hw1 hb]
      split
      · next he =>
        simp only [List.cons.injEq] at he
        exact absurd he.1 hb93
      · have hl : (w1 ++ b :: (ur ++ (w2 ++ (r ++ 93 :: rest)))).length = r.length + rest.length + w2.length + w1.length + (b :: ur).length + 1 := by
          simp only [List.length_append, List.length_cons]; omega
        rw [hl, hit]
        rfl
  | .obj [], d, t, h, hd => by
    intro w rest hw _
    obtain ⟨u, rfl, hu⟩ := h
    unfold parseValue
    simp only [List.cons_append, List.append_assoc, List.nil_append]
    rw [dropWs_cons hw (by decide)]
    cases d with
    | zero => simp [depth] at hd
    | succ d =>
      simp only [show ¬ ((123 : UInt8) = 34) by decide, show ¬ ((123 : UInt8) = 91) by decide, ↓reduceIte]
      rw [dropWs_cons hu ws_125]
      rfl
  | .obj ((k, j) :: es), d, t, h, hd => by
    intro w rest hw hdel
    obtain ⟨w0, q, w1, w2, u, w3, r, rfl, hw0, hw1, hw2, hw3, hq, hj, hes⟩ := h
    simp only [depth, depthE] at hd
    cases d with
    | zero => simp at hd
    | succ d =>
      have hrd := parse_complete j d u hj (by omega)
      have hit := entries_complete es d r hes (by omega) j u k q hrd hq (r.length + rest.length + w3.length + w2.length + w1.length + w0.length + q.length + u.length + 4) w0 w1 w2 w3 rest hw0 hw1 hw2 hw3 (by omega)
      unfold parseValue
      simp only [List.cons_append, List.append_assoc, List.nil_append] at hit ⊢
      rw [dropWs_cons hw (by decide)]
      simp only [show ¬ ((123 : UInt8) = 34) by decide, show ¬ ((123 : UInt8) = 91) by decide, ↓reduceIte]
      rw [dropWs_cons hw0 ws_34]
      have hl : (w0 ++ 34 :: (q ++ 34 :: (w1 ++ 58 :: (w2 ++ (u ++ (w3 ++ (r ++ 125 :: rest))))))).length = r.length + rest.length + w3.length + w2.length + w1.length + w0.length + q.length + u.length + 4 := by
        simp only [List.length_append, List.length_cons]; omega
      rw [hl, hit]
      rfl
theorem items_complete : ∀ (js : List Json) (d : Nat) (r : Bytes), TextItems js r → depthL js ≤ d → ∀ (j : Json) (u : Bytes), ReadsAt (parseValue d) j u →
    ∀ (n : Nat) (w w' rest : Bytes), Ws w → Ws w' → r.length < n → parseItems (parseValue d) n (w ++ (u ++ (w' ++ (r ++ 93 :: rest)))) = some (j :: js, rest)
  | [], d, r, h, hd, j, u, hj, n, w, w', rest, hw, hw', hn => by
    simp only [TextItems] at h
    subst h
    cases n with
    | zero => simp at hn
    | succ n => exact parseItems_end hj hw hw' n
  | j2 :: js, d, r, h, hd, j, u, hj, n, w, w', rest, hw, hw', hn => by
    obtain ⟨w1, u1, w2, r1, rfl, hw1, hw2, h1, h2⟩ := h
    simp only [depthL] at hd
    cases n with
    | zero => simp at hn
    | succ n =>
      have hrd := parse_complete j2 d u1 h1 (by omega)
      simp only [List.length_cons, List.length_append] at hn
      have := items_complete js d r1 h2 (by omega) j2 u1 hrd n w1 w2 rest hw1 hw2 (by omega)
      simp only [List.cons_append, List.append_assoc] at this ⊢
      rw [parseItems_step hj hw hw', this]
      rfl
theorem entries_complete : ∀ (es : List (Bytes × Json)) (d : Nat) (r : Bytes), TextEntries es r → depthE es ≤ d → ∀ (j : Json) (u k q : Bytes), ReadsAt (parseValue d) j u → Chars q k →
    ∀ (n : Nat) (w w1 w2 w3 rest : Bytes), Ws w → Ws w1 → Ws w2 → Ws w3 → r.length < n →
      parseEntries (parseValue d) n (w ++ 34 :: (q ++ 34 :: (w1 ++ 58 :: (w2 ++ (u ++ (w3 ++ (r ++ 125 :: rest))))))) = some ((k, j) :: es, rest)
  | [], d, r, h, hd, j, u, k, q, hj, hq, n, w, w1, w2, w3, rest, hw, hw1, hw2, hw3, hn => by
    simp only [TextEntries] at h
    subst h
    cases n with
    | zero => simp at hn
    | succ n => exact parseEntries_end hj hq hw hw1 hw2 hw3 n
  | (k', j2) :: es, d, r, h, hd, j, u, k, q, hj, hq, n, w, w1, w2, w3, rest, hw, hw1, hw2, hw3, hn => by
    obtain ⟨v0, q1, v1, v2, u1, v3, r1, rfl, hv0, hv1, hv2, hv3, hq1, h1, h2⟩ := h
    simp only [depthE] at hd
    cases n with
    | zero => simp at hn
    | succ n =>
      have hrd := parse_complete j2 d u1 h1 (by omega)
      simp only [List.length_cons, List.length_append] at hn
      have := entries_complete es d r1 h2 (by omega) j2 u1 k' q1 hrd hq1 n v0 v1 v2 v3 rest hv0 hv1 hv2 hv3 (by omega)
      simp only [List.cons_append, List.append_assoc] at this ⊢
      rw [parseEntries_step hj hq hw hw1 hw2 hw3, this]
      rfl
end

/-! ## Soundness -/

/-- Everything that the function reads is a text of the value. -/
def SoundAt (f : Bytes → Option (Json × Bytes)) (d : Nat) : Prop :=
  ∀ bs j rest, f bs = some (j, rest) → ∃ w t, bs = w ++ (t ++ rest) ∧ Ws w ∧ Text j t ∧ depth j ≤ d

theorem parseItems_sound {f : Bytes → Option (Json × Bytes)} {d : Nat} (hf : SoundAt f d) : ∀ (n : Nat) (bs rest : Bytes) (js : List Json), parseItems f n bs = some (js, rest) →
    ∃ j js' w u w' r, js = j :: js' ∧ bs = w ++ (u ++ (w' ++ (r ++ 93 :: rest))) ∧ Ws w ∧ Ws w' ∧ Text j u ∧ TextItems js' r ∧ depthL js ≤ d := by
  intro n
  induction n with
  | zero => intro bs rest js h; simp [parseItems] at h
  | succ n ih =>
    intro bs rest js h
    simp only [parseItems] at h
    cases hv : f bs with
    | none => rw [hv] at h; simp at h
    | some x =>
      obtain ⟨j, r0⟩ := x
      rw [hv] at h
      obtain ⟨w, u, rfl, hw, hu, hdep⟩ := hf _ _ _ hv
      obtain ⟨w', hw', hws'⟩ := dropWs_split r0
      simp only at h
      split at h
      · next l hl =>
        cases hp : parseItems f n l with
        | none => rw [hp] at h; simp at h
        | some y =>
          obtain ⟨js1, rest1⟩ := y
          rw [hp] at h
          simp only [Option.map_some, Option.some.injEq, Prod.mk.injEq] at h
          obtain ⟨rfl, rfl⟩ := h
          obtain ⟨j2, js2, w2, u2, w2', r2, rfl, rfl, h1, h2, h3, h4, h5⟩ := ih _ _ _ hp
          refine ⟨j, j2 :: js2, w, u, w', 44 :: (w2 ++ u2 ++ w2' ++ r2), rfl, ?_, hw, hws', hu, ⟨w2, u2, w2', r2, rfl, h1, h2, h3, h4⟩, ?_⟩
          · rw [hw', hl]; simp
          · rw [depthL]; omega
      · next l hl =>
        simp only [Option.some.injEq, Prod.mk.injEq] at h
        obtain ⟨rfl, rfl⟩ := h
        refine ⟨j, [], w, u, w', [], rfl, ?_, hw, hws', hu, rfl, ?_⟩
        · rw [hw', hl]; simp
        · simp only [depthL]; omega
      · simp at h

theorem parseEntries_sound {f : Bytes → Option (Json × Bytes)} {d : Nat} (hf : SoundAt f d) : ∀ (n : Nat) (bs rest : Bytes) (es : List (Bytes × Json)), parseEntries f n bs = some (es, rest) →
    ∃ k j es' w q w1 w2 u w3 r, es = (k, j) :: es' ∧ bs = w ++ 34 :: (q ++ 34 :: (w1 ++ 58 :: (w2 ++ (u ++ (w3 ++ (r ++ 125 :: rest)))))) ∧ Ws w ∧ Ws w1 ∧ Ws w2 ∧ Ws w3 ∧
      Chars q k ∧ Text j u ∧ TextEntries es' r ∧ depthE es ≤ d := by
  intro n
  induction n with
  | zero => intro bs rest es h; simp [parseEntries] at h
  | succ n ih =>
    intro bs rest es h
    simp only [parseEntries] at h
    obtain ⟨w, hw, hws⟩ := dropWs_split bs
    split at h
    · next l0 hl0 =>
      rw [hl0] at hw
      cases hq : unquote l0.length l0 with
      | none => rw [hq] at h; simp at h
      | some x =>
        obtain ⟨k, l1⟩ := x
        rw [hq] at h
        obtain ⟨q, rfl, hqc⟩ := unquote_sound _ _ _ _ hq
        simp only at h
        obtain ⟨w1, hw1, hws1⟩ := dropWs_split l1
        split at h
        · next l2 hl2 =>
          rw [hl2] at hw1
          cases hv : f l2 with
          | none => rw [hv] at h; simp at h
          | some x =>
            obtain ⟨j, l3⟩ := x
            rw [hv] at h
            simp only at h
            obtain ⟨w2, u, rfl, hws2, hu, hdep⟩ := hf _ _ _ hv
            obtain ⟨w3, hw3, hws3⟩ := dropWs_split l3
            split at h
            · next l hl =>
              rw [hl] at hw3
              cases hp : parseEntries f n l with
              | none => rw [hp] at h; simp at h
              | some y =>
                obtain ⟨es1, rest1⟩ := y
                rw [hp] at h
                simp only [Option.map_some, Option.some.injEq, Prod.mk.injEq] at h
                obtain ⟨rfl, rfl⟩ := h
                obtain ⟨k', j', es', v, q', v1, v2, u', v3, r, rfl, rfl, h1, h2, h3, h4, h5, h6, h7, h8⟩ := ih _ _ _ hp
                refine ⟨k, j, (k', j') :: es', w, q, w1, w2, u, w3, 44 :: (v ++ 34 :: (q' ++ 34 :: (v1 ++ 58 :: (v2 ++ u' ++ v3 ++ r)))), rfl, ?_, hws, hws1, hws2, hws3, hqc, hu,
                  ⟨v, q', v1, v2, u', v3, r, rfl, h1, h2, h3, h4, h5, h6, h7⟩, ?_⟩
                · rw [hw, hw1, hw3]; simp
                · rw [depthE]; omega
            · next l hl =>
              rw [hl] at hw3
              simp only [Option.some.injEq, Prod.mk.injEq] at h
              obtain ⟨rfl, rfl⟩ := h
              refine ⟨k, j, [], w, q, w1, w2, u, w3, [], rfl, ?_, hws, hws1, hws2, hws3, hqc, hu, rfl, ?_⟩
              · rw [hw, hw1, hw3]; simp
              · simp only [depthE]; omega
            · simp at h
        · simp at h
    · simp at h

theorem scan_number {s : NState} {b : UInt8} {r j rest : Bytes} (hs : ∀ t, accepts s t → Number (b :: t)) (h : (scanNum s r).map (fun x => (Json.num (b :: x.1), x.2)) = some (.num j, rest)) :
    b :: r = j ++ rest ∧ Number j := by
  cases hn : scanNum s r with
  | none => rw [hn] at h; simp at h
  | some x =>
    obtain ⟨t, rest'⟩ := x
    rw [hn] at h
    simp only [Option.map_some, Option.some.injEq, Prod.mk.injEq, Json.num.injEq] at h
    obtain ⟨rfl, rfl⟩ := h
    obtain ⟨rfl, ha⟩ := scanNum_sound _ _ _ _ hn
    exact ⟨rfl, hs t ha⟩

theorem parse_sound_step (d : Nat) (ih : ∀ d', d = d' + 1 → SoundAt (parseValue d') d') : SoundAt (parseValue d) d := by
  intro bs j rest h
  obtain ⟨w, hw, hws⟩ := dropWs_split bs
  unfold parseValue at h
  cases hl : bs.dropWhile isWs with
  | nil => rw [hl] at h; simp at h
  | cons b r =>
    rw [hl] at h hw
    simp only at h
    have num : ∀ (s : NState), (∀ t, accepts s t → Number (b :: t)) → (scanNum s r).map (fun x => (Json.num (b :: x.1), x.2)) = some (j, rest) →
        ∃ w t, bs = w ++ (t ++ rest) ∧ Ws w ∧ Text j t ∧ depth j ≤ d := by
      intro s hs h
      cases hn : scanNum s r with
      | none => rw [hn] at h; simp at h
      | some x =>
        have h' := h
        rw [hn] at h
        simp only [Option.map_some, Option.some.injEq, Prod.mk.injEq] at h
        obtain ⟨rfl, rfl⟩ := h
        obtain ⟨h1, h2⟩ := scan_number hs h'
        exact ⟨w, _, by rw [hw, h1], hws, ⟨rfl, h2⟩, by simp [depth]⟩
    by_cases b34 : b = 34
    · rw [if_pos b34] at h
      subst b34
      cases hq : unquote r.length r with
      | none => rw [hq] at h; simp at h
      | some x =>
        obtain ⟨s, l⟩ := x
        rw [hq] at h
        simp only [Option.map_some, Option.some.injEq, Prod.mk.injEq] at h
        obtain ⟨rfl, rfl⟩ := h
        obtain ⟨q, rfl, hqc⟩ := unquote_sound _ _ _ _ hq
        exact ⟨w, 34 :: (q ++ [34]), by rw [hw]; simp, hws, ⟨q, rfl, hqc⟩, by simp [depth]⟩
    rw [if_neg b34] at h
    by_cases b91 : b = 91
    · rw [if_pos b91] at h
      subst b91
      cases d with
      | zero => simp at h
      | succ d =>
        simp only at h
        obtain ⟨w1, hw1, hws1⟩ := dropWs_split r
        split at h
        · next l hl1 =>
          rw [hl1] at hw1
          simp only [Option.some.injEq, Prod.mk.injEq] at h
          obtain ⟨rfl, rfl⟩ := h
          exact ⟨w, 91 :: (w1 ++ [93]), by rw [hw, hw1]; simp, hws, ⟨w1, rfl, hws1⟩, by simp [depth, depthL]⟩
        · cases hp : parseItems (parseValue d) r.length r with
          | none => rw [hp] at h; simp at h
          | some x =>
            obtain ⟨js, l⟩ := x
            rw [hp] at h
            simp only [Option.map_some, Option.some.injEq, Prod.mk.injEq] at h
            obtain ⟨rfl, rfl⟩ := h
            obtain ⟨j, js', v, u, v', r', rfl, he, h1, h2, h3, h4, h5⟩ := parseItems_sound (ih d rfl) _ _ _ _ hp
            refine ⟨w, 91 :: (v ++ u ++ v' ++ r' ++ [93]), ?_, hws, ⟨v, u, v', r', rfl, h1, h2, h3, h4⟩, ?_⟩
            · rw [hw, he]; simp
            · simp only [depth]; omega
    rw [if_neg b91] at h
    by_cases b123 : b = 123
    · rw [if_pos b123] at h
      subst b123
      cases d with
      | zero => simp at h
      | succ d =>
        simp only at h
        obtain ⟨w1, hw1, hws1⟩ := dropWs_split r
        split at h
        · next l hl1 =>
          rw [hl1] at hw1
          simp only [Option.some.injEq, Prod.mk.injEq] at h
          obtain ⟨rfl, rfl⟩ := h
          exact ⟨w, 123 :: (w1 ++ [125]), by rw [hw, hw1]; simp, hws, ⟨w1, rfl, hws1⟩, by simp [depth, depthE]⟩
        · cases hp : parseEntries (parseValue d) r.length r with
          | none => rw [hp] at h; simp at h
          | some x =>
            obtain ⟨es, l⟩ := x
            rw [hp] at h
            simp only [Option.map_some, Option.some.injEq, Prod.mk.injEq] at h
            obtain ⟨rfl, rfl⟩ := h
            obtain ⟨k, j, es', v, q, v1, v2, u, v3, r', rfl, he, h1, h2, h3, h4, h5, h6, h7, h8⟩ := parseEntries_sound (ih d rfl) _ _ _ _ hp
            refine ⟨w, 123 :: (v ++ 34 :: (q ++ 34 :: (v1 ++ 58 :: (v2 ++ u ++ v3 ++ r' ++ [125])))), ?_, hws, ⟨v, q, v1, v2, u, v3, r', rfl, h1, h2, h3, h4, h5, h6, h7⟩, ?_⟩
            · rw [hw, he]; simp
            · simp only [depth]; omega
    rw [if_neg b123] at h
    by_cases b116 : b = 116
    · rw [if_pos b116] at h
      subst b116
      split at h
      · simp only [Option.some.injEq, Prod.mk.injEq] at h
        obtain ⟨rfl, rfl⟩ := h
        exact ⟨w, lit "true", by rw [hw, lit_true]; rfl, hws, by simp [Text], by simp [depth]⟩
      · simp at h
    rw [if_neg b116] at h
    by_cases b102 : b = 102
    · rw [if_pos b102] at h
      subst b102
      split at h
      · simp only [Option.some.injEq, Prod.mk.injEq] at h
        obtain ⟨rfl, rfl⟩ := h
        exact ⟨w, lit "false", by rw [hw, lit_false]; rfl, hws, by simp [Text], by simp [depth]⟩
      · simp at h
    rw [if_neg b102] at h
    by_cases b110 : b = 110
    · rw [if_pos b110] at h
      subst b110
      split at h
      · simp only [Option.some.injEq, Prod.mk.injEq] at h
        obtain ⟨rfl, rfl⟩ := h
        exact ⟨w, lit "null", by rw [hw, lit_null]; rfl, hws, by simp [Text], by simp [depth]⟩
      · simp at h
    rw [if_neg b110] at h
    by_cases b45 : b = 45
    · rw [if_pos b45] at h
      exact num .neg (fun t ht => number_iff.2 (.inl ⟨t, by rw [b45], ht⟩)) h
    rw [if_neg b45] at h
    by_cases b48 : b = 48
    · rw [if_pos b48] at h
      exact num .zero (fun t ht => number_iff.2 (.inr (.inl ⟨t, by rw [b48], ht⟩))) h
    rw [if_neg b48] at h
    by_cases bd : isDigit b = true
    · rw [if_pos bd] at h
      exact num .one (fun t ht => number_iff.2 (.inr (.inr ⟨b, t, rfl, b48, bd, ht⟩))) h
    rw [if_neg bd] at h
    simp at h

theorem parse_sound : ∀ (d : Nat), SoundAt (parseValue d) d := by
  intro d
  induction d with
  | zero => exact parse_sound_step 0 (by omega)
  | succ d ih =>
    refine parse_sound_step (d + 1) ?_
    intro d' hd'
    obtain rfl : d = d' := by omega
    exact ih

/-! ## Whole texts -/

/-- What a text must be to be accepted, and what it is read as. -/
theorem parseDoc_iff {bs : Bytes} {j : Json} : parseDoc bs = some j ↔ Document j bs ∧ depth j ≤ 10000 := by
  constructor
  · intro h
    unfold parseDoc at h
    cases hp : parseValue maxNestingDepth bs with
    | none => rw [hp] at h; simp at h
    | some x =>
      obtain ⟨j', r⟩ := x
      rw [hp] at h
      simp only at h
      split at h
      · next hr =>
        simp only [Option.some.injEq] at h
        subst h
        obtain ⟨w, t, rfl, hw, ht, hd⟩ := parse_sound _ _ _ _ hp
        obtain ⟨w', hw', hws'⟩ := dropWs_split r
        rw [hr, List.append_nil] at hw'
        exact ⟨⟨w, t, r, by simp, hw, hw' ▸ hws', ht⟩, hd⟩
      · simp at h
  · rintro ⟨⟨w, t, w', rfl, hw, hw', ht⟩, hd⟩
    unfold parseDoc
    rw [List.append_assoc, parse_complete j maxNestingDepth t ht hd w w' hw (delim_only_ws hw')]
    simp only
    have := dropWs (l := []) hw' (by intro b r h; simp at h)
    rw [List.append_nil] at this
    rw [if_pos this]

theorem parseDoc_none_iff {bs : Bytes} : parseDoc bs = none ↔ ¬ ∃ j, Document j bs ∧ depth j ≤ 10000 := by
  constructor
  · rintro h ⟨j, hj⟩
    rw [parseDoc_iff.2 hj] at h
    simp at h
  · intro h
    cases hp : parseDoc bs with
    | none => rfl
    | some j => exact absurd ⟨j, parseDoc_iff.1 hp⟩ h

/-- A text has one reading. -/
theorem document_unique {bs : Bytes} {j j' : Json} (h1 : Document j bs) (h2 : Document j' bs) : j = j' := by
  have key : ∀ d j, Document j bs → depth j ≤ d → ∃ r, parseValue d bs = some (j, r) := by
    rintro d j ⟨w, t, w', rfl, hw, hw', ht⟩ hd
    exact ⟨w', by rw [List.append_assoc]; exact parse_complete j d t ht hd w w' hw (delim_only_ws hw')⟩
  obtain ⟨r1, e1⟩ := key (max (depth j) (depth j')) j h1 (by omega)
  obtain ⟨r2, e2⟩ := key (max (depth j) (depth j')) j' h2 (by omega)
  rw [e1] at e2
  simp only [Option.some.injEq, Prod.mk.injEq] at e2
  exact e2.1

end Sawmill
