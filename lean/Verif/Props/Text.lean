import Verif.Spec.Text
import Verif.Lemmas.JsonStr
import Verif.Lemmas.Trim
import Verif.Props.ProcLaws
import Verif.Lemmas.StoreLaws
import Verif.Props.Event
/-!
# C92: what lowercase and uppercase do to text
-/

namespace Sawmill
open Rfc

theorem runeError_eq : runeError = repl := by decide

theorem char_ofNat_toNat (c : Char) : Char.ofNat c.toNat = c := Char.ofNat_toNat c

theorem unicodeLower_eq (t : CaseTable) (c : Char) : unicodeLower t c = lowerCase t c := by
  unfold unicodeLower lowerCase
  by_cases h : c.toNat < 128
  · rw [if_pos (show c.toNat ≤ 0x7F by omega), if_pos h]
    have key : ∀ n, n < 128 → (if 65 ≤ (Char.ofNat n).toNat ∧ (Char.ofNat n).toNat ≤ 90 then Char.ofNat ((Char.ofNat n).toNat + 32) else Char.ofNat n) = ((capitalLetters.zip smallLetters).lookup (Char.ofNat n)).getD (Char.ofNat n) := by
      decide +kernel
    have := key c.toNat h
    rwa [char_ofNat_toNat] at this
  · rw [if_neg (show ¬ c.toNat ≤ 0x7F by omega), if_neg h]

theorem unicodeUpper_eq (t : CaseTable) (c : Char) : unicodeUpper t c = upperCase t c := by
  unfold unicodeUpper upperCase
  by_cases h : c.toNat < 128
  · rw [if_pos (show c.toNat ≤ 0x7F by omega), if_pos h]
    have key : ∀ n, n < 128 → (if 97 ≤ (Char.ofNat n).toNat ∧ (Char.ofNat n).toNat ≤ 122 then Char.ofNat ((Char.ofNat n).toNat - 32) else Char.ofNat n) = ((smallLetters.zip capitalLetters).lookup (Char.ofNat n)).getD (Char.ofNat n) := by
      decide +kernel
    have := key c.toNat h
    rwa [char_ofNat_toNat] at this
  · rw [if_neg (show ¬ c.toNat ≤ 0x7F by omega), if_neg h]

/-! ## Characters of a text -/

theorem utf8_inj {c d : Char} (h : utf8 c = utf8 d) : c = d := by
  have h1 := (utf8_shape c).1
  have h2 := (utf8_shape d).1
  rw [h, h2] at h1
  rw [← char_ofNat_toNat c, ← char_ofNat_toNat d, h1]

theorem textOf_inj : ∀ {cs ds : List Char}, textOf cs = textOf ds → cs = ds
  | [], [], _ => rfl
  | [], d :: ds, h => by
    simp only [textOf, List.flatMap_nil, List.flatMap_cons] at h
    exact absurd (List.append_eq_nil_iff.1 h.symm).1 (utf8_ne_nil d)
  | c :: cs, [], h => by
    simp only [textOf, List.flatMap_nil, List.flatMap_cons] at h
    exact absurd (List.append_eq_nil_iff.1 h).1 (utf8_ne_nil c)
  | c :: cs, d :: ds, h => by
    simp only [textOf, List.flatMap_cons] at h
    obtain ⟨h1, h2⟩ := utf8_prefix h
    rw [utf8_inj h1, textOf_inj (cs := cs) (ds := ds) h2]

/-- C92: every text has one sequence of characters. -/
theorem has_chars (s : Bytes) : ∃ cs, HasChars s cs ∧ ∀ ds, HasChars s ds → ds = cs := by
  obtain ⟨s', h⟩ := Repaired.total s
  obtain ⟨cs, rfl⟩ := h.valid
  exact ⟨cs, h, fun ds hd => textOf_inj (hd.unique h)⟩

theorem decode_char (c : Char) (r : Bytes) : decodeRune (utf8 c ++ r) = (c, (utf8 c).length) := by
  rcases utf8_cases c with ⟨h, hu⟩ | h
  · have : (UInt8.ofNat c.toNat).toNat = c.toNat := ofNat_toNat (by omega)
    rw [hu]
    simp only [List.cons_append, List.nil_append, decodeRune, this, h, if_true, char_ofNat_toNat, List.length_cons, List.length_nil]
  · obtain ⟨hne, hh⟩ := utf8_high h
    cases hu : utf8 c with
    | nil => exact absurd hu hne
    | cons b t =>
      have hb := hh b (by rw [hu]; simp)
      have hm := multi_of_char h r
      rw [hu] at hm
      simp only [List.cons_append] at hm ⊢
      have hv := (utf8_shape c).1
      rw [hu] at hv
      simp only [decodeRune, if_neg (show ¬ b.toNat < 128 by omega), hm, hv, char_ofNat_toNat]

theorem decode_invalid {b : UInt8} {t : Bytes} (hb : ∀ c r, b :: t ≠ utf8 c ++ r) : decodeRune (b :: t) = (repl, 1) := by
  have h1 : ¬ b.toNat < 128 := by
    intro h
    obtain ⟨c, _, hu⟩ := utf8_of_ascii h
    exact hb c t (by rw [hu]; rfl)
  have h2 := (multi_none_iff (t := t) (by omega : 128 ≤ b.toNat)).2 hb
  simp only [decodeRune, h1, if_false, h2, runeError_eq]

theorem repl_length : (utf8 repl).length = 3 := by decide +kernel

theorem mapRest_nil (f : Char → Char) (n : Nat) : mapRest f n [] = [] := by cases n <;> rfl

theorem put_rune (d : Char) : (if d.toNat < 128 then [UInt8.ofNat d.toNat] else encodeRune d.toNat) = utf8 d := by
  split
  · next h => rw [utf8_ascii h]
  · exact encodeRune_utf8 d

theorem mapRest_step (f : Char → Char) (n : Nat) {s : Bytes} (hs : s ≠ []) : mapRest f (n + 1) s = utf8 (f (decodeRune s).1) ++ mapRest f n (s.drop (decodeRune s).2) := by
  cases s with
  | nil => exact absurd rfl hs
  | cons b r => simp only [mapRest]; rw [put_rune]

theorem mapRest_spec (f : Char → Char) {s s' : Bytes} (h : Repaired s s') : ∀ (n : Nat) (cs : List Char), s.length ≤ n → s' = textOf cs → mapRest f n s = textOf (cs.map f) := by
  induction h with
  | nil =>
    intro n cs _ hc
    have : cs = [] := textOf_inj (cs := cs) (ds := []) hc.symm
    subst this
    rw [mapRest_nil]; rfl
  | char c t s h ih =>
    intro n cs hn hc
    have hne := utf8_ne_nil c
    have hl : 0 < (utf8 c).length := List.length_pos_iff.2 hne
    cases cs with
    | nil => exact absurd (List.append_eq_nil_iff.1 (show utf8 c ++ s = [] from hc)).1 hne
    | cons d ds =>
      obtain ⟨e1, e2⟩ := utf8_prefix (show utf8 c ++ s = utf8 d ++ textOf ds from hc)
      have e1 := utf8_inj e1
      subst e1
      rw [List.length_append] at hn
      obtain ⟨n, rfl⟩ : ∃ k, n = k + 1 := ⟨n - 1, by omega⟩
      rw [mapRest_step f n (by simp [hne]), decode_char]
      simp only [List.drop_left]
      rw [ih n ds (by omega) e2]
      rfl
  | invalid b t s hb h ih =>
    intro n cs hn hc
    cases cs with
    | nil => exact absurd (List.append_eq_nil_iff.1 (show utf8 repl ++ s = [] from hc)).1 (utf8_ne_nil repl)
    | cons d ds =>
      obtain ⟨e1, e2⟩ := utf8_prefix (show utf8 repl ++ s = utf8 d ++ textOf ds from hc)
      have e1 := utf8_inj e1
      subst e1
      rw [List.length_cons] at hn
      obtain ⟨n, rfl⟩ : ∃ k, n = k + 1 := ⟨n - 1, by omega⟩
      rw [mapRest_step f n (by simp), decode_invalid hb]
      simp only [List.drop_one, List.tail_cons]
      rw [ih n ds (by omega) e2]
      rfl

/-- What `strings.Map` returns, from a given position of its first loop on. -/
def mapFrom (f : Char → Char) (n : Nat) (pre s : Bytes) : Bytes :=
  match mapScan f n pre s with
  | none => pre ++ s
  | some (out, rest) => out ++ mapRest f rest.length rest

theorem mapFrom_spec (f : Char → Char) {s s' : Bytes} (h : Repaired s s') : ∀ (n : Nat) (pre : Bytes) (cs : List Char), s.length ≤ n → s' = textOf cs → mapFrom f n pre s = pre ++ textOf (cs.map f) := by
  induction h with
  | nil =>
    intro n pre cs _ hc
    have : cs = [] := textOf_inj (cs := cs) (ds := []) hc.symm
    subst this
    unfold mapFrom
    cases n <;> simp [mapScan, textOf]
  | char c t s h ih =>
    intro n pre cs hn hc
    have hne := utf8_ne_nil c
    have hl : 0 < (utf8 c).length := List.length_pos_iff.2 hne
    cases cs with
    | nil => exact absurd (List.append_eq_nil_iff.1 (show utf8 c ++ s = [] from hc)).1 hne
    | cons d ds =>
      obtain ⟨e1, e2⟩ := utf8_prefix (show utf8 c ++ s = utf8 d ++ textOf ds from hc)
      have e1 := utf8_inj e1
      subst e1
      have hn' := hn
      rw [List.length_append] at hn
      obtain ⟨n, rfl⟩ : ∃ k, n = k + 1 := ⟨n - 1, by omega⟩
      have hd := decode_char c t
      have go : mapScan f (n + 1) pre (utf8 c ++ t) =
          if f c = c then mapScan f n (pre ++ utf8 c) t else some (pre ++ utf8 (f c), t) := by
        cases hu : utf8 c with
        | nil => exact absurd hu hne
        | cons b r =>
          rw [hu] at hd
          simp only [List.cons_append] at hd ⊢
          simp only [mapScan, hd]
          have ht : List.take (b :: r).length (b :: (r ++ t)) = b :: r := by
            rw [← List.cons_append, List.take_left]
          have hdr : List.drop (b :: r).length (b :: (r ++ t)) = t := by
            rw [← List.cons_append, List.drop_left]
          rw [ht, hdr, encodeRune_utf8, encodeRune_utf8, hu]
          by_cases hf : f c = c
          · rw [if_pos hf]
            by_cases hr : c = runeError
            · have hw : (b :: r).length ≠ 1 := by
                rw [← hu, hr, runeError_eq, repl_length]; decide
              rw [if_neg (by simp [hr]), if_pos ⟨hr, hw, hf⟩]
            · rw [if_pos ⟨hf, hr⟩]
          · rw [if_neg hf, if_neg (by simp [hf]), if_neg (by simp [hf])]
            rw [ite_self, hdr]
      unfold mapFrom
      rw [go]
      by_cases hf : f c = c
      · rw [if_pos hf]
        have := ih n (pre ++ utf8 c) ds (by omega) e2
        unfold mapFrom at this
        rw [List.append_assoc] at this
        rw [List.map_cons, hf]
        simp only [List.append_assoc] at this ⊢
        exact this
      · rw [if_neg hf]
        simp only
        rw [mapRest_spec f h t.length ds (Nat.le_refl _) e2]
        simp [textOf]
  | invalid b t s hb h ih =>
    intro n pre cs hn hc
    cases cs with
    | nil => exact absurd (List.append_eq_nil_iff.1 (show utf8 repl ++ s = [] from hc)).1 (utf8_ne_nil repl)
    | cons d ds =>
      obtain ⟨e1, e2⟩ := utf8_prefix (show utf8 repl ++ s = utf8 d ++ textOf ds from hc)
      have e1 := utf8_inj e1
      subst e1
      rw [List.length_cons] at hn
      obtain ⟨n, rfl⟩ : ∃ k, n = k + 1 := ⟨n - 1, by omega⟩
      have go : mapScan f (n + 1) pre (b :: t) = some (pre ++ utf8 (f repl), t) := by
        simp only [mapScan, decode_invalid hb]
        rw [if_neg (by simp [runeError_eq]), if_neg (by simp), encodeRune_utf8, if_pos runeError_eq.symm]
        rfl
      unfold mapFrom
      rw [go]
      simp only
      rw [mapRest_spec f h t.length ds (Nat.le_refl _) e2]
      simp [textOf]

/-- `strings.Map` applies the function to each character. -/
theorem mapString_spec (f : Char → Char) {s : Bytes} {cs : List Char} (h : HasChars s cs) : mapString f s = textOf (cs.map f) := by
  have := mapFrom_spec f h s.length [] cs (Nat.le_refl _) rfl
  unfold mapFrom at this
  unfold mapString
  cases hm : mapScan f s.length [] s with
  | none => simpa [hm] using this
  | some p => simpa [hm] using this

/-! ## ASCII -/

theorem ascii_chars : ∀ {s : Bytes}, AsciiOnly s → HasChars s (s.map fun b => Char.ofNat b.toNat)
  | [], _ => .nil
  | b :: r, h => by
    obtain ⟨c, hc, hu⟩ := utf8_of_ascii (h b (by simp))
    have := Repaired.char c r _ (ascii_chars (s := r) fun x hx => h x (by simp [hx]))
    rw [hu] at this
    have e : Char.ofNat b.toNat = c := by rw [← hc, char_ofNat_toNat]
    simpa [HasChars, List.map_cons, List.flatMap_cons, e, hu] using this

theorem ascii_valid {s : Bytes} (h : AsciiOnly s) : s = textOf (s.map fun b => Char.ofNat b.toNat) :=
  (Repaired.of_valid (by
    induction s with
    | nil => exact ⟨[], rfl⟩
    | cons b r ih =>
      obtain ⟨cs, hr⟩ := ih fun x hx => h x (by simp [hx])
      obtain ⟨c, _, hu⟩ := utf8_of_ascii (h b (by simp))
      exact ⟨c :: cs, by simp [hu, ← hr]⟩)).unique (ascii_chars h)

theorem textOf_map_bytes (f : Char → Char) (g : UInt8 → UInt8) {s : Bytes} (h : ∀ b ∈ s, utf8 (f (Char.ofNat b.toNat)) = [g b]) : textOf ((s.map fun b => Char.ofNat b.toNat).map f) = s.map g := by
  induction s with
  | nil => rfl
  | cons b r ih =>
    have := ih fun x hx => h x (by simp [hx])
    simp only [textOf, List.map_cons, List.flatMap_cons] at this ⊢
    rw [h b (by simp), this]
    rfl

theorem lower_byte (t : CaseTable) (b : UInt8) (h : b.toNat < 128) : utf8 (lowerCase t (Char.ofNat b.toNat)) = [if 65 ≤ b.toNat ∧ b.toNat ≤ 90 then b + 32 else b] := by
  rw [← unicodeLower_eq, ← encodeRune_utf8]
  have key : ∀ n, n < 128 → encodeRune (if (Char.ofNat n).toNat ≤ 0x7F then (if 65 ≤ (Char.ofNat n).toNat ∧ (Char.ofNat n).toNat ≤ 90 then Char.ofNat ((Char.ofNat n).toNat + 32) else Char.ofNat n) else '?').toNat =
      [if 65 ≤ (UInt8.ofNat n).toNat ∧ (UInt8.ofNat n).toNat ≤ 90 then UInt8.ofNat n + 32 else UInt8.ofNat n] := by decide +kernel
  have := key b.toNat h
  rw [UInt8.ofNat_toNat] at this
  rw [← this]
  have hle : (Char.ofNat b.toNat).toNat ≤ 0x7F := by
    obtain ⟨c, hc, _⟩ := utf8_of_ascii h
    rw [← hc, char_ofNat_toNat]; omega
  simp only [unicodeLower, if_pos hle]

theorem upper_byte (t : CaseTable) (b : UInt8) (h : b.toNat < 128) : utf8 (upperCase t (Char.ofNat b.toNat)) = [if 97 ≤ b.toNat ∧ b.toNat ≤ 122 then b - 32 else b] := by
  rw [← unicodeUpper_eq, ← encodeRune_utf8]
  have key : ∀ n, n < 128 → encodeRune (if (Char.ofNat n).toNat ≤ 0x7F then (if 97 ≤ (Char.ofNat n).toNat ∧ (Char.ofNat n).toNat ≤ 122 then Char.ofNat ((Char.ofNat n).toNat - 32) else Char.ofNat n) else '?').toNat =
      [if 97 ≤ (UInt8.ofNat n).toNat ∧ (UInt8.ofNat n).toNat ≤ 122 then UInt8.ofNat n - 32 else UInt8.ofNat n] := by decide +kernel
  have := key b.toNat h
  rw [UInt8.ofNat_toNat] at this
  rw [← this]
  have hle : (Char.ofNat b.toNat).toNat ≤ 0x7F := by
    obtain ⟨c, hc, _⟩ := utf8_of_ascii h
    rw [← hc, char_ofNat_toNat]; omega
  simp only [unicodeUpper, if_pos hle]

theorem map_same {α : Type} {f : α → α} : ∀ {l : List α}, (∀ x ∈ l, f x = x) → l.map f = l
  | [], _ => rfl
  | a :: l, h => by rw [List.map_cons, h a (by simp), map_same fun x hx => h x (by simp [hx])]

/-- C92: ASCII text is converted byte by byte. -/
theorem lower_ascii (t : CaseTable) {s : Bytes} (h : AsciiOnly s) : toLower t s = s.map fun c => if 65 ≤ c.toNat ∧ c.toNat ≤ 90 then c + 32 else c := by
  unfold toLower
  rw [if_pos (by simpa [AsciiOnly, List.all_eq_true] using h)]
  split
  · rfl
  · next hn =>
    refine (map_same fun x hx => if_neg fun hx' => hn ?_).symm
    exact List.any_eq_true.2 ⟨x, hx, by simpa using hx'⟩

theorem upper_ascii (t : CaseTable) {s : Bytes} (h : AsciiOnly s) : toUpper t s = s.map fun c => if 97 ≤ c.toNat ∧ c.toNat ≤ 122 then c - 32 else c := by
  unfold toUpper
  rw [if_pos (by simpa [AsciiOnly, List.all_eq_true] using h)]
  split
  · rfl
  · next hn =>
    refine (map_same fun x hx => if_neg fun hx' => hn ?_).symm
    exact List.any_eq_true.2 ⟨x, hx, by simpa using hx'⟩

/-- C92: lowercase converts each character of the text, whatever bytes it consists of; the result consists of the converted characters. -/
theorem lower_text (t : CaseTable) {s : Bytes} {cs : List Char} (h : HasChars s cs) : toLower t s = textOf (cs.map (lowerCase t)) := by
  by_cases ha : AsciiOnly s
  · rw [lower_ascii t ha]
    have : cs = _ := textOf_inj (Repaired.unique h (ascii_chars ha))
    rw [this, textOf_map_bytes (lowerCase t) _ fun b hb => lower_byte t b (ha b hb)]
  · have hn : ¬ (s.all fun c => decide (c.toNat < 128)) = true := by simpa [AsciiOnly, List.all_eq_true] using ha
    unfold toLower
    rw [if_neg hn, mapString_spec _ h]
    congr 2
    funext c
    exact unicodeLower_eq t c

/-- C92: and uppercase. -/
theorem upper_text (t : CaseTable) {s : Bytes} {cs : List Char} (h : HasChars s cs) : toUpper t s = textOf (cs.map (upperCase t)) := by
  by_cases ha : AsciiOnly s
  · rw [upper_ascii t ha]
    have : cs = _ := textOf_inj (Repaired.unique h (ascii_chars ha))
    rw [this, textOf_map_bytes (upperCase t) _ fun b hb => upper_byte t b (ha b hb)]
  · have hn : ¬ (s.all fun c => decide (c.toNat < 128)) = true := by simpa [AsciiOnly, List.all_eq_true] using ha
    unfold toUpper
    rw [if_neg hn, mapString_spec _ h]
    congr 2
    funext c
    exact unicodeUpper_eq t c

theorem chars_of_text (cs : List Char) : HasChars (textOf cs) cs := Repaired.of_valid ⟨cs, rfl⟩

/-- C92: the result is valid UTF-8, even if the text is not. -/
theorem lower_valid (t : CaseTable) (s : Bytes) : ValidUtf8 (toLower t s) ∧ ValidUtf8 (toUpper t s) := by
  obtain ⟨cs, h, _⟩ := has_chars s
  exact ⟨⟨_, lower_text t h⟩, ⟨_, upper_text t h⟩⟩

/-- C92: which texts stay as they are. -/
theorem lower_fixed (t : CaseTable) (s : Bytes) : toLower t s = s ↔ ∃ cs, s = textOf cs ∧ ∀ c ∈ cs, lowerCase t c = c := by
  constructor
  · intro h
    obtain ⟨cs, hc, _⟩ := has_chars s
    have e := lower_text t hc
    have hv : ValidUtf8 s := h ▸ (lower_valid t s).1
    have e2 : s = textOf cs := (Repaired.of_valid hv).unique hc
    refine ⟨cs, e2, ?_⟩
    have e3 : cs.map (lowerCase t) = cs := textOf_inj (by rw [← e, h, ← e2])
    intro c hc
    obtain ⟨i, hi, rfl⟩ := List.getElem_of_mem hc
    have := List.getElem_map (lowerCase t) (l := cs) (i := i) (h := by simpa using hi)
    simpa [e3] using this.symm
  · rintro ⟨cs, rfl, hc⟩
    rw [lower_text t (chars_of_text cs), map_same hc]

theorem upper_fixed (t : CaseTable) (s : Bytes) : toUpper t s = s ↔ ∃ cs, s = textOf cs ∧ ∀ c ∈ cs, upperCase t c = c := by
  constructor
  · intro h
    obtain ⟨cs, hc, _⟩ := has_chars s
    have e := upper_text t hc
    have hv : ValidUtf8 s := h ▸ (lower_valid t s).2
    have e2 : s = textOf cs := (Repaired.of_valid hv).unique hc
    refine ⟨cs, e2, ?_⟩
    have e3 : cs.map (upperCase t) = cs := textOf_inj (by rw [← e, h, ← e2])
    intro c hc
    obtain ⟨i, hi, rfl⟩ := List.getElem_of_mem hc
    have := List.getElem_map (upperCase t) (l := cs) (i := i) (h := by simpa using hi)
    simpa [e3] using this.symm
  · rintro ⟨cs, rfl, hc⟩
    rw [upper_text t (chars_of_text cs), map_same hc]

/-- C92: converting again changes nothing, if the tables have that property for single characters. -/
theorem lower_again (t : CaseTable) (ht : ∀ c, lowerCase t (lowerCase t c) = lowerCase t c) (s : Bytes) : toLower t (toLower t s) = toLower t s := by
  obtain ⟨cs, h, _⟩ := has_chars s
  rw [lower_text t h, lower_text t (chars_of_text _), List.map_map]
  congr 2
  funext c
  exact ht c

theorem upper_again (t : CaseTable) (ht : ∀ c, upperCase t (upperCase t c) = upperCase t c) (s : Bytes) : toUpper t (toUpper t s) = toUpper t s := by
  obtain ⟨cs, h, _⟩ := has_chars s
  rw [upper_text t h, upper_text t (chars_of_text _), List.map_map]
  congr 2
  funext c
  exact ht c

theorem has_chars_append {s r : Bytes} {cs ds : List Char} (hs : s = textOf cs) (hr : HasChars r ds) : HasChars (s ++ r) (cs ++ ds) := by
  subst hs
  induction cs with
  | nil => exact hr
  | cons c cs ih =>
    have := Repaired.char c _ _ ih
    simpa [HasChars, textOf] using this

/-- C92: text is converted piece by piece, if it is not cut within a character. -/
theorem lower_append (t : CaseTable) {s : Bytes} (hs : ValidUtf8 s) (r : Bytes) : toLower t (s ++ r) = toLower t s ++ toLower t r ∧ toUpper t (s ++ r) = toUpper t s ++ toUpper t r := by
  obtain ⟨cs, hc⟩ := hs
  obtain ⟨ds, hd, _⟩ := has_chars r
  have h1 := has_chars_append (s := s) hc hd
  have h2 : HasChars s cs := by rw [hc]; exact chars_of_text cs
  constructor
  · rw [lower_text t h1, lower_text t h2, lower_text t hd]; simp [textOf]
  · rw [upper_text t h1, upper_text t h2, upper_text t hd]; simp [textOf]


/-- C92: of ASCII text the length stays, and the case it had does not matter afterwards. -/
theorem lower_upper_ascii (t : CaseTable) {s : Bytes} (h : AsciiOnly s) :
    (toLower t s).length = s.length ∧ (toUpper t s).length = s.length ∧ toLower t (toUpper t s) = toLower t s ∧ toUpper t (toLower t s) = toUpper t s := by
  have k1 : ∀ n, n < 128 → ((if 97 ≤ (UInt8.ofNat n).toNat ∧ (UInt8.ofNat n).toNat ≤ 122 then UInt8.ofNat n - 32 else UInt8.ofNat n).toNat < 128 ∧
      (if 65 ≤ (UInt8.ofNat n).toNat ∧ (UInt8.ofNat n).toNat ≤ 90 then UInt8.ofNat n + 32 else UInt8.ofNat n).toNat < 128) := by decide +kernel
  have k2 : ∀ n, n < 128 → (fun c : UInt8 => if 65 ≤ c.toNat ∧ c.toNat ≤ 90 then c + 32 else c) (if 97 ≤ (UInt8.ofNat n).toNat ∧ (UInt8.ofNat n).toNat ≤ 122 then UInt8.ofNat n - 32 else UInt8.ofNat n) =
      (if 65 ≤ (UInt8.ofNat n).toNat ∧ (UInt8.ofNat n).toNat ≤ 90 then UInt8.ofNat n + 32 else UInt8.ofNat n) ∧
      (fun c : UInt8 => if 97 ≤ c.toNat ∧ c.toNat ≤ 122 then c - 32 else c) (if 65 ≤ (UInt8.ofNat n).toNat ∧ (UInt8.ofNat n).toNat ≤ 90 then UInt8.ofNat n + 32 else UInt8.ofNat n) =
      (if 97 ≤ (UInt8.ofNat n).toNat ∧ (UInt8.ofNat n).toNat ≤ 122 then UInt8.ofNat n - 32 else UInt8.ofNat n) := by decide +kernel
  have hu : AsciiOnly (toUpper t s) := by
    rw [upper_ascii t h]
    intro b hb
    obtain ⟨x, hx, rfl⟩ := List.mem_map.1 hb
    have := (k1 x.toNat (h x hx)).1
    rwa [UInt8.ofNat_toNat] at this
  have hl : AsciiOnly (toLower t s) := by
    rw [lower_ascii t h]
    intro b hb
    obtain ⟨x, hx, rfl⟩ := List.mem_map.1 hb
    have := (k1 x.toNat (h x hx)).2
    rwa [UInt8.ofNat_toNat] at this
  refine ⟨by rw [lower_ascii t h, List.length_map], by rw [upper_ascii t h, List.length_map], ?_, ?_⟩
  · rw [lower_ascii t hu, upper_ascii t h, lower_ascii t h, List.map_map]
    refine List.map_congr_left fun x hx => ?_
    have := (k2 x.toNat (h x hx)).1
    rw [UInt8.ofNat_toNat] at this
    exact this
  · rw [upper_ascii t hl, upper_ascii t h, lower_ascii t h, List.map_map]
    refine List.map_congr_left fun x hx => ?_
    have := (k2 x.toNat (h x hx)).2
    rw [UInt8.ofNat_toNat] at this
    exact this

/-! ## Events -/

/-- C92: after lowercase has succeeded, the target field holds the converted text, and everything unrelated is as before. -/
theorem lowercase_field (t : CaseTable) {h : Heap} {f : AFields} (o : Owns h f) {field target s : Bytes} {cs : List Char} (hs : Spec.getFields f.erase (keyToPath field) = .ok (.scalar (.str s))) (hc : HasChars s cs)
    {h' : Heap} {e' : Event} (hrun : (Builtin.lowercase field target).step (goConv t) h f.event = .ok (h', e', none)) :
    ∃ f', e' = AFields.event f' ∧ Owns h' f' ∧
      Spec.getFields f'.erase (keyToPath (if target = [] then field else target)) = .ok (.scalar (.str (textOf (cs.map (lowerCase t))))) ∧
      ∀ q, q ≠ [] → ¬ Related (keyToPath (if target = [] then field else target)) q → Spec.getFields f'.erase q = Spec.getFields f.erase q := by
  rw [← lower_text t hc]
  exact convert_string o (toLower t) _ field target s hs hrun

theorem uppercase_field (t : CaseTable) {h : Heap} {f : AFields} (o : Owns h f) {field target s : Bytes} {cs : List Char} (hs : Spec.getFields f.erase (keyToPath field) = .ok (.scalar (.str s))) (hc : HasChars s cs)
    {h' : Heap} {e' : Event} (hrun : (Builtin.uppercase field target).step (goConv t) h f.event = .ok (h', e', none)) :
    ∃ f', e' = AFields.event f' ∧ Owns h' f' ∧
      Spec.getFields f'.erase (keyToPath (if target = [] then field else target)) = .ok (.scalar (.str (textOf (cs.map (upperCase t))))) ∧
      ∀ q, q ≠ [] → ¬ Related (keyToPath (if target = [] then field else target)) q → Spec.getFields f'.erase q = Spec.getFields f.erase q := by
  rw [← upper_text t hc]
  exact convert_string o (toUpper t) _ field target s hs hrun

/-- Putting again what was just put changes nothing. -/
theorem putP_again {F G : Fields} {key : Bytes} {v : Val} (hv : v.isNil = false) (h : Spec.putP F key v = .ok (G, none)) : Spec.putP G key v = .ok (G, none) := by
  by_cases hp : keyToPath key = []
  · simp [Spec.putP, Spec.putFields, hp] at h
  · have hg := (putP_ok hv h).1
    simp only [Spec.putP] at h ⊢
    rw [putFields_eq _ _ _ hp hv] at h ⊢
    cases hg0 : Spec.getFields F (keyToPath key) with
    | panic => simp [hg0] at h
    | ok old =>
      simp only [hg0, Res.bind_ok] at h
      cases hs : Spec.store (F.getD []) (keyToPath key) v with
      | panic => simp [hs] at h
      | ok r =>
        cases r with
        | none => simp [hs] at h
        | some m =>
          simp only [hs, Res.bind_ok, Res.map_ok, Option.map_none, Res.ok.injEq, Prod.mk.injEq, and_true] at h
          subst h
          simp only [hg, Res.bind_ok, Option.getD_some, store_store _ _ v hs, hs, Res.map_ok, Option.map_none]

theorem convert_again {conv : Bytes → Bytes} (hc : ∀ s, conv (conv s) = conv s) {msg field : Bytes} {F G : Fields} (h : Spec.convert conv msg field [] F = .ok (G, none)) : Spec.convert conv msg field [] G = .ok (G, none) := by
  simp only [Spec.convert] at h ⊢
  obtain ⟨v, hv, h⟩ := Res.bind_eq_ok.mp h
  split at h
  · simp at h
  · next s =>
    simp only [if_true] at h
    have hg := (putP_ok (v := Spec.str (conv s)) rfl h).1
    rw [hg]
    simp only [Spec.str, Res.bind_ok, if_true, hc]
    exact putP_again rfl h
  · simp at h

/-- C92: a lowercase processor without a target field, run again after it has succeeded, succeeds and leaves the contents of the event as they are. -/
theorem lowercase_twice (t : CaseTable) (ht : ∀ c, lowerCase t (lowerCase t c) = lowerCase t c) {h : Heap} {f : AFields} (o : Owns h f) {field : Bytes} {h' : Heap} {e' : Event}
    (hrun : (Builtin.lowercase field []).step (goConv t) h f.event = .ok (h', e', none)) :
    ∃ f' h'' f'', e' = AFields.event f' ∧ Owns h' f' ∧ (Builtin.lowercase field []).step (goConv t) h' e' = .ok (h'', AFields.event f'', none) ∧ Owns h'' f'' ∧ f''.erase = f'.erase := by
  have h1 := convert_spec o (toLower t) (lit "value to lowercase is not a string") field []
  simp only [Builtin.step, goConv] at hrun ⊢
  rw [hrun] at h1
  cases hp : Spec.convert (toLower t) (lit "value to lowercase is not a string") field [] f.erase with
  | panic => simp [hp, ProcPost] at h1
  | ok r =>
    obtain ⟨F', pe⟩ := r
    simp only [hp, ProcPost, Res.ok.injEq, Prod.mk.injEq] at h1
    obtain ⟨h1, f', err, ⟨rfl, rfl, rfl⟩, k2, rfl, k4, _⟩ := h1
    have : pe = none := by cases pe <;> simp [procErrMatches] at k4 ⊢
    subst this
    have h2 := convert_spec k2 (toLower t) (lit "value to lowercase is not a string") field []
    rw [convert_again (lower_again t ht) hp] at h2
    obtain ⟨h3, f3, err, e1, e2, e3, e4, _⟩ := h2
    have : err = none := by cases err <;> simp [procErrMatches] at e4 ⊢
    subst this
    exact ⟨f', h3, f3, rfl, k2, e1, e2, e3⟩

theorem uppercase_twice (t : CaseTable) (ht : ∀ c, upperCase t (upperCase t c) = upperCase t c) {h : Heap} {f : AFields} (o : Owns h f) {field : Bytes} {h' : Heap} {e' : Event}
    (hrun : (Builtin.uppercase field []).step (goConv t) h f.event = .ok (h', e', none)) :
    ∃ f' h'' f'', e' = AFields.event f' ∧ Owns h' f' ∧ (Builtin.uppercase field []).step (goConv t) h' e' = .ok (h'', AFields.event f'', none) ∧ Owns h'' f'' ∧ f''.erase = f'.erase := by
  have h1 := convert_spec o (toUpper t) (lit "value to uppercase is not a string") field []
  simp only [Builtin.step, goConv] at hrun ⊢
  rw [hrun] at h1
  cases hp : Spec.convert (toUpper t) (lit "value to uppercase is not a string") field [] f.erase with
  | panic => simp [hp, ProcPost] at h1
  | ok r =>
    obtain ⟨F', pe⟩ := r
    simp only [hp, ProcPost, Res.ok.injEq, Prod.mk.injEq] at h1
    obtain ⟨h1, f', err, ⟨rfl, rfl, rfl⟩, k2, rfl, k4, _⟩ := h1
    have : pe = none := by cases pe <;> simp [procErrMatches] at k4 ⊢
    subst this
    have h2 := convert_spec k2 (toUpper t) (lit "value to uppercase is not a string") field []
    rw [convert_again (upper_again t ht) hp] at h2
    obtain ⟨h3, f3, err, e1, e2, e3, e4, _⟩ := h2
    have : err = none := by cases err <;> simp [procErrMatches] at e4 ⊢
    subst this
    exact ⟨f', h3, f3, rfl, k2, e1, e2, e3⟩

/-! ## Examples -/

/-- A few entries of the tables: é and É, the Kelvin sign, whose lower case is the ASCII letter k, and ı, whose upper case is the ASCII letter I. -/
def someTable : CaseTable :=
  ⟨fun c => if c = 'É' then 'é' else if c = '\u212A' then 'k' else c, fun c => if c = 'é' then 'É' else if c = '\u0131' then 'I' else c⟩

theorem lower_of_plain {t : CaseTable} (h : ∀ c, 128 ≤ c.toNat → lowerCase t (t.lower c) = t.lower c) (c : Char) : lowerCase t (lowerCase t c) = lowerCase t c := by
  by_cases hc : c.toNat < 128
  · have key : ∀ n, n < 128 → let d := ((capitalLetters.zip smallLetters).lookup (Char.ofNat n)).getD (Char.ofNat n); d.toNat < 128 ∧ ((capitalLetters.zip smallLetters).lookup d).getD d = d := by decide +kernel
    have := key c.toNat hc
    rw [char_ofNat_toNat] at this
    rw [show lowerCase t c = ((capitalLetters.zip smallLetters).lookup c).getD c by simp [lowerCase, hc]]
    unfold lowerCase
    rw [if_pos this.1, this.2]
  · rw [show lowerCase t c = t.lower c by simp [lowerCase, hc]]
    exact h c (by omega)

theorem upper_of_plain {t : CaseTable} (h : ∀ c, 128 ≤ c.toNat → upperCase t (t.upper c) = t.upper c) (c : Char) : upperCase t (upperCase t c) = upperCase t c := by
  by_cases hc : c.toNat < 128
  · have key : ∀ n, n < 128 → let d := ((smallLetters.zip capitalLetters).lookup (Char.ofNat n)).getD (Char.ofNat n); d.toNat < 128 ∧ ((smallLetters.zip capitalLetters).lookup d).getD d = d := by decide +kernel
    have := key c.toNat hc
    rw [char_ofNat_toNat] at this
    rw [show upperCase t c = ((smallLetters.zip capitalLetters).lookup c).getD c by simp [upperCase, hc]]
    unfold upperCase
    rw [if_pos this.1, this.2]
  · rw [show upperCase t c = t.upper c by simp [upperCase, hc]]
    exact h c (by omega)

theorem some_table_lower : ∀ c, lowerCase someTable (lowerCase someTable c) = lowerCase someTable c := by
  refine lower_of_plain fun c hc => ?_
  simp only [someTable]
  split
  · decide
  · next h1 =>
    split
    · decide
    · next h2 => simp [lowerCase, show ¬ c.toNat < 128 by omega, h1, h2]

theorem some_table_upper : ∀ c, upperCase someTable (upperCase someTable c) = upperCase someTable c := by
  refine upper_of_plain fun c hc => ?_
  simp only [someTable]
  split
  · decide
  · next h1 =>
    split
    · decide
    · next h2 => simp [upperCase, show ¬ c.toNat < 128 by omega, h1, h2]

/-- "É-Kz" with the Kelvin sign, and with a byte that is not valid UTF-8 at the end: the É is converted, the Kelvin sign becomes one byte instead of three, and the invalid byte becomes the three bytes of U+FFFD. -/
theorem lower_sample : toLower someTable [0xC3, 0x89, 45, 0xE2, 0x84, 0xAA, 90, 0xFF] = [0xC3, 0xA9, 45, 107, 122, 0xEF, 0xBF, 0xBD] ∧
    HasChars [0xC3, 0x89, 45, 0xE2, 0x84, 0xAA, 90, 0xFF] ['É', '-', '\u212A', 'Z', repl] := by
  refine ⟨by decide +kernel, ?_⟩
  have hu : ∀ c r, ([0xFF] : Bytes) ≠ utf8 c ++ r := (multi_none_iff (b := 0xFF) (t := []) (by decide)).1 (by decide)
  have h5 := Repaired.invalid 0xFF [] [] hu .nil
  have h4 := Repaired.char 'Z' _ _ h5
  have h3 := Repaired.char '\u212A' _ _ h4
  have h2 := Repaired.char '-' _ _ h3
  have h1 := Repaired.char 'É' _ _ h2
  exact h1

/-- Upper case loses which letter it was, so that lower case does not undo it: ı becomes I and then i. -/
theorem upper_sample : toUpper someTable [0xC4, 0xB1, 0xC3, 0xA9] = [73, 0xC3, 0x89] ∧ toLower someTable (toUpper someTable [0xC4, 0xB1]) = [105] ∧ toLower someTable [0xC4, 0xB1] = [0xC4, 0xB1] := by
  decide +kernel

/-- Text cut within a character is not converted piece by piece. -/
theorem cut_sample : toLower someTable ([0xC3] ++ [0x89]) = [0xC3, 0xA9] ∧ toLower someTable [0xC3] ++ toLower someTable [0x89] = [0xEF, 0xBF, 0xBD, 0xEF, 0xBF, 0xBD] := by
  decide +kernel

/-- The hypotheses of `uppercase_field` and `uppercase_twice` are met by an event with a string below an object. -/
theorem uppercase_event_sample : ∃ h' e', Owns sampleHeap.1 sampleHeap.2.1 ∧ Spec.getFields sampleHeap.2.1.erase (keyToPath (lit "a.b")) = .ok (.scalar (.str (lit "x"))) ∧ HasChars (lit "x") ['x'] ∧
    (Builtin.uppercase (lit "a.b") []).step (goConv someTable) sampleHeap.1 sampleHeap.2.1.event = .ok (h', e', none) := by
  refine ⟨_, _, sample_owns.1, ?_, ascii_chars (s := lit "x") (show ∀ b ∈ lit "x", b.toNat < 128 by decide), rfl⟩
  rw [sample_owns.2.2.2.2]
  rfl

end Sawmill
