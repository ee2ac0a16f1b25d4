import Verif.Spec.Cli
import Verif.Lemmas.JsonStr
/-!
# Trimming spaces
-/

namespace Sawmill
open Rfc

theorem isSpaceRune_iff (c : Char) : isSpaceRune c.toNat = true ↔ c ∈ spaces := by
  have h : c ∈ spaces ↔ c.toNat ∈ spaces.map Char.toNat := by
    constructor
    · exact fun h => List.mem_map_of_mem h
    · intro h
      obtain ⟨d, hd, he⟩ := List.mem_map.1 h
      rwa [← Char.toNat_inj.1 he]
  have e : spaces.map Char.toNat = [9, 10, 11, 12, 13, 32, 0x85, 0xA0, 0x1680, 0x2000, 0x2001, 0x2002, 0x2003, 0x2004, 0x2005, 0x2006, 0x2007, 0x2008, 0x2009, 0x200A, 0x2028, 0x2029, 0x202F, 0x205F, 0x3000] := by decide
  rw [h, e]
  simp only [isSpaceRune, List.mem_cons, List.not_mem_nil, or_false, Bool.or_eq_true, Bool.and_eq_true, decide_eq_true_eq]
  omega

/-- The bytes of a character: the first is not a continuation byte, the others are, and they stand for its code point. -/
theorem utf8_shape (c : Char) : runeValue (utf8 c) = c.toNat ∧
    ((∃ a, utf8 c = [a] ∧ a.toNat < 128) ∨ (∃ a x, utf8 c = [a, x] ∧ 192 ≤ a.toNat ∧ isCont x = true) ∨ (∃ a x y, utf8 c = [a, x, y] ∧ 192 ≤ a.toNat ∧ isCont x = true ∧ isCont y = true) ∨
      (∃ a x y z, utf8 c = [a, x, y, z] ∧ 192 ≤ a.toNat ∧ isCont x = true ∧ isCont y = true ∧ isCont z = true)) := by
  have hv := char_valid c
  rw [← encodeRune_utf8]
  generalize c.toNat = n at hv
  have hc : ∀ (b : UInt8) (x : Nat), b.toNat = 0x80 + x → x < 64 → isCont b = true := by
    intro b x hb hx
    simp only [isCont, Bool.and_eq_true, decide_eq_true_eq]
    omega
  have one : ∀ k, k < 256 → ∃ b : UInt8, UInt8.ofNat k = b ∧ b.toNat = k := fun k hk => ⟨_, rfl, ofNat_toNat hk⟩
  by_cases h1 : n < 0x80
  · obtain ⟨a, ea, ha⟩ := one n (by omega)
    rw [encodeRune, if_pos h1, ea]
    exact ⟨ha, .inl ⟨a, rfl, by omega⟩⟩
  by_cases h2 : n < 0x800
  · obtain ⟨a, ea, ha⟩ := one (0xC0 + n / 64) (by omega)
    obtain ⟨b, eb, hb⟩ := one (0x80 + n % 64) (by omega)
    rw [encodeRune, if_neg h1, if_pos h2, ea, eb]
    refine ⟨?_, .inr (.inl ⟨a, b, rfl, by omega, hc b _ hb (by omega)⟩)⟩
    show (a.toNat - 0xC0) * 64 + (b.toNat - 0x80) = n; omega
  by_cases h3 : n < 0x10000
  · obtain ⟨a, ea, ha⟩ := one (0xE0 + n / 4096) (by omega)
    obtain ⟨b, eb, hb⟩ := one (0x80 + n / 64 % 64) (by omega)
    obtain ⟨c, ec, hcc⟩ := one (0x80 + n % 64) (by omega)
    rw [encodeRune, if_neg h1, if_neg h2, if_pos h3, ea, eb, ec]
    refine ⟨?_, .inr (.inr (.inl ⟨a, b, c, rfl, by omega, hc b _ hb (by omega), hc c _ hcc (by omega)⟩))⟩
    show (a.toNat - 0xE0) * 4096 + (b.toNat - 0x80) * 64 + (c.toNat - 0x80) = n; omega
  · obtain ⟨a, ea, ha⟩ := one (0xF0 + n / 262144) (by omega)
    obtain ⟨b, eb, hb⟩ := one (0x80 + n / 4096 % 64) (by omega)
    obtain ⟨c, ec, hcc⟩ := one (0x80 + n / 64 % 64) (by omega)
    obtain ⟨d, ed, hd⟩ := one (0x80 + n % 64) (by omega)
    rw [encodeRune, if_neg h1, if_neg h2, if_neg h3, ea, eb, ec, ed]
    refine ⟨?_, .inr (.inr (.inr ⟨a, b, c, d, rfl, by omega, hc b _ hb (by omega), hc c _ hcc (by omega), hc d _ hd (by omega)⟩))⟩
    show (a.toNat - 0xF0) * 262144 + (b.toNat - 0x80) * 4096 + (c.toNat - 0x80) * 64 + (d.toNat - 0x80) = n; omega

theorem blank_nil : Blank [] := ⟨[], by simp, rfl⟩
theorem Blank.append {a b : Bytes} (ha : Blank a) (hb : Blank b) : Blank (a ++ b) := by
  obtain ⟨cs, h1, rfl⟩ := ha
  obtain ⟨ds, h2, rfl⟩ := hb
  refine ⟨cs ++ ds, ?_, by simp⟩
  intro c hc
  rcases List.mem_append.1 hc with h | h
  · exact h1 c h
  · exact h2 c h
theorem blank_char {c : Char} (h : c ∈ spaces) : Blank (utf8 c) := ⟨[c], by simpa using h, by simp⟩

/-- The first character of `s`, if it is a space, and the rest. -/
def FirstSpace (s r : Bytes) : Prop := ∃ c ∈ spaces, s = utf8 c ++ r

theorem trimLeft_step (n : Nat) (s : Bytes) : (∃ r, FirstSpace s r ∧ trimLeft (n + 1) s = trimLeft n r) ∨ ((∀ c ∈ spaces, ¬ utf8 c <+: s) ∧ trimLeft (n + 1) s = s) := by
  cases s with
  | nil =>
    refine .inr ⟨?_, rfl⟩
    intro c _ h
    exact utf8_ne_nil c (List.prefix_nil.1 h)
  | cons b r =>
    simp only [trimLeft]
    split
    · next hb =>
      obtain ⟨c, hc, hu⟩ := utf8_of_ascii hb
      split
      · next hs =>
        rw [← hc, isSpaceRune_iff] at hs
        exact .inl ⟨r, ⟨c, hs, by simp [hu]⟩, rfl⟩
      · next hs =>
        rw [← hc, isSpaceRune_iff] at hs
        refine .inr ⟨?_, rfl⟩
        rintro d hd ⟨t, ht⟩
        have h : utf8 d ++ t = utf8 c ++ r := by rw [ht, hu]; rfl
        have := (utf8_prefix h).1
        have h1 := (utf8_shape d).1
        rw [this, (utf8_shape c).1] at h1
        rw [Char.toNat_inj.1 h1] at hs
        exact hs hd
    · next hb =>
      split
      · next hm =>
        refine .inr ⟨?_, rfl⟩
        rintro d hd ⟨t, ht⟩
        exact (multi_none_iff (by omega)).1 hm d t ht.symm
      · next m r' hm =>
        obtain ⟨c, hc, rfl, he⟩ := char_of_multi hm
        rw [(utf8_shape c).1]
        split
        · next hs =>
          rw [isSpaceRune_iff] at hs
          exact .inl ⟨r', ⟨c, hs, he⟩, rfl⟩
        · next hs =>
          rw [isSpaceRune_iff] at hs
          refine .inr ⟨?_, rfl⟩
          rintro d hd ⟨t, ht⟩
          have := (utf8_prefix (ht.trans he)).1
          have h1 := (utf8_shape d).1
          rw [this, (utf8_shape c).1] at h1
          rw [Char.toNat_inj.1 h1] at hs
          exact hs hd

theorem utf8_length_pos (c : Char) : 0 < (utf8 c).length := List.length_pos_iff.2 (utf8_ne_nil c)

theorem trimLeft_spec : ∀ (n : Nat) (s : Bytes), s.length ≤ n → ∃ a, Blank a ∧ s = a ++ trimLeft n s ∧ ∀ c ∈ spaces, ¬ utf8 c <+: trimLeft n s := by
  intro n
  induction n with
  | zero =>
    intro s hs
    have : s = [] := List.length_eq_zero_iff.1 (by omega)
    subst this
    refine ⟨[], blank_nil, rfl, ?_⟩
    intro c _ h
    exact utf8_ne_nil c (List.prefix_nil.1 h)
  | succ n ih =>
    intro s hs
    rcases trimLeft_step n s with ⟨r, ⟨c, hc, he⟩, h⟩ | ⟨h1, h2⟩
    · rw [h]
      have := utf8_length_pos c
      obtain ⟨a, ha, hr, hx⟩ := ih r (by rw [he, List.length_append] at hs; omega)
      refine ⟨utf8 c ++ a, (blank_char hc).append ha, ?_, hx⟩
      rw [List.append_assoc, ← hr, he]
    · rw [h2]
      exact ⟨[], blank_nil, rfl, h1⟩

theorem trimLeft_blank : ∀ (n : Nat) (cs : List Char), (∀ c ∈ cs, c ∈ spaces) → (cs.flatMap utf8).length ≤ n → trimLeft n (cs.flatMap utf8) = [] := by
  intro n cs hc hn
  obtain ⟨a, ⟨ds, hd, rfl⟩, he, hx⟩ := trimLeft_spec n _ hn
  generalize trimLeft n (cs.flatMap utf8) = t at he hx
  clear hn
  induction ds generalizing cs with
  | nil =>
    simp only [List.flatMap_nil, List.nil_append] at he
    cases cs with
    | nil => simpa using he.symm
    | cons c cs =>
      exfalso
      refine hx c (hc c (by simp)) ⟨cs.flatMap utf8, ?_⟩
      rw [← he]; simp
  | cons d ds ih =>
    cases cs with
    | nil =>
      simp only [List.flatMap_nil, List.flatMap_cons, List.append_assoc] at he
      exact absurd (List.append_eq_nil_iff.1 he.symm).1 (utf8_ne_nil d)
    | cons c cs =>
      simp only [List.flatMap_cons, List.append_assoc] at he
      exact ih cs (fun x hx => hc x (by simp [hx])) (fun x hx => hd x (by simp [hx])) (utf8_prefix he).2

/-! ## From the right -/

theorem lastBytes_append {s t : Bytes} {k : Nat} (h : t.length = k) : lastBytes k (s ++ t) = t := by
  unfold lastBytes
  rw [List.length_append, h, Nat.add_sub_cancel, List.drop_left]

theorem lastBytes_suffix (k : Nat) (s : Bytes) : s = s.take (s.length - k) ++ lastBytes k s := (List.take_append_drop _ _).symm

theorem not_cont {a : UInt8} (h : 192 ≤ a.toNat) : isCont a = false := by
  simp only [isCont, Bool.and_eq_false_iff, decide_eq_false_iff_not]; omega

theorem lastMulti_char {c : Char} (h : 128 ≤ c.toNat) (s : Bytes) : lastMulti (s ++ utf8 c) = some (utf8 c) := by
  have key : lastStart (s ++ utf8 c) = (utf8 c).length → lastMulti (s ++ utf8 c) = some (utf8 c) := by
    intro hs
    unfold lastMulti
    rw [hs, lastBytes_append rfl]
    have := multi_of_char h []
    rw [List.append_nil] at this
    rw [this]
  apply key
  rcases (utf8_shape c).2 with ⟨a, hu, ha⟩ | ⟨a, x, hu, ha, hx⟩ | ⟨a, x, y, hu, ha, hx, hy⟩ | ⟨a, x, y, z, hu, ha, hx, hy, hz⟩
  · have := (utf8_high h).2 a (by rw [hu]; simp); omega
  · rw [hu]
    unfold lastStart
    rw [lastBytes_append (k := 2) rfl]
    simp [not_cont ha]
  · rw [hu]
    unfold lastStart
    have e : s ++ [a, x, y] = (s ++ [a]) ++ [x, y] := by simp
    rw [lastBytes_append (s := s) (t := [a, x, y]) (k := 3) rfl, e, lastBytes_append (s := s ++ [a]) (t := [x, y]) (k := 2) rfl]
    simp [not_cont ha, hx]
  · rw [hu]
    unfold lastStart
    have e : s ++ [a, x, y, z] = (s ++ [a, x]) ++ [y, z] := by simp
    have e' : s ++ [a, x, y, z] = (s ++ [a]) ++ [x, y, z] := by simp
    rw [e, lastBytes_append (s := s ++ [a, x]) (t := [y, z]) (k := 2) rfl, ← e, e', lastBytes_append (s := s ++ [a]) (t := [x, y, z]) (k := 3) rfl]
    simp [hx, hy]

theorem lastMulti_sound {s m : Bytes} (h : lastMulti s = some m) : ∃ c : Char, 128 ≤ c.toNat ∧ m = utf8 c ∧ s = s.take (s.length - m.length) ++ m := by
  unfold lastMulti at h
  split at h
  · next m' hm =>
    simp only [Option.some.injEq] at h
    subst h
    obtain ⟨c, hc, hm, he⟩ := char_of_multi hm
    refine ⟨c, hc, hm, ?_⟩
    rw [List.append_nil] at he
    have := lastBytes_suffix (lastStart s) s
    have hl : m'.length = s.length - (s.length - lastStart s) := by rw [← he]; simp [lastBytes]
    have h2 : s.length - m'.length = s.length - lastStart s := by omega
    rw [h2]
    rw [he] at this
    exact this
  · simp at h

theorem getLast_ascii {s : Bytes} {b : UInt8} (h : s.getLast? = some b) : s = s.dropLast ++ [b] := by
  obtain ⟨ys, rfl⟩ := List.getLast?_eq_some_iff.1 h
  simp

theorem suffix_last {s : Bytes} {b : UInt8} {c : Char} (h : s.getLast? = some b) (hs : utf8 c <:+ s) : (utf8 c).getLast? = some b := by
  obtain ⟨t, rfl⟩ := hs
  have hne := utf8_ne_nil c
  rw [List.getLast?_append] at h
  cases he : (utf8 c).getLast? with
  | none => rw [List.getLast?_eq_none_iff] at he; exact absurd he hne
  | some x => rw [he] at h; simpa using h

theorem utf8_last_ascii {c : Char} {b : UInt8} (hb : b.toNat < 128) (h : (utf8 c).getLast? = some b) : utf8 c = [b] ∧ c.toNat = b.toNat := by
  rcases utf8_cases c with ⟨hc, hu⟩ | hc
  · rw [hu] at h ⊢
    simp only [List.getLast?_singleton, Option.some.injEq] at h
    subst h
    exact ⟨rfl, by rw [ofNat_toNat (by omega)]⟩
  · have := (utf8_high hc).2 b (List.mem_of_getLast? h)
    omega

theorem trimRight_step (n : Nat) (s : Bytes) : (∃ c ∈ spaces, ∃ r, s = r ++ utf8 c ∧ trimRight (n + 1) s = trimRight n r) ∨ ((∀ c ∈ spaces, ¬ utf8 c <:+ s) ∧ trimRight (n + 1) s = s) := by
  simp only [trimRight]
  split
  · next h =>
    rw [List.getLast?_eq_none_iff] at h
    subst h
    exact .inr ⟨fun c _ h => utf8_ne_nil c (List.suffix_nil.1 h), rfl⟩
  · next b hb =>
    split
    · next ha =>
      obtain ⟨c, hc, hu⟩ := utf8_of_ascii ha
      split
      · next hs =>
        rw [← hc, isSpaceRune_iff] at hs
        exact .inl ⟨c, hs, s.dropLast, by rw [hu]; exact getLast_ascii hb, rfl⟩
      · next hs =>
        rw [← hc, isSpaceRune_iff] at hs
        refine .inr ⟨?_, rfl⟩
        intro d hd hsuf
        have := (utf8_last_ascii ha (suffix_last hb hsuf)).2
        rw [← hc] at this
        rw [Char.toNat_inj.1 this] at hd
        exact hs hd
    · next ha =>
      -- a character at the end is not ASCII
      have hhigh : ∀ d, utf8 d <:+ s → 128 ≤ d.toNat := by
        intro d hsuf
        rcases utf8_cases d with ⟨hd, hu⟩ | hd
        · have := suffix_last hb hsuf
          rw [hu] at this
          simp only [List.getLast?_singleton, Option.some.injEq] at this
          rw [← this, ofNat_toNat (by omega)] at ha
          omega
        · exact hd
      split
      · next hm =>
        refine .inr ⟨?_, rfl⟩
        intro d hd hsuf
        have h128 := hhigh d hsuf
        obtain ⟨t, rfl⟩ := hsuf
        rw [lastMulti_char h128] at hm
        simp at hm
      · next m hm =>
        obtain ⟨c, hc, rfl, he⟩ := lastMulti_sound hm
        rw [(utf8_shape c).1]
        split
        · next hs =>
          rw [isSpaceRune_iff] at hs
          exact .inl ⟨c, hs, _, he, rfl⟩
        · next hs =>
          rw [isSpaceRune_iff] at hs
          refine .inr ⟨?_, rfl⟩
          intro d hd hsuf
          have h128 := hhigh d hsuf
          obtain ⟨t, rfl⟩ := hsuf
          rw [lastMulti_char h128] at hm
          simp only [Option.some.injEq] at hm
          have h1 := (utf8_shape d).1
          rw [hm, (utf8_shape c).1] at h1
          rw [Char.toNat_inj.1 h1] at hs
          exact hs hd

theorem trimRight_spec : ∀ (n : Nat) (s : Bytes), s.length ≤ n → ∃ a, Blank a ∧ s = trimRight n s ++ a ∧ ∀ c ∈ spaces, ¬ utf8 c <:+ trimRight n s := by
  intro n
  induction n with
  | zero =>
    intro s hs
    have : s = [] := List.length_eq_zero_iff.1 (by omega)
    subst this
    exact ⟨[], blank_nil, rfl, fun c _ h => utf8_ne_nil c (List.suffix_nil.1 h)⟩
  | succ n ih =>
    intro s hs
    rcases trimRight_step n s with ⟨c, hc, r, he, h⟩ | ⟨h1, h2⟩
    · rw [h]
      have := utf8_length_pos c
      obtain ⟨a, ha, hr, hx⟩ := ih r (by rw [he, List.length_append] at hs; omega)
      refine ⟨a ++ utf8 c, ha.append (blank_char hc), ?_, hx⟩
      rw [← List.append_assoc, ← hr, he]
    · rw [h2]
      exact ⟨[], blank_nil, by simp, h1⟩

theorem trimSpace_spec (s : Bytes) : Trimmed s (trimSpace s) := by
  obtain ⟨a, ha, h1, h2⟩ := trimLeft_spec s.length s (Nat.le_refl _)
  obtain ⟨b, hb, h3, h4⟩ := trimRight_spec _ (trimLeft s.length s) (Nat.le_refl _)
  refine ⟨⟨a, b, ha, hb, ?_⟩, ?_⟩
  · unfold trimSpace
    simp only
    rw [List.append_assoc, ← h3]
    exact h1
  · intro c hc
    refine ⟨?_, h4 c hc⟩
    intro hp
    refine h2 c hc (hp.trans ?_)
    exact ⟨b, h3.symm⟩

theorem trimSpace_blank_iff (s : Bytes) : trimSpace s = [] ↔ Blank s := by
  constructor
  · intro h
    obtain ⟨⟨a, b, ha, hb, he⟩, _⟩ := trimSpace_spec s
    rw [h, List.append_nil] at he
    rw [he]; exact ha.append hb
  · rintro ⟨cs, hc, rfl⟩
    unfold trimSpace
    rw [trimLeft_blank _ cs hc (Nat.le_refl _)]
    rfl

/-- Only one text is `s` without the spaces around it. -/
theorem trimmed_unique {s t t' : Bytes} (h : Trimmed s t) (h' : Trimmed s t') : t = t' := by
  obtain ⟨⟨a, b, ⟨cs, hcs, rfl⟩, ⟨ds, hds, rfl⟩, he⟩, hx⟩ := h
  obtain ⟨⟨a', b', ⟨cs', hcs', rfl⟩, ⟨ds', hds', rfl⟩, he'⟩, hx'⟩ := h'
  -- on the left the same characters are removed, unless everything is
  have left : ∀ (cs cs' : List Char) (u u' : Bytes), (∀ c ∈ cs, c ∈ spaces) → (∀ c ∈ cs', c ∈ spaces) → cs.flatMap utf8 ++ u = cs'.flatMap utf8 ++ u' →
      (∀ c ∈ spaces, ¬ utf8 c <+: u) → (∀ c ∈ spaces, ¬ utf8 c <+: u') → u = u' := by
    intro cs
    induction cs with
    | nil =>
      intro cs' u u' _ hc' h hu hu'
      cases cs' with
      | nil => simpa using h
      | cons c cs' =>
        exfalso
        refine hu c (hc' c (by simp)) ⟨cs'.flatMap utf8 ++ u', ?_⟩
        simpa using h.symm
    | cons c cs ih =>
      intro cs' u u' hc hc' h hu hu'
      cases cs' with
      | nil =>
        exfalso
        refine hu' c (hc c (by simp)) ⟨cs.flatMap utf8 ++ u, ?_⟩
        simpa using h
      | cons c' cs' =>
        simp only [List.flatMap_cons, List.append_assoc] at h
        exact ih cs' u u' (fun x hx => hc x (by simp [hx])) (fun x hx => hc' x (by simp [hx])) (utf8_prefix h).2 hu hu'
  -- the first character of `t ++ b`, if it is a space, lies within `b`
  have first : ∀ (t : Bytes) (ds : List Char), (∀ c ∈ spaces, ¬ utf8 c <+: t) → t ≠ [] → ∀ c ∈ spaces, ¬ utf8 c <+: t ++ ds.flatMap utf8 := by
    intro t ds ht hne c hc hp
    have hp' : utf8 c <+: t ∨ ∃ k, utf8 c = t ++ k ∧ k <+: ds.flatMap utf8 := by
      obtain ⟨r, hr⟩ := hp
      rcases List.append_eq_append_iff.1 hr with ⟨a, h1, h2⟩ | ⟨a, h1, h2⟩
      · exact .inl ⟨a, h1.symm⟩
      · exact .inr ⟨a, h1, r, h2.symm⟩
    rcases hp' with h | ⟨k, hk, hk2⟩
    · exact ht c hc h
    · cases ds with
      | nil => simp only [List.flatMap_nil, List.prefix_nil] at hk2; rw [hk2, List.append_nil] at hk; exact ht c hc ⟨[], by simp [hk]⟩
      | cons d ds =>
        by_cases hkn : k = []
        · subst hkn; rw [List.append_nil] at hk; exact ht c hc ⟨[], by simp [hk]⟩
        -- a continuation byte of `c` would be the first byte of `d`
        have hhead : k.head? = (utf8 d).head? := by
          obtain ⟨r, hr⟩ := hk2
          obtain ⟨x, k', rfl⟩ := List.exists_cons_of_ne_nil hkn
          obtain ⟨y, u', hy⟩ := List.exists_cons_of_ne_nil (utf8_ne_nil d)
          rw [List.flatMap_cons, hy] at hr
          simp only [List.cons_append, List.cons.injEq] at hr
          rw [hy, hr.1]; rfl
        have hd1 : ∀ x, (utf8 d).head? = some x → isCont x = false := by
          intro x hx
          rcases (utf8_shape d).2 with ⟨a, hu, ha⟩ | ⟨a, _, hu, ha, _⟩ | ⟨a, _, _, hu, ha, _⟩ | ⟨a, _, _, _, hu, ha, _⟩
          · rw [hu] at hx
            simp only [List.head?_cons, Option.some.injEq] at hx
            subst hx
            simp only [isCont, Bool.and_eq_false_iff, decide_eq_false_iff_not]; omega
          all_goals
            rw [hu] at hx
            simp only [List.head?_cons, Option.some.injEq] at hx
            subst hx
            exact not_cont ha
        obtain ⟨x, k', rfl⟩ := List.exists_cons_of_ne_nil hkn
        have hxc := hd1 x (by rw [← hhead]; rfl)
        obtain ⟨y, t', rfl⟩ := List.exists_cons_of_ne_nil hne
        have htail : x ∈ (utf8 c).tail := by rw [hk]; simp
        have : isCont x = true := by
          rcases (utf8_shape c).2 with ⟨a, hu, ha⟩ | ⟨a, p, hu, _, hp⟩ | ⟨a, p, q, hu, _, hp, hq⟩ | ⟨a, p, q, r, hu, _, hp, hq, hr⟩
          · rw [hu] at htail; simp at htail
          · rw [hu] at htail; simp at htail; rw [htail]; exact hp
          · rw [hu] at htail; simp at htail; rcases htail with rfl | rfl <;> assumption
          · rw [hu] at htail; simp at htail; rcases htail with rfl | rfl | rfl <;> assumption
        rw [hxc] at this; simp at this
  have right : ∀ (ds ds' : List Char) (u u' : Bytes), (∀ c ∈ ds, c ∈ spaces) → (∀ c ∈ ds', c ∈ spaces) → u ++ ds.flatMap utf8 = u' ++ ds'.flatMap utf8 →
      (∀ c ∈ spaces, ¬ utf8 c <:+ u) → (∀ c ∈ spaces, ¬ utf8 c <:+ u') → u = u' := by
    -- both are what `trimRight` leaves
    have key : ∀ (ds : List Char) (u : Bytes) (n : Nat), (∀ c ∈ ds, c ∈ spaces) → (∀ c ∈ spaces, ¬ utf8 c <:+ u) → (u ++ ds.flatMap utf8).length ≤ n → trimRight n (u ++ ds.flatMap utf8) = u := by
      intro ds u n hd hu hn
      induction n generalizing ds with
      | zero =>
        have h0 := List.length_eq_zero_iff.1 (Nat.le_zero.1 hn)
        have := List.append_eq_nil_iff.1 h0
        rw [this.1, this.2]; rfl
      | succ n ih =>
        rcases trimRight_step n (u ++ ds.flatMap utf8) with ⟨c, hc, r, he, h⟩ | ⟨h1, h2⟩
        · rw [h]
          rcases List.eq_nil_or_concat ds with rfl | ⟨ds', d, rfl⟩
          · exact absurd ⟨r, by simpa using he.symm⟩ (hu c hc)
          · rw [List.concat_eq_append, List.flatMap_append] at he hn
            rw [List.concat_eq_append] at hd
            simp only [List.flatMap_cons, List.flatMap_nil, List.append_nil] at he hn
            rw [← List.append_assoc] at he hn
            -- the last characters are the same
            have hcd : utf8 d = utf8 c := by
              rcases utf8_cases c with ⟨hca, hcu⟩ | hca
              · have hl : (r ++ utf8 c).getLast? = some (UInt8.ofNat c.toNat) := by rw [hcu]; simp
                rw [← he] at hl
                have := (utf8_last_ascii (c := d) (b := UInt8.ofNat c.toNat) (by rw [ofNat_toNat (by omega)]; exact hca) (suffix_last hl ⟨_, rfl⟩)).1
                rw [this, hcu]
              · rcases utf8_cases d with ⟨hda, hdu⟩ | hda
                · have hl : (u ++ ds'.flatMap utf8 ++ utf8 d).getLast? = some (UInt8.ofNat d.toNat) := by rw [hdu]; simp
                  rw [he] at hl
                  have := (utf8_last_ascii (c := c) (b := UInt8.ofNat d.toNat) (by rw [ofNat_toNat (by omega)]; exact hda) (suffix_last hl ⟨_, rfl⟩)).1
                  rw [this, hdu]
                · have h1 := lastMulti_char hca r
                  rw [← he, lastMulti_char hda] at h1
                  simpa using h1
            rw [hcd] at he hn
            have hr := List.append_cancel_right he
            rw [← hr]
            have := utf8_length_pos c
            refine ih ds' (fun x hx => hd x (by simp [hx])) ?_
            rw [List.length_append] at hn; omega
        · rw [h2]
          rcases List.eq_nil_or_concat ds with rfl | ⟨ds', d, rfl⟩
          · simp
          · refine absurd ⟨u ++ ds'.flatMap utf8, ?_⟩ (h1 d (hd d (by simp)))
            simp
    intro ds ds' u u' hd hd' h hu hu'
    rw [← key ds u _ hd hu (Nat.le_refl _), ← key ds' u' _ hd' hu' (Nat.le_refl _), h]
  rw [List.append_assoc] at he he'
  by_cases ht : t = []
  · by_cases ht' : t' = []
    · rw [ht, ht']
    · exfalso
      subst ht
      rw [List.nil_append, ← List.flatMap_append] at he
      have hall : ∀ c ∈ cs ++ ds, c ∈ spaces := by
        intro c hc
        rcases List.mem_append.1 hc with h | h
        · exact hcs c h
        · exact hds c h
      have := left (cs ++ ds) cs' [] (t' ++ ds'.flatMap utf8) hall hcs' (by rw [List.append_nil, ← he, he'])
        (fun c _ h => utf8_ne_nil c (List.prefix_nil.1 h)) (first t' ds' (fun c hc => (hx' c hc).1) ht')
      have := (List.append_eq_nil_iff.1 this.symm).1
      exact ht' this
  · by_cases ht' : t' = []
    · exfalso
      subst ht'
      rw [List.nil_append, ← List.flatMap_append] at he'
      have hall : ∀ c ∈ cs' ++ ds', c ∈ spaces := by
        intro c hc
        rcases List.mem_append.1 hc with h | h
        · exact hcs' c h
        · exact hds' c h
      have := left (cs' ++ ds') cs [] (t ++ ds.flatMap utf8) hall hcs (by rw [List.append_nil, ← he', he])
        (fun c _ h => utf8_ne_nil c (List.prefix_nil.1 h)) (first t ds (fun c hc => (hx c hc).1) ht)
      have := (List.append_eq_nil_iff.1 this.symm).1
      exact ht this
    · have := left cs cs' _ _ hcs hcs' (he.symm.trans he') (first t ds (fun c hc => (hx c hc).1) ht) (first t' ds' (fun c hc => (hx' c hc).1) ht')
      exact right ds ds' t t' hds hds' this (fun c hc => (hx c hc).2) (fun c hc => (hx' c hc).2)

end Sawmill
