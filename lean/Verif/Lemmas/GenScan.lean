import Verif.Lemmas.GenComment
/-!
# Reading generated code
-/

namespace Sawmill
namespace Gen
open Rfc

theorem scan_append (m : Mode) (a b : Bytes) : scan m (a ++ b) = ((scan (scan m a).1 b).1, (scan m a).2 ++ (scan (scan m a).1 b).2) := by
  induction a generalizing m with
  | nil => simp [scan]
  | cons x xs ih => simp only [List.cons_append, scan, ih, List.append_assoc]

/-- The scanner, from `m`, reads `ts` in `s` and is in `m'` then. -/
def Reads (m : Mode) (s : Bytes) (m' : Mode) (ts : List Tok) : Prop := scan m s = (m', ts)

/-- The same in one pass. -/
def scanFast : Mode → List Tok → Bytes → Mode × List Tok
  | m, acc, [] => (m, acc)
  | m, acc, b :: r =>
    match scan1 m b with
    | (m', []) => scanFast m' acc r
    | (m', t :: ts) => scanFast m' (acc ++ t :: ts) r

theorem scanFast_eq (m : Mode) (acc : List Tok) (s : Bytes) : scanFast m acc s = ((scan m s).1, acc ++ (scan m s).2) := by
  induction s generalizing m acc with
  | nil => simp [scanFast, scan]
  | cons b r ih =>
    simp only [scanFast, scan]
    split
    · next h => rw [ih, h]; simp
    · next h => rw [ih, h]; simp

instance (m m' : Mode) (s : Bytes) (ts : List Tok) : Decidable (Reads m s m' ts) :=
  decidable_of_iff (scanFast m [] s = (m', ts)) (by rw [scanFast_eq, List.nil_append, Reads])

theorem Reads.append {m m1 m2 : Mode} {a b : Bytes} {s t : List Tok} (h1 : Reads m a m1 s) (h2 : Reads m1 b m2 t) : Reads m (a ++ b) m2 (s ++ t) := by
  unfold Reads at *
  rw [scan_append, h1, h2]

theorem Reads.nil (m : Mode) : Reads m [] m [] := rfl

theorem Reads.of_eq {m m' : Mode} {s : Bytes} {t t' : List Tok} (h : Reads m s m' t) (e : t = t') : Reads m s m' t' := e ▸ h

theorem Reads.flatMap {α : Type} {m : Mode} {f : α → Bytes} {g : α → List Tok} : ∀ {l : List α}, (∀ x ∈ l, Reads m (f x) m (g x)) → Reads m (l.flatMap f) m (l.flatMap g)
  | [], _ => Reads.nil m
  | x :: l, h => by
    rw [List.flatMap_cons, List.flatMap_cons]
    exact (h x (by simp)).append (Reads.flatMap fun y hy => h y (by simp [hy]))

theorem reads_word {w : Bytes} (acc : Bytes) (h : ∀ b ∈ w, isWordByte b = true) : Reads (.word acc) w (.word (acc ++ w)) [] := by
  unfold Reads
  induction w generalizing acc with
  | nil => simp [scan]
  | cons b w ih =>
    have hb := h b (by simp)
    simp only [scan, scan1, hb, if_true]
    rw [ih (acc ++ [b]) (fun x hx => h x (by simp [hx]))]
    simp

theorem fresh_word {b : UInt8} (h : isWordByte b = true) (semi : Bool) : fresh semi b = (.word [b], []) := by
  have : ∀ c : UInt8, isWordByte c = false → b ≠ c := by
    intro c hc e
    subst e
    rw [hc] at h
    exact Bool.noConfusion h
  have h1 := this 10 (by decide)
  have h2 := this 32 (by decide)
  have h3 := this 9 (by decide)
  have h4 := this 13 (by decide)
  simp only [fresh, h1, h2, h3, h4, h, decide_false, Bool.or_self, if_false, if_true, Bool.false_eq_true]

theorem reads_ident {w : Bytes} (h : Ident w) (semi : Bool) : Reads (.gap semi) w (.word w) [] := by
  obtain ⟨hne, hb, _⟩ := h
  cases w with
  | nil => exact absurd rfl hne
  | cons b w =>
    have h1 : scan1 (.gap semi) b = (.word [b], []) := fresh_word (hb b (by simp)) semi
    unfold Reads
    simp only [scan, h1]
    rw [reads_word [b] (fun x hx => hb x (by simp [hx]))]
    rfl

theorem ident_ends {w : Bytes} (h : Ident w) : endsStmt w = true := by
  have : keywords.contains w = false := by
    rw [Bool.eq_false_iff]
    intro hc
    exact h.2.2 (List.elem_iff.1 hc)
  simp only [endsStmt, this, Bool.not_false, Bool.true_or]

theorem reads_after {w : Bytes} (hw : endsStmt w = true) {b : UInt8} {r : Bytes} {m : Mode} {ts : List Tok} (hb : isWordByte b = false) (h : Reads (.gap true) (b :: r) m ts) : Reads (.word w) (b :: r) m (.word w :: ts) := by
  unfold Reads at *
  simp only [scan, scan1, hb, hw, Bool.false_eq_true, if_false] at h ⊢
  rw [Prod.mk.injEq] at h ⊢
  exact ⟨h.1, by rw [List.cons_append, h.2]⟩

theorem reads_afterId {w : Bytes} (hw : Ident w) {b : UInt8} {r : Bytes} {m : Mode} {ts : List Tok} (h : Reads (.gap true) (b :: r) m ts) (hb : isWordByte b = false := by decide) : Reads (.word w) (b :: r) m (.word w :: ts) :=
  reads_after (ident_ends hw) hb h

/-- The first byte is there, and not part of a word. -/
def apart : Bytes → Bool
  | [] => false
  | b :: _ => !isWordByte b

theorem reads_apart {w s : Bytes} (hw : Ident w) {m : Mode} {ts : List Tok} (h : Reads (.gap true) s m ts) (hs : apart s = true := by decide) : Reads (.word w) s m (.word w :: ts) := by
  cases s with
  | nil => exact Bool.noConfusion hs
  | cons b r => exact reads_after (ident_ends hw) (by simpa [apart] using hs) h

/-- A piece of code and what follows it. -/
theorem reads_piece {s : Bytes} {ts : List Tok} (hp : Piece s ts) {b : UInt8} {r : Bytes} {m : Mode} {us : List Tok} (semi : Bool) (h : Reads (.gap true) (b :: r) m us) (hb : isWordByte b = false := by decide) :
    Reads (.gap semi) (s ++ b :: r) m (ts ++ us) := by
  rcases hp semi with hs | ⟨w, ts', hw, hs, rfl⟩
  · exact Reads.append (m1 := .gap true) hs h
  · rw [List.append_assoc]
    exact Reads.append (m1 := .word w) hs (reads_after hw hb h)

theorem ident_piece {w : Bytes} (h : Ident w) : Piece w [.word w] := fun semi => .inr ⟨w, [], ident_ends h, reads_ident h semi, rfl⟩

theorem reads_line {semi : Bool} {s : Bytes} (h : (10 : UInt8) ∉ s) : Reads (.line semi) s (.line semi) [] := by
  unfold Reads
  induction s with
  | nil => rfl
  | cons b s ih =>
    have hb : b ≠ 10 := fun e => h (by simp [e])
    simp only [scan, scan1, hb, if_false]
    rw [ih (fun hm => h (by simp [hm]))]
    rfl

theorem reads_quotable {s : Bytes} (acc : Bytes) (h : Quotable s) : Reads (.str 34 false acc) s (.str 34 false (acc ++ s)) [] := by
  unfold Reads
  induction s generalizing acc with
  | nil => simp [scan]
  | cons b s ih =>
    obtain ⟨h1, h2, h3⟩ := h b (by simp)
    simp only [scan, scan1, h1, h2, h3, if_false, Bool.false_eq_true]
    rw [ih _ (fun x hx => h x (by simp [hx]))]
    simp

theorem reads_raw {s : Bytes} (acc : Bytes) (h : (96 : UInt8) ∉ s) : Reads (.raw acc) s (.raw (acc ++ s)) [] := by
  unfold Reads
  induction s generalizing acc with
  | nil => simp [scan]
  | cons b s ih =>
    have hb : b ≠ 96 := fun e => h (by simp [e])
    simp only [scan, scan1, hb, if_false]
    rw [ih _ (fun hm => h (by simp [hm]))]
    simp

/-! ## Comments -/

theorem blank_noSlash {a : Bytes} (h : Blank a) : (47 : UInt8) ∉ a := by
  obtain ⟨cs, hc, rfl⟩ := h
  intro hm
  obtain ⟨c, hcm, h⟩ := List.mem_flatMap.1 hm
  have : ∀ c ∈ spaces, (47 : UInt8) ∉ utf8 c := by decide
  exact this c (hc c hcm) h

/-- Trimming leaves everything up to a slash. -/
theorem trimmed_slash {x l r : Bytes} (h : RightTrimmed (x ++ 47 :: l) r) : ∃ y, r = x ++ 47 :: y := by
  obtain ⟨⟨a, ha, he⟩, _⟩ := h
  rcases List.append_eq_append_iff.1 he with ⟨c, rfl, hc⟩ | ⟨c, hx, hc⟩
  · cases c with
    | nil =>
      simp only [List.nil_append] at hc
      exact absurd (by rw [← hc]; simp) (blank_noSlash ha)
    | cons b c =>
      simp only [List.cons_append, List.cons.injEq] at hc
      exact ⟨c, by rw [← hc.1]⟩
  · exact absurd (by rw [hc]; simp) (blank_noSlash ha)

theorem trimmed_noNl {l r : Bytes} (h : RightTrimmed l r) (hn : (10 : UInt8) ∉ l) : (10 : UInt8) ∉ r := by
  obtain ⟨⟨a, _, rfl⟩, _⟩ := h
  exact fun hm => hn (by simp [hm])

theorem reads_indent {indent : Bytes} (hi : ∀ b ∈ indent, b = 32 ∨ b = 9) : Reads (.gap false) indent (.gap false) [] := by
  unfold Reads
  induction indent with
  | nil => rfl
  | cons b r ih =>
    have h1 : scan1 (.gap false) b = (.gap false, []) := by
      rcases hi b (by simp) with rfl | rfl <;> rfl
    simp only [scan, h1]
    rw [ih fun x hx => hi x (by simp [hx])]
    rfl

theorem reads_more {indent : Bytes} (hi : ∀ b ∈ indent, b = 32 ∨ b = 9) : ∀ {ls rs : List Bytes} {r : Bytes}, Rel2 RightTrimmed (ls.map ((indent ++ lit "// ") ++ ·)) rs → (∀ l ∈ ls, (10 : UInt8) ∉ l) → (10 : UInt8) ∉ r →
    Reads (.line false) (join [10] (r :: rs)) (.line false) [] := by
  intro ls
  induction ls with
  | nil =>
    intro rs r h _ hr
    cases h
    exact reads_line hr
  | cons l ls ih =>
    intro rs r h hn hr
    cases h
    rename_i r2 rs h1 h2
    have e : (indent ++ lit "// ") ++ l = (indent ++ [47]) ++ 47 :: (32 :: l) := by simp [lit]
    have hr2 : (10 : UInt8) ∉ r2 := by
      refine trimmed_noNl h1 ?_
      have := hn l (by simp)
      have hi10 : (10 : UInt8) ∉ indent := by
        intro hm
        rcases hi 10 hm with h | h <;> exact absurd h (by decide)
      have h3 : (10 : UInt8) ∉ lit "// " := by decide
      simp only [List.mem_append, not_or]
      exact ⟨⟨hi10, h3⟩, this⟩
    replace h1 : RightTrimmed ((indent ++ lit "// ") ++ l) r2 := h1
    rw [e] at h1
    obtain ⟨y, rfl⟩ := trimmed_slash h1
    have ih' := ih (r := y) h2 (fun x hx => hn x (by simp [hx])) (fun hm => hr2 (by simp [hm]))
    have ej : join [10] (r :: (indent ++ [47] ++ 47 :: y) :: rs) = r ++ ([10] ++ (indent ++ ([47, 47] ++ join [10] (y :: rs)))) := by
      cases rs <;> simp [join]
    rw [ej]
    exact (reads_line hr).append (Reads.append (m1 := .gap false) (s := []) rfl ((reads_indent hi).append (Reads.append (m1 := .line false) (s := []) rfl ih')))

theorem kept_mem {ls kept : List Bytes} (h : Kept ls kept) {l : Bytes} (hl : l ∈ kept) : l ∈ ls := by
  obtain ⟨mid, h1, h2⟩ := h
  have hm : l ∈ mid := by
    rcases h2 with ⟨x, _, rfl⟩ | ⟨rfl, _⟩
    · simp [hl]
    · exact hl
  rcases h1 with ⟨x, _, rfl⟩ | ⟨rfl, _⟩
  · simp [hm]
  · exact hm

end Gen
end Sawmill
