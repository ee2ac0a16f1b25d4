import Verif.Spec.Gen
import Verif.Lemmas.Scan
import Verif.Lemmas.Trim
/-!
# Comments of generated code
-/

namespace Sawmill
namespace Gen
open Rfc

theorem splitLines_ne (s : Bytes) : splitLines s ≠ [] := by
  cases s with
  | nil => simp [splitLines]
  | cons b r =>
    simp only [splitLines]
    split
    · simp
    · split <;> simp

theorem splitLines_spec (s : Bytes) : s = join [10] (splitLines s) ∧ ∀ l ∈ splitLines s, (10 : UInt8) ∉ l := by
  induction s with
  | nil => simp [splitLines, join]
  | cons b r ih =>
    simp only [splitLines]
    split
    · next h =>
      subst h
      refine ⟨?_, ?_⟩
      · cases h : splitLines r with
        | nil => exact absurd h (splitLines_ne r)
        | cons l ls =>
          rw [h] at ih
          simp only [join, List.nil_append, List.singleton_append, ← ih.1]
      · intro l hl
        rcases List.mem_cons.1 hl with rfl | hl
        · simp
        · exact ih.2 l hl
    · next hb =>
      cases h : splitLines r with
      | nil => exact absurd h (splitLines_ne r)
      | cons l ls =>
        rw [h] at ih
        refine ⟨?_, ?_⟩
        · have e := ih.1
          cases ls with
          | nil => simp only [join] at e ⊢; rw [e]
          | cons l2 ls => simp only [join, List.cons_append] at e ⊢; rw [← e]
        · intro x hx
          rcases List.mem_cons.1 hx with rfl | hx
          · intro hm
            rcases List.mem_cons.1 hm with e | hm
            · exact hb e.symm
            · exact ih.2 l (List.mem_cons_self ..) hm
          · exact ih.2 x (List.mem_cons_of_mem _ hx)

theorem trimSpace_nil_iff (l : Bytes) : trimSpace l = [] ↔ Blank l := trimSpace_blank_iff l

theorem kept_drop (ls : List Bytes) : Kept ls (dropLast (dropFirst ls)) := by
  refine ⟨dropFirst ls, ?_, ?_⟩
  · cases ls with
    | nil => exact .inr ⟨rfl, by simp⟩
    | cons l ls =>
      simp only [dropFirst]
      split
      · next h => exact .inl ⟨l, (trimSpace_nil_iff l).1 h, rfl⟩
      · next h =>
        refine .inr ⟨rfl, ?_⟩
        intro x hx
        simp only [List.head?_cons, Option.some.injEq] at hx
        subst hx
        exact fun hb => h ((trimSpace_nil_iff _).2 hb)
  · generalize dropFirst ls = mid
    unfold dropLast
    cases h : mid.getLast? with
    | none => exact .inr ⟨rfl, by simp⟩
    | some l =>
      simp only
      split
      · next hb =>
        refine .inl ⟨l, (trimSpace_nil_iff l).1 hb, ?_⟩
        obtain ⟨ys, rfl⟩ := List.getLast?_eq_some_iff.1 h
        simp
      · next hb =>
        refine .inr ⟨rfl, ?_⟩
        intro x hx
        simp only [Option.some.injEq] at hx
        subst hx
        exact fun hbl => hb ((trimSpace_nil_iff _).2 hbl)

theorem join_pre (pre : Bytes) (ls : List Bytes) : join (10 :: pre) ls = join [10] (prefixed pre ls) := by
  cases ls with
  | nil => rfl
  | cons l ls =>
    simp only [prefixed]
    induction ls generalizing l with
    | nil => rfl
    | cons x xs ih =>
      have := ih (pre ++ x)
      simp only [List.map_cons, join, List.append_assoc, List.cons_append, List.nil_append] at this ⊢
      rw [← this]
      cases xs <;> simp [join]

theorem join_lines {ls : List Bytes} {l : Bytes} : join [10] (ls ++ [l]) = joinLines ls l := by
  induction ls with
  | nil => simp [join, joinLines]
  | cons x xs ih =>
    have : ∀ y ys, join [10] (x :: y :: ys) = x ++ [10] ++ join [10] (y :: ys) := fun _ _ => rfl
    cases xs with
    | nil => simp [join, joinLines]
    | cons y ys =>
      rw [List.cons_append, List.cons_append, this, ← List.cons_append, ih]
      simp [joinLines]

theorem rightTrimmed_of (l : Bytes) : RightTrimmed l (trimRight (dropCR l).length (dropCR l)) := by
  obtain ⟨a, ha, he, hn⟩ := trimRight_spec (dropCR l).length (dropCR l) (Nat.le_refl _)
  refine ⟨?_, hn⟩
  by_cases h : l.getLast? = some 13
  · refine ⟨a ++ [13], ha.append ⟨['\r'], by decide, by decide⟩, ?_⟩
    obtain ⟨ys, rfl⟩ := List.getLast?_eq_some_iff.1 h
    have hd : dropCR (ys ++ [13]) = ys := by simp [dropCR]
    rw [hd] at he ⊢
    rw [← List.append_assoc, ← he]
  · refine ⟨a, ha, ?_⟩
    have hd : dropCR l = l := by rw [dropCR, if_neg h]
    rw [hd] at he ⊢
    exact he

theorem rel2_map {α β : Type} {R : α → β → Prop} (f : α → β) (h : ∀ a, R a (f a)) : ∀ l : List α, Rel2 R l (l.map f)
  | [] => .nil
  | a :: l => .cons (h a) (rel2_map f h l)

theorem trim_lines {ls : List Bytes} (hn : ∀ l ∈ ls, (10 : UInt8) ∉ l) (hl : ∀ l ∈ ls, l.length < 65536) (he : ∀ xs, ls = xs ++ [[]] → xs = []) :
    ∃ rs, Rel2 RightTrimmed ls rs ∧ trimTrailingWhitespace (join [10] ls) = some (join [10] rs) := by
  refine ⟨ls.map fun l => trimRight (dropCR l).length (dropCR l), rel2_map _ rightTrimmed_of ls, ?_⟩
  unfold trimTrailingWhitespace
  rcases List.eq_nil_or_concat ls with rfl | ⟨xs, l, rfl⟩
  · rfl
  rw [List.concat_eq_append] at hn hl ⊢
  have hs : ∀ i : Input, i.chunks = (if joinLines xs l = [] then [] else [joinLines xs l]) → i.fails = false → scanAll i = (lineTokens xs l, none) := by
    intro i hi hf
    rw [scanAll_lines (i := i) (ls := xs) (last := l) ?_ ?_ ?_ ?_ ?_, hf]
    · rfl
    · intro c hc
      rw [hi] at hc
      split at hc
      · simp at hc
      · next h => simp only [List.mem_singleton] at hc; rwa [hc]
    · rw [hi]
      split
      · next h => rw [h]; rfl
      · simp
    · exact fun x hx => ⟨hn x (by simp [hx]), hl x (by simp [hx])⟩
    · exact hn l (by simp)
    · exact hl l (by simp)
  rw [join_lines, hs _ rfl rfl]
  simp only [lineTokens, List.map_map, Option.some.injEq]
  by_cases h : l = []
  · subst h
    rw [if_pos rfl, List.append_nil]
    have := he xs (by rw [List.concat_eq_append])
    subst this
    rfl
  · rw [if_neg h]
    rfl

theorem trim_fails {ls : List Bytes} (hn : ∀ l ∈ ls, (10 : UInt8) ∉ l) {l : Bytes} (hm : l ∈ ls) (hl : 65536 ≤ l.length) : trimTrailingWhitespace (join [10] ls) = none := by
  obtain ⟨as, x, bs, rfl, hx, has⟩ : ∃ as x bs, ls = as ++ x :: bs ∧ 65536 ≤ x.length ∧ ∀ a ∈ as, a.length < 65536 := by
    clear hn
    induction ls with
    | nil => simp at hm
    | cons y ys ih =>
      by_cases hy : 65536 ≤ y.length
      · exact ⟨[], y, ys, rfl, hy, by simp⟩
      · have : l ∈ ys := by
          rcases List.mem_cons.1 hm with rfl | h
          · exact absurd hl hy
          · exact h
        obtain ⟨as, x, bs, rfl, hx, has⟩ := ih this
        refine ⟨y :: as, x, bs, rfl, hx, ?_⟩
        intro a ha
        rcases List.mem_cons.1 ha with rfl | ha
        · omega
        · exact has a ha
  have hj : ∃ r, join [10] (as ++ x :: bs) = joinLines as (x ++ r) := by
    rcases List.eq_nil_or_concat bs with rfl | ⟨ys, y, rfl⟩
    · exact ⟨[], by rw [join_lines, List.append_nil]⟩
    · rw [List.concat_eq_append]
      refine ⟨10 :: joinLines ys y, ?_⟩
      have : as ++ x :: (ys ++ [y]) = (as ++ x :: ys) ++ [y] := by simp
      rw [this, join_lines]
      simp [joinLines]
  obtain ⟨r, hj⟩ := hj
  unfold trimTrailingWhitespace
  have hs : ∀ i : Input, i.chunks = (if joinLines as (x ++ r) = [] then [] else [joinLines as (x ++ r)]) → scanAll i = (as.map dropCR, some .tooLong) := by
    intro i hi
    have hne : joinLines as (x ++ r) ≠ [] := by
      intro h
      have := congrArg List.length h
      simp [joinLines] at this
      have := this.2.1
      subst this
      simp at hx
    rw [if_neg hne] at hi
    refine scanAll_tooLong (i := i) (ls := as) (rest := x ++ r) ?_ ?_ ?_ ?_ ?_
    · intro c hc; rw [hi] at hc; simp only [List.mem_singleton] at hc; rwa [hc]
    · rw [hi]; simp
    · exact fun a ha => ⟨hn a (by simp [ha]), has a ha⟩
    · rw [List.length_append]; omega
    · rw [List.take_append_of_le_length hx]
      exact fun h => hn x (by simp) (List.mem_of_mem_take h)
  rw [hj, hs _ rfl]

end Gen
end Sawmill
