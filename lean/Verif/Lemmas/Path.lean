import Verif.Spec.Path
/-! Helper lemmas for the key syntax. -/

namespace Sawmill
open Spec

/-- One token, or nothing for a backslash. -/
def tok1 (prev : Option UInt8) (c : UInt8) : Option (Option UInt8) :=
  if c = bsl then none
  else if c = dot ∧ prev ≠ some bsl then some none
  else some (some c)

/-- Recursive form of `Spec.tokens`. -/
def toksFrom (prev : Option UInt8) : Bytes → List (Option UInt8)
  | [] => []
  | c :: rest =>
    match tok1 prev c with
    | none => toksFrom (some c) rest
    | some t => t :: toksFrom (some c) rest

theorem tokens_eq (key : Bytes) : tokens key = toksFrom none key := by
  have : ∀ prev, ((prev :: key.map some).zip key).filterMap (fun (prev, c) => tok1 prev c) = toksFrom prev key := by
    induction key with
    | nil => intro prev; rfl
    | cons c rest ih =>
      intro prev
      simp only [List.map_cons, List.zip_cons_cons, List.filterMap_cons, toksFrom]
      split <;> simp_all
  exact this none

theorem stretches_cons (ts : List (Option UInt8)) : ∃ h t, stretches ts = h :: t := by
  cases ts with
  | nil => exact ⟨_, _, rfl⟩
  | cons a ts =>
    cases a with
    | none => exact ⟨_, _, rfl⟩
    | some c =>
      simp only [stretches]
      split <;> exact ⟨_, _, rfl⟩

/-- Prepend pending characters to the first stretch. -/
def glue (scratch : Bytes) : List Bytes → List Bytes
  | [] => [scratch]
  | h :: t => (scratch ++ h) :: t

theorem glue_some (scratch : Bytes) (c : UInt8) (ts : List (Option UInt8)) :
    glue scratch (stretches (some c :: ts)) = glue (scratch ++ [c]) (stretches ts) := by
  obtain ⟨h, t, e⟩ := stretches_cons ts
  simp [stretches, e, glue]

theorem glue_none (scratch : Bytes) (ts : List (Option UInt8)) :
    glue scratch (stretches (none :: ts)) = scratch :: stretches ts := by
  simp [stretches, glue]

theorem glue_nil (ts : List (Option UInt8)) : glue [] (stretches ts) = stretches ts := by
  obtain ⟨h, t, e⟩ := stretches_cons ts
  simp [e, glue]

/-- Correctness of the automaton with pending state; the escape flag says whether the previous byte was a backslash. -/
theorem keyToPathLoop_spec (key : Bytes) (paths : List Bytes) (scratch : Bytes) (prev : Option UInt8) (esc : Bool)
    (hesc : esc = true ↔ prev = some bsl) :
    keyToPathLoop key paths scratch esc =
      paths ++ (glue scratch (stretches (toksFrom prev key))).filter (· ≠ []) := by
  induction key generalizing paths scratch prev esc with
  | nil =>
    simp only [keyToPathLoop, toksFrom, stretches, glue, List.append_nil]
    cases scratch <;> simp
  | cons c rest ih =>
    simp only [keyToPathLoop, toksFrom, tok1]
    by_cases hb : c = bsl
    · subst hb
      simp only [if_true]
      exact ih paths scratch (some bsl) true (by simp)
    · have hc : (false = true ↔ some c = some bsl) := by simp [hb]
      simp only [hb, if_false]
      by_cases hd : c = dot
      · subst hd
        simp only [if_true, true_and]
        by_cases hp : prev = some bsl
        · have : esc = true := hesc.2 hp
          simp only [this, if_true, hp, ne_eq, not_true_eq_false, if_false]
          rw [ih _ _ _ _ hc, glue_some]
        · have : esc = false := by
            cases esc with
            | false => rfl
            | true => exact absurd (hesc.1 rfl) hp
          simp only [this, hp, ne_eq, not_false_eq_true, if_true, Bool.false_eq_true, if_false]
          rw [glue_none]
          cases scratch with
          | nil =>
            simp only [List.length_nil, gt_iff_lt, Nat.lt_irrefl, if_false]
            rw [ih _ _ _ _ hc, glue_nil]
            simp
          | cons x xs =>
            simp only [List.length_cons, gt_iff_lt, Nat.zero_lt_succ, if_true]
            rw [ih _ _ _ _ hc, glue_nil]
            simp
      · simp only [hd, if_false, false_and]
        rw [ih _ _ _ _ hc, glue_some]

theorem toksFrom_no_bsl (key : Bytes) (prev : Option UInt8) : some bsl ∉ toksFrom prev key := by
  induction key generalizing prev with
  | nil => simp [toksFrom]
  | cons c rest ih =>
    simp only [toksFrom, tok1]
    split
    · exact ih _
    · next h =>
      split at h
      · simp at h
      · split at h
        · simp at h; subst h; simp [ih]
        · simp at h; subst h; simp only [List.mem_cons, not_or]; exact ⟨by simp; intro e; simp_all, ih _⟩

theorem stretches_mem {ts : List (Option UInt8)} {s : Bytes} (h : s ∈ stretches ts) {c : UInt8} (hc : c ∈ s) :
    some c ∈ ts := by
  induction ts generalizing s with
  | nil => simp [stretches] at h; subst h; simp at hc
  | cons a ts ih =>
    cases a with
    | none =>
      simp only [stretches, List.mem_cons] at h
      rcases h with rfl | h
      · simp at hc
      · simp [ih h hc]
    | some d =>
      obtain ⟨x, t, e⟩ := stretches_cons ts
      simp only [stretches, e, List.mem_cons] at h
      rw [e] at ih
      rcases h with rfl | h
      · rcases List.mem_cons.1 hc with rfl | hc
        · simp
        · have := ih (s := x) (by simp) hc; simp [this]
      · have := ih (s := s) (by simp [h]) hc; simp [this]

/-- Last byte seen after reading `a` with `prev` before it. -/
def lastOf (prev : Option UInt8) : Bytes → Option UInt8
  | [] => prev
  | c :: rest => lastOf (some c) rest

theorem toksFrom_append (a b : Bytes) (prev : Option UInt8) :
    toksFrom prev (a ++ b) = toksFrom prev a ++ toksFrom (lastOf prev a) b := by
  induction a generalizing prev with
  | nil => rfl
  | cons c rest ih =>
    simp only [List.cons_append, toksFrom, lastOf]
    rw [ih]
    split <;> simp

theorem lastOf_eq (a : Bytes) (prev : Option UInt8) : lastOf prev a = (a.getLast?).or prev := by
  induction a generalizing prev with
  | nil => simp [lastOf]
  | cons c rest ih =>
    simp only [lastOf, ih]
    cases rest with
    | nil => simp
    | cons d ds => simp [List.getLast?_cons]

theorem stretches_append_none (xs ys : List (Option UInt8)) :
    stretches (xs ++ none :: ys) = stretches xs ++ stretches ys := by
  induction xs with
  | nil => simp [stretches]
  | cons a xs ih =>
    cases a with
    | none => simp [stretches, ih]
    | some c =>
      obtain ⟨h, t, e⟩ := stretches_cons xs
      simp [stretches, ih, e]

theorem stretches_map_some (n : Bytes) : stretches (n.map some) = [n] := by
  induction n with
  | nil => rfl
  | cons c rest ih => simp [stretches, ih]

theorem escapeKey_eq (n : Bytes) : escapeKey n = n.flatMap (fun c => if c = dot then [bsl, dot] else [c]) := by
  unfold escapeKey
  split
  · rfl
  · next h =>
    induction n with
    | nil => rfl
    | cons c rest ih =>
      simp only [List.mem_cons, not_or] at h
      have : c ≠ dot := fun e => h.1 e.symm
      simp only [List.flatMap_cons, this, if_false]
      rw [← ih h.2]; rfl

/-- Tokens of an escaped name: its own characters, backslashes removed. -/
theorem toksFrom_escapeKey (n : Bytes) (prev : Option UInt8) :
    toksFrom prev (escapeKey n) = (n.filter (· ≠ bsl)).map some := by
  rw [escapeKey_eq]
  induction n generalizing prev with
  | nil => rfl
  | cons c rest ih =>
    simp only [List.flatMap_cons]
    by_cases hd : c = dot
    · subst hd
      have : dot ≠ bsl := by decide
      simp only [if_true, List.cons_append, List.nil_append, toksFrom, tok1]
      simp [this, ih]
    · simp only [hd, if_false, List.cons_append, List.nil_append, toksFrom, tok1]
      by_cases hb : c = bsl
      · simp [hb, ih]
      · simp [hb, ih]

theorem lastOf_escapeKey (n : Bytes) (hn : bsl ∉ n) (prev : Option UInt8) (hp : prev ≠ some bsl) :
    lastOf prev (escapeKey n) ≠ some bsl := by
  rw [escapeKey_eq]
  induction n generalizing prev with
  | nil => simpa [lastOf]
  | cons c rest ih =>
    simp only [List.mem_cons, not_or] at hn
    simp only [List.flatMap_cons]
    by_cases hd : c = dot
    · subst hd
      simp only [if_true, List.cons_append, List.nil_append, lastOf]
      exact ih hn.2 _ (by decide)
    · simp only [hd, if_false, List.cons_append, List.nil_append, lastOf]
      exact ih hn.2 _ (by simpa using fun e => hn.1 e.symm)

end Sawmill
