/-!
# Byte strings and outcomes

Go strings and byte slices are modelled as `List UInt8`; nothing is assumed about their encoding.
-/

namespace Sawmill

/-- A Go `string` or `[]byte`: a finite sequence of bytes. -/
abbrev Bytes := List UInt8

/-- ASCII literals (used only for the constants of the code and for examples). -/
def lit (s : String) : Bytes := s.toList.map (fun c => UInt8.ofNat c.toNat)

/-- Outcome of running Go code: it returns normally or panics. -/
inductive Res (α : Type) where
  | ok (a : α)
  | panic
deriving DecidableEq, Repr

namespace Res
def bind {α β : Type} : Res α → (α → Res β) → Res β
  | ok a, f => f a
  | panic, _ => panic
def map {α β : Type} (f : α → β) : Res α → Res β
  | ok a => ok (f a)
  | panic => panic
instance : Monad Res where
  pure := ok
  bind := bind
@[simp] theorem bind_ok {α β : Type} (a : α) (f : α → Res β) : (Res.ok a >>= f) = f a := rfl
@[simp] theorem bind_panic {α β : Type} (f : α → Res β) : ((Res.panic : Res α) >>= f) = Res.panic := rfl
@[simp] theorem pure_eq {α : Type} (a : α) : (pure a : Res α) = Res.ok a := rfl
@[simp] theorem map_ok {α β : Type} (f : α → β) (a : α) : (Res.ok a).map f = Res.ok (f a) := rfl
@[simp] theorem map_panic {α β : Type} (f : α → β) : (Res.panic : Res α).map f = Res.panic := rfl
theorem bind_eq_ok {α β : Type} {r : Res α} {f : α → Res β} {b : β} :
    (r >>= f) = .ok b ↔ ∃ a, r = .ok a ∧ f a = .ok b := by
  cases r <;> simp
end Res

/-- Lexicographic order on byte strings (Go's `<` on strings). -/
def bLt : Bytes → Bytes → Bool
  | [], [] => false
  | [], _ :: _ => true
  | _ :: _, [] => false
  | a :: as, b :: bs => if a < b then true else if a = b then bLt as bs else false

theorem bLt_irrefl (a : Bytes) : bLt a a = false := by
  induction a with
  | nil => rfl
  | cons x xs ih => simp [bLt, ih]

theorem bLt_trans : ∀ {a b c : Bytes}, bLt a b = true → bLt b c = true → bLt a c = true
  | [], [], _, h, _ => by simp [bLt] at h
  | [], _ :: _, [], _, h => by simp [bLt] at h
  | [], _ :: _, _ :: _, _, _ => by simp [bLt]
  | _ :: _, [], _, h, _ => by simp [bLt] at h
  | _ :: _, _ :: _, [], _, h => by simp [bLt] at h
  | x :: xs, y :: ys, z :: zs, h1, h2 => by
    simp only [bLt] at h1 h2 ⊢
    have ih := @bLt_trans xs ys zs
    grind

theorem bLt_ne {a b : Bytes} (h : bLt a b = true) : a ≠ b := by
  rintro rfl; simp [bLt_irrefl] at h

theorem bLt_asymm {a b : Bytes} (h : bLt a b = true) : bLt b a = false := by
  cases h2 : bLt b a with
  | false => rfl
  | true => have := bLt_trans h h2; simp [bLt_irrefl] at this

theorem bLt_total : ∀ (a b : Bytes), a = b ∨ bLt a b = true ∨ bLt b a = true
  | [], [] => .inl rfl
  | [], _ :: _ => .inr (.inl rfl)
  | _ :: _, [] => .inr (.inr rfl)
  | x :: xs, y :: ys => by
    have ih := bLt_total xs ys
    simp only [bLt]
    by_cases h1 : x < y
    · simp [h1]
    · by_cases h2 : x = y
      · subst h2; simp; exact ih
      · have : y < x := by
          have := UInt8.lt_or_lt_of_ne h2
          grind
        simp [h1, h2, this]

end Sawmill
