import Verif.Lemmas.History
import Verif.Spec.Reorder
/-!
# Two writes in one nested map
-/

namespace Sawmill

namespace AMap
variable {α : Type}

theorem insert_insert (m : AMap α) (k : Bytes) (a b : α) : (m.insert k a).insert k b = m.insert k b := by
  induction m with
  | nil => simp [insert]
  | cons e t ih =>
    obtain ⟨k', v'⟩ := e
    simp only [insert]
    split
    · simp [insert]
    · split
      · simp [insert]
      · simp_all [insert]

private theorem insert_comm_lt (m : AMap α) {k k' : Bytes} (hk : bLt k k' = true) (a b : α) : (m.insert k a).insert k' b = (m.insert k' b).insert k a := by
  have hne := bLt_ne hk
  have has := bLt_asymm hk
  induction m with
  | nil => simp [insert, hk, has, hne, Ne.symm hne]
  | cons e t ih =>
    obtain ⟨h, x⟩ := e
    by_cases e1 : h = k
    · subst e1
      simp [insert, hne, has]
    · by_cases e2 : bLt k h = true
      · by_cases e3 : h = k'
        · subst e3
          simp [insert, e1, e2, hne, has]
        · by_cases e4 : bLt k' h = true
          · simp [insert, e1, e2, e3, e4, hne, has, hk, Ne.symm hne]
          · simp [insert, e1, e2, e3, e4, hne, has]
      · have e3 : ¬ h = k' := by rintro rfl; exact e2 hk
        have e4 : ¬ bLt k' h = true := fun hh => e2 (bLt_trans hk hh)
        simp [insert, e1, e2, e3, e4, ih]

theorem insert_comm (m : AMap α) {k k' : Bytes} (hk : k ≠ k') (a b : α) : (m.insert k a).insert k' b = (m.insert k' b).insert k a := by
  rcases bLt_total k k' with h | h | h
  · exact absurd h hk
  · exact insert_comm_lt m h a b
  · exact (insert_comm_lt m h b a).symm

theorem erase_insert_comm {m : AMap α} (hs : Sorted m) {k k' : Bytes} (hk : k ≠ k') (v : α) : (m.insert k' v).erase k = (m.erase k).insert k' v := by
  apply ext (sorted_erase _ (sorted_insert _ _ hs)) (sorted_insert _ _ (sorted_erase _ hs))
  intro q
  by_cases h1 : k = q
  · subst h1
    rw [lookup_erase_self, lookup_insert_of_ne _ _ (Ne.symm hk), lookup_erase_self]
  · rw [lookup_erase_of_ne _ h1, lookup_insert, lookup_insert, lookup_erase_of_ne _ h1]

theorem erase_comm (m : AMap α) (k k' : Bytes) : (m.erase k).erase k' = (m.erase k').erase k := by
  induction m with
  | nil => rfl
  | cons e t ih =>
    obtain ⟨h, x⟩ := e
    simp only [erase]
    split
    · split
      · exact ih
      · simp_all [erase]
    · split
      · simp_all [erase]
      · simp_all [erase]

end AMap

/-- Two stores at unrelated paths: the outcome of each is independent of the other, and together they give the same map in both orders. -/
theorem store_swap {p q : List Bytes} (hu : ¬ Related p q) : ∀ {m m1 : AMap Val} {v : Val} (w : Val), Spec.store m p v = .ok (some m1) →
    (Spec.store m q w = .panic ∧ Spec.store m1 q w = .panic) ∨ (Spec.store m q w = .ok none ∧ Spec.store m1 q w = .ok none) ∨
    ∃ m2 m3, Spec.store m q w = .ok (some m2) ∧ Spec.store m1 q w = .ok (some m3) ∧ Spec.store m2 p v = .ok (some m3) := by
  induction p generalizing q with
  | nil => exact absurd (.inl List.nil_prefix) hu
  | cons k ks ih =>
    cases q with
    | nil => exact absurd (.inr List.nil_prefix) hu
    | cons k' qs =>
      intro m m1 v w hs
      rw [related_cons] at hu
      by_cases hk : k = k'
      · subst hk
        have hu' : ¬ Related ks qs := fun h => hu ⟨rfl, h⟩
        cases ks with
        | nil => exact absurd (.inl List.nil_prefix) hu'
        | cons k2 ks =>
          cases qs with
          | nil => exact absurd (.inr List.nil_prefix) hu'
          | cons q2 qs =>
            simp only [Spec.store] at hs ⊢
            have main : ∀ es : AMap Val, (Spec.store es (k2 :: ks) v).map (·.map fun es' => m.insert k (.obj es')) = .ok (some m1) →
                ((Spec.store es (q2 :: qs) w).map (·.map fun es' => m.insert k (.obj es')) = .panic ∧ Spec.store m1 (k :: q2 :: qs) w = .panic) ∨
                ((Spec.store es (q2 :: qs) w).map (·.map fun es' => m.insert k (.obj es')) = .ok none ∧ Spec.store m1 (k :: q2 :: qs) w = .ok none) ∨
                ∃ m2 m3, (Spec.store es (q2 :: qs) w).map (·.map fun es' => m.insert k (.obj es')) = .ok (some m2) ∧ Spec.store m1 (k :: q2 :: qs) w = .ok (some m3) ∧
                  Spec.store m2 (k :: k2 :: ks) v = .ok (some m3) := by
              intro es he
              cases h1 : Spec.store es (k2 :: ks) v with
              | panic => simp [h1] at he
              | ok r =>
                cases r with
                | none => simp [h1] at he
                | some es1 =>
                  simp only [h1, Res.map_ok, Option.map_some, Res.ok.injEq, Option.some.injEq] at he
                  subst he
                  simp only [Spec.store, AMap.lookup_insert_self]
                  rcases ih hu' w h1 with ⟨a, b⟩ | ⟨a, b⟩ | ⟨m2, m3, a, b, c⟩
                  · left; simp [a, b]
                  · right; left; simp [a, b]
                  · right; right
                    refine ⟨m.insert k (.obj m2), m.insert k (.obj m3), by simp [a], by simp [b, AMap.insert_insert], ?_⟩
                    simp [c, AMap.insert_insert]
            cases hl : m.lookup k with
            | none => simp only [hl] at hs; exact main [] hs
            | some x =>
              cases x with
              | obj es => simp only [hl] at hs; exact main es hs
              | _ => simp [hl] at hs
      · -- different first names: both change different entries
        have one : ∀ (m : AMap Val) (a : Bytes) (as : List Bytes) (x : Val) {m' : AMap Val}, Spec.store m (a :: as) x = .ok (some m') → ∃ y, m' = m.insert a y := by
          intro m a as x m' h
          cases as with
          | nil => simp only [Spec.store, Res.ok.injEq, Option.some.injEq] at h; exact ⟨_, h.symm⟩
          | cons a2 as =>
            simp only [Spec.store] at h
            have fin : ∀ es : AMap Val, (Spec.store es (a2 :: as) x).map (·.map fun es' => m.insert a (.obj es')) = .ok (some m') → ∃ y, m' = m.insert a y := by
              intro es he
              cases h1 : Spec.store es (a2 :: as) x with
              | panic => simp [h1] at he
              | ok r => cases r with
                | none => simp [h1] at he
                | some es1 => simp [h1] at he; exact ⟨_, he.symm⟩
            cases hl : m.lookup a with
            | none => simp only [hl] at h; exact fin _ h
            | some y => cases y with
              | obj es => simp only [hl] at h; exact fin _ h
              | _ => simp [hl] at h
        have two : ∀ (m : AMap Val) (a b : Bytes) (bs : List Bytes) (x y : Val), a ≠ b →
            Spec.store (m.insert a y) (b :: bs) x = (Spec.store m (b :: bs) x).map (·.map fun m' => m'.insert a y) := by
          intro m a b bs x y hab
          cases bs with
          | nil => simp [Spec.store, AMap.insert_comm _ hab]
          | cons b2 bs =>
            have fin : ∀ es : AMap Val, (Spec.store es (b2 :: bs) x).map (·.map fun es' => (m.insert a y).insert b (.obj es')) =
                ((Spec.store es (b2 :: bs) x).map (·.map fun es' => m.insert b (.obj es'))).map (·.map fun m' => m'.insert a y) := by
              intro es
              cases Spec.store es (b2 :: bs) x with
              | panic => rfl
              | ok r => cases r with
                | none => rfl
                | some es1 => simp [AMap.insert_comm _ hab]
            simp only [Spec.store, AMap.lookup_insert_of_ne _ _ hab]
            cases hl : m.lookup b with
            | none => exact fin _
            | some z => cases z with
              | obj es => exact fin _
              | _ => rfl
        obtain ⟨y, rfl⟩ := one m k ks v hs
        rw [two m k k' qs w y hk]
        cases h2 : Spec.store m (k' :: qs) w with
        | panic => left; simp
        | ok r => cases r with
          | none => right; left; simp
          | some m2 =>
            right; right
            obtain ⟨z, rfl⟩ := one m k' qs w h2
            refine ⟨_, (m.insert k' z).insert k y, rfl, rfl, ?_⟩
            rw [two m k' k ks v z (Ne.symm hk), hs]
            simp [AMap.insert_comm m hk]

theorem get_erase_other (m : AMap Val) {k k' : Bytes} (qs : List Bytes) (hk : k ≠ k') : Spec.get (m.erase k) (k' :: qs) = Spec.get m (k' :: qs) := by
  cases qs <;> simp [Spec.get, AMap.lookup_erase_of_ne _ hk]

theorem store_erase_other {m : AMap Val} (hs : AMap.Sorted m) {k k' : Bytes} (qs : List Bytes) (w : Val) (hk : k ≠ k') :
    Spec.store (m.erase k) (k' :: qs) w = (Spec.store m (k' :: qs) w).map (·.map (·.erase k)) := by
  cases qs with
  | nil => simp [Spec.store, AMap.erase_insert_comm hs hk]
  | cons q2 qs =>
    have fin : ∀ es : AMap Val, (Spec.store es (q2 :: qs) w).map (·.map fun es' => (m.erase k).insert k' (.obj es')) =
        ((Spec.store es (q2 :: qs) w).map (·.map fun es' => m.insert k' (.obj es'))).map (·.map (·.erase k)) := by
      intro es
      cases Spec.store es (q2 :: qs) w with
      | panic => rfl
      | ok r => cases r with
        | none => rfl
        | some es1 => simp [AMap.erase_insert_comm hs hk]
    simp only [Spec.store, AMap.lookup_erase_of_ne _ hk]
    cases hl : m.lookup k' with
    | none => exact fin _
    | some z => cases z with
      | obj es => exact fin _
      | _ => rfl


/-! ## One call on the contents of one event -/

/-- A call on the contents of one event. -/
def Spec.op (F : Fields) : Call → Res (Fields × Val × Option Spec.Error)
  | .put k v => Spec.putFields F (keyToPath k) v true
  | .tryPut k v => Spec.putFields F (keyToPath k) v false
  | .get k => (Spec.getFields F (keyToPath k)).map fun v => (F, v, none)
  | .delete k => (Spec.deleteFields F (keyToPath k)).map fun r => (r.1, r.2, none)

def Fields.Sorted (F : Fields) : Prop := ∀ es, F = some es → AMap.Sorted es

theorem getFields_ne (F : Fields) {q : List Bytes} (hq : q ≠ []) : Spec.getFields F q = Spec.get (F.getD []) q := by
  cases F with
  | none => simp [Spec.getFields, spec_get_nil]
  | some es => exact getFields_some es q hq

/-- The two halves of the swap: `d` on what `c` leaves behind, given both outcomes on `F`. -/
def Swap (c d : Call) (F : Fields) : Prop :=
  ∀ F1 r1 F2 r2, Spec.op F c = .ok (F1, r1) → Spec.op F d = .ok (F2, r2) → ∃ F3, Spec.op F1 d = .ok (F3, r2) ∧ Spec.op F2 c = .ok (F3, r1)

/-- `d` panics after `c` if it does without. -/
def Bad (c d : Call) (F : Fields) : Prop := ∀ F1 r1, Spec.op F c = .ok (F1, r1) → Spec.op F d = .panic → Spec.op F1 d = .panic

/-- What a put does, case by case. -/
theorem putFields_cases {F : Fields} {p : List Bytes} {v : Val} {ow : Bool} (hp : p ≠ []) (hv : v.isNil = false) :
    Spec.putFields F p v ow = (Spec.get (F.getD []) p).bind fun old =>
      if !old.isNil && !ow then .ok (F, old, some .keyExists)
      else (Spec.store (F.getD []) p v).bind fun
        | some m => .ok (some m, old, none)
        | none => .ok (F, .nilp, some .notObject) := by
  simp only [Spec.putFields, hp, if_false, hv, Bool.false_eq_true, getFields_ne F hp]
  rfl

theorem store_sorted {m m' : AMap Val} {p : List Bytes} {v : Val} (hs : AMap.Sorted m) (h : Spec.store m p v = .ok (some m')) : AMap.Sorted m' := by
  cases p with
  | nil => simp [Spec.store] at h; exact h ▸ hs
  | cons a as =>
    cases as with
    | nil => simp only [Spec.store, Res.ok.injEq, Option.some.injEq] at h; exact h ▸ AMap.sorted_insert _ _ hs
    | cons a2 as =>
      simp only [Spec.store] at h
      have fin : ∀ es : AMap Val, (Spec.store es (a2 :: as) v).map (·.map fun es' => m.insert a (.obj es')) = .ok (some m') → AMap.Sorted m' := by
        intro es he
        cases h1 : Spec.store es (a2 :: as) v with
        | panic => simp [h1] at he
        | ok r => cases r with
          | none => simp [h1] at he
          | some es1 => simp [h1] at he; exact he ▸ AMap.sorted_insert _ _ hs
      cases hl : m.lookup a with
      | none => simp only [hl] at h; exact fin _ h
      | some y => cases y with
        | obj es => simp only [hl] at h; exact fin _ h
        | _ => simp [hl] at h

theorem Fields.Sorted.getD {F : Fields} (h : F.Sorted) : AMap.Sorted (F.getD []) := by
  cases F with
  | none => exact AMap.sorted_nil
  | some es => exact h es rfl

theorem putFields_sorted {F F1 : Fields} {p : List Bytes} {v : Val} {ow : Bool} {r : Val × Option Spec.Error} (hs : F.Sorted) (h : Spec.putFields F p v ow = .ok (F1, r)) : F1.Sorted := by
  by_cases hp : p = []
  · simp [Spec.putFields, hp] at h; exact h.1 ▸ hs
  · by_cases hv : v.isNil = true
    · simp [Spec.putFields, hp, hv] at h; exact h.1 ▸ hs
    · rw [putFields_cases hp (by simpa using hv)] at h
      obtain ⟨old, h1, h⟩ := Res.bind_eq_ok.mp h
      split at h
      · simp at h; exact h.1 ▸ hs
      · obtain ⟨x, h2, h⟩ := Res.bind_eq_ok.mp h
        cases x with
        | none => simp at h; exact h.1 ▸ hs
        | some m =>
          simp only [Res.ok.injEq, Prod.mk.injEq] at h
          rw [← h.1]
          intro es he
          cases he
          exact store_sorted hs.getD h2

theorem op_sorted {F F1 : Fields} {c : Call} {r : Val × Option Spec.Error} (hs : F.Sorted) (h : Spec.op F c = .ok (F1, r)) : F1.Sorted := by
  cases c with
  | put k v => exact putFields_sorted hs h
  | tryPut k v => exact putFields_sorted hs h
  | get k =>
    simp only [Spec.op] at h
    cases h1 : Spec.getFields F (keyToPath k) with
    | panic => simp [h1] at h
    | ok x => simp [h1] at h; exact h.1 ▸ hs
  | delete k =>
    simp only [Spec.op, Spec.deleteFields] at h
    cases hk : keyToPath k with
    | nil => simp [hk] at h; exact h.1 ▸ hs
    | cons a as =>
      simp only [hk] at h
      cases h1 : Spec.getFields F (a :: as) with
      | panic => simp [h1] at h
      | ok x =>
        simp only [h1, Res.bind_ok] at h
        split at h
        · simp at h; exact h.1 ▸ hs
        · simp only [Res.map_ok, Res.ok.injEq, Prod.mk.injEq] at h
          rw [← h.1]
          intro es he
          cases F with
          | none => simp at he
          | some es0 => simp at he; subst he; exact AMap.sorted_erase _ (hs es0 rfl)

end Sawmill
