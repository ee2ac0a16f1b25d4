import Verif.Lemmas.HeapOps
/-!
# Laws of the nested-map specification
-/

namespace Sawmill
open ATree

/-- Two paths are related when one is a prefix of the other. -/
def Related (p q : List Bytes) : Prop := p <+: q ∨ q <+: p

theorem related_cons {k k' : Bytes} {p q : List Bytes} : Related (k :: p) (k' :: q) ↔ k = k' ∧ Related p q := by
  simp only [Related, List.cons_prefix_cons]
  grind

theorem get_store_self {m m' : AMap Val} {path : List Bytes} {v : Val} (hp : path ≠ [])
    (hs : Spec.store m path v = .ok (some m')) : Spec.get m' path = .ok v := by
  induction path generalizing m m' with
  | nil => exact absurd rfl hp
  | cons k ks ih =>
    cases ks with
    | nil => simp [Spec.store] at hs; subst hs; simp [Spec.get]
    | cons k2 ks =>
      simp only [Spec.store] at hs
      split at hs
      · cases hr : Spec.store [] (k2 :: ks) v with
        | panic => simp [hr] at hs
        | ok r => cases r with
          | none => simp [hr] at hs
          | some es => simp [hr] at hs; subst hs; simp [Spec.get]; exact ih (by simp) hr
      · next es _ =>
        cases hr : Spec.store es (k2 :: ks) v with
        | panic => simp [hr] at hs
        | ok r => cases r with
          | none => simp [hr] at hs
          | some es => simp [hr] at hs; subst hs; simp [Spec.get]; exact ih (by simp) hr
      all_goals simp at hs

theorem aget_astore_self {n : Nat} {m m' : AMap ATree} {path : List Bytes} {v : ATree} (hp : path ≠ [])
    (hs : astore n m path v = .ok (some m')) : aget m' path = .ok v := by
  induction path generalizing m m' n with
  | nil => exact absurd rfl hp
  | cons k ks ih =>
    cases ks with
    | nil => simp [astore] at hs; subst hs; simp [aget]
    | cons k2 ks =>
      simp only [astore] at hs
      split at hs
      · cases hr : astore (n + 2) [] (k2 :: ks) v with
        | panic => simp [hr] at hs
        | ok r => cases r with
          | none => simp [hr] at hs
          | some es => simp [hr] at hs; subst hs; simp [aget]; exact ih (by simp) hr
      · next es _ =>
        cases hr : astore n es (k2 :: ks) v with
        | panic => simp [hr] at hs
        | ok r => cases r with
          | none => simp [hr] at hs
          | some es => simp [hr] at hs; subst hs; simp [aget]; exact ih (by simp) hr
      all_goals simp at hs

theorem get_nil' (path : List Bytes) : Spec.get [] path = .ok .nilp := spec_get_nil path

theorem aget_nil (path : List Bytes) : aget [] path = .ok .nilp := by
  cases path with
  | nil => rfl
  | cons k ks => cases ks <;> simp [aget]

/-- What a store does to unrelated paths: nothing. -/
theorem get_store_other {m m' : AMap Val} {path q : List Bytes} {v : Val}
    (hs : Spec.store m path v = .ok (some m')) (hq : ¬ Related path q) : Spec.get m' q = Spec.get m q := by
  induction path generalizing m m' q with
  | nil => exact absurd (.inl (List.nil_prefix)) hq
  | cons k ks ih =>
    cases q with
    | nil => exact absurd (.inr (List.nil_prefix)) hq
    | cons k' q =>
      rw [related_cons] at hq
      by_cases hk : k = k'
      · subst hk
        have hq' : ¬ Related ks q := fun h => hq ⟨rfl, h⟩
        cases ks with
        | nil => exact absurd (.inl (List.nil_prefix)) hq'
        | cons k2 ks =>
          cases q with
          | nil => exact absurd (.inr (List.nil_prefix)) hq'
          | cons q2 qs =>
            simp only [Spec.store] at hs
            split at hs
            · next hl =>
              cases hr : Spec.store [] (k2 :: ks) v with
              | panic => simp [hr] at hs
              | ok r => cases r with
                | none => simp [hr] at hs
                | some es =>
                  simp [hr] at hs; subst hs
                  simp only [Spec.get, AMap.lookup_insert_self, hl]
                  rw [ih hr hq', get_nil']
            · next es hl =>
              cases hr : Spec.store es (k2 :: ks) v with
              | panic => simp [hr] at hs
              | ok r => cases r with
                | none => simp [hr] at hs
                | some es' =>
                  simp [hr] at hs; subst hs
                  simp only [Spec.get, AMap.lookup_insert_self, hl]
                  exact ih hr hq'
            all_goals simp at hs
      · have hlk : ∀ w, (AMap.insert m k w).lookup k' = m.lookup k' := fun w => AMap.lookup_insert_of_ne _ _ hk
        have hget : ∀ w, Spec.get (AMap.insert m k w) (k' :: q) = Spec.get m (k' :: q) := by
          intro w
          cases q <;> simp [Spec.get, hlk]
        cases ks with
        | nil => simp [Spec.store] at hs; subst hs; exact hget _
        | cons k2 ks =>
          simp only [Spec.store] at hs
          split at hs
          · cases hr : Spec.store [] (k2 :: ks) v with
            | panic => simp [hr] at hs
            | ok r => cases r with
              | none => simp [hr] at hs
              | some es => simp [hr] at hs; subst hs; exact hget _
          · next es _ =>
            cases hr : Spec.store es (k2 :: ks) v with
            | panic => simp [hr] at hs
            | ok r => cases r with
              | none => simp [hr] at hs
              | some es => simp [hr] at hs; subst hs; exact hget _
          all_goals simp at hs

theorem aget_astore_other {n : Nat} {m m' : AMap ATree} {path q : List Bytes} {v : ATree}
    (hs : astore n m path v = .ok (some m')) (hq : ¬ Related path q) : aget m' q = aget m q := by
  induction path generalizing m m' q n with
  | nil => exact absurd (.inl (List.nil_prefix)) hq
  | cons k ks ih =>
    cases q with
    | nil => exact absurd (.inr (List.nil_prefix)) hq
    | cons k' q =>
      rw [related_cons] at hq
      by_cases hk : k = k'
      · subst hk
        have hq' : ¬ Related ks q := fun h => hq ⟨rfl, h⟩
        cases ks with
        | nil => exact absurd (.inl (List.nil_prefix)) hq'
        | cons k2 ks =>
          cases q with
          | nil => exact absurd (.inr (List.nil_prefix)) hq'
          | cons q2 qs =>
            simp only [astore] at hs
            split at hs
            · next hl =>
              cases hr : astore (n + 2) [] (k2 :: ks) v with
              | panic => simp [hr] at hs
              | ok r => cases r with
                | none => simp [hr] at hs
                | some es =>
                  simp [hr] at hs; subst hs
                  simp only [aget, AMap.lookup_insert_self, hl]
                  rw [ih hr hq', aget_nil]
            · next es hl =>
              cases hr : astore n es (k2 :: ks) v with
              | panic => simp [hr] at hs
              | ok r => cases r with
                | none => simp [hr] at hs
                | some es' =>
                  simp [hr] at hs; subst hs
                  simp only [aget, AMap.lookup_insert_self, hl]
                  exact ih hr hq'
            all_goals simp at hs
      · have hlk : ∀ w, (AMap.insert m k w).lookup k' = m.lookup k' := fun w => AMap.lookup_insert_of_ne _ _ hk
        have hget : ∀ w, aget (AMap.insert m k w) (k' :: q) = aget m (k' :: q) := by
          intro w
          cases q <;> simp [aget, hlk]
        cases ks with
        | nil => simp [astore] at hs; subst hs; exact hget _
        | cons k2 ks =>
          simp only [astore] at hs
          split at hs
          · cases hr : astore (n + 2) [] (k2 :: ks) v with
            | panic => simp [hr] at hs
            | ok r => cases r with
              | none => simp [hr] at hs
              | some es => simp [hr] at hs; subst hs; exact hget _
          · next es _ =>
            cases hr : astore n es (k2 :: ks) v with
            | panic => simp [hr] at hs
            | ok r => cases r with
              | none => simp [hr] at hs
              | some es => simp [hr] at hs; subst hs; exact hget _
          all_goals simp at hs

/-! ## No-nil events -/

theorem noNilEs_iff {es : List (Bytes × Val)} : Val.NoNilEs es ↔ ∀ e ∈ es, e.2.NoNil := by
  induction es with
  | nil => simp [Val.NoNilEs]
  | cons e r ih => obtain ⟨k, v⟩ := e; simp [Val.NoNilEs, ih]

theorem noNil_lookup {es : AMap Val} {k : Bytes} {v : Val} (h : Val.NoNilEs es) (hl : es.lookup k = some v) : v.NoNil :=
  noNilEs_iff.1 h _ (AMap.mem_of_lookup hl)

theorem noNil_insert {es : AMap Val} {k : Bytes} {v : Val} (h : Val.NoNilEs es) (hv : v.NoNil) : Val.NoNilEs (es.insert k v) := by
  rw [noNilEs_iff] at *
  intro e he
  rcases AMap.mem_insert' he with rfl | he
  · exact hv
  · exact h e he

theorem noNil_erase {es : AMap Val} {k : Bytes} (h : Val.NoNilEs es) : Val.NoNilEs (es.erase k) := by
  rw [noNilEs_iff] at *
  exact fun e he => h e (AMap.mem_erase.1 he).1

theorem get_noNil {m : AMap Val} (path : List Bytes) (h : Val.NoNilEs m) :
    ∃ v, Spec.get m path = .ok v ∧ (v = .nilp ∨ v.NoNil) := by
  induction path generalizing m with
  | nil => exact ⟨_, rfl, .inl rfl⟩
  | cons k ks ih =>
    cases ks with
    | nil =>
      simp only [Spec.get]
      cases hl : AMap.lookup m k with
      | none => exact ⟨_, rfl, .inl rfl⟩
      | some v => exact ⟨_, rfl, .inr (noNil_lookup h hl)⟩
    | cons k2 ks =>
      simp only [Spec.get]
      cases hl : AMap.lookup m k with
      | none => exact ⟨_, rfl, .inl rfl⟩
      | some v =>
        have hv := noNil_lookup h hl
        cases v with
        | obj es => exact ih (by simpa [Val.NoNil] using hv)
        | nilp => simp [Val.NoNil] at hv
        | _ => exact ⟨_, rfl, .inl rfl⟩

theorem store_noNil {m : AMap Val} (path : List Bytes) {v : Val} (h : Val.NoNilEs m) (hv : v.NoNil) :
    ∃ r, Spec.store m path v = .ok r ∧ ∀ m', r = some m' → Val.NoNilEs m' := by
  induction path generalizing m with
  | nil => exact ⟨_, rfl, by simpa using h⟩
  | cons k ks ih =>
    cases ks with
    | nil => exact ⟨_, rfl, by intro m' e; cases e; exact noNil_insert h hv⟩
    | cons k2 ks =>
      simp only [Spec.store]
      cases hl : AMap.lookup m k with
      | none =>
        obtain ⟨r, h1, h2⟩ := ih (m := []) (by simp [Val.NoNilEs])
        rw [h1]
        refine ⟨_, rfl, ?_⟩
        intro m' e
        cases r with
        | none => simp at e
        | some es => simp at e; subst e; exact noNil_insert h (by simpa [Val.NoNil] using h2 es rfl)
      | some w =>
        have hw := noNil_lookup h hl
        cases w with
        | obj es =>
          obtain ⟨r, h1, h2⟩ := ih (m := es) (by simpa [Val.NoNil] using hw)
          simp only [h1]
          refine ⟨_, rfl, ?_⟩
          intro m' e
          cases r with
          | none => simp at e
          | some es => simp at e; subst e; exact noNil_insert h (by simpa [Val.NoNil] using h2 es rfl)
        | nilp => simp [Val.NoNil] at hw
        | objNil => simp [Val.NoNil] at hw
        | _ => exact ⟨none, rfl, by simp⟩

/-- Values below which nothing can be stored. -/
def Val.NotObject : Val → Prop
  | .scalar _ => True
  | .arrNil => True
  | .arr _ => True
  | _ => False

/-- A store is refused exactly when a proper, non-empty prefix of the path holds a non-object. -/
theorem store_none_iff {m : AMap Val} (path : List Bytes) (v : Val) :
    Spec.store m path v = .ok none ↔
      ∃ p q w, path = p ++ q ∧ p ≠ [] ∧ q ≠ [] ∧ Spec.get m p = .ok w ∧ w.NotObject := by
  induction path generalizing m with
  | nil => simp [Spec.store]
  | cons k ks ih =>
    cases ks with
    | nil =>
      simp only [Spec.store, Res.ok.injEq, reduceCtorEq, false_iff]
      rintro ⟨p, q, w, hpq, hp, hq, _⟩
      cases p with
      | nil => exact hp rfl
      | cons x xs => simp at hpq; exact hq hpq.2.2
    | cons k2 ks =>
      simp only [Spec.store]
      have none_case : ∀ (es : AMap Val) (g : AMap Val → AMap Val),
          (((Spec.store es (k2 :: ks) v).map (·.map g)) = .ok none ↔ Spec.store es (k2 :: ks) v = .ok none) := by
        intro es g
        cases Spec.store es (k2 :: ks) v with
        | panic => simp
        | ok r => cases r <;> simp
      have cons_form : ∀ (P : List Bytes → Prop),
          (∃ p q w, k :: k2 :: ks = p ++ q ∧ p ≠ [] ∧ q ≠ [] ∧ Spec.get m p = .ok w ∧ w.NotObject) ↔
          ((∃ w, Spec.get m [k] = .ok w ∧ w.NotObject) ∨
           (∃ p q w, k2 :: ks = p ++ q ∧ p ≠ [] ∧ q ≠ [] ∧ Spec.get m (k :: p) = .ok w ∧ w.NotObject)) := by
        intro _
        constructor
        · rintro ⟨p, q, w, hpq, hp, hq, hg, hw⟩
          cases p with
          | nil => exact absurd rfl hp
          | cons x xs =>
            simp only [List.cons_append, List.cons.injEq] at hpq
            obtain ⟨rfl, hpq⟩ := hpq
            cases xs with
            | nil => exact .inl ⟨w, hg, hw⟩
            | cons y ys => exact .inr ⟨y :: ys, q, w, hpq, by simp, hq, hg, hw⟩
        · rintro (⟨w, hg, hw⟩ | ⟨p, q, w, hpq, hp, hq, hg, hw⟩)
          · exact ⟨[k], k2 :: ks, w, rfl, by simp, by simp, hg, hw⟩
          · exact ⟨k :: p, q, w, by simp [hpq], by simp, hq, hg, hw⟩
      rw [cons_form (fun _ => True)]
      cases hl : AMap.lookup m k with
      | none =>
        simp only [none_case]
        have hno : Spec.store [] (k2 :: ks) v ≠ .ok none := by
          obtain ⟨es, he⟩ := spec_store_nil (k2 :: ks) v
          rw [he]; simp
        simp only [hno, false_iff, not_or]
        constructor
        · rintro ⟨w, hg, hw⟩
          simp [Spec.get, hl] at hg; subst hg; simp [Val.NotObject] at hw
        · rintro ⟨p, q, w, hpq, hp, hq, hg, hw⟩
          cases p with
          | nil => exact hp rfl
          | cons x xs => simp [Spec.get, hl] at hg; subst hg; simp [Val.NotObject] at hw
      | some w0 =>
        have h1 : (∃ w, Spec.get m [k] = .ok w ∧ w.NotObject) ↔ w0.NotObject := by simp [Spec.get, hl]
        rw [h1]
        cases w0 with
        | obj es =>
          simp only [none_case, ih, Val.NotObject, false_or]
          constructor
          · rintro ⟨p, q, w, hpq, hp, hq, hg, hw⟩
            refine ⟨p, q, w, hpq, hp, hq, ?_, hw⟩
            cases p with
            | nil => exact absurd rfl hp
            | cons x xs => simpa [Spec.get, hl] using hg
          · rintro ⟨p, q, w, hpq, hp, hq, hg, hw⟩
            refine ⟨p, q, w, hpq, hp, hq, ?_, hw⟩
            cases p with
            | nil => exact absurd rfl hp
            | cons x xs => simpa [Spec.get, hl] using hg
        | nilp =>
          simp only [reduceCtorEq, Val.NotObject, false_or, false_iff]
          rintro ⟨p, q, w, hpq, hp, hq, hg, hw⟩
          cases p with
          | nil => exact hp rfl
          | cons x xs => simp [Spec.get, hl] at hg
        | objNil =>
          simp only [reduceCtorEq, Val.NotObject, false_or, false_iff]
          rintro ⟨p, q, w, hpq, hp, hq, hg, hw⟩
          cases p with
          | nil => exact hp rfl
          | cons x xs => simp [Spec.get, hl] at hg; subst hg; simp [Val.NotObject] at hw
        | scalar s => simp [Val.NotObject]
        | arrNil => simp [Val.NotObject]
        | arr vs => simp [Val.NotObject]

/-- Reading below a stored value reads inside it, and a stored value's strict prefixes are objects. -/
theorem get_store_below {m m' : AMap Val} {path : List Bytes} {v : Val} (hp : path ≠ [])
    (hs : Spec.store m path v = .ok (some m')) (q : List Bytes) (hq : q ≠ []) :
    Spec.get m' (path ++ q) = Spec.below v q := by
  induction path generalizing m m' with
  | nil => exact absurd rfl hp
  | cons k ks ih =>
    cases ks with
    | nil =>
      simp [Spec.store] at hs; subst hs
      cases q with
      | nil => exact absurd rfl hq
      | cons x xs => simp only [List.cons_append, List.nil_append, Spec.get, AMap.lookup_insert_self]; cases v <;> simp [Spec.below]
    | cons k2 ks =>
      simp only [Spec.store] at hs
      split at hs
      · cases hr : Spec.store [] (k2 :: ks) v with
        | panic => simp [hr] at hs
        | ok r => cases r with
          | none => simp [hr] at hs
          | some es => simp [hr] at hs; subst hs; simp only [List.cons_append, Spec.get, AMap.lookup_insert_self]; exact ih (by simp) hr
      · next es _ =>
        cases hr : Spec.store es (k2 :: ks) v with
        | panic => simp [hr] at hs
        | ok r => cases r with
          | none => simp [hr] at hs
          | some es => simp [hr] at hs; subst hs; simp only [List.cons_append, Spec.get, AMap.lookup_insert_self]; exact ih (by simp) hr
      all_goals simp at hs

end Sawmill
