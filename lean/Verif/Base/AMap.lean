import Verif.Base.Bytes
/-!
# Finite maps keyed by byte strings

A Go `map[string]T` is modelled by the list of its entries sorted by key (a canonical representation:
two maps are equal iff the lists are equal, see `AMap.ext`).  The order of the list is *not* Go's
iteration order; code that ranges over a map is modelled with an explicit permutation.
-/

namespace Sawmill

abbrev AMap (α : Type) := List (Bytes × α)

namespace AMap
variable {α β : Type}

/-- `v, found := m[k]` -/
def lookup (m : AMap α) (k : Bytes) : Option α :=
  match m with
  | [] => none
  | (k', v) :: t => if k' = k then some v else lookup t k

/-- `m[k] = v` -/
def insert (m : AMap α) (k : Bytes) (v : α) : AMap α :=
  match m with
  | [] => [(k, v)]
  | (k', v') :: t =>
    if k' = k then (k, v) :: t
    else if bLt k k' then (k, v) :: (k', v') :: t
    else (k', v') :: insert t k v

/-- `delete(m, k)` -/
def erase (m : AMap α) (k : Bytes) : AMap α :=
  match m with
  | [] => []
  | (k', v') :: t => if k' = k then erase t k else (k', v') :: erase t k

/-- Representation invariant: keys strictly increasing. -/
def Sorted (m : AMap α) : Prop := m.Pairwise (fun a b => bLt a.1 b.1 = true)

instance (m : AMap α) : Decidable (Sorted m) := by unfold Sorted; infer_instance

@[simp] theorem lookup_nil (k : Bytes) : lookup ([] : AMap α) k = none := rfl

theorem lookup_cons (k' : Bytes) (v : α) (t : AMap α) (k : Bytes) :
    lookup ((k', v) :: t) k = if k' = k then some v else lookup t k := rfl

@[simp] theorem sorted_nil : Sorted ([] : AMap α) := List.Pairwise.nil

@[simp] theorem lookup_insert_self (m : AMap α) (k : Bytes) (v : α) : lookup (insert m k v) k = some v := by
  induction m with
  | nil => simp [insert, lookup]
  | cons e t ih =>
    obtain ⟨k', v'⟩ := e
    simp only [insert]
    split
    · simp [lookup]
    · split
      · simp [lookup]
      · simp_all [lookup]

theorem lookup_insert_of_ne (m : AMap α) {k q : Bytes} (v : α) (h : k ≠ q) :
    lookup (insert m k v) q = lookup m q := by
  induction m with
  | nil => simp [insert, lookup, h]
  | cons e t ih =>
    obtain ⟨k', v'⟩ := e
    simp only [insert]
    split
    · next h' => subst h'; simp [lookup, h]
    · split
      · simp [lookup, h]
      · simp [lookup, ih]

theorem lookup_insert (m : AMap α) (k q : Bytes) (v : α) :
    lookup (insert m k v) q = if k = q then some v else lookup m q := by
  split
  · next h => subst h; simp
  · next h => exact lookup_insert_of_ne m v h

@[simp] theorem lookup_erase_self (m : AMap α) (k : Bytes) : lookup (erase m k) k = none := by
  induction m with
  | nil => rfl
  | cons e t ih =>
    obtain ⟨k', v'⟩ := e
    simp only [erase]; split
    · exact ih
    · simp_all [lookup]

theorem lookup_erase_of_ne (m : AMap α) {k q : Bytes} (h : k ≠ q) : lookup (erase m k) q = lookup m q := by
  induction m with
  | nil => rfl
  | cons e t ih =>
    obtain ⟨k', v'⟩ := e
    simp only [erase]; split
    · next h' => subst h'; simp [lookup, h, ih]
    · simp [lookup, ih]

theorem mem_insert {m : AMap α} {k : Bytes} {v : α} {e : Bytes × α} (h : e ∈ insert m k v) :
    e = (k, v) ∨ (e ∈ m ∧ e.1 ≠ k) ∨ e ∈ m := by
  induction m with
  | nil => simp [insert] at h; exact .inl h
  | cons x t ih =>
    obtain ⟨k', v'⟩ := x
    simp only [insert] at h
    grind

theorem mem_erase {m : AMap α} {k : Bytes} {e : Bytes × α} : e ∈ erase m k ↔ e ∈ m ∧ e.1 ≠ k := by
  induction m with
  | nil => simp [erase]
  | cons x t ih =>
    obtain ⟨k', v'⟩ := x
    simp only [erase]
    grind

theorem sorted_cons {k : Bytes} {v : α} {t : AMap α} :
    Sorted ((k, v) :: t) ↔ (∀ e ∈ t, bLt k e.1 = true) ∧ Sorted t := by
  simp [Sorted]

theorem sorted_insert {m : AMap α} (k : Bytes) (v : α) (h : Sorted m) : Sorted (insert m k v) := by
  induction m with
  | nil => simp [insert, Sorted]
  | cons x t ih =>
    obtain ⟨k', v'⟩ := x
    rw [sorted_cons] at h
    simp only [insert]
    split
    · next e => subst e; rw [sorted_cons]; exact h
    · next hne =>
      split
      · next hlt =>
        rw [sorted_cons, sorted_cons]
        refine ⟨?_, h⟩
        intro e he
        rcases List.mem_cons.1 he with rfl | he
        · exact hlt
        · exact bLt_trans hlt (h.1 e he)
      · next hlt =>
        rw [sorted_cons]
        refine ⟨?_, ih h.2⟩
        intro e he
        have hk : bLt k' k = true := by
          rcases bLt_total k' k with h' | h' | h'
          · exact absurd h' hne
          · exact h'
          · exact absurd h' hlt
        rcases mem_insert he with rfl | h' | h'
        · exact hk
        · exact h.1 e h'.1
        · exact h.1 e h'

theorem sorted_erase {m : AMap α} (k : Bytes) (h : Sorted m) : Sorted (erase m k) := by
  induction m with
  | nil => exact h
  | cons x t ih =>
    obtain ⟨k', v'⟩ := x
    rw [sorted_cons] at h
    simp only [erase]; split
    · exact ih h.2
    · rw [sorted_cons]
      exact ⟨fun e he => h.1 e (mem_erase.1 he).1, ih h.2⟩

theorem lookup_eq_none_of_lt {m : AMap α} {k : Bytes} (h : ∀ e ∈ m, bLt k e.1 = true) : lookup m k = none := by
  induction m with
  | nil => rfl
  | cons x t ih =>
    obtain ⟨k', v'⟩ := x
    have h1 := bLt_ne (h (k', v') (by simp))
    simp only [lookup]
    rw [if_neg (fun e => h1 e.symm)]
    exact ih (fun e he => h e (by simp [he]))

theorem mem_of_lookup {m : AMap α} {k : Bytes} {v : α} (h : lookup m k = some v) : (k, v) ∈ m := by
  induction m with
  | nil => simp at h
  | cons x t ih =>
    obtain ⟨k', v'⟩ := x
    simp only [lookup] at h
    split at h
    · next e => simp at h; subst e; subst h; simp
    · simp [ih h]

theorem lookup_of_mem {m : AMap α} {k : Bytes} {v : α} (hs : Sorted m) (h : (k, v) ∈ m) : lookup m k = some v := by
  induction m with
  | nil => simp at h
  | cons x t ih =>
    obtain ⟨k', v'⟩ := x
    rw [sorted_cons] at hs
    simp only [lookup]
    rcases List.mem_cons.1 h with h | h
    · cases h; simp
    · have := bLt_ne (hs.1 _ h)
      simp only at this
      rw [if_neg this]
      exact ih hs.2 h

/-- Canonicity: sorted maps with the same lookups are equal. -/
theorem ext {m n : AMap α} (hm : Sorted m) (hn : Sorted n) (h : ∀ k, lookup m k = lookup n k) : m = n := by
  induction m generalizing n with
  | nil =>
    cases n with
    | nil => rfl
    | cons y s =>
      obtain ⟨k, v⟩ := y
      have := h k
      simp [lookup] at this
  | cons x t ih =>
    obtain ⟨k, v⟩ := x
    cases n with
    | nil =>
      have := h k
      simp [lookup] at this
    | cons y s =>
      obtain ⟨k', v'⟩ := y
      rw [sorted_cons] at hm hn
      have hkk : k = k' := by
        rcases bLt_total k k' with h' | h' | h'
        · exact h'
        · exfalso
          have h1 := h k
          have h2 : lookup ((k', v') :: s) k = none := by
            apply lookup_eq_none_of_lt
            intro e he
            rcases List.mem_cons.1 he with rfl | he
            · exact h'
            · exact bLt_trans h' (hn.1 e he)
          rw [h2] at h1
          simp [lookup] at h1
        · exfalso
          have h1 := h k'
          have h2 : lookup ((k, v) :: t) k' = none := by
            apply lookup_eq_none_of_lt
            intro e he
            rcases List.mem_cons.1 he with rfl | he
            · exact h'
            · exact bLt_trans h' (hm.1 e he)
          rw [h2] at h1
          simp [lookup] at h1
      subst hkk
      have hv := h k
      simp [lookup] at hv
      subst hv
      congr 1
      apply ih hm.2 hn.2
      intro q
      have hq := h q
      simp only [lookup] at hq
      by_cases e : k = q
      · subst e
        rw [lookup_eq_none_of_lt hm.1, lookup_eq_none_of_lt hn.1]
      · simpa [e] using hq

/-- Keys of a map. -/
def keys (m : AMap α) : List Bytes := m.map (·.1)

theorem sorted_nodup {m : AMap α} (h : Sorted m) : (keys m).Nodup := by
  unfold keys
  rw [List.nodup_iff_pairwise_ne, List.pairwise_map]
  exact List.Pairwise.imp (fun hab => bLt_ne hab) h

/-- Build a map by inserting entries one after the other (`for ... { m[k] = v }`). -/
def ofEntries (es : List (Bytes × α)) (m : AMap α) : AMap α :=
  es.foldl (fun acc e => insert acc e.1 e.2) m

@[simp] theorem ofEntries_nil (m : AMap α) : ofEntries [] m = m := rfl
@[simp] theorem ofEntries_cons (e : Bytes × α) (es : List (Bytes × α)) (m : AMap α) :
    ofEntries (e :: es) m = ofEntries es (insert m e.1 e.2) := rfl

theorem sorted_ofEntries {es : List (Bytes × α)} {m : AMap α} (h : Sorted m) : Sorted (ofEntries es m) := by
  induction es generalizing m with
  | nil => exact h
  | cons e es ih => exact ih (sorted_insert _ _ h)

theorem lookup_ofEntries_of_not_mem {es : List (Bytes × α)} {m : AMap α} {k : Bytes} (h : k ∉ es.map (·.1)) :
    lookup (ofEntries es m) k = lookup m k := by
  induction es generalizing m with
  | nil => rfl
  | cons e es ih =>
    simp only [List.map_cons, List.mem_cons, not_or] at h
    rw [ofEntries_cons, ih h.2, lookup_insert_of_ne _ _ (fun h' => h.1 h'.symm)]

theorem lookup_ofEntries_of_mem {es : List (Bytes × α)} {m : AMap α} {k : Bytes} {v : α}
    (hn : (es.map (·.1)).Nodup) (h : (k, v) ∈ es) : lookup (ofEntries es m) k = some v := by
  induction es generalizing m with
  | nil => simp at h
  | cons e es ih =>
    simp only [List.map_cons, List.nodup_cons] at hn
    rw [ofEntries_cons]
    rcases List.mem_cons.1 h with rfl | h
    · rw [lookup_ofEntries_of_not_mem hn.1]; simp
    · exact ih hn.2 h

/-- Re-inserting the entries of a map in any order rebuilds the map. -/
theorem ofEntries_perm {m : AMap α} {es : List (Bytes × α)} (hs : Sorted m) (hp : es.Perm m) :
    ofEntries es [] = m := by
  have hn : (es.map (·.1)).Nodup := ((hp.map Prod.fst).nodup_iff).2 (sorted_nodup hs)
  apply ext (sorted_ofEntries sorted_nil) hs
  intro k
  cases h : lookup m k with
  | some v =>
    exact lookup_ofEntries_of_mem hn (hp.mem_iff.2 (mem_of_lookup h))
  | none =>
    rw [lookup_ofEntries_of_not_mem]; · rfl
    intro hk
    obtain ⟨⟨k', v⟩, he, rfl⟩ := List.mem_map.1 hk
    rw [lookup_of_mem hs (hp.mem_iff.1 he)] at h
    simp at h

theorem insert_ne_nil (m : AMap α) (k : Bytes) (v : α) : insert m k v ≠ [] := by
  cases m with
  | nil => simp [insert]
  | cons x t =>
    obtain ⟨a, b⟩ := x
    simp only [insert]
    split
    · simp
    · split <;> simp

/-- Inserting a present key with its own value changes nothing. -/
theorem insert_lookup_self {m : AMap α} {k : Bytes} {v : α} (hs : Sorted m) (h : lookup m k = some v) :
    insert m k v = m := by
  apply ext (sorted_insert _ _ hs) hs
  intro q
  rw [lookup_insert]
  split
  · next e => subst e; exact h.symm
  · rfl

/-- Map a function over the values. -/
def mapVals (f : α → β) (m : AMap α) : AMap β := m.map (fun e => (e.1, f e.2))

theorem lookup_mapVals (f : α → β) (m : AMap α) (k : Bytes) : lookup (mapVals f m) k = (lookup m k).map f := by
  induction m with
  | nil => rfl
  | cons x t ih =>
    obtain ⟨a, b⟩ := x
    simp only [mapVals, List.map_cons, lookup] at ih ⊢
    split <;> simp_all

theorem sorted_mapVals {f : α → β} {m : AMap α} (h : Sorted m) : Sorted (mapVals f m) := by
  unfold Sorted mapVals at *
  rw [List.pairwise_map]
  exact h

end AMap
end Sawmill
