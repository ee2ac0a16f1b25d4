import Verif.Lemmas.Path
/-!
# C09, C10: the key syntax
-/

namespace Sawmill
open Spec

/-- C10 (meaning of keys). The key parser computes exactly the declarative components of the key, for every byte string. -/
theorem keyToPath_eq_components (key : Bytes) : keyToPath key = components key := by
  rw [keyToPath, keyToPathLoop_spec key [] [] none false (by simp), components, tokens_eq, glue_nil]
  rfl

/-- C10. Whatever the key, every component is non-empty and free of backslashes. -/
theorem keyToPath_goodNames (key : Bytes) : ∀ n ∈ keyToPath key, GoodName n := by
  intro n hn
  rw [keyToPath_eq_components, components, List.mem_filter] at hn
  refine ⟨by simpa using hn.2, fun hb => ?_⟩
  have := stretches_mem hn.1 hb
  rw [tokens_eq] at this
  exact toksFrom_no_bsl _ _ this

example : keyToPath (lit "..a\\.b..c\\") = [lit "a.b", lit "c"] := by decide

/-- C10. A leading dot is redundant. -/
theorem keyToPath_leading_dot (k : Bytes) : keyToPath (dot :: k) = keyToPath k := by
  simp only [keyToPath_eq_components, components, tokens_eq]
  have h1 : toksFrom none (dot :: k) = none :: toksFrom (some dot) k := rfl
  have h2 : toksFrom (some dot) k = toksFrom none k := by
    cases k with
    | nil => rfl
    | cons c r =>
      have : (some dot ≠ some bsl) = True := by simp; decide
      simp [toksFrom, tok1, this]
  rw [h1, h2]
  simp [stretches]

/-- C10. A trailing dot is redundant unless it is escaped. -/
theorem keyToPath_trailing_dot (k : Bytes) (h : k.getLast? ≠ some bsl) : keyToPath (k ++ [dot]) = keyToPath k := by
  simp only [keyToPath_eq_components, components, tokens_eq, toksFrom_append, lastOf_eq]
  have : toksFrom (k.getLast?.or none) [dot] = [none] := by
    have hd : dot ≠ bsl := by decide
    simp [toksFrom, tok1, h, hd]
  rw [this, stretches_append_none]
  simp [stretches]

example : (lit "a.b").getLast? ≠ some bsl := by decide

/-- C10. Doubling an unescaped dot changes nothing. -/
theorem keyToPath_double_dot (a b : Bytes) (h : a.getLast? ≠ some bsl) :
    keyToPath (a ++ dot :: dot :: b) = keyToPath (a ++ dot :: b) := by
  simp only [keyToPath_eq_components, components, tokens_eq, toksFrom_append, lastOf_eq]
  have hd : dot ≠ bsl := by decide
  have h1 : toksFrom (a.getLast?.or none) (dot :: dot :: b) = none :: none :: toksFrom (some dot) b := by
    simp [toksFrom, tok1, h, hd]
  have h2 : toksFrom (a.getLast?.or none) (dot :: b) = none :: toksFrom (some dot) b := by
    simp [toksFrom, tok1, h, hd]
  rw [h1, h2, stretches_append_none, stretches_append_none]
  simp [stretches]

/-- C10. Keys split at an unescaped dot resolve to the concatenation of the two halves. -/
theorem keyToPath_split (a b : Bytes) (h : a.getLast? ≠ some bsl) :
    keyToPath (a ++ dot :: b) = keyToPath a ++ keyToPath b := by
  simp only [keyToPath_eq_components, components, tokens_eq, toksFrom_append, lastOf_eq]
  have hd : dot ≠ bsl := by decide
  have h2 : toksFrom (a.getLast?.or none) (dot :: b) = none :: toksFrom (some dot) b := by
    simp [toksFrom, tok1, h, hd]
  have h3 : toksFrom (some dot) b = toksFrom none b := by
    cases b with
    | nil => rfl
    | cons c r =>
      have : (some dot ≠ some bsl) = True := by simp; decide
      simp [toksFrom, tok1, this]
  rw [h2, stretches_append_none, List.filter_append, h3]

/-- C09. Every list of non-empty backslash-free names is what its escaped, dot-joined key resolves to. -/
theorem keyToPath_joinKey (names : List Bytes) (h : ∀ n ∈ names, GoodName n) : keyToPath (joinKey names) = names := by
  simp only [keyToPath_eq_components, components, tokens_eq]
  have one : ∀ n, GoodName n → toksFrom none (escapeKey n) = n.map some := by
    intro n hn
    rw [toksFrom_escapeKey]
    congr 1
    rw [List.filter_eq_self]
    intro c hc
    have : c ≠ bsl := fun e => hn.2 (e ▸ hc)
    simpa using this
  induction names with
  | nil => rfl
  | cons n ns ih =>
    have hn := h n (by simp)
    have hf : ([n].filter (· ≠ [])) = [n] := by simp [hn.1]
    cases ns with
    | nil =>
      simp only [joinKey, one n hn, stretches_map_some]
      exact hf
    | cons m ms =>
      have ih' := ih (fun x hx => h x (by simp [hx]))
      have hd : dot ≠ bsl := by decide
      have hl := lastOf_escapeKey n hn.2 none (by simp)
      have h3 : toksFrom (some dot) (joinKey (m :: ms)) = toksFrom none (joinKey (m :: ms)) := by
        generalize joinKey (m :: ms) = b
        cases b with
        | nil => rfl
        | cons c r =>
          have : (some dot ≠ some bsl) = True := by simp; decide
          simp [toksFrom, tok1, this]
      simp only [joinKey, List.append_assoc, List.cons_append, List.nil_append, toksFrom_append, one n hn]
      have h2 : toksFrom (lastOf none (escapeKey n)) (dot :: joinKey (m :: ms)) =
          none :: toksFrom (some dot) (joinKey (m :: ms)) := by
        simp [toksFrom, tok1, hl, hd]
      rw [h2, h3, stretches_append_none, List.filter_append, ih', stretches_map_some, hf]
      rfl

example : (∀ n ∈ [lit "ecs.version", lit "x"], GoodName n) ∧
    joinKey [lit "ecs.version", lit "x"] = lit "ecs\\.version.x" := by decide

/-- C09 (converse). The addressable paths are exactly the lists of such names. -/
theorem path_addressable_iff (names : List Bytes) :
    (∃ key, keyToPath key = names) ↔ ∀ n ∈ names, GoodName n :=
  ⟨fun ⟨key, h⟩ => h ▸ keyToPath_goodNames key, fun h => ⟨joinKey names, keyToPath_joinKey names h⟩⟩

/-- C09. `EscapeKey` in general: the key of an escaped name resolves to the name with its backslashes removed
(to nothing when nothing remains). So a name with a backslash is *not* addressed by its escaped form. -/
theorem keyToPath_escapeKey (n : Bytes) :
    keyToPath (escapeKey n) = if n.filter (· ≠ bsl) = [] then [] else [n.filter (· ≠ bsl)] := by
  simp only [keyToPath_eq_components, components, tokens_eq, toksFrom_escapeKey, stretches_map_some]
  split <;> simp_all

/-- `EscapeKey` is injective. -/
theorem escapeKey_injective {a b : Bytes} (ha : bsl ∉ a) (hb : bsl ∉ b) (h : escapeKey a = escapeKey b) : a = b := by
  have h1 := keyToPath_escapeKey a
  have h2 := keyToPath_escapeKey b
  rw [h] at h1
  rw [h1] at h2
  have fa : a.filter (· ≠ bsl) = a := by
    rw [List.filter_eq_self]
    intro c hc
    have : c ≠ bsl := fun e => ha (e ▸ hc)
    simpa using this
  have fb : b.filter (· ≠ bsl) = b := by
    rw [List.filter_eq_self]
    intro c hc
    have : c ≠ bsl := fun e => hb (e ▸ hc)
    simpa using this
  rw [fa, fb] at h2
  by_cases ea : a = [] <;> by_cases eb : b = [] <;> simp_all

end Sawmill
