import Verif.Spec.Mem
/-!
# C65: what a memory access is

`Shared.Racing` is about the accesses that `Mem.access` reports for the next step. Here: a step changes nothing but what it is reported to write, and depends on nothing but what it is reported to access.
-/

namespace Sawmill
open Mem
theorem set_changes {h : Heap} {m a : Nat} {o : HObj} (hne : (h.set m o)[a]? ≠ h[a]?) : m = a := by
  by_cases hm : m = a
  · exact hm
  · exact absurd (by simp [hm]) hne

/-- **C65.** The accesses that a race is about are all there are: a step that changes memory is a write to it. -/
theorem step_writes {X : Type} {t t' : Mem X} {h h' : Heap} {inc : Option (Bytes × Kind)} (hs : t.step h = .next h' inc t') {a : Nat} (ha : a < h.length) (hne : h'[a]? ≠ h[a]?) : t.access = some (a, true) := by
  cases t with
  | ret x => simp [step] at hs
  | crash => simp [step] at hs
  | readCell p k => simp only [step] at hs; split at hs <;> simp at hs; exact absurd (by rw [hs.1]) hne
  | readMap m k => simp only [step, Next.next.injEq] at hs; exact absurd (by rw [hs.1]) hne
  | count id kind k => simp only [step, Next.next.injEq] at hs; exact absurd (by rw [hs.1]) hne
  | peek p k => simp only [step, Next.next.injEq] at hs; exact absurd (by rw [hs.1]) hne
  | alloc o k =>
    simp only [step, Next.next.injEq] at hs
    exact absurd (by rw [← hs.1, List.getElem?_append_left ha]) hne
  | writeMap m key p k =>
    simp only [step, mapWrite] at hs
    cases m with
    | none => simp at hs
    | some m =>
      simp only at hs
      split at hs
      · simp at hs
      · rename_i h2 he
        split at he
        · simp only [Res.ok.injEq] at he
          simp only [Next.next.injEq] at hs
          rw [← hs.1, ← he] at hne
          rw [← set_changes hne]; rfl
        · simp at he
  | append b items k =>
    simp only [step, appendTo] at hs
    split at hs
    · simp at hs
    · rename_i h2 he
      split at he
      · simp at he
      · simp only [Res.ok.injEq] at he
        simp only [Next.next.injEq] at hs
        rw [← hs.1, ← he] at hne
        rw [← set_changes hne]; rfl
  | eraseMap m key k =>
    simp only [step, Next.next.injEq] at hs
    rw [← hs.1] at hne
    cases m with
    | none => exact absurd rfl hne
    | some m =>
      simp only [mapDelete] at hne
      split at hne
      · rw [← set_changes hne]; rfl
      · exact absurd rfl hne

theorem set_agree {h g : Heap} {m a : Nat} {o : HObj} (hl : h.length = g.length) (hag : h[a]? = g[a]?) : (h.set m o)[a]? = (g.set m o)[a]? := by
  simp only [List.getElem?_set, hl, hag]

theorem deref_agree {h g : Heap} {p : Ptr} (hag : ∀ a, p = some a → h[a]? = g[a]?) : deref h p = deref g p := by
  cases p with
  | none => rfl
  | some a => simp only [deref, hag a rfl]

theorem mapOf_agree {h g : Heap} {p : Option Nat} (hag : ∀ a, p = some a → h[a]? = g[a]?) : mapOf h p = mapOf g p := by
  cases p with
  | none => rfl
  | some a => simp only [mapOf, hag a rfl]

/-- **C65.** A step depends on nothing but the memory it accesses: in another memory that is the same there, the goroutine does the same, and leaves the same wherever the two were the same. -/
theorem step_reads {X : Type} {t : Mem X} {h g : Heap} (hl : h.length = g.length) (hag : ∀ a w, t.access = some (a, w) → h[a]? = g[a]?) :
    (∀ x, t.step h = .finished x → t.step g = .finished x) ∧ (t.step h = .crash → t.step g = .crash) ∧
    ∀ h' inc t', t.step h = .next h' inc t' → ∃ g', t.step g = .next g' inc t' ∧ h'.length = g'.length ∧ ∀ a : Nat, h[a]? = g[a]? → h'[a]? = g'[a]? := by
  have triv : ∀ {t1 : Mem X} {i1 : Option (Bytes × Kind)} (h' : Heap) (inc : Option (Bytes × Kind)) (t' : Mem X), Next.next h i1 t1 = Next.next h' inc t' →
      ∃ g', Next.next g i1 t1 = Next.next g' inc t' ∧ h'.length = g'.length ∧ ∀ a : Nat, h[a]? = g[a]? → h'[a]? = g'[a]? := by
    intro t1 i1 h' inc t' he
    injection he with e1 e2 e3
    subst e1 e2 e3
    exact ⟨g, rfl, hl, fun a ha => ha⟩
  have upd : ∀ {t1 : Mem X} {m : Nat} {o : HObj} {i1 : Option (Bytes × Kind)} (h' : Heap) (inc : Option (Bytes × Kind)) (t' : Mem X), Next.next (h.set m o) i1 t1 = Next.next h' inc t' →
      ∃ g', Next.next (g.set m o) i1 t1 = Next.next g' inc t' ∧ h'.length = g'.length ∧ ∀ a : Nat, h[a]? = g[a]? → h'[a]? = g'[a]? := by
    intro t1 m o i1 h' inc t' he
    injection he with e1 e2 e3
    subst e1 e2 e3
    exact ⟨g.set m o, rfl, by simpa using hl, fun a ha => set_agree hl ha⟩
  cases t with
  | ret x => simp [step]
  | crash => simp [step]
  | readCell p k =>
    have := deref_agree (h := h) (g := g) (p := p) fun a ha => hag a false (by simp [access, ha])
    simp only [step, this]
    cases deref g p with
    | none => simp
    | some c => exact ⟨by simp, by simp, triv⟩
  | peek p k =>
    have := deref_agree (h := h) (g := g) (p := p) fun a ha => hag a false (by simp [access, ha])
    simp only [step, this]
    exact ⟨by simp, by simp, triv⟩
  | readMap m k =>
    have := mapOf_agree (h := h) (g := g) (p := m) fun a ha => hag a false (by simp [access, ha])
    simp only [step, this]
    exact ⟨by simp, by simp, triv⟩
  | count id kind k => exact ⟨by simp [step], by simp [step], triv⟩
  | alloc o k =>
    refine ⟨by simp [step], by simp [step], ?_⟩
    intro h' inc t' he
    simp only [step] at he ⊢
    injection he with e1 e2 e3
    subst e1 e2 e3
    refine ⟨_, by rw [hl], by simpa using hl, ?_⟩
    intro a ha
    simp only [List.getElem?_append, hl, ha]
  | writeMap m key p k =>
    cases m with
    | none => simp [step, mapWrite]
    | some m =>
      have := hag m true rfl
      simp only [step, mapWrite, this]
      split
      · rename_i he
        split at he
        · simp at he
        · simp
      · rename_i h2 he
        split at he
        · simp only [Res.ok.injEq] at he; subst he
          exact ⟨by simp, by simp, upd⟩
        · simp at he
  | append b items k =>
    have := deref_agree (h := h) (g := g) (p := some b) fun a ha => hag a true (by simp only [Option.some.injEq] at ha; subst ha; rfl)
    simp only [step, appendTo, this]
    cases deref g (some b) with
    | none => simp
    | some c => exact ⟨by simp, by simp, upd⟩
  | eraseMap m key k =>
    cases m with
    | none => exact ⟨by simp [step], by simp [step], triv⟩
    | some m =>
      have := hag m true rfl
      simp only [step, mapDelete, this]
      split
      · exact ⟨by simp, by simp, upd⟩
      · exact ⟨by simp, by simp, triv⟩
/-- Both are about something: a `delete` changes a map, and is therefore a write; it depends on the map. -/
theorem step_access_sample :
    (Mem.eraseMap (some 0) (lit "a") (.ret ())).step [.map [(lit "a", none)], .map []] = .next [.map [], .map []] none (.ret ()) ∧
    (Mem.eraseMap (some 0) (lit "a") (.ret ())).access = some (0, true) :=
  ⟨rfl, rfl⟩

end Sawmill
