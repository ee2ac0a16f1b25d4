import Verif.Lemmas.MemSim
/-!
# Goroutines that share one memory: the invariant

Each goroutine is compared with its run alone, in a private memory (`Side`). The relations of two goroutines meet only in `V`, the leaves of the first memory.
-/

namespace Sawmill
open Mem

theorem mapWrite_len {h h' : Heap} {m : Option Nat} {k : Bytes} {p : Ptr} (hw : mapWrite h m k p = .ok h') :
    ∃ a es, m = some a ∧ h[a]? = some (.map es) ∧ h' = h.set a (.map (es.insert k p)) := by
  cases m with
  | none => simp [mapWrite] at hw
  | some a =>
    simp only [mapWrite] at hw
    split at hw
    · rename_i es he
      simp only [Res.ok.injEq] at hw
      exact ⟨a, es, rfl, he, hw.symm⟩
    · simp at hw

theorem appendTo_len {h h' : Heap} {a : Nat} {items : List Ptr} (hw : appendTo h a items = .ok h') : ∃ o, h' = h.set a o := by
  simp only [appendTo] at hw
  split at hw
  · simp at hw
  · simp only [Res.ok.injEq] at hw
    exact ⟨_, hw.symm⟩

/-- Addresses in `V` hold leaves. -/
def LeavesAt (V : Nat → Prop) (H : Heap) : Prop := ∀ a, V a → H.Leaf a

theorem leaf_of_scalar {h : Heap} {a : Nat} (hs : ∃ s : Scalar, h[a]? = some (.cell (scalarCell s))) : h.Leaf a := by
  obtain ⟨s, hs⟩ := hs
  exact ⟨_, hs, by cases s <;> simp [scalarCell, nullCell, boolCell, intCell, uintCell, floatCell, strCell, tsCell], by cases s <;> rfl, by cases s <;> rfl⟩

theorem erase_sim {R : Nat → Nat → Prop} {ps qs : AMap Ptr} (h : MapSim R ps qs) (k : Bytes) : MapSim R (ps.erase k) (qs.erase k) := by
  induction ps generalizing qs with
  | nil => cases qs <;> simp [MapSim] at h; exact h
  | cons p ps ih =>
    cases qs with
    | nil => simp [MapSim] at h
    | cons q qs =>
      obtain ⟨k1, p⟩ := p
      obtain ⟨k2, q⟩ := q
      simp only [MapSim] at h
      obtain ⟨rfl, h1, h2⟩ := h
      have := ih h2
      simp only [AMap.erase]
      split
      · exact this
      · exact ⟨rfl, h1, this⟩

theorem mapDelete_sim {R : Nat → Nat → Prop} {h1 h2 : Heap} (s : Sim R h1 h2) {m1 m2 : Option Nat} (hm : PtrSim R m1 m2) (k : Bytes) : Sim R (mapDelete h1 m1 k) (mapDelete h2 m2 k) := by
  cases m1 with
  | none => cases m2 with
    | none => exact s
    | some b => simp [PtrSim] at hm
  | some a => cases m2 with
    | none => simp [PtrSim] at hm
    | some b =>
      obtain ⟨o1, o2, f1, f2, f3⟩ := s.obj hm
      simp only [mapDelete, f1, f2]
      cases o1 <;> cases o2 <;> simp only [ObjSim] at f3
      · exact s
      · exact sim_set s hm (erase_sim f3 k)

theorem mapDelete_len (h : Heap) (m : Option Nat) (k : Bytes) : (mapDelete h m k).length = h.length ∧ ∀ b, m ≠ some b → (mapDelete h m k)[b]? = h[b]? := by
  cases m with
  | none => exact ⟨rfl, fun _ _ => rfl⟩
  | some a =>
    simp only [mapDelete]
    split
    · exact ⟨by simp, fun b hb => List.getElem?_set_ne (by simpa using hb)⟩
    · exact ⟨rfl, fun _ _ => rfl⟩

/-- The shared parts are in the memory as they were. -/
structure Zone.Kept (Z : Zone) (H : Heap) : Prop where
  shared : ∀ a, Z.S a → a < Z.h0.length ∧ H[a]? = Z.h0[a]?
  len : Z.h0.length ≤ H.length

/-- The relation of a goroutine: old addresses are related to themselves and not in what is only read, leaves excepted; new ones are new on both sides. -/
def Zone.Own (Z : Zone) (R : Nat → Nat → Prop) : Prop := ∀ a b, R a b → (a = b ∧ a < Z.h0.length ∧ (Z.S a → Z.V a)) ∨ (Z.h0.length ≤ a ∧ Z.h0.length ≤ b)

theorem Zone.Kept.deref {Z : Zone} {H : Heap} (hk : Z.Kept H) {p : Ptr} (hp : Z.In p) : deref H p = deref Z.h0 p := by
  cases p with
  | none => rfl
  | some a => simp only [Sawmill.deref, (hk.shared a (hp a rfl)).2]

theorem Zone.Kept.mapOf {Z : Zone} {H : Heap} (hk : Z.Kept H) {p : Ptr} (hp : Z.In p) : mapOf H p = mapOf Z.h0 p := by
  cases p with
  | none => rfl
  | some a => simp only [Sawmill.mapOf, (hk.shared a (hp a rfl)).2]

section
variable {X Y : Type} {Z : Zone} {post : (Nat → Nat → Prop) → X → Y → Prop} {R : Nat → Nat → Prop} {H h : Heap}

theorem memSim_safe {t : Mem X} {t' : Mem Y} (hm : MemSim Z post t t' R) (hs : Sim R H h) (hk : Z.Kept H) (hk' : Z.Kept h) (hok : t'.solo h ≠ .panic) : t.step H ≠ .crash := by
  intro hc
  cases t <;> cases t' <;> simp only [MemSim] at hm <;> simp only [step] at hc
  · cases hc
  · rename_i p k q k'
    rcases hm with hm | ⟨rfl, hp, hm⟩
    · rcases deref_sim hs hm.1 with ⟨d1, d2⟩ | ⟨c, d, d1, d2, d3⟩
      · exact hok (by simp [solo, d2])
      · simp [d1] at hc
    · rw [hk.deref hp] at hc
      cases hd : deref Z.h0 p with
      | none => exact hok (by simp [solo, hk'.deref hp, hd])
      | some c => simp [hd] at hc
  · cases hc
  · rename_i m key p k m' key' p' k'
    obtain ⟨h1, rfl, h2, _⟩ := hm
    rcases (mapWrite_sim hs h1 key h2).cases with ⟨d1, d2⟩ | ⟨c, d, d1, d2, d3⟩
    · exact hok (by simp [solo, d2])
    · simp [d1] at hc
  · cases hc
  · rcases (appendTo_sim hs hm.1 hm.2.2.1).cases with ⟨d1, d2⟩ | ⟨c, d, d1, d2, d3⟩
    · exact hok (by simp [solo, d2])
    · simp [d1] at hc
  · cases hc
  · cases hc
  · cases hc
  · exact hok rfl

/-- An access is to the goroutine's own memory (and then no leaf is written), or reads what is only read. -/
theorem memSim_access {t : Mem X} {t' : Mem Y} (hm : MemSim Z post t t' R) (hs : Sim R H h) (hok : t'.solo h ≠ .panic) (hV : LeavesAt Z.V H) {a : Nat} {w : Bool} (ha : t.access = some (a, w)) :
    ((∃ b, R a b) ∧ (w = true → ¬ Z.V a)) ∨ (w = false ∧ Z.S a) := by
  have ptr : ∀ {p q : Ptr}, PtrSim R p q → p = some a → ∃ b, R a b := by
    rintro p q hp rfl
    cases q with
    | none => simp [PtrSim] at hp
    | some b => exact ⟨b, hp⟩
  cases t <;> cases t' <;> simp only [MemSim] at hm <;> simp only [access] at ha
  · cases ha
  · simp only [Option.map_eq_some_iff, Prod.mk.injEq] at ha
    obtain ⟨x, rfl, rfl, rfl⟩ := ha
    rcases hm with hm | ⟨_, hp, _⟩
    · exact .inl ⟨ptr hm.1 rfl, by simp⟩
    · exact .inr ⟨rfl, hp _ rfl⟩
  · simp only [Option.map_eq_some_iff, Prod.mk.injEq] at ha
    obtain ⟨x, rfl, rfl, rfl⟩ := ha
    rcases hm with hm | ⟨_, hp, _⟩
    · exact .inl ⟨ptr hm.1 rfl, by simp⟩
    · exact .inr ⟨rfl, hp _ rfl⟩
  · simp only [Option.map_eq_some_iff, Prod.mk.injEq] at ha
    rename_i m key p k m' key' p' k'
    obtain ⟨x, rfl, rfl, rfl⟩ := ha
    obtain ⟨h1, rfl, h2, _⟩ := hm
    refine .inl ⟨ptr h1 rfl, fun _ hv => ?_⟩
    obtain ⟨s, hl, _⟩ := hV _ hv
    rcases (mapWrite_sim hs h1 key h2).cases with ⟨d1, d2⟩ | ⟨c, d, d1, d2, d3⟩
    · exact hok (by simp [solo, d2])
    · simp [mapWrite, hl] at d1
  · cases ha
  · simp only [Option.some.injEq, Prod.mk.injEq] at ha
    obtain ⟨rfl, rfl⟩ := ha
    exact .inl ⟨⟨_, hm.1⟩, fun _ => hm.2.1⟩
  · cases ha
  · simp only [Option.map_eq_some_iff, Prod.mk.injEq] at ha
    obtain ⟨x, rfl, rfl, rfl⟩ := ha
    rcases hm with hm | ⟨_, hp, _⟩
    · exact .inl ⟨ptr hm.1 rfl, by simp⟩
    · exact .inr ⟨rfl, hp _ rfl⟩
  · simp only [Option.map_eq_some_iff, Prod.mk.injEq] at ha
    obtain ⟨x, rfl, rfl, rfl⟩ := ha
    exact .inl ⟨ptr hm.1 rfl, fun _ => hm.2.1 _ rfl⟩
  · cases ha

/-- A write to a related address that is no leaf leaves what is only read alone, on both sides. -/
theorem own_write (ho : Z.Own R) {a b : Nat} (hab : R a b) (hv : ¬ Z.V a) (hl : ∀ c, Z.S c → c < Z.h0.length) : ¬ Z.S a ∧ ¬ Z.S b := by
  rcases ho a b hab with ⟨rfl, _, h⟩ | ⟨h1, h2⟩
  · exact ⟨fun hc => hv (h hc), fun hc => hv (h hc)⟩
  · exact ⟨fun hc => by have := hl _ hc; omega, fun hc => by have := hl _ hc; omega⟩

theorem Zone.Kept.set {H : Heap} (hk : Z.Kept H) {a : Nat} (ha : ¬ Z.S a) (o : HObj) : Z.Kept (H.set a o) := by
  refine ⟨fun c hc => ⟨(hk.shared c hc).1, ?_⟩, by simpa using hk.len⟩
  rw [List.getElem?_set_ne (by rintro rfl; exact ha hc)]
  exact (hk.shared c hc).2

theorem Zone.Kept.append {H : Heap} (hk : Z.Kept H) (os : List HObj) : Z.Kept (H ++ os) := by
  refine ⟨fun c hc => ⟨(hk.shared c hc).1, ?_⟩, by have := hk.len; simp; omega⟩
  rw [List.getElem?_append_left (by have := (hk.shared c hc).1; have := hk.len; omega)]
  exact (hk.shared c hc).2

theorem Zone.Kept.delete {H : Heap} (hk : Z.Kept H) {m : Option Nat} (hm : ∀ a, m = some a → ¬ Z.S a) (k : Bytes) : Z.Kept (mapDelete H m k) := by
  have hl := mapDelete_len H m k
  refine ⟨fun c hc => ⟨(hk.shared c hc).1, ?_⟩, by rw [hl.1]; exact hk.len⟩
  rw [hl.2 c fun e => hm c e hc]
  exact (hk.shared c hc).2

/-- What a step of one goroutine does to the shared memory, and that its private run makes the same step. -/
theorem memSim_step {t k : Mem X} {t' : Mem Y} {H2 : Heap} {inc : Option (Bytes × Kind)} (hm : MemSim Z post t t' R) (hs : Sim R H h) (hk : Z.Kept H) (hk' : Z.Kept h) (ho : Z.Own R)
    (hok : t'.solo h ≠ .panic) (hV : LeavesAt Z.V H) (ht : t.step H = .next H2 inc k) :
    ∃ h2 k' R2, t'.step h = .next h2 inc k' ∧ Grow R R2 ∧ MemSim Z post k k' R2 ∧ Sim R2 H2 h2 ∧ Z.Kept H2 ∧ Z.Kept h2 ∧ Z.Own R2 ∧ (∀ a b, R2 a b → R a b ∨ a = H.length) ∧ H.length ≤ H2.length ∧
      ∀ a, a < H.length → H2[a]? = H[a]? ∨ (¬ Z.V a ∧ ∃ b, R a b) := by
  have hacc := fun a (w : Bool) => memSim_access hm hs hok hV (a := a) (w := w)
  have hl : ∀ c, Z.S c → c < Z.h0.length := fun c hc => (hk.shared c hc).1
  have same : ∀ {q : Mem Y}, MemSim Z post k q R → t'.step h = .next h none q → inc = none → H2 = H → ∃ h2 k' R2, t'.step h = .next h2 inc k' ∧ Grow R R2 ∧ MemSim Z post k k' R2 ∧ Sim R2 H2 h2 ∧ Z.Kept H2 ∧ Z.Kept h2 ∧ Z.Own R2 ∧ (∀ a b, R2 a b → R a b ∨ a = H.length) ∧ H.length ≤ H2.length ∧
      ∀ a, a < H.length → H2[a]? = H[a]? ∨ (¬ Z.V a ∧ ∃ b, R a b) := by
    intro q h1 h2 h3 h4
    subst h3 h4
    exact ⟨h, q, R, h2, Grow.refl R, h1, hs, hk, hk', ho, fun a b hr => .inl hr, Nat.le_refl _, fun a _ => .inl rfl⟩
  cases t <;> cases t' <;> simp only [MemSim] at hm <;> simp only [step] at ht ⊢
  · cases ht
  · rename_i p k q k'
    rcases hm with hm | ⟨rfl, hp, hm⟩
    · rcases deref_sim hs hm.1 with ⟨d1, d2⟩ | ⟨c, d, d1, d2, d3⟩
      · simp [d1] at ht
      · simp only [d1, Next.next.injEq] at ht
        obtain ⟨rfl, rfl, rfl⟩ := ht
        refine same (hm.2 R c d (Grow.refl R) d3 ?_) (by simp [step, d2]) rfl rfl
        rintro a rfl hv
        obtain ⟨s, hl, hty, _⟩ := hV a hv
        simp only [deref, hl, Option.some.injEq] at d1
        subst d1
        exact hty
    · rw [hk.deref hp] at ht
      cases hd : deref Z.h0 p with
      | none => simp [hd] at ht
      | some c =>
        simp only [hd, Next.next.injEq] at ht
        obtain ⟨rfl, rfl, rfl⟩ := ht
        exact same (hm R c (Grow.refl R) hd) (by simp [step, hk'.deref hp, hd]) rfl rfl
  · simp only [Next.next.injEq] at ht
    obtain ⟨rfl, rfl, rfl⟩ := ht
    rcases hm with hm | ⟨rfl, hp, hm⟩
    · refine same (hm.2 R _ _ (Grow.refl R) (mapOf_sim hs hm.1) ?_) rfl rfl rfl
      rintro a rfl hv
      obtain ⟨s, hl, _⟩ := hV a hv
      simp [mapOf, hl]
    · exact same (q := _) (by rw [hk.mapOf hp]; exact hm R (Grow.refl R)) (by simp [step, hk'.mapOf hp]) rfl rfl
  · rename_i m key p k m' key' p' k'
    obtain ⟨h1, rfl, h2, h3⟩ := hm
    rcases (mapWrite_sim hs h1 key h2).cases with ⟨d1, d2⟩ | ⟨c, d, d1, d2, d3⟩
    · simp [d1] at ht
    · simp only [d1, Next.next.injEq] at ht
      obtain ⟨rfl, rfl, rfl⟩ := ht
      obtain ⟨a, es, rfl, he, rfl⟩ := mapWrite_len d1
      obtain ⟨a', es', rfl, he', rfl⟩ := mapWrite_len d2
      rcases hacc a true (by simp [access]) with this | h
      · have hw := own_write ho h1 (this.2 rfl) hl
        refine ⟨_, _, R, by simp only [d2], Grow.refl R, h3 R (Grow.refl R), d3, hk.set hw.1 _, hk'.set hw.2 _, ho, fun a b hr => .inl hr, by simp, fun b _ => ?_⟩
        by_cases hb : a = b
        · subst hb; exact .inr ⟨this.2 rfl, this.1⟩
        · exact .inl (List.getElem?_set_ne hb)
      · exact absurd h.1 (by simp)
  · simp only [Next.next.injEq] at ht
    obtain ⟨rfl, rfl, rfl⟩ := ht
    have hsim := sim_alloc hs (objSim_mono (ext1 _ _ _) hm.1)
    have hg : Grow R (Ext1 R H.length h.length) := ⟨ext1 _ _ _, fun _ => hsim.one⟩
    refine ⟨_, _, Ext1 R H.length h.length, rfl, hg, hm.2 _ _ _ hg (.inr ⟨rfl, rfl⟩) ?_, hsim, hk.append _, hk'.append _, ?_, ?_, by simp, ?_⟩
    · intro hv
      obtain ⟨s, hl, _⟩ := hV _ hv
      exact absurd (lt_of_some hl) (by omega)
    · rintro a b (hr | hr)
      · exact ho a b hr
      · exact .inr ⟨by rw [hr.1]; exact hk.len, by rw [hr.2]; exact hk'.len⟩
    · rintro a b (hr | hr)
      · exact .inl hr
      · exact .inr hr.1
    · intro a ha; exact .inl (List.getElem?_append_left ha)
  · obtain ⟨h1, hv, h2, h3⟩ := hm
    rcases (appendTo_sim hs h1 h2).cases with ⟨d1, d2⟩ | ⟨c, d, d1, d2, d3⟩
    · simp [d1] at ht
    · simp only [d1, Next.next.injEq] at ht
      obtain ⟨rfl, rfl, rfl⟩ := ht
      rename_i a _ _ _ _ _
      obtain ⟨o, rfl⟩ := appendTo_len d1
      obtain ⟨o', rfl⟩ := appendTo_len d2
      have hw := own_write ho h1 hv hl
      refine ⟨_, _, R, by simp only [d2], Grow.refl R, h3 R (Grow.refl R), d3, hk.set hw.1 _, hk'.set hw.2 _, ho, fun a b hr => .inl hr, by simp, fun b _ => ?_⟩
      by_cases hb : a = b
      · subst hb; exact .inr ⟨hv, _, h1⟩
      · exact .inl (List.getElem?_set_ne hb)
  · simp only [Next.next.injEq] at ht
    obtain ⟨rfl, rfl, rfl⟩ := ht
    obtain ⟨rfl, rfl, h3⟩ := hm
    exact ⟨h, _, R, rfl, Grow.refl R, h3 R (Grow.refl R), hs, hk, hk', ho, fun a b hr => .inl hr, Nat.le_refl _, fun a _ => .inl rfl⟩
  · simp only [Next.next.injEq] at ht
    obtain ⟨rfl, rfl, rfl⟩ := ht
    rcases hm with hm | ⟨rfl, hp, hm⟩
    · rcases deref_sim hs hm.1 with ⟨d1, d2⟩ | ⟨c, d, d1, d2, d3⟩
      · exact same (by rw [d1]; exact hm.2.1 R (Grow.refl R)) (by simp [step, d2]) rfl rfl
      · exact same (by rw [d1]; exact hm.2.2 R c d (Grow.refl R) d3) (by simp [step, d2]) rfl rfl
    · exact same (by rw [hk.deref hp]; exact hm R (Grow.refl R)) (by simp [step, hk'.deref hp]) rfl rfl
  · rename_i m key k m' key' k'
    simp only [Next.next.injEq] at ht
    obtain ⟨rfl, rfl, rfl⟩ := ht
    obtain ⟨h1, h2, rfl, h3⟩ := hm
    have hw : (∀ a, m = some a → ¬ Z.S a) ∧ ∀ a, m' = some a → ¬ Z.S a := by
      cases m with
      | none => cases m' with
        | none => simp
        | some b => simp [PtrSim] at h1
      | some a => cases m' with
        | none => simp [PtrSim] at h1
        | some b =>
          have := own_write ho (a := a) (b := b) h1 (h2 a rfl) hl
          exact ⟨by rintro _ ⟨⟩; exact this.1, by rintro _ ⟨⟩; exact this.2⟩
    have hlen := mapDelete_len H m key
    refine ⟨_, _, R, rfl, Grow.refl R, h3 R (Grow.refl R), mapDelete_sim hs h1 key, hk.delete hw.1 _, hk'.delete hw.2 _, ho, fun a b hr => .inl hr, by rw [hlen.1]; exact Nat.le_refl _, fun b _ => ?_⟩
    by_cases hb : m = some b
    · subst hb
      cases m' with
      | none => simp [PtrSim] at h1
      | some b' => exact .inr ⟨h2 b rfl, b', h1⟩
    · exact .inl (hlen.2 b hb)
  · cases ht
end

/-- One goroutine's run alone. -/
structure Side (X : Type) where
  R : Nat → Nat → Prop
  heap : Heap
  prog : Mem X
  incs : List (Bytes × Kind)
  left : Nat

variable {X : Type}

/-- A goroutine, the run alone it is compared with, and how that run ends. -/
structure Side.Matches (Z : Zone) (post : (Nat → Nat → Prop) → X → X → Prop) (H : Heap) (s : Side X) (t : Mem X) (w : Heap) (x : X) : Prop where
  sim : MemSim Z post t s.prog s.R
  heaps : Sim s.R H s.heap
  kept : Z.Kept s.heap
  own : Z.Own s.R
  ends : s.prog.solo s.heap = .ok (w, s.incs, s.left, x)

/-- The invariant of the machine: `rs` is what the goroutines return alone, `cs` where the counters end, `n` the number of steps that are left. -/
structure Inv (Z : Zone) (post : (Nat → Nat → Prop) → X → X → Prop) (s : Shared X) (rs : List (Heap × X)) (cs : Counters) (n : Nat) (sides : List (Side X)) : Prop where
  lens : sides.length = s.gs.length ∧ rs.length = s.gs.length
  each : ∀ (i : Nat) t d w x, s.gs[i]? = some t → sides[i]? = some d → rs[i]? = some (w, x) → d.Matches Z post s.heap t w x
  apart : ∀ (i j : Nat) d d' a b b', i ≠ j → sides[i]? = some d → sides[j]? = some d' → d.R a b → d'.R a b' → Z.V a
  leaves : LeavesAt Z.V s.heap
  kept : Z.Kept s.heap
  counts : s.counts.incAll (sides.flatMap Side.incs) = cs
  left : (sides.map Side.left).sum = n

theorem sum_set {l : List Nat} {i m : Nat} (h : l[i]? = some (m + 1)) : l.sum = (l.set i m).sum + 1 := by
  induction l generalizing i with
  | nil => simp at h
  | cons a l ih =>
    cases i with
    | zero => simp at h; subst h; simp; omega
    | succ i => simp at h; simp [ih h]; omega

theorem flatMap_set {sides : List (Side X)} {i : Nat} {d d' : Side X} {pre : List (Bytes × Kind)} (h : sides[i]? = some d) (hd : d.incs = pre ++ d'.incs) :
    (sides.flatMap Side.incs).Perm (pre ++ (sides.set i d').flatMap Side.incs) := by
  induction sides generalizing i with
  | nil => simp at h
  | cons a l ih =>
    cases i with
    | zero => simp at h; subst h; simp [hd]
    | succ i =>
      simp at h
      simp only [List.flatMap_cons, List.set_cons_succ]
      refine ((ih h).append_left _).trans ?_
      rw [← List.append_assoc, ← List.append_assoc]
      exact List.Perm.append_right _ List.perm_append_comm

theorem incAll_incOpt (cs : Counters) (inc : Option (Bytes × Kind)) (l : List (Bytes × Kind)) : (cs.incOpt inc).incAll l = cs.incAll (inc.toList ++ l) := by
  cases inc with
  | none => rfl
  | some e => rfl

theorem get_of_len {α β : Type} {l : List α} {m : List β} {i : Nat} {x : α} (h : m.length = l.length) (hx : l[i]? = some x) : ∃ y, m[i]? = some y := by
  have := lt_of_some hx
  exact ⟨m[i]'(by omega), List.getElem?_eq_getElem _⟩

section
variable {Z : Zone} {post : (Nat → Nat → Prop) → X → X → Prop}

theorem Inv.step {s s' : Shared X} {rs : List (Heap × X)} {cs : Counters} {n : Nat} {sides : List (Side X)} (hi : Inv Z post s rs cs n sides) (hs : Shared.Step s s') :
    ∃ n' sides', Inv Z post s' rs cs n' sides' ∧ n = n' + 1 := by
  cases hs with
  | @mk i t t' H2 inc hg ht =>
    obtain ⟨d, hd⟩ := get_of_len hi.lens.1 hg
    obtain ⟨⟨w, x⟩, hr⟩ := get_of_len hi.lens.2 hg
    obtain ⟨m1, m2, m4, m5, m3⟩ := hi.each i t d w x hg hd hr
    have hok : d.prog.solo d.heap ≠ .panic := by simp [m3]
    obtain ⟨h2, k', R2, q1, q2, q3, q4, q8, q9, q10, q5, q6, q7⟩ := memSim_step m1 m2 hi.kept m4 m5 hok hi.leaves ht
    have hsolo := solo_next q1
    rw [m3] at hsolo
    cases hk : k'.solo h2 with
    | panic => simp [hk] at hsolo
    | ok q =>
      obtain ⟨g, l, m, y⟩ := q
      simp only [hk, Res.map_ok, Res.ok.injEq, Prod.mk.injEq] at hsolo
      obtain ⟨e1, e2, e3, e4⟩ := hsolo
      let d' : Side X := ⟨R2, h2, k', l, m⟩
      -- the other goroutines see the same memory
      have same : ∀ (j : Nat) e, j ≠ i → sides[j]? = some e → ∀ a b, e.R a b → a < s.heap.length → H2[a]? = s.heap[a]? := by
        intro j e hj he a b hab hlt
        rcases q7 a hlt with h | ⟨h1, b', h2⟩
        · exact h
        · exact absurd (hi.apart j i e d a b b' hj he hd hab h2) h1
      refine ⟨((sides.set i d').map Side.left).sum, sides.set i d', ⟨by simpa using hi.lens, ?_, ?_, ?_, q8, ?_, rfl⟩, ?_⟩
      · intro j u e w' x' hu he hw
        by_cases hj : i = j
        · subst hj
          have hlt := lt_of_some hd
          rw [List.getElem?_set_self (lt_of_some hg), Option.some.injEq] at hu
          rw [List.getElem?_set_self hlt, Option.some.injEq] at he
          subst hu he
          rw [hr, Option.some.injEq, Prod.mk.injEq] at hw
          obtain ⟨rfl, rfl⟩ := hw
          exact ⟨q3, q4, q9, q10, by rw [show d'.prog = k' from rfl, show d'.heap = h2 from rfl, hk, ← e1, ← e4]⟩
        · simp only [List.getElem?_set_ne hj] at hu he
          obtain ⟨n1, n2, n4, n5, n3⟩ := hi.each j u e w' x' hu he hw
          refine ⟨n1, ⟨n2.fwd, n2.bwd, ?_⟩, n4, n5, n3⟩
          intro a b hab
          obtain ⟨o1, o2, f1, f2, f3⟩ := n2.obj hab
          exact ⟨o1, o2, by simp only; rw [same j e (Ne.symm hj) he a b hab (lt_of_some f1)]; exact f1, f2, f3⟩
      · -- the relations still meet only in leaves
        have key : ∀ (j : Nat) e a b b', j ≠ i → sides[j]? = some e → d'.R a b → e.R a b' → Z.V a := by
          intro j e a b b' hj he hab hab'
          rcases q5 a b hab with h | h
          · exact hi.apart i j d e a b b' (Ne.symm hj) hd he h hab'
          · obtain ⟨u, hu⟩ := get_of_len hi.lens.1.symm he
            obtain ⟨⟨w', x'⟩, hw⟩ := get_of_len hi.lens.2 hu
            have n2 := (hi.each j u e w' x' hu he hw).heaps
            obtain ⟨_, _, f1, _⟩ := n2.obj hab'
            exact absurd (lt_of_some f1) (by omega)
        intro j j' e e' a b b' hne he he' hab hab'
        by_cases h1 : i = j
        · subst h1
          rw [List.getElem?_set_self (lt_of_some hd), Option.some.injEq] at he
          subst he
          rw [List.getElem?_set_ne hne] at he'
          exact key j' e' a b b' (Ne.symm hne) he' hab hab'
        · rw [List.getElem?_set_ne h1] at he
          by_cases h2 : i = j'
          · subst h2
            rw [List.getElem?_set_self (lt_of_some hd), Option.some.injEq] at he'
            subst he'
            exact key j e a b' b hne he hab' hab
          · rw [List.getElem?_set_ne h2] at he'
            exact hi.apart j j' e e' a b b' hne he he' hab hab'
      · intro a ha
        obtain ⟨sc, hl, hrest⟩ := hi.leaves a ha
        refine ⟨sc, ?_, hrest⟩
        rcases q7 a (lt_of_some hl) with h | h
        · simp only; rw [h]; exact hl
        · exact absurd ha h.1
      · have hp := flatMap_set (d' := d') (pre := inc.toList) hd e2
        simp only
        rw [incAll_incOpt, ← incAll_perm hp]
        exact hi.counts
      · have : (sides.map Side.left)[i]? = some (m + 1) := by simp [hd, e3]
        rw [← hi.left, List.map_set]
        exact sum_set this

theorem Inv.steps {s s' : Shared X} {rs : List (Heap × X)} {cs : Counters} {n m : Nat} {sides : List (Side X)} (hi : Inv Z post s rs cs n sides)
    (hs : Shared.Steps m s s') : ∃ n' sides', Inv Z post s' rs cs n' sides' ∧ n = n' + m := by
  induction hs with
  | refl => exact ⟨n, sides, hi, rfl⟩
  | step _ hs ih =>
    obtain ⟨n1, sides1, hi1, h1⟩ := ih hi
    obtain ⟨n2, sides2, hi2, h2⟩ := hi1.step hs
    exact ⟨n2, sides2, hi2, by omega⟩
end

section
variable {Z : Zone} {post : (Nat → Nat → Prop) → X → X → Prop} {s : Shared X} {rs : List (Heap × X)} {cs : Counters} {n : Nat} {sides : List (Side X)} (hi : Inv Z post s rs cs n sides)
include hi

theorem Inv.at {i : Nat} {t : Mem X} (hg : s.gs[i]? = some t) : ∃ d w x, sides[i]? = some d ∧ rs[i]? = some (w, x) ∧ d.Matches Z post s.heap t w x := by
  obtain ⟨d, hd⟩ := get_of_len hi.lens.1 hg
  obtain ⟨⟨w, x⟩, hr⟩ := get_of_len hi.lens.2 hg
  exact ⟨d, w, x, hd, hr, hi.each i t d w x hg hd hr⟩

theorem Inv.safe : ¬ s.Crashing := by
  rintro ⟨t, ht, hc⟩
  obtain ⟨i, hg⟩ := List.mem_iff_getElem?.mp ht
  obtain ⟨d, w, x, _, _, m⟩ := hi.at hg
  exact memSim_safe m.sim m.heaps hi.kept m.kept (by simp [m.ends]) hc

theorem Inv.noRace : ¬ s.Racing := by
  rintro ⟨i, j, t, t', a, w, hij, hg, hg', ha, ha'⟩
  obtain ⟨d, _, _, hd, _, m⟩ := hi.at hg
  obtain ⟨d', _, _, hd', _, m'⟩ := hi.at hg'
  rcases memSim_access m.sim m.heaps (by simp [m.ends]) hi.leaves ha with ⟨⟨b, hb⟩, hv⟩ | h
  · rcases memSim_access m'.sim m'.heaps (by simp [m'.ends]) hi.leaves ha' with ⟨⟨b', hb'⟩, _⟩ | h
    · exact hv rfl (hi.apart i j d d' a b b' hij hd hd' hb hb')
    · exact (own_write m.own hb (hv rfl) fun c hc => (hi.kept.shared c hc).1).1 h.2
  · exact absurd h.1 (by simp)

theorem Inv.returned {i : Nat} {x : X} (hg : s.gs[i]? = some (.ret x)) : ∃ w y R, rs[i]? = some (w, y) ∧ post R x y ∧ Sim R s.heap w := by
  obtain ⟨d, w, y, _, hr, m⟩ := hi.at hg
  have m1 := m.sim
  have m3 := m.ends
  cases hp : d.prog with
  | ret z =>
    rw [hp] at m1 m3
    simp only [MemSim] at m1
    simp only [solo, Res.ok.injEq, Prod.mk.injEq] at m3
    obtain ⟨e1, e2, e3, e4⟩ := m3
    subst e4
    exact ⟨w, z, d.R, hr, m1, e1 ▸ m.heaps⟩
  | _ => rw [hp] at m1; simp [MemSim] at m1

theorem Inv.progress (hf : ¬ s.Finished) : ∃ s', Shared.Step s s' := by
  simp only [Shared.Finished, Classical.not_forall] at hf
  obtain ⟨t, ht, hx⟩ := hf
  obtain ⟨i, hg⟩ := List.mem_iff_getElem?.mp ht
  cases hst : t.step s.heap with
  | finished x => cases t <;> simp only [Mem.step] at hst <;> first | exact absurd ⟨_, rfl⟩ hx | (split at hst <;> cases hst) | cases hst
  | crash => exact absurd ⟨t, ht, hst⟩ hi.safe
  | next h inc t' => exact ⟨_, .mk hg hst⟩

theorem Inv.finished (hf : s.Finished) : n = 0 ∧ s.counts = cs := by
  have all : ∀ d ∈ sides, d.incs = [] ∧ d.left = 0 := by
    intro d hd
    obtain ⟨i, hd⟩ := List.mem_iff_getElem?.mp hd
    obtain ⟨t, hg⟩ := get_of_len hi.lens.1.symm hd
    obtain ⟨⟨w, x⟩, hr⟩ := get_of_len hi.lens.2 hg
    obtain ⟨m1, m2, _, _, m3⟩ := hi.each i t d w x hg hd hr
    obtain ⟨y, rfl⟩ := hf t (List.mem_iff_getElem?.mpr ⟨i, hg⟩)
    cases hp : d.prog with
    | ret z =>
      rw [hp] at m3
      simp only [solo, Res.ok.injEq, Prod.mk.injEq] at m3
      exact ⟨m3.2.1.symm, m3.2.2.1.symm⟩
    | _ => rw [hp] at m1; simp [MemSim] at m1
  constructor
  · rw [← hi.left]
    have : ∀ l : List (Side X), (∀ d ∈ l, d.incs = [] ∧ d.left = 0) → (l.map Side.left).sum = 0 := by
      intro l hl
      induction l with
      | nil => rfl
      | cons a l ih => simp [(hl a (by simp)).2, ih fun d hd => hl d (by simp [hd])]
    exact this _ all
  · rw [← hi.counts]
    have : ∀ l : List (Side X), (∀ d ∈ l, d.incs = [] ∧ d.left = 0) → l.flatMap Side.incs = [] := by
      intro l hl
      induction l with
      | nil => rfl
      | cons a l ih => simp [(hl a (by simp)).1]; exact fun d hd => (hl d (by simp [hd])).1
    rw [this _ all]; rfl

/-- The statement of the main theorems, from the invariant at the start. -/
theorem Inv.all (m : Nat) (s' : Shared X) (hs : Shared.Steps m s s') :
    ¬ s'.Crashing ∧ ¬ s'.Racing ∧ m ≤ n ∧ (s'.Finished ↔ m = n) ∧ (¬ s'.Finished → ∃ s'', Shared.Step s' s'') ∧
      (∀ (i : Nat) x, s'.gs[i]? = some (.ret x) → ∃ w y R, rs[i]? = some (w, y) ∧ post R x y ∧ Sim R s'.heap w) ∧ Z.Kept s'.heap ∧ (s'.Finished → s'.counts = cs) := by
  obtain ⟨k, sides', hi', hN⟩ := hi.steps hs
  refine ⟨hi'.safe, hi'.noRace, by omega, ⟨fun hf => ?_, fun hn => ?_⟩, hi'.progress, fun i x hg => hi'.returned hg, hi'.kept, fun hf => (hi'.finished hf).2⟩
  · have := (hi'.finished hf).1; omega
  · refine Classical.byContradiction fun hf => ?_
    obtain ⟨s'', hs''⟩ := hi'.progress hf
    obtain ⟨m', _, _, h'⟩ := hi'.step hs''
    omega
end

/-! ## The start -/

/-- The addresses of an event, and the leaves. -/
def FirstR (h : Heap) (e : Event) : Nat → Nat → Prop := fun a b => a = b ∧ (Reach h e a ∨ h.Leaf a)

theorem ptrSim_self {R : Nat → Nat → Prop} {p : Ptr} (h : ∀ a, p = some a → R a a) : PtrSim R p p := by
  cases p with
  | none => trivial
  | some a => exact h a rfl
theorem ptrsSim_self {R : Nat → Nat → Prop} {ps : List Ptr} (h : ∀ a, some a ∈ ps → R a a) : PtrsSim R ps ps := by
  induction ps with
  | nil => trivial
  | cons p ps ih => exact ⟨ptrSim_self fun a ha => h a (by simp [ha]), ih fun a ha => h a (by simp [ha])⟩
theorem mapSim_self {R : Nat → Nat → Prop} {ps : AMap Ptr} (h : ∀ k a, (k, some a) ∈ ps → R a a) : MapSim R ps ps := by
  induction ps with
  | nil => trivial
  | cons p ps ih => exact ⟨rfl, ptrSim_self fun a ha => h p.1 a (by simp [← ha]), ih fun k a ha => h k a (List.mem_cons_of_mem _ ha)⟩

theorem firstR_sim {h : Heap} {e : Event} (hin : ∀ a, Reach h e a → a < h.length) : Sim (FirstR h e) h h := by
  refine ⟨fun h1 h2 => h1.1.symm.trans h2.1, fun h1 h2 => h1.1.trans h2.1.symm, ?_⟩
  rintro a b ⟨rfl, hr | ⟨s, hl, _, hl1, hl2⟩⟩
  · obtain ⟨o, ho⟩ : ∃ o, h[a]? = some o := ⟨_, List.getElem?_eq_getElem (hin a hr)⟩
    refine ⟨o, o, ho, ho, ?_⟩
    cases o with
    | map es => exact mapSim_self fun k b hb => ⟨rfl, .inl (.entry hr ho hb)⟩
    | cell c =>
      refine ⟨rfl, rfl, rfl, rfl, rfl, ?_, ?_, rfl, rfl⟩
      · cases ha : c.array with
        | none => trivial
        | some ps => exact ptrsSim_self fun b hb => ⟨rfl, .inl (.item hr ho ha hb)⟩
      · exact ptrSim_self fun b hb => ⟨rfl, .inl (.object hr ho hb)⟩
  · exact ⟨_, _, hl, hl, cellSim_self hl1 hl2⟩

/-- The programs, each alone from the same memory: where they end, and their increments. -/
def soloAllM (h : Heap) : List (Mem X) → Res (List (Heap × X) × List (Bytes × Kind))
  | [] => .ok ([], [])
  | t :: ts =>
    match t.solo h with
    | .panic => .panic
    | .ok (w, l, _, x) =>
      match soloAllM h ts with
      | .panic => .panic
      | .ok (rs, l') => .ok ((w, x) :: rs, l ++ l')

theorem start_sides (h : Heap) (ts : List (Mem X)) (Rs : Nat → Nat → Nat → Prop) {rs : List (Heap × X)} {l : List (Bytes × Kind)} (hs : soloAllM h ts = .ok (rs, l)) :
    ∃ sides : List (Side X), sides.length = ts.length ∧ rs.length = ts.length ∧ sides.flatMap Side.incs = l ∧
      ∀ (i : Nat) t, ts[i]? = some t → ∃ d w x, sides[i]? = some d ∧ rs[i]? = some (w, x) ∧ d.R = Rs i ∧ d.heap = h ∧ d.prog = t ∧ d.prog.solo d.heap = .ok (w, d.incs, d.left, x) := by
  induction ts generalizing rs l Rs with
  | nil =>
    simp only [soloAllM, Res.ok.injEq, Prod.mk.injEq] at hs
    obtain ⟨rfl, rfl⟩ := hs
    exact ⟨[], rfl, rfl, rfl, by simp⟩
  | cons t ts ih =>
    simp only [soloAllM] at hs
    cases h1 : t.solo h with
    | panic => simp [h1] at hs
    | ok q =>
      obtain ⟨w, l1, m, x⟩ := q
      rw [h1] at hs
      cases h2 : soloAllM h ts with
      | panic => simp [h2] at hs
      | ok q2 =>
        obtain ⟨rs2, l2⟩ := q2
        simp only [h2, Res.ok.injEq, Prod.mk.injEq] at hs
        obtain ⟨rfl, rfl⟩ := hs
        obtain ⟨sides, k1, k2, k3, k4⟩ := ih (fun i => Rs (i + 1)) h2
        refine ⟨⟨Rs 0, h, t, l1, m⟩ :: sides, by simp [k1], by simp [k2], by simp [k3], ?_⟩
        intro i e' he
        cases i with
        | zero =>
          simp only [List.getElem?_cons_zero, Option.some.injEq] at he
          subst he
          exact ⟨_, w, x, rfl, rfl, rfl, rfl, rfl, h1⟩
        | succ i => simp only [List.getElem?_cons_succ] at he ⊢; exact k4 i e' he

/-- The invariant at the start, for any programs. -/
theorem inv_start_any {Z : Zone} {post : (Nat → Nat → Prop) → X → X → Prop} {h : Heap} (h0 : Z.h0 = h) (hS : ∀ a, Z.S a → a < h.length) (hV : LeavesAt Z.V h) (ts : List (Mem X)) (Rs : Nat → Nat → Nat → Prop)
    {rs : List (Heap × X)} {l : List (Bytes × Kind)} (hs : soloAllM h ts = .ok (rs, l))
    (heach : ∀ (i : Nat) t, ts[i]? = some t → MemSim Z post t t (Rs i) ∧ Sim (Rs i) h h ∧ Z.Own (Rs i))
    (hap : ∀ (i j : Nat) t t' a b b', i ≠ j → ts[i]? = some t → ts[j]? = some t' → Rs i a b → Rs j a b' → Z.V a) (cs : Counters) :
    ∃ N sides, Inv Z post ⟨h, cs, ts⟩ rs (cs.incAll l) N sides := by
  obtain ⟨sides, k1, k2, k3, k4⟩ := start_sides h ts Rs hs
  have kept : Z.Kept h := ⟨fun a ha => ⟨by rw [h0]; exact hS a ha, by rw [h0]⟩, by rw [h0]; exact Nat.le_refl _⟩
  refine ⟨_, sides, by simp [k1, k2], ?_, ?_, hV, kept, by rw [k3], rfl⟩
  · intro i t d w x ht hd hr
    obtain ⟨d', w', x', j1, j2, j3, j4, j5, j6⟩ := k4 i t ht
    rw [hd, Option.some.injEq] at j1
    rw [hr, Option.some.injEq, Prod.mk.injEq] at j2
    obtain ⟨rfl, rfl⟩ := j2
    subst j1
    obtain ⟨e1, e2, e3⟩ := heach i t ht
    exact ⟨by rw [j5, j3]; exact e1, by rw [j3, j4]; exact e2, by rw [j4]; exact kept, by rw [j3]; exact e3, j6⟩
  · intro i j d d' a b b' hij hd hd' hab hab'
    obtain ⟨t, ht⟩ := get_of_len k1.symm hd
    obtain ⟨t', ht'⟩ := get_of_len k1.symm hd'
    obtain ⟨d2, _, _, j1, _, j3, _⟩ := k4 i t ht
    obtain ⟨d3, _, _, j1', _, j3', _⟩ := k4 j t' ht'
    rw [hd, Option.some.injEq] at j1
    rw [hd', Option.some.injEq] at j1'
    subst j1 j1'
    rw [j3] at hab
    rw [j3'] at hab'
    exact hap i j t t' a b b' hij ht ht' hab hab'

/-- Leaves are shared, nothing else. -/
def leafZone (h : Heap) : Zone := ⟨h.Leaf, fun _ => False, h⟩

theorem soloAll_mem (cv : Conv) (p : Pipeline Builtin (Option Err)) (h : Heap) (events : List Event) {rs : List ((Heap × Event) × Option Unit × Option Err)} {l : List (Bytes × Kind)} {n : Nat}
    (hs : soloAll (builtinCall cv) (events.map fun e => (⟨p.thr (), (), (h, e)⟩ : Goroutine Builtin (Option Err) Unit (Heap × Event) _)) = .ok (rs, l, n)) :
    soloAllM h (events.map fun e => (p.thr ()).mem cv e) = .ok (rs.map fun r => (r.1.1, r.1.2, r.2), l) := by
  induction events generalizing rs l n with
  | nil =>
    simp only [List.map_nil, soloAll, Res.ok.injEq, Prod.mk.injEq] at hs
    obtain ⟨rfl, rfl, rfl⟩ := hs
    rfl
  | cons e es ih =>
    simp only [List.map_cons, soloAll] at hs
    have hm := thr_mem_solo cv (p.thr ()) h e
    cases h1 : (p.thr ()).solo (builtinCall cv) () (h, e) with
    | panic => simp [h1] at hs
    | ok q =>
      obtain ⟨w, l1, n1, x⟩ := q
      rw [h1] at hs hm
      obtain ⟨m, hm⟩ := hm
      simp only at hs
      cases h2 : soloAll (builtinCall cv) (es.map fun e => (⟨p.thr (), (), (h, e)⟩ : Goroutine Builtin (Option Err) Unit (Heap × Event) _)) with
      | panic => simp [h2] at hs
      | ok q2 =>
        obtain ⟨rs2, l2, n2⟩ := q2
        simp only [h2, Res.ok.injEq, Prod.mk.injEq] at hs
        obtain ⟨rfl, rfl, rfl⟩ := hs
        simp only [List.map_cons, soloAllM, hm, ih h2]

theorem inv_start (cv : Conv) {p : Pipeline Builtin (Option Err)} {h : Heap} {events : List Event} {cs cs' : Counters} {rs : List ((Heap × Event) × Option Unit × Option Err)}
    (hsep : Separate h events) (hp : p.Calls (Builtin.LeafConfig h)) (hq : p.sequential (builtinCall cv) (events.map fun e => ((), (h, e))) cs = .ok (rs, cs')) :
    ∃ N sides, Inv (leafZone h) OutSim (p.shared cv h events cs) (rs.map fun r => (r.1.1, r.1.2, r.2)) cs' N sides := by
  rw [sequential_solo, List.map_map] at hq
  change (soloAll (builtinCall cv) (events.map fun e => (⟨p.thr (), (), (h, e)⟩ : Goroutine Builtin (Option Err) Unit (Heap × Event) _))).map _ = _ at hq
  cases hs : soloAll (builtinCall cv) (events.map fun e => (⟨p.thr (), (), (h, e)⟩ : Goroutine Builtin (Option Err) Unit (Heap × Event) _)) with
  | panic => simp [hs] at hq
  | ok q =>
    obtain ⟨rs2, l, n⟩ := q
    simp only [hs, Res.map_ok, Res.ok.injEq, Prod.mk.injEq] at hq
    obtain ⟨rfl, rfl⟩ := hq
    refine inv_start_any (Z := leafZone h) rfl (fun _ hf => hf.elim) (fun a ha => ha) _ (fun i => FirstR h ((events[i]?).getD none)) (soloAll_mem cv p h events hs) ?_ ?_ cs
    · intro i t ht
      simp only [List.getElem?_map, Option.map_eq_some_iff] at ht
      obtain ⟨e, he, rfl⟩ := ht
      simp only [he, Option.getD_some]
      have hmem : e ∈ events := List.mem_iff_getElem?.mpr ⟨i, he⟩
      refine ⟨?_, firstR_sim (hsep.inside e hmem), ?_⟩
      · have hc := pipeline_thr_calls hp ()
        refine thr_mem_sim cv _ ?_ (ptrSim_self fun a ha => ⟨rfl, .inl (.root ha)⟩)
        have mono : ∀ (t : Thr Builtin (Option Err) (Option Unit × Option Err)), t.Calls (Builtin.LeafConfig h) → t.Calls fun b => ∀ v, b.valueAddr = some v → FirstR h e v v := by
          intro t ht
          induction t with
          | ret x => trivial
          | inc id k next ih => exact ih ht
          | call b next ih =>
            refine ⟨fun v hv => ⟨rfl, .inr ?_⟩, fun r => ih r (ht.2 r)⟩
            have := ht.1
            cases b <;> simp only [Builtin.valueAddr, Option.some.injEq, reduceCtorEq] at hv
            subst hv
            exact leaf_of_scalar this
        exact mono _ hc
      · rintro a b ⟨rfl, hr | ⟨c, hc, _⟩⟩
        · exact .inl ⟨rfl, hsep.inside e hmem a hr, fun hf => hf.elim⟩
        · exact .inl ⟨rfl, lt_of_some hc, fun hf => hf.elim⟩
    · intro i j t t' a b b' hij ht ht' hab hab'
      simp only [List.getElem?_map, Option.map_eq_some_iff] at ht ht'
      obtain ⟨e, he, rfl⟩ := ht
      obtain ⟨e', he', rfl⟩ := ht'
      simp only [he, he', Option.getD_some] at hab hab'
      rcases hab.2 with h1 | h1
      · rcases hab'.2 with h2 | h2
        · exact hsep.apart i j e e' a hij he he' h1 h2
        · exact h2
      · exact h1

end Sawmill
