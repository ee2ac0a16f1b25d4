import Verif.Props.Event
import Verif.Lemmas.Reorder
/-!
# C66: calls whose order does not matter
-/

namespace Sawmill

/-- A call of a history, as an operation on the event it is made on. -/
theorem call_eq_op (s : List Fields) (i : Nat) (c : Call) : Spec.call s i c = match s[i]? with
    | none => .ok (s, .nilp, none)
    | some f => (Spec.op f c).map fun r => (s.set i r.1, r.2) := by
  unfold Spec.call
  cases hs : s[i]? with
  | none => rfl
  | some f =>
    have hl : i < s.length := (List.getElem?_eq_some_iff.mp hs).1
    have hset : s.set i f = s := by
      apply List.ext_getElem?
      intro j
      rw [List.getElem?_set]
      split
      · next e => subst e; simp [hl] at hs ⊢; exact hs.symm
      · rfl
    cases c with
    | put k v => rfl
    | tryPut k v => rfl
    | get k =>
      simp only [Spec.op]
      cases Spec.getFields f (keyToPath k) with
      | panic => rfl
      | ok v => simp [hset]
    | delete k =>
      simp only [Spec.op]
      cases Spec.deleteFields f (keyToPath k) with
      | panic => rfl
      | ok v => rfl

def AllSorted (s : List Fields) : Prop := ∀ f ∈ s, Fields.Sorted f

theorem call_sorted {s s1 : List Fields} {i : Nat} {c : Call} {r : Val × Option Spec.Error} (hs : AllSorted s) (h : Spec.call s i c = .ok (s1, r)) : AllSorted s1 := by
  rw [call_eq_op] at h
  cases hi : s[i]? with
  | none => simp [hi] at h; exact h.1 ▸ hs
  | some f =>
    simp only [hi] at h
    cases ho : Spec.op f c with
    | panic => simp [ho] at h
    | ok x =>
      obtain ⟨F1, r1⟩ := x
      simp only [ho, Res.map_ok, Res.ok.injEq, Prod.mk.injEq] at h
      rw [← h.1]
      intro g hg
      rcases List.mem_or_eq_of_mem_set hg with h1 | h1
      · exact hs g h1
      · exact h1 ▸ op_sorted (hs f (List.mem_of_getElem? hi)) ho

/-- Two independent calls, one after the other. -/
theorem call_call {s : List Fields} (hs : AllSorted s) {c d : Nat × Call} (hi : Independent c d) :
    (∃ s1 r1 s2 r2 s3, Spec.call s c.1 c.2 = .ok (s1, r1) ∧ Spec.call s1 d.1 d.2 = .ok (s3, r2) ∧ Spec.call s d.1 d.2 = .ok (s2, r2) ∧ Spec.call s2 c.1 c.2 = .ok (s3, r1)) ∨
    ((Spec.call s c.1 c.2 = .panic ∨ ∃ s1 r1, Spec.call s c.1 c.2 = .ok (s1, r1) ∧ Spec.call s1 d.1 d.2 = .panic) ∧
     (Spec.call s d.1 d.2 = .panic ∨ ∃ s2 r2, Spec.call s d.1 d.2 = .ok (s2, r2) ∧ Spec.call s2 c.1 c.2 = .panic)) := by
  obtain ⟨i, c⟩ := c
  obtain ⟨j, d⟩ := d
  simp only [Independent] at hi ⊢
  by_cases hij : i = j
  · subst hij
    have hi' : (c.isGet = true ∧ d.isGet = true) ∨ ¬ Related c.area d.area := by simpa [Related] using hi
    cases hf : s[i]? with
    | none =>
      left
      have : ∀ c, Spec.call s i c = .ok (s, .nilp, none) := fun c => by rw [call_eq_op, hf]
      exact ⟨s, _, s, _, s, this c, this d, this d, this c⟩
    | some f =>
      have hl : i < s.length := (List.getElem?_eq_some_iff.mp hf).1
      have hF := hs f (List.mem_of_getElem? hf)
      obtain ⟨w1, w2, w3⟩ := swap_calls hF hi'
      have e0 : ∀ c, Spec.call s i c = (Spec.op f c).map fun r => (s.set i r.1, r.2) := fun c => by rw [call_eq_op, hf]
      have e1 : ∀ (F : Fields) c, Spec.call (s.set i F) i c = (Spec.op F c).map fun r => (s.set i r.1, r.2) := fun F c => by
        rw [call_eq_op]; simp [hl]
      cases hc : Spec.op f c with
      | panic =>
        right
        refine ⟨.inl (by rw [e0, hc]; rfl), ?_⟩
        cases hd : Spec.op f d with
        | panic => exact .inl (by rw [e0, hd]; rfl)
        | ok y =>
          obtain ⟨F2, r2⟩ := y
          exact .inr ⟨s.set i F2, r2, by rw [e0, hd]; rfl, by rw [e1, w3 F2 r2 hd hc]; rfl⟩
      | ok x =>
        obtain ⟨F1, r1⟩ := x
        cases hd : Spec.op f d with
        | panic =>
          right
          exact ⟨.inr ⟨s.set i F1, r1, by rw [e0, hc]; rfl, by rw [e1, w2 F1 r1 hc hd]; rfl⟩, .inl (by rw [e0, hd]; rfl)⟩
        | ok y =>
          obtain ⟨F2, r2⟩ := y
          obtain ⟨F3, a, b⟩ := w1 F1 r1 F2 r2 hc hd
          left
          exact ⟨s.set i F1, r1, s.set i F2, r2, s.set i F3, by rw [e0, hc]; rfl, by rw [e1, a]; rfl, by rw [e0, hd]; rfl, by rw [e1, b]; rfl⟩
  · -- different events
    have other : ∀ {i j : Nat} (hij : i ≠ j) (F : Fields) d, Spec.call (s.set i F) j d = (Spec.call s j d).map fun r => (r.1.set i F, r.2) := by
      intro i j hij F d
      rw [call_eq_op, call_eq_op, List.getElem?_set_ne hij]
      cases hg : s[j]? with
      | none => rfl
      | some g =>
        cases hd : Spec.op g d with
        | panic => simp [hd]
        | ok y => simp [hd, List.set_comm _ _ hij]
    have shape : ∀ i c, Spec.call s i c = .panic ∨ ∃ F r, Spec.call s i c = .ok (s.set i F, r) := by
      intro i c
      rw [call_eq_op]
      cases hf : s[i]? with
      | none =>
        right
        refine ⟨none, (.nilp, none), ?_⟩
        have : s.length ≤ i := by simpa using hf
        simp [List.set_eq_of_length_le this]
      | some f =>
        simp only
        cases hc : Spec.op f c with
        | panic => left; rfl
        | ok x => right; exact ⟨x.1, x.2, rfl⟩
    rcases shape i c with h1 | ⟨F1, r1, h1⟩
    · right
      refine ⟨.inl h1, ?_⟩
      rcases shape j d with h2 | ⟨F2, r2, h2⟩
      · exact .inl h2
      · exact .inr ⟨_, _, h2, by rw [other (Ne.symm hij), h1]; rfl⟩
    · rcases shape j d with h2 | ⟨F2, r2, h2⟩
      · right
        exact ⟨.inr ⟨_, _, h1, by rw [other hij, h2]; rfl⟩, .inl h2⟩
      · left
        refine ⟨_, r1, _, r2, (s.set i F1).set j F2, h1, ?_, h2, ?_⟩
        · rw [other hij, h2]; simp [List.set_comm _ _ hij]
        · rw [other (Ne.symm hij), h1]; simp

/-- Reordering a history, in the specification. -/
theorem spec_reorder {cs ds : List (Nat × Call)} (h : Reorder Independent cs ds) : ∀ {s : List Fields}, AllSorted s →
    (Spec.run s cs = .panic ∧ Spec.run s ds = .panic) ∨
    ∃ s' rs ss, Spec.run s cs = .ok (s', rs) ∧ Spec.run s ds = .ok (s', ss) ∧ rs.length = cs.length ∧ ss.length = ds.length ∧ (cs.zip rs).Perm (ds.zip ss) := by
  induction h with
  | nil => intro s _; right; exact ⟨s, [], [], rfl, rfl, rfl, rfl, .nil⟩
  | cons x hab ih =>
    intro s hs
    obtain ⟨i, c⟩ := x
    simp only [Spec.run]
    cases h1 : Spec.call s i c with
    | panic => left; exact ⟨rfl, rfl⟩
    | ok y =>
      obtain ⟨s1, r⟩ := y
      simp only [Res.bind_ok]
      rcases ih (call_sorted hs h1) with ⟨a, b⟩ | ⟨s', rs, ss, a, b, l1, l2, p⟩
      · left; rw [a, b]; exact ⟨rfl, rfl⟩
      · right
        exact ⟨s', r :: rs, r :: ss, by rw [a]; rfl, by rw [b]; rfl, by simp [l1], by simp [l2], by simpa using p⟩
  | swap x y l hi =>
    intro s hs
    obtain ⟨i, c⟩ := x
    obtain ⟨j, d⟩ := y
    rcases call_call hs hi with ⟨s1, r1, s2, r2, s3, a1, a2, b1, b2⟩ | ⟨a, b⟩
    · simp only at a1 a2 b1 b2
      simp only [Spec.run, a1, a2, b1, b2, Res.bind_ok]
      have hlen : ∀ (l : List (Nat × Call)) {s s' rs}, Spec.run s l = .ok (s', rs) → rs.length = l.length := by
        intro l
        induction l with
        | nil => intro s s' rs h; simp [Spec.run] at h; simp [h.2.symm]
        | cons z l ih =>
          intro s s' rs h
          simp only [Spec.run] at h
          obtain ⟨⟨t, q⟩, _, h⟩ := Res.bind_eq_ok.mp h
          obtain ⟨⟨t2, qs⟩, h2, h⟩ := Res.bind_eq_ok.mp h
          simp only [Res.ok.injEq, Prod.mk.injEq] at h
          rw [← h.2]
          simp [ih h2]
      cases h3 : Spec.run s3 l with
      | panic => left; exact ⟨rfl, rfl⟩
      | ok z =>
        obtain ⟨s', rs⟩ := z
        right
        exact ⟨s', r1 :: r2 :: rs, r2 :: r1 :: rs, rfl, rfl, by simp [hlen l h3], by simp [hlen l h3], by simpa using List.Perm.swap _ _ _⟩
    · left
      simp only at a b
      constructor
      · simp only [Spec.run]
        rcases a with a | ⟨s1, r1, a1, a2⟩
        · rw [a]; rfl
        · rw [a1]; simp only [Res.bind_ok]; rw [a2]; rfl
      · simp only [Spec.run]
        rcases b with a | ⟨s1, r1, a1, a2⟩
        · rw [a]; rfl
        · rw [a1]; simp only [Res.bind_ok]; rw [a2]; rfl
  | trans hab hbc ih1 ih2 =>
    intro s hs
    rcases ih1 hs with ⟨a, b⟩ | ⟨s', rs, ss, a, b, l1, l2, p⟩
    · rcases ih2 hs with ⟨c, d⟩ | ⟨t', ts, us, c, _⟩
      · exact .inl ⟨a, d⟩
      · rw [b] at c; cases c
    · rcases ih2 hs with ⟨c, d⟩ | ⟨t', ts, us, c, d, l3, l4, q⟩
      · rw [b] at c; cases c
      · rw [b] at c
        simp only [Res.ok.injEq, Prod.mk.injEq] at c
        obtain ⟨rfl, rfl⟩ := c
        exact .inr ⟨s', rs, us, a, d, l1, l4, p.trans q⟩

theorem reorder_perm {α : Type} {ind : α → α → Prop} {l m : List α} (h : Reorder ind l m) : l.Perm m := by
  induction h with
  | nil => exact .nil
  | cons x _ ih => exact ih.cons x
  | swap x y l _ => exact (List.Perm.swap x y l).symm
  | trans _ _ h1 h2 => exact h1.trans h2

/-- If all calls are pairwise independent, every order is a reordering. -/
theorem reorder_of_perm {α : Type} {ind : α → α → Prop} {l m : List α} (hp : l.Perm m) (hi : ∀ a b, ind a b → ind b a) (h : l.Pairwise ind) : Reorder ind l m := by
  induction hp with
  | nil => exact .nil
  | cons x _ ih => exact .cons x (ih (List.pairwise_cons.mp h).2)
  | swap x y l =>
    have := List.pairwise_cons.mp h
    exact .swap y x l (this.1 x (by simp))
  | trans p q h1 h2 => exact .trans (h1 h) (h2 ((p.pairwise_iff (fun {a b} hab => hi a b hab)).mp h))

theorem Independent.symm {c d : Nat × Call} (h : Independent c d) : Independent d c := by
  rcases h with h | h | h
  · exact .inl (Ne.symm h)
  · exact .inr (.inl ⟨h.2, h.1⟩)
  · exact .inr (.inr (fun h' => h h'.symm))

/-- C66. Two histories that differ only in the order of independent calls: the events have the same contents in the end, and every call returns the same in both (the pairs of call and shown result are the same up to order). -/
theorem order_does_not_matter (n : Nat) {cs ds : List (Nat × Call)} (hr : Reorder Independent cs ds) (hc : ∀ c ∈ cs, c.2.Good Val.Passable) :
    ∃ w1 rets1 w2 rets2 rs ss s, World.run ⟨[], List.replicate n newEvent⟩ cs = .ok (w1, rets1) ∧ World.run ⟨[], List.replicate n newEvent⟩ ds = .ok (w2, rets2) ∧
      w1.Contains s ∧ w2.Contains s ∧ AllShow rets1 rs ∧ AllShow rets2 ss ∧ (cs.zip rs).Perm (ds.zip ss) := by
  have hp := reorder_perm hr
  obtain ⟨w1, rets1, s1, rs1, a1, a2, a3, a4, a5⟩ := history_refines_nested_map n cs hc
  obtain ⟨w2, rets2, s2, rs2, b1, b2, b3, b4, b5⟩ := history_refines_nested_map n ds (fun c hcm => hc c (hp.mem_iff.mpr hcm))
  have hs0 : AllSorted (List.replicate n (none : Fields)) := by
    intro f hf es he
    rw [List.mem_replicate] at hf
    rw [hf.2] at he; cases he
  rcases spec_reorder hr hs0 with ⟨x, _⟩ | ⟨s', rs, ss, x, y, _, _, p⟩
  · rw [a2] at x; cases x
  · rw [a2] at x; rw [b2] at y
    simp only [Res.ok.injEq, Prod.mk.injEq] at x y
    obtain ⟨rfl, rfl⟩ := x
    obtain ⟨rfl, rfl⟩ := y
    exact ⟨w1, rets1, w2, rets2, rs1, rs2, s2, a1, b1, ⟨a4, a5⟩, ⟨b4, b5⟩, a3, b3, p⟩

/-- C66, for calls that are all independent of each other: any order gives the same. -/
theorem any_order (n : Nat) {cs ds : List (Nat × Call)} (hp : cs.Perm ds) (hi : cs.Pairwise Independent) (hc : ∀ c ∈ cs, c.2.Good Val.Passable) :
    ∃ w1 rets1 w2 rets2 rs ss s, World.run ⟨[], List.replicate n newEvent⟩ cs = .ok (w1, rets1) ∧ World.run ⟨[], List.replicate n newEvent⟩ ds = .ok (w2, rets2) ∧
      w1.Contains s ∧ w2.Contains s ∧ AllShow rets1 rs ∧ AllShow rets2 ss ∧ (cs.zip rs).Perm (ds.zip ss) :=
  order_does_not_matter n (reorder_of_perm hp (fun _ _ => Independent.symm) hi) hc

/-- Some calls that are pairwise independent, two of them below the same object and two on another event. -/
theorem independent_sample : ([(0, .put (lit "a.b") (.scalar (.int 1))), (0, .put (lit "a.c") (.scalar .null)), (0, .tryPut (lit "d") (.arr [])), (0, .delete (lit "x.y")), (1, .get (lit ".")), (1, .get (lit "a"))]
    : List (Nat × Call)).Pairwise Independent := by
  have h1 : keyToPath (lit "a.b") = [lit "a", lit "b"] := by decide +kernel
  have h2 : keyToPath (lit "a.c") = [lit "a", lit "c"] := by decide +kernel
  have h3 : keyToPath (lit "d") = [lit "d"] := by decide +kernel
  have h4 : keyToPath (lit "x.y") = [lit "x", lit "y"] := by decide +kernel
  have e1 : lit "a" ≠ lit "d" := by decide +kernel
  have e2 : lit "a" ≠ lit "x" := by decide +kernel
  have e3 : lit "d" ≠ lit "x" := by decide +kernel
  have e4 : lit "b" ≠ lit "c" := by decide +kernel
  simp [Independent, Call.area, Call.isGet, h1, h2, h3, h4, e1, e2, e3, e4, e1.symm, e2.symm, e3.symm, e4.symm]

/-- The names on the way matter for `Delete`: deleting `a.b` and putting `a.c` are not independent, although neither key contains the other; the order shows. -/
theorem delete_is_not_independent :
    (Spec.run [some [(lit "a", .obj [(lit "b", .scalar .null)])]] [(0, .delete (lit "a.b")), (0, .put (lit "a.c") (.scalar .null))]).map (·.1) = .ok [some [(lit "a", .obj [(lit "c", .scalar .null)])]] ∧
    (Spec.run [some [(lit "a", .obj [(lit "b", .scalar .null)])]] [(0, .put (lit "a.c") (.scalar .null)), (0, .delete (lit "a.b"))]).map (·.1) = .ok [some []] := by
  constructor <;> rfl

/-- A store at or below `p` leaves no trace after a store at `p`. -/
theorem store_covered {p q : List Bytes} (hp : p ≠ []) (hpq : p <+: q) : ∀ {m m1 : AMap Val} {w : Val} (v : Val), Spec.store m q w = .ok (some m1) →
    ∃ m2, Spec.store m p v = .ok (some m2) ∧ Spec.store m1 p v = .ok (some m2) := by
  induction p generalizing q with
  | nil => exact absurd rfl hp
  | cons k ks ih =>
    intro m m1 w v hs
    cases q with
    | nil => simp at hpq
    | cons k' qs =>
      obtain ⟨rfl, hpq'⟩ := List.cons_prefix_cons.mp hpq
      have one : ∃ y, m1 = m.insert k y := by
        cases qs with
        | nil => simp only [Spec.store, Res.ok.injEq, Option.some.injEq] at hs; exact ⟨_, hs.symm⟩
        | cons a2 as =>
          simp only [Spec.store] at hs
          have fin : ∀ es : AMap Val, (Spec.store es (a2 :: as) w).map (·.map fun es' => m.insert k (.obj es')) = .ok (some m1) → ∃ y, m1 = m.insert k y := by
            intro es he
            cases h1 : Spec.store es (a2 :: as) w with
            | panic => simp [h1] at he
            | ok r => cases r with
              | none => simp [h1] at he
              | some es1 => simp [h1] at he; exact ⟨_, he.symm⟩
          cases hl : m.lookup k with
          | none => simp only [hl] at hs; exact fin _ hs
          | some y => cases y with
            | obj es => simp only [hl] at hs; exact fin _ hs
            | _ => simp [hl] at hs
      cases ks with
      | nil =>
        obtain ⟨y, rfl⟩ := one
        exact ⟨m.insert k v, rfl, by simp [Spec.store, AMap.insert_insert]⟩
      | cons k2 ks =>
        cases qs with
        | nil => simp at hpq'
        | cons q2 qs =>
          simp only [Spec.store] at hs ⊢
          have main : ∀ es : AMap Val, (Spec.store es (q2 :: qs) w).map (·.map fun es' => m.insert k (.obj es')) = .ok (some m1) →
              ∃ m2, (Spec.store es (k2 :: ks) v).map (·.map fun es' => m.insert k (.obj es')) = .ok (some m2) ∧ Spec.store m1 (k :: k2 :: ks) v = .ok (some m2) := by
            intro es he
            cases h1 : Spec.store es (q2 :: qs) w with
            | panic => simp [h1] at he
            | ok r => cases r with
              | none => simp [h1] at he
              | some es1 =>
                simp only [h1, Res.map_ok, Option.map_some, Res.ok.injEq, Option.some.injEq] at he
                subst he
                obtain ⟨es2, a, b⟩ := ih (by simp) hpq' v h1
                exact ⟨m.insert k (.obj es2), by simp [a], by simp [Spec.store, b, AMap.insert_insert]⟩
          cases hl : m.lookup k with
          | none => simp only [hl] at hs; exact main [] hs
          | some x =>
            cases x with
            | obj es => simp only [hl] at hs; exact main es hs
            | _ => simp [hl] at hs

theorem AMap.insert_erase {α : Type} {m : AMap α} (hs : AMap.Sorted m) (k : Bytes) (v : α) : (m.erase k).insert k v = m.insert k v := by
  apply AMap.ext (AMap.sorted_insert _ _ (AMap.sorted_erase _ hs)) (AMap.sorted_insert _ _ hs)
  intro q
  rw [AMap.lookup_insert, AMap.lookup_insert]
  split
  · rfl
  · next h => rw [AMap.lookup_erase_of_ne _ h]

/-- A call at or below a key leaves no trace after a `Put` of that key. -/
theorem op_covered {F F1 F2 : Fields} (hF : F.Sorted) {c : Call} {key : Bytes} {v : Val} (hv : v.isNil = false) (hp : keyToPath key ≠ []) (hc : keyToPath key <+: c.area)
    {r1 r2 : Val × Option Spec.Error} (h1 : Spec.op F c = .ok (F1, r1)) (h2 : Spec.op F1 (.put key v) = .ok (F2, r2)) :
    Spec.op F (.put key v) = .panic ∨ ∃ r, Spec.op F (.put key v) = .ok (F2, r) := by
  have same : F1 = F → ∃ r, Spec.op F (.put key v) = .ok (F2, r) := fun e => ⟨r2, e ▸ h2⟩
  have stored : ∀ m2, Spec.store (F.getD []) (keyToPath key) v = .ok (some m2) → Spec.store (F1.getD []) (keyToPath key) v = .ok (some m2) →
      Spec.op F (.put key v) = .panic ∨ ∃ r, Spec.op F (.put key v) = .ok (F2, r) := by
    intro m2 a b
    simp only [Spec.op] at h2 ⊢
    rw [putFields_cases hp hv] at h2 ⊢
    obtain ⟨old, _, h2⟩ := Res.bind_eq_ok.mp h2
    simp only [Bool.not_true, Bool.and_false, Bool.false_eq_true, if_false] at h2 ⊢
    rw [b] at h2
    rw [a]
    change Res.ok (some m2, old, none) = _ at h2
    simp only [Res.ok.injEq, Prod.mk.injEq] at h2
    rw [← h2.1]
    cases hg : Spec.get (F.getD []) (keyToPath key) with
    | panic => left; rfl
    | ok x => right; exact ⟨_, rfl⟩
  have hput : ∀ {q w ow}, keyToPath key <+: q → Spec.putFields F q w ow = .ok (F1, r1) → Spec.op F (.put key v) = .panic ∨ ∃ r, Spec.op F (.put key v) = .ok (F2, r) := by
    intro q w ow hpq h
    rcases put_state h with e | ⟨m1, e1, rfl⟩
    · exact .inr (same e)
    · obtain ⟨m2, a, b⟩ := store_covered hp hpq v e1
      exact stored m2 a b
  cases c with
  | put k w => exact hput hc h1
  | tryPut k w => exact hput hc h1
  | get k =>
    simp only [Spec.op] at h1
    cases g : Spec.getFields F (keyToPath k) with
    | panic => simp [g] at h1
    | ok x => simp [g] at h1; exact .inr (same h1.1.symm)
  | delete k =>
    simp only [Spec.op] at h1
    cases g : Spec.deleteFields F (keyToPath k) with
    | panic => simp [g] at h1
    | ok x =>
      obtain ⟨G, y⟩ := x
      simp [g] at h1
      rcases delete_state g with e | ⟨a, as, m, e1, rfl, e2⟩
      · exact .inr (same (h1.1.symm.trans e))
      · have hk : keyToPath key = [a] := by
          simp only [Call.area, e1, List.take_succ_cons, List.take_zero] at hc
          cases hkp : keyToPath key with
          | nil => exact absurd hkp hp
          | cons b bs =>
            rw [hkp] at hc
            obtain ⟨rfl, hb⟩ := List.cons_prefix_cons.mp hc
            simp at hb; rw [hb]
        have e3 : F1 = some (m.erase a) := h1.1.symm.trans e2
        apply stored (m.insert a v)
        · rw [hk]; rfl
        · rw [hk, e3]; simp [Spec.store, AMap.insert_erase (hF m rfl)]

/-- C66, the other law: a call at or below a key leaves no trace in any event if the next call is a `Put` (of a value) of that key. -/
theorem overwritten_call (n : Nat) (pre post : List (Nat × Call)) (i : Nat) (c : Call) {key : Bytes} {v : Val} (hv : v ≠ .nilp) (hp : keyToPath key ≠ []) (hk : keyToPath key <+: c.area)
    (hc : ∀ d ∈ pre ++ (i, c) :: (i, .put key v) :: post, d.2.Good Val.Passable) :
    ∃ w1 rets1 w2 rets2 s, World.run ⟨[], List.replicate n newEvent⟩ (pre ++ (i, c) :: (i, .put key v) :: post) = .ok (w1, rets1) ∧
      World.run ⟨[], List.replicate n newEvent⟩ (pre ++ (i, .put key v) :: post) = .ok (w2, rets2) ∧ w1.Contains s ∧ w2.Contains s := by
  obtain ⟨w1, rets1, s1, rs1, a1, a2, a3, a4, a5⟩ := history_refines_nested_map n _ hc
  obtain ⟨w2, rets2, s2, rs2, b1, b2, b3, b4, b5⟩ := history_refines_nested_map n (pre ++ (i, .put key v) :: post) (fun d hd => hc d (by
    rw [List.mem_append] at hd ⊢
    rcases hd with h | h
    · exact .inl h
    · exact .inr (.tail _ h)))
  have hvn : v.isNil = false := by cases v <;> simp_all [Val.isNil]
  have main : ∀ (pre : List (Nat × Call)) {s s1 s2 : List Fields} {rs1 rs2}, AllSorted s → Spec.run s (pre ++ (i, c) :: (i, .put key v) :: post) = .ok (s1, rs1) →
      Spec.run s (pre ++ (i, .put key v) :: post) = .ok (s2, rs2) → s1 = s2 := by
    intro pre
    induction pre with
    | nil =>
      intro s s1 s2 rs1 rs2 hs h1 h2
      simp only [List.nil_append, Spec.run] at h1 h2
      obtain ⟨⟨t1, r1⟩, g1, h1⟩ := Res.bind_eq_ok.mp h1
      obtain ⟨⟨t2, r2⟩, g2, h1⟩ := Res.bind_eq_ok.mp h1
      obtain ⟨⟨t3, r3⟩, g3, h1'⟩ := Res.bind_eq_ok.mp g2
      obtain ⟨⟨u1, q1⟩, k1, h2⟩ := Res.bind_eq_ok.mp h2
      obtain ⟨⟨u2, q2⟩, k2, h2⟩ := Res.bind_eq_ok.mp h2
      obtain ⟨⟨t4, r4⟩, g4, h1'⟩ := Res.bind_eq_ok.mp h1'
      have htu : t3 = u1 := by
        rw [call_eq_op] at g1 k1
        cases hi : s[i]? with
        | none =>
          simp only [hi, Res.ok.injEq, Prod.mk.injEq] at g1 k1
          rw [← g1.1, call_eq_op, hi] at g3
          simp only [Res.ok.injEq, Prod.mk.injEq] at g3
          rw [← g3.1, ← k1.1]
        | some f =>
          have hl : i < s.length := (List.getElem?_eq_some_iff.mp hi).1
          simp only [hi] at g1 k1
          cases o1 : Spec.op f c with
          | panic => simp [o1] at g1
          | ok x =>
            obtain ⟨F1, p1⟩ := x
            simp only [o1, Res.map_ok, Res.ok.injEq, Prod.mk.injEq] at g1
            rw [← g1.1, call_eq_op] at g3
            simp only [List.getElem?_set_self hl, List.set_set] at g3
            cases o2 : Spec.op F1 (.put key v) with
            | panic => simp [o2] at g3
            | ok y =>
              obtain ⟨F2, p2⟩ := y
              simp only [o2, Res.map_ok, Res.ok.injEq, Prod.mk.injEq] at g3
              rcases op_covered (hs f (List.mem_of_getElem? hi)) hvn hp hk o1 o2 with e | ⟨r, e⟩
              · simp [e] at k1
              · simp only [e, Res.map_ok, Res.ok.injEq, Prod.mk.injEq] at k1
                rw [← g3.1, ← k1.1]
      subst htu
      rw [g4] at k2
      simp only [Res.ok.injEq, Prod.mk.injEq] at h1 h1' h2 k2
      rw [← h1.1, ← h1'.1, ← h2.1, k2.1]
    | cons d pre ih =>
      intro s s1 s2 rs1 rs2 hs h1 h2
      obtain ⟨j, d⟩ := d
      simp only [List.cons_append, Spec.run] at h1 h2
      obtain ⟨⟨t1, r1⟩, g1, h1⟩ := Res.bind_eq_ok.mp h1
      obtain ⟨⟨t2, r2⟩, g2, h1⟩ := Res.bind_eq_ok.mp h1
      rw [g1] at h2
      simp only [Res.bind_ok] at h2
      obtain ⟨⟨u2, q2⟩, k2, h2⟩ := Res.bind_eq_ok.mp h2
      simp only [Res.ok.injEq, Prod.mk.injEq] at h1 h2
      rw [← h1.1, ← h2.1]
      exact ih (call_sorted hs g1) g2 k2
  have hs0 : AllSorted (List.replicate n (none : Fields)) := by
    intro f hf es he
    rw [List.mem_replicate] at hf
    rw [hf.2] at he; cases he
  have e := main pre hs0 a2 b2
  subst e
  exact ⟨w1, rets1, w2, rets2, s1, a1, b1, ⟨a4, a5⟩, ⟨b4, b5⟩⟩

/-- The hypotheses of `overwritten_call` are met by a nested put below the key, a put of the key itself, and a delete below it. -/
example : keyToPath (lit "a") ≠ [] ∧ keyToPath (lit "a") <+: (Call.put (lit "a.b.c") (.scalar .null)).area ∧ keyToPath (lit "a") <+: (Call.tryPut (lit "a") (.scalar .null)).area ∧
    keyToPath (lit "a") <+: (Call.delete (lit "a.b")).area := by
  refine ⟨by decide +kernel, ⟨[lit "b", lit "c"], by decide +kernel⟩, ⟨[], by decide +kernel⟩, ⟨[], by decide +kernel⟩⟩

end Sawmill
