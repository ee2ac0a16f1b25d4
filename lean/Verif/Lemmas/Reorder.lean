import Verif.Lemmas.StoreLaws
/-!
# Exchanging two independent calls
-/

namespace Sawmill

theorem area_cons {k : Bytes} {p : List Bytes} (h : p ≠ []) : ¬ Related (p.take 1) (k :: []) ↔ ∃ a as, p = a :: as ∧ a ≠ k := by
  cases p with
  | nil => exact absurd rfl h
  | cons a as => simp [Related]; grind

theorem related_take {p q : List Bytes} (h : ¬ Related (p.take 1) q) : ∃ a as b bs, p = a :: as ∧ q = b :: bs ∧ a ≠ b := by
  cases p with
  | nil => exact absurd (.inl List.nil_prefix) h
  | cons a as =>
    cases q with
    | nil => exact absurd (.inr List.nil_prefix) h
    | cons b bs =>
      refine ⟨a, as, b, bs, rfl, rfl, ?_⟩
      rintro rfl
      exact h (.inl (by simp))

theorem Related.symm {p q : List Bytes} (h : Related p q) : Related q p := Or.symm h

theorem related_nil_left (q : List Bytes) : Related [] q := .inl List.nil_prefix

theorem nilp_isNil' : Val.isNil .nilp = true := rfl

/-- A put either leaves the contents alone or stores. -/
theorem put_state {F F1 : Fields} {p : List Bytes} {v : Val} {ow : Bool} {r : Val × Option Spec.Error} (h : Spec.putFields F p v ow = .ok (F1, r)) :
    F1 = F ∨ ∃ m1, Spec.store (F.getD []) p v = .ok (some m1) ∧ F1 = some m1 := by
  by_cases hp : p = []
  · simp [Spec.putFields, hp] at h; exact .inl h.1.symm
  · by_cases hv : v.isNil = true
    · simp [Spec.putFields, hp, hv] at h; exact .inl h.1.symm
    · rw [putFields_cases hp (by simpa using hv)] at h
      obtain ⟨old, h1, h⟩ := Res.bind_eq_ok.mp h
      split at h
      · simp at h; exact .inl h.1.symm
      · obtain ⟨x, h2, h⟩ := Res.bind_eq_ok.mp h
        cases x with
        | none => simp at h; exact .inl h.1.symm
        | some m => simp only [Res.ok.injEq, Prod.mk.injEq] at h; exact .inr ⟨m, h2, h.1.symm⟩

/-- A delete either leaves the contents alone or erases the top-level entry. -/
theorem delete_state {F F1 : Fields} {p : List Bytes} {r : Val} (h : Spec.deleteFields F p = .ok (F1, r)) :
    F1 = F ∨ ∃ a as m, p = a :: as ∧ F = some m ∧ F1 = some (m.erase a) := by
  cases p with
  | nil => simp [Spec.deleteFields] at h; exact .inl h.1.symm
  | cons a as =>
    simp only [Spec.deleteFields] at h
    obtain ⟨old, h1, h⟩ := Res.bind_eq_ok.mp h
    split at h
    · simp at h; exact .inl h.1.symm
    · simp only [Res.ok.injEq, Prod.mk.injEq] at h
      cases F with
      | none => simp at h; exact .inl h.1.symm
      | some m => exact .inr ⟨a, as, m, rfl, rfl, h.1.symm⟩

/-- A call elsewhere does not change what is read at `q`. -/
theorem get_after_op {F F1 : Fields} {c : Call} {r : Val × Option Spec.Error} {q : List Bytes} (hu : ¬ Related c.area q) (h : Spec.op F c = .ok (F1, r)) :
    Spec.get (F1.getD []) q = Spec.get (F.getD []) q := by
  have hput : ∀ {p v ow}, ¬ Related p q → Spec.putFields F p v ow = .ok (F1, r) → Spec.get (F1.getD []) q = Spec.get (F.getD []) q := by
    intro p v ow hu h
    rcases put_state h with rfl | ⟨m1, h1, rfl⟩
    · rfl
    · exact get_store_other h1 hu
  cases c with
  | put k v => exact hput hu h
  | tryPut k v => exact hput hu h
  | get k =>
    simp only [Spec.op] at h
    cases h1 : Spec.getFields F (keyToPath k) with
    | panic => simp [h1] at h
    | ok x => simp [h1] at h; rw [h.1]
  | delete k =>
    simp only [Spec.op] at h
    cases h1 : Spec.deleteFields F (keyToPath k) with
    | panic => simp [h1] at h
    | ok x =>
      obtain ⟨G, y⟩ := x
      simp [h1] at h
      rw [← h.1]
      rcases delete_state h1 with rfl | ⟨a, as, m, e1, rfl, rfl⟩
      · rfl
      · obtain ⟨a', as', b, bs, e2, rfl, hne⟩ := related_take hu
        rw [e1] at e2
        cases e2
        exact get_erase_other m bs hne

/-- A call elsewhere and a store at `q`. -/
theorem store_after_op {F F1 : Fields} (hF : F.Sorted) {c : Call} {r : Val × Option Spec.Error} {q : List Bytes} (hu : ¬ Related c.area q) (h : Spec.op F c = .ok (F1, r)) (w : Val) :
    (Spec.store (F.getD []) q w = .panic ∧ Spec.store (F1.getD []) q w = .panic) ∨ (Spec.store (F.getD []) q w = .ok none ∧ Spec.store (F1.getD []) q w = .ok none) ∨
    ∃ m2 m3, Spec.store (F.getD []) q w = .ok (some m2) ∧ Spec.store (F1.getD []) q w = .ok (some m3) ∧ Spec.op (some m2) c = .ok (some m3, r) := by
  have same : ∀ (G : Fields), (∀ m2, Spec.store (G.getD []) q w = .ok (some m2) → Spec.op (some m2) c = .ok (some m2, r)) →
      (Spec.store (G.getD []) q w = .panic ∧ Spec.store (G.getD []) q w = .panic) ∨ (Spec.store (G.getD []) q w = .ok none ∧ Spec.store (G.getD []) q w = .ok none) ∨
      ∃ m2 m3, Spec.store (G.getD []) q w = .ok (some m2) ∧ Spec.store (G.getD []) q w = .ok (some m3) ∧ Spec.op (some m2) c = .ok (some m3, r) := by
    intro G hG
    cases hs : Spec.store (G.getD []) q w with
    | panic => exact .inl ⟨rfl, rfl⟩
    | ok x => cases x with
      | none => exact .inr (.inl ⟨rfl, rfl⟩)
      | some m2 => exact .inr (.inr ⟨m2, m2, rfl, rfl, hG m2 hs⟩)
  have hput : ∀ {p v ow}, ¬ Related p q → (∀ G, Spec.op G c = Spec.putFields G p v ow) → Spec.putFields F p v ow = .ok (F1, r) →
      (Spec.store (F.getD []) q w = .panic ∧ Spec.store (F1.getD []) q w = .panic) ∨ (Spec.store (F.getD []) q w = .ok none ∧ Spec.store (F1.getD []) q w = .ok none) ∨
      ∃ m2 m3, Spec.store (F.getD []) q w = .ok (some m2) ∧ Spec.store (F1.getD []) q w = .ok (some m3) ∧ Spec.op (some m2) c = .ok (some m3, r) := by
    intro p v ow hu hop h
    have hp : p ≠ [] := by rintro rfl; exact hu (related_nil_left q)
    by_cases hv : v.isNil = true
    · simp only [Spec.putFields, hp, hv, if_false, if_true, Res.ok.injEq, Prod.mk.injEq] at h
      obtain ⟨rfl, rfl⟩ := h
      apply same
      intro m2 _
      rw [hop]
      simp [Spec.putFields, hp, hv]
    · have hv' : v.isNil = false := by simpa using hv
      rw [putFields_cases hp hv'] at h
      obtain ⟨old, h1, h⟩ := Res.bind_eq_ok.mp h
      have hget : ∀ m2, Spec.store (F.getD []) q w = .ok (some m2) → Spec.get m2 p = .ok old := by
        intro m2 hm
        rw [get_store_other hm (fun hr => hu hr.symm), h1]
      split at h
      · next hb =>
        simp only [Res.ok.injEq, Prod.mk.injEq] at h
        obtain ⟨rfl, rfl⟩ := h
        apply same
        intro m2 hm
        rw [hop, putFields_cases hp hv']
        show (Spec.get m2 p).bind _ = _
        rw [hget m2 hm]
        show (if (!old.isNil && !ow) = true then _ else _) = _
        rw [if_pos hb]
      · next hb =>
        obtain ⟨x, h2, h⟩ := Res.bind_eq_ok.mp h
        cases x with
        | none =>
          simp only [Res.ok.injEq, Prod.mk.injEq] at h
          obtain ⟨rfl, rfl⟩ := h
          apply same
          intro m2 hm
          rw [hop, putFields_cases hp hv']
          show (Spec.get m2 p).bind _ = _
          rw [hget m2 hm]
          show (if (!old.isNil && !ow) = true then _ else (Spec.store m2 p v).bind _) = _
          rw [if_neg hb]
          rcases store_swap (fun hr => hu hr.symm) v hm with ⟨a, b⟩ | ⟨a, b⟩ | ⟨m3, m4, a, b, _⟩
          · rw [h2] at a; cases a
          · rw [b]; rfl
          · rw [h2] at a; cases a
        | some m1 =>
          simp only [Res.ok.injEq, Prod.mk.injEq] at h
          obtain ⟨rfl, rfl⟩ := h
          rcases store_swap hu w h2 with ⟨a, b⟩ | ⟨a, b⟩ | ⟨m2, m3, a, b, d⟩
          · exact .inl ⟨a, b⟩
          · exact .inr (.inl ⟨a, b⟩)
          · refine .inr (.inr ⟨m2, m3, a, b, ?_⟩)
            rw [hop, putFields_cases hp hv']
            show (Spec.get m2 p).bind _ = _
            rw [hget m2 a]
            show (if (!old.isNil && !ow) = true then _ else (Spec.store m2 p v).bind _) = _
            rw [if_neg hb, d]
            rfl
  cases c with
  | put k v => exact hput hu (fun _ => rfl) h
  | tryPut k v => exact hput hu (fun _ => rfl) h
  | get k =>
    simp only [Spec.op] at h
    have hp : keyToPath k ≠ [] := by intro e; apply hu; simp only [Call.area, e]; exact related_nil_left q
    rw [getFields_ne F hp] at h
    cases h1 : Spec.get (F.getD []) (keyToPath k) with
    | panic => simp [h1] at h
    | ok x =>
      simp only [h1, Res.map_ok, Res.ok.injEq, Prod.mk.injEq] at h
      obtain ⟨rfl, rfl⟩ := h
      apply same
      intro m2 hm
      simp only [Spec.op]
      rw [getFields_ne _ hp]
      show (Spec.get m2 _).map _ = _
      have hg : Spec.get m2 (keyToPath k) = Spec.get (F.getD []) (keyToPath k) := get_store_other hm (fun hr => hu hr.symm)
      rw [hg, h1]
      rfl
  | delete k =>
    obtain ⟨a, as, b, bs, e2, rfl, hne⟩ := related_take hu
    simp only [Spec.op, e2, Spec.deleteFields, getFields_ne _ (List.cons_ne_nil a as)] at h
    have hget : ∀ m2, Spec.store (F.getD []) (b :: bs) w = .ok (some m2) → Spec.get m2 (a :: as) = Spec.get (F.getD []) (a :: as) := by
      intro m2 hm
      exact get_store_other hm (fun hr => hne (related_cons.mp hr).1.symm)
    cases h1 : Spec.get (F.getD []) (a :: as) with
    | panic => simp [h1] at h
    | ok x =>
      simp only [h1, Res.bind_ok] at h
      by_cases hx : x.isNil = true
      · simp only [hx, if_true, Res.map_ok, Res.ok.injEq, Prod.mk.injEq] at h
        obtain ⟨rfl, rfl⟩ := h
        apply same
        intro m2 hm
        simp only [Spec.op, e2, Spec.deleteFields, getFields_ne _ (List.cons_ne_nil a as)]
        show (do let old ← Spec.get m2 (a :: as); _ : Res _).map _ = _
        rw [hget m2 hm, h1]
        simp [hx]
      · simp only [hx, if_false, Res.map_ok, Res.ok.injEq, Prod.mk.injEq, Bool.false_eq_true] at h
        obtain ⟨rfl, rfl⟩ := h
        cases F with
        | none => simp only [Option.getD_none, spec_get_nil, Res.ok.injEq] at h1; subst h1; exact absurd rfl hx
        | some m =>
          simp only [Option.map_some, Option.getD_some] at h1 hget ⊢
          rw [store_erase_other (hF m rfl) bs w hne]
          cases hs : Spec.store m (b :: bs) w with
          | panic => exact .inl ⟨rfl, rfl⟩
          | ok y => cases y with
            | none => exact .inr (.inl ⟨rfl, rfl⟩)
            | some m2 =>
              refine .inr (.inr ⟨m2, m2.erase a, rfl, rfl, ?_⟩)
              simp only [Spec.op, e2, Spec.deleteFields, getFields_ne _ (List.cons_ne_nil a as)]
              show (do let old ← Spec.get m2 (a :: as); _ : Res _).map _ = _
              rw [hget m2 hs, h1]
              simp [hx]

/-- A put after a call elsewhere. -/
theorem swap_put {F : Fields} (hF : F.Sorted) {c d : Call} {q : List Bytes} {w : Val} {ow : Bool} (hd : ∀ G, Spec.op G d = Spec.putFields G q w ow) (hu : ¬ Related c.area q) :
    Swap c d F ∧ Bad c d F := by
  have hq : q ≠ [] := by rintro rfl; exact hu (related_nil_left _).symm
  constructor
  · intro F1 r1 F2 r2 h1 h2
    rw [hd] at h2 ⊢
    by_cases hw : w.isNil = true
    · simp only [Spec.putFields, hq, hw, if_false, if_true, Res.ok.injEq, Prod.mk.injEq] at h2
      obtain ⟨rfl, rfl⟩ := h2
      exact ⟨F1, by simp [Spec.putFields, hq, hw], h1⟩
    · have hw' : w.isNil = false := by simpa using hw
      rw [putFields_cases hq hw'] at h2 ⊢
      rw [get_after_op hu h1]
      obtain ⟨old, g1, h2⟩ := Res.bind_eq_ok.mp h2
      rw [g1]
      show ∃ F3, (if (!old.isNil && !ow) = true then _ else (Spec.store (F1.getD []) q w).bind _) = _ ∧ _
      by_cases hb : (!old.isNil && !ow) = true
      · rw [if_pos hb] at h2 ⊢
        simp only [Res.ok.injEq, Prod.mk.injEq] at h2
        obtain ⟨rfl, rfl⟩ := h2
        exact ⟨F1, rfl, h1⟩
      · rw [if_neg hb] at h2 ⊢
        obtain ⟨x, g2, h2⟩ := Res.bind_eq_ok.mp h2
        rcases store_after_op hF hu h1 w with ⟨a, b⟩ | ⟨a, b⟩ | ⟨m2, m3, a, b, e⟩
        · rw [g2] at a; cases a
        · rw [g2] at a; cases a
          simp only [Res.ok.injEq, Prod.mk.injEq] at h2
          obtain ⟨rfl, rfl⟩ := h2
          exact ⟨F1, by rw [b]; rfl, h1⟩
        · rw [g2] at a; cases a
          simp only [Res.ok.injEq, Prod.mk.injEq] at h2
          obtain ⟨rfl, rfl⟩ := h2
          exact ⟨some m3, by rw [b]; rfl, e⟩
  · intro F1 r1 h1 h2
    rw [hd] at h2 ⊢
    by_cases hw : w.isNil = true
    · simp [Spec.putFields, hq, hw] at h2
    · have hw' : w.isNil = false := by simpa using hw
      rw [putFields_cases hq hw'] at h2 ⊢
      rw [get_after_op hu h1]
      cases g1 : Spec.get (F.getD []) q with
      | panic => rfl
      | ok old =>
        rw [g1] at h2
        change (if (!old.isNil && !ow) = true then _ else (Spec.store (F.getD []) q w).bind _) = _ at h2
        show (if (!old.isNil && !ow) = true then _ else (Spec.store (F1.getD []) q w).bind _) = _
        by_cases hb : (!old.isNil && !ow) = true
        · rw [if_pos hb] at h2; cases h2
        · rw [if_neg hb] at h2 ⊢
          rcases store_after_op hF hu h1 w with ⟨a, b⟩ | ⟨a, b⟩ | ⟨m2, m3, a, b, e⟩
          · rw [b]; rfl
          · rw [a] at h2; cases h2
          · rw [a] at h2; cases h2

theorem op_get {F : Fields} {k : Bytes} (hk : keyToPath k ≠ []) : Spec.op F (.get k) = (Spec.get (F.getD []) (keyToPath k)).map fun v => (F, v, none) := by
  simp only [Spec.op, getFields_ne F hk]

/-- A get after a call elsewhere. -/
theorem swap_get {F : Fields} {c : Call} {k : Bytes} (hu : ¬ Related c.area (keyToPath k)) : Swap c (.get k) F ∧ Bad c (.get k) F := by
  have hq : keyToPath k ≠ [] := by intro e; rw [e] at hu; exact hu (related_nil_left _).symm
  constructor
  · intro F1 r1 F2 r2 h1 h2
    rw [op_get hq] at h2 ⊢
    rw [get_after_op hu h1]
    cases g1 : Spec.get (F.getD []) (keyToPath k) with
    | panic => simp [g1] at h2
    | ok v =>
      simp only [g1, Res.map_ok, Res.ok.injEq, Prod.mk.injEq] at h2
      obtain ⟨rfl, rfl⟩ := h2
      exact ⟨F1, rfl, h1⟩
  · intro F1 r1 h1 h2
    rw [op_get hq] at h2 ⊢
    rw [get_after_op hu h1]
    cases g1 : Spec.get (F.getD []) (keyToPath k) with
    | panic => rfl
    | ok v => simp [g1] at h2

theorem op_delete {F : Fields} {k a : Bytes} {as : List Bytes} (hk : keyToPath k = a :: as) : Spec.op F (.delete k) =
    (Spec.get (F.getD []) (a :: as)).bind fun old => if old.isNil then .ok (F, old, none) else .ok (F.map (·.erase a), old, none) := by
  simp only [Spec.op, hk, Spec.deleteFields, getFields_ne _ (List.cons_ne_nil a as)]
  cases Spec.get (F.getD []) (a :: as) with
  | panic => rfl
  | ok old =>
    simp only [Res.bind_ok]
    show _ = (if old.isNil = true then _ else _)
    split <;> rfl

/-- Two deletes of different entries. -/
theorem swap_delete {F : Fields} {j k : Bytes} (hu : ¬ Related ((keyToPath j).take 1) ((keyToPath k).take 1)) : Swap (.delete j) (.delete k) F ∧ Bad (.delete j) (.delete k) F := by
  obtain ⟨a, as, b, bs, e1, e2, hne⟩ : ∃ a as b bs, keyToPath j = a :: as ∧ keyToPath k = b :: bs ∧ a ≠ b := by
    obtain ⟨a, as, b, bs, e1, e2, hne⟩ := related_take hu
    cases hk : keyToPath k with
    | nil => simp [hk] at e2
    | cons b' bs' => simp [hk] at e2; exact ⟨a, as, b', bs', e1, rfl, by rw [e2.1]; exact hne⟩
  have hr : ¬ Related (Call.area (.delete j)) (b :: bs) := by
    simp only [Call.area, e1, List.take_succ_cons, List.take_zero]
    intro h; exact hne (related_cons.mp h).1
  have hr' : ¬ Related (Call.area (.delete k)) (a :: as) := by
    simp only [Call.area, e2, List.take_succ_cons, List.take_zero]
    intro h; exact hne (related_cons.mp h).1.symm
  constructor
  · intro F1 r1 F2 r2 h1 h2
    have g1 := get_after_op hr h1
    have g2 := get_after_op hr' h2
    rw [op_delete e2] at h2 ⊢
    rw [op_delete e1] at h1 ⊢
    rw [g1, g2]
    obtain ⟨x, x1, h1⟩ := Res.bind_eq_ok.mp h1
    obtain ⟨y, y1, h2⟩ := Res.bind_eq_ok.mp h2
    rw [x1, y1]
    show ∃ F3, (if y.isNil = true then _ else _) = _ ∧ (if x.isNil = true then _ else _) = _
    by_cases hx : x.isNil = true
    · rw [if_pos hx] at h1 ⊢
      by_cases hy : y.isNil = true
      · rw [if_pos hy] at h2 ⊢
        simp only [Res.ok.injEq, Prod.mk.injEq] at h1 h2
        obtain ⟨rfl, rfl⟩ := h1; obtain ⟨rfl, rfl⟩ := h2
        exact ⟨_, rfl, rfl⟩
      · rw [if_neg hy] at h2 ⊢
        simp only [Res.ok.injEq, Prod.mk.injEq] at h1 h2
        obtain ⟨rfl, rfl⟩ := h1; obtain ⟨rfl, rfl⟩ := h2
        exact ⟨_, rfl, rfl⟩
    · rw [if_neg hx] at h1 ⊢
      by_cases hy : y.isNil = true
      · rw [if_pos hy] at h2 ⊢
        simp only [Res.ok.injEq, Prod.mk.injEq] at h1 h2
        obtain ⟨rfl, rfl⟩ := h1; obtain ⟨rfl, rfl⟩ := h2
        exact ⟨_, rfl, rfl⟩
      · rw [if_neg hy] at h2 ⊢
        simp only [Res.ok.injEq, Prod.mk.injEq] at h1 h2
        obtain ⟨rfl, rfl⟩ := h1; obtain ⟨rfl, rfl⟩ := h2
        refine ⟨_, rfl, ?_⟩
        cases F with
        | none => rfl
        | some m => simp [AMap.erase_comm m a b]
  · intro F1 r1 h1 h2
    have g1 := get_after_op hr h1
    rw [op_delete e2] at h2 ⊢
    rw [g1]
    cases y1 : Spec.get (F.getD []) (b :: bs) with
    | panic => rfl
    | ok y =>
      rw [y1] at h2
      change (if y.isNil = true then _ else _) = _ at h2
      split at h2 <;> cases h2

/-- A delete after a get elsewhere. -/
theorem bad_get {F : Fields} {k : Bytes} (d : Call) : Bad (.get k) d F := by
  intro F1 r1 h1 h2
  simp only [Spec.op] at h1
  cases g : Spec.getFields F (keyToPath k) with
  | panic => simp [g] at h1
  | ok x => simp [g] at h1; rw [← h1.1]; exact h2

theorem bad_delete {F : Fields} {c : Call} {k : Bytes} (hu : ¬ Related c.area (keyToPath k)) : Bad c (.delete k) F := by
  intro F1 r1 h1 h2
  have hq : keyToPath k ≠ [] := by intro e; rw [e] at hu; exact hu (related_nil_left _).symm
  cases hk : keyToPath k with
  | nil => exact absurd hk hq
  | cons b bs =>
    rw [hk] at hu
    rw [op_delete hk] at h2 ⊢
    rw [get_after_op hu h1]
    cases y1 : Spec.get (F.getD []) (b :: bs) with
    | panic => rfl
    | ok y =>
      rw [y1] at h2
      change (if y.isNil = true then _ else _) = _ at h2
      split at h2 <;> cases h2

theorem Swap.symm {c d : Call} {F : Fields} (h : Swap c d F) : Swap d c F := by
  intro F1 r1 F2 r2 h1 h2
  obtain ⟨F3, a, b⟩ := h F2 r2 F1 r1 h2 h1
  exact ⟨F3, b, a⟩

theorem related_of_take {p q : List Bytes} (h : ¬ Related (p.take 1) q) : ¬ Related p q := by
  obtain ⟨a, as, b, bs, rfl, rfl, hne⟩ := related_take h
  intro hr
  exact hne (related_cons.mp hr).1

/-- Two independent calls on one event. -/
theorem swap_calls {F : Fields} (hF : F.Sorted) {c d : Call} (h : (c.isGet = true ∧ d.isGet = true) ∨ ¬ Related c.area d.area) : Swap c d F ∧ Bad c d F ∧ Bad d c F := by
  rcases h with ⟨hc, hd⟩ | hu
  · cases c <;> simp [Call.isGet] at hc
    cases d <;> simp [Call.isGet] at hd
    rename_i j k
    refine ⟨?_, bad_get _, bad_get _⟩
    intro F1 r1 F2 r2 h1 h2
    simp only [Spec.op] at h1 h2 ⊢
    cases g1 : Spec.getFields F (keyToPath j) with
    | panic => simp [g1] at h1
    | ok x =>
      cases g2 : Spec.getFields F (keyToPath k) with
      | panic => simp [g2] at h2
      | ok y =>
        simp only [g1, g2, Res.map_ok, Res.ok.injEq, Prod.mk.injEq] at h1 h2
        obtain ⟨rfl, rfl⟩ := h1; obtain ⟨rfl, rfl⟩ := h2
        exact ⟨F, by simp [g2], by simp [g1]⟩
  · have hu' : ¬ Related d.area c.area := fun h => hu h.symm
    have dput : ∀ {c : Call} {k : Bytes} {w : Val} {ow : Bool} {d : Call}, (∀ G, Spec.op G d = Spec.putFields G (keyToPath k) w ow) → ¬ Related c.area (keyToPath k) → Swap c d F ∧ Bad c d F :=
      fun hop h => swap_put hF hop h
    cases c with
    | put j v =>
      cases d with
      | put k w => exact ⟨(dput (fun _ => rfl) hu).1, (dput (fun _ => rfl) hu).2, (dput (fun _ => rfl) hu').2⟩
      | tryPut k w => exact ⟨(dput (fun _ => rfl) hu).1, (dput (fun _ => rfl) hu).2, (dput (fun _ => rfl) hu').2⟩
      | get k => exact ⟨(swap_get hu).1, (swap_get hu).2, bad_get _⟩
      | delete k => exact ⟨(dput (fun _ => rfl) hu').1.symm, bad_delete (fun h => related_of_take hu' h.symm), (dput (fun _ => rfl) hu').2⟩
    | tryPut j v =>
      cases d with
      | put k w => exact ⟨(dput (fun _ => rfl) hu).1, (dput (fun _ => rfl) hu).2, (dput (fun _ => rfl) hu').2⟩
      | tryPut k w => exact ⟨(dput (fun _ => rfl) hu).1, (dput (fun _ => rfl) hu).2, (dput (fun _ => rfl) hu').2⟩
      | get k => exact ⟨(swap_get hu).1, (swap_get hu).2, bad_get _⟩
      | delete k => exact ⟨(dput (fun _ => rfl) hu').1.symm, bad_delete (fun h => related_of_take hu' h.symm), (dput (fun _ => rfl) hu').2⟩
    | get j =>
      cases d with
      | put k w => exact ⟨(dput (fun _ => rfl) hu).1, bad_get _, (swap_get hu').2⟩
      | tryPut k w => exact ⟨(dput (fun _ => rfl) hu).1, bad_get _, (swap_get hu').2⟩
      | get k => exact ⟨(swap_get hu).1, bad_get _, bad_get _⟩
      | delete k => exact ⟨(swap_get hu').1.symm, bad_get _, (swap_get hu').2⟩
    | delete j =>
      cases d with
      | put k w => exact ⟨(dput (fun _ => rfl) hu).1, (dput (fun _ => rfl) hu).2, bad_delete (fun h => related_of_take hu h.symm)⟩
      | tryPut k w => exact ⟨(dput (fun _ => rfl) hu).1, (dput (fun _ => rfl) hu).2, bad_delete (fun h => related_of_take hu h.symm)⟩
      | get k => exact ⟨(swap_get hu).1, (swap_get hu).2, bad_get _⟩
      | delete k => exact ⟨(swap_delete hu).1, (swap_delete hu).2, (swap_delete hu').2⟩

end Sawmill
