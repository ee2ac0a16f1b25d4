import Verif.Spec.Reads
/-!
# Framing: heaps, footprints, and the event API on owned events
-/

namespace Sawmill
namespace AMap
variable {α β : Type}

theorem erase_of_not_mem {m : AMap α} {k : Bytes} (h : lookup m k = none) : erase m k = m := by
  induction m with
  | nil => rfl
  | cons e t ih =>
    obtain ⟨k', v'⟩ := e
    simp only [lookup, erase] at h ⊢
    split at h <;> simp_all

theorem split_some {m : AMap α} {k : Bytes} {v : α} (hs : Sorted m) (h : lookup m k = some v) :
    ∃ l r, m = l ++ (k, v) :: r ∧ (∀ v', insert m k v' = l ++ (k, v') :: r) ∧ erase m k = l ++ r := by
  induction m with
  | nil => simp at h
  | cons e t ih =>
    obtain ⟨k', v'⟩ := e
    have hs' := sorted_cons.1 hs
    by_cases hk : k' = k
    · subst hk
      simp [lookup] at h
      subst h
      refine ⟨[], t, rfl, by simp [insert], ?_⟩
      have : lookup t k' = none := lookup_eq_none_of_lt hs'.1
      simp [erase, erase_of_not_mem this]
    · simp [lookup, hk] at h
      obtain ⟨l, r, h1, h2, h3⟩ := ih hs'.2 h
      have hlt : bLt k k' = false := bLt_asymm (hs'.1 (k, v) (by rw [h1]; simp))
      refine ⟨(k', v') :: l, r, by rw [h1]; rfl, ?_, ?_⟩
      · intro w; simp [insert, hk, hlt, h2]
      · simp [erase, hk, h3]

theorem split_none {m : AMap α} {k : Bytes} (h : lookup m k = none) :
    ∃ l r, m = l ++ r ∧ ∀ v', insert m k v' = l ++ (k, v') :: r := by
  induction m with
  | nil => exact ⟨[], [], rfl, fun _ => rfl⟩
  | cons e t ih =>
    obtain ⟨k', v'⟩ := e
    by_cases hk : k' = k
    · simp [lookup, hk] at h
    · simp [lookup, hk] at h
      obtain ⟨l, r, h1, h2⟩ := ih h
      by_cases hlt : bLt k k' = true
      · exact ⟨[], (k', v') :: t, rfl, fun w => by simp [insert, hk, hlt]⟩
      · exact ⟨(k', v') :: l, r, by rw [h1]; rfl, fun w => by simp [insert, hk, hlt, h2]⟩

theorem mem_insert' {m : AMap α} {k : Bytes} {v : α} {e : Bytes × α} (h : e ∈ insert m k v) : e = (k, v) ∨ e ∈ m := by
  rcases mem_insert h with h | h | h
  · exact .inl h
  · exact .inr h.1
  · exact .inr h

theorem mapVals_insert (f : α → β) (m : AMap α) (k : Bytes) (v : α) :
    mapVals f (insert m k v) = insert (mapVals f m) k (f v) := by
  induction m with
  | nil => rfl
  | cons e t ih =>
    obtain ⟨k', v'⟩ := e
    simp only [insert, mapVals, List.map_cons] at ih ⊢
    split
    · simp
    · split
      · simp
      · simp [ih]

theorem mapVals_erase (f : α → β) (m : AMap α) (k : Bytes) :
    mapVals f (erase m k) = erase (mapVals f m) k := by
  induction m with
  | nil => rfl
  | cons e t ih =>
    obtain ⟨k', v'⟩ := e
    simp only [erase, mapVals, List.map_cons] at ih ⊢
    split <;> simp [ih]

end AMap

namespace ATree

theorem eraseE_eq (es : AMap ATree) : eraseE es = AMap.mapVals ATree.erase es := by
  induction es with
  | nil => simp [eraseE, AMap.mapVals]
  | cons e t ih => obtain ⟨k, v⟩ := e; simp [eraseE, AMap.mapVals] at ih ⊢; exact ih

theorem eraseL_eq (es : List ATree) : eraseL es = es.map ATree.erase := by
  induction es with
  | nil => simp [eraseL]
  | cons e t ih => simp [eraseL, ih]

theorem fpE_append (a b : List (Bytes × ATree)) : fpE (a ++ b) = fpE a ++ fpE b := by
  induction a with
  | nil => simp [fpE]
  | cons e t ih => obtain ⟨k, v⟩ := e; simp [fpE, ih]

theorem fpL_append (a b : List ATree) : fpL (a ++ b) = fpL a ++ fpL b := by
  induction a with
  | nil => simp [fpL]
  | cons e t ih => simp [fpL, ih]

theorem mem_fpE {es : List (Bytes × ATree)} {k : Bytes} {t : ATree} {a : Nat} (h : (k, t) ∈ es) (ha : a ∈ t.fp) :
    a ∈ fpE es := by
  induction es with
  | nil => simp at h
  | cons e r ih =>
    obtain ⟨k', v⟩ := e
    simp only [List.mem_cons, Prod.mk.injEq] at h
    simp only [fpE, List.mem_append]
    rcases h with ⟨_, rfl⟩ | h
    · exact .inl ha
    · exact .inr (ih h)

theorem mem_fpE_iff {es : List (Bytes × ATree)} {a : Nat} : a ∈ fpE es ↔ ∃ e ∈ es, a ∈ e.2.fp := by
  induction es with
  | nil => simp [fpE]
  | cons e r ih => obtain ⟨k', v⟩ := e; simp [fpE, ih]

theorem mem_fpL_iff {es : List ATree} {a : Nat} : a ∈ fpL es ↔ ∃ e ∈ es, a ∈ e.fp := by
  induction es with
  | nil => simp [fpL]
  | cons e r ih => simp [fpL, ih]

end ATree
open ATree

theorem repE_iff {h : Heap} {es : List (Bytes × ATree)} : RepE h es ↔ ∀ e ∈ es, Rep h e.2 := by
  induction es with
  | nil => simp [RepE]
  | cons e r ih => obtain ⟨k', v⟩ := e; simp [RepE, ih]

theorem repL_iff {h : Heap} {es : List ATree} : RepL h es ↔ ∀ e ∈ es, Rep h e := by
  induction es with
  | nil => simp [RepL]
  | cons e r ih => simp [RepL, ih]

/-! ## Frames -/

/-- The address holds a leaf or object struct, which the API never writes. -/
def Frozen (h : Heap) (a : Nat) : Prop := ∃ c, h[a]? = some (.cell c) ∧ c.type ≠ .array

/-- `h'` differs from `h` only at addresses in `S` and at new addresses, and no frozen address is in `S`. -/
structure Frame (S : List Nat) (h h' : Heap) : Prop where
  len : h.length ≤ h'.length
  same : ∀ a, a < h.length → a ∉ S → h'[a]? = h[a]?
  thaw : ∀ a ∈ S, ¬ Frozen h a

theorem Frame.refl (h : Heap) : Frame [] h h := ⟨Nat.le_refl _, fun _ _ _ => rfl, by simp⟩

theorem Frame.get {S : List Nat} {h h' : Heap} (f : Frame S h h') {a : Nat} {o : HObj} (ha : h[a]? = some o) (hS : a ∉ S) :
    h'[a]? = some o := by
  have hl : a < h.length := by
    rcases Nat.lt_or_ge a h.length with hl | hl
    · exact hl
    · simp [List.getElem?_eq_none hl] at ha
  rw [f.same a hl hS, ha]

theorem scalarCell_type (s : Scalar) : (scalarCell s).type ≠ .array := by
  cases s <;> simp [scalarCell, nullCell, boolCell, intCell, uintCell, floatCell, strCell, tsCell]

theorem Frame.getFrozen {S : List Nat} {h h' : Heap} (f : Frame S h h') {a : Nat} {c : Cell}
    (ha : h[a]? = some (.cell c)) (hc : c.type ≠ .array) : h'[a]? = some (.cell c) :=
  f.get ha fun hS => f.thaw a hS ⟨c, ha, hc⟩

mutual
theorem rep_frame {S : List Nat} {h h' : Heap} (f : Frame S h h') :
    ∀ (t : ATree), Rep h t → (∀ a ∈ t.fp, a ∉ S) → Rep h' t
  | .nilp, _, _ => by simp [Rep]
  | .leaf a s, hr, _ => by
    simp only [Rep] at hr ⊢
    exact f.getFrozen hr (scalarCell_type s)
  | .arrNil a, hr, hd => by
    simp only [Rep] at hr ⊢
    exact f.get hr (hd a (by simp [fp]))
  | .arr a vs, hr, hd => by
    simp only [Rep] at hr ⊢
    exact ⟨f.get hr.1 (hd a (by simp [fp])), repL_frame f vs hr.2 (fun x hx => hd x (by simp [fp, hx]))⟩
  | .objNil a, hr, _ => by
    simp only [Rep] at hr ⊢
    exact f.getFrozen hr (by simp [objCell])
  | .obj a m es, hr, hd => by
    simp only [Rep] at hr ⊢
    exact ⟨f.getFrozen hr.1 (by simp [objCell]), f.get hr.2.1 (hd m (by simp [fp])), hr.2.2.1,
      repE_frame f es hr.2.2.2 (fun x hx => hd x (by simp [fp, hx]))⟩
theorem repL_frame {S : List Nat} {h h' : Heap} (f : Frame S h h') :
    ∀ (ts : List ATree), RepL h ts → (∀ a ∈ fpL ts, a ∉ S) → RepL h' ts
  | [], _, _ => by simp [RepL]
  | t :: ts, hr, hd => by
    simp only [RepL] at hr ⊢
    exact ⟨rep_frame f t hr.1 (fun x hx => hd x (by simp [fpL, hx])),
      repL_frame f ts hr.2 (fun x hx => hd x (by simp [fpL, hx]))⟩
theorem repE_frame {S : List Nat} {h h' : Heap} (f : Frame S h h') :
    ∀ (ts : List (Bytes × ATree)), RepE h ts → (∀ a ∈ fpE ts, a ∉ S) → RepE h' ts
  | [], _, _ => by simp [RepE]
  | (_, t) :: ts, hr, hd => by
    simp only [RepE] at hr ⊢
    exact ⟨rep_frame f t hr.1 (fun x hx => hd x (by simp [fpE, hx])),
      repE_frame f ts hr.2 (fun x hx => hd x (by simp [fpE, hx]))⟩
end

theorem lt_of_getElem? {α : Type} {l : List α} {i : Nat} {x : α} (h : l[i]? = some x) : i < l.length := by
  rcases Nat.lt_or_ge i l.length with hl | hl
  · exact hl
  · simp [List.getElem?_eq_none hl] at h

mutual
/-- Footprints lie inside the heap. -/
theorem fp_lt {h : Heap} : ∀ (t : ATree), Rep h t → ∀ a ∈ t.fp, a < h.length
  | .nilp, _, a, ha => by simp [fp] at ha
  | .leaf _ _, _, a, ha => by simp [fp] at ha
  | .arrNil b, hr, a, ha => by
    simp only [fp, List.mem_singleton, Rep] at ha hr
    subst ha
    exact lt_of_getElem? hr
  | .arr b vs, hr, a, ha => by
    simp only [fp, List.mem_cons, Rep] at ha hr
    rcases ha with rfl | ha
    · exact lt_of_getElem? hr.1
    · exact fpL_lt vs hr.2 a ha
  | .objNil _, _, a, ha => by simp [fp] at ha
  | .obj b m es, hr, a, ha => by
    simp only [fp, List.mem_cons, Rep] at ha hr
    rcases ha with rfl | ha
    · exact lt_of_getElem? hr.2.1
    · exact fpE_lt es hr.2.2.2 a ha
theorem fpL_lt {h : Heap} : ∀ (ts : List ATree), RepL h ts → ∀ a ∈ fpL ts, a < h.length
  | [], _, a, ha => by simp [fpL] at ha
  | t :: ts, hr, a, ha => by
    simp only [fpL, List.mem_append, RepL] at ha hr
    rcases ha with ha | ha
    · exact fp_lt t hr.1 a ha
    · exact fpL_lt ts hr.2 a ha
theorem fpE_lt {h : Heap} : ∀ (ts : List (Bytes × ATree)), RepE h ts → ∀ a ∈ fpE ts, a < h.length
  | [], _, a, ha => by simp [fpE] at ha
  | (_, t) :: ts, hr, a, ha => by
    simp only [fpE, List.mem_append, RepE] at ha hr
    rcases ha with ha | ha
    · exact fp_lt t hr.1 a ha
    · exact fpE_lt ts hr.2 a ha
end

mutual
/-- Footprints hold maps and array structs only. -/
theorem fp_mut {h : Heap} : ∀ (t : ATree), Rep h t → ∀ a ∈ t.fp, ¬ Frozen h a
  | .nilp, _, a, ha => by simp [fp] at ha
  | .leaf _ _, _, a, ha => by simp [fp] at ha
  | .arrNil b, hr, a, ha => by
    simp only [fp, List.mem_singleton, Rep] at ha hr
    subst ha
    rintro ⟨c, h1, h2⟩
    rw [hr] at h1; simp at h1; subst h1; simp [arrCell] at h2
  | .arr b vs, hr, a, ha => by
    simp only [fp, List.mem_cons, Rep] at ha hr
    rcases ha with rfl | ha
    · rintro ⟨c, h1, h2⟩
      rw [hr.1] at h1; simp at h1; subst h1; simp [arrCell] at h2
    · exact fpL_mut vs hr.2 a ha
  | .objNil _, _, a, ha => by simp [fp] at ha
  | .obj b m es, hr, a, ha => by
    simp only [fp, List.mem_cons, Rep] at ha hr
    rcases ha with rfl | ha
    · rintro ⟨c, h1, h2⟩
      rw [hr.2.1] at h1; simp at h1
    · exact fpE_mut es hr.2.2.2 a ha
theorem fpL_mut {h : Heap} : ∀ (ts : List ATree), RepL h ts → ∀ a ∈ fpL ts, ¬ Frozen h a
  | [], _, a, ha => by simp [fpL] at ha
  | t :: ts, hr, a, ha => by
    simp only [fpL, List.mem_append, RepL] at ha hr
    rcases ha with ha | ha
    · exact fp_mut t hr.1 a ha
    · exact fpL_mut ts hr.2 a ha
theorem fpE_mut {h : Heap} : ∀ (ts : List (Bytes × ATree)), RepE h ts → ∀ a ∈ fpE ts, ¬ Frozen h a
  | [], _, a, ha => by simp [fpE] at ha
  | (_, t) :: ts, hr, a, ha => by
    simp only [fpE, List.mem_append, RepE] at ha hr
    rcases ha with ha | ha
    · exact fp_mut t hr.1 a ha
    · exact fpE_mut ts hr.2 a ha
end

mutual
/-- What the heap holds can be read back. -/
theorem rep_reads {h : Heap} : ∀ (t : ATree), Rep h t → Reads h t.ptr t.erase
  | .nilp, _ => by simp [ATree.erase, Reads, ptr]
  | .leaf a s, hr => by simp only [Rep] at hr; simp [ATree.erase, Reads, ptr, deref, hr]
  | .arrNil a, hr => by simp only [Rep] at hr; simp [ATree.erase, Reads, ptr, deref, hr]
  | .arr a vs, hr => by
    simp only [Rep] at hr
    simp only [ATree.erase, Reads, ptr, deref, hr.1]
    exact ⟨_, rfl, repL_reads vs hr.2⟩
  | .objNil a, hr => by simp only [Rep] at hr; simp [ATree.erase, Reads, ptr, deref, hr]
  | .obj a m es, hr => by
    simp only [Rep] at hr
    simp only [ATree.erase, Reads, ptr, deref, hr.1]
    exact ⟨m, _, rfl, hr.2.1, repE_reads es hr.2.2.2⟩
theorem repL_reads {h : Heap} : ∀ (ts : List ATree), RepL h ts → ReadsL h (ts.map ptr) (eraseL ts)
  | [], _ => by simp [eraseL, ReadsL]
  | t :: ts, hr => by
    simp only [RepL] at hr
    simp only [eraseL, List.map_cons, ReadsL]
    exact ⟨rep_reads t hr.1, repL_reads ts hr.2⟩
theorem repE_reads {h : Heap} : ∀ (ts : List (Bytes × ATree)), RepE h ts → ReadsE h (ptrMap ts) (eraseE ts)
  | [], _ => by simp [eraseE, ReadsE, ptrMap, AMap.mapVals]
  | (k, t) :: ts, hr => by
    simp only [RepE] at hr
    have := repE_reads ts hr.2
    simp only [ptrMap, AMap.mapVals, List.map_cons, eraseE, ReadsE] at this ⊢
    exact ⟨trivial, rep_reads t hr.1, this⟩
end

mutual
/-- Reading is deterministic: a pointer shows at most one tree. -/
theorem reads_inj {h : Heap} : ∀ {p : Ptr} (v w : Val), Reads h p v → Reads h p w → v = w
  | p, v, w, hv, hw => by
    cases v with
    | nilp => 
      simp only [Reads] at hv; subst hv
      cases w <;> simp_all [Reads, deref]
    | scalar s =>
      simp only [Reads] at hv
      cases w <;> simp_all [Reads]
      · subst hw; simp [deref] at hv
      · rename_i s'; cases s <;> cases s' <;> simp_all [scalarCell, nullCell, boolCell, intCell, uintCell, floatCell, strCell, tsCell]
      all_goals cases s <;> simp_all [scalarCell, nullCell, boolCell, intCell, uintCell, floatCell, strCell, tsCell, arrCell, objCell]
    | arrNil =>
      simp only [Reads] at hv
      cases w <;> simp_all [Reads]
      · subst hw; simp [deref] at hv
      · rename_i s; cases s <;> simp_all [scalarCell, nullCell, boolCell, intCell, uintCell, floatCell, strCell, tsCell, arrCell]
      all_goals simp_all [arrCell, objCell]
    | arr vs =>
      simp only [Reads] at hv
      obtain ⟨ps, hd, hl⟩ := hv
      cases w with
      | arr ws =>
        simp only [Reads] at hw
        obtain ⟨ps', hd', hl'⟩ := hw
        rw [hd] at hd'; simp [arrCell] at hd'; subst hd'
        rw [readsL_inj vs ws hl hl']
      | nilp => simp only [Reads] at hw; subst hw; simp [deref] at hd
      | scalar s => simp only [Reads] at hw; rw [hd] at hw; cases s <;> simp_all [scalarCell, nullCell, boolCell, intCell, uintCell, floatCell, strCell, tsCell, arrCell]
      | arrNil => simp only [Reads] at hw; rw [hd] at hw; simp [arrCell] at hw
      | objNil => simp only [Reads] at hw; rw [hd] at hw; simp [arrCell, objCell] at hw
      | obj es => simp only [Reads] at hw; obtain ⟨m, ps', hd', _⟩ := hw; rw [hd] at hd'; simp [arrCell, objCell] at hd'
    | objNil =>
      simp only [Reads] at hv
      cases w <;> simp_all [Reads]
      · subst hw; simp [deref] at hv
      · rename_i s; cases s <;> simp_all [scalarCell, nullCell, boolCell, intCell, uintCell, floatCell, strCell, tsCell, objCell]
      all_goals simp_all [arrCell, objCell]
    | obj es =>
      simp only [Reads] at hv
      obtain ⟨m, ps, hd, hm, hl⟩ := hv
      cases w with
      | obj ws =>
        simp only [Reads] at hw
        obtain ⟨m', ps', hd', hm', hl'⟩ := hw
        rw [hd] at hd'; simp [objCell] at hd'; subst hd'
        rw [hm] at hm'; simp at hm'; subst hm'
        rw [readsE_inj es ws hl hl']
      | nilp => simp only [Reads] at hw; subst hw; simp [deref] at hd
      | scalar s => simp only [Reads] at hw; rw [hd] at hw; cases s <;> simp_all [scalarCell, nullCell, boolCell, intCell, uintCell, floatCell, strCell, tsCell, objCell]
      | arrNil => simp only [Reads] at hw; rw [hd] at hw; simp [arrCell, objCell] at hw
      | objNil => simp only [Reads] at hw; rw [hd] at hw; simp [objCell] at hw
      | arr es => simp only [Reads] at hw; obtain ⟨ps', hd', _⟩ := hw; rw [hd] at hd'; simp [arrCell, objCell] at hd'
theorem readsL_inj {h : Heap} : ∀ {ps : List Ptr} (vs ws : List Val), ReadsL h ps vs → ReadsL h ps ws → vs = ws
  | [], [], [], _, _ => rfl
  | [], [], _ :: _, _, hw => by simp [ReadsL] at hw
  | [], _ :: _, _, hv, _ => by simp [ReadsL] at hv
  | _ :: _, [], _, hv, _ => by simp [ReadsL] at hv
  | _ :: _, _ :: _, [], _, hw => by simp [ReadsL] at hw
  | p :: ps, v :: vs, w :: ws, hv, hw => by
    simp only [ReadsL] at hv hw
    rw [reads_inj v w hv.1 hw.1, readsL_inj vs ws hv.2 hw.2]
theorem readsE_inj {h : Heap} : ∀ {ps : List (Bytes × Ptr)} (vs ws : List (Bytes × Val)), ReadsE h ps vs → ReadsE h ps ws → vs = ws
  | [], [], [], _, _ => rfl
  | [], [], _ :: _, _, hw => by simp [ReadsE] at hw
  | [], _ :: _, _, hv, _ => by simp [ReadsE] at hv
  | _ :: _, [], _, hv, _ => by simp [ReadsE] at hv
  | _ :: _, _ :: _, [], _, hw => by simp [ReadsE] at hw
  | (k, p) :: ps, (k1, v) :: vs, (k2, w) :: ws, hv, hw => by
    simp only [ReadsE] at hv hw
    rw [reads_inj v w hv.2.1 hw.2.1, readsE_inj vs ws hv.2.2 hw.2.2, ← hv.1, ← hw.1]
end

end Sawmill
