import Verif.Lemmas.HeapCopy
/-!
# Reading through pointers when parts of the event may be shared
-/

namespace Sawmill
open ATree

theorem readsE_lookup {h : Heap} {ps : List (Bytes × Ptr)} {es : List (Bytes × Val)} (hr : ReadsE h ps es) (k : Bytes) :
    (AMap.lookup ps k = none ∧ AMap.lookup es k = none) ∨ ∃ p v, AMap.lookup ps k = some p ∧ AMap.lookup es k = some v ∧ Reads h p v := by
  induction ps generalizing es with
  | nil => cases es with
    | nil => exact .inl ⟨rfl, rfl⟩
    | cons e es => simp [ReadsE] at hr
  | cons q ps ih =>
    obtain ⟨k', p⟩ := q
    cases es with
    | nil => simp [ReadsE] at hr
    | cons e es =>
      obtain ⟨k2, v⟩ := e
      simp only [ReadsE] at hr
      obtain ⟨rfl, h1, h2⟩ := hr
      simp only [AMap.lookup]
      split
      · exact .inr ⟨p, v, rfl, rfl, h1⟩
      · exact ih h2

theorem readsE_nil {h : Heap} {es : List (Bytes × Val)} : ReadsE h [] es ↔ es = [] := by
  cases es <;> simp [ReadsE]

theorem readsE_ne {h : Heap} {ps : List (Bytes × Ptr)} {es : List (Bytes × Val)} (hr : ReadsE h ps es) : ps = [] ↔ es = [] := by
  cases ps with
  | nil => simp [readsE_nil.1 hr]
  | cons p ps => cases es with
    | nil => simp [ReadsE] at hr
    | cons e es => simp

/-- Reading at a path gives a pointer to what the contents hold there. -/
theorem getLoop_reads {h : Heap} (path : List Bytes) (hp : path ≠ []) {m : Nat} {ps : AMap Ptr} {es : AMap Val} (hm : h[m]? = some (.map ps)) (hr : ReadsE h ps es) :
    match Spec.get es path with
    | .panic => getLoop h (some m) path = .panic
    | .ok v => ∃ p, getLoop h (some m) path = .ok p ∧ Reads h p v := by
  induction path generalizing m ps es with
  | nil => exact absurd rfl hp
  | cons k ks ih =>
    cases ks with
    | nil =>
      simp only [Spec.get, getLoop, mapOf, hm]
      rcases readsE_lookup hr k with ⟨h1, h2⟩ | ⟨p, v, h1, h2, h3⟩
      · rw [h1, h2]; exact ⟨none, rfl, by simp [Reads]⟩
      · rw [h1, h2]; exact ⟨p, rfl, h3⟩
    | cons k2 ks =>
      simp only [Spec.get]
      rcases readsE_lookup hr k with ⟨h1, h2⟩ | ⟨p, v, h1, h2, h3⟩
      · simp only [h2, getLoop, mapOf, hm, h1]; exact ⟨none, rfl, by simp [Reads]⟩
      · simp only [h2]
        have key : ∀ c, deref h p = some c → mapOf h c.object = [] → ∃ q, getLoop h (some m) (k :: k2 :: ks) = .ok q ∧ Reads h q .nilp := by
          intro c hd hc
          exact ⟨none, by simp [getLoop, show mapOf h (some m) = ps by simp [mapOf, hm], h1, hd, hc], by simp [Reads]⟩
        cases v with
        | nilp =>
          simp only [Reads] at h3; subst h3
          simp [getLoop, mapOf, hm, h1, deref]
        | scalar s =>
          simp only [Reads] at h3
          exact key _ h3 (by cases s <;> simp [scalarCell, nullCell, boolCell, intCell, uintCell, floatCell, strCell, tsCell, mapOf])
        | arrNil => simp only [Reads] at h3; exact key _ h3 (by simp [arrCell, mapOf])
        | arr vs => simp only [Reads] at h3; obtain ⟨_, h3, _⟩ := h3; exact key _ h3 (by simp [arrCell, mapOf])
        | objNil => simp only [Reads] at h3; exact key _ h3 (by simp [objCell, mapOf])
        | obj es1 =>
          simp only [Reads] at h3
          obtain ⟨m1, ps1, h3, h4, h5⟩ := h3
          have := ih (by simp) h4 h5
          by_cases he : ps1 = []
          · have hes := (readsE_ne h5).1 he
            subst hes
            have : Spec.get ([] : AMap Val) (k2 :: ks) = .ok .nilp := by cases ks <;> simp [Spec.get]
            simp only [this]
            exact key _ h3 (by simp [objCell, mapOf, h4, he])
          · rw [getLoop_step (p := p) (c := objCell (some m1)) (by simp [mapOf, hm, h1]) h3 (by simp [objCell, mapOf, h4, he])]
            exact this

theorem get_append {es es1 : AMap Val} (src : List Bytes) (k : Bytes) (ks : List Bytes) (hs : src ≠ []) (hg : Spec.get es src = .ok (.obj es1)) :
    Spec.get es (src ++ k :: ks) = Spec.get es1 (k :: ks) := by
  induction src generalizing es with
  | nil => exact absurd rfl hs
  | cons x xs ih =>
    cases xs with
    | nil =>
      simp only [Spec.get, Res.ok.injEq] at hg
      cases hl : AMap.lookup es x with
      | none => simp [hl] at hg
      | some v => simp only [hl, Option.getD_some] at hg; subst hg; simp [Spec.get, hl]
    | cons y ys =>
      simp only [Spec.get] at hg
      simp only [List.cons_append, Spec.get]
      split at hg
      · next es2 hl => exact ih (by simp) hg
      · simp at hg
      · simp at hg

theorem get_size {es : AMap Val} (path : List Bytes) {v : Val} (hg : Spec.get es path = .ok v) (hn : v ≠ .nilp) : sizeOf v < sizeOf es := by
  induction path generalizing es with
  | nil => simp [Spec.get] at hg; exact absurd hg.symm hn
  | cons k ks ih =>
    have hlk : ∀ v', AMap.lookup es k = some v' → sizeOf v' < sizeOf es := by
      intro v' hl
      have := List.sizeOf_lt_of_mem (AMap.mem_of_lookup hl)
      simp at this
      omega
    cases ks with
    | nil =>
      simp only [Spec.get, Res.ok.injEq] at hg
      cases hl : AMap.lookup es k with
      | none => simp [hl] at hg; exact absurd hg.symm hn
      | some v' => simp only [hl, Option.getD_some] at hg; subst hg; exact hlk _ hl
    | cons k2 ks =>
      simp only [Spec.get] at hg
      split at hg
      · next es2 hl => have := ih hg; have := hlk _ hl; simp at this; omega
      · simp at hg
      · simp at hg; exact absurd hg.symm hn

/-- If the pointer at a path below an object is the pointer to that object, nothing finite is read there. -/
theorem no_reads_of_loop {h : Heap} {m a m1 : Nat} {ps : AMap Ptr} (hm : h[m]? = some (.map ps)) (src : List Bytes) (hs : src ≠ []) (k : Bytes) (ks : List Bytes)
    (ha : h[a]? = some (.cell (objCell (some m1)))) (h1 : getLoop h (some m) src = .ok (some a)) (h2 : getLoop h (some m) (src ++ k :: ks) = .ok (some a)) (es : AMap Val) :
    ¬ ReadsE h ps es := by
  intro hr
  have g1 := getLoop_reads src hs hm hr
  have g2 := getLoop_reads (src ++ k :: ks) (by simp) hm hr
  cases hv : Spec.get es src with
  | panic => simp [hv, h1] at g1
  | ok v =>
    simp only [hv, h1, Res.ok.injEq, exists_eq_left'] at g1
    have hobj : ∃ es1, v = .obj es1 := by
      cases v with
      | nilp => simp [Reads] at g1
      | scalar s => simp only [Reads, deref, ha] at g1; cases s <;> simp [scalarCell, objCell, nullCell, boolCell, intCell, uintCell, floatCell, strCell, tsCell] at g1
      | arrNil => simp [Reads, deref, ha, objCell, arrCell] at g1
      | arr vs => simp [Reads, deref, ha, objCell, arrCell] at g1
      | objNil => simp [Reads, deref, ha, objCell] at g1
      | obj es1 => exact ⟨_, rfl⟩
    obtain ⟨es1, rfl⟩ := hobj
    rw [get_append src k ks hs hv] at g2
    cases hv2 : Spec.get es1 (k :: ks) with
    | panic => simp [hv2, h2] at g2
    | ok v2 =>
      simp only [hv2, h2, Res.ok.injEq, exists_eq_left'] at g2
      have := reads_inj _ _ g1 g2
      subst this
      have := get_size _ hv2 (by simp)
      simp at this
      omega

/-- If the pointer at a path of an event is an object around the event's own map, nothing finite is read from the event. -/
theorem no_reads_of_root {h : Heap} {m a : Nat} {ps : AMap Ptr} (hm : h[m]? = some (.map ps)) (path : List Bytes) (hp : path ≠ [])
    (ha : h[a]? = some (.cell (objCell (some m)))) (h2 : getLoop h (some m) path = .ok (some a)) (es : AMap Val) : ¬ ReadsE h ps es := by
  intro hr
  have g2 := getLoop_reads path hp hm hr
  have g1 : Reads h (some a) (.obj es) := by
    simp only [Reads]; exact ⟨m, ps, by simp [deref, ha], hm, hr⟩
  cases hv2 : Spec.get es path with
  | panic => simp [hv2, h2] at g2
  | ok v2 =>
    simp only [hv2, h2, Res.ok.injEq, exists_eq_left'] at g2
    have := reads_inj _ _ g1 g2
    subst this
    have := get_size _ hv2 (by simp)
    simp at this
    omega

/-- `get` in a heap holding trees (shared or not). -/
theorem get_at {h : Heap} {m : Nat} {es : AMap ATree} (hm : h[m]? = some (.map (ptrMap es))) (hr : RepE h es) (path : List Bytes) (hp : path ≠ []) :
    get h (some m) path = (aget es path).map fun t => (h, t.ptr) := by
  simp only [get, mapOf, hm]
  cases path with
  | nil => exact absurd rfl hp
  | cons k ks =>
    by_cases he : es = []
    · subst he
      have : aget [] (k :: ks) = .ok .nilp := by cases ks <;> simp [aget]
      simp [ptrMap, AMap.mapVals, this, ptr]
    · have hl : (ptrMap es).length ≠ 0 := by simp [ptrMap, AMap.mapVals, he]
      simp only [hl, if_false, getLoop_spec _ hm hr, res_map_map]
      rfl

/-- Changing an array struct does not change what is found at a path. -/
theorem getLoop_arr {h h' : Heap} {a : Nat} {p p' : Option (List Ptr)} (fr : Frame [a] h h') (ha : h[a]? = some (.cell (arrCell p))) (ha' : h'[a]? = some (.cell (arrCell p')))
    (path : List Bytes) {m : Nat} {es : AMap ATree} (hm : h[m]? = some (.map (ptrMap es))) (hr : RepE h es) : getLoop h' (some m) path = getLoop h (some m) path := by
  have keep : ∀ (b : Nat) (x : HObj), h[b]? = some x → (∀ q, x ≠ .cell (arrCell q)) → h'[b]? = some x := by
    intro b x hb hx
    refine fr.get hb ?_
    simp only [List.mem_singleton]
    rintro rfl
    rw [ha, Option.some.injEq] at hb
    exact hx _ hb.symm
  induction path generalizing m es with
  | nil => rfl
  | cons k ks ih =>
    have hm' := keep m _ hm (by simp)
    have hme : mapOf h' (some m) = mapOf h (some m) := by simp [mapOf, hm, hm']
    cases ks with
    | nil => simp [getLoop, hme]
    | cons k2 ks =>
      simp only [getLoop, hme]
      have hmp : mapOf h (some m) = ptrMap es := by simp [mapOf, hm]
      rw [hmp, lookup_ptrMap]
      cases hl : AMap.lookup es k with
      | none => rfl
      | some t =>
        have ht := rep_of_lookup hr hl
        have scal : ∀ (b : Nat) (c : Cell), h[b]? = some (.cell c) → c.object = none → (∀ q, c ≠ arrCell q) → t.ptr = some b →
            (match deref h' t.ptr with | none => Res.panic | some c => if (mapOf h' c.object).length = 0 then .ok none else getLoop h' c.object (k2 :: ks)) =
            (match deref h t.ptr with | none => Res.panic | some c => if (mapOf h c.object).length = 0 then .ok none else getLoop h c.object (k2 :: ks)) := by
          intro b c hb hc hq hp
          have := keep b _ hb (by intro q hcq; simp at hcq; exact hq q hcq)
          simp [hp, deref, this, hb, hc, mapOf]
        have arrc : ∀ (b : Nat) (q : Option (List Ptr)), h[b]? = some (.cell (arrCell q)) → t.ptr = some b →
            (match deref h' t.ptr with | none => Res.panic | some c => if (mapOf h' c.object).length = 0 then .ok none else getLoop h' c.object (k2 :: ks)) =
            (match deref h t.ptr with | none => Res.panic | some c => if (mapOf h c.object).length = 0 then .ok none else getLoop h c.object (k2 :: ks)) := by
          intro b q hb hp
          by_cases hba : b = a
          · subst hba
            simp [hp, deref, ha', hb, arrCell, mapOf]
          · have := fr.get hb (by simpa using hba)
            simp [hp, deref, this, hb, arrCell, mapOf]
        simp only [Option.map_some]
        cases t with
        | nilp => simp [ptr, deref]
        | leaf b s =>
          simp only [Rep] at ht
          exact scal b _ ht (by cases s <;> rfl) (by intro q; cases s <;> simp [scalarCell, arrCell, nullCell, boolCell, intCell, uintCell, floatCell, strCell, tsCell]) rfl
        | arrNil b => simp only [Rep] at ht; exact arrc b _ ht rfl
        | arr b vs => simp only [Rep] at ht; exact arrc b _ ht.1 rfl
        | objNil b => simp only [Rep] at ht; exact scal b _ ht rfl (by intro q; simp [objCell, arrCell]) rfl
        | obj b m1 es1 =>
          simp only [Rep] at ht
          have hb := keep b _ ht.1 (by intro q; simp [objCell, arrCell])
          have hm1 := keep m1 _ ht.2.1 (by simp)
          have := ih ht.2.1 ht.2.2.2
          have e1 : mapOf h' (objCell (some m1)).object = mapOf h (objCell (some m1)).object := by simp [mapOf, objCell, hm1, ht.2.1]
          have e2 : getLoop h' (objCell (some m1)).object (k2 :: ks) = getLoop h (objCell (some m1)).object (k2 :: ks) := this
          simp only [ptr, deref, hb, ht.1]
          rw [e1, e2]

/-- A refused `putLoop` changes nothing. -/
theorem putLoop_refused {p : Ptr} (path : List Bytes) {h h' : Heap} {m : Nat} {es : AMap ATree} (o : OwnsMap h m es) (hw : putLoop h (some m) path p = .ok (h', false)) : h' = h := by
  induction path generalizing m es with
  | nil => simp [putLoop] at hw
  | cons k ks ih =>
    cases ks with
    | nil => simp [putLoop, mapWrite, o.at_] at hw
    | cons k2 ks =>
      simp only [putLoop, mapOf, o.at_, lookup_ptrMap] at hw
      cases hl : AMap.lookup es k with
      | none =>
        exfalso
        simp only [hl, Option.map_none, Heap.alloc] at hw
        have hml := lt_of_getElem? o.at_
        simp only [mapWrite] at hw
        rw [List.getElem?_append_left (by simp; omega), List.getElem?_append_left hml, o.at_] at hw
        simp only at hw
        refine putLoop_empty _ ?_ hw
        rw [List.getElem?_set_ne (by omega), List.getElem?_append_left (by simp)]
        simp
      | some t0 =>
        have hr := rep_of_lookup o.rep hl
        have bad : ∀ (c : Cell) (a : Nat), t0.ptr = some a → h[a]? = some (.cell c) → c.type ≠ .object → h' = h := by
          intro c a h1 h2 h3
          simp [hl, h1, deref, h2, h3] at hw
          exact hw.symm
        cases t0 with
        | nilp => simp [hl, ptr, deref] at hw
        | leaf b s => simp only [Rep] at hr; exact (bad _ b rfl hr (by cases s <;> simp [scalarCell, nullCell, boolCell, intCell, uintCell, floatCell, strCell, tsCell]))
        | arrNil b => simp only [Rep] at hr; exact (bad _ b rfl hr (by simp [arrCell]))
        | arr b vs => simp only [Rep] at hr; exact (bad _ b rfl hr.1 (by simp [arrCell]))
        | objNil b =>
          simp only [Rep] at hr
          simp only [hl, Option.map_some, ptr, deref, hr, objCell, ne_eq, not_true_eq_false, if_false] at hw
          cases ks <;> simp [putLoop, mapWrite, mapOf] at hw
        | obj b m1 es1 =>
          simp only [Rep] at hr
          simp only [hl, Option.map_some, ptr, deref, hr.1, objCell, ne_eq, not_true_eq_false, if_false] at hw
          exact ih (o.sub hl) hw

/-- A `putLoop` that succeeds went through objects, or names that did not exist, only. -/
theorem putLoop_through {p : Ptr} (src : List Bytes) (k : Bytes) (ks : List Bytes) {h h' : Heap} {m : Nat} {es : AMap ATree} (o : OwnsMap h m es)
    (hw : putLoop h (some m) (src ++ k :: ks) p = .ok (h', true)) : aget es src = .ok .nilp ∨ ∃ a m1 es1, aget es src = .ok (.obj a m1 es1) := by
  induction src generalizing m es with
  | nil => simp [aget]
  | cons x xs ih =>
    have hw' : putLoop h (some m) (x :: (xs ++ k :: ks)) p = .ok (h', true) := hw
    obtain ⟨y, ys, hy⟩ : ∃ y ys, xs ++ k :: ks = y :: ys := by cases xs <;> simp
    rw [hy] at hw'
    simp only [putLoop, mapOf, o.at_, lookup_ptrMap] at hw'
    cases hl : AMap.lookup es x with
    | none => left; cases xs <;> simp [aget, hl]
    | some t0 =>
      have hr := rep_of_lookup o.rep hl
      have bad : ∀ (c : Cell) (a : Nat), t0.ptr = some a → h[a]? = some (.cell c) → c.type ≠ .object → False := by
        intro c a h1 h2 h3
        simp [hl, h1, deref, h2, h3] at hw'
      cases t0 with
      | nilp => simp [hl, ptr, deref] at hw'
      | leaf b s => simp only [Rep] at hr; exact (bad _ b rfl hr (by cases s <;> simp [scalarCell, nullCell, boolCell, intCell, uintCell, floatCell, strCell, tsCell])).elim
      | arrNil b => simp only [Rep] at hr; exact (bad _ b rfl hr (by simp [arrCell])).elim
      | arr b vs => simp only [Rep] at hr; exact (bad _ b rfl hr.1 (by simp [arrCell])).elim
      | objNil b =>
        simp only [Rep] at hr
        simp only [hl, Option.map_some, ptr, deref, hr, objCell, ne_eq, not_true_eq_false, if_false] at hw'
        cases ys <;> simp [putLoop, mapWrite, mapOf] at hw'
      | obj b m1 es1 =>
        simp only [Rep] at hr
        simp only [hl, Option.map_some, ptr, deref, hr.1, objCell, ne_eq, not_true_eq_false, if_false] at hw'
        rw [← hy] at hw'
        cases xs with
        | nil => right; simp [aget, hl]
        | cons y2 ys2 => simp only [aget, hl]; exact ih (o.sub hl) hw'

end Sawmill
