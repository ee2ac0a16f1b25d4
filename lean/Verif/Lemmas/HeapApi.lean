import Verif.Lemmas.HeapRep
/-!
# The event API on owned events refines the nested-map specification
-/

namespace Sawmill
open ATree

/-- `Spec.get` on annotated trees. -/
def aget (m : AMap ATree) : List Bytes → Res ATree
  | [] => .ok .nilp
  | [k] => .ok ((m.lookup k).getD .nilp)
  | k :: ks =>
    match m.lookup k with
    | some (.obj _ _ es) => aget es ks
    | some .nilp => .panic
    | _ => .ok .nilp

/-- `Spec.store` on annotated trees; `n` is the next free address. -/
def astore (n : Nat) (m : AMap ATree) : List Bytes → ATree → Res (Option (AMap ATree))
  | [], _ => .ok (some m)
  | [k], v => .ok (some (m.insert k v))
  | k :: ks, v =>
    match m.lookup k with
    | none => (astore (n + 2) [] ks v).map (·.map fun es => m.insert k (.obj (n + 1) n es))
    | some (.obj a m' es) => (astore n es ks v).map (·.map fun es' => m.insert k (.obj a m' es'))
    | some .nilp => .panic
    | some (.objNil _) => .panic
    | some _ => .ok none

theorem res_map_map {α β γ : Type} (f : α → β) (g : β → γ) (r : Res α) : (r.map f).map g = r.map (g ∘ f) := by
  cases r <;> rfl

theorem aget_erase (es : AMap ATree) (path : List Bytes) :
    Spec.get (eraseE es) path = (aget es path).map ATree.erase := by
  induction path generalizing es with
  | nil => simp [Spec.get, aget, ATree.erase]
  | cons k ks ih =>
    cases ks with
    | nil =>
      simp only [Spec.get, aget, eraseE_eq, AMap.lookup_mapVals]
      cases AMap.lookup es k <;> simp [ATree.erase]
    | cons k2 ks =>
      simp only [Spec.get, aget]
      rw [eraseE_eq, AMap.lookup_mapVals]
      cases hl : AMap.lookup es k with
      | none => simp [ATree.erase]
      | some t =>
        cases t <;> simp [ATree.erase]
        exact ih _

theorem astore_erase (n : Nat) (es : AMap ATree) (path : List Bytes) (t : ATree) :
    Spec.store (eraseE es) path t.erase = (astore n es path t).map (·.map eraseE) := by
  induction path generalizing n es with
  | nil => simp [Spec.store, astore]
  | cons k ks ih =>
    cases ks with
    | nil => simp [Spec.store, astore, eraseE_eq, AMap.mapVals_insert]
    | cons k2 ks =>
      simp only [Spec.store, astore]
      rw [eraseE_eq es, AMap.lookup_mapVals]
      cases hl : AMap.lookup es k with
      | none =>
        have := ih (n + 2) []
        simp only [eraseE] at this
        simp only [Option.map_none, this, res_map_map]
        congr 1
        funext o
        cases o <;> simp [eraseE_eq, AMap.mapVals_insert, ATree.erase]
      | some t' =>
        cases t' <;> simp [ATree.erase]
        case obj a m' es' =>
          simp only [ih n es', res_map_map]
          congr 1
          funext o
          cases o <;> simp [eraseE_eq, AMap.mapVals_insert, ATree.erase]

theorem lookup_ptrMap (es : AMap ATree) (k : Bytes) : (ptrMap es).lookup k = (es.lookup k).map ptr :=
  AMap.lookup_mapVals _ _ _

theorem rep_of_lookup {h : Heap} {es : AMap ATree} {k : Bytes} {t : ATree} (hr : RepE h es) (hl : es.lookup k = some t) :
    Rep h t := repE_iff.1 hr _ (AMap.mem_of_lookup hl)

theorem getLoop_spec {h : Heap} {m : Nat} {es : AMap ATree} (path : List Bytes)
    (hm : h[m]? = some (.map (ptrMap es))) (hr : RepE h es) :
    getLoop h (some m) path = (aget es path).map ptr := by
  induction path generalizing m es with
  | nil => simp [getLoop, aget, ptr]
  | cons k ks ih =>
    cases ks with
    | nil =>
      simp only [getLoop, aget, mapOf, hm, lookup_ptrMap]
      cases AMap.lookup es k <;> simp [ptr]
    | cons k2 ks =>
      simp only [getLoop, aget, mapOf, hm, lookup_ptrMap]
      cases hl : AMap.lookup es k with
      | none => simp [ptr]
      | some t =>
        have ht := rep_of_lookup hr hl
        cases t with
        | nilp => simp [ptr, deref]
        | leaf a s =>
          simp only [Rep] at ht
          simp only [ptr, Option.map_some, deref, ht]
          have : (scalarCell s).object = none := by cases s <;> rfl
          simp [this, ptr]
        | arrNil a => simp only [Rep] at ht; simp [ptr, deref, ht, arrCell]
        | arr a vs => simp only [Rep] at ht; simp [ptr, deref, ht, arrCell]
        | objNil a => simp only [Rep] at ht; simp [ptr, deref, ht, objCell]
        | obj a m' es' =>
          simp only [Rep] at ht
          simp only [ptr, Option.map_some, deref, ht.1, objCell, ht.2.1]
          cases es' with
          | nil =>
            simp only [ptrMap, AMap.mapVals, List.map_nil, List.length_nil, if_true]
            cases ks <;> simp [aget, ptr]
          | cons e es' =>
            simp only [ptrMap, AMap.mapVals, List.map_cons, List.length_cons, Nat.add_eq_zero_iff, Nat.succ_ne_self, and_false, if_false]
            exact ih ht.2.1 ht.2.2.2

theorem aget_sub {h : Heap} {es : AMap ATree} {path : List Bytes} {t : ATree} (hr : RepE h es)
    (hg : aget es path = .ok t) : Rep h t ∧ ∀ a ∈ t.fp, a ∈ fpE es := by
  induction path generalizing es with
  | nil => simp [aget] at hg; subst hg; simp [Rep, fp]
  | cons k ks ih =>
    cases ks with
    | nil =>
      simp only [aget, Res.ok.injEq] at hg
      cases hl : AMap.lookup es k with
      | none => simp [hl] at hg; subst hg; simp [Rep, fp]
      | some t' =>
        simp [hl] at hg
        subst hg
        exact ⟨rep_of_lookup hr hl, fun a ha => mem_fpE (AMap.mem_of_lookup hl) ha⟩
    | cons k2 ks =>
      simp only [aget] at hg
      cases hl : AMap.lookup es k with
      | none => simp [hl] at hg; subst hg; simp [Rep, fp]
      | some t' =>
        have ht := rep_of_lookup hr hl
        cases t' <;> simp [hl] at hg
        case obj a m' es' =>
          simp only [Rep] at ht
          have := ih ht.2.2.2 hg
          exact ⟨this.1, fun x hx => mem_fpE (AMap.mem_of_lookup hl) (by simp [fp, this.2 x hx])⟩
        all_goals subst hg; simp [Rep, fp]

/-- Ownership of a map at an address. -/
structure OwnsMap (h : Heap) (m : Nat) (es : AMap ATree) : Prop where
  at_ : h[m]? = some (.map (ptrMap es))
  sorted : AMap.Sorted es
  rep : RepE h es
  nodup : (m :: fpE es).Nodup

theorem OwnsMap.thaw {h : Heap} {m : Nat} {es : AMap ATree} (o : OwnsMap h m es) : ∀ a ∈ m :: fpE es, ¬ Frozen h a := by
  intro a ha
  simp only [List.mem_cons] at ha
  rcases ha with rfl | ha
  · rintro ⟨c, h1, _⟩; rw [o.at_] at h1; simp at h1
  · exact fpE_mut es o.rep a ha

theorem OwnsMap.lt {h : Heap} {m : Nat} {es : AMap ATree} (o : OwnsMap h m es) : ∀ a ∈ m :: fpE es, a < h.length := by
  intro a ha
  simp only [List.mem_cons] at ha
  rcases ha with rfl | ha
  · exact lt_of_getElem? o.at_
  · exact fpE_lt es o.rep a ha

theorem frame_set {h : Heap} {m : Nat} {es ps : AMap Ptr} (hm : h[m]? = some (.map es)) :
    Frame [m] h (h.set m (.map ps)) where
  len := by simp
  same := fun a _ hS => by
    simp only [List.mem_singleton] at hS
    exact List.getElem?_set_ne (fun e => hS e.symm)
  thaw := by
    intro a ha
    simp only [List.mem_singleton] at ha
    subst ha
    rintro ⟨c, h1, _⟩; rw [hm] at h1; simp at h1

theorem frame_alloc (h : Heap) (l : List HObj) : Frame [] h (h ++ l) where
  len := by simp
  same := fun a ha _ => List.getElem?_append_left ha
  thaw := by simp

theorem Frame.mono {S T : List Nat} {h h' : Heap} (f : Frame S h h') (hs : ∀ a ∈ S, a ∈ T) (ht : ∀ a ∈ T, ¬ Frozen h a) :
    Frame T h h' :=
  ⟨f.len, fun a ha hT => f.same a ha (fun hS => hT (hs a hS)), ht⟩

/-- Composition; the second step may also touch addresses that are new in `h'`. -/
theorem Frame.trans {S T : List Nat} {h h' h'' : Heap} (f : Frame S h h') (g : Frame T h' h'')
    (hT : ∀ a ∈ T, a ∈ S ∨ h.length ≤ a) : Frame S h h'' :=
  ⟨Nat.le_trans f.len g.len, fun a ha hS => by
    have hT' : a ∉ T := fun hin => by
      rcases hT a hin with h1 | h1
      · exact hS h1
      · omega
    rw [g.same a (Nat.lt_of_lt_of_le ha f.len) hT', f.same a ha hS], f.thaw⟩

theorem mapWrite_owned {h : Heap} {m : Nat} {es : AMap ATree} {k : Bytes} {t : ATree}
    (o : OwnsMap h m es) (ht : Rep h t) (hd : t.fp.Nodup) (hdis : ∀ a ∈ t.fp, a ∉ m :: fpE es) :
    ∃ h', mapWrite h (some m) k t.ptr = .ok h' ∧ h' = h.set m (.map (ptrMap (es.insert k t))) ∧ OwnsMap h' m (es.insert k t) ∧
      (∀ a ∈ fpE (es.insert k t), a ∈ fpE es ∨ a ∈ t.fp) ∧ Frame [m] h h' := by
  have hf : Frame [m] h (h.set m (.map (ptrMap (es.insert k t)))) := frame_set o.at_
  have hmem : ∀ a ∈ fpE (es.insert k t), a ∈ fpE es ∨ a ∈ t.fp := by
    intro a ha
    obtain ⟨e, he, ha⟩ := mem_fpE_iff.1 ha
    rcases AMap.mem_insert' he with rfl | he
    · exact .inr ha
    · exact .inl (mem_fpE_iff.2 ⟨e, he, ha⟩)
  have hml : m < h.length := lt_of_getElem? o.at_
  refine ⟨_, by simp [mapWrite, o.at_, ptrMap, AMap.mapVals_insert], rfl, ⟨?_, AMap.sorted_insert k t o.sorted, ?_, ?_⟩, hmem, hf⟩
  · simp [List.getElem?_set_self hml]
  · rw [repE_iff]
    intro e he
    have hnm : ∀ t', (∃ k, (k, t') ∈ es) → ∀ a ∈ t'.fp, a ∉ [m] := by
      rintro t' ⟨k, hk⟩ a ha hm
      simp only [List.mem_singleton] at hm
      subst hm
      exact (List.nodup_cons.1 o.nodup).1 (mem_fpE hk ha)
    rcases AMap.mem_insert' he with rfl | he
    · exact rep_frame hf _ ht (fun a ha hm => hdis a ha (by simp only [List.mem_singleton] at hm; simp [hm]))
    · exact rep_frame hf _ (repE_iff.1 o.rep e he) (hnm e.2 ⟨e.1, he⟩)
  · have hn := o.nodup
    rw [List.nodup_cons] at hn ⊢
    refine ⟨fun hm => ?_, ?_⟩
    · rcases hmem m hm with h1 | h1
      · exact hn.1 h1
      · exact hdis m h1 (by simp)
    · cases hl : AMap.lookup es k with
      | none =>
        obtain ⟨l, r, h1, h2⟩ := AMap.split_none hl
        rw [h2 t, fpE_append, fpE]
        rw [h1, fpE_append] at hn hdis
        simp only [List.nodup_append, List.mem_cons, List.mem_append, not_or] at hn hdis ⊢
        grind
      | some t0 =>
        obtain ⟨l, r, h1, h2, _⟩ := AMap.split_some o.sorted hl
        rw [h2 t, fpE_append, fpE]
        rw [h1, fpE_append, fpE] at hn hdis
        simp only [List.nodup_append, List.mem_cons, List.mem_append, not_or] at hn hdis ⊢
        grind

/-- The subtree found under a name is owned, and apart from the rest. -/
theorem OwnsMap.sub {h : Heap} {m a m' : Nat} {es es' : AMap ATree} {k : Bytes} (o : OwnsMap h m es)
    (hl : es.lookup k = some (.obj a m' es')) : OwnsMap h m' es' := by
  have ht := rep_of_lookup o.rep hl
  simp only [Rep] at ht
  refine ⟨ht.2.1, ht.2.2.1, ht.2.2.2, ?_⟩
  obtain ⟨l, r, h1, _, _⟩ := AMap.split_some o.sorted hl
  have hn := o.nodup
  rw [h1, fpE_append, fpE, fp] at hn
  simp only [List.nodup_cons, List.nodup_append] at hn
  rw [List.nodup_cons]
  exact hn.2.2.1.1

/-- Replacing the contents of an owned sub-object. -/
theorem OwnsMap.replace {h h' : Heap} {m a m' : Nat} {es es1 es2 : AMap ATree} {k : Bytes} (o : OwnsMap h m es)
    (hl : es.lookup k = some (.obj a m' es1)) (o' : OwnsMap h' m' es2) (f : Frame (m' :: fpE es1) h h')
    (hnew : ∀ x ∈ fpE es2, x ∈ fpE es1 ∨ x ∉ m :: fpE es) :
    OwnsMap h' m (es.insert k (.obj a m' es2)) := by
  obtain ⟨l, r, h1, h2, _⟩ := AMap.split_some o.sorted hl
  have hn := o.nodup
  have ht := rep_of_lookup o.rep hl
  simp only [Rep] at ht
  have hcell : h'[a]? = some (.cell (objCell (some m'))) := f.getFrozen ht.1 (by simp [objCell])
  have hnm : m ∉ m' :: fpE es1 := by
    rw [h1, fpE_append, fpE, fp] at hn
    intro hc
    exact (List.nodup_cons.1 hn).1 (by simp only [List.mem_append]; exact .inr (.inl hc))
  refine ⟨?_, AMap.sorted_insert _ _ o.sorted, ?_, ?_⟩
  · rw [f.get o.at_ hnm]
    have : AMap.insert (ptrMap es) k (some a) = ptrMap es :=
      AMap.insert_lookup_self (AMap.sorted_mapVals o.sorted) (by rw [lookup_ptrMap, hl]; rfl)
    simp only [ptrMap, AMap.mapVals_insert, ptr]
    rw [show AMap.mapVals ptr es = ptrMap es from rfl, this]
  · have hr := o.rep
    rw [h2, repE_iff]
    rw [h1, repE_iff] at hr
    intro e he
    simp only [List.mem_append, List.mem_cons] at he hr
    have other : ∀ e, (e ∈ l ∨ e ∈ r) → Rep h' e.2 := by
      intro e hel
      refine rep_frame f _ (hr e (by rcases hel with h3 | h3 <;> simp [h3])) ?_
      intro x hx hc
      rw [h1, fpE_append, fpE, fp] at hn
      have : x ∈ fpE l ∨ x ∈ fpE r := by
        rcases hel with h3 | h3
        · exact .inl (mem_fpE_iff.2 ⟨e, h3, hx⟩)
        · exact .inr (mem_fpE_iff.2 ⟨e, h3, hx⟩)
      simp only [List.nodup_cons, List.nodup_append, List.mem_append] at hn
      grind
    rcases he with he | rfl | he
    · exact other e (.inl he)
    · simp only [Rep]
      exact ⟨hcell, o'.at_, o'.sorted, o'.rep⟩
    · exact other e (.inr he)
  · have hn' := o'.nodup
    rw [h2, fpE_append, fpE, fp]
    rw [h1, fpE_append, fpE, fp] at hn hnew
    simp only [List.nodup_cons, List.nodup_append, List.mem_append, List.mem_cons] at hn hn' hnew ⊢
    grind

/-- The maps on the way to a path (the only ones a store can write to). -/
def touched (m : Nat) (es : AMap ATree) : List Bytes → List Nat
  | [] => [m]
  | k :: ks => m :: (match ks, es.lookup k with
    | _ :: _, some (.obj _ m' es') => touched m' es' ks
    | _, _ => [])

theorem touched_obj {m a m' : Nat} {es es' : AMap ATree} {k k2 : Bytes} {ks : List Bytes}
    (hl : es.lookup k = some (.obj a m' es')) : touched m es (k :: k2 :: ks) = m :: touched m' es' (k2 :: ks) := by
  rw [touched.eq_def]
  simp only [hl]

theorem touched_sub (path : List Bytes) (m : Nat) (es : AMap ATree) : ∀ a ∈ touched m es path, a ∈ m :: fpE es := by
  induction path generalizing m es with
  | nil => simp [touched]
  | cons k ks ih =>
    intro a ha
    simp only [touched, List.mem_cons] at ha ⊢
    rcases ha with ha | ha
    · exact .inl ha
    · split at ha
      · next hl =>
        exact .inr (mem_fpE (AMap.mem_of_lookup hl) (by simpa [fp] using ih _ _ a ha))
      · simp at ha

/-- The value at a path shares nothing with the maps on the way to it. -/
theorem touched_disjoint {h : Heap} (path : List Bytes) {m : Nat} {es : AMap ATree} (o : OwnsMap h m es) {t : ATree}
    (hg : aget es path = .ok t) : ∀ a ∈ t.fp, a ∉ touched m es path := by
  induction path generalizing m es with
  | nil => simp [aget] at hg; subst hg; simp [fp]
  | cons k ks ih =>
    have hs := aget_sub o.rep hg
    have hm := (List.nodup_cons.1 o.nodup).1
    intro a ha hc
    simp only [touched, List.mem_cons] at hc
    rcases hc with hc | hc
    · exact hm (hc ▸ hs.2 a ha)
    · split at hc
      · next hl =>
        simp only [aget, hl] at hg
        exact ih (o.sub hl) hg a ha hc
      · simp at hc

/-- `putLoop` on an owned map does what `astore` says, and touches nothing else. -/
theorem putLoop_spec {t : ATree} (path : List Bytes) (hp : path ≠ []) {h : Heap} {m : Nat} {es : AMap ATree}
    (o : OwnsMap h m es) (ht : Rep h t) (hd : t.fp.Nodup) (hdis : ∀ a ∈ t.fp, a ∉ m :: fpE es) :
    match astore h.length es path t with
    | .panic => putLoop h (some m) path t.ptr = .panic
    | .ok none => putLoop h (some m) path t.ptr = .ok (h, false)
    | .ok (some es') => ∃ h', putLoop h (some m) path t.ptr = .ok (h', true) ∧ OwnsMap h' m es' ∧
        (∀ a ∈ fpE es', a ∈ fpE es ∨ a ∈ t.fp ∨ h.length ≤ a) ∧ Frame (touched m es path) h h' := by
  induction path generalizing h m es with
  | nil => exact absurd rfl hp
  | cons k ks ih =>
    cases ks with
    | nil =>
      simp only [astore, putLoop]
      obtain ⟨h', e1, _, e2, e3, e4⟩ := mapWrite_owned (k := k) o ht hd hdis
      refine ⟨h', by rw [e1]; rfl, e2, fun a ha => ?_, by simpa [touched] using e4⟩
      rcases e3 a ha with h1 | h1 <;> simp [h1]
    | cons k2 ks =>
      simp only [astore, putLoop, mapOf, o.at_, lookup_ptrMap]
      cases hl : AMap.lookup es k with
      | none =>
        simp only [Option.map_none, Heap.alloc]
        -- the heap with the fresh map and object
        let h2 : Heap := (h ++ [HObj.map []]) ++ [HObj.cell (objCell (some h.length))]
        have e2 : h2 = h ++ [HObj.map [], HObj.cell (objCell (some h.length))] := by simp [h2]
        have hlen : (h ++ [HObj.map []]).length = h.length + 1 := by simp
        have f2 : Frame [] h h2 := by rw [e2]; exact frame_alloc h _
        have o2 : OwnsMap h2 m es :=
          ⟨f2.get o.at_ (by simp), o.sorted, repE_frame f2 es o.rep (by simp), o.nodup⟩
        let t2 : ATree := .obj (h.length + 1) h.length []
        have ht2 : Rep h2 t2 := by
          simp only [t2, Rep, e2]
          refine ⟨by simp, by simp [ptrMap, AMap.mapVals], AMap.sorted_nil, by simp [RepE]⟩
        have hlt := o.lt
        obtain ⟨h3, w1, w2, w3, w4, w5⟩ := mapWrite_owned (k := k) (t := t2) o2 ht2 (by simp [t2, fp, fpE]) (by
          intro a ha hc
          simp only [t2, fp, fpE, List.mem_singleton] at ha
          have := hlt a hc
          omega)
        rw [hlen]
        have w1' : mapWrite h2 (some m) k (some (h.length + 1)) = .ok h3 := w1
        rw [show (h ++ [HObj.map []]) ++ [HObj.cell (objCell (some h.length))] = h2 from rfl, w1']
        have hne : m ≠ h.length := by have := lt_of_getElem? o.at_; omega
        have o3 : OwnsMap h3 h.length [] := by
          refine ⟨?_, AMap.sorted_nil, by simp [RepE], by simp [fpE]⟩
          rw [w5.get (a := h.length) (o := .map []) (by rw [e2]; simp) (by simpa using Ne.symm hne)]
          rfl
        have ht3 : Rep h3 t := by
          refine rep_frame w5 t (rep_frame f2 t ht (by simp)) ?_
          intro a ha hm
          simp only [List.mem_singleton] at hm
          exact hdis a ha (by simp [hm])
        have hl3 : h3.length = h.length + 2 := by rw [w2, e2]; simp
        have htl := fp_lt t ht
        have := ih (by simp) o3 ht3 (by
          intro a ha hc
          simp only [fpE, List.mem_singleton] at hc
          have := htl a ha
          omega)
        rw [hl3] at this
        cases hr : astore (h.length + 2) [] (k2 :: ks) t with
        | panic => simp only [hr] at this; simp [Res.map, this]
        | ok r =>
          cases r with
          | none =>
            -- cannot happen: storing below an empty map always succeeds
            exfalso
            have key : ∀ (p : List Bytes) (n : Nat), astore n [] p t ≠ .ok none := by
              intro p
              induction p with
              | nil => intro n; simp [astore]
              | cons x xs ihx =>
                intro n
                cases xs with
                | nil => simp [astore]
                | cons y ys =>
                  simp only [astore, AMap.lookup_nil]
                  intro hc
                  have h4 := ihx (n + 2)
                  cases h5 : astore (n + 2) [] (y :: ys) t with
                  | panic => simp [h5] at hc
                  | ok r => cases r with
                    | none => exact h4 h5
                    | some z => simp [h5] at hc
            exact key _ _ hr
          | some es3 =>
            simp only [hr] at this
            obtain ⟨h', p1, p2, p3, p4⟩ := this
            simp only [Res.map_ok, Option.map_some]
            have hlk : (es.insert k t2).lookup k = some (.obj (h.length + 1) h.length []) := by simp [t2]
            have p4' : Frame (h.length :: fpE []) h3 h' := p4.mono (touched_sub _ _ _) o3.thaw
            have hrep := w3.replace hlk p2 p4' (by
              intro x hx
              rcases p3 x hx with h5 | h5 | h5
              · simp [fpE] at h5
              · right
                intro hc
                simp only [List.mem_cons] at hc
                rcases hc with hc | hc
                · exact hdis x h5 (by simp [hc])
                · rcases w4 x hc with h6 | h6
                  · exact hdis x h5 (by simp [h6])
                  · simp only [t2, fp, fpE, List.mem_singleton] at h6
                    have := htl x h5
                    omega
              · right
                intro hc
                have := w3.lt x hc
                omega)
            have hins : (es.insert k t2).insert k (.obj (h.length + 1) h.length es3) = es.insert k (.obj (h.length + 1) h.length es3) := by
              obtain ⟨l, r, q1, q2⟩ := AMap.split_none hl
              have hs := AMap.sorted_insert k t2 o.sorted
              apply AMap.ext (AMap.sorted_insert _ _ hs) (AMap.sorted_insert _ _ o.sorted)
              intro q
              simp only [AMap.lookup_insert]
              split <;> rfl
            rw [hins] at hrep
            refine ⟨h', p1, hrep, ?_, ?_⟩
            · intro a ha
              rw [← hins] at ha
              obtain ⟨e, he, ha⟩ := mem_fpE_iff.1 ha
              rcases AMap.mem_insert' he with rfl | he
              · simp only [fp, List.mem_cons] at ha
                rcases ha with rfl | ha
                · simp
                · rcases p3 a ha with h5 | h5 | h5
                  · simp [fpE] at h5
                  · simp [h5]
                  · right; right; omega
              · rcases w4 a (mem_fpE_iff.2 ⟨e, he, ha⟩) with h6 | h6
                · simp [h6]
                · simp only [t2, fp, fpE, List.mem_singleton] at h6
                  right; right; omega
            · have f3 : Frame (touched m es (k :: k2 :: ks)) h h3 := by
                have := f2.mono (T := touched m es (k :: k2 :: ks)) (by simp) (fun a ha => o.thaw a (touched_sub _ _ _ a ha))
                exact this.trans w5 (by simp [touched])
              exact f3.trans p4' (by simp [fpE])
      | some t' =>
        have htr := rep_of_lookup o.rep hl
        cases t' with
        | nilp => simp [ptr, deref]
        | leaf a s =>
          simp only [Rep] at htr
          have hc : (scalarCell s).type ≠ .object := by
            cases s <;> simp [scalarCell, nullCell, boolCell, intCell, uintCell, floatCell, strCell, tsCell]
          simp [ptr, deref, htr, hc]
        | arrNil a => simp only [Rep] at htr; simp [ptr, deref, htr, arrCell]
        | arr a vs => simp only [Rep] at htr; simp [ptr, deref, htr, arrCell]
        | objNil a =>
          simp only [Rep] at htr
          simp only [ptr, deref, Option.map_some, htr, objCell, ne_eq, not_true_eq_false, if_false]
          cases ks <;> simp [putLoop, mapWrite, mapOf]
        | obj a m' es' =>
          have htr' := htr
          simp only [Rep] at htr
          have hq : (ATree.obj a m' es').ptr = some a := rfl
          simp only [hq, deref, Option.map_some, htr.1, objCell, ne_eq, not_true_eq_false, if_false]
          have hsub : ∀ x ∈ m' :: fpE es', x ∈ fpE es := fun x hx =>
            mem_fpE (AMap.mem_of_lookup hl) (by simpa [fp] using hx)
          have := ih (by simp) (o.sub hl) ht (fun a ha hc => hdis a ha (by simp [hsub a hc]))
          cases hr : astore h.length es' (k2 :: ks) t with
          | panic => simp only [hr] at this; simpa using this
          | ok r =>
            cases r with
            | none => simp only [hr] at this; simpa using this
            | some es3 =>
              simp only [hr] at this
              obtain ⟨h', p1, p2, p3, p4⟩ := this
              simp only [Res.map_ok, Option.map_some]
              have hrep := o.replace hl p2 (p4.mono (touched_sub _ _ _) (o.sub hl).thaw) (by
                intro x hx
                rcases p3 x hx with h5 | h5 | h5
                · exact .inl h5
                · exact .inr (hdis x h5)
                · right; intro hc; have := o.lt x hc; omega)
              refine ⟨h', p1, hrep, ?_, p4.mono (fun x hx => by rw [touched_obj hl]; exact List.mem_cons_of_mem _ hx) (fun a ha => o.thaw a (touched_sub _ _ _ a ha))⟩
              intro x hx
              obtain ⟨e, he, hx⟩ := mem_fpE_iff.1 hx
              rcases AMap.mem_insert' he with rfl | he
              · simp only [fp, List.mem_cons] at hx
                rcases hx with rfl | hx
                · exact .inl (hsub _ (by simp))
                · rcases p3 x hx with h5 | h5 | h5
                  · exact .inl (hsub x (by simp [h5]))
                  · simp [h5]
                  · simp [h5]
              · exact .inl (mem_fpE_iff.2 ⟨e, he, hx⟩)

end Sawmill
