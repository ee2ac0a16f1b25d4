import Verif.Lemmas.History
/-!
# Storing a value that already occurs in the event

`putLoop_spec` requires the stored value to be disjoint from the event.  Here it may share parts with it, as long as the maps written to on the way are not among those parts.
-/

namespace Sawmill
open ATree

theorem mapWrite_share {h : Heap} {m : Nat} {es : AMap ATree} {k : Bytes} {t : ATree}
    (o : OwnsMap h m es) (ht : Rep h t) (hdis : m ∉ t.fp) :
    ∃ h', mapWrite h (some m) k t.ptr = .ok h' ∧ h' = h.set m (.map (ptrMap (es.insert k t))) ∧
      h'[m]? = some (.map (ptrMap (es.insert k t))) ∧ RepE h' (es.insert k t) ∧ Frame [m] h h' := by
  have hf : Frame [m] h (h.set m (.map (ptrMap (es.insert k t)))) := frame_set o.at_
  have hml : m < h.length := lt_of_getElem? o.at_
  refine ⟨_, by simp [mapWrite, o.at_, ptrMap, AMap.mapVals_insert], rfl, by simp [List.getElem?_set_self hml], ?_, hf⟩
  rw [repE_iff]
  intro e he
  rcases AMap.mem_insert' he with rfl | he
  · exact rep_frame hf _ ht (fun a ha hm => hdis (by simp only [List.mem_singleton] at hm; exact hm ▸ ha))
  · refine rep_frame hf _ (repE_iff.1 o.rep e he) ?_
    intro a ha hm
    simp only [List.mem_singleton] at hm
    subst hm
    exact (List.nodup_cons.1 o.nodup).1 (mem_fpE (k := e.1) he ha)

theorem astore_nil_ne (t : ATree) (p : List Bytes) (n : Nat) : astore n [] p t ≠ .ok none := by
  induction p generalizing n with
  | nil => simp [astore]
  | cons x xs ihx =>
    cases xs with
    | nil => simp [astore]
    | cons y ys =>
      simp only [astore, AMap.lookup_nil]
      intro hc
      have h4 := ihx (n + 2)
      cases h5 : astore (n + 2) [] (y :: ys) t with
      | panic => simp [h5] at hc
      | ok r => cases r with
        | none => exact h4 h5
        | some z => simp [h5] at hc

theorem insert_insert {α : Type} {es : AMap α} (hs : AMap.Sorted es) (k : Bytes) (v w : α) : (es.insert k v).insert k w = es.insert k w := by
  have h1 := AMap.sorted_insert k v hs
  apply AMap.ext (AMap.sorted_insert _ _ h1) (AMap.sorted_insert _ _ hs)
  intro q
  simp only [AMap.lookup_insert]
  split <;> rfl

/-- `putLoop` of a value that contains none of the maps on the way. -/
theorem putLoop_share {t : ATree} (path : List Bytes) (hp : path ≠ []) {h : Heap} {m : Nat} {es : AMap ATree}
    (o : OwnsMap h m es) (ht : Rep h t) (hdis : ∀ a ∈ t.fp, a ∉ touched m es path) :
    match astore h.length es path t with
    | .panic => putLoop h (some m) path t.ptr = .panic
    | .ok none => putLoop h (some m) path t.ptr = .ok (h, false)
    | .ok (some es') => ∃ h', putLoop h (some m) path t.ptr = .ok (h', true) ∧ h'[m]? = some (.map (ptrMap es')) ∧ AMap.Sorted es' ∧ RepE h' es' ∧
        Frame (touched m es path) h h' := by
  induction path generalizing h m es with
  | nil => exact absurd rfl hp
  | cons k ks ih =>
    cases ks with
    | nil =>
      simp only [astore, putLoop]
      obtain ⟨h', e1, _, e2, e3, e4⟩ := mapWrite_share (k := k) o ht (fun hm => hdis m hm (by simp [touched]))
      exact ⟨h', by rw [e1]; rfl, e2, AMap.sorted_insert _ _ o.sorted, e3, by simpa [touched] using e4⟩
    | cons k2 ks =>
      simp only [astore, putLoop, mapOf, o.at_, lookup_ptrMap]
      cases hl : AMap.lookup es k with
      | none =>
        simp only [Option.map_none, Heap.alloc]
        let h2 : Heap := (h ++ [HObj.map []]) ++ [HObj.cell (objCell (some h.length))]
        have e2 : h2 = h ++ [HObj.map [], HObj.cell (objCell (some h.length))] := by simp [h2]
        have hlen : (h ++ [HObj.map []]).length = h.length + 1 := by simp
        have f2 : Frame [] h h2 := by rw [e2]; exact frame_alloc h _
        have o2 : OwnsMap h2 m es :=
          ⟨f2.get o.at_ (by simp), o.sorted, repE_frame f2 es o.rep (by simp), o.nodup⟩
        let t2 : ATree := .obj (h.length + 1) h.length []
        have ht2 : Rep h2 t2 := by
          simp only [t2, Rep, e2]
          refine ⟨by simp, by simp [ptrMap, AMap.mapVals], AMap.sorted_nil, by simp [RepE]⟩
        have hml := lt_of_getElem? o.at_
        obtain ⟨h3, w1, w2, w3, w4, w5⟩ := mapWrite_owned (k := k) (t := t2) o2 ht2 (by simp [t2, fp, fpE]) (by
          intro a ha hc
          simp only [t2, fp, fpE, List.mem_singleton] at ha
          have := o.lt a hc
          omega)
        rw [hlen]
        have w1' : mapWrite h2 (some m) k (some (h.length + 1)) = .ok h3 := w1
        rw [show (h ++ [HObj.map []]) ++ [HObj.cell (objCell (some h.length))] = h2 from rfl, w1']
        have hne : m ≠ h.length := by omega
        have o3 : OwnsMap h3 h.length [] := by
          refine ⟨?_, AMap.sorted_nil, by simp [RepE], by simp [fpE]⟩
          rw [w5.get (a := h.length) (o := .map []) (by rw [e2]; simp) (by simpa using Ne.symm hne)]
          rfl
        have ht3 : Rep h3 t := by
          refine rep_frame w5 t (rep_frame f2 t ht (by simp)) ?_
          intro a ha hm
          simp only [List.mem_singleton] at hm
          exact hdis a ha (by simp [hm, touched])
        have hl3 : h3.length = h.length + 2 := by rw [w2, e2]; simp
        have htl := fp_lt t ht
        have := ih (by simp) o3 ht3 (by
          intro a ha hc
          have := touched_sub _ _ _ a hc
          simp only [fpE, List.mem_singleton] at this
          have := htl a ha
          omega)
        rw [hl3] at this
        cases hr : astore (h.length + 2) [] (k2 :: ks) t with
        | panic => simp only [hr] at this; simp [Res.map, this]
        | ok r =>
          cases r with
          | none => exact absurd hr (astore_nil_ne _ _ _)
          | some es3 =>
            simp only [hr] at this
            obtain ⟨h', p1, p2, p3, p4, p5⟩ := this
            simp only [Res.map_ok, Option.map_some]
            have p5' : Frame [h.length] h3 h' := by
              refine p5.mono ?_ ?_
              · intro a ha
                have := touched_sub _ _ _ a ha
                simpa [fpE] using this
              · intro a ha; simp only [List.mem_singleton] at ha; subst ha; exact o3.thaw _ (by simp)
            have f3 : Frame (touched m es (k :: k2 :: ks)) h h3 := by
              have := f2.mono (T := touched m es (k :: k2 :: ks)) (by simp) (fun a ha => o.thaw a (touched_sub _ _ _ a ha))
              exact this.trans w5 (by simp [touched])
            refine ⟨h', p1, ?_, AMap.sorted_insert _ _ o.sorted, ?_, f3.trans p5' (by simp)⟩
            · rw [p5'.get w3.at_ (by simpa using hne)]
              simp only [t2, ptrMap, AMap.mapVals_insert, ptr]
            · rw [repE_iff]
              intro e he
              rcases AMap.mem_insert' he with rfl | he
              · simp only [Rep]
                refine ⟨p5'.get (w5.get (by rw [e2]; simp) (by simp; omega)) (by simp), p2, p3, p4⟩
              · have hee := repE_iff.1 o2.rep e he
                have hlt : ∀ a ∈ e.2.fp, a ∈ fpE es := fun a ha => mem_fpE (k := e.1) he ha
                refine rep_frame p5' _ (rep_frame w5 _ hee ?_) ?_
                · intro a ha hc
                  simp only [List.mem_singleton] at hc
                  subst hc
                  exact (List.nodup_cons.1 o.nodup).1 (hlt a ha)
                · intro a ha hc
                  simp only [List.mem_singleton] at hc
                  have := o.lt a (by simp [hlt a ha])
                  omega
      | some t' =>
        have htr := rep_of_lookup o.rep hl
        cases t' with
        | nilp => simp [ptr, deref]
        | leaf a s =>
          simp only [Rep] at htr
          have hc : (scalarCell s).type ≠ .object := by
            cases s <;> simp [scalarCell, nullCell, boolCell, intCell, uintCell, floatCell, strCell, tsCell]
          simp [ptr, deref, htr, hc]
        | arrNil a => simp only [Rep] at htr; simp [ptr, deref, htr, arrCell]
        | arr a vs => simp only [Rep] at htr; simp [ptr, deref, htr, arrCell]
        | objNil a =>
          simp only [Rep] at htr
          simp only [ptr, deref, Option.map_some, htr, objCell, ne_eq, not_true_eq_false, if_false]
          cases ks <;> simp [putLoop, mapWrite, mapOf]
        | obj a m' es' =>
          have htr' := htr
          simp only [Rep] at htr
          have hq : (ATree.obj a m' es').ptr = some a := rfl
          simp only [hq, deref, Option.map_some, htr.1, objCell, ne_eq, not_true_eq_false, if_false]
          have hto := touched_obj (m := m) (ks := ks) (k2 := k2) hl
          have := ih (by simp) (o.sub hl) ht (fun a ha hc => hdis a ha (by rw [hto]; simp [hc]))
          cases hr : astore h.length es' (k2 :: ks) t with
          | panic => simp only [hr] at this; simpa using this
          | ok r =>
            cases r with
            | none => simp only [hr] at this; simpa using this
            | some es3 =>
              simp only [hr] at this
              obtain ⟨h', p1, p2, p3, p4, p5⟩ := this
              simp only [Res.map_ok, Option.map_some]
              have hnm : ∀ x ∈ m' :: fpE es', x ≠ m := by
                rintro x hx rfl
                exact (List.nodup_cons.1 o.nodup).1 (mem_fpE (AMap.mem_of_lookup hl) (by simpa [fp] using hx))
              refine ⟨h', p1, ?_, AMap.sorted_insert _ _ o.sorted, ?_,
                p5.mono (fun x hx => by rw [hto]; exact List.mem_cons_of_mem _ hx) (fun a ha => o.thaw a (touched_sub _ _ _ a ha))⟩
              · have hsame : ptrMap (es.insert k (.obj a m' es3)) = ptrMap es := by
                  obtain ⟨l, r, q1, q2, _⟩ := AMap.split_some o.sorted hl
                  rw [q2, q1]; simp [ptrMap, AMap.mapVals, ptr]
                rw [hsame]
                exact p5.get o.at_ (fun hc => hnm m (touched_sub _ _ _ m hc) rfl)
              · obtain ⟨l, r, q1, q2, _⟩ := AMap.split_some o.sorted hl
                have hnd := o.nodup
                rw [q1] at hnd
                have hrep := o.rep
                rw [q1, repE_iff] at hrep
                rw [q2, repE_iff]
                have hside : ∀ e, (e ∈ l ∨ e ∈ r) → Rep h' e.2 := by
                  intro e he
                  refine rep_frame p5 _ (hrep e (by simp; rcases he with he | he <;> simp [he])) ?_
                  intro x hx hc
                  have h1 := touched_sub _ _ _ x hc
                  have h2 : x ∈ fpE l ∨ x ∈ fpE r := by
                    rcases he with he | he
                    · exact .inl (mem_fpE (k := e.1) he hx)
                    · exact .inr (mem_fpE (k := e.1) he hx)
                  simp only [fpE_append, fpE, fp, List.nodup_cons, List.nodup_append, List.mem_append] at hnd
                  grind
                intro e he
                simp only [List.mem_append, List.mem_cons] at he
                rcases he with he | rfl | he
                · exact hside e (.inl he)
                · simp only [Rep]
                  refine ⟨p5.getFrozen htr.1 (by simp [objCell]), p2, p3, p4⟩
                · exact hside e (.inr he)

theorem astore_nil_nodup {t : ATree} (path : List Bytes) (hp : path ≠ []) {n : Nat} {es' : AMap ATree} (ha : astore n [] path t = .ok (some es')) (hd : t.fp.Nodup)
    (hn : ∀ a ∈ t.fp, a < n) : (fpE es').Nodup ∧ ∀ a ∈ fpE es', a ∈ t.fp ∨ n ≤ a := by
  induction path generalizing n es' with
  | nil => exact absurd rfl hp
  | cons k ks ih =>
    cases ks with
    | nil =>
      simp only [astore, Res.ok.injEq, Option.some.injEq] at ha
      subst ha
      simp [AMap.insert, fpE, hd]
      intro a h; exact .inl h
    | cons k2 ks =>
      simp only [astore, AMap.lookup_nil] at ha
      cases hr : astore (n + 2) [] (k2 :: ks) t with
      | panic => simp [hr] at ha
      | ok r =>
        cases r with
        | none => simp [hr] at ha
        | some es3 =>
          simp only [hr, Res.map_ok, Option.map_some, Res.ok.injEq, Option.some.injEq] at ha
          subst ha
          obtain ⟨h1, h2⟩ := ih (by simp) hr (fun a h => by have := hn a h; omega)
          simp only [AMap.insert, fpE, fp, List.append_nil, List.nodup_cons, List.mem_cons]
          refine ⟨⟨?_, h1⟩, ?_⟩
          · intro hc
            rcases h2 n hc with h3 | h3
            · have := hn n h3; omega
            · omega
          · rintro a (rfl | h3)
            · right; omega
            · rcases h2 a h3 with h4 | h4
              · exact .inl h4
              · right; omega

/-- Storing a value whose parts are new or come from the value it replaces keeps the parts distinct. -/
theorem astore_nodup {t old : ATree} (path : List Bytes) (hp : path ≠ []) {h : Heap} {n m : Nat} {es es' : AMap ATree} (o : OwnsMap h m es)
    (hg : aget es path = .ok old) (ha : astore n es path t = .ok (some es')) (hd : t.fp.Nodup)
    (hn : ∀ a, (a ∈ m :: fpE es ∨ a ∈ t.fp) → a < n) (hdis : ∀ a ∈ t.fp, a ∈ old.fp ∨ a ∉ m :: fpE es) :
    (m :: fpE es').Nodup ∧ ∀ a ∈ fpE es', a ∈ fpE es ∨ a ∈ t.fp ∨ n ≤ a := by
  induction path generalizing m es es' with
  | nil => exact absurd rfl hp
  | cons k ks ih =>
    have hnd := o.nodup
    cases ks with
    | nil =>
      simp only [astore, Res.ok.injEq, Option.some.injEq] at ha
      simp only [aget, Res.ok.injEq] at hg
      subst ha
      cases hl : AMap.lookup es k with
      | none =>
        simp only [hl, Option.getD_none] at hg
        subst hg
        obtain ⟨l, r, h1, h2⟩ := AMap.split_none hl
        rw [h2 t]
        rw [h1] at hnd hdis ⊢
        simp only [fpE_append, fpE, fp, List.nodup_cons, List.nodup_append, List.mem_append, List.mem_cons, List.not_mem_nil, false_or] at hnd hdis ⊢
        grind
      | some t0 =>
        simp only [hl, Option.getD_some] at hg
        subst hg
        obtain ⟨l, r, h1, h2, _⟩ := AMap.split_some o.sorted hl
        rw [h2 t]
        rw [h1] at hnd hdis ⊢
        simp only [fpE_append, fpE, List.nodup_cons, List.nodup_append, List.mem_append, List.mem_cons] at hnd hdis ⊢
        grind
    | cons k2 ks =>
      simp only [astore] at ha
      simp only [aget] at hg
      cases hl : AMap.lookup es k with
      | none =>
        simp only [hl, Res.ok.injEq] at ha hg
        subst hg
        cases hr : astore (n + 2) [] (k2 :: ks) t with
        | panic => simp [hr] at ha
        | ok r =>
          cases r with
          | none => simp [hr] at ha
          | some es3 =>
            simp only [hr, Res.map_ok, Option.map_some, Res.ok.injEq, Option.some.injEq] at ha
            subst ha
            obtain ⟨p1, p2⟩ := astore_nil_nodup _ (by simp) hr hd (fun a h => by have := hn a (.inr h); omega)
            obtain ⟨l, r, h1, h2⟩ := AMap.split_none hl
            rw [h2]
            rw [h1] at hnd hdis hn ⊢
            simp only [fpE_append, fpE, fp, List.nodup_cons, List.nodup_append, List.mem_append, List.mem_cons, List.not_mem_nil, false_or] at hnd hdis hn ⊢
            grind
      | some t0 =>
        cases t0 with
        | obj a m' es1 =>
          simp only [hl] at ha hg
          cases hr : astore n es1 (k2 :: ks) t with
          | panic => simp [hr] at ha
          | ok r =>
            cases r with
            | none => simp [hr] at ha
            | some es3 =>
              simp only [hr, Res.map_ok, Option.map_some, Res.ok.injEq, Option.some.injEq] at ha
              subst ha
              have hsub : ∀ x ∈ m' :: fpE es1, x ∈ fpE es := fun x hx =>
                mem_fpE (AMap.mem_of_lookup hl) (by simpa [fp] using hx)
              have hos := (aget_sub (o.sub hl).rep hg).2
              obtain ⟨p1, p2⟩ := ih (by simp) (o.sub hl) hg hr
                (fun x hx => hn x (by rcases hx with hx | hx; exact .inl (by simp [hsub x hx]); exact .inr hx))
                (fun x hx => by
                  rcases hdis x hx with h1 | h1
                  · exact .inl h1
                  · exact .inr (fun hc => h1 (by simp [hsub x hc])))
              obtain ⟨l, r, h1, h2, _⟩ := AMap.split_some o.sorted hl
              rw [h2]
              rw [h1] at hnd hdis hn ⊢
              simp only [fpE_append, fpE, fp, List.nodup_cons, List.nodup_append, List.mem_append, List.mem_cons] at hnd hdis hn p1 ⊢
              grind
        | nilp => simp [hl] at ha
        | leaf a s => simp [hl] at ha
        | arrNil a => simp [hl] at ha
        | arr a vs => simp [hl] at ha
        | objNil a => simp [hl] at ha

/-- `Put` of a value containing none of the maps on the way. -/
theorem put_share {h : Heap} {m : Nat} {es : AMap ATree} {t old : ATree} (o : OwnsMap h m es) (ht : Rep h t) (hn : t ≠ .nilp) (path : List Bytes) (hp : path ≠ [])
    (hdis : ∀ a ∈ t.fp, a ∉ touched m es path) (hg : aget es path = .ok old) :
    match astore h.length es path t with
    | .panic => put h (some m) path t.ptr true = .panic
    | .ok none => put h (some m) path t.ptr true = .ok (h, some m, none, some (.notObject path))
    | .ok (some es') => ∃ h', put h (some m) path t.ptr true = .ok (h', some m, old.ptr, none) ∧ h'[m]? = some (.map (ptrMap es')) ∧ AMap.Sorted es' ∧ RepE h' es' ∧
        Frame (touched m es path) h h' := by
  have hv : t.ptr ≠ none := fun hc => hn (ptr_eq_none.1 hc)
  have hs := putLoop_share path hp o ht hdis
  rw [put_eq_some hp hv, get_spec' o path hp, hg]
  simp only [Res.map_ok, Bool.true_eq_false, and_false, if_false]
  cases ha : astore h.length es path t with
  | panic => simp only [ha] at hs; simp [hs]
  | ok r =>
    cases r with
    | none => simp only [ha] at hs; simp [hs]
    | some es' =>
      simp only [ha] at hs
      obtain ⟨h', p1, p2, p3, p4, p5⟩ := hs
      simp only [p1]
      exact ⟨h', rfl, p2, p3, p4, p5⟩

/-- `Put` of a value whose parts are new or come from the value it replaces: the event still owns its contents. -/
theorem put_replace {h : Heap} {m : Nat} {es : AMap ATree} {t old : ATree} (o : OwnsMap h m es) (ht : Rep h t) (hn : t ≠ .nilp) (hd : t.fp.Nodup)
    (path : List Bytes) (hp : path ≠ []) (hdis : ∀ a ∈ t.fp, a ∈ old.fp ∨ a ∉ m :: fpE es) (hg : aget es path = .ok old) :
    match astore h.length es path t with
    | .panic => put h (some m) path t.ptr true = .panic
    | .ok none => put h (some m) path t.ptr true = .ok (h, some m, none, some (.notObject path))
    | .ok (some es') => ∃ h', put h (some m) path t.ptr true = .ok (h', some m, old.ptr, none) ∧ OwnsMap h' m es' ∧
        (∀ a ∈ fpE es', a ∈ fpE es ∨ a ∈ t.fp ∨ h.length ≤ a) ∧ Frame (touched m es path) h h' := by
  have htd := touched_disjoint path o hg
  have hs := put_share o ht hn path hp (fun a ha hc => by
    rcases hdis a ha with h1 | h1
    · exact htd a h1 hc
    · exact h1 (touched_sub _ _ _ a hc)) hg
  cases ha : astore h.length es path t with
  | panic => simp only [ha] at hs; simpa using hs
  | ok r =>
    cases r with
    | none => simp only [ha] at hs; simpa using hs
    | some es' =>
      simp only [ha] at hs
      obtain ⟨h', p1, p2, p3, p4, p5⟩ := hs
      obtain ⟨q1, q2⟩ := astore_nodup path hp o hg ha hd (fun a hx => by
        rcases hx with hx | hx
        · exact o.lt a hx
        · exact fp_lt t ht a hx) hdis
      exact ⟨h', p1, ⟨p2, p3, p4, q1⟩, q2, p5⟩

/-- Changing an array struct of the event in place is the same as storing the new array at its path. -/
theorem array_update {h : Heap} {m a : Nat} {es : AMap ATree} {old : ATree} {us : List ATree} (path : List Bytes) (hp : path ≠ []) (o : OwnsMap h m es)
    (hg : aget es path = .ok old) (hold : old = .arrNil a ∨ ∃ vs, old = .arr a vs)
    (hus : RepL h us) (hd : (fpL us).Nodup) (hdis : ∀ x ∈ fpL us, (x ∈ old.fp ∧ x ≠ a) ∨ x ∉ m :: fpE es) (n : Nat) :
    ∃ es', astore n es path (.arr a us) = .ok (some es') ∧
      OwnsMap (h.set a (.cell (arrCell (some (us.map ATree.ptr))))) m es' ∧
      (∀ x ∈ fpE es', x ∈ fpE es ∨ x ∈ fpL us) ∧ Frame [a] h (h.set a (.cell (arrCell (some (us.map ATree.ptr))))) := by
  have hoa : a ∈ old.fp := by rcases hold with rfl | ⟨vs, rfl⟩ <;> simp [fp]
  have hae : a ∈ fpE es := (aget_sub o.rep hg).2 a hoa
  have hlt : a < h.length := o.lt a (by simp [hae])
  have fr : Frame [a] h (h.set a (.cell (arrCell (some (us.map ATree.ptr))))) := by
    refine ⟨by simp, ?_, ?_⟩
    · intro x _ hx; simp only [List.mem_singleton] at hx; rw [List.getElem?_set_ne (Ne.symm hx)]
    · intro x hx; simp only [List.mem_singleton] at hx; subst hx; exact o.thaw _ (by simp [hae])
  have hat : (h.set a (.cell (arrCell (some (us.map ATree.ptr)))))[a]? = some (.cell (arrCell (some (us.map ATree.ptr)))) := List.getElem?_set_self hlt
  have haus : a ∉ fpL us := by
    intro hc
    rcases hdis a hc with h1 | h1
    · exact h1.2 rfl
    · exact h1 (by simp [hae])
  have hnew : Rep (h.set a (.cell (arrCell (some (us.map ATree.ptr))))) (.arr a us) := by
    refine ⟨hat, repL_frame fr us hus ?_⟩
    intro x hx hc
    simp only [List.mem_singleton] at hc
    exact haus (hc ▸ hx)
  revert fr hat hnew
  generalize hh' : h.set a (.cell (arrCell (some (us.map ATree.ptr)))) = h'
  intro fr hat hnew
  suffices key : ∀ (path : List Bytes) (m : Nat) (es : AMap ATree), path ≠ [] → OwnsMap h m es → aget es path = .ok old →
      (∀ x ∈ fpL us, (x ∈ old.fp ∧ x ≠ a) ∨ x ∉ m :: fpE es) →
      ∃ es', astore n es path (.arr a us) = .ok (some es') ∧ OwnsMap h' m es' ∧ (∀ x ∈ fpE es', x ∈ fpE es ∨ x ∈ fpL us) by
    obtain ⟨es', k1, k2, k3⟩ := key path m es hp o hg hdis
    exact ⟨es', k1, k2, k3, fr⟩
  clear hp o hg hdis hae hh' path
  intro path
  induction path with
  | nil => intro m es hp; exact absurd rfl hp
  | cons k ks ih =>
    intro m es _ o hg hdis
    have hnd := o.nodup
    have hsb := (aget_sub o.rep hg).2
    have hae : a ∈ fpE es := hsb a hoa
    have hma : m ≠ a := by rintro rfl; exact (List.nodup_cons.1 hnd).1 hae
    have hm' : h'[m]? = some (.map (ptrMap es)) := fr.get o.at_ (by simpa using hma)
    cases ks with
    | nil =>
      simp only [aget, Res.ok.injEq] at hg
      cases hl : AMap.lookup es k with
      | none => simp only [hl, Option.getD_none] at hg; subst hg; simp [fp] at hoa
      | some t0 =>
        simp only [hl, Option.getD_some] at hg
        subst hg
        obtain ⟨l, r, h1, h2, _⟩ := AMap.split_some o.sorted hl
        refine ⟨es.insert k (.arr a us), rfl, ⟨?_, AMap.sorted_insert _ _ o.sorted, ?_, ?_⟩, ?_⟩
        · rw [hm']
          have : (ATree.arr a us).ptr = t0.ptr := by rcases hold with rfl | ⟨vs, rfl⟩ <;> rfl
          rw [h2, h1]; simp [ptrMap, AMap.mapVals, this]
        · rw [h2, repE_iff]
          have hrep := o.rep
          rw [h1, repE_iff] at hrep
          rw [h1] at hnd
          simp only [fpE_append, fpE, List.nodup_cons, List.nodup_append, List.mem_append] at hnd
          intro e he
          simp only [List.mem_append, List.mem_cons] at he
          rcases he with he | rfl | he
          · refine rep_frame fr _ (hrep e (by simp [he])) ?_
            intro x hx hc
            have := mem_fpE (k := e.1) he hx
            simp only [List.mem_singleton] at hc
            grind
          · exact hnew
          · refine rep_frame fr _ (hrep e (by simp [he])) ?_
            intro x hx hc
            have := mem_fpE (k := e.1) he hx
            simp only [List.mem_singleton] at hc
            grind
        · rw [h2]
          rw [h1] at hnd hdis
          simp only [fpE_append, fpE, fp, List.nodup_cons, List.nodup_append, List.mem_append, List.mem_cons] at hnd hdis ⊢
          grind
        · rw [h2, h1]
          simp only [fpE_append, fpE, fp, List.mem_append, List.mem_cons]
          grind
    | cons k2 ks =>
      simp only [aget] at hg
      simp only [astore]
      cases hl : AMap.lookup es k with
      | none => simp only [hl, Res.ok.injEq] at hg; subst hg; simp [fp] at hoa
      | some t0 =>
        cases t0 with
        | obj b m' es1 =>
          simp only [hl] at hg ⊢
          have hsub : ∀ x ∈ m' :: fpE es1, x ∈ fpE es := fun x hx =>
            mem_fpE (AMap.mem_of_lookup hl) (by simpa [fp] using hx)
          obtain ⟨es3, p1, p2, p3⟩ := ih m' es1 (by simp) (o.sub hl) hg (fun x hx => by
            rcases hdis x hx with h1 | h1
            · exact .inl h1
            · exact .inr (fun hc => h1 (by simp [hsub x hc])))
          have hobs := (aget_sub (o.sub hl).rep hg).2
          have hob := hobs a hoa
          rw [p1]
          have htr := rep_of_lookup o.rep hl
          simp only [Rep] at htr
          obtain ⟨l, r, h1, h2, _⟩ := AMap.split_some o.sorted hl
          refine ⟨es.insert k (.obj b m' es3), rfl, ⟨?_, AMap.sorted_insert _ _ o.sorted, ?_, ?_⟩, ?_⟩
          · rw [hm', h2, h1]; simp [ptrMap, AMap.mapVals, ptr]
          · rw [h2, repE_iff]
            have hrep := o.rep
            rw [h1, repE_iff] at hrep
            rw [h1] at hnd
            simp only [fpE_append, fpE, fp, List.nodup_cons, List.nodup_append, List.mem_append, List.mem_cons] at hnd
            intro e he
            simp only [List.mem_append, List.mem_cons] at he
            rcases he with he | rfl | he
            · refine rep_frame fr _ (hrep e (by simp [he])) ?_
              intro x hx hc
              have := mem_fpE (k := e.1) he hx
              simp only [List.mem_singleton] at hc
              grind
            · exact ⟨fr.getFrozen htr.1 (by simp [objCell]), p2.at_, p2.sorted, p2.rep⟩
            · refine rep_frame fr _ (hrep e (by simp [he])) ?_
              intro x hx hc
              have := mem_fpE (k := e.1) he hx
              simp only [List.mem_singleton] at hc
              grind
          · have p4 := p2.nodup
            rw [h2]
            rw [h1] at hnd hdis
            simp only [fpE_append, fpE, fp, List.nodup_cons, List.nodup_append, List.mem_append, List.mem_cons] at hnd hdis p4 ⊢
            grind
          · rw [h2, h1]
            simp only [fpE_append, fpE, fp, List.mem_append, List.mem_cons]
            grind
        | nilp => simp [hl] at hg
        | leaf b s => simp only [hl, Res.ok.injEq] at hg; subst hg; simp [fp] at hoa
        | arrNil b => simp only [hl, Res.ok.injEq] at hg; subst hg; simp [fp] at hoa
        | arr b vs => simp only [hl, Res.ok.injEq] at hg; subst hg; simp [fp] at hoa
        | objNil b => simp only [hl, Res.ok.injEq] at hg; subst hg; simp [fp] at hoa

/-- Storing what is already there changes nothing. -/
theorem astore_self {h : Heap} {m n : Nat} {es : AMap ATree} {t : ATree} (path : List Bytes) (hp : path ≠ []) (o : OwnsMap h m es) (hg : aget es path = .ok t)
    (hn : t ≠ .nilp) : astore n es path t = .ok (some es) := by
  induction path generalizing m es with
  | nil => exact absurd rfl hp
  | cons k ks ih =>
    cases ks with
    | nil =>
      simp only [aget, Res.ok.injEq] at hg
      cases hl : AMap.lookup es k with
      | none => simp only [hl, Option.getD_none] at hg; exact absurd hg.symm hn
      | some t0 =>
        simp only [hl, Option.getD_some] at hg
        subst hg
        simp only [astore, AMap.insert_lookup_self o.sorted hl]
    | cons k2 ks =>
      simp only [aget] at hg
      simp only [astore]
      cases hl : AMap.lookup es k with
      | none => simp only [hl, Res.ok.injEq] at hg; exact absurd hg.symm hn
      | some t0 =>
        cases t0 with
        | obj b m' es1 =>
          simp only [hl] at hg ⊢
          rw [ih (by simp) (o.sub hl) hg]
          simp [AMap.insert_lookup_self o.sorted hl]
        | nilp => simp [hl] at hg
        | leaf b s => simp only [hl, Res.ok.injEq] at hg; exact absurd hg.symm hn
        | arrNil b => simp only [hl, Res.ok.injEq] at hg; exact absurd hg.symm hn
        | arr b vs => simp only [hl, Res.ok.injEq] at hg; exact absurd hg.symm hn
        | objNil b => simp only [hl, Res.ok.injEq] at hg; exact absurd hg.symm hn

end Sawmill
