import Verif.Lemmas.HeapShare
/-!
# Storing a pointer that is already reachable: sharing and cycles
-/

namespace Sawmill
open ATree

/-- One path is a proper prefix of another. -/
def ProperPrefix (src tgt : List Bytes) : Prop := ∃ k ks, tgt = src ++ k :: ks

theorem fp_disjoint_of_lookup {es : AMap ATree} {k k' : Bytes} {t t' : ATree} (hn : (fpE es).Nodup) (hl : es.lookup k = some t) (hl' : es.lookup k' = some t') (hk : k ≠ k') :
    ∀ a ∈ t.fp, a ∉ t'.fp := by
  induction es with
  | nil => simp [AMap.lookup] at hl
  | cons e r ih =>
    obtain ⟨k0, v0⟩ := e
    simp only [fpE, List.nodup_append] at hn
    simp only [AMap.lookup] at hl hl'
    intro a ha hc
    split at hl
    · split at hl'
      · next h1 h2 => exact hk (h1.symm.trans h2)
      · simp only [Option.some.injEq] at hl; subst hl
        exact hn.2.2 a ha a (mem_fpE (AMap.mem_of_lookup hl') hc) rfl
    · split at hl'
      · simp only [Option.some.injEq] at hl'; subst hl'
        exact hn.2.2 a hc a (mem_fpE (AMap.mem_of_lookup hl) ha) rfl
      · exact ih hn.2.1 hl hl' a ha hc

/-- The value at one path shares nothing with the maps on the way to another one, unless it is itself on that way. -/
theorem touched_disjoint' {h : Heap} (src tgt : List Bytes) {m : Nat} {es : AMap ATree} (o : OwnsMap h m es) {t : ATree} (hg : aget es src = .ok t)
    (hnp : ¬ ProperPrefix src tgt) : ∀ a ∈ t.fp, a ∉ touched m es tgt := by
  induction src generalizing m es tgt with
  | nil => simp [aget] at hg; subst hg; simp [fp]
  | cons k ks ih =>
    intro a ha hc
    have hs := aget_sub o.rep hg
    have hm := (List.nodup_cons.1 o.nodup).1
    have ham : a ≠ m := fun e => hm (e ▸ hs.2 a ha)
    cases tgt with
    | nil => simp [touched] at hc; exact ham hc
    | cons q qs =>
      simp only [touched, List.mem_cons] at hc
      rcases hc with hc | hc
      · exact ham hc
      · split at hc
        · next q2 qs' b m' es' hl =>
          -- the value found is below `es.lookup k`
          cases hk : es.lookup k with
          | none => cases ks <;> simp [aget, hk] at hg <;> subst hg <;> simp [fp] at ha
          | some t0 =>
            have hat0 : a ∈ t0.fp := by
              cases ks with
              | nil => simp [aget, hk] at hg; subst hg; exact ha
              | cons k2 ks =>
                simp only [aget, hk] at hg
                cases t0 with
                | obj b1 m1 es1 =>
                  simp only at hg
                  have := (aget_sub (o.sub hk).rep hg).2 a ha
                  simp [fp, this]
                | nilp => simp at hg
                | leaf _ _ => simp at hg; subst hg; simp [fp] at ha
                | arrNil _ => simp at hg; subst hg; simp [fp] at ha
                | arr _ _ => simp at hg; subst hg; simp [fp] at ha
                | objNil _ => simp at hg; subst hg; simp [fp] at ha
            by_cases hkq : k = q
            · subst hkq
              rw [hl] at hk
              simp only [Option.some.injEq] at hk
              subst hk
              cases ks with
              | nil => exact hnp ⟨q2, qs', rfl⟩
              | cons k2 ks =>
                simp only [aget, hl] at hg
                refine ih (q2 :: qs') (o.sub hl) hg ?_ a ha hc
                rintro ⟨x, xs, hx⟩
                exact hnp ⟨x, xs, by rw [hx]; rfl⟩
            · have := fp_disjoint_of_lookup (List.nodup_cons.1 o.nodup).2 hk hl hkq a hat0
              exact this (by simpa [fp] using touched_sub _ _ _ a hc)
        · simp at hc

theorem getLoop_step {h : Heap} {m : Option Nat} {k x : Bytes} {xs : List Bytes} {p : Ptr} {c : Cell} (hl : (mapOf h m).lookup k = some p) (hd : deref h p = some c)
    (hne : mapOf h c.object ≠ []) : getLoop h m (k :: x :: xs) = getLoop h c.object (x :: xs) := by
  have : ¬ (mapOf h c.object).length = 0 := by simpa using hne
  simp only [getLoop, hl, hd, this, if_false]

/-- `putLoop` with any pointer: the pointer is found at the path afterwards, and objects on the way are the ones that were there. -/
theorem putLoop_raw {p : Ptr} (path : List Bytes) (hp : path ≠ []) {h h' : Heap} {m : Nat} {es : AMap ATree} (o : OwnsMap h m es)
    (hw : putLoop h (some m) path p = .ok (h', true)) :
    Frame (touched m es path) h h' ∧ getLoop h' (some m) path = .ok p ∧ mapOf h' (some m) ≠ [] ∧
      ∀ src k ks, path = src ++ k :: ks → ∀ a m1 es1, aget es src = .ok (.obj a m1 es1) → getLoop h' (some m) src = .ok (some a) := by
  induction path generalizing h m es with
  | nil => exact absurd rfl hp
  | cons k ks ih =>
    cases ks with
    | nil =>
      simp only [putLoop, mapWrite, o.at_, Res.map_ok, Res.ok.injEq, Prod.mk.injEq, and_true] at hw
      subst hw
      have hl := lt_of_getElem? o.at_
      have hm : (h.set m (.map ((ptrMap es).insert k p)))[m]? = some (.map ((ptrMap es).insert k p)) := List.getElem?_set_self hl
      refine ⟨by simpa [touched] using frame_set o.at_, by simp [getLoop, mapOf, hm], ?_, ?_⟩
      · simp only [mapOf, hm]
        intro hc
        have := AMap.lookup_insert_self (ptrMap es) k p
        rw [hc] at this
        simp at this
      · intro src k' ks' he a m1 es1 hg
        cases src with
        | nil => simp [aget] at hg
        | cons x xs => simp at he
    | cons k2 ks =>
      simp only [putLoop, mapOf, o.at_, lookup_ptrMap] at hw
      cases hl : AMap.lookup es k with
      | none =>
        simp only [hl, Option.map_none, Heap.alloc] at hw
        have hml := lt_of_getElem? o.at_
        have hwm : mapWrite (h ++ [HObj.map []] ++ [HObj.cell (objCell (some h.length))]) (some m) k (some (h ++ [HObj.map []]).length) =
            .ok ((h ++ [HObj.map []] ++ [HObj.cell (objCell (some h.length))]).set m (.map ((ptrMap es).insert k (some (h ++ [HObj.map []]).length)))) := by
          simp only [mapWrite]
          rw [List.getElem?_append_left (by simp; omega), List.getElem?_append_left hml, o.at_]
        rw [hwm] at hw
        simp only at hw
        generalize hh3 : (h ++ [HObj.map []] ++ [HObj.cell (objCell (some h.length))]).set m (.map ((ptrMap es).insert k (some (h ++ [HObj.map []]).length))) = h3 at hw
        have hlen3 : h3.length = h.length + 2 := by rw [← hh3]; simp
        have hat : ∀ a, a ≠ m → h3[a]? = (h ++ [HObj.map []] ++ [HObj.cell (objCell (some h.length))])[a]? := by
          intro a ha; rw [← hh3, List.getElem?_set_ne (fun e => ha e.symm)]
        have hm3 : h3[m]? = some (.map ((ptrMap es).insert k (some (h.length + 1)))) := by
          rw [← hh3, List.getElem?_set_self (by simp; omega)]; simp
        have hn3 : h3[h.length]? = some (.map []) := by
          rw [hat _ (by omega)]; rw [List.getElem?_append_left (by simp)]; simp
        have hc3 : h3[h.length + 1]? = some (.cell (objCell (some h.length))) := by
          rw [hat _ (by omega)]; rw [List.getElem?_append_right (by simp)]; simp
        have o3 : OwnsMap h3 h.length [] := ⟨by simp [hn3, ptrMap, AMap.mapVals], AMap.sorted_nil, by simp [RepE], by simp [fpE]⟩
        obtain ⟨i1, i2, i3, i4⟩ := ih (by simp) o3 hw
        have htn : touched h.length ([] : AMap ATree) (k2 :: ks) = [h.length] := by
          cases ks <;> simp [touched]
        rw [htn] at i1
        have hm' := i1.get hm3 (by simp; omega)
        have hc' := i1.get hc3 (by simp)
        refine ⟨⟨by have := i1.len; omega, ?_, ?_⟩, ?_, ?_, ?_⟩
        · intro a ha hna
          have ham : a ≠ m := by rintro rfl; apply hna; rw [touched.eq_def]; simp
          rw [i1.same a (by omega) (by simp; omega), hat a ham, List.getElem?_append_left (by simp; omega), List.getElem?_append_left ha]
        · intro a ha
          exact o.thaw a (touched_sub _ _ _ a ha)
        · rw [getLoop_step (p := some (h.length + 1)) (c := objCell (some h.length)) (by simp [mapOf, hm']) (by simp [deref, hc']) i3]
          exact i2
        · simp only [mapOf, hm']
          intro hc
          have := AMap.lookup_insert_self (ptrMap es) k (some (h.length + 1))
          rw [hc] at this
          simp at this
        · intro src k' ks' he a m1 es1 hg
          cases src with
          | nil => simp [aget] at hg
          | cons x xs =>
            simp only [List.cons_append, List.cons.injEq] at he
            obtain ⟨rfl, he⟩ := he
            cases xs <;> simp [aget, hl] at hg
      | some t0 =>
        have hr := rep_of_lookup o.rep hl
        have bad : ∀ (c : Cell) (a : Nat), t0.ptr = some a → h[a]? = some (.cell c) → c.type ≠ .object → False := by
          intro c a h1 h2 h3
          simp [hl, h1, deref, h2, h3] at hw
        cases t0 with
        | nilp => simp [hl, ptr, deref] at hw
        | leaf b s => simp only [Rep] at hr; exact (bad _ b rfl hr (by cases s <;> simp [scalarCell, nullCell, boolCell, intCell, uintCell, floatCell, strCell, tsCell])).elim
        | arrNil b => simp only [Rep] at hr; exact (bad _ b rfl hr (by simp [arrCell])).elim
        | arr b vs => simp only [Rep] at hr; exact (bad _ b rfl hr.1 (by simp [arrCell])).elim
        | objNil b =>
          simp only [Rep] at hr
          simp only [hl, Option.map_some, ptr, deref, hr, objCell, ne_eq, not_true_eq_false, if_false] at hw
          cases ks <;> simp [putLoop, mapWrite, mapOf] at hw
        | obj b m1 es1 =>
          simp only [Rep] at hr
          simp only [hl, Option.map_some, ptr, deref, hr.1, objCell, ne_eq, not_true_eq_false, if_false] at hw
          obtain ⟨i1, i2, i3, i4⟩ := ih (by simp) (o.sub hl) hw
          rw [touched_obj hl]
          have hsub : ∀ a ∈ touched m1 es1 (k2 :: ks), a ∈ fpE es := fun a ha =>
            mem_fpE (AMap.mem_of_lookup hl) (by simpa [fp] using touched_sub _ _ _ a ha)
          have hmn : m ∉ touched m1 es1 (k2 :: ks) := fun hc => (List.nodup_cons.1 o.nodup).1 (hsub _ hc)
          have hm' := i1.get o.at_ hmn
          have hc' := i1.getFrozen hr.1 (by simp [objCell])
          have step : ∀ rest r, rest ≠ [] → getLoop h' (some m1) rest = .ok r → getLoop h' (some m) (k :: rest) = .ok r := by
            intro rest r hne hr'
            cases rest with
            | nil => exact absurd rfl hne
            | cons x xs =>
              rw [getLoop_step (p := some b) (c := objCell (some m1)) (by simp [mapOf, hm', lookup_ptrMap, hl, ptr]) (by simp [deref, hc']) i3]
              exact hr'
          refine ⟨i1.mono (fun a ha => by simp [ha]) (by
            intro a ha
            simp only [List.mem_cons] at ha
            rcases ha with rfl | ha
            · exact o.thaw _ (by simp)
            · exact i1.thaw a ha), step _ _ (by simp) i2, ?_, ?_⟩
          · simp only [mapOf, hm']
            intro hc
            have := lookup_ptrMap es k
            rw [hc, hl] at this
            simp at this
          · intro src k' ks' he a m2 es2 hg
            cases src with
            | nil => simp [aget] at hg
            | cons x xs =>
              simp only [List.cons_append, List.cons.injEq] at he
              obtain ⟨rfl, he⟩ := he
              cases xs with
              | nil =>
                simp only [aget, hl, Option.getD_some, Res.ok.injEq, ATree.obj.injEq] at hg
                obtain ⟨rfl, _, _⟩ := hg
                simp [getLoop, mapOf, hm', lookup_ptrMap, hl, ptr]
              | cons y ys =>
                simp only [aget, hl] at hg
                exact step _ _ (by simp) (i4 (y :: ys) k' ks' he a m2 es2 hg)

end Sawmill
