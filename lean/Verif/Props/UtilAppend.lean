import Verif.Props.Processors
/-!
# C38: `eventutil.Append`
-/

namespace Sawmill
open ATree

/-- The trees an item contributes. -/
def ATree.elements : ATree → List ATree
  | .arr _ vs => vs
  | .arrNil _ => []
  | t => [t]

theorem elements_spec {h : Heap} {t : ATree} (ht : Rep h t) (hd : t.fp.Nodup) (hn : t ≠ .nilp) :
    ∃ i c, t.ptr = some i ∧ deref h (some i) = some c ∧ (if c.type = .array then c.array.getD [] else [some i]) = t.elements.map ptr ∧
      RepL h t.elements ∧ (fpL t.elements).Nodup ∧ (∀ a ∈ fpL t.elements, a ∈ t.fp) ∧ eraseL t.elements = Spec.elements t.erase := by
  cases t with
  | nilp => exact absurd rfl hn
  | leaf a s =>
    simp only [Rep] at ht
    refine ⟨a, scalarCell s, rfl, by simp [deref, ht], ?_, by simpa [ATree.elements, RepL, Rep] using ht, by simp [ATree.elements, fpL, fp], by simp [ATree.elements, fpL, fp], rfl⟩
    simp [scalarCell_type, ATree.elements, ptr]
  | arrNil a =>
    simp only [Rep] at ht
    exact ⟨a, arrCell none, rfl, by simp [deref, ht], by simp [arrCell, ATree.elements], by simp [ATree.elements, RepL], by simp [ATree.elements, fpL], by simp [ATree.elements, fpL], rfl⟩
  | arr a vs =>
    simp only [Rep] at ht
    simp only [fp, List.nodup_cons] at hd
    exact ⟨a, arrCell (some (vs.map ptr)), rfl, by simp only [deref, ht.1], by simp [arrCell, ATree.elements], ht.2, hd.2, fun x hx => by simp [fp]; exact .inr hx, rfl⟩
  | objNil a =>
    simp only [Rep] at ht
    exact ⟨a, objCell none, rfl, by simp [deref, ht], by simp [objCell, ATree.elements, ptr], by simpa [ATree.elements, RepL, Rep] using ht, by simp [ATree.elements, fpL, fp], by simp [ATree.elements, fpL, fp], rfl⟩
  | obj a m es =>
    have ht' := ht
    simp only [Rep] at ht
    exact ⟨a, objCell (some m), rfl, by simp [deref, ht], by simp [objCell, ATree.elements, ptr], by simpa [ATree.elements, RepL] using ht', by simpa [ATree.elements, fpL] using hd, by simp [ATree.elements, fpL], rfl⟩

/-- Outcome of `eventutil.Append` on an owned event, against the specification. -/
def UtilPost (h : Heap) (f : AFields) (t : ATree) (run : Res (Heap × Event × Option PutErr)) (r : Res (Fields × Option Spec.Error)) : Prop :=
  match r with
  | .panic => run = .panic
  | .ok (F', pe) => ∃ h' f' err, run = .ok (h', AFields.event f', err) ∧ Owns h' f' ∧ f'.erase = F' ∧ errMatches err pe ∧ Frame f.fp h h' ∧
      (∀ a ∈ f'.fp, a ∈ f.fp ∨ a ∈ t.fp ∨ h.length ≤ a)

/-- Appending a list of pointers to a fresh array cell at the end of the heap. -/
theorem appendTo_last (h : Heap) (p : Option (List Ptr)) (items : List Ptr) :
    appendTo (h ++ [.cell (arrCell p)]) h.length items = .ok (h ++ [.cell (arrCell (some (p.getD [] ++ items)))]) := by
  simp [appendTo, deref, arrCell]

/-- Appending to a fresh cell. -/
theorem appendTo_fresh (h : Heap) (init : Option (List Ptr)) (us : List ATree) :
    (if us.map ptr = [] then (.ok (h ++ [.cell (arrCell init)]) : Res Heap) else appendTo (h ++ [.cell (arrCell init)]) h.length (us.map ptr)) =
      .ok (h ++ [.cell (arrCell (if us = [] then init else some (init.getD [] ++ us.map ptr)))]) := by
  by_cases hu : us = []
  · subst hu; simp
  · simp [hu, appendTo_last]

theorem util_of_put {h h1 : Heap} {f : AFields} {t T : ATree} (o : Owns h f) (fr : Frame [] h h1) (hT : Rep h1 T) (hd : T.fp.Nodup) (hdis : ∀ a ∈ T.fp, a ∉ f.fp)
    (hnew : ∀ a ∈ T.fp, a ∈ t.fp ∨ h.length ≤ a) (key : Bytes) :
    UtilPost h f t ((apiPut h1 f.event key T.ptr).map fun (h, e, _, err) => (h, e, err))
      ((Spec.putFields f.erase (keyToPath key) T.erase true).map fun (f', _, err) => (f', err)) := by
  have o1 := o.frame fr (by simp)
  have hk := put_spec o1 hT hd hdis (keyToPath key) true
  simp only [UtilPost, apiPut]
  cases hs : Spec.putFields f.erase (keyToPath key) T.erase true with
  | panic => simp only [PutPost, hs] at hk; simp [hk]
  | ok r =>
    obtain ⟨F', V, er⟩ := r
    simp only [PutPost, hs] at hk
    obtain ⟨h', f', old, err', k1, k2, k3, k4, k5, k6, k7, k8, k9, k10, k11⟩ := hk
    simp only [Res.map_ok, k1]
    refine ⟨h', f', err', rfl, k2, k3, k6, frame_lift fr k7 o.thaw, ?_⟩
    intro a ha
    rcases k8 a ha with h1 | h1 | h1
    · exact .inl h1
    · exact .inr (hnew a h1)
    · exact .inr (.inr (Nat.le_trans fr.len h1))

/-- Finishing when the value found is replaced, in an event whose map exists. -/
theorem util_of_replace {h h1 : Heap} {m : Nat} {es : AMap ATree} {t T old : ATree} (o : OwnsMap h m es) (fr : Frame [] h h1) (hT : Rep h1 T) (hd : T.fp.Nodup)
    (hn : T ≠ .nilp) (hdis : ∀ a ∈ T.fp, a ∈ old.fp ∨ a ∉ m :: fpE es) (hnew : ∀ a ∈ T.fp, a ∈ old.fp ∨ a ∈ t.fp ∨ h.length ≤ a) (key : Bytes) (hp : keyToPath key ≠ [])
    (hg : aget es (keyToPath key) = .ok old) :
    UtilPost h (some (m, es)) t ((apiPut h1 (some m) key T.ptr).map fun (h, e, _, err) => (h, e, err))
      ((Spec.putFields (some (eraseE es)) (keyToPath key) T.erase true).map fun (f', _, err) => (f', err)) := by
  have o1 := o.frame fr (by simp)
  have hk := put_replace o1 hT hn hd _ hp hdis hg
  have hen : T.erase.isNil = false := by
    cases hc : T.erase.isNil with
    | false => rfl
    | true => exact absurd (isNil_erase.1 hc) hn
  have hgo := (aget_sub o1.rep hg).2
  rw [putFields_eq _ _ _ hp hen, getFields_some _ _ hp, aget_erase, hg]
  simp only [Option.getD_some, Res.map_ok, Res.bind_ok, astore_erase h1.length, apiPut]
  cases ha : astore h1.length es (keyToPath key) T with
  | panic => simp only [ha] at hk; simp [hk, UtilPost]
  | ok r =>
    cases r with
    | none =>
      simp only [ha] at hk
      simp only [hk, Res.map_ok, Option.map_none, Res.bind_ok, UtilPost]
      exact ⟨h1, some (m, es), _, rfl, o1.owns, rfl, trivial, fr.mono (by simp) o.thaw, fun a ha => .inl ha⟩
    | some es' =>
      simp only [ha] at hk
      obtain ⟨h2, p1, p2, p3, p4⟩ := hk
      simp only [p1, Res.map_ok, Option.map_some, Res.bind_ok, UtilPost]
      refine ⟨h2, some (m, es'), none, rfl, p2.owns, rfl, trivial, frame_lift fr (p4.mono (touched_sub _ _ _) o1.thaw) o.thaw, ?_⟩
      intro a ha
      simp only [AFields.fp, List.mem_cons] at ha ⊢
      rcases ha with rfl | ha
      · simp
      · rcases p3 a ha with h3 | h3 | h3
        · simp [h3]
        · rcases hnew a h3 with h4 | h4 | h4
          · simp [hgo a h4]
          · simp [h4]
          · simp [h4]
        · right; right; have := fr.len; omega

/-- Putting a value back where it is changes nothing. -/
theorem putLoop_same {h : Heap} {m : Nat} {es : AMap ATree} {t : ATree} (path : List Bytes) (hp : path ≠ []) (o : OwnsMap h m es) (hg : aget es path = .ok t)
    (hn : t ≠ .nilp) : putLoop h (some m) path t.ptr = .ok (h, true) := by
  induction path generalizing m es with
  | nil => exact absurd rfl hp
  | cons k ks ih =>
    cases ks with
    | nil =>
      simp only [aget, Res.ok.injEq] at hg
      cases hl : AMap.lookup es k with
      | none => simp only [hl, Option.getD_none] at hg; exact absurd hg.symm hn
      | some t0 =>
        simp only [hl, Option.getD_some] at hg
        subst hg
        simp only [putLoop, mapWrite, o.at_, Res.map_ok]
        have : (ptrMap es).insert k t0.ptr = ptrMap es := by
          rw [ptrMap, ← AMap.mapVals_insert, AMap.insert_lookup_self o.sorted hl]
        rw [this]
        have : h.set m (.map (ptrMap es)) = h := by
          apply List.ext_getElem?
          intro i
          by_cases hi : m = i
          · subst hi; rw [List.getElem?_set_self (lt_of_getElem? o.at_), o.at_]
          · rw [List.getElem?_set_ne hi]
        rw [this]
    | cons k2 ks =>
      simp only [aget] at hg
      simp only [putLoop, mapOf, o.at_, lookup_ptrMap]
      cases hl : AMap.lookup es k with
      | none => simp only [hl, Res.ok.injEq] at hg; exact absurd hg.symm hn
      | some t0 =>
        cases t0 with
        | obj b m' es1 =>
          simp only [hl] at hg ⊢
          have hr := rep_of_lookup o.rep hl
          simp only [Rep] at hr
          simp only [Option.map_some, ptr, deref, hr.1, objCell, ne_eq, not_true_eq_false, if_false]
          exact ih (by simp) (o.sub hl) hg
        | nilp => simp [hl] at hg
        | leaf b s => simp only [hl, Res.ok.injEq] at hg; exact absurd hg.symm hn
        | arrNil b => simp only [hl, Res.ok.injEq] at hg; exact absurd hg.symm hn
        | arr b vs => simp only [hl, Res.ok.injEq] at hg; exact absurd hg.symm hn
        | objNil b => simp only [hl, Res.ok.injEq] at hg; exact absurd hg.symm hn

theorem put_same {h : Heap} {m : Nat} {es : AMap ATree} {t : ATree} (path : List Bytes) (hp : path ≠ []) (o : OwnsMap h m es) (hg : aget es path = .ok t)
    (hn : t ≠ .nilp) : put h (some m) path t.ptr true = .ok (h, some m, t.ptr, none) := by
  rw [put_eq_some hp (fun hc => hn (ptr_eq_none.1 hc)), get_spec' o path hp, hg]
  simp [putLoop_same path hp o hg hn]

/-- C38. `eventutil.Append` of a value that shares nothing with the event. -/
theorem utilAppend_spec {h : Heap} {f : AFields} {t : ATree} (o : Owns h f) (ht : Rep h t) (hd : t.fp.Nodup) (hdis : ∀ a ∈ t.fp, a ∉ f.fp) (key : Bytes) :
    UtilPost h f t (utilAppend h f.event key t.ptr) (Spec.utilAppend f.erase key t.erase) := by
  by_cases hn : t = .nilp
  · subst hn
    exact ⟨h, f, none, rfl, o, rfl, trivial, (Frame.refl h).mono (by simp) o.thaw, fun a ha => .inl ha⟩
  have hen : t.erase.isNil = false := by
    cases hc : t.erase.isNil with
    | false => rfl
    | true => exact absurd (isNil_erase.1 hc) hn
  have hg := apiGet_spec o key
  obtain ⟨i, c, e1, e2, e3, e4, e5, e6, e7⟩ := elements_spec ht hd hn
  simp only [Spec.utilAppend, hen, utilAppend, e1, ← e7]
  have etl := fp_lt t ht
  generalize hus : t.elements = us at *
  cases hs : Spec.getFields f.erase (keyToPath key) with
  | panic => simp only [hs] at hg; simp [hg, UtilPost]
  | ok v =>
    simp only [hs] at hg
    obtain ⟨h1, old, k1, k2, k3, k4, k5, k6, k7⟩ := hg
    simp only [Res.bind_ok, k1, if_false, Bool.false_eq_true]
    have hi0 : ∀ h2, Frame [] h h2 → deref h2 (some i) = some c := by
      intro h2 this
      simp only [deref] at e2 ⊢
      cases hx : h[i]? with
      | none => simp [hx] at e2
      | some x => rw [this.get hx (by simp)]; simpa [hx] using e2
    have hi : ∀ o', deref (h1 ++ [o']) (some i) = some c := fun o' => hi0 _ (k4.trans0 (frame_alloc h1 [o']))
    have hl1 : ∀ a ∈ fpL us, a < h1.length := fun a ha => Nat.lt_of_lt_of_le (etl a (e6 a ha)) k4.len
    have hf1 : h1.length ∉ f.fp := fun hc => by have := k5.lt _ hc; omega
    by_cases ho : old = .nilp
    · subst ho
      simp only [ATree.erase] at k3
      subst k3
      simp only [ptr, Heap.alloc, hi, e3, appendTo_fresh]
      by_cases hu : us = []
      · subst hu
        simp only [if_true, eraseL, Spec.appended]
        exact util_of_put (T := .arrNil h1.length) o (k4.trans0 (frame_alloc h1 _)) (by simp [Rep]) (by simp [fp]) (by simpa [fp] using hf1)
          (by simp [fp, k4.len]) key
      · simp only [hu, if_false, Option.getD_none, List.nil_append]
        have he : Spec.appended .nilp (eraseL us) = ATree.erase (.arr h1.length us) := by
          cases us with
          | nil => exact absurd rfl hu
          | cons u us => simp [eraseL, Spec.appended, ATree.erase, Spec.asList]
        rw [he]
        refine util_of_put (T := .arr h1.length us) o (k4.trans0 (frame_alloc h1 _)) ?_ ?_ ?_ ?_ key
        · simp only [Rep]
          exact ⟨by simp, repL_frame (k4.trans0 (frame_alloc h1 _)) _ e4 (by simp)⟩
        · simp only [fp, List.nodup_cons]
          exact ⟨fun hc => by have := hl1 _ hc; omega, e5⟩
        · intro a ha
          simp only [fp, List.mem_cons] at ha
          rcases ha with rfl | ha
          · exact hf1
          · exact hdis a (e6 a ha)
        · intro a ha
          simp only [fp, List.mem_cons] at ha
          rcases ha with rfl | ha
          · exact .inr k4.len
          · exact .inl (e6 a ha)
    · obtain ⟨a, c', d1, d2, d3, d4, _⟩ := deref_rep k2 ho
      have hvn : v ≠ .nilp := by rintro rfl; exact ho (erase_nilp.1 k3)
      simp only [d1, d2]
      by_cases harr : (∃ a, old = .arrNil a) ∨ ∃ a vs, old = .arr a vs
      · -- an array: changed in place
        have hp : keyToPath key ≠ [] := by
          intro hc
          rw [hc] at hs
          simp only [Spec.getFields, if_true] at hs
          split at hs
          · simp at hs; exact hvn hs.symm
          · simp only [Res.ok.injEq] at hs
            subst hs
            rcases harr with ⟨b, rfl⟩ | ⟨b, vs, rfl⟩ <;> simp [ATree.erase] at k3
        obtain rfl := k7 hp
        have hc := d4.2 harr
        simp only [hc, ne_eq, not_true_eq_false, if_false, hi0 h1 (Frame.refl h1), e3]
        cases f with
        | none => simp [AFields.erase, Spec.getFields] at hs; exact absurd hs.symm hvn
        | some f =>
          obtain ⟨m, es⟩ := f
          have om : OwnsMap h1 m es := ⟨o.1, o.2.1, o.2.2.1, o.2.2.2⟩
          have hgs := get_spec' om _ hp
          have hgf := hs
          simp only [AFields.erase, getFields_some _ _ hp, aget_erase] at hs
          simp only [apiGet, AFields.event, hgs] at k1
          obtain ⟨t', hg⟩ : ∃ t', aget es (keyToPath key) = .ok t' := by
            cases hg : aget es (keyToPath key) with
            | panic => simp [hg] at hs
            | ok t' => exact ⟨t', rfl⟩
          simp only [hg, Res.map_ok, Res.ok.injEq, Prod.mk.injEq, true_and] at hs k1
          rw [d1] at k1
          obtain ⟨vs, hold⟩ : ∃ vs, ((t' = .arrNil a ∧ vs = [] ∧ v = .arrNil) ∨ (t' = .arr a vs ∧ v = .arr (eraseL vs))) := by
            rcases harr with ⟨b, rfl⟩ | ⟨b, vs, rfl⟩
            · simp only [ATree.erase] at k3; subst k3
              cases t' <;> simp [ATree.erase] at hs
              simp [ptr] at k1; subst k1; exact ⟨[], .inl ⟨rfl, rfl, rfl⟩⟩
            · simp only [ATree.erase] at k3; subst k3
              cases t' <;> simp [ATree.erase] at hs
              simp [ptr] at k1; subst k1; exact ⟨_, .inr ⟨rfl, by rw [hs]⟩⟩
          have htn : t' ≠ .nilp := by rcases hold with ⟨rfl, _⟩ | ⟨rfl, _⟩ <;> simp
          obtain ⟨tr, tsub⟩ := aget_sub om.rep hg
          have tnd := aget_nodup (List.nodup_cons.1 om.nodup).2 hg
          by_cases hu : us = []
          · subst hu
            have hput := put_same _ hp om hg htn
            rw [k1] at hput
            have happ : Spec.appended v [] = v := by
              rcases hold with ⟨_, _, rfl⟩ | ⟨_, rfl⟩ <;> simp [Spec.appended, Spec.asList, Spec.elements]
            simp only [List.map_nil, if_true, eraseL, happ, apiPut, AFields.event, hput, Res.map_ok]
            have hvi : v.isNil = false := by rcases hold with ⟨_, _, rfl⟩ | ⟨_, rfl⟩ <;> rfl
            have hst : Spec.store (eraseE es) (keyToPath key) v = .ok (some (eraseE es)) := by
              have := astore_erase 0 es (keyToPath key) t'
              rw [astore_self _ hp om hg htn, hs] at this
              simpa using this
            simp only [AFields.erase]
            rw [putFields_eq _ _ _ hp hvi, show Spec.getFields (some (eraseE es)) (keyToPath key) = .ok v from hgf]
            simp only [Option.getD_some, hst, Res.bind_ok, Res.map_ok, UtilPost]
            exact ⟨h1, some (m, es), none, rfl, om.owns, rfl, trivial, (Frame.refl h1).mono (by simp) om.thaw, fun a ha => .inl ha⟩
          · obtain ⟨ar, vd, vsub, vr, pp, hcell, hpp⟩ : a ∈ t'.fp ∧ (fpL vs).Nodup ∧ (∀ x ∈ fpL vs, x ∈ t'.fp ∧ x ≠ a) ∧ RepL h1 vs ∧
                ∃ p, h1[a]? = some (.cell (arrCell p)) ∧ p.getD [] = vs.map ptr := by
              rcases hold with ⟨rfl, rfl, _⟩ | ⟨rfl, _⟩
              · simp only [Rep] at tr
                exact ⟨by simp [fp], by simp [fpL], by simp [fpL], by simp [RepL], none, tr, rfl⟩
              · simp only [Rep] at tr
                simp only [fp, List.nodup_cons] at tnd
                exact ⟨by simp [fp], tnd.2, fun x hx => ⟨by simp [fp, hx], by rintro rfl; exact tnd.1 hx⟩, tr.2, _, tr.1, rfl⟩
            have hdj : ∀ x ∈ fpL us, x ∉ m :: fpE es := fun x hx => hdis x (e6 x hx)
            obtain ⟨es2, r1, r2, r3, r4⟩ := array_update (a := a) (us := vs ++ us) _ hp om hg
              (by rcases hold with ⟨h1, _⟩ | ⟨h1, _⟩; exact .inl h1; exact .inr ⟨_, h1⟩)
              (by rw [repL_iff] at vr e4 ⊢; intro e he; rw [List.mem_append] at he; exact he.elim (vr e) (e4 e))
              (by
                rw [fpL_append, List.nodup_append]
                refine ⟨vd, e5, ?_⟩
                rintro x hx y hy rfl
                exact hdj x hy (by simp [tsub x (vsub x hx).1]))
              (by
                intro x hx
                rw [fpL_append, List.mem_append] at hx
                exact hx.elim (fun hx => .inl (vsub x hx)) (fun hx => .inr (hdj x hx))) 0
            have hg2 := aget_astore_self hp r1
            have hput := put_same _ hp r2 hg2 (by simp)
            simp only [ptr] at hput
            have hst : Spec.store (eraseE es) (keyToPath key) (.arr (eraseL vs ++ eraseL us)) = .ok (some (eraseE es2)) := by
              have := astore_erase 0 es (keyToPath key) (.arr a (vs ++ us))
              rw [r1] at this
              simpa [ATree.erase, eraseL_eq] using this
            have happ : Spec.appended v (eraseL us) = .arr (eraseL vs ++ eraseL us) := by
              cases us with
              | nil => exact absurd rfl hu
              | cons u us => rcases hold with ⟨_, rfl, rfl⟩ | ⟨_, rfl⟩ <;> simp [Spec.appended, Spec.asList, Spec.elements, eraseL]
            have hat : appendTo h1 a (us.map ptr) = .ok (h1.set a (.cell (arrCell (some ((vs ++ us).map ptr))))) := by
              simp [appendTo, deref, hcell, arrCell, hpp]
            have hmu : ¬ us.map ptr = [] := by simpa using hu
            simp only [hmu, if_false, hat, apiPut, AFields.event, hput, Res.map_ok, happ]
            simp only [AFields.erase]
            rw [putFields_eq _ _ _ hp rfl, show Spec.getFields (some (eraseE es)) (keyToPath key) = .ok v from hgf]
            simp only [Option.getD_some, hst, Res.bind_ok, Res.map_ok, UtilPost]
            refine ⟨_, some (m, es2), none, rfl, r2.owns, rfl, trivial, r4.mono (by
              intro x hx; simp only [List.mem_singleton] at hx; subst hx; simp [AFields.fp, tsub _ ar]) om.thaw, ?_⟩
            intro x hx
            simp only [AFields.fp, List.mem_cons] at hx ⊢
            rcases hx with rfl | hx
            · simp
            · rcases r3 x hx with h3 | h3
              · simp [h3]
              · rw [fpL_append, List.mem_append] at h3
                rcases h3 with h3 | h3
                · simp [tsub x (vsub x h3).1]
                · simp [e6 x h3]
      · -- anything else becomes the first element
        have hc : c'.type ≠ .array := fun h => harr (d4.1 h)
        have happ : Spec.appended v (eraseL us) = .arr (v :: eraseL us) := by
          cases old with
          | nilp => exact absurd rfl ho
          | arrNil b => exact absurd (.inl ⟨_, rfl⟩) harr
          | arr b vs => exact absurd (.inr ⟨_, _, rfl⟩) harr
          | leaf b s => simp only [ATree.erase] at k3; subst k3; cases us <;> simp [Spec.appended, Spec.asList, Spec.elements, eraseL]
          | objNil b => simp only [ATree.erase] at k3; subst k3; cases us <;> simp [Spec.appended, Spec.asList, Spec.elements, eraseL]
          | obj b m es => simp only [ATree.erase] at k3; subst k3; cases us <;> simp [Spec.appended, Spec.asList, Spec.elements, eraseL]
        simp only [hc, ne_eq, not_false_eq_true, if_true, Heap.alloc, hi, e3, appendTo_fresh, happ]
        have hcell : (if us = [] then some [some a] else some ((some [some a]).getD [] ++ us.map ptr)) = some ((old :: us).map ptr) := by
          rw [List.map_cons, d1]
          by_cases hu : us = []
          · simp [hu]
          · simp [hu]
        rw [hcell]
        by_cases hp : keyToPath key = []
        · simp only [apiPut, hp, put, List.length_nil, if_true, Res.map_ok, Spec.putFields, UtilPost]
          exact ⟨_, f, _, rfl, o.frame (k4.trans0 (frame_alloc h1 _)) (by simp), rfl, trivial, (k4.trans0 (frame_alloc h1 _)).mono (by simp) o.thaw, fun a ha => .inl ha⟩
        · obtain rfl := k7 hp
          cases f with
          | none => simp [AFields.erase, Spec.getFields] at hs; exact absurd hs.symm hvn
          | some f =>
            obtain ⟨m, es⟩ := f
            have om : OwnsMap h1 m es := ⟨o.1, o.2.1, o.2.2.1, o.2.2.2⟩
            have hgs := get_spec' om _ hp
            simp only [AFields.erase, getFields_some _ _ hp, aget_erase] at hs
            simp only [apiGet, AFields.event, hgs] at k1
            obtain ⟨t', hg⟩ : ∃ t', aget es (keyToPath key) = .ok t' := by
              cases hg : aget es (keyToPath key) with
              | panic => simp [hg] at hs
              | ok t' => exact ⟨t', rfl⟩
            simp only [hg, Res.map_ok, Res.ok.injEq, Prod.mk.injEq, true_and] at hs k1
            obtain ⟨tr, tsub⟩ := aget_sub om.rep hg
            have tnd := aget_nodup (List.nodup_cons.1 om.nodup).2 hg
            simp only [AFields.erase, AFields.event]
            have hE : Val.arr (v :: eraseL us) = ATree.erase (.arr h1.length (t' :: us)) := by simp [ATree.erase, eraseL, hs]
            rw [List.map_cons, ← k1, ← List.map_cons, hE]
            have ttl := fp_lt t' tr
            refine util_of_replace (T := .arr h1.length (t' :: us)) om (frame_alloc h1 _) ?_ ?_ (by simp) ?_ ?_ key hp hg
            · simp only [Rep, RepL]
              exact ⟨by simp, rep_frame0 (frame_alloc h1 _) tr, repL_frame (frame_alloc h1 _) _ e4 (by simp)⟩
            · simp only [fp, fpL, List.nodup_cons, List.nodup_append, List.mem_append]
              refine ⟨?_, tnd, e5, ?_⟩
              · rintro (hc | hc)
                · have := ttl _ hc; omega
                · have := hl1 _ hc; omega
              · rintro x hx y hy rfl
                exact hdis x (e6 x hy) (by simp [AFields.fp, tsub x hx])
            · intro x hx
              simp only [fp, fpL, List.mem_cons, List.mem_append] at hx
              rcases hx with rfl | hx | hx
              · exact .inr hf1
              · exact .inl hx
              · exact .inr (hdis x (e6 x hx))
            · intro x hx
              simp only [fp, fpL, List.mem_cons, List.mem_append] at hx
              rcases hx with rfl | hx | hx
              · exact .inr (.inr (Nat.le_refl _))
              · exact .inl hx
              · exact .inr (.inl (e6 x hx))

end Sawmill
