import Verif.Lemmas.HeapApi
import Verif.Spec.History
/-!
# Whole API calls and histories
-/

namespace Sawmill
open ATree

theorem Frame.trans' {h h' h'' : Heap} {S : List Nat} (f : Frame [] h h') (g : Frame S h' h'')
    (hS : ∀ a ∈ S, a < h.length → ¬ Frozen h a) : Frame (S.filter (· < h.length)) h h'' :=
  ⟨Nat.le_trans f.len g.len, fun a ha hn => by
    have hn' : a ∉ S := fun hin => hn (by simp [hin, ha])
    rw [g.same a (Nat.lt_of_lt_of_le ha f.len) hn', f.same a ha (by simp)], fun a ha => by
      simp only [List.mem_filter, decide_eq_true_eq] at ha
      exact hS a ha.1 ha.2⟩

theorem Frame.trans0 {h h' h'' : Heap} (f : Frame [] h h') (g : Frame [] h' h'') : Frame [] h h'' :=
  f.trans g (by simp)

theorem rep_frame0 {h h' : Heap} (f : Frame [] h h') {t : ATree} (hr : Rep h t) : Rep h' t := rep_frame f t hr (by simp)

mutual
theorem build_spec (h : Heap) : ∀ (v : Val), v.Canon →
    Rep (build h v).1 (build h v).2 ∧ (build h v).2.erase = v ∧ (build h v).2.fp.Nodup ∧
    (∀ a ∈ (build h v).2.fp, h.length ≤ a) ∧ Frame [] h (build h v).1
  | .nilp, _ => by simp [build, Rep, ATree.erase, fp, Frame.refl]
  | .scalar s, _ => by simp [build, Rep, ATree.erase, fp, Heap.alloc, frame_alloc]
  | .arrNil, _ => by simp [build, Rep, ATree.erase, fp, Heap.alloc, frame_alloc]
  | .objNil, _ => by simp [build, Rep, ATree.erase, fp, Heap.alloc, frame_alloc]
  | .arr vs, hc => by
    have ⟨h1, h2, h3, h4, h5⟩ := buildL_spec h vs (by simpa [Val.Canon] using hc)
    simp only [build, Heap.alloc]
    have f := frame_alloc (buildL h vs).1 [HObj.cell (arrCell (some ((buildL h vs).2.map ptr)))]
    refine ⟨⟨by simp, repL_frame f _ h1 (by simp)⟩, by simp [ATree.erase, h2], ?_, ?_, h5.trans0 f⟩
    · simp only [fp, List.nodup_cons]
      exact ⟨fun hc => by have := fpL_lt _ h1 _ hc; omega, h3⟩
    · intro a ha
      simp only [fp, List.mem_cons] at ha
      rcases ha with rfl | ha
      · exact h5.len
      · exact h4 a ha
  | .obj es, hc => by
    simp only [Val.Canon] at hc
    have ⟨h1, h2, h3, h4, h5⟩ := buildE_spec h es hc.2
    simp only [build, Heap.alloc]
    have f := frame_alloc (buildE h es).1 [HObj.map (ptrMap (buildE h es).2), HObj.cell (objCell (some (buildE h es).1.length))]
    have e : (buildE h es).1 ++ [HObj.map (ptrMap (buildE h es).2)] ++ [HObj.cell (objCell (some (buildE h es).1.length))]
      = (buildE h es).1 ++ [HObj.map (ptrMap (buildE h es).2), HObj.cell (objCell (some (buildE h es).1.length))] := by simp
    rw [e]
    refine ⟨?_, by simp [ATree.erase, h2], ?_, ?_, h5.trans0 f⟩
    · simp only [Rep]
      refine ⟨by simp, by simp, ?_, repE_frame f _ h1 (by simp)⟩
      have hs := hc.1
      rw [← h2, eraseE_eq] at hs
      unfold AMap.Sorted at hs ⊢
      simpa [AMap.mapVals, List.pairwise_map] using hs
    · simp only [fp, List.nodup_cons]
      exact ⟨fun hc => by have := fpE_lt _ h1 _ hc; omega, h3⟩
    · intro a ha
      simp only [fp, List.mem_cons] at ha
      rcases ha with rfl | ha
      · exact h5.len
      · exact h4 a ha
theorem buildL_spec (h : Heap) : ∀ (vs : List Val), Val.CanonL vs →
    RepL (buildL h vs).1 (buildL h vs).2 ∧ eraseL (buildL h vs).2 = vs ∧ (fpL (buildL h vs).2).Nodup ∧
    (∀ a ∈ fpL (buildL h vs).2, h.length ≤ a) ∧ Frame [] h (buildL h vs).1
  | [], _ => by simp [buildL, RepL, eraseL, fpL, Frame.refl]
  | v :: vs, hc => by
    simp only [Val.CanonL] at hc
    have ⟨h1, h2, h3, h4, h5⟩ := build_spec h v hc.1
    have ⟨k1, k2, k3, k4, k5⟩ := buildL_spec (build h v).1 vs hc.2
    simp only [buildL, RepL, eraseL, fpL]
    refine ⟨⟨rep_frame0 k5 h1, k1⟩, by rw [h2, k2], ?_, ?_, h5.trans0 k5⟩
    · rw [List.nodup_append]
      refine ⟨h3, k3, fun a ha b hb e => ?_⟩
      have := fp_lt _ h1 a ha
      have := k4 b hb
      omega
    · intro a ha
      rw [List.mem_append] at ha
      rcases ha with ha | ha
      · exact h4 a ha
      · exact Nat.le_trans h5.len (k4 a ha)
theorem buildE_spec (h : Heap) : ∀ (vs : List (Bytes × Val)), Val.CanonE vs →
    RepE (buildE h vs).1 (buildE h vs).2 ∧ eraseE (buildE h vs).2 = vs ∧ (fpE (buildE h vs).2).Nodup ∧
    (∀ a ∈ fpE (buildE h vs).2, h.length ≤ a) ∧ Frame [] h (buildE h vs).1
  | [], _ => by simp [buildE, RepE, eraseE, fpE, Frame.refl]
  | (k, v) :: vs, hc => by
    simp only [Val.CanonE] at hc
    have ⟨h1, h2, h3, h4, h5⟩ := build_spec h v hc.1
    have ⟨k1, k2, k3, k4, k5⟩ := buildE_spec (build h v).1 vs hc.2
    simp only [buildE, RepE, eraseE, fpE]
    refine ⟨⟨rep_frame0 k5 h1, k1⟩, by rw [h2, k2], ?_, ?_, h5.trans0 k5⟩
    · rw [List.nodup_append]
      refine ⟨h3, k3, fun a ha b hb e => ?_⟩
      have := fp_lt _ h1 a ha
      have := k4 b hb
      omega
    · intro a ha
      rw [List.mem_append] at ha
      rcases ha with ha | ha
      · exact h4 a ha
      · exact Nat.le_trans h5.len (k4 a ha)
end

theorem Owns.frame {h h' : Heap} {S : List Nat} {f : AFields} (o : Owns h f) (fr : Frame S h h') (hd : ∀ a ∈ f.fp, a ∉ S) :
    Owns h' f := by
  cases f with
  | none => trivial
  | some f =>
    obtain ⟨m, es⟩ := f
    simp only [Owns, AFields.fp] at o hd ⊢
    exact ⟨fr.get o.1 (hd m (by simp)), o.2.1, repE_frame fr _ o.2.2.1 (fun a ha => hd a (by simp [ha])), o.2.2.2⟩

theorem Owns.lt {h : Heap} {f : AFields} (o : Owns h f) : ∀ a ∈ f.fp, a < h.length := by
  cases f with
  | none => simp [AFields.fp]
  | some f =>
    obtain ⟨m, es⟩ := f
    exact (OwnsMap.mk o.1 o.2.1 o.2.2.1 o.2.2.2).lt

theorem Owns.thaw {h : Heap} {f : AFields} (o : Owns h f) : ∀ a ∈ f.fp, ¬ Frozen h a := by
  cases f with
  | none => simp [AFields.fp]
  | some f =>
    obtain ⟨m, es⟩ := f
    exact (OwnsMap.mk o.1 o.2.1 o.2.2.1 o.2.2.2).thaw

theorem Owns.holds {h : Heap} {f : AFields} (o : Owns h f) : Holds h f.event f.erase := by
  cases f with
  | none => simp [Holds, AFields.event, AFields.erase]
  | some f =>
    obtain ⟨m, es⟩ := f
    exact ⟨m, _, rfl, o.1, repE_reads _ o.2.2.1⟩

theorem ptr_eq_none {t : ATree} : t.ptr = none ↔ t = .nilp := by cases t <;> simp [ptr]

theorem erase_nilp {t : ATree} : t.erase = .nilp ↔ t = .nilp := by cases t <;> simp [ATree.erase]

theorem eraseE_nil {es : AMap ATree} : eraseE es = [] ↔ es = [] := by
  cases es with
  | nil => simp [eraseE]
  | cons e t => obtain ⟨k, v⟩ := e; simp [eraseE]

theorem get_spec {h : Heap} {f : AFields} (o : Owns h f) (path : List Bytes) :
    match Spec.getFields f.erase path with
    | .panic => get h f.event path = .panic
    | .ok v => ∃ h' t, get h f.event path = .ok (h', t.ptr) ∧ Rep h' t ∧ t.erase = v ∧ Frame [] h h' ∧
        (∀ a ∈ t.fp, a ∈ f.fp) ∧ (path ≠ [] → h' = h) := by
  cases f with
  | none =>
    simp only [AFields.erase, Spec.getFields, Option.getD_none, if_true, AFields.event]
    exact ⟨h, .nilp, by simp [get, mapOf, ptr], by simp [Rep], by simp [ATree.erase], Frame.refl h, by simp [fp], by simp⟩
  | some f =>
    obtain ⟨m, es⟩ := f
    simp only [Owns] at o
    simp only [AFields.erase, Spec.getFields, Option.getD_some, AFields.event, get, mapOf, o.1]
    by_cases he : es = []
    · subst he
      simp only [eraseE, if_true, ptrMap, AMap.mapVals, List.map_nil, List.length_nil]
      exact ⟨h, .nilp, rfl, by simp [Rep], by simp [ATree.erase], Frame.refl h, by simp [fp], by simp⟩
    · have hl : (ptrMap es).length ≠ 0 := by simp [ptrMap, AMap.mapVals, he]
      have he' : eraseE es ≠ [] := fun hc => he (eraseE_nil.1 hc)
      simp only [he', if_false, hl]
      cases path with
      | nil =>
        simp only [if_true, Heap.alloc]
        refine ⟨_, .obj h.length m es, rfl, ?_, by simp [ATree.erase], frame_alloc h _, by simp [fp, AFields.fp], by simp⟩
        have fr := frame_alloc h [HObj.cell (objCell (some m))]
        simp only [Rep]
        exact ⟨by simp, fr.get o.1 (by simp), o.2.1, repE_frame fr _ o.2.2.1 (by simp)⟩
      | cons k ks =>
        simp only [reduceCtorEq, if_false, aget_erase, getLoop_spec _ o.1 o.2.2.1]
        cases hg : aget es (k :: ks) with
        | panic => simp
        | ok t =>
          simp only [Res.map_ok]
          have hs := aget_sub o.2.2.1 hg
          exact ⟨h, t, rfl, hs.1, rfl, Frame.refl h, fun a ha => by simp [AFields.fp, hs.2 a ha], fun _ => rfl⟩

theorem get_spec' {h : Heap} {m : Nat} {es : AMap ATree} (o : OwnsMap h m es) (path : List Bytes) (hp : path ≠ []) :
    get h (some m) path = (aget es path).map fun t => (h, t.ptr) := by
  simp only [get, mapOf, o.at_]
  cases path with
  | nil => exact absurd rfl hp
  | cons k ks =>
    by_cases he : es = []
    · subst he
      have : aget [] (k :: ks) = .ok .nilp := by cases ks <;> simp [aget]
      simp [ptrMap, AMap.mapVals, this, ptr]
    · have hl : (ptrMap es).length ≠ 0 := by simp [ptrMap, AMap.mapVals, he]
      simp only [hl, if_false, getLoop_spec _ o.at_ o.rep, res_map_map]
      rfl

theorem nilp_isNil : Val.nilp.isNil = true := rfl

theorem isNil_erase {t : ATree} : t.erase.isNil = true ↔ t = .nilp := by cases t <;> simp [ATree.erase, Val.isNil]

theorem OwnsMap.owns {h : Heap} {m : Nat} {es : AMap ATree} (o : OwnsMap h m es) : Owns h (some (m, es)) :=
  ⟨o.at_, o.sorted, o.rep, o.nodup⟩

/-- What `put` guarantees, relative to the outcome prescribed by the specification. -/
def PutPost (h : Heap) (f : AFields) (t : ATree) (path : List Bytes) (ow : Bool) (r : Res (Fields × Val × Option Spec.Error)) : Prop :=
  match r with
    | .panic => put h f.event path t.ptr ow = .panic
    | .ok (F', V, err) => ∃ h' f' old err', put h f.event path t.ptr ow = .ok (h', AFields.event f', ATree.ptr old, err') ∧
        Owns h' f' ∧ f'.erase = F' ∧ Rep h' old ∧ old.erase = V ∧ errMatches err' err ∧ Frame f.fp h h' ∧
        (∀ a ∈ f'.fp, a ∈ f.fp ∨ a ∈ t.fp ∨ h.length ≤ a) ∧ (∀ a ∈ old.fp, a ∈ f.fp) ∧
        (∀ p, err' = some (.keyExists p) ∨ err' = some (.notObject p) → p = path) ∧
        (err' ≠ none → h' = h ∧ f' = f)

theorem getFields_some (es : AMap Val) (path : List Bytes) (hp : path ≠ []) :
    Spec.getFields (some es) path = Spec.get es path := by
  simp only [Spec.getFields, Option.getD_some, hp, if_false]
  split
  · next he =>
    subst he
    cases path with
    | nil => exact absurd rfl hp
    | cons k ks => cases ks <;> simp [Spec.get]
  · rfl

theorem put_some_spec {h : Heap} {m : Nat} {es : AMap ATree} {t : ATree} (o : OwnsMap h m es) (ht : Rep h t) (hd : t.fp.Nodup)
    (hdis : ∀ a ∈ t.fp, a ∉ m :: fpE es) (path : List Bytes) (hp : path ≠ []) (hn : t ≠ .nilp) (ow : Bool) :
    PutPost h (some (m, es)) t path ow (Spec.putFields (some (eraseE es)) path t.erase ow) := by
  have hpl : path.length ≠ 0 := by simpa using hp
  have hpn : t.ptr ≠ none := fun hc => hn (ptr_eq_none.1 hc)
  have hen : t.erase.isNil = false := by
    cases hc : t.erase.isNil with
    | false => rfl
    | true => exact absurd (isNil_erase.1 hc) hn
  simp only [PutPost, put, hpl, hpn, if_false, AFields.event, get_spec' o path hp, Spec.putFields, hp, hen, Bool.false_eq_true,
    getFields_some _ _ hp, aget_erase, Option.getD_some]
  cases hg : aget es path with
  | panic => simp [Res.map]
  | ok told =>
    have hsub := aget_sub o.rep hg
    have htd := touched_disjoint path o hg
    simp only [Res.map_ok, Res.bind_ok]
    by_cases hc : told ≠ .nilp ∧ ow = false
    · have h1 : told.ptr ≠ none ∧ ow = false := ⟨fun e => hc.1 (ptr_eq_none.1 e), hc.2⟩
      have h2 : (!told.erase.isNil && !ow) = true := by
        have : told.erase.isNil = false := by
          cases hq : told.erase.isNil with
          | false => rfl
          | true => exact absurd (isNil_erase.1 hq) hc.1
        simp [this, hc.2]
      rw [if_pos h1, if_pos h2]
      exact ⟨h, some (m, es), told, _, rfl, o.owns, rfl, hsub.1, rfl, trivial, (Frame.refl h).mono (by simp) o.thaw,
        fun a ha => .inl ha, fun a ha => by simp [AFields.fp, hsub.2 a ha], by simp, by simp⟩
    · have h1 : ¬ (told.ptr ≠ none ∧ ow = false) := fun ⟨a, b⟩ => hc ⟨fun e => a (ptr_eq_none.2 e), b⟩
      have h2 : ¬ ((!told.erase.isNil && !ow) = true) := by
        intro hq
        simp only [Bool.and_eq_true, Bool.not_eq_true'] at hq
        exact hc ⟨fun e => by rw [isNil_erase.2 e] at hq; simp at hq, hq.2⟩
      simp only [h1, h2, if_false]
      have hs := putLoop_spec path hp o ht hd hdis
      rw [astore_erase h.length]
      cases ha : astore h.length es path t with
      | panic => simp only [ha] at hs; simp [hs]
      | ok r =>
        cases r with
        | none =>
          simp only [ha] at hs
          simp only [hs, Res.map_ok, Option.map_none, Res.bind_ok]
          exact ⟨h, some (m, es), .nilp, _, rfl, o.owns, rfl, by simp [Rep], by simp [ATree.erase], trivial, (Frame.refl h).mono (by simp) o.thaw,
            fun a ha => .inl ha, by simp [fp], by simp, by simp⟩
        | some es' =>
          simp only [ha] at hs
          obtain ⟨h', p1, p2, p3, p4⟩ := hs
          simp only [p1, Res.map_ok, Option.map_some, Res.bind_ok]
          refine ⟨h', some (m, es'), told, none, rfl, p2.owns, rfl, rep_frame p4 told hsub.1 htd, rfl, trivial,
            p4.mono (touched_sub _ _ _) o.thaw, ?_, fun a ha => by simp [AFields.fp, hsub.2 a ha], by simp, by simp⟩
          intro a ha'
          simp only [AFields.fp, List.mem_cons] at ha' ⊢
          rcases ha' with rfl | ha'
          · simp
          · rcases p3 a ha' with h5 | h5 | h5 <;> simp [h5]

theorem spec_get_nil (path : List Bytes) : Spec.get [] path = .ok .nilp := by
  cases path with
  | nil => rfl
  | cons k ks => cases ks <;> simp [Spec.get]

theorem spec_store_nil (path : List Bytes) (v : Val) : ∃ es, Spec.store [] path v = .ok (some es) := by
  induction path with
  | nil => exact ⟨[], rfl⟩
  | cons k ks ih =>
    cases ks with
    | nil => exact ⟨_, rfl⟩
    | cons k2 ks =>
      obtain ⟨es, he⟩ := ih
      exact ⟨_, by simp [Spec.store, he]; rfl⟩

/-- `put` on an owned event with an owned value refines `Spec.putFields`. -/
theorem put_spec {h : Heap} {f : AFields} {t : ATree} (o : Owns h f) (ht : Rep h t) (hd : t.fp.Nodup)
    (hdis : ∀ a ∈ t.fp, a ∉ f.fp) (path : List Bytes) (ow : Bool) :
    PutPost h f t path ow (Spec.putFields f.erase path t.erase ow) := by
  by_cases hp : path = []
  · subst hp
    simp only [PutPost, Spec.putFields, if_true]
    exact ⟨h, f, .nilp, some .emptyKey, by simp [put, ptr], o, rfl, by simp [Rep], by simp [ATree.erase], trivial,
      (Frame.refl h).mono (by simp) o.thaw, fun a ha => .inl ha, by simp [fp], by simp, by simp⟩
  have hpl : path.length ≠ 0 := by simpa using hp
  by_cases hn : t = .nilp
  · subst hn
    simp only [PutPost, Spec.putFields, hp, if_false, ATree.erase, Val.isNil, if_true, put, hpl, ptr]
    exact ⟨h, f, .nilp, none, rfl, o, rfl, by simp [Rep], by simp [ATree.erase], trivial,
      (Frame.refl h).mono (by simp) o.thaw, fun a ha => .inl ha, by simp [fp], by simp, by simp⟩
  cases f with
  | some f =>
    obtain ⟨m, es⟩ := f
    exact put_some_spec ⟨o.1, o.2.1, o.2.2.1, o.2.2.2⟩ ht hd hdis path hp hn ow
  | none =>
    have hpn : t.ptr ≠ none := fun hc => hn (ptr_eq_none.1 hc)
    have fr := frame_alloc h [HObj.map []]
    have o1 : OwnsMap (h ++ [HObj.map []]) h.length [] :=
      ⟨by simp [ptrMap, AMap.mapVals], AMap.sorted_nil, by simp [RepE], by simp [fpE]⟩
    have key := put_some_spec o1 (rep_frame0 fr ht) hd (by
      intro a ha hc
      simp only [fpE, List.mem_singleton] at hc
      have := fp_lt t ht a ha
      omega) path hp hn ow
    have hen : t.erase.isNil = false := by
      cases hc : t.erase.isNil with
      | false => rfl
      | true => exact absurd (isNil_erase.1 hc) hn
    obtain ⟨es', he'⟩ := spec_store_nil path t.erase
    have hspec : Spec.putFields (some (eraseE [])) path t.erase ow = .ok (some es', .nilp, none) := by
      simp [Spec.putFields, hp, hen, getFields_some _ _ hp, eraseE, spec_get_nil, he', nilp_isNil]
    have hspec' : Spec.putFields (AFields.erase none) path t.erase ow = .ok (some es', .nilp, none) := by
      simp [Spec.putFields, hp, hen, AFields.erase, Spec.getFields, he', nilp_isNil]
    rw [hspec] at key
    rw [hspec']
    simp only [PutPost] at key ⊢
    obtain ⟨h', f', old, err', k1, k2, k3, k4, k5, k6, k7, k8, k9, k10, k11⟩ := key
    have herr : err' = none := by cases err' <;> simp_all [errMatches]
    subst herr
    refine ⟨h', f', old, none, ?_, k2, k3, k4, k5, k6, ?_, ?_, ?_, by simp, by simp⟩
    · rw [← k1]
      simp [put, hpl, hpn, AFields.event, Heap.alloc]
    · have := fr.trans' k7 (by intro a ha hl; simp only [AFields.fp, fpE, List.mem_singleton] at ha; omega)
      simpa [AFields.fp, fpE] using this
    · intro a ha
      rcases k8 a ha with h5 | h5 | h5
      · simp only [AFields.fp, fpE, List.mem_singleton] at h5
        right; right; omega
      · simp [h5]
      · simp only [List.length_append, List.length_singleton] at h5
        right; right; omega
    · have : old = .nilp := erase_nilp.1 k5
      subst this
      simp [fp]

/-- `delete` on an owned event refines `Spec.deleteFields`. -/
theorem delete_spec {h : Heap} {f : AFields} (o : Owns h f) (path : List Bytes) :
    match Spec.deleteFields f.erase path with
    | .panic => delete h f.event path = .panic
    | .ok (F', V) => ∃ h' f' old, delete h f.event path = .ok (h', ATree.ptr old) ∧ AFields.event f' = f.event ∧
        Owns h' f' ∧ f'.erase = F' ∧ Rep h' old ∧ old.erase = V ∧ Frame f.fp h h' ∧
        (∀ a ∈ f'.fp, a ∈ f.fp) ∧ (∀ a ∈ old.fp, a ∈ f.fp) := by
  have triv : ∀ (F : Fields), F = f.erase → ∃ h' f' old, Res.ok (h, (none : Ptr)) = .ok (h', ATree.ptr old) ∧ AFields.event f' = f.event ∧
        Owns h' f' ∧ f'.erase = F ∧ Rep h' old ∧ old.erase = .nilp ∧ Frame f.fp h h' ∧
        (∀ a ∈ f'.fp, a ∈ f.fp) ∧ (∀ a ∈ old.fp, a ∈ f.fp) := fun F hF =>
    ⟨h, f, .nilp, rfl, rfl, o, hF.symm, by simp [Rep], by simp [ATree.erase], (Frame.refl h).mono (by simp) o.thaw, fun a ha => ha, by simp [fp]⟩
  cases path with
  | nil => exact triv _ rfl
  | cons k ks =>
    cases f with
    | none =>
      simp only [AFields.erase, Spec.deleteFields, Spec.getFields, Option.getD_none, if_true, AFields.event, delete, mapOf, List.length_nil, Res.bind_ok, Val.isNil]
      exact triv _ rfl
    | some f =>
      obtain ⟨m, es⟩ := f
      have om : OwnsMap h m es := ⟨o.1, o.2.1, o.2.2.1, o.2.2.2⟩
      by_cases he : es = []
      · subst he
        simp only [AFields.erase, eraseE, Spec.deleteFields, Spec.getFields, Option.getD_some, if_true, AFields.event, delete, mapOf, om.at_,
          ptrMap, AMap.mapVals, List.map_nil, List.length_nil, Res.bind_ok, Val.isNil]
        exact triv _ (by simp [AFields.erase, eraseE])
      · have hl : (ptrMap es).length ≠ 0 := by simp [ptrMap, AMap.mapVals, he]
        simp only [AFields.erase, Spec.deleteFields, getFields_some _ (k :: ks) (by simp), aget_erase, delete, AFields.event, mapOf, om.at_, hl, if_false,
          get_spec' om (k :: ks) (by simp)]
        cases hg : aget es (k :: ks) with
        | panic => simp
        | ok t =>
          have hsub := aget_sub om.rep hg
          simp only [Res.map_ok, Res.bind_ok]
          by_cases ht : t = .nilp
          · subst ht
            simp only [ATree.erase, Val.isNil, if_true, ptr, ne_eq, not_true_eq_false]
            exact triv _ rfl
          · have h1 : t.ptr ≠ none := fun e => ht (ptr_eq_none.1 e)
            have h2 : ¬ (t.erase.isNil = true) := fun e => ht (isNil_erase.1 e)
            simp only [h1, h2, ne_eq, not_false_eq_true, if_true, if_false, mapDelete, om.at_]
            have fr : Frame [m] h (h.set m (.map ((ptrMap es).erase k))) := frame_set om.at_
            have hnd := om.nodup
            rw [List.nodup_cons] at hnd
            have hml : m < h.length := lt_of_getElem? om.at_
            refine ⟨_, some (m, es.erase k), t, rfl, rfl, ⟨?_, AMap.sorted_erase k om.sorted, ?_, ?_⟩, ?_, ?_, rfl, ?_, ?_, ?_⟩
            · simp [List.getElem?_set_self hml, ptrMap, AMap.mapVals_erase]
            · rw [repE_iff]
              intro e hee
              have hm := (AMap.mem_erase.1 hee).1
              refine rep_frame fr _ (repE_iff.1 om.rep e hm) ?_
              intro a ha hc
              simp only [List.mem_singleton] at hc
              subst hc
              exact hnd.1 (mem_fpE_iff.2 ⟨e, hm, ha⟩)
            · cases hlk : es.lookup k with
              | none => rw [AMap.erase_of_not_mem hlk]; exact om.nodup
              | some t0 =>
                obtain ⟨l, r, q1, q2, q3⟩ := AMap.split_some om.sorted hlk
                rw [q3]
                have := om.nodup
                rw [q1] at this
                simp only [fpE_append, fpE, List.nodup_cons, List.nodup_append, List.mem_append] at this ⊢
                grind
            · simp [AFields.erase, eraseE_eq, AMap.mapVals_erase]
            · refine rep_frame fr _ hsub.1 ?_
              intro a ha hc
              simp only [List.mem_singleton] at hc
              subst hc
              exact hnd.1 (hsub.2 a ha)
            · exact fr.mono (by simp [AFields.fp]) om.thaw
            · intro a ha
              simp only [AFields.fp, List.mem_cons] at ha ⊢
              rcases ha with ha | ha
              · exact .inl ha
              · obtain ⟨e, h3, h4⟩ := mem_fpE_iff.1 ha
                exact .inr (mem_fpE_iff.2 ⟨e, (AMap.mem_erase.1 h3).1, h4⟩)
            · intro a ha
              simp [AFields.fp, hsub.2 a ha]

end Sawmill
