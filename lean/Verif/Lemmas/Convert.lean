import Verif.Model.Convert
import Verif.Spec.Convert
import Verif.Lemmas.HeapOps
import Verif.Lemmas.HeapGeneral
import Verif.Lemmas.WireUnknown
import Verif.Props.Path
/-!
# The conversions refine their specification
-/

namespace Sawmill
open Wire ATree

/-! ## From events to messages -/

mutual
theorem fromEventValue_spec {h : Heap} : ∀ (v : Val) {p : Ptr}, Reads h p v → ∀ (n : Nat), v.depth ≤ n → fromEventValue h n p = .ok (protoOf v)
  | .nilp, p, hr, n, hn => by
    simp only [Val.depth] at hn
    obtain ⟨n, rfl⟩ : ∃ k, n = k + 1 := ⟨n - 1, by omega⟩
    simp only [Reads] at hr
    subst hr
    simp [fromEventValue, deref, protoOf]
  | .scalar s, p, hr, n, hn => by
    simp only [Val.depth] at hn
    obtain ⟨n, rfl⟩ : ∃ k, n = k + 1 := ⟨n - 1, by omega⟩
    simp only [Reads] at hr
    simp only [fromEventValue, hr]
    cases s <;> simp [scalarCell, nullCell, boolCell, intCell, uintCell, floatCell, strCell, tsCell, protoOf]
  | .arrNil, p, hr, n, hn => by
    simp only [Val.depth] at hn
    obtain ⟨n, rfl⟩ : ∃ k, n = k + 1 := ⟨n - 1, by omega⟩
    simp only [Reads] at hr
    simp [fromEventValue, hr, arrCell, protoOf, collect]
  | .objNil, p, hr, n, hn => by
    simp only [Val.depth] at hn
    obtain ⟨n, rfl⟩ : ∃ k, n = k + 1 := ⟨n - 1, by omega⟩
    simp only [Reads] at hr
    simp [fromEventValue, fromEventValueObject, hr, objCell, protoOf, collect, mapOf]
  | .arr vs, p, hr, n, hn => by
    simp only [Val.depth] at hn
    obtain ⟨n, rfl⟩ : ∃ k, n = k + 1 := ⟨n - 1, by omega⟩
    simp only [Reads] at hr
    obtain ⟨ps, h1, h2⟩ := hr
    simp [fromEventValue, h1, arrCell, protoOf, fromItems_spec vs h2 n (by omega)]
  | .obj es, p, hr, n, hn => by
    simp only [Val.depth] at hn
    obtain ⟨n, rfl⟩ : ∃ k, n = k + 1 := ⟨n - 1, by omega⟩
    simp only [Reads] at hr
    obtain ⟨m, ps, h1, h2, h3⟩ := hr
    simp [fromEventValue, fromEventValueObject, h1, objCell, protoOf, mapOf, h2, fromFields_spec es h3 n (by omega)]
theorem fromItems_spec {h : Heap} : ∀ (vs : List Val) {ps : List Ptr}, ReadsL h ps vs → ∀ (n : Nat), Val.depthL vs ≤ n → collect (fromEventValue h n) ps = .ok (protoOfL vs)
  | [], ps, hr, n, hn => by
    cases ps <;> simp [ReadsL] at hr
    simp [collect, protoOfL]
  | v :: vs, ps, hr, n, hn => by
    cases ps with
    | nil => simp [ReadsL] at hr
    | cons p ps =>
      simp only [ReadsL] at hr
      simp only [Val.depthL] at hn
      simp [collect, protoOfL, fromEventValue_spec v hr.1 n (by omega), fromItems_spec vs hr.2 n (by omega)]
theorem fromFields_spec {h : Heap} : ∀ (es : List (Bytes × Val)) {ps : List (Bytes × Ptr)}, ReadsE h ps es → ∀ (n : Nat), Val.depthE es ≤ n →
    collect (fun e : Bytes × Ptr => do let v ← fromEventValue h n e.2; .ok (e.1, v)) ps = .ok (protoOfE es)
  | [], ps, hr, n, hn => by
    cases ps <;> simp [ReadsE] at hr
    simp [collect, protoOfE]
  | (k, v) :: vs, ps, hr, n, hn => by
    cases ps with
    | nil => simp [ReadsE] at hr
    | cons p ps =>
      obtain ⟨k', p⟩ := p
      simp only [ReadsE] at hr
      simp only [Val.depthE] at hn
      simp [collect, protoOfE, fromEventValue_spec v hr.2.1 n (by omega), fromFields_spec vs hr.2.2 n (by omega), hr.1]
end

/-! ## From messages to events -/

/-- The tree `t` with the contents `v` has been built in new memory of the heap `h'`, which extends `h`. -/
structure FreshTree (h h' : Heap) (t : ATree) (v : Val) : Prop where
  rep : Rep h' t
  erase : t.erase = v
  nodup : t.fp.Nodup
  fresh : ∀ a ∈ t.fp, h.length ≤ a
  frame : Frame [] h h'

theorem IsNull.frame {h h' : Heap} {nul : Ptr} (hn : IsNull h nul) (f : Frame [] h h') : IsNull h' nul := by
  obtain ⟨a, rfl, ha⟩ := deref_eq hn
  simp [IsNull, deref, f.get ha (by simp)]

theorem OwnsMap.frame0 {h h' : Heap} {m : Nat} {es : AMap ATree} (o : OwnsMap h m es) (f : Frame [] h h') : OwnsMap h' m es :=
  ⟨f.get o.at_ (by simp), o.sorted, repE_frame f _ o.rep (by simp), o.nodup⟩

theorem alloc_leaf (h : Heap) (s : Scalar) (c : Cell) (hc : c = scalarCell s) :
    ∃ h' t, (Res.ok ((Heap.alloc h (.cell c)).1, some (Heap.alloc h (.cell c)).2) : Res (Heap × Ptr)) = .ok (h', t.ptr) ∧ FreshTree h h' t (.scalar s) := by
  subst hc
  exact ⟨_, .leaf h.length s, rfl, by simp [Rep, Heap.alloc], rfl, by simp [fp], by simp [fp], frame_alloc _ _⟩

mutual
theorem toEventValue_spec {nul : Ptr} : ∀ (v : PValue) (h : Heap), IsNull h nul →
    (¬ HasKind v → toEventValue nul v h = .panic) ∧ (HasKind v → ∃ h' t, toEventValue nul v h = .ok (h', t.ptr) ∧ FreshTree h h' t (valueOf v))
  | .nil, h, hn => by simp [HasKind, toEventValue]
  | .mk kind _, h, hn => by
    simp only [HasKind, toEventValue, valueOf]
    exact toEventKind_spec kind h hn
theorem toEventKind_spec {nul : Ptr} : ∀ (k : PKind) (h : Heap), IsNull h nul →
    (¬ HasKindK k → toEventKind nul k h = .panic) ∧ (HasKindK k → ∃ h' t, toEventKind nul k h = .ok (h', t.ptr) ∧ FreshTree h h' t (valueOfK k))
  | .unset, h, hn => by simp [HasKindK, toEventKind]
  | .null v, h, hn => by
    obtain ⟨a, rfl, ha⟩ := deref_eq hn
    simp only [HasKindK, toEventKind, valueOfK, not_true, false_imp_iff, true_imp_iff, true_and]
    exact ⟨h, .leaf a .null, rfl, by simpa [Rep, scalarCell] using ha, rfl, by simp [fp], by simp [fp], Frame.refl h⟩
  | .array .nil, h, hn => by simp [HasKindK, toEventKind]
  | .array (.mk items u), h, hn => by
    have ih := toEventItems_spec items h hn
    simp only [HasKindK, toEventKind, valueOfK]
    constructor
    · intro hk; rw [ih.1 hk]
    · intro hk
      obtain ⟨h1, ts, e1, h2, h3, h4, h5, h6⟩ := ih.2 hk
      rw [e1]
      have f := frame_alloc h1 [HObj.cell (arrCell (some (ts.map ptr)))]
      refine ⟨_, .arr h1.length ts, rfl, ?_, by simp [ATree.erase, h3], ?_, ?_, h6.trans0 f⟩
      · exact ⟨by simp [Heap.alloc], repL_frame f _ h2 (by simp)⟩
      · simp only [fp, List.nodup_cons]
        exact ⟨fun hc => by have := fpL_lt _ h2 _ hc; omega, h4⟩
      · intro a ha
        simp only [fp, List.mem_cons] at ha
        rcases ha with rfl | ha
        · exact h6.len
        · exact h5 a ha
  | .boolean b, h, hn => by
    simp only [HasKindK, toEventKind, valueOfK, not_true, false_imp_iff, true_imp_iff, true_and]
    exact alloc_leaf h (.bool b) _ rfl
  | .float b, h, hn => by
    simp only [HasKindK, toEventKind, valueOfK, not_true, false_imp_iff, true_imp_iff, true_and]
    exact alloc_leaf h (.float b) _ rfl
  | .integer b, h, hn => by
    simp only [HasKindK, toEventKind, valueOfK, not_true, false_imp_iff, true_imp_iff, true_and]
    exact alloc_leaf h (.int b) _ rfl
  | .object .nil, h, hn => by simp [HasKindK, toEventKind]
  | .object (.mk fields u), h, hn => by
    have f0 := frame_alloc h [HObj.map []]
    have o : OwnsMap (h ++ [HObj.map []]) h.length [] := ⟨by simp [ptrMap, AMap.mapVals], AMap.sorted_nil, by simp [RepE], by simp [fpE]⟩
    have ih := toEventFields_spec fields (h ++ [HObj.map []]) (hn.frame f0) (h0 := h) o f0 (Nat.le_refl _) (by simp [fpE])
    simp only [HasKindK, toEventKind, valueOfK, Heap.alloc]
    constructor
    · intro hk; rw [ih.1 hk]
    · intro hk
      obtain ⟨h1, es, e1, o1, h2, h3, h4⟩ := ih.2 hk
      rw [e1]
      have f := frame_alloc h1 [HObj.cell (objCell (some h.length))]
      have o2 := o1.frame0 f
      refine ⟨_, .obj h1.length h.length es, rfl, ?_, by simp [ATree.erase, h2, eraseE], ?_, ?_, h4.trans0 f⟩
      · simp only [Rep]
        exact ⟨by simp, o2.at_, o2.sorted, o2.rep⟩
      · simpa only [fp] using o2.nodup
      · intro a ha
        simp only [fp, List.mem_cons] at ha
        rcases ha with rfl | ha
        · exact Nat.le_refl _
        · exact h3 a ha
  | .string b, h, hn => by
    simp only [HasKindK, toEventKind, valueOfK, not_true, false_imp_iff, true_imp_iff, true_and]
    exact alloc_leaf h (.str (b.getD [])) _ rfl
  | .timestamp b, h, hn => by
    simp only [HasKindK, toEventKind, valueOfK, not_true, false_imp_iff, true_imp_iff, true_and]
    exact alloc_leaf h (.ts b) _ rfl
  | .unsigned b, h, hn => by
    simp only [HasKindK, toEventKind, valueOfK, not_true, false_imp_iff, true_imp_iff, true_and]
    exact alloc_leaf h (.uint b) _ rfl
theorem toEventItems_spec {nul : Ptr} : ∀ (vs : List PValue) (h : Heap), IsNull h nul →
    (¬ HasKindL vs → toEventItems nul vs h = .panic) ∧
    (HasKindL vs → ∃ h' ts, toEventItems nul vs h = .ok (h', ts.map ptr) ∧ RepL h' ts ∧ eraseL ts = valueOfL vs ∧ (fpL ts).Nodup ∧ (∀ a ∈ fpL ts, h.length ≤ a) ∧ Frame [] h h')
  | [], h, hn => by
    simp only [HasKindL, toEventItems, valueOfL, not_true, false_imp_iff, true_imp_iff, true_and]
    exact ⟨h, [], rfl, by simp [RepL], by simp [eraseL], by simp [fpL], by simp [fpL], Frame.refl h⟩
  | v :: vs, h, hn => by
    have ih := toEventValue_spec v h hn
    simp only [HasKindL, toEventItems, valueOfL]
    by_cases hv : HasKind v
    · obtain ⟨h1, t, e1, b1⟩ := ih.2 hv
      have ih2 := toEventItems_spec vs h1 (hn.frame b1.frame)
      rw [e1]
      dsimp only
      constructor
      · intro hk
        rw [ih2.1 (fun h => hk ⟨hv, h⟩)]
      · intro hk
        obtain ⟨h2, ts, e2, k1, k2, k3, k4, k5⟩ := ih2.2 hk.2
        rw [e2]
        refine ⟨h2, t :: ts, rfl, ⟨rep_frame0 k5 b1.rep, k1⟩, by simp [eraseL, b1.erase, k2], ?_, ?_, b1.frame.trans0 k5⟩
        · simp only [fpL]
          rw [List.nodup_append]
          refine ⟨b1.nodup, k3, fun a ha b hb e => ?_⟩
          have := fp_lt _ b1.rep a ha
          have := k4 b hb
          omega
        · intro a ha
          simp only [fpL, List.mem_append] at ha
          rcases ha with ha | ha
          · exact b1.fresh a ha
          · exact Nat.le_trans b1.frame.len (k4 a ha)
    · rw [ih.1 hv]
      exact ⟨fun _ => rfl, fun hk => (hv hk.1).elim⟩
theorem toEventFields_spec {nul : Ptr} : ∀ (es : List (Bytes × PValue)) (h : Heap), IsNull h nul → ∀ {h0 : Heap} {m : Nat} {ts : AMap ATree}, OwnsMap h m ts → Frame [] h0 h →
    h0.length ≤ m → (∀ a ∈ fpE ts, h0.length ≤ a) →
    (¬ HasKindE es → toEventFields nul m es h = .panic) ∧
    (HasKindE es → ∃ h' ts', toEventFields nul m es h = .ok h' ∧ OwnsMap h' m ts' ∧ eraseE ts' = AMap.ofEntries (valueOfE es) (eraseE ts) ∧ (∀ a ∈ fpE ts', h0.length ≤ a) ∧ Frame [] h0 h')
  | [], h, hn, h0, m, ts, o, f, hm, hf => by
    simp only [HasKindE, toEventFields, valueOfE, not_true, false_imp_iff, true_imp_iff, true_and]
    exact ⟨h, ts, rfl, o, rfl, hf, f⟩
  | (k, v) :: es, h, hn, h0, m, ts, o, f, hm, hf => by
    have ih := toEventValue_spec v h hn
    simp only [HasKindE, toEventFields, valueOfE]
    by_cases hv : HasKind v
    · obtain ⟨h1, t, e1, b1⟩ := ih.2 hv
      have o1 := o.frame0 b1.frame
      obtain ⟨h2, e2, _, o2, k2, f2⟩ := mapWrite_owned (k := escapeKey k) o1 b1.rep b1.nodup (fun a ha hc => by
        have := o.lt a hc
        have := b1.fresh a ha
        omega)
      have f3 : Frame [] h0 h2 := (f.trans0 b1.frame).trans f2 (by simp only [List.mem_singleton]; rintro a rfl; exact .inr hm)
      have hn2 : IsNull h2 nul := by
        obtain ⟨a, rfl, ha⟩ := deref_eq (hn.frame b1.frame)
        have : a ≠ m := fun e => by subst e; rw [o1.at_] at ha; simp at ha
        simp [IsNull, deref, f2.get ha (by simp [this])]
      have ih2 := toEventFields_spec es h2 hn2 o2 f3 hm (fun a ha => by
        rcases k2 a ha with ha | ha
        · exact hf a ha
        · exact Nat.le_trans f.len (b1.fresh a ha))
      rw [e1]
      dsimp only
      rw [e2]
      dsimp only
      constructor
      · intro hk
        rw [ih2.1 (fun h => hk ⟨hv, h⟩)]
      · intro hk
        obtain ⟨h3, ts', e3, o3, q1, q2, q3⟩ := ih2.2 hk.2
        refine ⟨h3, ts', e3, o3, ?_, q2, q3⟩
        rw [q1, AMap.ofEntries_cons, eraseE_eq, AMap.mapVals_insert, b1.erase, ← eraseE_eq]
    · rw [ih.1 hv]
      exact ⟨fun _ => rfl, fun hk => (hv hk.1).elim⟩
end

/-! ## ToLogEvent -/

/-- `Put` of a freshly built value under one name. -/
theorem put_name {h : Heap} {f : AFields} {t : ATree} (o : Owns h f) (ht : Rep h t) (hd : t.fp.Nodup) (hdis : ∀ a ∈ t.fp, a ∉ f.fp) (hnil : t ≠ .nilp) (k : Bytes) :
    ∃ h' f' old err, apiPut h f.event (escapeKey k) t.ptr = .ok (h', f'.event, old, err) ∧ Owns h' f' ∧
      f'.erase = (if topName k = [] then f.erase else some (AMap.insert (f.erase.getD []) (topName k) t.erase)) ∧ Frame f.fp h h' ∧
      ∀ a ∈ f'.fp, a ∈ f.fp ∨ a ∈ t.fp ∨ h.length ≤ a := by
  have hp := put_spec o ht hd hdis (keyToPath (escapeKey k)) true
  unfold apiPut
  rw [keyToPath_escapeKey] at hp ⊢
  by_cases hk : topName k = []
  · rw [if_pos hk]
    simp only [topName] at hk
    rw [if_pos hk] at hp ⊢
    simp only [Spec.putFields, if_true, PutPost] at hp
    obtain ⟨h', f', told, err, e1, o1, e2, _, _, _, fr, fresh, _⟩ := hp
    exact ⟨h', f', told.ptr, err, e1, o1, e2, fr, fresh⟩
  · rw [if_neg hk]
    simp only [topName] at hk
    rw [if_neg hk] at hp ⊢
    simp only [topName]
    generalize k.filter (· ≠ bsl) = name at hk hp ⊢
    have hn : t.erase.isNil = false := by
      cases hx : t.erase.isNil with
      | false => rfl
      | true => exact (hnil (isNil_erase.1 hx)).elim
    obtain ⟨w, hw⟩ : ∃ w, Spec.getFields f.erase [name] = .ok w := by
      simp only [Spec.getFields]
      split
      · exact ⟨_, rfl⟩
      · exact ⟨_, rfl⟩
    have hs : Spec.putFields f.erase [name] t.erase true = .ok (some (AMap.insert (f.erase.getD []) name t.erase), w, none) := by
      simp [Spec.putFields, hn, hw, Spec.store]
    rw [hs] at hp
    simp only [PutPost] at hp
    obtain ⟨h', f', told, err, e1, o1, e2, _, _, _, fr, fresh, _⟩ := hp
    exact ⟨h', f', told.ptr, err, e1, o1, e2, fr, fresh⟩

theorem hasKind_ne_nilp {v : PValue} (h : HasKind v) : valueOf v ≠ .nilp := by
  cases v with
  | nil => exact h.elim
  | mk k u =>
    simp only [HasKind] at h
    simp only [valueOf]
    match k, h with
    | .null _, _ => simp [valueOfK]
    | .array .nil, h => exact h.elim
    | .array (.mk _ _), _ => simp [valueOfK]
    | .boolean _, _ => simp [valueOfK]
    | .float _, _ => simp [valueOfK]
    | .integer _, _ => simp [valueOfK]
    | .object .nil, h => exact h.elim
    | .object (.mk _ _), _ => simp [valueOfK]
    | .string _, _ => simp [valueOfK]
    | .timestamp _, _ => simp [valueOfK]
    | .unsigned _, _ => simp [valueOfK]

/-- The contents after putting some more entries. -/
def putAll : List (Bytes × Val) → Fields → Fields
  | [], f => f
  | (k, v) :: es, f => putAll es (some (AMap.insert (f.getD []) k v))

theorem toLogLoop_spec {nul : Ptr} : ∀ (es : List (Bytes × PValue)) (h : Heap), IsNull h nul → ∀ {h0 : Heap} {f : AFields}, Owns h f → Frame [] h0 h → (∀ a ∈ f.fp, h0.length ≤ a) →
    (¬ HasKindE es → toLogLoop nul es h f.event = .panic) ∧
    (HasKindE es → ∃ h' f', toLogLoop nul es h f.event = .ok (h', AFields.event f') ∧ Owns h' f' ∧ f'.erase = putAll (topEntries es) f.erase ∧ (∀ a ∈ f'.fp, h0.length ≤ a) ∧ Frame [] h0 h')
  | [], h, hn, h0, f, o, fr, hf => by
    simp only [HasKindE, toLogLoop, not_true, false_imp_iff, true_imp_iff, true_and]
    exact ⟨h, f, rfl, o, by simp [topEntries, putAll], hf, fr⟩
  | (k, v) :: es, h, hn, h0, f, o, fr, hf => by
    have ih := toEventValue_spec v h hn
    simp only [HasKindE, toLogLoop]
    by_cases hv : HasKind v
    · obtain ⟨h1, t, e1, b1⟩ := ih.2 hv
      have o1 : Owns h1 f := o.frame b1.frame (by simp)
      have hnil : t ≠ .nilp := fun e => hasKind_ne_nilp hv (by rw [← b1.erase, e]; rfl)
      obtain ⟨h2, f2, old, err, e2, o2, q1, fr2, q2⟩ := put_name o1 b1.rep b1.nodup (fun a ha hc => by
        have := o.lt a hc
        have := b1.fresh a ha
        omega) hnil k
      have fr3 : Frame [] h0 h2 := (fr.trans0 b1.frame).trans fr2 (fun a ha => .inr (hf a ha))
      have hn2 : IsNull h2 nul := by
        obtain ⟨a, rfl, ha⟩ := deref_eq (hn.frame b1.frame)
        simp [IsNull, deref, fr2.getFrozen ha (by simp [nullCell])]
      have ih2 := toLogLoop_spec es h2 hn2 o2 fr3 (fun a ha => by
        rcases q2 a ha with ha | ha | ha
        · exact hf a ha
        · exact Nat.le_trans fr.len (b1.fresh a ha)
        · exact Nat.le_trans (Nat.le_trans fr.len b1.frame.len) ha)
      rw [e1]
      dsimp only
      rw [e2]
      dsimp only
      constructor
      · intro hk
        rw [ih2.1 (fun h => hk ⟨hv, h⟩)]
      · intro hk
        obtain ⟨h3, f3, e3, o3, q3, q4, q5⟩ := ih2.2 hk.2
        refine ⟨h3, f3, e3, o3, ?_, q4, q5⟩
        rw [q3, q1, b1.erase]
        by_cases hk : topName k = []
        · simp [topEntries, hk]
        · simp [topEntries, hk, putAll]
    · rw [ih.1 hv]
      exact ⟨fun _ => rfl, fun hk => (hv hk.1).elim⟩

theorem putAll_some (es : List (Bytes × Val)) (m : AMap Val) : putAll es (some m) = some (AMap.ofEntries es m) := by
  induction es generalizing m with
  | nil => rfl
  | cons e es ih => obtain ⟨k, v⟩ := e; simp [putAll, ih]

theorem putAll_none (es : List (Bytes × PValue)) : putAll (topEntries es) none = logContents es := by
  unfold logContents
  cases h : topEntries es with
  | nil => simp [putAll]
  | cons e r => obtain ⟨k, v⟩ := e; simp [putAll, putAll_some]

end Sawmill
