import Verif.Lemmas.JsonEnc
import Verif.Lemmas.Hop
import Verif.Spec.History
/-!
# Decoding events from JSON
-/

namespace Sawmill
open Rfc ATree

theorem freshTree_nilp (h : Heap) : FreshTree h h .nilp .nilp := ⟨trivial, rfl, by simp [fp], by simp [fp], Frame.refl h⟩

theorem freshTree_leaf' {h : Heap} {s : Scalar} {c : Cell} (hc : c = scalarCell s) : FreshTree h (h ++ [.cell c]) (.leaf h.length s) (.scalar s) := by
  subst hc
  exact ⟨by simp [Rep], rfl, by simp [fp], by simp [fp], frame_alloc _ _⟩

mutual
theorem decodePtr_spec {env : JEnv} : ∀ (j : Json) (h : Heap),
    (¬ InRange env j → decodePtr env j h = none) ∧ (InRange env j → ∃ h' t, decodePtr env j h = some (h', t.ptr) ∧ FreshTree h h' t (jsonVal env j))
  | .null, h => ⟨fun hn => absurd trivial hn, fun _ => ⟨h, .nilp, rfl, freshTree_nilp h⟩⟩
  | .bool b, h => ⟨fun hn => absurd trivial hn, fun _ => ⟨_, .leaf h.length (.bool b), rfl, freshTree_leaf' rfl⟩⟩
  | .str s, h => ⟨fun hn => absurd trivial hn, fun _ => ⟨_, .leaf h.length (.str s), rfl, freshTree_leaf' rfl⟩⟩
  | .num t, h => by
    simp only [InRange, decodePtr, jsonVal]
    cases ha : env.atof t with
    | none => simp
    | some f =>
      simp only [Option.isSome_some, not_true, false_imp_iff, true_imp_iff, true_and, Option.getD_some]
      exact ⟨_, .leaf h.length (.float f), rfl, freshTree_leaf' rfl⟩
  | .arr js, h => by
    have ih := decodeItems_spec (env := env) js h
    simp only [InRange, decodePtr, jsonVal]
    refine ⟨fun hn => by rw [ih.1 hn], fun hr => ?_⟩
    obtain ⟨h1, ts, e, k1, k2, k3, k4, k5⟩ := ih.2 hr
    rw [e]
    have f := frame_alloc h1 [HObj.cell (arrCell (some (ts.map ptr)))]
    refine ⟨_, .arr h1.length ts, rfl, ?_, by simp [ATree.erase, k2], ?_, ?_, k5.trans0 f⟩
    · simp only [Rep]
      exact ⟨by simp, repL_frame f _ k1 (by simp)⟩
    · simp only [fp, List.nodup_cons]
      refine ⟨fun hm => ?_, k3⟩
      have := fpL_lt _ k1 _ hm
      omega
    · intro a ha
      simp only [fp, List.mem_cons] at ha
      rcases ha with rfl | ha
      · exact k5.len
      · exact k4 a ha
  | .obj es, h => by
    have o : OwnsMap (h ++ [.map []]) h.length [] := ⟨by simp [ptrMap, AMap.mapVals], AMap.sorted_nil, by simp [RepE], by simp [fpE]⟩
    have ih := decodeEntries_spec (env := env) es (h ++ [.map []]) o (h0 := h) (frame_alloc _ _) (Nat.le_refl _) (by simp [fpE])
    simp only [InRange, decodePtr, jsonVal]
    refine ⟨fun hn => by rw [ih.1 hn], fun hr => ?_⟩
    obtain ⟨h1, ts, e, o1, k2, k4, k5⟩ := ih.2 hr
    rw [e]
    have f := frame_alloc h1 [HObj.cell (objCell (some h.length))]
    have o2 := o1.frame0 f
    refine ⟨_, .obj h1.length h.length ts, rfl, ?_, by simp [ATree.erase, k2, eraseE], ?_, ?_, k5.trans0 f⟩
    · simp only [Rep]
      exact ⟨by simp, o2.at_, o2.sorted, o2.rep⟩
    · simpa only [fp] using o2.nodup
    · intro a ha
      simp only [fp, List.mem_cons] at ha
      rcases ha with rfl | ha
      · exact Nat.le_refl _
      · exact k4 a ha
theorem decodeItems_spec {env : JEnv} : ∀ (js : List Json) (h : Heap),
    (¬ InRangeL env js → decodeItems env js h = none) ∧
    (InRangeL env js → ∃ h' ts, decodeItems env js h = some (h', ts.map ptr) ∧ RepL h' ts ∧ eraseL ts = jsonValL env js ∧ (fpL ts).Nodup ∧ (∀ a ∈ fpL ts, h.length ≤ a) ∧ Frame [] h h')
  | [], h => ⟨fun hn => absurd trivial hn, fun _ => ⟨h, [], rfl, by simp [RepL], by simp [eraseL, jsonValL], by simp [fpL], by simp [fpL], Frame.refl h⟩⟩
  | j :: js, h => by
    have ih := decodePtr_spec (env := env) j h
    simp only [InRangeL, decodeItems, jsonValL]
    by_cases hv : InRange env j
    · obtain ⟨h1, t, e1, b1⟩ := ih.2 hv
      have ih2 := decodeItems_spec (env := env) js h1
      rw [e1]
      dsimp only
      constructor
      · intro hk
        rw [ih2.1 (fun h => hk ⟨hv, h⟩)]
      · intro hk
        obtain ⟨h2, ts, e2, k1, k2, k3, k4, k5⟩ := ih2.2 hk.2
        rw [e2]
        refine ⟨h2, t :: ts, rfl, ⟨rep_frame0 k5 b1.rep, k1⟩, by simp [eraseL, b1.erase, k2], ?_, ?_, b1.frame.trans0 k5⟩
        · simp only [fpL]
          rw [List.nodup_append]
          refine ⟨b1.nodup, k3, fun a ha b hb e => ?_⟩
          have := fp_lt _ b1.rep a ha
          have := k4 b hb
          omega
        · intro a ha
          simp only [fpL, List.mem_append] at ha
          rcases ha with ha | ha
          · exact b1.fresh a ha
          · exact Nat.le_trans b1.frame.len (k4 a ha)
    · rw [ih.1 hv]
      exact ⟨fun _ => rfl, fun hk => (hv hk.1).elim⟩
theorem decodeEntries_spec {env : JEnv} : ∀ (es : List (Bytes × Json)) (h : Heap) {h0 : Heap} {m : Nat} {ts : AMap ATree}, OwnsMap h m ts → Frame [] h0 h →
    h0.length ≤ m → (∀ a ∈ fpE ts, h0.length ≤ a) →
    (¬ InRangeE env es → decodeEntries env m es h = none) ∧
    (InRangeE env es → ∃ h' ts', decodeEntries env m es h = some h' ∧ OwnsMap h' m ts' ∧ eraseE ts' = AMap.ofEntries (jsonValE env es) (eraseE ts) ∧ (∀ a ∈ fpE ts', h0.length ≤ a) ∧ Frame [] h0 h')
  | [], h, h0, m, ts, o, f, hm, hf => ⟨fun hn => absurd trivial hn, fun _ => ⟨h, ts, rfl, o, rfl, hf, f⟩⟩
  | (k, j) :: es, h, h0, m, ts, o, f, hm, hf => by
    have ih := decodePtr_spec (env := env) j h
    simp only [InRangeE, decodeEntries, jsonValE]
    by_cases hv : InRange env j
    · obtain ⟨h1, t, e1, b1⟩ := ih.2 hv
      have o1 := o.frame0 b1.frame
      obtain ⟨h2, e2, _, o2, k2, f2⟩ := mapWrite_owned (k := k) o1 b1.rep b1.nodup (fun a ha hc => by
        have := o.lt a hc
        have := b1.fresh a ha
        omega)
      have f3 : Frame [] h0 h2 := (f.trans0 b1.frame).trans f2 (by simp only [List.mem_singleton]; rintro a rfl; exact .inr hm)
      have ih2 := decodeEntries_spec (env := env) es h2 o2 f3 hm (fun a ha => by
        rcases k2 a ha with ha | ha
        · exact hf a ha
        · exact Nat.le_trans f.len (b1.fresh a ha))
      rw [e1]
      dsimp only
      rw [e2]
      dsimp only
      constructor
      · intro hk
        rw [ih2.1 (fun h => hk ⟨hv, h⟩)]
      · intro hk
        obtain ⟨h3, ts', e3, o3, q1, q2, q3⟩ := ih2.2 hk.2
        refine ⟨h3, ts', e3, o3, ?_, q2, q3⟩
        rw [q1, AMap.ofEntries_cons, eraseE_eq, AMap.mapVals_insert, b1.erase, ← eraseE_eq]
    · rw [ih.1 hv]
      exact ⟨fun _ => rfl, fun hk => (hv hk.1).elim⟩
end

/-! ## Properties of all fields -/

theorem mem_ofEntries {α : Type} {es : List (Bytes × α)} {m : AMap α} {e : Bytes × α} (h : e ∈ AMap.ofEntries es m) : e ∈ es ∨ e ∈ m := by
  induction es generalizing m with
  | nil => exact .inr h
  | cons x es ih =>
    rw [AMap.ofEntries_cons] at h
    rcases ih h with h | h
    · exact .inl (by simp [h])
    · rcases AMap.mem_insert h with h | h
      · exact .inl (by simp [h])
      · exact .inr (by rcases h with h | h; exacts [h.1, h])

theorem jsonOnlyE_iff {es : List (Bytes × Val)} : Val.JsonOnlyE es ↔ ∀ e ∈ es, e.2.JsonOnly := by
  induction es with
  | nil => simp [Val.JsonOnlyE]
  | cons e es ih => obtain ⟨k, v⟩ := e; simp [Val.JsonOnlyE, ih]
theorem canonE_iff {es : List (Bytes × Val)} : Val.CanonE es ↔ ∀ e ∈ es, e.2.Canon := by
  induction es with
  | nil => simp [Val.CanonE]
  | cons e es ih => obtain ⟨k, v⟩ := e; simp [Val.CanonE, ih]
theorem finiteFloatsE_iff {es : List (Bytes × Val)} : Val.FiniteFloatsE es ↔ ∀ e ∈ es, e.2.FiniteFloats := by
  induction es with
  | nil => simp [Val.FiniteFloatsE]
  | cons e es ih => obtain ⟨k, v⟩ := e; simp [Val.FiniteFloatsE, ih]
theorem validTextE_iff {es : List (Bytes × Val)} : Val.ValidTextE es ↔ ∀ e ∈ es, ValidUtf8 e.1 ∧ e.2.ValidText := by
  induction es with
  | nil => simp [Val.ValidTextE]
  | cons e es ih => obtain ⟨k, v⟩ := e; simp [Val.ValidTextE, ih, and_assoc]
theorem nestE_le {es : List (Bytes × Val)} {d : Nat} : Val.nestE es ≤ d ↔ ∀ e ∈ es, e.2.nest ≤ d := by
  induction es with
  | nil => simp [Val.nestE]
  | cons e es ih =>
    obtain ⟨k, v⟩ := e
    simp only [Val.nestE, List.forall_mem_cons, ← ih]
    omega

mutual
/-- C50: what is decoded contains no null, no integer, no unsigned integer and no timestamp. -/
theorem jsonVal_jsonOnly {env : JEnv} : ∀ (j : Json), (jsonVal env j).JsonOnly
  | .null => trivial
  | .bool _ => trivial
  | .num _ => trivial
  | .str _ => trivial
  | .arr js => jsonValL_jsonOnly js
  | .obj es => by
    simp only [jsonVal, Val.JsonOnly, jsonOnlyE_iff]
    intro e he
    rcases mem_ofEntries he with he | he
    · exact jsonOnlyE_iff.1 (jsonValE_jsonOnly es) e he
    · simp at he
theorem jsonValL_jsonOnly {env : JEnv} : ∀ (js : List Json), Val.JsonOnlyL (jsonValL env js)
  | [] => trivial
  | j :: js => ⟨jsonVal_jsonOnly j, jsonValL_jsonOnly js⟩
theorem jsonValE_jsonOnly {env : JEnv} : ∀ (es : List (Bytes × Json)), Val.JsonOnlyE (jsonValE env es)
  | [] => trivial
  | (_, j) :: es => ⟨jsonVal_jsonOnly j, jsonValE_jsonOnly es⟩
end

mutual
theorem jsonVal_canon {env : JEnv} : ∀ (j : Json), (jsonVal env j).Canon
  | .null => trivial
  | .bool _ => trivial
  | .num _ => trivial
  | .str _ => trivial
  | .arr js => jsonValL_canon js
  | .obj es => by
    simp only [jsonVal, Val.Canon, canonE_iff]
    refine ⟨AMap.sorted_ofEntries AMap.sorted_nil, ?_⟩
    intro e he
    rcases mem_ofEntries he with he | he
    · exact canonE_iff.1 (jsonValE_canon es) e he
    · simp at he
theorem jsonValL_canon {env : JEnv} : ∀ (js : List Json), Val.CanonL (jsonValL env js)
  | [] => trivial
  | j :: js => ⟨jsonVal_canon j, jsonValL_canon js⟩
theorem jsonValE_canon {env : JEnv} : ∀ (es : List (Bytes × Json)), Val.CanonE (jsonValE env es)
  | [] => trivial
  | (_, j) :: es => ⟨jsonVal_canon j, jsonValE_canon es⟩
end

mutual
theorem jsonVal_nest {env : JEnv} : ∀ (j : Json), (jsonVal env j).nest ≤ depth j
  | .null => Nat.le_refl _
  | .bool _ => Nat.le_refl _
  | .num _ => Nat.le_refl _
  | .str _ => Nat.le_refl _
  | .arr js => by
    have := jsonValL_nest (env := env) js
    simp only [jsonVal, Val.nest, depth]; omega
  | .obj es => by
    have := jsonValE_nest (env := env) es
    simp only [jsonVal, Val.nest, depth]
    have : Val.nestE (AMap.ofEntries (jsonValE env es) []) ≤ depthE es := by
      rw [nestE_le]
      intro e he
      rcases mem_ofEntries he with he | he
      · exact nestE_le.1 this e he
      · simp at he
    omega
theorem jsonValL_nest {env : JEnv} : ∀ (js : List Json), Val.nestL (jsonValL env js) ≤ depthL js
  | [] => Nat.le_refl _
  | j :: js => by
    have := jsonVal_nest (env := env) j
    have := jsonValL_nest (env := env) js
    simp only [jsonValL, Val.nestL, depthL]; omega
theorem jsonValE_nest {env : JEnv} : ∀ (es : List (Bytes × Json)), Val.nestE (jsonValE env es) ≤ depthE es
  | [] => Nat.le_refl _
  | (_, j) :: es => by
    have := jsonVal_nest (env := env) j
    have := jsonValE_nest (env := env) es
    simp only [jsonValE, Val.nestE, depthE]; omega
end

mutual
theorem jsonVal_finite {env : JEnv} (hl : env.Lawful) : ∀ (j : Json), (jsonVal env j).FiniteFloats
  | .null => trivial
  | .bool _ => trivial
  | .num t => by
    simp only [jsonVal, Val.FiniteFloats]
    cases ha : env.atof t with
    | none => decide +kernel
    | some f => exact hl.finite t f ha
  | .str _ => trivial
  | .arr js => jsonValL_finite hl js
  | .obj es => by
    simp only [jsonVal, Val.FiniteFloats, finiteFloatsE_iff]
    intro e he
    rcases mem_ofEntries he with he | he
    · exact finiteFloatsE_iff.1 (jsonValE_finite hl es) e he
    · simp at he
theorem jsonValL_finite {env : JEnv} (hl : env.Lawful) : ∀ (js : List Json), Val.FiniteFloatsL (jsonValL env js)
  | [] => trivial
  | j :: js => ⟨jsonVal_finite hl j, jsonValL_finite hl js⟩
theorem jsonValE_finite {env : JEnv} (hl : env.Lawful) : ∀ (es : List (Bytes × Json)), Val.FiniteFloatsE (jsonValE env es)
  | [] => trivial
  | (_, j) :: es => ⟨jsonVal_finite hl j, jsonValE_finite hl es⟩
end

mutual
/-- Strings that were read are valid UTF-8. -/
theorem jsonVal_valid {env : JEnv} : ∀ (j : Json) (t : Bytes), Text j t → (jsonVal env j).ValidText
  | .null, _, _ => trivial
  | .bool _, _, _ => trivial
  | .num t, _, _ => trivial
  | .str s, t, h => by obtain ⟨u, _, hu⟩ := h; exact hu.valid
  | .arr [], t, h => trivial
  | .arr (j :: js), t, h => by
    obtain ⟨_, u, _, r, _, _, _, h1, h2⟩ := h
    exact ⟨jsonVal_valid j u h1, jsonValL_valid js r h2⟩
  | .obj [], t, h => trivial
  | .obj ((k, j) :: es), t, h => by
    obtain ⟨_, q, _, _, u, _, r, _, _, _, _, _, hq, h1, h2⟩ := h
    have a := jsonVal_valid (env := env) j u h1
    have b := jsonValE_valid (env := env) es r h2
    simp only [jsonVal, Val.ValidText, validTextE_iff]
    intro e he
    rcases mem_ofEntries he with he | he
    · simp only [jsonValE, List.mem_cons] at he
      rcases he with rfl | he
      · exact ⟨hq.valid, a⟩
      · exact validTextE_iff.1 b e he
    · simp at he
theorem jsonValL_valid {env : JEnv} : ∀ (js : List Json) (t : Bytes), TextItems js t → Val.ValidTextL (jsonValL env js)
  | [], _, _ => trivial
  | j :: js, t, h => by
    obtain ⟨_, u, _, r, _, _, _, h1, h2⟩ := h
    exact ⟨jsonVal_valid j u h1, jsonValL_valid js r h2⟩
theorem jsonValE_valid {env : JEnv} : ∀ (es : List (Bytes × Json)) (t : Bytes), TextEntries es t → Val.ValidTextE (jsonValE env es)
  | [], _, _ => trivial
  | (k, j) :: es, t, h => by
    obtain ⟨_, q, _, _, u, _, r, _, _, _, _, _, hq, h1, h2⟩ := h
    exact ⟨hq.valid, jsonVal_valid j u h1, jsonValE_valid es r h2⟩
end

/-! ## There and back -/

theorem i64_range (i : BitVec 64) : -2 ^ 63 ≤ i.toInt ∧ i.toInt < 2 ^ 64 := by
  have := BitVec.le_toInt i
  have := BitVec.toInt_lt (x := i)
  omega

theorem u64_range (i : BitVec 64) : -2 ^ 63 ≤ (i.toNat : Int) ∧ (i.toNat : Int) < 2 ^ 64 := by
  have := i.isLt
  omega

mutual
theorem says_back {env : JEnv} (hl : env.Lawful) : ∀ (v : Val) (j : Json), v.FiniteFloats → Says env v j → InRange env j ∧ Back env v (jsonVal env j)
  | .nilp, j, _, h => by rw [show j = _ from h]; exact ⟨trivial, rfl⟩
  | .scalar .null, j, _, h => by rw [show j = _ from h]; exact ⟨trivial, rfl⟩
  | .scalar (.bool b), j, _, h => by rw [show j = _ from h]; exact ⟨trivial, rfl⟩
  | .scalar (.int i), j, _, h => by
    obtain ⟨t, rfl, hi⟩ := h
    have := hl.int t _ hi (i64_range i).1 (i64_range i).2
    refine ⟨this, t, ?_⟩
    obtain ⟨f, hf⟩ := Option.isSome_iff_exists.1 this
    exact ⟨f, hi, hf, by simp [jsonVal, hf]⟩
  | .scalar (.uint i), j, _, h => by
    obtain ⟨t, rfl, hi⟩ := h
    have := hl.int t _ hi (u64_range i).1 (u64_range i).2
    refine ⟨this, t, ?_⟩
    obtain ⟨f, hf⟩ := Option.isSome_iff_exists.1 this
    exact ⟨f, hi, hf, by simp [jsonVal, hf]⟩
  | .scalar (.float f), j, hf, h => by
    rw [show j = _ from h]
    have := hl.exact f hf
    exact ⟨by simp [InRange, this], by simp [Back, jsonVal, this]⟩
  | .scalar (.str s), j, _, h => by
    obtain ⟨s', rfl, hr⟩ := h
    exact ⟨trivial, s', rfl, hr⟩
  | .scalar (.ts t), j, _, h => by
    obtain ⟨s', rfl, hr⟩ := h
    exact ⟨trivial, s', rfl, hr⟩
  | .arrNil, j, _, h => by rw [show j = _ from h]; exact ⟨trivial, rfl⟩
  | .arr vs, j, hf, h => by
    obtain ⟨js, rfl, hs⟩ := h
    obtain ⟨h1, h2⟩ := says_backL hl vs js hf hs
    exact ⟨h1, _, rfl, h2⟩
  | .objNil, j, _, h => by rw [show j = _ from h]; exact ⟨trivial, rfl⟩
  | .obj es, j, hf, h => by
    obtain ⟨js, rfl, hs⟩ := h
    obtain ⟨h1, h2⟩ := says_backE hl es js hf hs
    exact ⟨h1, _, rfl, h2⟩
theorem says_backL {env : JEnv} (hl : env.Lawful) : ∀ (vs : List Val) (js : List Json), Val.FiniteFloatsL vs → SaysL env vs js → InRangeL env js ∧ BackL env vs (jsonValL env js)
  | [], js, _, h => by rw [show js = _ from h]; exact ⟨trivial, rfl⟩
  | v :: vs, js, hf, h => by
    obtain ⟨j, r, rfl, h1, h2⟩ := h
    obtain ⟨a1, a2⟩ := says_back hl v j hf.1 h1
    obtain ⟨b1, b2⟩ := says_backL hl vs r hf.2 h2
    exact ⟨⟨a1, b1⟩, _, _, rfl, a2, b2⟩
theorem says_backE {env : JEnv} (hl : env.Lawful) : ∀ (es : List (Bytes × Val)) (js : List (Bytes × Json)), Val.FiniteFloatsE es → SaysE env es js → InRangeE env js ∧ BackE env es (jsonValE env js)
  | [], js, _, h => by rw [show js = _ from h]; exact ⟨trivial, rfl⟩
  | (k, v) :: es, js, hf, h => by
    obtain ⟨k', j, r, rfl, hk, h1, h2⟩ := h
    obtain ⟨a1, a2⟩ := says_back hl v j hf.1 h1
    obtain ⟨b1, b2⟩ := says_backE hl es r hf.2 h2
    exact ⟨⟨a1, b1⟩, _, _, _, rfl, hk, a2, b2⟩
end

mutual
/-- What JSON can represent comes back as it was. -/
theorem back_exact {env : JEnv} : ∀ (v w : Val), v.JsonOnly → v.ValidText → v.Canon → Back env v w → w = v
  | .nilp, w, _, _, _, h => h
  | .scalar .null, _, hj, _, _, _ => hj.elim
  | .scalar (.int _), _, hj, _, _, _ => hj.elim
  | .scalar (.uint _), _, hj, _, _, _ => hj.elim
  | .scalar (.ts _), _, hj, _, _, _ => hj.elim
  | .scalar (.bool b), w, _, _, _, h => h
  | .scalar (.float f), w, _, _, _, h => h
  | .scalar (.str s), w, _, hv, _, h => by
    obtain ⟨s', rfl, hr⟩ := h
    rw [hr.unique (.of_valid hv)]
  | .arrNil, _, hj, _, _, _ => hj.elim
  | .objNil, _, hj, _, _, _ => hj.elim
  | .arr vs, w, hj, hv, hc, h => by
    obtain ⟨ws, rfl, hb⟩ := h
    rw [back_exactL vs ws hj hv hc hb]
  | .obj es, w, hj, hv, hc, h => by
    obtain ⟨ws, rfl, hb⟩ := h
    rw [back_exactE es ws hj hv hc.2 hb, ofEntries_sorted hc.1]
theorem back_exactL {env : JEnv} : ∀ (vs ws : List Val), Val.JsonOnlyL vs → Val.ValidTextL vs → Val.CanonL vs → BackL env vs ws → ws = vs
  | [], ws, _, _, _, h => h
  | v :: vs, ws, hj, hv, hc, h => by
    obtain ⟨w, r, rfl, h1, h2⟩ := h
    rw [back_exact v w hj.1 hv.1 hc.1 h1, back_exactL vs r hj.2 hv.2 hc.2 h2]
theorem back_exactE {env : JEnv} : ∀ (es ws : List (Bytes × Val)), Val.JsonOnlyE es → Val.ValidTextE es → Val.CanonE es → BackE env es ws → ws = es
  | [], ws, _, _, _, h => h
  | (k, v) :: es, ws, hj, hv, hc, h => by
    obtain ⟨k', w, r, rfl, hk, h1, h2⟩ := h
    rw [hk.unique (.of_valid hv.1), back_exact v w hj.1 hv.2.1 hc.1 h1, back_exactE es r hj.2 hv.2.2 hc.2 h2]
end

theorem back_names {env : JEnv} : ∀ (es ws : List (Bytes × Val)), BackE env es ws → ∀ e ∈ ws, ValidUtf8 e.1
  | [], ws, h => by rw [show ws = _ from h]; simp
  | (k, v) :: es, ws, h => by
    obtain ⟨k', w, r, rfl, hk, h1, h2⟩ := h
    intro e he
    simp only [List.mem_cons] at he
    rcases he with rfl | he
    · exact hk.valid
    · exact back_names es r h2 e he

theorem back_keys {env : JEnv} : ∀ (es ws : List (Bytes × Val)), BackE env es ws → (∀ e ∈ es, ValidUtf8 e.1) → ws.map (·.1) = es.map (·.1)
  | [], ws, h, _ => by rw [show ws = _ from h]
  | (k, v) :: es, ws, h, hv => by
    obtain ⟨k', w, r, rfl, hk, h1, h2⟩ := h
    simp only [List.map_cons, back_keys es r h2 (fun e he => hv e (by simp [he])), hk.unique (.of_valid (hv (k, v) (by simp)))]

theorem sorted_of_keys {α β : Type} {a : AMap α} {b : AMap β} (h : a.map (·.1) = b.map (·.1)) (hb : AMap.Sorted b) : AMap.Sorted a := by
  have : ∀ {γ : Type} (c : AMap γ), AMap.Sorted c ↔ (c.map (·.1)).Pairwise (fun x y => bLt x y = true) := by
    intro γ c
    rw [List.pairwise_map]
    exact Iff.rfl
  rw [this] at hb ⊢
  rw [h]; exact hb

mutual
/-- Only what JSON can represent comes back as it was. -/
theorem back_self {env : JEnv} : ∀ (v : Val), v.Canon → Back env v v → v.JsonOnly ∧ v.ValidText
  | .nilp, _, _ => ⟨trivial, trivial⟩
  | .scalar .null, _, h => by simp [Back] at h
  | .scalar (.int _), _, h => by simp [Back] at h
  | .scalar (.uint _), _, h => by simp [Back] at h
  | .scalar (.ts _), _, h => by simp [Back] at h
  | .scalar (.bool b), _, _ => ⟨trivial, trivial⟩
  | .scalar (.float f), _, _ => ⟨trivial, trivial⟩
  | .scalar (.str s), _, h => by
    obtain ⟨s', he, hr⟩ := h
    simp only [Val.scalar.injEq, Scalar.str.injEq] at he
    subst he
    exact ⟨trivial, hr.valid⟩
  | .arrNil, _, h => by simp [Back] at h
  | .objNil, _, h => by simp [Back] at h
  | .arr vs, hc, h => by
    obtain ⟨ws, he, hb⟩ := h
    simp only [Val.arr.injEq] at he
    subst he
    exact back_selfL vs hc hb
  | .obj es, hc, h => by
    obtain ⟨ws, he, hb⟩ := h
    simp only [Val.obj.injEq] at he
    have hn := back_names es ws hb
    have hv : ∀ e ∈ es, ValidUtf8 e.1 := by
      intro e hm
      rw [he] at hm
      rcases mem_ofEntries hm with hm | hm
      · exact hn e hm
      · simp at hm
    have hs : AMap.Sorted ws := sorted_of_keys (back_keys es ws hb hv) hc.1
    rw [ofEntries_sorted hs] at he
    subst he
    exact back_selfE es hc.2 hb hv
theorem back_selfL {env : JEnv} : ∀ (vs : List Val), Val.CanonL vs → BackL env vs vs → Val.JsonOnlyL vs ∧ Val.ValidTextL vs
  | [], _, _ => ⟨trivial, trivial⟩
  | v :: vs, hc, h => by
    obtain ⟨w, r, he, h1, h2⟩ := h
    simp only [List.cons.injEq] at he
    obtain ⟨rfl, rfl⟩ := he
    have a := back_self v hc.1 h1
    have b := back_selfL vs hc.2 h2
    exact ⟨⟨a.1, b.1⟩, a.2, b.2⟩
theorem back_selfE {env : JEnv} : ∀ (es : List (Bytes × Val)), Val.CanonE es → BackE env es es → (∀ e ∈ es, ValidUtf8 e.1) → Val.JsonOnlyE es ∧ Val.ValidTextE es
  | [], _, _, _ => ⟨trivial, trivial⟩
  | (k, v) :: es, hc, h, hv => by
    obtain ⟨k', w, r, he, hk, h1, h2⟩ := h
    simp only [List.cons.injEq, Prod.mk.injEq] at he
    have hw : w = v := he.1.2.symm
    have hr : r = es := he.2.symm
    rw [hw] at h1
    rw [hr] at h2
    have a := back_self v hc.1 h1
    have b := back_selfE es hc.2 h2 (fun e hm => hv e (by simp [hm]))
    exact ⟨⟨a.1, b.1⟩, hv (k, v) (by simp), a.2, b.2⟩
end

/-- Coming back as it was, for the fields of an event. -/
theorem backE_self_iff {env : JEnv} {es ws : List (Bytes × Val)} (hs : AMap.Sorted es) (hc : Val.CanonE es) (hb : BackE env es ws) :
    AMap.ofEntries ws [] = es ↔ Val.JsonOnlyE es ∧ Val.ValidTextE es := by
  constructor
  · intro he
    exact back_self (.obj es) ⟨hs, hc⟩ ⟨ws, by rw [he], hb⟩
  · rintro ⟨h1, h2⟩
    rw [back_exactE es ws h1 h2 hc hb, ofEntries_sorted hs]

end Sawmill
