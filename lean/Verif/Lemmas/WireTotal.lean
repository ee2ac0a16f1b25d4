import Verif.Lemmas.WireLocal
import Verif.Spec.Wire
/-!
# The decoder neither crashes nor runs out of fuel, and what it accepts is well formed
-/

namespace Sawmill.Wire

/-- A case of the switch makes progress and stays in bounds. -/
def HandleOK {σ : Type} (d : Bytes) (P : σ → Prop) (handle : Nat → Nat → Int → σ → Option (UOut (σ × Int))) : Prop :=
  ∀ num wt i m r, 0 ≤ i → i ≤ dlen d → P m → handle num wt i m = some r → Post (fun r => P r.1 ∧ i < r.2 ∧ r.2 ≤ dlen d) r

/-- The switch has cases for the fields `1 .. own`. -/
def Own {σ : Type} (own : Nat) (handle : Nat → Nat → Int → σ → Option (UOut (σ × Int))) : Prop :=
  ∀ num wt i m, handle num wt i m = none ↔ num = 0 ∨ own < num

theorem skip_piece {d : Bytes} (hd : Small d) {own : Nat} {i j k : Int} {wire : BitVec 64} (h0 : 0 ≤ i) (h1 : i ≤ dlen d) (h : readVarint 64 d i = .ok (wire, j))
    (hw : wire.toNat % 8 ≠ 4) (hn : (own : Int) < fieldNumber wire) (hk : skipAt d i (dlen d) = .ok k) : Piece own ((d.take k.toNat).drop i.toNat) := by
  unfold skipAt at hk
  rw [slice_ok h0 h1 (by omega), ubind_ok] at hk
  obtain ⟨s, hs, hk⟩ := ubind_eq_ok.1 hk
  have hfull : d.take (dlen d).toNat = d := by simp [dlen]
  rw [hfull] at hs
  have hsm : Small (d.drop i.toNat) := hd.mono (by simp)
  have hpost := skipEvent_post hsm
  rw [hs] at hpost
  have hpost : 0 < s ∧ s < 2 ^ 63 := hpost
  split at hk
  · simp at hk
  · split at hk
    · simp at hk
    · rename_i hneg hlim
      simp only [UOut.ok.injEq] at hk
      have hw' := wrap64_nonneg (x := i + s) (by omega) (by simp only [Small] at hd; omega) (by omega)
      have hks : k = i + s := by omega
      have hu : (d.take k.toNat).drop i.toNat = (d.drop i.toNat).take s.toNat := by
        rw [List.drop_take]; congr 1; omega
      rw [hu]
      have hv := readVarint_drop h0 h1 h
      obtain ⟨wire', j', hv', hjs⟩ := skipEvent_head hsm hs
      rw [hv] at hv'
      simp only [UOut.ok.injEq, Prod.mk.injEq] at hv'
      refine ⟨wire, j - i, (readVarint_take hv (by omega)).1, hw, hn, ?_⟩
      rw [skipEvent_take hsm (j := s) (by omega) hs]
      simp only [UOut.ok.injEq, List.length_take, List.length_drop]
      simp only [dlen] at *
      omega

theorem fieldLoop_post {σ : Type} {d : Bytes} (hd : Small d) {P : σ → Prop} {handle : Nat → Nat → Int → σ → Option (UOut (σ × Int))} {keep : σ → Bytes → σ} {own : Nat}
    (hh : HandleOK d P handle) (ho : Own own handle) (hk : ∀ m u, P m → Piece own u → P (keep m u)) :
    ∀ (n : Nat) {i : Int} (m : σ), 0 ≤ i → i ≤ dlen d → dlen d + 1 ≤ i + n → P m → Post P (fieldLoop d handle keep n i m)
  | 0, _, _, _, _, h, _ => by omega
  | n + 1, i, m, h0, h1, hf, hm => by
    simp only [fieldLoop]
    split
    · have hrp := readVarint_post 64 h0 h1
      rcases hrd : readVarint 64 d i with ⟨wire, j⟩ | _ | _ | _
      case err => trivial
      case panic => rw [hrd] at hrp; exact hrp.elim
      case fuel => rw [hrd] at hrp; exact hrp.elim
      rw [hrd] at hrp
      obtain ⟨hj, hj2⟩ := hrp
      rw [ubind_ok]
      dsimp only at hj hj2 ⊢
      split
      · trivial
      · rename_i hw4
        split
        · trivial
        · rename_i hn0
          split
          · rename_i r hr
            refine Post.bind (hh _ _ _ _ _ (by omega) hj2 hm hr) ?_
            rintro ⟨m', k⟩ ⟨hm', hk1, hk2⟩
            dsimp only at hm' hk1 hk2 ⊢
            exact fieldLoop_post hd hh ho hk n m' (by omega) hk2 (by omega) hm'
          · rename_i hnone
            have hsk := skipAt_post hd h0 h1 (limit := dlen d)
            cases hs : skipAt d i (dlen d) with
            | ok k =>
              rw [hs] at hsk
              obtain ⟨hk1, hk2⟩ := hsk
              rw [ubind_ok, slice_ok h0 (by omega) hk2, ubind_ok]
              refine fieldLoop_post hd hh ho hk n _ (by omega) hk2 (by omega) (hk _ _ hm ?_)
              refine skip_piece hd h0 h1 hrd hw4 ?_ hs
              have := (ho _ _ _ _).1 hnone
              omega
            | err e => trivial
            | panic => rw [hs] at hsk; exact hsk.elim
            | fuel => rw [hs] at hsk; exact hsk.elim
    · split
      · trivial
      · exact hm

theorem fields_post {σ : Type} {d : Bytes} (hd : Small d) {P : σ → Prop} {handle : Nat → Nat → Int → σ → Option (UOut (σ × Int))} {keep : σ → Bytes → σ} {own : Nat}
    (hh : HandleOK d P handle) (ho : Own own handle) (hk : ∀ m u, P m → Piece own u → P (keep m u)) {m : σ} (hm : P m) : Post P (fields d handle keep m) :=
  fieldLoop_post hd hh ho hk _ m (by omega) (by simp only [dlen]; omega) (by simp only [dlen]; omega) hm

theorem varintCase_post {σ : Type} {w : Nat} {d : Bytes} {wt : Nat} {i : Int} {set : BitVec w → σ} (h0 : 0 ≤ i) (h1 : i ≤ dlen d) :
    Post (fun r => (∃ v, r.1 = set v) ∧ i < r.2 ∧ r.2 ≤ dlen d) (varintCase w d wt i set) := by
  unfold varintCase
  split
  · trivial
  · exact Post.bind (readVarint_post w h0 h1) fun a ha => ⟨⟨_, rfl⟩, ha⟩

/-- The contents of a length-delimited field are shorter than the message. -/
theorem lengthCase_post {σ : Type} {d : Bytes} (hd : Small d) {P : σ → Prop} {wt : Nat} {i : Int} {body : Bytes → UOut σ} (h0 : 0 ≤ i) (h1 : i ≤ dlen d)
    (hb : ∀ c, c.length < d.length → Post P (body c)) :
    Post (fun r => P r.1 ∧ i < r.2 ∧ r.2 ≤ dlen d) (lengthCase d wt i body) := by
  unfold lengthCase
  split
  · trivial
  · refine Post.bind (readLength_post hd h0 h1) ?_
    rintro ⟨j, k⟩ ⟨hj, hk, hl⟩
    dsimp only at hj hk hl ⊢
    rw [slice_ok (by omega) hk hl, ubind_ok]
    refine Post.bind (hb _ ?_) fun a ha => ⟨ha, by dsimp only; omega, hl⟩
    simp only [dlen, List.length_drop, List.length_take] at *
    omega


/-- Decoded values are well formed. -/
def VOK (m : ValueMsg) : Prop := WfKind Pieces m.kind ∧ Pieces 9 m.unrec

/-- `value` decodes all inputs shorter than `n`. -/
def ValueOK (n : Nat) (value : Bytes → UOut ValueMsg) : Prop := ∀ c : Bytes, c.length < n → Post VOK (value c)

theorem wfItems_iff (U : Nat → Bytes → Prop) : ∀ (vs : List PValue), WfItems U vs ↔ ∀ v ∈ vs, WfValue U v
  | [] => by simp [WfItems]
  | v :: vs => by simp [WfItems, wfItems_iff U vs]

theorem wfFields_iff (U : Nat → Bytes → Prop) : ∀ (es : List (Bytes × PValue)), WfFields U es ↔ (∀ e ∈ es, e.2 = .nil ∨ WfValue U e.2) ∧ (es.map Prod.fst).Nodup
  | [] => by simp [WfFields]
  | (k, v) :: es => by
    simp only [WfFields, wfFields_iff U es, List.mem_cons, forall_eq_or_imp, List.map_cons, List.nodup_cons]
    grind

theorem own_array (value : Bytes → UOut ValueMsg) (d : Bytes) : Own 1 (handleArray value d) := by
  intro num wt i m
  unfold handleArray
  split <;> grind

theorem own_object (value : Bytes → UOut ValueMsg) (d : Bytes) : Own 1 (handleObject value d) := by
  intro num wt i m
  unfold handleObject
  split <;> grind

theorem own_value (value : Bytes → UOut ValueMsg) (d : Bytes) : Own 9 (handleValue value d) := by
  intro num wt i m
  unfold handleValue
  dsimp only
  split <;> grind

theorem own_log (d : Bytes) : Own 1 (handleLog d) := by
  intro num wt i m
  unfold handleLog
  split <;> grind

theorem own_wrapper (d : Bytes) : Own 1 (handleWrapper d) := by
  intro num wt i m
  unfold handleWrapper
  split <;> grind

theorem unmarshalArray_post {d : Bytes} (hd : Small d) {value : Bytes → UOut ValueMsg} (hv : ValueOK d.length value) :
    Post (fun m => WfItems Pieces m.items ∧ Pieces 1 m.unrec) (unmarshalArray value d) := by
  refine fields_post (P := fun m : ArrayMsg => WfItems Pieces m.items ∧ Pieces 1 m.unrec) hd ?_ (own_array value d) ?_ ?_
  rotate_left
  · exact fun m u h hu => ⟨h.1, h.2.append (.single hu)⟩
  · exact ⟨trivial, .nil⟩
  intro num wt i m r h0 h1 hm hr
  unfold handleArray at hr
  split at hr
  · obtain rfl := Option.some.inj hr
    refine lengthCase_post (P := fun m : ArrayMsg => WfItems Pieces m.items ∧ Pieces 1 m.unrec) hd h0 h1 fun c hc => Post.bind (hv c hc) fun v hp => ?_
    refine ⟨?_, hm.2⟩
    have hm1 := hm.1
    rw [wfItems_iff] at hm1 ⊢
    intro x hx
    simp only [List.mem_append, List.mem_singleton] at hx
    rcases hx with hx | rfl
    · exact hm1 x hx
    · exact hp
  · simp at hr

theorem entryLoop_post {d : Bytes} (hd : Small d) {value : Bytes → UOut ValueMsg} (hv : ValueOK d.length value) {post : Int} (hp : post ≤ dlen d) :
    ∀ (n : Nat) {i : Int} (k : Bytes) (v : PValue), 0 ≤ i → i ≤ dlen d → dlen d + 1 ≤ i + n → v = .nil ∨ WfValue Pieces v →
      Post (fun r => r.2 = .nil ∨ WfValue Pieces r.2) (entryLoop value d post n i k v)
  | 0, _, _, _, _, _, h, _ => by omega
  | n + 1, i, k, v, h0, h1, hf, hpv => by
    simp only [entryLoop]
    split
    · refine Post.bind (readVarint_post 64 h0 h1) ?_
      rintro ⟨wire, j⟩ ⟨hj, hj2⟩
      dsimp only at hj hj2 ⊢
      split
      · refine Post.bind (readLength_post hd (by omega) hj2) ?_
        rintro ⟨a, b⟩ ⟨ha, hb, hc⟩
        dsimp only at ha hb hc ⊢
        rw [slice_ok (by omega) hb hc, ubind_ok]
        exact entryLoop_post hd hv hp n _ _ (by omega) hc (by omega) hpv
      · split
        · refine Post.bind (readLength_post hd (by omega) hj2) ?_
          rintro ⟨a, b⟩ ⟨ha, hb, hc⟩
          dsimp only at ha hb hc ⊢
          rw [slice_ok (by omega) hb hc, ubind_ok]
          refine Post.bind (hv _ ?_) fun w hw => ?_
          · simp only [dlen, List.length_drop, List.length_take] at *
            omega
          · exact entryLoop_post hd hv hp n _ _ (by omega) hc (by omega) (.inr hw)
        · refine Post.bind (skipAt_post hd h0 h1) ?_
          intro b ⟨hb, hc⟩
          exact entryLoop_post hd hv hp n _ _ (by omega) (by omega) (by omega) hpv
    · exact hpv

theorem setField_wf {es : List (Bytes × PValue)} (h : WfFields Pieces es) {k : Bytes} {v : PValue} (hv : v = .nil ∨ WfValue Pieces v) : WfFields Pieces (setField es k v) := by
  rw [wfFields_iff] at h ⊢
  simp only [setField, List.mem_cons, forall_eq_or_imp, List.map_cons, List.nodup_cons]
  refine ⟨⟨hv, fun e he => h.1 e (List.mem_filter.1 he).1⟩, ?_, ?_⟩
  · simp only [List.mem_map, List.mem_filter]
    rintro ⟨e, ⟨_, h2⟩, rfl⟩
    simp at h2
  · exact List.Nodup.sublist (List.filter_sublist.map _) h.2

theorem unmarshalObject_post {d : Bytes} (hd : Small d) {value : Bytes → UOut ValueMsg} (hv : ValueOK d.length value) {m : ObjectMsg}
    (hm : WfFields Pieces m.fields ∧ Pieces 1 m.unrec) :
    Post (fun m => WfFields Pieces m.fields ∧ Pieces 1 m.unrec) (unmarshalObject value d m) := by
  refine fields_post (P := fun m : ObjectMsg => WfFields Pieces m.fields ∧ Pieces 1 m.unrec) hd ?_ (own_object value d) ?_ hm
  rotate_left
  · exact fun m u h hu => ⟨h.1, h.2.append (.single hu)⟩
  intro num wt i m r h0 h1 hm hr
  unfold handleObject at hr
  split at hr
  · obtain rfl := Option.some.inj hr
    split
    · trivial
    · refine Post.bind (readLength_post hd h0 h1) ?_
      rintro ⟨a, b⟩ ⟨ha, hb, hc⟩
      dsimp only at ha hb hc ⊢
      refine Post.bind (entryLoop_post hd hv hc _ _ _ (by omega) (by omega) (by simp only [dlen]; omega) (.inl rfl)) ?_
      rintro ⟨k, v⟩ hkv
      exact ⟨⟨setField_wf hm.1 hkv, hm.2⟩, by dsimp only; omega, hc⟩
  · simp at hr

theorem float64Case_post {d : Bytes} (hd : Small d) {wt : Nat} {i : Int} (h0 : 0 ≤ i) (h1 : i ≤ dlen d) :
    Post (fun r => WfKind Pieces r.1 ∧ i < r.2 ∧ r.2 ≤ dlen d) (float64Case d wt i) := by
  unfold float64Case
  simp only [Small] at hd
  split
  · trivial
  · rw [wrap64_lo (by omega) (by omega)]
    split
    · trivial
    · rw [slice_ok h0 (by omega) (by omega), ubind_ok]
      exact ⟨trivial, by dsimp only; omega, by dsimp only; omega⟩

theorem setKind_post {d : Bytes} {i : Int} {m : ValueMsg} (hm : VOK m) {q : UOut (PKind × Int)} (hq : Post (fun r => WfKind Pieces r.1 ∧ i < r.2 ∧ r.2 ≤ dlen d) q) :
    Post (fun r => VOK r.1 ∧ i < r.2 ∧ r.2 ≤ dlen d) (do
      let (k, i) ← q
      .ok (({ m with kind := k } : ValueMsg), i)) :=
  Post.bind hq fun a ha => ⟨⟨ha.1, hm.2⟩, ha.2⟩

theorem handleValue_ok {d : Bytes} (hd : Small d) {value : Bytes → UOut ValueMsg} (hv : ValueOK d.length value) : HandleOK d VOK (handleValue value d) := by
  intro num wt i m r h0 h1 hm hr
  unfold handleValue at hr
  dsimp only at hr
  have hsub : ∀ c : Bytes, c.length < d.length → ValueOK c.length value := fun c hc e he => hv e (by omega)
  split at hr
  all_goals first
    | (simp at hr; done)
    | (obtain rfl := Option.some.inj hr
       refine setKind_post hm ?_)
  · exact (varintCase_post h0 h1).mono fun a ⟨⟨v, hv⟩, h⟩ => ⟨by rw [hv]; trivial, h⟩
  · refine lengthCase_post hd (P := WfKind Pieces) h0 h1 fun c hc => Post.bind (unmarshalArray_post (hd.mono (by omega)) (hsub c hc)) fun a ha => ?_
    exact ha
  · exact (varintCase_post h0 h1).mono fun a ⟨⟨v, hv⟩, h⟩ => ⟨by rw [hv]; trivial, h⟩
  · exact float64Case_post hd h0 h1
  · exact (varintCase_post h0 h1).mono fun a ⟨⟨v, hv⟩, h⟩ => ⟨by rw [hv]; trivial, h⟩
  · refine lengthCase_post hd (P := WfKind Pieces) h0 h1 fun c hc => Post.bind (unmarshalObject_post (hd.mono (by omega)) (hsub c hc) ⟨trivial, .nil⟩) fun a ha => ?_
    exact ha
  · exact lengthCase_post hd (P := WfKind Pieces) h0 h1 fun c hc => trivial
  · exact (varintCase_post h0 h1).mono fun a ⟨⟨v, hv⟩, h⟩ => ⟨by rw [hv]; trivial, h⟩
  · exact (varintCase_post h0 h1).mono fun a ⟨⟨v, hv⟩, h⟩ => ⟨by rw [hv]; trivial, h⟩

theorem unmarshalValue_post (n : Nat) : ∀ {d : Bytes}, Small d → d.length < n → Post VOK (unmarshalValue n d) := by
  induction n with
  | zero => intro d _ h; omega
  | succ n ih =>
    intro d hd h
    have ih : ∀ c : Bytes, c.length < d.length → Post VOK (unmarshalValue n c) := fun c hc => ih (hd.mono (by omega)) (by omega)
    unfold unmarshalValue
    refine fields_post hd (handleValue_ok hd ih) (own_value _ d) ?_ ?_
    · exact fun m u h hu => ⟨h.1, h.2.append (.single hu)⟩
    · exact ⟨trivial, .nil⟩

theorem valueDecoder_ok {d : Bytes} (hd : Small d) : ValueOK d.length (valueDecoder d) :=
  fun c hc => unmarshalValue_post _ (hd.mono (by omega)) (by omega)

theorem unmarshalLog_post {d : Bytes} (hd : Small d) : Post (fun m => WfLog Pieces m.toLog) (unmarshalLog d) := by
  refine (fields_post (P := fun m : LogMsg => (∀ o, m.object = some o → WfFields Pieces o.fields ∧ Pieces 1 o.unrec) ∧ Pieces 1 m.unrec) hd ?_ (own_log d) ?_ ?_).mono ?_
  rotate_left
  · exact fun m u h hu => ⟨h.1, h.2.append (.single hu)⟩
  · exact ⟨by simp, .nil⟩
  rotate_left
  · intro num wt i m r h0 h1 hm hr
    unfold handleLog at hr
    split at hr
    · obtain rfl := Option.some.inj hr
      refine lengthCase_post (P := fun m : LogMsg => (∀ o, m.object = some o → WfFields Pieces o.fields ∧ Pieces 1 o.unrec) ∧ Pieces 1 m.unrec) hd h0 h1 fun c hc => ?_
      have hc' : Small c := hd.mono (by omega)
      refine Post.bind (unmarshalObject_post hc' (valueDecoder_ok hc') ?_) fun o ho => ?_
      · cases h : m.object with
        | none => exact ⟨trivial, .nil⟩
        | some o => exact hm.1 o h
      · exact ⟨by rintro _ ⟨⟩; exact ho, hm.2⟩
    · simp at hr
  · intro m hm
    unfold LogMsg.toLog
    refine ⟨?_, hm.2⟩
    cases h : m.object with
    | none => trivial
    | some o => exact hm.1 o h

theorem unmarshalInto_post {d : Bytes} (hd : Small d) {m : PWrapper} (hm : WfWrapper Pieces m) : Post (WfWrapper Pieces) (unmarshalInto d m) := by
  refine fields_post hd ?_ (own_wrapper d) ?_ hm
  rotate_left
  · exact fun m u h hu => ⟨h.1, h.2.append (.single hu)⟩
  intro num wt i m r h0 h1 hm hr
  unfold handleWrapper at hr
  split at hr
  · obtain rfl := Option.some.inj hr
    refine lengthCase_post hd h0 h1 fun c hc => ?_
    have hc' : Small c := hd.mono (by omega)
    refine Post.bind (unmarshalLog_post hc') fun l hl => ?_
    exact ⟨by rintro _ ⟨⟩; exact hl, hm.2⟩
  · simp at hr

theorem unmarshal_post {d : Bytes} (hd : Small d) : Post (WfWrapper Pieces) (unmarshal d) :=
  unmarshalInto_post hd ⟨by simp, .nil⟩

end Sawmill.Wire
