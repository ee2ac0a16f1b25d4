import Verif.Lemmas.WireRound
/-!
# Whole messages: round trip, unknown fields, iteration order
-/

namespace Sawmill.Wire

/-! ## Round trip -/

theorem log_dec {o : PObject} {u : Bytes} (h : WfLog Pieces (.mk o u)) (hs : Small (encLog (.mk o u))) : ∃ l, unmarshalLog (encLog (.mk o u)) = .ok l ∧ l.toLog = .mk o u := by
  cases o with
  | nil =>
    refine ⟨⟨none, u⟩, ?_, rfl⟩
    refine fields_loop ?_
    have := loop_pieces (handle := handleLog (encLog (.mk .nil u))) (keep := fun (m : LogMsg) u => { m with unrec := m.unrec ++ u }) (own_log _) (by simp) (by simp) h.2
      (pre := []) (by simpa [encLog] using hs) ⟨none, []⟩
    simpa [encLog] using this
  | mk fs w =>
    refine ⟨⟨some ⟨fs, w⟩, u⟩, ?_, rfl⟩
    refine fields_loop ?_
    have hl := lenField_length (show 1 < 15 by omega) (encFields fs ++ w)
    refine loop_len (pre := []) (c := encFields fs ++ w) (post := u) (num := 1) (m' := ⟨some ⟨fs, w⟩, []⟩) (by omega) (by omega) (by simpa [encLog] using hs) ?_ ?_
    · intro p hp hdp
      rw [List.nil_append] at hdp
      have e : encLog (.mk (.mk fs w) u) = p ++ (varint (encFields fs ++ w).length ++ (encFields fs ++ w)) ++ u := by rw [encLog, hdp]
      have hs' := hs
      rw [e] at hs'
      have hsc : Small (encFields fs ++ w) := hs'.mono (by simp; omega)
      have hsf : Small (encFields fs) := hsc.mono (by simp)
      have hd := object_dec (value := valueDecoder (encFields fs ++ w)) hsc (entries_dec fs h.1.1 hsf _ (by simp; omega)) ((wfFields_iff _ _).1 h.1.1).2 h.1.2
      simp only [handleLog]
      rw [e, lengthCase_enc hs' (v := (⟨some ⟨fs, w⟩, []⟩ : LogMsg)) (by simp only [Option.getD_none]; rw [hd]; rfl)]
    · have := loop_pieces (handle := handleLog (encLog (.mk (.mk fs w) u))) (keep := fun (m : LogMsg) u => { m with unrec := m.unrec ++ u }) (own_log _) (by simp) (by simp) h.2
        (pre := lenField 1 (encFields fs ++ w)) (by simpa [encLog] using hs) ⟨some ⟨fs, w⟩, []⟩
      simpa [encLog] using this

theorem unmarshal_enc {m : PWrapper} (h : WfWrapper Pieces m) (hs : Small (encWrapper m)) : unmarshal (encWrapper m) = .ok m := by
  obtain ⟨msg, u⟩ := m
  refine fields_loop ?_
  match msg with
  | none =>
    have := loop_pieces (handle := handleWrapper (encWrapper ⟨none, u⟩)) (keep := fun (m : PWrapper) u => { m with unrec := m.unrec ++ u }) (own_wrapper _) (by simp) (by simp) h.2
      (pre := []) (by simpa [encWrapper] using hs) ⟨none, []⟩
    simpa [encWrapper] using this
  | some .nil => exact (h.1 _ rfl).elim
  | some (.mk o w) =>
    have hl := lenField_length (show 1 < 15 by omega) (encLog (.mk o w))
    refine loop_len (pre := []) (c := encLog (.mk o w)) (post := u) (num := 1) (m' := ⟨some (.mk o w), []⟩) (by omega) (by omega) (by simpa [encWrapper] using hs) ?_ ?_
    · intro p hp hdp
      rw [List.nil_append] at hdp
      have e : encWrapper ⟨some (.mk o w), u⟩ = p ++ (varint (encLog (.mk o w)).length ++ (encLog (.mk o w))) ++ u := by rw [encWrapper, hdp]; simp
      have hs' := hs
      rw [e] at hs'
      obtain ⟨l, hl, hto⟩ := log_dec (h.1 _ rfl) (hs'.mono (by simp; omega))
      simp only [handleWrapper]
      rw [e, lengthCase_enc hs' (v := (⟨some (.mk o w), []⟩ : PWrapper)) (by rw [hl, ubind_ok, hto])]
    · have := loop_pieces (handle := handleWrapper (encWrapper ⟨some (.mk o w), u⟩)) (keep := fun (m : PWrapper) u => { m with unrec := m.unrec ++ u }) (own_wrapper _) (by simp) (by simp) h.2
        (pre := lenField 1 (encLog (.mk o w))) (by simpa [encWrapper] using hs) ⟨some (.mk o w), []⟩
      simpa [encWrapper] using this

/-! ## Well-formedness -/

mutual
theorem wfValue_mono {U V : Nat → Bytes → Prop} (hUV : ∀ n u, Small u → U n u → V n u) : ∀ (v : PValue), Small (encValue v) → WfValue U v → WfValue V v
  | .nil, _, h => h
  | .mk k u, hs, h => ⟨wfKind_mono hUV k (hs.mono (by simp [encValue])) h.1, hUV _ _ (hs.mono (by simp [encValue])) h.2⟩
theorem wfKind_mono {U V : Nat → Bytes → Prop} (hUV : ∀ n u, Small u → U n u → V n u) : ∀ (k : PKind), Small (encKind k) → WfKind U k → WfKind V k
  | .unset, _, h => h
  | .null _, _, h => h
  | .array .nil, _, h => h
  | .array (.mk items u), hs, h => by
    have hl := lenField_length (show 2 < 15 by omega) (encItems items ++ u)
    rw [List.length_append] at hl
    exact ⟨wfItems_mono hUV items (hs.mono (by rw [encKind]; omega)) h.1, hUV _ _ (hs.mono (by rw [encKind]; omega)) h.2⟩
  | .boolean _, _, h => h
  | .float _, _, h => h
  | .integer _, _, h => h
  | .object .nil, _, h => h
  | .object (.mk fs u), hs, h => by
    have hl := lenField_length (show 6 < 15 by omega) (encFields fs ++ u)
    rw [List.length_append] at hl
    exact ⟨wfFields_mono hUV fs (hs.mono (by rw [encKind]; omega)) h.1, hUV _ _ (hs.mono (by rw [encKind]; omega)) h.2⟩
  | .string none, _, h => h
  | .string (some _), _, h => h
  | .timestamp _, _, h => h
  | .unsigned _, _, h => h
theorem wfItems_mono {U V : Nat → Bytes → Prop} (hUV : ∀ n u, Small u → U n u → V n u) : ∀ (vs : List PValue), Small (encItems vs) → WfItems U vs → WfItems V vs
  | [], _, h => h
  | v :: vs, hs, h => by
    have hl := lenField_length (show 1 < 15 by omega) (encValue v)
    exact ⟨wfValue_mono hUV v (hs.mono (by simp only [encItems, List.length_append]; omega)) h.1, wfItems_mono hUV vs (hs.mono (by simp only [encItems, List.length_append]; omega)) h.2⟩
theorem wfFields_mono {U V : Nat → Bytes → Prop} (hUV : ∀ n u, Small u → U n u → V n u) : ∀ (es : List (Bytes × PValue)), Small (encFields es) → WfFields U es → WfFields V es
  | [], _, h => h
  | (k, v) :: es, hs, h => by
    have hl := lenField_length (show 1 < 15 by omega) (lenField 1 k ++ (if v.isNil then [] else lenField 2 (encValue v)))
    have hl2 := lenField_length (show 2 < 15 by omega) (encValue v)
    simp only [List.length_append] at hl
    refine ⟨?_, h.2.1, wfFields_mono hUV es (hs.mono (by simp only [encFields, List.length_append]; omega)) h.2.2⟩
    by_cases hv : v.isNil
    · left
      generalize v = y at hv
      cases y <;> first | rfl | simp [PValue.isNil] at hv
    · simp only [hv, Bool.false_eq_true, if_false] at hl
      refine h.1.imp id (wfValue_mono hUV v (hs.mono ?_))
      simp only [encFields, List.length_append, hv, Bool.false_eq_true, if_false]; omega
end

theorem wfWrapper_mono {U V : Nat → Bytes → Prop} (hUV : ∀ n u, Small u → U n u → V n u) {m : PWrapper} (hs : Small (encWrapper m)) (h : WfWrapper U m) : WfWrapper V m := by
  obtain ⟨msg, u⟩ := m
  match msg with
  | none => exact ⟨by simp, hUV _ _ (hs.mono (by simp [encWrapper])) h.2⟩
  | some .nil => exact (h.1 _ rfl).elim
  | some (.mk o w) =>
    have hl := lenField_length (show 1 < 15 by omega) (encLog (.mk o w))
    have hs1 : Small (encLog (.mk o w)) := hs.mono (by simp [encWrapper]; omega)
    refine ⟨?_, hUV _ _ (hs.mono (by simp [encWrapper])) h.2⟩
    rintro _ ⟨⟩
    have hlog := h.1 _ rfl
    cases o with
    | nil => exact ⟨trivial, hUV _ _ (hs1.mono (by simp [encLog])) hlog.2⟩
    | mk fs x =>
      have hl2 := lenField_length (show 1 < 15 by omega) (encFields fs ++ x)
      rw [List.length_append] at hl2
      refine ⟨⟨wfFields_mono hUV fs (hs1.mono (by simp only [encLog, List.length_append]; omega)) hlog.1.1,
        hUV _ _ (hs1.mono (by simp only [encLog, List.length_append]; omega)) hlog.1.2⟩, hUV _ _ (hs1.mono (by simp [encLog])) hlog.2⟩

mutual
theorem noNil_of_wfValue {U : Nat → Bytes → Prop} : ∀ (v : PValue), WfValue U v → NoNilValue v
  | .nil, h => h
  | .mk k _, h => noNil_of_wfKind k h.1
theorem noNil_of_wfKind {U : Nat → Bytes → Prop} : ∀ (k : PKind), WfKind U k → NoNilKind k
  | .unset, _ => trivial
  | .null _, _ => trivial
  | .array .nil, h => h.elim
  | .array (.mk items _), h => noNil_of_wfItems items h.1
  | .boolean _, _ => trivial
  | .float _, _ => trivial
  | .integer _, _ => trivial
  | .object .nil, h => h.elim
  | .object (.mk fs _), h => noNil_of_wfFields fs h.1
  | .string none, h => h.elim
  | .string (some _), _ => trivial
  | .timestamp _, _ => trivial
  | .unsigned _, _ => trivial
theorem noNil_of_wfItems {U : Nat → Bytes → Prop} : ∀ (vs : List PValue), WfItems U vs → NoNilItems vs
  | [], _ => trivial
  | v :: vs, h => ⟨noNil_of_wfValue v h.1, noNil_of_wfItems vs h.2⟩
theorem noNil_of_wfFields {U : Nat → Bytes → Prop} : ∀ (es : List (Bytes × PValue)), WfFields U es → NoNilFields es
  | [], _ => trivial
  | (_, v) :: es, h => ⟨h.1.imp id (noNil_of_wfValue v), noNil_of_wfFields es h.2.2⟩
end

theorem noNil_of_wf {U : Nat → Bytes → Prop} {m : PWrapper} (h : WfWrapper U m) : NoNil m := by
  obtain ⟨msg, u⟩ := m
  match msg with
  | none => trivial
  | some .nil => trivial
  | some (.mk .nil w) => trivial
  | some (.mk (.mk fs x) w) => exact noNil_of_wfFields fs (h.1 _ rfl).1.1

end Sawmill.Wire
