import Verif.Lemmas.Convert
import Verif.Lemmas.WireMsgs
/-!
# Messages made from events
-/

namespace Sawmill
open Wire ATree

theorem escapeKey_inj {a b : Bytes} (h : escapeKey a = escapeKey b) : a = b := by
  rw [escapeKey_eq, escapeKey_eq] at h
  induction a generalizing b with
  | nil =>
    cases b with
    | nil => rfl
    | cons d b => simp only [List.flatMap_nil, List.flatMap_cons] at h; split at h <;> simp at h
  | cons c a ih =>
    cases b with
    | nil => simp only [List.flatMap_nil, List.flatMap_cons] at h; split at h <;> simp at h
    | cons d b =>
      have nodot : ∀ (x : Bytes) (t : Bytes), x.flatMap (fun c => if c = dot then [bsl, dot] else [c]) ≠ dot :: t := by
        intro x t hx
        cases x with
        | nil => simp at hx
        | cons y x =>
          simp only [List.flatMap_cons] at hx
          split at hx
          · simp [bsl, dot] at hx
          · rename_i hy; simp only [List.cons_append, List.cons.injEq] at hx; exact hy hx.1
      simp only [List.flatMap_cons] at h
      split at h <;> split at h
      · rename_i hc hd
        simp only [List.cons_append, List.nil_append, List.cons.injEq, true_and] at h
        rw [hc, hd, ih h]
      · simp only [List.cons_append, List.nil_append, List.cons.injEq] at h
        exact (nodot _ _ h.2.symm).elim
      · simp only [List.cons_append, List.nil_append, List.cons.injEq] at h
        exact (nodot _ _ h.2).elim
      · simp only [List.cons_append, List.nil_append, List.cons.injEq] at h
        rw [h.1, ih h.2]

theorem ofEntries_congr {α : Type} {es es' : List (Bytes × α)} (hp : es.Perm es') (hn : (es.map (·.1)).Nodup) : AMap.ofEntries es [] = AMap.ofEntries es' [] := by
  apply AMap.ext (AMap.sorted_ofEntries AMap.sorted_nil) (AMap.sorted_ofEntries AMap.sorted_nil)
  intro k
  have hn' : (es'.map (·.1)).Nodup := ((hp.map _).nodup_iff).1 hn
  by_cases hk : k ∈ es.map (·.1)
  · obtain ⟨⟨k', v⟩, he, rfl⟩ := List.mem_map.1 hk
    rw [AMap.lookup_ofEntries_of_mem hn he, AMap.lookup_ofEntries_of_mem hn' (hp.mem_iff.1 he)]
  · rw [AMap.lookup_ofEntries_of_not_mem hk, AMap.lookup_ofEntries_of_not_mem (fun h => hk (((hp.map _).mem_iff).2 h))]

theorem valueOfE_eq (es : List (Bytes × PValue)) : valueOfE es = es.map fun e => (escapeKey e.1, valueOf e.2) := by
  induction es with
  | nil => rfl
  | cons e es ih => obtain ⟨k, v⟩ := e; simp [valueOfE, ih]

theorem hasKindE_iff (es : List (Bytes × PValue)) : HasKindE es ↔ ∀ e ∈ es, HasKind e.2 := by
  induction es with
  | nil => simp [HasKindE]
  | cons e es ih => obtain ⟨k, v⟩ := e; simp [HasKindE, ih]

theorem valueOfE_keys (es : List (Bytes × PValue)) : (valueOfE es).map (·.1) = (es.map (·.1)).map escapeKey := by
  rw [valueOfE_eq]; simp

theorem nodup_map_inj {α β : Type} {f : α → β} (hf : ∀ a b, f a = f b → a = b) {l : List α} (h : l.Nodup) : (l.map f).Nodup := by
  rw [List.nodup_iff_pairwise_ne, List.pairwise_map]
  exact List.Pairwise.imp (fun hab e => hab (hf _ _ e)) (List.nodup_iff_pairwise_ne.1 h)

/-! ## Iteration order does not matter for what is decoded -/

mutual
theorem sameValue_conv {U : Nat → Bytes → Prop} : ∀ (v v' : PValue), SameValue v v' → WfValue U v → HasKind v → HasKind v' ∧ valueOf v' = valueOf v
  | .nil, v', h, hw, hk => hk.elim
  | .mk k u, v', h, hw, hk => by
    simp only [SameValue] at h
    obtain ⟨k', hv', hk'⟩ := h
    subst hv'
    simp only [HasKind, valueOf, WfValue] at *
    exact sameKind_conv k k' hk' hw.1 hk
theorem sameKind_conv {U : Nat → Bytes → Prop} : ∀ (k k' : PKind), SameKind k k' → WfKind U k → HasKindK k → HasKindK k' ∧ valueOfK k' = valueOfK k
  | .array (.mk items u), w, h, hw, hk => by
    simp only [SameKind] at h
    obtain ⟨items', hw', hi⟩ := h
    subst hw'
    simp only [WfKind, HasKindK, valueOfK] at *
    have := sameItems_conv items items' hi hw.1 hk
    exact ⟨this.1, by rw [this.2]⟩
  | .object (.mk fields u), w, h, hw, hk => by
    simp only [SameKind] at h
    obtain ⟨fields', order, hw', hi, hp⟩ := h
    subst hw'
    simp only [WfKind, HasKindK, valueOfK] at *
    have := sameEntries_conv fields fields' hi hw.1 hk
    have hnd : (fields.map (·.1)).Nodup := ((wfFields_iff U fields).1 hw.1).2
    have hkeys : (fields'.map (·.1)) = fields.map (·.1) := same_keys hi
    refine ⟨?_, ?_⟩
    · rw [hasKindE_iff] at *
      exact fun e he => this.1 e (hp.mem_iff.2 he)
    · rw [← this.2]
      congr 1
      rw [valueOfE_eq, valueOfE_eq]
      refine (ofEntries_congr (hp.map _) ?_).symm
      have := nodup_map_inj (fun _ _ => escapeKey_inj) (hkeys ▸ hnd)
      rw [List.map_map] at this ⊢
      exact this
  | .unset, w, h, hw, hk => by simp [HasKindK] at hk
  | .null x, w, h, hw, hk => by simp only [SameKind] at h; subst h; exact ⟨hk, rfl⟩
  | .array .nil, w, h, hw, hk => by simp [HasKindK] at hk
  | .boolean x, w, h, hw, hk => by simp only [SameKind] at h; subst h; exact ⟨hk, rfl⟩
  | .float x, w, h, hw, hk => by simp only [SameKind] at h; subst h; exact ⟨hk, rfl⟩
  | .integer x, w, h, hw, hk => by simp only [SameKind] at h; subst h; exact ⟨hk, rfl⟩
  | .object .nil, w, h, hw, hk => by simp [HasKindK] at hk
  | .string x, w, h, hw, hk => by simp only [SameKind] at h; subst h; exact ⟨hk, rfl⟩
  | .timestamp x, w, h, hw, hk => by simp only [SameKind] at h; subst h; exact ⟨hk, rfl⟩
  | .unsigned x, w, h, hw, hk => by simp only [SameKind] at h; subst h; exact ⟨hk, rfl⟩
theorem sameItems_conv {U : Nat → Bytes → Prop} : ∀ (vs vs' : List PValue), SameItems vs vs' → WfItems U vs → HasKindL vs → HasKindL vs' ∧ valueOfL vs' = valueOfL vs
  | [], vs', h, hw, hk => by simp only [SameItems] at h; subst h; exact ⟨hk, rfl⟩
  | v :: vs, w, h, hw, hk => by
    simp only [SameItems] at h
    obtain ⟨v', vs', hw', h1, h2⟩ := h
    subst hw'
    simp only [WfItems, HasKindL, valueOfL] at *
    have a := sameValue_conv v v' h1 hw.1 hk.1
    have b := sameItems_conv vs vs' h2 hw.2 hk.2
    exact ⟨⟨a.1, b.1⟩, by rw [a.2, b.2]⟩
theorem sameEntries_conv {U : Nat → Bytes → Prop} : ∀ (es es' : List (Bytes × PValue)), SameEntries es es' → WfFields U es → HasKindE es → HasKindE es' ∧ valueOfE es' = valueOfE es
  | [], es', h, hw, hk => by simp only [SameEntries] at h; subst h; exact ⟨hk, rfl⟩
  | (k, v) :: es, w, h, hw, hk => by
    simp only [SameEntries] at h
    obtain ⟨v', es', hw', h1, h2⟩ := h
    subst hw'
    simp only [WfFields, HasKindE, valueOfE] at *
    have hv : WfValue U v := by
      rcases hw.1 with rfl | hv
      · exact hk.1.elim
      · exact hv
    have a := sameValue_conv v v' h1 hv hk.1
    have b := sameEntries_conv es es' h2 hw.2.2 hk.2
    exact ⟨⟨a.1, b.1⟩, by rw [a.2, b.2]⟩
end

/-! ## The message made from a solid value -/

theorem protoOfE_keys (es : List (Bytes × Val)) : (protoOfE es).map Prod.fst = es.map Prod.fst := by
  induction es with
  | nil => rfl
  | cons e es ih => obtain ⟨k, v⟩ := e; simp [protoOfE, ih]

mutual
theorem proto_wf : ∀ (v : Val), v.Solid → v.Canon → WfValue UnknownFields (protoOf v) ∧ HasKind (protoOf v) ∧ valueOf (protoOf v) = v.hop
  | .nilp, hs, hc => by simp [Val.Solid] at hs
  | .scalar s, hs, hc => by cases s <;> simp [protoOf, WfValue, WfKind, HasKind, HasKindK, valueOf, valueOfK, Val.hop, UnknownFields.nil]
  | .arrNil, hs, hc => by simp [protoOf, WfValue, WfKind, WfItems, HasKind, HasKindK, HasKindL, valueOf, valueOfK, valueOfL, Val.hop, UnknownFields.nil]
  | .objNil, hs, hc => by simp [protoOf, WfValue, WfKind, WfFields, HasKind, HasKindK, HasKindE, valueOf, valueOfK, valueOfE, Val.hop, UnknownFields.nil]
  | .arr vs, hs, hc => by
    simp only [Val.Solid, Val.Canon] at hs hc
    have := proto_wfL vs hs hc
    simp [protoOf, WfValue, WfKind, HasKind, HasKindK, valueOf, valueOfK, Val.hop, UnknownFields.nil, this]
  | .obj es, hs, hc => by
    simp only [Val.Solid, Val.Canon] at hs hc
    have := proto_wfE es hs hc.1 hc.2
    simp [protoOf, WfValue, WfKind, HasKind, HasKindK, valueOf, valueOfK, Val.hop, UnknownFields.nil, this]
theorem proto_wfL : ∀ (vs : List Val), Val.SolidL vs → Val.CanonL vs → WfItems UnknownFields (protoOfL vs) ∧ HasKindL (protoOfL vs) ∧ valueOfL (protoOfL vs) = Val.hopL vs
  | [], hs, hc => by simp [protoOfL, WfItems, HasKindL, valueOfL, Val.hopL]
  | v :: vs, hs, hc => by
    simp only [Val.SolidL, Val.CanonL] at hs hc
    have a := proto_wf v hs.1 hc.1
    have b := proto_wfL vs hs.2 hc.2
    simp [protoOfL, WfItems, HasKindL, valueOfL, Val.hopL, a, b]
theorem proto_wfE : ∀ (es : List (Bytes × Val)), Val.SolidE es → AMap.Sorted es → Val.CanonE es →
    WfFields UnknownFields (protoOfE es) ∧ HasKindE (protoOfE es) ∧ valueOfE (protoOfE es) = Val.hopE es
  | [], hs, _, hc => by simp [protoOfE, WfFields, HasKindE, valueOfE, Val.hopE]
  | (k, v) :: vs, hs, hso, hc => by
    simp only [Val.SolidE, Val.CanonE] at hs hc
    have a := proto_wf v hs.1 hc.1
    have b := proto_wfE vs hs.2 (AMap.sorted_cons.1 hso).2 hc.2
    have hk : k ∉ (protoOfE vs).map Prod.fst := by
      rw [protoOfE_keys]
      have := AMap.sorted_nodup hso
      simp only [AMap.keys, List.map_cons, List.nodup_cons] at this
      exact this.1
    exact ⟨⟨.inr a.1, hk, b.1⟩, ⟨a.2.1, b.2.1⟩, by simp [protoOfE, valueOfE, Val.hopE, a.2.2, b.2.2]⟩
end

/-! ## Plain values are unchanged -/

theorem escapeKey_plain {k : Bytes} (h : dot ∉ k) : escapeKey k = k := by simp [escapeKey, h]

theorem ofEntries_sorted {α : Type} {es : AMap α} (h : AMap.Sorted es) : AMap.ofEntries es [] = es := AMap.ofEntries_perm h (List.Perm.refl _)

mutual
theorem hop_plain : ∀ (v : Val), v.Plain → v.Canon → v.hop = v
  | .nilp, _, _ => rfl
  | .scalar _, _, _ => rfl
  | .arrNil, h, _ => by simp [Val.Plain] at h
  | .objNil, h, _ => by simp [Val.Plain] at h
  | .arr vs, h, hc => by
    simp only [Val.Plain, Val.Canon] at h hc
    simp [Val.hop, hopL_plain vs h hc]
  | .obj es, h, hc => by
    simp only [Val.Plain, Val.Canon] at h hc
    simp [Val.hop, hopE_plain es h hc.2, ofEntries_sorted hc.1]
theorem hopL_plain : ∀ (vs : List Val), Val.PlainL vs → Val.CanonL vs → Val.hopL vs = vs
  | [], _, _ => rfl
  | v :: vs, h, hc => by
    simp only [Val.PlainL, Val.CanonL] at h hc
    simp [Val.hopL, hop_plain v h.1 hc.1, hopL_plain vs h.2 hc.2]
theorem hopE_plain : ∀ (es : List (Bytes × Val)), Val.PlainE es → Val.CanonE es → Val.hopE es = es
  | [], _, _ => rfl
  | (k, v) :: es, h, hc => by
    simp only [Val.PlainE, Val.CanonE] at h hc
    simp [Val.hopE, hop_plain v h.2.1 hc.1, hopE_plain es h.2.2 hc.2, escapeKey_plain h.1]
end

end Sawmill
