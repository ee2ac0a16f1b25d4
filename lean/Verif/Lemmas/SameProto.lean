import Verif.Spec.SameProto
import Verif.Lemmas.Hop
import Verif.Lemmas.WireMsgs
import Verif.Lemmas.WireUnknown
import Verif.Lemmas.WireTotal
/-!
# For C108
-/

namespace Sawmill
open Wire ATree

/-! ## More stack gives the same message -/

theorem collect_mono {α β : Type} {f g : α → UOut β} (hfg : ∀ x y, f x = .ok y → g x = .ok y) : ∀ {xs : List α} {ys : List β}, Sawmill.collect f xs = .ok ys → Sawmill.collect g xs = .ok ys
  | [], ys, h => h
  | x :: xs, ys, h => by
    simp only [Sawmill.collect] at h ⊢
    obtain ⟨y, h1, h2⟩ := ubind_eq_ok.mp h
    obtain ⟨ys', h3, h4⟩ := ubind_eq_ok.mp h2
    rw [hfg x y h1, ubind_ok, collect_mono hfg h3, ubind_ok]
    exact h4

theorem fromEventValueObject_mono {f g : Ptr → UOut PValue} (hfg : ∀ x y, f x = .ok y → g x = .ok y) {h : Heap} {p : Ptr} {o : PObject} (ho : fromEventValueObject f h p = .ok o) : fromEventValueObject g h p = .ok o := by
  unfold fromEventValueObject at ho ⊢
  cases hd : deref h p with
  | none => rw [hd] at ho; exact ho
  | some c =>
    rw [hd] at ho
    dsimp only at ho ⊢
    by_cases ht : c.type ≠ .object
    · rw [if_pos ht] at ho; cases ho
    · rw [if_neg ht] at ho ⊢
      obtain ⟨y, h1, h2⟩ := ubind_eq_ok.mp ho
      rw [collect_mono (g := fun e : Bytes × Ptr => do let v ← g e.2; .ok (e.1, v)) ?_ h1, ubind_ok]
      · exact h2
      · intro x z hz
        obtain ⟨v, v1, v2⟩ := ubind_eq_ok.mp hz
        rw [hfg _ _ v1, ubind_ok]
        exact v2

theorem fromEventValue_step {h : Heap} : ∀ (n : Nat) (p : Ptr) (v : PValue), fromEventValue h n p = .ok v → fromEventValue h (n + 1) p = .ok v
  | 0, p, v, hv => by cases hv
  | n + 1, p, v, hv => by
    have ih := fromEventValue_step (h := h) n
    rw [fromEventValue] at hv ⊢
    cases hd : deref h p with
    | none => rw [hd] at hv; exact hv
    | some c =>
      rw [hd] at hv
      dsimp only at hv ⊢
      cases ht : c.type <;> rw [ht] at hv <;> dsimp only at hv ⊢
      case array =>
        obtain ⟨y, h1, h2⟩ := ubind_eq_ok.mp hv
        rw [collect_mono ih h1, ubind_ok]
        exact h2
      case object =>
        obtain ⟨y, h1, h2⟩ := ubind_eq_ok.mp hv
        rw [fromEventValueObject_mono ih h1, ubind_ok]
        exact h2
      all_goals exact hv

theorem fromEventValue_mono {h : Heap} {n n' : Nat} (hn : n ≤ n') (p : Ptr) (v : PValue) (hv : fromEventValue h n p = .ok v) : fromEventValue h n' p = .ok v := by
  obtain ⟨k, rfl⟩ := Nat.exists_eq_add_of_le hn
  induction k with
  | zero => exact hv
  | succ k ih => exact fromEventValue_step _ _ _ (ih (by omega))

theorem fromEvent_mono {h : Heap} {e : Event} {n n' : Nat} (hn : n ≤ n') {m : PWrapper} (hm : fromEvent n h e = .ok m) : fromEvent n' h e = .ok m := by
  unfold fromEvent at hm ⊢
  cases hg : apiGet h e (lit ".") with
  | panic => rw [hg] at hm; exact hm
  | ok r =>
    obtain ⟨h', p⟩ := r
    rw [hg] at hm
    dsimp only at hm ⊢
    obtain ⟨y, h1, h2⟩ := ubind_eq_ok.mp hm
    rw [fromEventValueObject_mono (fun x y => fromEventValue_mono hn x y) h1, ubind_ok]
    exact h2

/-! ## Reading a message back without escaping -/

mutual
def readValue : PValue → Val
  | .nil => .nilp
  | .mk k _ => readKind k
def readKind : PKind → Val
  | .unset => .nilp
  | .null _ => .scalar .null
  | .array .nil => .nilp
  | .array (.mk items _) => .arr (readItems items)
  | .boolean b => .scalar (.bool b)
  | .float f => .scalar (.float f)
  | .integer i => .scalar (.int i)
  | .object .nil => .nilp
  | .object (.mk fields _) => .obj (AMap.ofEntries (readFields fields) [])
  | .string s => .scalar (.str (s.getD []))
  | .timestamp t => .scalar (.ts t)
  | .unsigned u => .scalar (.uint u)
def readItems : List PValue → List Val
  | [] => []
  | v :: vs => readValue v :: readItems vs
def readFields : List (Bytes × PValue) → List (Bytes × Val)
  | [] => []
  | (k, v) :: es => (k, readValue v) :: readFields es
end

theorem readFields_eq (es : List (Bytes × PValue)) : readFields es = es.map fun e => (e.1, readValue e.2) := by
  induction es with
  | nil => rfl
  | cons e es ih => obtain ⟨k, v⟩ := e; simp [readFields, ih]

theorem readFields_perm {fields fields' order : List (Bytes × PValue)} (he : readFields fields' = readFields fields) (hn : (fields.map Prod.fst).Nodup) (hp : fields'.Perm order) :
    AMap.ofEntries (readFields order) [] = AMap.ofEntries (readFields fields) [] := by
  have hk : (readFields fields').map (·.1) = fields.map Prod.fst := by rw [he, readFields_eq]; simp
  rw [← he, readFields_eq, readFields_eq]
  refine (ofEntries_congr (hp.map _) ?_).symm
  rw [← readFields_eq, hk]
  exact hn

mutual
theorem same_read {U : Nat → Bytes → Prop} : ∀ (v v' : PValue), SameValue v v' → WfValue U v → readValue v' = readValue v
  | .nil, v', h, hw => hw.elim
  | .mk k u, v', h, hw => by
    simp only [SameValue] at h
    obtain ⟨k', hv', hk'⟩ := h
    subst hv'
    simp only [readValue, WfValue] at *
    exact same_readK k k' hk' hw.1
theorem same_readK {U : Nat → Bytes → Prop} : ∀ (k k' : PKind), SameKind k k' → WfKind U k → readKind k' = readKind k
  | .array (.mk items u), w, h, hw => by
    simp only [SameKind] at h
    obtain ⟨items', hw', hi⟩ := h
    subst hw'
    simp only [WfKind, readKind] at *
    rw [same_readL items items' hi hw.1]
  | .object (.mk fields u), w, h, hw => by
    simp only [SameKind] at h
    obtain ⟨fields', order, hw', hi, hp⟩ := h
    subst hw'
    simp only [WfKind, readKind] at *
    rw [readFields_perm (same_readE fields fields' hi hw.1) ((wfFields_iff U fields).1 hw.1).2 hp]
  | .unset, w, h, hw => by simp only [SameKind] at h; subst h; rfl
  | .null x, w, h, hw => by simp only [SameKind] at h; subst h; rfl
  | .array .nil, w, h, hw => hw.elim
  | .boolean x, w, h, hw => by simp only [SameKind] at h; subst h; rfl
  | .float x, w, h, hw => by simp only [SameKind] at h; subst h; rfl
  | .integer x, w, h, hw => by simp only [SameKind] at h; subst h; rfl
  | .object .nil, w, h, hw => hw.elim
  | .string x, w, h, hw => by simp only [SameKind] at h; subst h; rfl
  | .timestamp x, w, h, hw => by simp only [SameKind] at h; subst h; rfl
  | .unsigned x, w, h, hw => by simp only [SameKind] at h; subst h; rfl
theorem same_readL {U : Nat → Bytes → Prop} : ∀ (vs vs' : List PValue), SameItems vs vs' → WfItems U vs → readItems vs' = readItems vs
  | [], vs', h, hw => by simp only [SameItems] at h; subst h; rfl
  | v :: vs, w, h, hw => by
    simp only [SameItems] at h
    obtain ⟨v', vs', hw', h1, h2⟩ := h
    subst hw'
    simp only [WfItems, readItems] at *
    rw [same_read v v' h1 hw.1, same_readL vs vs' h2 hw.2]
theorem same_readE {U : Nat → Bytes → Prop} : ∀ (es es' : List (Bytes × PValue)), SameEntries es es' → WfFields U es → readFields es' = readFields es
  | [], es', h, hw => by simp only [SameEntries] at h; subst h; rfl
  | (k, .nil) :: es, w, h, hw => by
    simp only [SameEntries] at h
    obtain ⟨v', es', hw', h1, h2⟩ := h
    subst hw'
    simp only [WfFields, readFields, SameValue] at *
    rw [h1, same_readE es es' h2 hw.2.2]
  | (k, .mk kd u) :: es, w, h, hw => by
    simp only [SameEntries] at h
    obtain ⟨v', es', hw', h1, h2⟩ := h
    subst hw'
    simp only [WfFields, readFields] at *
    have hv : WfValue U (.mk kd u) := by
      rcases hw.1 with h | h
      · cases h
      · exact h
    rw [same_read (.mk kd u) v' h1 hv, same_readE es es' h2 hw.2.2]
end

/-! ## The message of contents -/

theorem filledE_keys (es : List (Bytes × Val)) : (Val.filledE es).map (·.1) = es.map (·.1) := by
  induction es with
  | nil => rfl
  | cons e es ih => obtain ⟨k, v⟩ := e; simp [Val.filledE, ih]

theorem filledE_eq (es : List (Bytes × Val)) : Val.filledE es = es.map fun e => (e.1, e.2.filled) := by
  induction es with
  | nil => rfl
  | cons e es ih => obtain ⟨k, v⟩ := e; simp [Val.filledE, ih]

theorem filledE_sorted {es : List (Bytes × Val)} (h : AMap.Sorted es) : AMap.Sorted (Val.filledE es) := by
  rw [filledE_eq]
  unfold AMap.Sorted at h ⊢
  simpa [List.pairwise_map] using h

mutual
theorem read_proto : ∀ (v : Val), v.Canon → readValue (protoOf v) = v.filled
  | .nilp, _ => rfl
  | .scalar s, _ => by cases s <;> rfl
  | .arrNil, _ => rfl
  | .objNil, _ => rfl
  | .arr vs, h => by simp only [protoOf, readValue, readKind, Val.filled, read_protoL vs h]
  | .obj es, h => by simp only [protoOf, readValue, readKind, Val.filled, read_protoE es h.2, ofEntries_sorted (filledE_sorted h.1)]
theorem read_protoL : ∀ (vs : List Val), Val.CanonL vs → readItems (protoOfL vs) = Val.filledL vs
  | [], _ => rfl
  | v :: vs, h => by simp only [protoOfL, readItems, Val.filledL, read_proto v h.1, read_protoL vs h.2]
theorem read_protoE : ∀ (es : List (Bytes × Val)), Val.CanonE es → readFields (protoOfE es) = Val.filledE es
  | [], _ => rfl
  | (k, v) :: es, h => by simp only [protoOfE, readFields, Val.filledE, read_proto v h.1, read_protoE es h.2]
end

mutual
theorem proto_filled : ∀ (v : Val), protoOf v.filled = protoOf v
  | .nilp => rfl
  | .scalar s => rfl
  | .arrNil => rfl
  | .objNil => rfl
  | .arr vs => by simp only [protoOf, Val.filled, proto_filledL vs]
  | .obj es => by simp only [protoOf, Val.filled, proto_filledE es]
theorem proto_filledL : ∀ (vs : List Val), protoOfL (Val.filledL vs) = protoOfL vs
  | [] => rfl
  | v :: vs => by simp only [protoOfL, Val.filledL, proto_filled v, proto_filledL vs]
theorem proto_filledE : ∀ (es : List (Bytes × Val)), protoOfE (Val.filledE es) = protoOfE es
  | [] => rfl
  | (k, v) :: es => by simp only [protoOfE, Val.filledE, proto_filled v, proto_filledE es]
end

mutual
/-- A message of contents that `Marshal` does not refuse is well-formed. -/
theorem proto_noNil_wf : ∀ (v : Val), v.Canon → NoNilValue (protoOf v) → WfValue UnknownFields (protoOf v)
  | .nilp, _, h => h.elim
  | .scalar s, _, _ => by cases s <;> simp [protoOf, WfValue, WfKind, UnknownFields.nil]
  | .arrNil, _, _ => by simp [protoOf, WfValue, WfKind, WfItems, UnknownFields.nil]
  | .objNil, _, _ => by simp [protoOf, WfValue, WfKind, WfFields, UnknownFields.nil]
  | .arr vs, hc, h => by
    simp only [protoOf, NoNilValue, NoNilKind, Val.Canon] at h hc
    simp [protoOf, WfValue, WfKind, UnknownFields.nil, proto_noNil_wfL vs hc h]
  | .obj es, hc, h => by
    simp only [protoOf, NoNilValue, NoNilKind, Val.Canon] at h hc
    simp [protoOf, WfValue, WfKind, UnknownFields.nil, proto_noNil_wfE es hc.1 hc.2 h]
theorem proto_noNil_wfL : ∀ (vs : List Val), Val.CanonL vs → NoNilItems (protoOfL vs) → WfItems UnknownFields (protoOfL vs)
  | [], _, _ => trivial
  | v :: vs, hc, h => by
    simp only [protoOfL, NoNilItems, WfItems, Val.CanonL] at *
    exact ⟨proto_noNil_wf v hc.1 h.1, proto_noNil_wfL vs hc.2 h.2⟩
theorem proto_noNil_wfE : ∀ (es : List (Bytes × Val)), AMap.Sorted es → Val.CanonE es → NoNilFields (protoOfE es) → WfFields UnknownFields (protoOfE es)
  | [], _, _, _ => trivial
  | (k, v) :: es, hs, hc, h => by
    simp only [protoOfE, NoNilFields, WfFields, Val.CanonE] at *
    have hs' := List.pairwise_cons.1 hs
    refine ⟨h.1.imp_right (proto_noNil_wf v hc.1), ?_, proto_noNil_wfE es hs'.2 hc.2 h.2⟩
    rw [protoOfE_keys]
    intro hk
    obtain ⟨⟨k', v'⟩, hm, rfl⟩ := List.mem_map.1 hk
    exact absurd (hs'.1 _ hm) (by simp [bLt_irrefl])
end

/-! ## Another order has no nil where the first has none -/

theorem noNilFields_iff (es : List (Bytes × PValue)) : NoNilFields es ↔ ∀ e ∈ es, e.2 = .nil ∨ NoNilValue e.2 := by
  induction es with
  | nil => simp [NoNilFields]
  | cons e es ih => obtain ⟨k, v⟩ := e; simp [NoNilFields, ih]

mutual
theorem same_noNil : ∀ (v v' : PValue), SameValue v v' → NoNilValue v' → NoNilValue v
  | .nil, v', h, hn => by simp only [SameValue] at h; subst h; exact hn
  | .mk k u, v', h, hn => by
    simp only [SameValue] at h
    obtain ⟨k', hv', hk'⟩ := h
    subst hv'
    simp only [NoNilValue] at *
    exact same_noNilK k k' hk' hn
theorem same_noNilK : ∀ (k k' : PKind), SameKind k k' → NoNilKind k' → NoNilKind k
  | .array (.mk items u), w, h, hn => by
    simp only [SameKind] at h
    obtain ⟨items', hw', hi⟩ := h
    subst hw'
    simp only [NoNilKind] at *
    exact same_noNilL items items' hi hn
  | .object (.mk fields u), w, h, hn => by
    simp only [SameKind] at h
    obtain ⟨fields', order, hw', hi, hp⟩ := h
    subst hw'
    simp only [NoNilKind] at *
    refine same_noNilE fields fields' hi ?_
    rw [noNilFields_iff] at hn ⊢
    exact fun e he => hn e (hp.mem_iff.1 he)
  | .unset, w, h, hn => by simp only [SameKind] at h; subst h; exact hn
  | .null x, w, h, hn => by simp only [SameKind] at h; subst h; exact hn
  | .array .nil, w, h, hn => by simp only [SameKind] at h; subst h; exact hn
  | .boolean x, w, h, hn => by simp only [SameKind] at h; subst h; exact hn
  | .float x, w, h, hn => by simp only [SameKind] at h; subst h; exact hn
  | .integer x, w, h, hn => by simp only [SameKind] at h; subst h; exact hn
  | .object .nil, w, h, hn => by simp only [SameKind] at h; subst h; exact hn
  | .string x, w, h, hn => by simp only [SameKind] at h; subst h; exact hn
  | .timestamp x, w, h, hn => by simp only [SameKind] at h; subst h; exact hn
  | .unsigned x, w, h, hn => by simp only [SameKind] at h; subst h; exact hn
theorem same_noNilL : ∀ (vs vs' : List PValue), SameItems vs vs' → NoNilItems vs' → NoNilItems vs
  | [], vs', h, hn => trivial
  | v :: vs, w, h, hn => by
    simp only [SameItems] at h
    obtain ⟨v', vs', hw', h1, h2⟩ := h
    subst hw'
    simp only [NoNilItems] at *
    exact ⟨same_noNil v v' h1 hn.1, same_noNilL vs vs' h2 hn.2⟩
theorem same_noNilE : ∀ (es es' : List (Bytes × PValue)), SameEntries es es' → NoNilFields es' → NoNilFields es
  | [], es', h, hn => trivial
  | (k, v) :: es, w, h, hn => by
    simp only [SameEntries] at h
    obtain ⟨v', es', hw', h1, h2⟩ := h
    subst hw'
    simp only [NoNilFields] at *
    refine ⟨?_, same_noNilE es es' h2 hn.2⟩
    rcases hn.1 with rfl | h
    · cases v with
      | nil => exact .inl rfl
      | mk k u => simp only [SameValue] at h1; obtain ⟨_, h, _⟩ := h1; cases h
    · exact .inr (same_noNil v v' h1 h)
end

/-! ## Orders -/

mutual
theorem same_refl : ∀ (v : PValue), SameValue v v
  | .nil => by simp only [SameValue]
  | .mk k u => by simp only [SameValue]; exact ⟨k, rfl, same_reflK k⟩
theorem same_reflK : ∀ (k : PKind), SameKind k k
  | .array (.mk items u) => by simp only [SameKind]; exact ⟨items, rfl, same_reflL items⟩
  | .object (.mk fields u) => by simp only [SameKind]; exact ⟨fields, fields, rfl, same_reflE fields, List.Perm.refl _⟩
  | .unset => by simp only [SameKind]
  | .null x => by simp only [SameKind]
  | .array .nil => by simp only [SameKind]
  | .boolean x => by simp only [SameKind]
  | .float x => by simp only [SameKind]
  | .integer x => by simp only [SameKind]
  | .object .nil => by simp only [SameKind]
  | .string x => by simp only [SameKind]
  | .timestamp x => by simp only [SameKind]
  | .unsigned x => by simp only [SameKind]
theorem same_reflL : ∀ (vs : List PValue), SameItems vs vs
  | [] => by simp only [SameItems]
  | v :: vs => by simp only [SameItems]; exact ⟨v, vs, rfl, same_refl v, same_reflL vs⟩
theorem same_reflE : ∀ (es : List (Bytes × PValue)), SameEntries es es
  | [] => by simp only [SameEntries]
  | (k, v) :: es => by simp only [SameEntries]; exact ⟨v, es, rfl, same_refl v, same_reflE es⟩
end

theorem perm_short {α : Type} {l l' : List α} (h : l.Perm l') (hl : l.length ≤ 1) : l' = l := by
  match l, hl with
  | [], _ => exact List.Perm.nil_eq h |>.symm
  | [a], _ => exact (List.perm_singleton.1 h.symm)

theorem protoOfE_length (es : List (Bytes × Val)) : (protoOfE es).length = es.length := by
  induction es with
  | nil => rfl
  | cons e es ih => obtain ⟨k, v⟩ := e; simp [protoOfE, ih]

mutual
theorem narrow_same : ∀ (v : Val) (v' : PValue), v.Narrow → SameValue (protoOf v) v' → v' = protoOf v
  | .nilp, v', _, h => by simpa only [protoOf, SameValue] using h
  | .scalar s, v', _, h => by
    cases s <;> simp only [protoOf, SameValue, SameKind] at h ⊢ <;> (obtain ⟨k, rfl, rfl⟩ := h; rfl)
  | .arrNil, v', _, h => by
    simp only [protoOf, SameValue, SameKind, SameItems] at h ⊢
    obtain ⟨k, rfl, i, rfl, rfl⟩ := h; rfl
  | .objNil, v', _, h => by
    simp only [protoOf, SameValue, SameKind, SameEntries] at h ⊢
    obtain ⟨k, rfl, i, o, rfl, rfl, hp⟩ := h
    rw [perm_short hp (by simp)]
  | .arr vs, v', hn, h => by
    simp only [protoOf, SameValue, SameKind] at h ⊢
    obtain ⟨k, rfl, i, rfl, hi⟩ := h
    rw [narrow_sameL vs i hn hi]
  | .obj es, v', hn, h => by
    simp only [protoOf, SameValue, SameKind] at h ⊢
    obtain ⟨k, rfl, i, o, rfl, hi, hp⟩ := h
    rw [narrow_sameE es i hn.2 hi] at hp
    rw [perm_short hp (by rw [protoOfE_length]; exact hn.1)]
theorem narrow_sameL : ∀ (vs : List Val) (w : List PValue), Val.NarrowL vs → SameItems (protoOfL vs) w → w = protoOfL vs
  | [], w, _, h => by simpa only [protoOfL, SameItems] using h
  | v :: vs, w, hn, h => by
    simp only [protoOfL, SameItems] at h ⊢
    obtain ⟨v', vs', rfl, h1, h2⟩ := h
    rw [narrow_same v v' hn.1 h1, narrow_sameL vs vs' hn.2 h2]
theorem narrow_sameE : ∀ (es : List (Bytes × Val)) (w : List (Bytes × PValue)), Val.NarrowE es → SameEntries (protoOfE es) w → w = protoOfE es
  | [], w, _, h => by simpa only [protoOfE, SameEntries] using h
  | (k, v) :: es, w, hn, h => by
    simp only [protoOfE, SameEntries] at h ⊢
    obtain ⟨v', es', rfl, h1, h2⟩ := h
    rw [narrow_same v v' hn.1 h1, narrow_sameE es es' hn.2 h2]
end

/-- A map with two fields can be iterated in another order. -/
theorem wide_order {es : List (Bytes × Val)} (hs : AMap.Sorted es) (hl : 1 < es.length) : ∃ o, (protoOfE es).Perm o ∧ o ≠ protoOfE es := by
  match es, hl with
  | (k, v) :: (k', v') :: es, _ =>
    refine ⟨(k', protoOf v') :: (k, protoOf v) :: protoOfE es, by simp only [protoOfE]; exact List.Perm.swap _ _ _, ?_⟩
    intro h
    simp only [protoOfE, List.cons.injEq, Prod.mk.injEq] at h
    have := (List.pairwise_cons.1 hs).1 (k', v') (by simp)
    rw [h.1.1] at this
    simp [bLt_irrefl] at this

mutual
theorem wide_same : ∀ (v : Val), v.Canon → ¬ v.Narrow → ∃ v', SameValue (protoOf v) v' ∧ v' ≠ protoOf v
  | .nilp, _, hn => absurd trivial hn
  | .scalar s, _, hn => absurd trivial hn
  | .arrNil, _, hn => absurd trivial hn
  | .objNil, _, hn => absurd trivial hn
  | .arr vs, hc, hn => by
    obtain ⟨w, h1, h2⟩ := wide_sameL vs hc hn
    refine ⟨.mk (.array (.mk w [])) [], ?_, ?_⟩
    · simp only [protoOf, SameValue, SameKind]
      exact ⟨_, rfl, w, rfl, h1⟩
    · simp only [protoOf]
      intro h
      cases h
      exact h2 rfl
  | .obj es, hc, hn => by
    by_cases hl : es.length ≤ 1
    · obtain ⟨w, h1, h2⟩ := wide_sameE es hc.2 fun h => hn ⟨hl, h⟩
      refine ⟨.mk (.object (.mk w [])) [], ?_, ?_⟩
      · simp only [protoOf, SameValue, SameKind]
        exact ⟨_, rfl, w, w, rfl, h1, List.Perm.refl _⟩
      · simp only [protoOf]
        intro h
        cases h
        exact h2 rfl
    · obtain ⟨o, h1, h2⟩ := wide_order hc.1 (by omega)
      refine ⟨.mk (.object (.mk o [])) [], ?_, ?_⟩
      · simp only [protoOf, SameValue, SameKind]
        exact ⟨_, rfl, _, o, rfl, same_reflE _, h1⟩
      · simp only [protoOf]
        intro h
        cases h
        exact h2 rfl
theorem wide_sameL : ∀ (vs : List Val), Val.CanonL vs → ¬ Val.NarrowL vs → ∃ w, SameItems (protoOfL vs) w ∧ w ≠ protoOfL vs
  | [], _, hn => absurd trivial hn
  | v :: vs, hc, hn => by
    by_cases hv : v.Narrow
    · obtain ⟨w, h1, h2⟩ := wide_sameL vs hc.2 fun h => hn ⟨hv, h⟩
      refine ⟨protoOf v :: w, ?_, ?_⟩
      · simp only [protoOfL, SameItems]; exact ⟨_, _, rfl, same_refl _, h1⟩
      · simp only [protoOfL]; intro h; cases h; exact h2 rfl
    · obtain ⟨w, h1, h2⟩ := wide_same v hc.1 hv
      refine ⟨w :: protoOfL vs, ?_, ?_⟩
      · simp only [protoOfL, SameItems]; exact ⟨_, _, rfl, h1, same_reflL _⟩
      · simp only [protoOfL]; intro h; simp only [List.cons.injEq, and_true] at h; exact h2 h
theorem wide_sameE : ∀ (es : List (Bytes × Val)), Val.CanonE es → ¬ Val.NarrowE es → ∃ w, SameEntries (protoOfE es) w ∧ w ≠ protoOfE es
  | [], _, hn => absurd trivial hn
  | (k, v) :: es, hc, hn => by
    by_cases hv : v.Narrow
    · obtain ⟨w, h1, h2⟩ := wide_sameE es hc.2 fun h => hn ⟨hv, h⟩
      refine ⟨(k, protoOf v) :: w, ?_, ?_⟩
      · simp only [protoOfE, SameEntries]; exact ⟨_, _, rfl, same_refl _, h1⟩
      · simp only [protoOfE]; intro h; simp only [List.cons.injEq, true_and] at h; exact h2 h
    · obtain ⟨w, h1, h2⟩ := wide_same v hc.1 hv
      refine ⟨(k, w) :: protoOfE es, ?_, ?_⟩
      · simp only [protoOfE, SameEntries]; exact ⟨_, _, rfl, h1, same_reflE _⟩
      · simp only [protoOfE]; intro h; simp only [List.cons.injEq, Prod.mk.injEq, true_and, and_true] at h; exact h2 h
end

end Sawmill
