import Verif.Spec.SameGoMap
import Verif.Props.Reflect
import Verif.Props.SameProto
/-!
# C111: when two events are the same Go map
-/

namespace Sawmill

/-! ## Names -/

/-- A sorted list inside another sorted one is a part of it in order. -/
theorem sorted_sublist : ∀ {ls ks : List Bytes}, ks.Pairwise (fun a b => bLt a b = true) → ls.Pairwise (fun a b => bLt a b = true) → (∀ k ∈ ks, k ∈ ls) → ks.Sublist ls
  | [], [], _, _, _ => .slnil
  | [], k :: _, _, _, h => by cases h k (by simp)
  | l :: ls, [], _, _, _ => List.nil_sublist _
  | l :: ls, k :: ks, hk, hl, h => by
    have ek := List.pairwise_cons.1 hk
    have el := List.pairwise_cons.1 hl
    by_cases e : k = l
    · subst e
      refine .cons_cons _ (sorted_sublist ek.2 el.2 fun q hq => ?_)
      cases List.mem_cons.1 (h q (List.mem_cons_of_mem _ hq)) with
      | inl hqk => subst hqk; have := ek.1 q hq; rw [bLt_irrefl] at this; cases this
      | inr hq => exact hq
    · refine .cons _ (sorted_sublist hk el.2 fun q hq => ?_)
      have hkl : k ∈ ls := (List.mem_cons.1 (h k (by simp))).resolve_left e
      have h1 := el.1 k hkl
      cases List.mem_cons.1 (h q hq) with
      | inr hq => exact hq
      | inl hql =>
        subst hql
        cases List.mem_cons.1 hq with
        | inl hqk => exact absurd hqk.symm e
        | inr hq =>
          have := bLt_trans h1 (ek.1 q hq)
          rw [bLt_irrefl] at this; cases this

theorem goOfE_keys (text : GoTime → Bytes) (es : List (Bytes × Val)) : (goOfE text es).map (·.1) = es.map (·.1) := by
  rw [goOfE_eq, List.map_map]; rfl

theorem goOfE_length (text : GoTime → Bytes) (es : List (Bytes × Val)) : (goOfE text es).length = es.length := by
  rw [goOfE_eq, List.length_map]

theorem shownE_keys : ∀ (es : List (Bytes × Val)), (Val.shownE es).map (·.1) = es.map (·.1)
  | [] => rfl
  | (k, v) :: es => by simp only [Val.shownE, List.map_cons, shownE_keys es]

theorem deepE_keys : ∀ (es fs : List (Bytes × GIface)), DeepEqualE es fs → ∀ k ∈ es.map (·.1), k ∈ fs.map (·.1)
  | [], fs, _, k, hk => by cases hk
  | (q, x) :: es, fs, h, k, hk => by
    simp only [DeepEqualE] at h
    cases List.mem_cons.1 hk with
    | inl e => obtain ⟨⟨y, hy, _⟩, _⟩ := h; subst e; exact List.mem_map.2 ⟨_, hy, rfl⟩
    | inr hk => exact deepE_keys es fs h.2 k hk

/-- An entry whose name does not occur does not matter. -/
theorem deepE_skip {q : Bytes} {z : GIface} {fs : List (Bytes × GIface)} : ∀ (es : List (Bytes × GIface)), (∀ k ∈ es.map (·.1), k ≠ q) → (DeepEqualE es ((q, z) :: fs) ↔ DeepEqualE es fs)
  | [], _ => by simp [DeepEqualE]
  | (k, x) :: es, h => by
    have hk : k ≠ q := h k (by simp)
    simp only [DeepEqualE, deepE_skip es (fun r hr => h r (List.mem_cons_of_mem _ hr)), List.mem_cons, Prod.mk.injEq, hk, false_and, false_or]

/-! ## Values -/

theorem floatEqual_iff (f g : BitVec 64) : FloatEqual f g ↔ ((if f.toNat % 2 ^ 63 = 0 then (0 : BitVec 64) else f) = (if g.toNat % 2 ^ 63 = 0 then 0 else g)) ∧ ¬ IsNaN f := by
  have z : ∀ f : BitVec 64, f.toNat % 2 ^ 63 = 0 → ¬ IsNaN f := by
    intro f hf hn
    unfold IsNaN at hn
    omega
  unfold FloatEqual IsZero
  by_cases hf : f.toNat % 2 ^ 63 = 0 <;> by_cases hg : g.toNat % 2 ^ 63 = 0
  · simp [hf, hg, z f hf, z g hg]
  · rw [if_pos hf, if_neg hg]
    constructor
    · rintro ⟨_, _, rfl | ⟨_, h⟩⟩
      · exact absurd hf hg
      · exact absurd h hg
    · rintro ⟨rfl, _⟩; exact absurd rfl hg
  · rw [if_neg hf, if_pos hg]
    constructor
    · rintro ⟨_, _, rfl | ⟨h, _⟩⟩
      · exact absurd hg hf
      · exact absurd h hf
    · rintro ⟨rfl, _⟩; exact absurd rfl hf
  · rw [if_neg hf, if_neg hg]
    constructor
    · rintro ⟨h, _, rfl | ⟨h', _⟩⟩
      · exact ⟨rfl, h⟩
      · exact absurd h' hf
    · rintro ⟨rfl, h⟩; exact ⟨h, h, .inl rfl⟩

theorem goTime_inj (t u : BitVec 64) : timeGoTime t.toInt = timeGoTime u.toInt ↔ t = u := by
  constructor
  · intro h
    have b : ∀ x : BitVec 64, IsI64 x.toInt := fun x => ⟨by have := x.le_toInt; omega, by have := x.toInt_lt; omega⟩
    have h2 := congrArg GoTime.unixNano h
    rw [unixNano_goTime (b t), unixNano_goTime (b u)] at h2
    exact BitVec.eq_of_toInt_eq h2
  · rintro rfl; rfl

/-- Values that are not lists or maps. -/
theorem deep_scalar (text : GoTime → Bytes) (s r : Scalar) : DeepEqual (goOf text (.scalar s)) (goOf text (.scalar r)) ↔ Val.shown (.scalar s) = Val.shown (.scalar r) ∧ Val.NoNaN (.scalar s) := by
  cases s <;> cases r <;> simp [goOf, stdVal, stdTime, DeepEqual, DeepEqualV, Val.shown, Val.NoNaN, floatEqual_iff, goTime_inj]

/-- Two maps. -/
theorem deep_maps (text : GoTime → Bytes) (es fs : List (Bytes × Val))
    (ih : ∀ fs : List (Bytes × Val), AMap.Sorted es → Val.CanonE es → AMap.Sorted fs → Val.CanonE fs → es.map (·.1) = fs.map (·.1) →
      (DeepEqualE (goOfE text es) (goOfE text fs) ↔ Val.shownE es = Val.shownE fs ∧ Val.NoNaNE es))
    (hs : AMap.Sorted es) (hc : Val.CanonE es) (hs' : AMap.Sorted fs) (hc' : Val.CanonE fs) :
    ((goOfE text es).length = (goOfE text fs).length ∧ DeepEqualE (goOfE text es) (goOfE text fs)) ↔ Val.shownE es = Val.shownE fs ∧ Val.NoNaNE es := by
  have pw : ∀ {es : List (Bytes × Val)}, AMap.Sorted es → (es.map (·.1)).Pairwise (fun a b => bLt a b = true) := fun h => List.pairwise_map.2 h
  constructor
  · rintro ⟨hl, hd⟩
    have hk := deepE_keys _ _ hd
    rw [goOfE_keys, goOfE_keys] at hk
    have sub := sorted_sublist (pw hs) (pw hs') hk
    have he := sub.eq_of_length (by rw [goOfE_length, goOfE_length] at hl; rw [List.length_map, List.length_map, hl])
    exact (ih fs hs hc hs' hc' he).1 hd
  · rintro ⟨he, hn⟩
    have hk : es.map (·.1) = fs.map (·.1) := by rw [← shownE_keys es, ← shownE_keys fs, he]
    refine ⟨?_, (ih fs hs hc hs' hc' hk).2 ⟨he, hn⟩⟩
    rw [goOfE_length, goOfE_length]
    simpa using congrArg List.length hk

mutual
theorem deep_iff (text : GoTime → Bytes) : ∀ (v w : Val), v.Canon → w.Canon → (DeepEqual (goOf text v) (goOf text w) ↔ v.shown = w.shown ∧ v.NoNaN)
  | .nilp, w, _, _ => by
    cases w with
    | scalar s => cases s <;> simp [goOf, stdVal, stdTime, DeepEqual, DeepEqualV, Val.shown, Val.NoNaN]
    | _ => simp [goOf, stdVal, stdTime, DeepEqual, DeepEqualV, Val.shown, Val.NoNaN]
  | .scalar s, w, _, _ => by
    cases w with
    | scalar r => exact deep_scalar text s r
    | _ => cases s <;> simp [goOf, stdVal, stdTime, DeepEqual, DeepEqualV, Val.shown, Val.NoNaN]
  | .arrNil, w, _, _ => by
    cases w with
    | scalar s => cases s <;> simp [goOf, stdVal, stdTime, DeepEqual, DeepEqualV, Val.shown, Val.NoNaN]
    | arr ws => cases ws <;> simp [goOf, goOfL, stdVal, stdTime, DeepEqual, DeepEqualV, DeepEqualL, Val.shown, Val.shownL, Val.NoNaN]
    | _ => simp [goOf, goOfL, stdVal, stdTime, DeepEqual, DeepEqualV, DeepEqualL, Val.shown, Val.NoNaN]
  | .arr vs, w, hv, hw => by
    cases w with
    | scalar s => cases s <;> simp [goOf, stdVal, stdTime, DeepEqual, DeepEqualV, Val.shown]
    | arr ws =>
      simp only [goOf, DeepEqual, DeepEqualV, Val.shown, Val.NoNaN, Val.arr.injEq]
      exact deep_iffL text vs ws hv hw
    | arrNil =>
      have := deep_iffL text vs [] hv trivial
      simpa only [goOf, goOfL, DeepEqual, DeepEqualV, Val.shown, Val.shownL, Val.NoNaN, Val.arr.injEq] using this
    | _ => simp [goOf, stdVal, stdTime, DeepEqual, DeepEqualV, Val.shown]
  | .objNil, w, _, _ => by
    cases w with
    | scalar s => cases s <;> simp [goOf, stdVal, stdTime, DeepEqual, DeepEqualV, Val.shown, Val.NoNaN]
    | obj ws => cases ws <;> simp [goOf, goOfE, stdVal, stdTime, DeepEqual, DeepEqualV, DeepEqualE, Val.shown, Val.shownE, Val.NoNaN]
    | _ => simp [goOf, goOfE, stdVal, stdTime, DeepEqual, DeepEqualV, DeepEqualE, Val.shown, Val.NoNaN]
  | .obj es, w, hv, hw => by
    cases w with
    | scalar s => cases s <;> simp [goOf, stdVal, stdTime, DeepEqual, DeepEqualV, Val.shown]
    | obj fs =>
      simp only [goOf, stdVal, DeepEqual, DeepEqualV, Val.shown, Val.NoNaN, Val.obj.injEq]
      exact deep_maps text es fs (deep_iffE text es) hv.1 hv.2 hw.1 hw.2
    | objNil =>
      have := deep_maps text es [] (deep_iffE text es) hv.1 hv.2 .nil trivial
      simpa only [goOf, goOfE, stdVal, DeepEqual, DeepEqualV, Val.shown, Val.shownE, Val.NoNaN, Val.obj.injEq] using this
    | _ => simp [goOf, stdVal, stdTime, DeepEqual, DeepEqualV, Val.shown]
theorem deep_iffL (text : GoTime → Bytes) : ∀ (vs ws : List Val), Val.CanonL vs → Val.CanonL ws → (DeepEqualL (goOfL text vs) (goOfL text ws) ↔ Val.shownL vs = Val.shownL ws ∧ Val.NoNaNL vs)
  | [], ws, _, _ => by cases ws <;> simp [goOfL, DeepEqualL, Val.shownL, Val.NoNaNL]
  | v :: vs, ws, hv, hw => by
    cases ws with
    | nil => simp [goOfL, DeepEqualL, Val.shownL]
    | cons w ws =>
      simp only [goOfL, DeepEqualL, Val.shownL, Val.NoNaNL, List.cons.injEq, deep_iff text v w hv.1 hw.1, deep_iffL text vs ws hv.2 hw.2]
      constructor
      · rintro ⟨⟨a, b⟩, c, d⟩; exact ⟨⟨a, c⟩, b, d⟩
      · rintro ⟨⟨a, c⟩, b, d⟩; exact ⟨⟨a, b⟩, c, d⟩
theorem deep_iffE (text : GoTime → Bytes) : ∀ (es fs : List (Bytes × Val)), AMap.Sorted es → Val.CanonE es → AMap.Sorted fs → Val.CanonE fs → es.map (·.1) = fs.map (·.1) →
    (DeepEqualE (goOfE text es) (goOfE text fs) ↔ Val.shownE es = Val.shownE fs ∧ Val.NoNaNE es)
  | [], fs, _, _, _, _, h => by cases fs <;> simp [goOfE, DeepEqualE, Val.shownE, Val.NoNaNE] at h ⊢
  | (k, v) :: es, fs, hs, hc, hs', hc', h => by
    cases fs with
    | nil => cases h
    | cons q fs =>
      obtain ⟨q, w⟩ := q
      simp only [List.map_cons, List.cons.injEq] at h
      obtain ⟨rfl, h⟩ := h
      have s1 := List.pairwise_cons.1 hs
      have s2 := List.pairwise_cons.1 hs'
      have ih := deep_iffE text es fs s1.2 hc.2 s2.2 hc'.2 h
      have skip : DeepEqualE (goOfE text es) ((k, goOf text w) :: goOfE text fs) ↔ DeepEqualE (goOfE text es) (goOfE text fs) := by
        refine deepE_skip _ fun r hr => ?_
        rw [goOfE_keys] at hr
        obtain ⟨e, he, rfl⟩ := List.mem_map.1 hr
        rintro rfl
        have := s1.1 e he
        rw [bLt_irrefl] at this; cases this
      have one : (∃ y, (k, y) ∈ (k, goOf text w) :: goOfE text fs ∧ DeepEqual (goOf text v) y) ↔ v.shown = w.shown ∧ v.NoNaN := by
        rw [← deep_iff text v w hc.1 hc'.1]
        constructor
        · rintro ⟨y, hy, hd⟩
          cases List.mem_cons.1 hy with
          | inl e => cases e; exact hd
          | inr hy =>
            have : k ∈ fs.map (·.1) := by rw [← goOfE_keys text]; exact List.mem_map.2 ⟨_, hy, rfl⟩
            obtain ⟨e, he, hk⟩ := List.mem_map.1 this
            have := s2.1 e he
            rw [hk, bLt_irrefl] at this; cases this
        · exact fun hd => ⟨_, by simp, hd⟩
      simp only [goOfE, DeepEqualE, Val.shownE, Val.NoNaNE, List.cons.injEq, Prod.mk.injEq, true_and, skip, one, ih]
      constructor
      · rintro ⟨⟨a, b⟩, c, d⟩; exact ⟨⟨a, c⟩, b, d⟩
      · rintro ⟨⟨a, c⟩, b, d⟩; exact ⟨⟨a, b⟩, c, d⟩
end

/-! ## C111 -/

/-- The Go map of an event. -/
def GoMapOf (text : GoTime → Bytes) (f : Fields) : Option (List (Bytes × GIface)) := if f.getD [] = [] then none else some (goOfE text (f.getD []))

theorem deep_events (text : GoTime → Bytes) {f g : Fields} (hs : AMap.Sorted (f.getD [])) (hc : Val.CanonE (f.getD [])) (hs' : AMap.Sorted (g.getD [])) (hc' : Val.CanonE (g.getD [])) :
    DeepEqualMaps (GoMapOf text f) (GoMapOf text g) ↔ Val.shownE (f.getD []) = Val.shownE (g.getD []) ∧ Val.NoNaNE (f.getD []) := by
  unfold GoMapOf
  generalize f.getD [] = es at *
  generalize g.getD [] = fs at *
  have := deep_maps text es fs (deep_iffE text es) hs hc hs' hc'
  cases es with
  | nil => cases fs with
    | nil => simp [DeepEqualMaps, Val.NoNaNE]
    | cons e fs => obtain ⟨k, v⟩ := e; simp [DeepEqualMaps, Val.shownE]
  | cons e es => cases fs with
    | nil => obtain ⟨k, v⟩ := e; simp [DeepEqualMaps, Val.shownE]
    | cons e' fs => simpa only [DeepEqualMaps, List.cons_ne_nil, if_false, reduceCtorEq] using this

/-- C111: the Go maps of two events, wherever they are kept, are deeply equal exactly if their contents show the same (no contents at all counts as empty) and there is no NaN in them. -/
theorem go_map_same (text : GoTime → Bytes) {h h' : Heap} {e e' : Event} {f g : Fields} (hh : Holds h e f) (hs : AMap.Sorted (f.getD [])) (hc : Val.CanonE (f.getD [])) (hh' : Holds h' e' g)
    (hs' : AMap.Sorted (g.getD [])) (hc' : Val.CanonE (g.getD [])) :
    ∃ N, ∀ n, N ≤ n → ∃ a b, mapFromEvent text n h e = some (.ok a) ∧ mapFromEvent text n h' e' = some (.ok b) ∧
      (DeepEqualMaps a b ↔ Val.shownE (f.getD []) = Val.shownE (g.getD []) ∧ Val.NoNaNE (f.getD [])) := by
  obtain ⟨N, hN⟩ := mapFromEvent_spec (text := text) hh
  obtain ⟨M, hM⟩ := mapFromEvent_spec (text := text) hh'
  exact ⟨max N M, fun n hn => ⟨_, _, hN n (by omega), hM n (by omega), deep_events text hs hc hs' hc'⟩⟩

/-- C111: two Go maps of one event are deeply equal exactly if there is no NaN in it. -/
theorem go_map_self (text : GoTime → Bytes) {h : Heap} {e : Event} {f : Fields} (hh : Holds h e f) (hs : AMap.Sorted (f.getD [])) (hc : Val.CanonE (f.getD [])) :
    ∃ N, ∀ n, N ≤ n → ∃ a, mapFromEvent text n h e = some (.ok a) ∧ (DeepEqualMaps a a ↔ Val.NoNaNE (f.getD [])) := by
  obtain ⟨N, hN⟩ := mapFromEvent_spec (text := text) hh
  exact ⟨N, fun n hn => ⟨_, hN n hn, (deep_events text hs hc hs hc).trans ⟨fun h => h.2, fun h => ⟨rfl, h⟩⟩⟩⟩

mutual
theorem shown_filled : ∀ (v : Val), v.filled.shown = v.shown
  | .nilp => rfl
  | .scalar _ => rfl
  | .arrNil => rfl
  | .objNil => rfl
  | .arr vs => by simp only [Val.filled, Val.shown, shown_filledL vs]
  | .obj es => by simp only [Val.filled, Val.shown, shown_filledE es]
theorem shown_filledL : ∀ (vs : List Val), Val.shownL (Val.filledL vs) = Val.shownL vs
  | [] => rfl
  | v :: vs => by simp only [Val.filledL, Val.shownL, shown_filled v, shown_filledL vs]
theorem shown_filledE : ∀ (es : List (Bytes × Val)), Val.shownE (Val.filledE es) = Val.shownE es
  | [] => rfl
  | (k, v) :: es => by simp only [Val.filledE, Val.shownE, shown_filled v, shown_filledE es]
end

/-- C111: two events with equal messages have deeply equal Go maps, if there is no NaN in them. -/
theorem go_map_of_message (text : GoTime → Bytes) {h h' : Heap} {e e' : Event} {f g : Fields} (hh : Holds h e f) (hs : AMap.Sorted (f.getD [])) (hc : Val.CanonE (f.getD [])) (hh' : Holds h' e' g)
    (hs' : AMap.Sorted (g.getD [])) (hc' : Val.CanonE (g.getD [])) {k : Nat} {m : Wire.PWrapper} (hm : fromEvent k h e = .ok m) (hm' : fromEvent k h' e' = .ok m) (hn : Val.NoNaNE (f.getD [])) :
    ∃ N, ∀ n, N ≤ n → ∃ a b, mapFromEvent text n h e = some (.ok a) ∧ mapFromEvent text n h' e' = some (.ok b) ∧ DeepEqualMaps a b := by
  obtain ⟨N, hN⟩ := go_map_same text hh hs hc hh' hs' hc'
  refine ⟨N, fun n hle => ?_⟩
  obtain ⟨a, b, h1, h2, h3⟩ := hN n hle
  refine ⟨a, b, h1, h2, h3.2 ⟨?_, hn⟩⟩
  have e : messageOf f = messageOf g := (fromEvent_is hh hm).symm.trans (fromEvent_is hh' hm')
  have e2 : filledFields f = filledFields g := by rw [← readMessage_of hs hc, ← readMessage_of hs' hc', e]
  rw [← shown_filledE (f.getD []), ← shown_filledE (g.getD [])]
  exact congrArg Val.shownE e2

/-- C111: a nil slice, a negative zero and a nil pointer in one event, an empty slice, a zero and a null in another: deeply equal Go maps. An event with a NaN is not
deeply equal to itself. An integer and an unsigned integer are not deeply equal. -/
theorem go_map_same_sample (text : GoTime → Bytes) :
    (∃ a b, mapFromEvent text 3 [.cell (arrCell none), .cell (floatCell 0x8000000000000000), .map [(lit "a", some 0), (lit "b", some 1), (lit "c", none)]] (some 2) = some (.ok a) ∧
      mapFromEvent text 3 [.cell (arrCell (some [])), .cell (floatCell 0), .cell nullCell, .map [(lit "a", some 0), (lit "b", some 1), (lit "c", some 2)]] (some 3) = some (.ok b) ∧ DeepEqualMaps a b) ∧
    (∃ a, mapFromEvent text 2 [.cell (floatCell 0x7ff8000000000001), .map [(lit "a", some 0)]] (some 1) = some (.ok a) ∧ ¬ DeepEqualMaps a a) ∧
    (∃ a b, mapFromEvent text 2 [.cell (intCell 7), .map [(lit "a", some 0)]] (some 1) = some (.ok a) ∧ mapFromEvent text 2 [.cell (uintCell 7), .map [(lit "a", some 0)]] (some 1) = some (.ok b) ∧
      ¬ DeepEqualMaps a b) := by
  refine ⟨⟨_, _, rfl, rfl, ?_⟩, ⟨_, rfl, ?_⟩, ⟨_, _, rfl, rfl, ?_⟩⟩
  · exact (deep_events text (f := some [(lit "a", .arrNil), (lit "b", .scalar (.float 0x8000000000000000)), (lit "c", .nilp)])
      (g := some [(lit "a", .arr []), (lit "b", .scalar (.float 0)), (lit "c", .scalar .null)]) (by decide) (by simp [Val.CanonE, Val.Canon]) (by decide) (by simp [Val.CanonE, Val.Canon, Val.CanonL])).2
      ⟨by simp [Val.shownE, Val.shown, Val.shownL], by simp [Val.NoNaNE, Val.NoNaN, IsNaN]⟩
  · intro h
    have := ((deep_events text (f := some [(lit "a", .scalar (.float 0x7ff8000000000001))]) (g := some [(lit "a", .scalar (.float 0x7ff8000000000001))]) (by decide) (by simp [Val.CanonE, Val.Canon])
      (by decide) (by simp [Val.CanonE, Val.Canon])).1 h).2
    exact absurd this (by simp [Val.NoNaNE, Val.NoNaN, IsNaN])
  · intro h
    have := ((deep_events text (f := some [(lit "a", .scalar (.int 7))]) (g := some [(lit "a", .scalar (.uint 7))]) (by decide) (by simp [Val.CanonE, Val.Canon])
      (by decide) (by simp [Val.CanonE, Val.Canon])).1 h).1
    exact absurd this (by simp [Val.shownE, Val.shown])

end Sawmill
