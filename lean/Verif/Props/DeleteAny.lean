import Verif.Props.PutAny
/-!
# C08 for events that share parts
-/

namespace Sawmill
open ATree

theorem deref_set_map {h : Heap} {m : Nat} {ps qs : AMap Ptr} (hm : h[m]? = some (.map ps)) (p : Ptr) : deref (h.set m (.map qs)) p = deref h p := by
  cases p with
  | none => rfl
  | some a =>
    simp only [deref]
    by_cases e : m = a
    · subst e
      rw [List.getElem?_set_self (lt_of_getElem? hm), hm]
    · rw [List.getElem?_set_ne e]

/-! Writing another map over the event's own one changes nothing in values that are smaller than the event. -/

mutual
theorem reads_set_root {h : Heap} {m : Nat} {ps qs : AMap Ptr} {es : List (Bytes × Val)} (hm : h[m]? = some (.map ps)) (hr : ReadsE h ps es) : ∀ (v : Val) {p : Ptr}, sizeOf v ≤ sizeOf es → Reads h p v →
    Reads (h.set m (.map qs)) p v
  | .nilp, p, _, hv => hv
  | .scalar s, p, _, hv => by simp only [Reads] at hv ⊢; rw [deref_set_map hm]; exact hv
  | .arrNil, p, _, hv => by simp only [Reads] at hv ⊢; rw [deref_set_map hm]; exact hv
  | .objNil, p, _, hv => by simp only [Reads] at hv ⊢; rw [deref_set_map hm]; exact hv
  | .arr vs, p, hs, hv => by
    simp only [Reads] at hv ⊢
    obtain ⟨qs', h1, h2⟩ := hv
    exact ⟨qs', by rw [deref_set_map hm]; exact h1, reads_set_rootL hm hr vs (by simp at hs; omega) h2⟩
  | .obj es1, p, hs, hv => by
    simp only [Reads] at hv ⊢
    obtain ⟨m1, ps1, h1, h2, h3⟩ := hv
    have hne : m ≠ m1 := by
      rintro rfl
      rw [hm] at h2
      cases h2
      have := readsE_inj _ _ hr h3
      subst this
      simp at hs
      omega
    exact ⟨m1, ps1, by rw [deref_set_map hm]; exact h1, by rw [List.getElem?_set_ne hne]; exact h2, reads_set_rootE hm hr es1 (by simp at hs; omega) h3⟩
theorem reads_set_rootL {h : Heap} {m : Nat} {ps qs : AMap Ptr} {es : List (Bytes × Val)} (hm : h[m]? = some (.map ps)) (hr : ReadsE h ps es) : ∀ (vs : List Val) {qs' : List Ptr}, sizeOf vs ≤ sizeOf es → ReadsL h qs' vs →
    ReadsL (h.set m (.map qs)) qs' vs
  | [], qs', _, hv => by cases qs' <;> simp [ReadsL] at hv ⊢
  | v :: vs, qs', hs, hv => by
    cases qs' with
    | nil => simp [ReadsL] at hv
    | cons q qs' =>
      simp only [ReadsL] at hv ⊢
      simp at hs
      exact ⟨reads_set_root hm hr v (by omega) hv.1, reads_set_rootL hm hr vs (by omega) hv.2⟩
theorem reads_set_rootE {h : Heap} {m : Nat} {ps qs : AMap Ptr} {es : List (Bytes × Val)} (hm : h[m]? = some (.map ps)) (hr : ReadsE h ps es) : ∀ (vs : List (Bytes × Val)) {qs' : List (Bytes × Ptr)}, sizeOf vs ≤ sizeOf es →
    ReadsE h qs' vs → ReadsE (h.set m (.map qs)) qs' vs
  | [], qs', _, hv => by cases qs' <;> simp [ReadsE] at hv ⊢
  | (k, v) :: vs, qs', hs, hv => by
    cases qs' with
    | nil => simp [ReadsE] at hv
    | cons q qs' =>
      obtain ⟨k', q⟩ := q
      simp only [ReadsE] at hv ⊢
      simp at hs
      exact ⟨hv.1, reads_set_root hm hr v (by omega) hv.2.1, reads_set_rootE hm hr vs (by omega) hv.2.2⟩
end

theorem readsE_erase {h : Heap} (k : Bytes) : ∀ {ps : List (Bytes × Ptr)} {es : List (Bytes × Val)}, ReadsE h ps es → ReadsE h (AMap.erase ps k) (AMap.erase es k)
  | [], es, hr => by cases es <;> simp [ReadsE, AMap.erase] at hr ⊢
  | (q, p) :: ps, es, hr => by
    cases es with
    | nil => simp [ReadsE] at hr
    | cons e es =>
      obtain ⟨q', v⟩ := e
      simp only [ReadsE] at hr
      obtain ⟨rfl, h1, h2⟩ := hr
      simp only [AMap.erase]
      split
      · exact readsE_erase k h2
      · exact ⟨rfl, h1, readsE_erase k h2⟩

/-- Below the event, reading goes the same way. -/
theorem getLoop_set_root {h : Heap} {m : Nat} {ps qs : AMap Ptr} {es : List (Bytes × Val)} (hm : h[m]? = some (.map ps)) (hr : ReadsE h ps es) : ∀ (path : List Bytes) {v : Val} {p : Ptr} {c : Cell},
    sizeOf v ≤ sizeOf es → Reads h p v → deref h p = some c → mapOf (h.set m (.map qs)) c.object = mapOf h c.object ∧ getLoop (h.set m (.map qs)) c.object path = getLoop h c.object path := by
  intro path
  induction path with
  | nil => 
    intro v p c hs hv hd
    refine ⟨?_, rfl⟩
    cases v with
    | obj es1 =>
      simp only [Reads] at hv
      obtain ⟨m1, ps1, h1, h2, h3⟩ := hv
      rw [hd] at h1
      cases h1
      have hne : m ≠ m1 := by
        rintro rfl
        rw [hm] at h2
        cases h2
        have := readsE_inj _ _ hr h3
        subst this
        simp at hs
        omega
      simp [objCell, mapOf, List.getElem?_set_ne hne]
    | nilp => simp only [Reads] at hv; subst hv; simp [deref] at hd
    | scalar s =>
      simp only [Reads] at hv
      rw [hd] at hv
      cases hv
      cases s <;> simp [scalarCell, nullCell, boolCell, intCell, uintCell, floatCell, strCell, tsCell, mapOf]
    | arrNil => simp only [Reads] at hv; rw [hd] at hv; cases hv; simp [arrCell, mapOf]
    | arr vs => simp only [Reads] at hv; obtain ⟨_, hv, _⟩ := hv; rw [hd] at hv; cases hv; simp [arrCell, mapOf]
    | objNil => simp only [Reads] at hv; rw [hd] at hv; cases hv; simp [objCell, mapOf]
  | cons k ks ih =>
    intro v p c hs hv hd
    have e0 : mapOf (h.set m (.map qs)) c.object = mapOf h c.object := (ih hs hv hd).1
    refine ⟨e0, ?_⟩
    cases ks with
    | nil => simp only [getLoop, e0]
    | cons k2 ks =>
      simp only [getLoop, e0]
      cases hl : (mapOf h c.object).lookup k with
      | none => rfl
      | some q =>
        dsimp only
        rw [deref_set_map hm]
        cases hq : deref h q with
        | none => rfl
        | some c1 =>
          dsimp only
          have inner : ∃ v1, sizeOf v1 ≤ sizeOf es ∧ Reads h q v1 := by
            cases v with
            | obj es1 =>
              simp only [Reads] at hv
              obtain ⟨m1, ps1, h1, h2, h3⟩ := hv
              rw [hd] at h1
              cases h1
              simp only [objCell, mapOf, h2] at hl
              rcases readsE_lookup h3 k with ⟨i1, _⟩ | ⟨p', v', i1, i2, i3⟩
              · rw [hl] at i1; cases i1
              · rw [hl] at i1
                cases i1
                refine ⟨v', ?_, i3⟩
                have := List.sizeOf_lt_of_mem (AMap.mem_of_lookup i2)
                simp at this hs
                omega
            | nilp => simp only [Reads] at hv; subst hv; simp [deref] at hd
            | scalar s =>
              simp only [Reads] at hv
              rw [hd] at hv
              cases hv
              cases s <;> simp [scalarCell, nullCell, boolCell, intCell, uintCell, floatCell, strCell, tsCell, mapOf, AMap.lookup] at hl
            | arrNil => simp only [Reads] at hv; rw [hd] at hv; cases hv; simp [arrCell, mapOf, AMap.lookup] at hl
            | arr vs => simp only [Reads] at hv; obtain ⟨_, hv, _⟩ := hv; rw [hd] at hv; cases hv; simp [arrCell, mapOf, AMap.lookup] at hl
            | objNil => simp only [Reads] at hv; rw [hd] at hv; cases hv; simp [objCell, mapOf, AMap.lookup] at hl
          obtain ⟨v1, s1, r1⟩ := inner
          have := ih s1 r1 hq
          rw [this.1, this.2]

/-- What `Delete` does when it finds something. -/
theorem delete_is {h h' : Heap} {e : Event} {p : Ptr} {name : Bytes} {rest : List Bytes} (hdel : delete h e (name :: rest) = .ok (h', p)) :
    h' = h ∨ p ≠ none ∧ h' = mapDelete h e name := by
  unfold delete at hdel
  dsimp only at hdel
  split at hdel
  · cases hdel; exact .inl rfl
  · rename_i h0
    unfold get at hdel
    rw [if_neg h0] at hdel
    dsimp only at hdel
    cases hg : getLoop h e (name :: rest) with
    | panic => rw [hg] at hdel; cases hdel
    | ok v =>
      rw [hg] at hdel
      simp only [Res.map_ok] at hdel
      split at hdel
      · rename_i hv; cases hdel; exact .inr ⟨hv, rfl⟩
      · cases hdel; exact .inl rfl

/-- C08 for events that share parts, in whatever way, with each other or within: the event's contents after a `Delete` are what they were, or (if it returned a value) without the top-level entry. -/
theorem delete_contents {h h' : Heap} {e : Event} {f : AMap Val} {p : Ptr} {k name : Bytes} {rest : List Bytes} (hh : Holds h e (some f)) (hk : keyToPath k = name :: rest)
    (hdel : apiDelete h e k = .ok (h', p)) : (p = none → h' = h) ∧ (p ≠ none → Holds h' e (some (f.erase name))) := by
  obtain ⟨m, ps, rfl, hm, hr⟩ := hh
  unfold apiDelete at hdel
  rw [hk] at hdel
  constructor
  · rintro rfl
    rcases delete_is hdel with e | ⟨e, _⟩
    · exact e
    · exact absurd rfl e
  · intro hp
    have : h' = mapDelete h (some m) name := by
      rcases delete_is hdel with e | ⟨_, e⟩
      · subst e
        -- a value was found, so the entry was there and is now deleted: `delete` returns the changed memory
        unfold delete at hdel
        dsimp only at hdel
        split at hdel
        · cases hdel; exact absurd rfl hp
        · rename_i h0
          unfold get at hdel
          rw [if_neg h0] at hdel
          dsimp only at hdel
          cases hg : getLoop h' (some m) (name :: rest) with
          | panic => rw [hg] at hdel; cases hdel
          | ok v =>
            rw [hg] at hdel
            simp only [Res.map_ok] at hdel
            split at hdel
            · simp only [Res.ok.injEq, Prod.mk.injEq] at hdel; exact hdel.1.symm
            · rename_i hv; simp only [Res.ok.injEq, Prod.mk.injEq] at hdel; obtain ⟨_, rfl⟩ := hdel; exact absurd hp hv
      · exact e
    subst this
    simp only [mapDelete, hm]
    refine ⟨m, ps.erase name, rfl, by rw [List.getElem?_set_self (lt_of_getElem? hm)], ?_⟩
    refine reads_set_rootE hm hr _ ?_ (readsE_erase name hr)
    clear hdel hr hm
    induction f with
    | nil => simp [AMap.erase]
    | cons x f ih =>
      obtain ⟨q, v⟩ := x
      simp only [AMap.erase]
      split <;> simp <;> omega

/-- C08 for events that share parts, in whatever way, with each other or within: keys starting with another name are what they were (the same pointer, and the same is seen there). -/
theorem delete_keeps_other_entries_any {h h' : Heap} {e : Event} {f : Fields} {p : Ptr} {k k' name other : Bytes} {rest rest' : List Bytes} (hh : Holds h e f) (hk : keyToPath k = name :: rest)
    (hdel : apiDelete h e k = .ok (h', p)) (hk' : keyToPath k' = other :: rest') (hno : name ≠ other) :
    (apiGet h e k' = .panic ∧ apiGet h' e k' = .panic) ∨ ∃ q v, apiGet h e k' = .ok (h, q) ∧ apiGet h' e k' = .ok (h', q) ∧ Reads h q v ∧ Reads h' q v := by
  unfold apiDelete at hdel
  unfold apiGet
  rw [hk] at hdel
  rw [hk']
  cases f with
  | none =>
    simp only [Holds] at hh
    subst hh
    simp only [delete, mapOf, List.length_nil, if_true, Res.ok.injEq, Prod.mk.injEq] at hdel
    obtain ⟨rfl, rfl⟩ := hdel
    exact .inr ⟨none, .nilp, by simp [get, mapOf], by simp [get, mapOf], by simp [Reads], by simp [Reads]⟩
  | some es =>
    obtain ⟨m, ps, rfl, hm, hr⟩ := hh
    have hg := getLoop_reads (other :: rest') (by simp) hm hr
    have size : ∀ v, Spec.get es (other :: rest') = .ok v → sizeOf v ≤ sizeOf es := by
      intro v hv
      by_cases hn : v = .nilp
      · subst hn
        cases es <;> simp
        omega
      · exact Nat.le_of_lt (get_size _ hv hn)
    have eqg : ∀ (h : Heap), get h (some m) (other :: rest') = (getLoop h (some m) (other :: rest')).map (h, ·) := by
      intro h
      unfold get
      by_cases h0 : (mapOf h (some m)).length = 0
      · rw [if_pos h0, getLoop_empty h0]; rfl
      · rw [if_neg h0]
    have same : ∀ qs : AMap Ptr, qs.lookup other = ps.lookup other → getLoop (h.set m (.map qs)) (some m) (other :: rest') = getLoop h (some m) (other :: rest') := by
      intro qs hq
      have hl : (mapOf (h.set m (.map qs)) (some m)).lookup other = (mapOf h (some m)).lookup other := by
        simp only [mapOf, List.getElem?_set_self (lt_of_getElem? hm), hm, hq]
      cases rest' with
      | nil => simp only [getLoop, hl]
      | cons k2 ks =>
        simp only [getLoop, hl]
        cases hx : (mapOf h (some m)).lookup other with
        | none => rfl
        | some q =>
          dsimp only
          rw [deref_set_map hm]
          cases hd : deref h q with
          | none => rfl
          | some c =>
            dsimp only
            simp only [mapOf, hm] at hx
            rcases readsE_lookup hr other with ⟨i1, _⟩ | ⟨p', v', i1, i2, i3⟩
            · rw [hx] at i1; cases i1
            · rw [hx] at i1
              cases i1
              have hs : sizeOf v' ≤ sizeOf es := by
                have := List.sizeOf_lt_of_mem (AMap.mem_of_lookup i2)
                simp at this
                omega
              have := getLoop_set_root (qs := qs) hm hr (k2 :: ks) hs i3 hd
              rw [this.1, this.2]
    rw [eqg, eqg]
    rcases delete_is hdel with rfl | ⟨_, rfl⟩
    · cases hv : Spec.get es (other :: rest') with
      | panic => rw [hv] at hg; exact .inl ⟨by rw [hg]; rfl, by rw [hg]; rfl⟩
      | ok v => rw [hv] at hg; obtain ⟨q, h1, h2⟩ := hg; exact .inr ⟨q, v, by rw [h1]; rfl, by rw [h1]; rfl, h2, h2⟩
    · have hd : mapDelete h (some m) name = h.set m (.map (ps.erase name)) := by simp only [mapDelete, hm]
      rw [hd, same _ (AMap.lookup_erase_of_ne ps hno)]
      cases hv : Spec.get es (other :: rest') with
      | panic => rw [hv] at hg; exact .inl ⟨by rw [hg]; rfl, by rw [hg]; rfl⟩
      | ok v =>
        rw [hv] at hg
        obtain ⟨q, h1, h2⟩ := hg
        exact .inr ⟨q, v, by rw [h1]; rfl, by rw [h1]; rfl, h2, reads_set_root hm hr v (size v hv) h2⟩

/-- C08 for events that share parts: a key of one name. -/
theorem delete_other_keys_one_name_any {h h' : Heap} {e : Event} {f : Fields} {p : Ptr} {k k' name : Bytes} (hh : Holds h e f) (hk : keyToPath k = [name]) (hdel : apiDelete h e k = .ok (h', p))
    (hk' : ¬ Related (keyToPath k) (keyToPath k')) :
    (apiGet h e k' = .panic ∧ apiGet h' e k' = .panic) ∨ ∃ q v, apiGet h e k' = .ok (h, q) ∧ apiGet h' e k' = .ok (h', q) ∧ Reads h q v ∧ Reads h' q v := by
  cases hq : keyToPath k' with
  | nil => exact absurd (.inr (hq ▸ List.nil_prefix)) hk'
  | cons other rest' =>
    refine delete_keeps_other_entries_any hh hk hdel hq ?_
    rintro rfl
    exact hk' (.inl (by simp [hk, hq]))

/-- Two fields share an object, and one of them is deleted: the other keeps it. -/
example : Holds [.cell (strCell (lit "v")), .map [(lit "x", some 0)], .cell (objCell (some 1)), .map [(lit "a", some 2), (lit "b", some 2)]] (some 3)
      (some [(lit "a", .obj [(lit "x", .scalar (.str (lit "v")))]), (lit "b", .obj [(lit "x", .scalar (.str (lit "v")))])]) ∧
    ∃ h', apiDelete [.cell (strCell (lit "v")), .map [(lit "x", some 0)], .cell (objCell (some 1)), .map [(lit "a", some 2), (lit "b", some 2)]] (some 3) (lit "a") = .ok (h', some 2) ∧
      apiGet h' (some 3) (lit "b.x") = .ok (h', some 0) :=
  ⟨⟨3, _, rfl, rfl, rfl, ⟨1, _, rfl, rfl, rfl, rfl, trivial⟩, rfl, ⟨1, _, rfl, rfl, rfl, rfl, trivial⟩, trivial⟩, _, rfl, rfl⟩

end Sawmill
