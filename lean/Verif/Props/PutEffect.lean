import Verif.Props.CycleAny
import Verif.Props.DeleteAny
import Verif.Spec.Changed
/-! # What `Put` and `Delete` change when values are shared (C112) -/

namespace Sawmill
open Wire ATree

theorem chain_mono {s t : Nat} (hst : s ≤ t) {h : Heap} {v : Ptr} : ∀ {ks : List Bytes} {p : Ptr}, Chain t h p v ks → Chain s h p v ks
  | [], _, hc => hc
  | _ :: _, _, hc => by
    obtain ⟨a, m, q, h1, h2, h3, h4, h5, h6⟩ := hc
    exact ⟨a, m, q, h1, Nat.le_trans hst h2, h3, Nat.le_trans hst h4, h5, chain_mono hst h6⟩

/-- From an empty map on, one object after the other is built. -/
theorem putLoop_chain {v : Ptr} : ∀ (k : Bytes) (rest : List Bytes) {h h' : Heap} {m : Nat} {b : Bool}, h[m]? = some (.map []) → putLoop h (some m) (k :: rest) v = .ok (h', b) →
    b = true ∧ (∀ a, a < h.length → a ≠ m → h'[a]? = h[a]?) ∧ ∃ q, h'[m]? = some (.map [(k, q)]) ∧ Chain h.length h' q v rest
  | k, [], h, h', m, b, hm, hput => by
    simp only [putLoop, mapWrite, hm, Res.map_ok, Res.ok.injEq, Prod.mk.injEq] at hput
    obtain ⟨rfl, rfl⟩ := hput
    refine ⟨rfl, fun a _ ha => List.getElem?_set_ne (fun e => ha e.symm), v, ?_, rfl⟩
    rw [List.getElem?_set_self (lt_of_getElem? hm)]; rfl
  | k, k2 :: ks, h, h', m, b, hm, hput => by
    have hml := lt_of_getElem? hm
    have h2m : (h ++ [HObj.map []] ++ [HObj.cell (objCell (some h.length))])[m]? = some (.map []) := by
      rw [List.getElem?_append_left (by simp; omega), List.getElem?_append_left hml, hm]
    simp only [putLoop, mapOf, hm, AMap.lookup, Heap.alloc, mapWrite, h2m] at hput
    generalize hh3 : (h ++ [HObj.map []] ++ [HObj.cell (objCell (some h.length))]).set m (.map (AMap.insert [] k (some (h ++ [HObj.map []]).length))) = h3 at hput
    have hlen : h3.length = h.length + 2 := by rw [← hh3]; simp
    have hat : ∀ a, a ≠ m → h3[a]? = (h ++ [HObj.map []] ++ [HObj.cell (objCell (some h.length))])[a]? := by
      intro a ha; rw [← hh3, List.getElem?_set_ne (fun e => ha e.symm)]
    have hm3 : h3[m]? = some (.map [(k, some (h.length + 1))]) := by
      rw [← hh3, List.getElem?_set_self (by simp; omega)]; simp [AMap.insert]
    have hn3 : h3[h.length]? = some (.map []) := by
      rw [hat _ (by omega)]; rw [List.getElem?_append_left (by simp)]; simp
    have hc3 : h3[h.length + 1]? = some (.cell (objCell (some h.length))) := by
      rw [hat _ (by omega)]; rw [List.getElem?_append_right (by simp)]; simp
    obtain ⟨i1, i2, q, i3, i4⟩ := putLoop_chain k2 ks hn3 hput
    refine ⟨i1, fun a ha hne => ?_, some (h.length + 1), ?_, h.length + 1, h.length, q, rfl, by omega, ?_, Nat.le_refl _, i3, chain_mono (by omega) i4⟩
    · rw [i2 a (by omega) (by omega), hat a hne, List.getElem?_append_left (by simp; omega), List.getElem?_append_left ha]
    · rw [i2 m (by omega) (by omega), hm3]
    · rw [i2 _ (by omega) (by omega), hc3]

theorem putLoop_changes {v : Ptr} : ∀ (path : List Bytes), path ≠ [] → ∀ {h h' : Heap} {m : Option Nat}, MapsAreMaps h m → putLoop h m path v = .ok (h', true) →
    ∃ pre k rest d es q, path = pre ++ k :: rest ∧ Through h m pre (some d) ∧ h[d]? = some (.map es) ∧ (rest ≠ [] → AMap.lookup es k = none) ∧
      h'[d]? = some (.map (AMap.insert es k q)) ∧ Chain h.length h' q v rest ∧ ∀ a, a < h.length → a ≠ d → h'[a]? = h[a]?
  | [], hp, _, _, _, _, _ => absurd rfl hp
  | [k], _, h, h', none, hw, hput => by simp [putLoop, mapWrite] at hput
  | [k], _, h, h', some m, hw, hput => by
    obtain ⟨es, hm⟩ := hw.1 m rfl
    simp only [putLoop, mapWrite, hm, Res.map_ok, Res.ok.injEq, Prod.mk.injEq, and_true] at hput
    subst hput
    exact ⟨[], k, [], m, es, v, rfl, rfl, hm, fun hn => absurd rfl hn, List.getElem?_set_self (lt_of_getElem? hm), rfl, fun a _ ha => List.getElem?_set_ne (fun e => ha e.symm)⟩
  | k :: k2 :: ks, _, h, h', m, hw, hput => by
    simp only [putLoop] at hput
    cases hl : (mapOf h m).lookup k with
    | some q =>
      simp only [hl] at hput
      cases hd : deref h q with
      | none => simp [hd] at hput
      | some c =>
        simp only [hd] at hput
        by_cases ht : c.type = .object
        · simp only [ht, ne_eq, not_true_eq_false, if_false] at hput
          obtain ⟨pre, k', rest, d, es, q', i1, i2, i3⟩ := putLoop_changes (k2 :: ks) (by simp) (mapsAreMaps_below hw hd) hput
          exact ⟨k :: pre, k', rest, d, es, q', by rw [i1]; rfl, ⟨q, c, hl, hd, ht, i2⟩, i3⟩
        · simp [ht] at hput
    | none =>
      simp only [hl, Heap.alloc] at hput
      cases m with
      | none => simp [mapWrite] at hput
      | some m =>
        obtain ⟨es, hm⟩ := hw.1 m rfl
        have hml := lt_of_getElem? hm
        simp only [mapOf, hm] at hl
        have hwm : mapWrite (h ++ [HObj.map []] ++ [HObj.cell (objCell (some h.length))]) (some m) k (some (h ++ [HObj.map []]).length) =
            .ok ((h ++ [HObj.map []] ++ [HObj.cell (objCell (some h.length))]).set m (.map (AMap.insert es k (some (h ++ [HObj.map []]).length)))) := by
          simp only [mapWrite]
          rw [List.getElem?_append_left (by simp; omega), List.getElem?_append_left hml, hm]
        rw [hwm] at hput
        simp only at hput
        generalize hh3 : (h ++ [HObj.map []] ++ [HObj.cell (objCell (some h.length))]).set m (.map (AMap.insert es k (some (h ++ [HObj.map []]).length))) = h3 at hput
        have hlen : h3.length = h.length + 2 := by rw [← hh3]; simp
        have hat : ∀ a, a ≠ m → h3[a]? = (h ++ [HObj.map []] ++ [HObj.cell (objCell (some h.length))])[a]? := by
          intro a ha; rw [← hh3, List.getElem?_set_ne (fun e => ha e.symm)]
        have hm3 : h3[m]? = some (.map (AMap.insert es k (some (h.length + 1)))) := by
          rw [← hh3, List.getElem?_set_self (by simp; omega)]; simp
        have hn3 : h3[h.length]? = some (.map []) := by
          rw [hat _ (by omega)]; rw [List.getElem?_append_left (by simp)]; simp
        have hc3 : h3[h.length + 1]? = some (.cell (objCell (some h.length))) := by
          rw [hat _ (by omega)]; rw [List.getElem?_append_right (by simp)]; simp
        obtain ⟨-, i2, q, i3, i4⟩ := putLoop_chain k2 ks hn3 hput
        refine ⟨[], k, k2 :: ks, m, es, some (h.length + 1), rfl, rfl, hm, fun _ => hl, ?_, ⟨h.length + 1, h.length, q, rfl, by omega, ?_, Nat.le_refl _, i3, chain_mono (by omega) i4⟩, fun a ha hne => ?_⟩
        · rw [i2 m (by omega) (by omega), hm3]
        · rw [i2 _ (by omega) (by omega), hc3]
        · rw [i2 a (by omega) (by omega), hat a hne, List.getElem?_append_left (by simp; omega), List.getElem?_append_left ha]

theorem put_changes_loop {h h' : Heap} {m : Nat} {path : List Bytes} {a : Nat} {ow : Bool} {e' : Event} {old : Ptr} (hw : MapsAreMaps h (some m)) (hp : put h (some m) path (some a) ow = .ok (h', e', old, none)) :
    e' = some m ∧ ∃ pre k rest d es q, path = pre ++ k :: rest ∧ Through h (some m) pre (some d) ∧ h[d]? = some (.map es) ∧ (rest ≠ [] → AMap.lookup es k = none) ∧
      h'[d]? = some (.map (AMap.insert es k q)) ∧ Chain h.length h' q (some a) rest ∧ ∀ b, b < h.length → b ≠ d → h'[b]? = h[b]? := by
  obtain ⟨rfl, hne, hput⟩ := put_some hp
  exact ⟨rfl, putLoop_changes path hne hw (hput hne)⟩

/-- **C112.** A successful `Put` or `TryPut` of a value, on an event that shares whatever with other events or within itself: the names of the key lead through objects that are there to one map; in it the entry of the next name is set, to the value itself
if the name is the last, else (the name was not there) to new objects of one entry each for the names that remain; and nothing else in memory changes. An event without a map gets a new, empty one first. -/
theorem put_changes {h h' : Heap} {e e' : Event} (hw : MapsAreMaps h e) {key : Bytes} {a : Nat} {old : Ptr}
    (hp : apiPut h e key (some a) = .ok (h', e', old, none) ∨ apiTryPut h e key (some a) = .ok (h', e', old, none)) :
    ∃ h0 m, ((e = some m ∧ h0 = h) ∨ (e = none ∧ m = h.length ∧ h0 = h ++ [.map []])) ∧ e' = some m ∧
      ∃ pre k rest d es q, keyToPath key = pre ++ k :: rest ∧ Through h0 (some m) pre (some d) ∧ h0[d]? = some (.map es) ∧ (rest ≠ [] → AMap.lookup es k = none) ∧
        h'[d]? = some (.map (AMap.insert es k q)) ∧ Chain h0.length h' q (some a) rest ∧ ∀ b, b < h0.length → b ≠ d → h'[b]? = h0[b]? := by
  have hp' : ∃ ow, put h e (keyToPath key) (some a) ow = .ok (h', e', old, none) := by
    rcases hp with hp | hp
    · exact ⟨_, hp⟩
    · exact ⟨_, hp⟩
  obtain ⟨ow, hp⟩ := hp'
  cases e with
  | some m => exact ⟨h, m, .inl ⟨rfl, rfl⟩, put_changes_loop hw hp⟩
  | none =>
    have hpath : keyToPath key ≠ [] := by intro e; rw [e] at hp; simp [put] at hp
    rw [put_eq_none hpath (by simp)] at hp
    refine ⟨h ++ [.map []], h.length, .inr ⟨rfl, rfl, rfl⟩, put_changes_loop ?_ hp⟩
    refine ⟨fun m hm => ?_, fun b c m hb hc => ?_⟩
    · simp only [Option.some.injEq] at hm; subst hm; exact ⟨[], by simp⟩
    · by_cases hbl : b < h.length
      · rw [List.getElem?_append_left hbl] at hb
        obtain ⟨es, hes⟩ := hw.2 b c m hb hc
        exact ⟨es, by rw [List.getElem?_append_left (lt_of_getElem? hes)]; exact hes⟩
      · have : b = h.length := by
          have := lt_of_getElem? hb
          simp at this; omega
        subst this
        simp at hb

/-- So one entry of one map changes. -/
theorem insert_changedAt {h h' : Heap} {d : Nat} {k : Bytes} {es : AMap Ptr} {q : Ptr} (h1 : h[d]? = some (.map es)) (h2 : h'[d]? = some (.map (AMap.insert es k q))) (h3 : ∀ a, a < h.length → a ≠ d → h'[a]? = h[a]?) :
    ChangedAt h h' d k :=
  ⟨h3, es, _, h1, h2, fun k' hk => AMap.lookup_insert_of_ne es q (fun e => hk e.symm)⟩

/-- **C112.** `Delete` with a result removes one entry of the event's own map. -/
theorem delete_changes {h h' : Heap} {e : Event} (hw : MapsAreMaps h e) {key : Bytes} {p : Ptr} (hd : apiDelete h e key = .ok (h', p)) :
    h' = h ∨ p ≠ none ∧ ∃ k rest d es, keyToPath key = k :: rest ∧ e = some d ∧ h[d]? = some (.map es) ∧ h' = h.set d (.map (AMap.erase es k)) ∧ ChangedAt h h' d k := by
  unfold apiDelete at hd
  cases hk : keyToPath key with
  | nil => rw [hk] at hd; simp only [delete, Res.ok.injEq, Prod.mk.injEq] at hd; exact .inl hd.1.symm
  | cons k rest =>
    rw [hk] at hd
    rcases delete_is hd with h1 | ⟨h1, h2⟩
    · exact .inl h1
    · cases e with
      | none => exact .inl h2
      | some d =>
        obtain ⟨es, hm⟩ := hw.1 d rfl
        simp only [mapDelete, hm] at h2
        subst h2
        refine .inr ⟨h1, k, rest, d, es, rfl, rfl, hm, rfl, fun a _ ha => List.getElem?_set_ne (fun e => ha e.symm), es, _, hm, List.getElem?_set_self (lt_of_getElem? hm), fun k' hk' => ?_⟩
        exact AMap.lookup_erase_of_ne es (fun e => hk' e.symm)

theorem ChangedAt.deref {h h' : Heap} {d : Nat} {k : Bytes} (hc : ChangedAt h h' d k) {q : Ptr} (hq : InMemory h q) : deref h' q = Sawmill.deref h q := by
  obtain ⟨h1, es, es', h2, h3, h4⟩ := hc
  cases q with
  | none => rfl
  | some a =>
    by_cases ha : a = d
    · subst ha; simp only [Sawmill.deref, h2, h3]
    · simp only [Sawmill.deref, h1 a (hq a rfl) ha]

theorem ChangedAt.lookup {h h' : Heap} {d : Nat} {k : Bytes} (hc : ChangedAt h h' d k) {m : Option Nat} (hm : ∀ b, m = some b → b < h.length) {x : Bytes} (hx : ¬ (m = some d ∧ x = k)) :
    (mapOf h' m).lookup x = (mapOf h m).lookup x := by
  obtain ⟨h1, es, es', h2, h3, h4⟩ := hc
  cases m with
  | none => rfl
  | some b =>
    by_cases hb : b = d
    · subst hb
      simp only [mapOf, h2, h3]
      exact h4 x (fun e => hx ⟨rfl, e⟩)
    · simp only [mapOf, h1 b (hm b rfl) hb]

theorem mapsAreMaps_lt {h : Heap} {m : Option Nat} (hw : MapsAreMaps h m) : ∀ b, m = some b → b < h.length := fun b hb => by
  obtain ⟨es, he⟩ := hw.1 b hb
  exact lt_of_getElem? he

theorem lookup_inMemory {h : Heap} (hn : NoDangling h) {m : Option Nat} {x : Bytes} {q : Ptr} (hl : (mapOf h m).lookup x = some q) : InMemory h q := hn.map (AMap.mem_of_lookup hl)

theorem asks_below {h : Heap} {m : Option Nat} {x : Bytes} {q : Ptr} {c : Cell} {xs : List Bytes} {d : Nat} {k : Bytes} (hl : (mapOf h m).lookup x = some q) (hd : deref h q = some c) (ha : ¬ Asks h m (x :: xs) d k) :
    ¬ Asks h c.object xs d k := fun ⟨pre, rest, h1, h2⟩ => ha ⟨x :: pre, rest, by rw [h1]; rfl, q, c, hl, hd, h2⟩

theorem getLoop_elsewhere {h h' : Heap} {d : Nat} {k : Bytes} (hc : ChangedAt h h' d k) (hn : NoDangling h) : ∀ (path : List Bytes) {m : Option Nat}, MapsAreMaps h m → ¬ Asks h m path d k →
    getLoop h' m path = getLoop h m path
  | [], _, _, _ => rfl
  | [x], m, hw, ha => by
    simp only [getLoop]
    rw [hc.lookup (mapsAreMaps_lt hw)]
    rintro ⟨rfl, rfl⟩
    exact ha ⟨[], [], rfl, rfl⟩
  | x :: y :: xs, m, hw, ha => by
    have hl : (mapOf h' m).lookup x = (mapOf h m).lookup x := by
      apply hc.lookup (mapsAreMaps_lt hw)
      rintro ⟨rfl, rfl⟩
      exact ha ⟨[], y :: xs, rfl, rfl⟩
    simp only [getLoop, hl]
    cases hq : (mapOf h m).lookup x with
    | none => rfl
    | some q =>
      dsimp only
      rw [hc.deref (lookup_inMemory hn hq)]
      cases hd : deref h q with
      | none => rfl
      | some c =>
        dsimp only
        have ih := getLoop_elsewhere hc hn (y :: xs) (mapsAreMaps_below hw hd) (asks_below hq hd ha)
        have drop : ∀ g : Heap, (if (mapOf g c.object).length = 0 then Res.ok none else getLoop g c.object (y :: xs)) = getLoop g c.object (y :: xs) := by
          intro g
          by_cases h0 : (mapOf g c.object).length = 0
          · rw [if_pos h0, getLoop_empty h0]
          · rw [if_neg h0]
        rw [drop, drop, ih]

theorem get_loop (h : Heap) (m : Event) {path : List Bytes} (hp : path ≠ []) : get h m path = (getLoop h m path).map (h, ·) := by
  unfold get
  by_cases h0 : (mapOf h m).length = 0
  · rw [if_pos h0, getLoop_empty h0]; rfl
  · rw [if_neg h0]
    cases path with
    | nil => exact absurd rfl hp
    | cons _ _ => rfl

/-- **C112.** After a change of the entry `k` of the map at `d`, `Get` of a key that does not come by it, on any event of the same memory, does what it did before: it panics if it did, else it returns the same pointer; and the value there is the same one, of the same
type, with the same scalar or the same list or map. -/
theorem get_elsewhere {h h' : Heap} {d : Nat} {k : Bytes} (hc : ChangedAt h h' d k) (hn : NoDangling h) {e : Event} (hw : MapsAreMaps h e) {key : Bytes} (hk : keyToPath key ≠ []) (ha : ¬ Asks h e (keyToPath key) d k) :
    (apiGet h e key = .panic ∧ apiGet h' e key = .panic) ∨ ∃ q, apiGet h e key = .ok (h, q) ∧ apiGet h' e key = .ok (h', q) ∧ deref h' q = deref h q := by
  unfold apiGet
  rw [get_loop h e hk, get_loop h' e hk, getLoop_elsewhere hc hn _ hw ha]
  cases hg : getLoop h e (keyToPath key) with
  | panic => exact .inl ⟨rfl, rfl⟩
  | ok q =>
    refine .inr ⟨q, rfl, rfl, hc.deref ?_⟩
    have hg' : get h e (keyToPath key) = .ok (h, q) := by rw [get_loop h e hk, hg]; rfl
    exact (NoDangling.get hn hg').2.2

/-! The whole of a value is the same if the changed object is not in it. -/

theorem mapIn_child {h : Heap} {p q : Ptr} {d : Nat} (hc : Child h p q) (hm : MapIn h q d) : MapIn h p d := by
  obtain ⟨r, c, h1, h2⟩ := hm
  refine ⟨r, c, .inr ?_, h2⟩
  rcases h1 with rfl | h1
  · exact .child hc
  · exact .deeper hc h1

mutual
theorem reads_elsewhere {h h' : Heap} {d : Nat} {k : Bytes} (hc : ChangedAt h h' d k) (hn : NoDangling h) : ∀ (v : Val) {p : Ptr}, InMemory h p → ¬ MapIn h p d → Reads h p v → Reads h' p v
  | .nilp, p, _, _, hv => hv
  | .scalar s, p, hp, _, hv => by simp only [Reads] at hv ⊢; rw [hc.deref hp]; exact hv
  | .arrNil, p, hp, _, hv => by simp only [Reads] at hv ⊢; rw [hc.deref hp]; exact hv
  | .objNil, p, hp, _, hv => by simp only [Reads] at hv ⊢; rw [hc.deref hp]; exact hv
  | .arr vs, p, hp, hm, hv => by
    simp only [Reads] at hv ⊢
    obtain ⟨qs, h1, h2⟩ := hv
    have hch : ∀ q ∈ qs, Child h p q := fun q hq => .item h1 rfl rfl hq
    exact ⟨qs, by rw [hc.deref hp]; exact h1, reads_elsewhereL hc hn vs (fun q hq => hn.child (hch q hq)) (fun q hq hx => hm (mapIn_child (hch q hq) hx)) h2⟩
  | .obj es, p, hp, hm, hv => by
    simp only [Reads] at hv ⊢
    obtain ⟨m, ps, h1, h2, h3⟩ := hv
    have hmd : m ≠ d := fun e => hm ⟨p, _, .inl rfl, h1, rfl, by rw [e]; rfl⟩
    have hch : ∀ kq ∈ ps, Child h p kq.2 := fun kq hq => .entry (k := kq.1) h1 rfl (by simp only [objCell, mapOf, h2]; exact hq)
    exact ⟨m, ps, by rw [hc.deref hp]; exact h1, by rw [hc.1 m (lt_of_getElem? h2) hmd]; exact h2,
      reads_elsewhereE hc hn es (fun kq hq => hn.child (hch kq hq)) (fun kq hq hx => hm (mapIn_child (hch kq hq) hx)) h3⟩
theorem reads_elsewhereL {h h' : Heap} {d : Nat} {k : Bytes} (hc : ChangedAt h h' d k) (hn : NoDangling h) : ∀ (vs : List Val) {qs : List Ptr}, (∀ q ∈ qs, InMemory h q) → (∀ q ∈ qs, ¬ MapIn h q d) → ReadsL h qs vs → ReadsL h' qs vs
  | [], qs, _, _, hv => by cases qs <;> simp [ReadsL] at hv ⊢
  | v :: vs, qs, hp, hm, hv => by
    cases qs with
    | nil => simp [ReadsL] at hv
    | cons q qs =>
      simp only [ReadsL] at hv ⊢
      exact ⟨reads_elsewhere hc hn v (hp q (by simp)) (hm q (by simp)) hv.1, reads_elsewhereL hc hn vs (fun q hq => hp q (by simp [hq])) (fun q hq => hm q (by simp [hq])) hv.2⟩
theorem reads_elsewhereE {h h' : Heap} {d : Nat} {k : Bytes} (hc : ChangedAt h h' d k) (hn : NoDangling h) : ∀ (vs : List (Bytes × Val)) {qs : List (Bytes × Ptr)}, (∀ kq ∈ qs, InMemory h kq.2) → (∀ kq ∈ qs, ¬ MapIn h kq.2 d) →
    ReadsE h qs vs → ReadsE h' qs vs
  | [], qs, _, _, hv => by cases qs <;> simp [ReadsE] at hv ⊢
  | (x, v) :: vs, qs, hp, hm, hv => by
    cases qs with
    | nil => simp [ReadsE] at hv
    | cons q qs =>
      obtain ⟨x', q⟩ := q
      simp only [ReadsE] at hv ⊢
      exact ⟨hv.1, reads_elsewhere hc hn v (hp (x', q) (by simp)) (hm (x', q) (by simp)) hv.2.1, reads_elsewhereE hc hn vs (fun kq hq => hp kq (by simp [hq])) (fun kq hq => hm kq (by simp [hq])) hv.2.2⟩
end

/-- **C112.** And all that is in the value is the same, unless the changed object is in it. -/
theorem seen_elsewhere {h h' : Heap} {d : Nat} {k : Bytes} (hc : ChangedAt h h' d k) (hn : NoDangling h) {e : Event} {key : Bytes} (hk : keyToPath key ≠ []) {q : Ptr} (hg : apiGet h e key = .ok (h, q)) {v : Val}
    (hr : Reads h q v) (hm : ¬ MapIn h q d) : Reads h' q v := reads_elsewhere hc hn v (NoDangling.get hn hg).2.2 hm hr

/-! Keys that come by the changed entry. -/

theorem reaches_elsewhere {h h' : Heap} {d : Nat} {k : Bytes} (hc : ChangedAt h h' d k) (hn : NoDangling h) {x : Option Nat} : ∀ (pre : List Bytes) {m : Option Nat}, MapsAreMaps h m → ¬ Asks h m pre d k → Reaches h m pre x →
    Reaches h' m pre x
  | [], _, _, _, hr => hr
  | y :: ys, m, hw, ha, hr => by
    obtain ⟨q, c, h1, h2, h3⟩ := hr
    refine ⟨q, c, ?_, ?_, reaches_elsewhere hc hn ys (mapsAreMaps_below hw h2) (asks_below h1 h2 ha) h3⟩
    · rw [hc.lookup (mapsAreMaps_lt hw)]
      · exact h1
      · rintro ⟨rfl, rfl⟩
        exact ha ⟨[], ys, rfl, rfl⟩
    · rw [hc.deref (lookup_inMemory hn h1)]; exact h2

theorem getLoop_reaches {h : Heap} {x : Option Nat} {k : Bytes} {rest : List Bytes} : ∀ (pre : List Bytes) {m : Option Nat}, Reaches h m pre x → getLoop h m (pre ++ k :: rest) = getLoop h x (k :: rest)
  | [], _, hr => by cases hr; rfl
  | y :: ys, m, hr => by
    obtain ⟨q, c, h1, h2, h3⟩ := hr
    have ih := getLoop_reaches ys h3 (k := k) (rest := rest)
    obtain ⟨z, zs, hz⟩ : ∃ z zs, ys ++ k :: rest = z :: zs := by cases ys <;> exact ⟨_, _, rfl⟩
    rw [← ih, List.cons_append, hz]
    simp only [getLoop, h1, h2]
    by_cases h0 : (mapOf h c.object).length = 0
    · rw [if_pos h0, getLoop_empty h0]
    · rw [if_neg h0]

theorem getLoop_chain {s : Nat} {h : Heap} {v : Ptr} : ∀ {rest : List Bytes} {m : Option Nat} {k : Bytes} {q : Ptr}, (mapOf h m).lookup k = some q → Chain s h q v rest → getLoop h m (k :: rest) = .ok v
  | [], m, k, q, hl, hc => by simp only [Chain] at hc; subst hc; simp [getLoop, hl]
  | k2 :: ks, m, k, q, hl, hc => by
    obtain ⟨a, m', q', rfl, _, h1, _, h2, h3⟩ := hc
    have hd : deref h (some a) = some (objCell (some m')) := by simp [deref, h1]
    have hm : mapOf h (some m') = [(k2, q')] := by simp [mapOf, h2]
    have ih := getLoop_chain (m := some m') (k := k2) (by rw [hm]; simp [AMap.lookup]) h3
    simp only [getLoop, hl, hd, objCell, hm]
    exact ih

/-- Of the places where a key comes by an entry, one is the first. -/
theorem asks_first {h : Heap} {d : Nat} {k : Bytes} {e : Event} {path : List Bytes} (ha : Asks h e path d k) : ∃ pre rest, path = pre ++ k :: rest ∧ Reaches h e pre (some d) ∧ ¬ Asks h e pre d k := by
  generalize hn : path.length = n
  induction n using Nat.strongRecOn generalizing path with
  | _ n ih =>
    obtain ⟨pre, rest, h1, h2⟩ := ha
    by_cases hp : Asks h e pre d k
    · obtain ⟨pre', rest', i1, i2, i3⟩ := ih pre.length (by rw [← hn, h1]; simp) hp rfl
      exact ⟨pre', rest' ++ k :: rest, by rw [h1, i1]; simp, i2, i3⟩
    · exact ⟨pre, rest, h1, h2, hp⟩

/-- **C112.** After a `Put` as in `put_changes` every other event, and every other key of the same event, that leads to the same map sees the new value: `Get` of a key that comes to that map and goes on with the names of the key of the `Put`. -/
theorem put_seen {h h' : Heap} {d : Nat} {k : Bytes} {es : AMap Ptr} {q v : Ptr} {rest : List Bytes} {s : Nat} (h1 : h[d]? = some (.map es)) (h2 : h'[d]? = some (.map (AMap.insert es k q))) (h3 : ∀ a, a < h.length → a ≠ d → h'[a]? = h[a]?)
    (hch : Chain s h' q v rest) (hn : NoDangling h) {e : Event} (hw : MapsAreMaps h e) {key : Bytes} {pre : List Bytes} (hk : keyToPath key = pre ++ k :: rest) (hr : Reaches h e pre (some d)) (ha : ¬ Asks h e pre d k) :
    apiGet h' e key = .ok (h', v) := by
  have hc := insert_changedAt h1 h2 h3
  unfold apiGet
  rw [get_loop h' e (by rw [hk]; simp), hk, getLoop_reaches pre (reaches_elsewhere hc hn pre hw ha hr), getLoop_chain (q := q) (by simp [mapOf, h2]) hch]
  rfl

/-- **C112.** After a `Delete` as in `delete_changes`, keys that come by the removed entry, of whatever event, find nothing. -/
theorem delete_seen {h h' : Heap} {d : Nat} {k : Bytes} {es : AMap Ptr} (h1 : h[d]? = some (.map es)) (h2 : h' = h.set d (.map (AMap.erase es k))) (hn : NoDangling h) {e : Event} (hw : MapsAreMaps h e) {key : Bytes}
    (ha : Asks h e (keyToPath key) d k) : apiGet h' e key = .ok (h', none) := by
  have hd : h'[d]? = some (.map (AMap.erase es k)) := by rw [h2, List.getElem?_set_self (lt_of_getElem? h1)]
  have hc : ChangedAt h h' d k := ⟨fun a _ ha => by rw [h2, List.getElem?_set_ne (fun e => ha e.symm)], es, _, h1, hd, fun k' hk' => AMap.lookup_erase_of_ne es (fun e => hk' e.symm)⟩
  obtain ⟨pre, rest, i1, i2, i3⟩ := asks_first ha
  unfold apiGet
  rw [get_loop h' e (by rw [i1]; simp), i1, getLoop_reaches pre (reaches_elsewhere hc hn pre hw i3 i2)]
  have hl : (mapOf h' (some d)).lookup k = none := by simp [mapOf, hd]
  cases rest <;> simp [getLoop, hl]

/-- **C01** for events that share whatever, or contain themselves: unless the key goes round in circles, `Get` after a successful `Put` or `TryPut` returns the value. -/
theorem get_after_put_straight {h h' : Heap} {e e' : Event} (hw : MapsAreMaps h e) (hn : NoDangling h) {key : Bytes} (hs : Straight h e (keyToPath key)) {v old : Ptr} (hv : v ≠ none)
    (hp : apiPut h e key v = .ok (h', e', old, none) ∨ apiTryPut h e key v = .ok (h', e', old, none)) : apiGet h' e' key = .ok (h', v) := by
  cases v with
  | none => exact absurd rfl hv
  | some a =>
    obtain ⟨h0, m, h1, rfl, pre, k, rest, d, es, q, h2, h3, h4, h5, h6, h7, h8⟩ := put_changes hw hp
    rcases h1 with ⟨rfl, rfl⟩ | ⟨rfl, rfl, rfl⟩
    · exact put_seen h4 h6 h8 h7 hn hw h2 (objects_reach h3) (hs pre k rest d h2 (objects_reach h3))
    · have hpre : pre = [] := by
        cases pre with
        | nil => rfl
        | cons x xs =>
          obtain ⟨q, c, i1, _⟩ := h3
          simp [mapOf, AMap.lookup] at i1
      subst hpre
      refine put_seen h4 h6 h8 h7 (hn.alloc ⟨fun c ps hc => ?_, fun es he k q hq => ?_⟩) ⟨fun m hm => ?_, fun b c m hb hc => ?_⟩ h2 h3 ?_
      · cases hc
      · cases he; cases hq
      · simp only [Option.some.injEq] at hm; subst hm; exact ⟨[], by simp⟩
      · by_cases hbl : b < h.length
        · rw [List.getElem?_append_left hbl] at hb
          obtain ⟨es, hes⟩ := hw.2 b c m hb hc
          exact ⟨es, by rw [List.getElem?_append_left (lt_of_getElem? hes)]; exact hes⟩
        · have : b = h.length := by
            have := lt_of_getElem? hb
            simp at this; omega
          subst this
          simp at hb
      · rintro ⟨pre, rest, i1, _⟩
        cases pre <;> cases i1

/-- A case: the event 0 contains itself as `a`, and `b` is put straight below that; and the key that goes round (C01's second theorem). -/
theorem straight_sample : ∃ h h', h = [.map [(lit "a", some 1)], .cell (objCell (some 0)), .cell (strCell (lit "v"))] ∧ Straight h (some 0) (keyToPath (lit "a.b")) ∧ ¬ Straight h (some 0) (keyToPath (lit "a.a")) ∧
    apiPut h (some 0) (lit "a.b") (some 2) = .ok (h', some 0, none, none) ∧ apiGet h' (some 0) (lit "a.b") = .ok (h', some 2) := by
  refine ⟨_, _, rfl, ?_, ?_, rfl, rfl⟩
  · intro pre k rest d hp hr ⟨pre', rest', hq, _⟩
    have hk : keyToPath (lit "a.b") = [lit "a", lit "b"] := by decide
    rw [hk] at hp
    subst hq
    match pre', rest' with
    | [], [] =>
      simp only [List.nil_append, List.cons_append, List.cons.injEq] at hp
      exact absurd (hp.1.trans hp.2.1.symm) (by decide)
    | [], _ :: _ => simp at hp
    | _ :: x, y => cases x <;> cases y <;> simp at hp
  · intro hs
    exact hs [lit "a"] (lit "a") [] 0 (by decide) ⟨some 1, objCell (some 0), rfl, rfl, rfl⟩ ⟨[], [], rfl, rfl⟩

/-- What memory the case below is in. -/
theorem put_effect_sample_memory : MapsAreMaps [.map [(lit "a", some 3)], .map [(lit "b", some 3), (lit "c", some 4)], .map [], .cell (objCell (some 2)), .cell (strCell (lit "v"))] (some 1) ∧
    NoDangling [.map [(lit "a", some 3)], .map [(lit "b", some 3), (lit "c", some 4)], .map [], .cell (objCell (some 2)), .cell (strCell (lit "v"))] := by
  refine ⟨⟨fun m hm => ?_, fun a c m ha hc => ?_⟩, fun a c ps ha hc => ?_, fun a es ha k q hq => ?_⟩
  · cases hm; exact ⟨_, rfl⟩
  · rcases a with _ | _ | _ | _ | _ | a <;> simp at ha
    · subst ha; cases hc; exact ⟨_, rfl⟩
    · subst ha; cases hc
  · rcases a with _ | _ | _ | _ | _ | a <;> simp at ha
    · subst ha; cases hc
    · subst ha; cases hc
  · rcases a with _ | _ | _ | _ | _ | a <;> simp at ha
    · subst ha; simp at hq; rw [hq.2]; rintro _ ⟨⟩; decide
    · subst ha; simp at hq; rcases hq with hq | hq <;> (rw [hq.2]; rintro _ ⟨⟩; decide)
    · subst ha; simp at hq

/-- A case: the events 0 and 1 share the object 3 as `a` and as `b`. `Put("a.x.y", v)` on the first is seen as `b.x.y` in the second, and `c` of the second is what it was. -/
theorem put_effect_sample : ∃ h h' q,
    h = [.map [(lit "a", some 3)], .map [(lit "b", some 3), (lit "c", some 4)], .map [], .cell (objCell (some 2)), .cell (strCell (lit "v"))] ∧
    apiPut h (some 0) (lit "a.x.y") (some 4) = .ok (h', some 0, none, none) ∧
    h[2]? = some (.map []) ∧ h'[2]? = some (.map (AMap.insert [] (lit "x") q)) ∧ Chain h.length h' q (some 4) [lit "y"] ∧ ChangedAt h h' 2 (lit "x") ∧
    Reaches h (some 1) [lit "b"] (some 2) ∧ apiGet h' (some 1) (lit "b.x.y") = .ok (h', some 4) ∧ apiGet h' (some 1) (lit "c") = .ok (h', some 4) :=
  ⟨_, [.map [(lit "a", some 3)], .map [(lit "b", some 3), (lit "c", some 4)], .map [(lit "x", some 6)], .cell (objCell (some 2)), .cell (strCell (lit "v")), .map [(lit "y", some 4)], .cell (objCell (some 5))], some 6,
    rfl, rfl, rfl, rfl, ⟨6, 5, some 4, rfl, by decide, rfl, by decide, rfl, rfl⟩,
    insert_changedAt (es := []) (q := some 6) rfl rfl (by
      intro a ha hd
      have : a = 0 ∨ a = 1 ∨ a = 2 ∨ a = 3 ∨ a = 4 := by simp at ha; omega
      rcases this with rfl | rfl | rfl | rfl | rfl
      · rfl
      · rfl
      · exact absurd rfl hd
      · rfl
      · rfl),
    ⟨some 3, objCell (some 2), rfl, rfl, rfl⟩, rfl, rfl⟩

/-- And a case for `Delete`: the object that `b` of event 0 shares is event 1's own map. Event 1 loses the entry, and so does `b`. -/
theorem delete_effect_sample : ∃ h', apiDelete [.map [(lit "b", some 2)], .map [(lit "x", some 3)], .cell (objCell (some 1)), .cell (strCell (lit "v"))] (some 1) (lit "x") = .ok (h', some 3) ∧
    Asks [.map [(lit "b", some 2)], .map [(lit "x", some 3)], .cell (objCell (some 1)), .cell (strCell (lit "v"))] (some 0) (keyToPath (lit "b.x")) 1 (lit "x") ∧
    apiGet h' (some 0) (lit "b.x") = .ok (h', none) :=
  ⟨_, rfl, ⟨[lit "b"], [], by decide, some 2, objCell (some 1), rfl, rfl, rfl⟩, rfl⟩

end Sawmill
