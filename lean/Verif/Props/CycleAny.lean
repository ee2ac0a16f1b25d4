import Verif.Props.Cycle
import Verif.Props.PutAny
/-! # Values stored below themselves in any memory (C79)

Like `Props/Cycle`, but parts of the event may already be shared with other events or within it, and it may already contain itself. -/

namespace Sawmill
open Wire ATree

/-- `h'` is `h` with one more entry, or one entry replaced, in one map: the new entry is `p`, or its name was not there. New objects may have been added. -/
def OneEntry (h h' : Heap) (p : Ptr) : Prop :=
  ∃ (d : Nat) (k : Bytes) (x : Ptr) (es : List (Bytes × Ptr)), h[d]? = some (.map es) ∧ h'[d]? = some (.map (AMap.insert es k x)) ∧ (x = p ∨ AMap.lookup es k = none) ∧
    ∀ a, a < h.length → a ≠ d → h'[a]? = h[a]?

/-- One step down, after the change: the entry is the one that was there, or the new one. -/
theorem down_one_entry {h h' : Heap} {p q : Ptr} (he : OneEntry h h' p) {m : Nat} {es : List (Bytes × Ptr)} (hm : h[m]? = some (.map es)) {k : Bytes} (hl : AMap.lookup es k = some q) {c : Cell}
    (hd : deref h q = some c) (ht : c.type = .object) (hr : ∃ path, Down h' p c.object path) : ∃ path, Down h' p (some m) path := by
  obtain ⟨d, k0, x, es0, h1, h2, h3, h4⟩ := he
  cases q with
  | none => simp [deref] at hd
  | some a =>
    have hca : h[a]? = some (.cell c) := by
      simp only [deref] at hd
      split at hd
      · rename_i c' hx; simp only [Option.some.injEq] at hd; subst hd; exact hx
      · simp at hd
    have had : a ≠ d := by rintro rfl; rw [h1] at hca; simp at hca
    have hc' : deref h' (some a) = some c := by simp only [deref, h4 a (lt_of_getElem? hca) had, hca]
    obtain ⟨path, hp⟩ := hr
    by_cases hmd : m = d
    · subst hmd
      rw [hm] at h1
      simp only [Option.some.injEq, HObj.map.injEq] at h1
      subst h1
      by_cases hk : k = k0
      · subst hk
        rcases h3 with rfl | h3
        · exact ⟨[k], by simp [Down, mapOf, h2]⟩
        · rw [hl] at h3; simp at h3
      · refine ⟨k :: path, down_step (q := some a) (c := c) ?_ hc' ht hp⟩
        simp only [mapOf, h2]
        rw [AMap.lookup_insert_of_ne _ _ (fun e => hk e.symm)]
        exact hl
    · refine ⟨k :: path, down_step (q := some a) (c := c) ?_ hc' ht hp⟩
      simp only [mapOf, h4 m (lt_of_getElem? hm) hmd, hm]
      exact hl

/-- What a successful `putLoop` does to memory, and that it leaves a way down to the new pointer. -/
theorem putLoop_one_entry {p : Ptr} : ∀ (path : List Bytes), path ≠ [] → ∀ {h h' : Heap} {m : Option Nat}, MapsAreMaps h m → putLoop h m path p = .ok (h', true) →
    OneEntry h h' p ∧ ∃ path', Down h' p m path'
  | [], hp, _, _, _, _, _ => absurd rfl hp
  | [k], _, h, h', none, hw, hput => by simp [putLoop, mapWrite] at hput
  | [k], _, h, h', some m, hw, hput => by
    obtain ⟨es, hm⟩ := hw.1 m rfl
    simp only [putLoop, mapWrite, hm, Res.map_ok, Res.ok.injEq, Prod.mk.injEq, and_true] at hput
    subst hput
    have h2 : (h.set m (.map (AMap.insert es k p)))[m]? = some (.map (AMap.insert es k p)) := List.getElem?_set_self (lt_of_getElem? hm)
    exact ⟨⟨m, k, p, es, hm, h2, .inl rfl, fun a _ ha => List.getElem?_set_ne (fun e => ha e.symm)⟩, [k], by simp [Down, mapOf, h2]⟩
  | k :: k2 :: ks, _, h, h', m, hw, hput => by
    simp only [putLoop] at hput
    cases hl : (mapOf h m).lookup k with
    | some q =>
      simp only [hl] at hput
      cases hd : deref h q with
      | none => simp [hd] at hput
      | some c =>
        simp only [hd] at hput
        by_cases ht : c.type = .object
        · simp only [ht, ne_eq, not_true_eq_false, if_false] at hput
          obtain ⟨i1, i2⟩ := putLoop_one_entry (k2 :: ks) (by simp) (mapsAreMaps_below hw hd) hput
          cases m with
          | none => simp [mapOf] at hl
          | some m =>
            obtain ⟨es, hm⟩ := hw.1 m rfl
            simp only [mapOf, hm] at hl
            exact ⟨i1, down_one_entry i1 hm hl hd ht i2⟩
        · simp [ht] at hput
    | none =>
      simp only [hl, Heap.alloc] at hput
      cases m with
      | none => simp [mapWrite] at hput
      | some m =>
        obtain ⟨es, hm⟩ := hw.1 m rfl
        have hml := lt_of_getElem? hm
        simp only [mapOf, hm] at hl
        have hwm : mapWrite (h ++ [HObj.map []] ++ [HObj.cell (objCell (some h.length))]) (some m) k (some (h ++ [HObj.map []]).length) =
            .ok ((h ++ [HObj.map []] ++ [HObj.cell (objCell (some h.length))]).set m (.map (AMap.insert es k (some (h ++ [HObj.map []]).length)))) := by
          simp only [mapWrite]
          rw [List.getElem?_append_left (by simp; omega), List.getElem?_append_left hml, hm]
        rw [hwm] at hput
        simp only at hput
        generalize hh3 : (h ++ [HObj.map []] ++ [HObj.cell (objCell (some h.length))]).set m (.map (AMap.insert es k (some (h ++ [HObj.map []]).length))) = h3 at hput
        have hat : ∀ a, a ≠ m → h3[a]? = (h ++ [HObj.map []] ++ [HObj.cell (objCell (some h.length))])[a]? := by
          intro a ha; rw [← hh3, List.getElem?_set_ne (fun e => ha e.symm)]
        have hold : ∀ a, a < h.length → a ≠ m → h3[a]? = h[a]? := by
          intro a hal ha
          rw [hat a ha, List.getElem?_append_left (by simp; omega), List.getElem?_append_left hal]
        have hm3 : h3[m]? = some (.map (AMap.insert es k (some (h.length + 1)))) := by
          rw [← hh3, List.getElem?_set_self (by simp; omega)]; simp
        have hn3 : h3[h.length]? = some (.map []) := by
          rw [hat _ (by omega)]; rw [List.getElem?_append_left (by simp)]; simp
        have hc3 : h3[h.length + 1]? = some (.cell (objCell (some h.length))) := by
          rw [hat _ (by omega)]; rw [List.getElem?_append_right (by simp)]; simp
        have o3 : OwnsMap h3 h.length [] := ⟨by simp [hn3, ptrMap, AMap.mapVals], AMap.sorted_nil, by simp [RepE], by simp [fpE]⟩
        have hd0 := putLoop_down _ (by simp) o3 hput
        obtain ⟨i1, -, -, -⟩ := putLoop_raw _ (by simp) o3 hput
        have htn : touched h.length ([] : AMap ATree) (k2 :: ks) = [h.length] := by
          cases ks <;> simp [touched]
        rw [htn] at i1
        have hm' := i1.get hm3 (by simp; omega)
        have hc' := i1.get hc3 (by simp)
        refine ⟨⟨m, k, some (h.length + 1), es, hm, hm', .inr hl, ?_⟩, k :: k2 :: ks, ?_⟩
        · intro a hal ha
          cases hx : h[a]? with
          | none => rw [List.getElem?_eq_none_iff] at hx; omega
          | some o => exact i1.get (by rw [hold a hal ha]; exact hx) (by simp; omega)
        · exact down_step (q := some (h.length + 1)) (c := objCell (some h.length)) (by simp [mapOf, hm', AMap.lookup_insert_self]) (by simp [deref, hc']) rfl hd0

/-- `putLoop` with a path through a value that is there comes to that value, which is an object, and goes on from there. -/
theorem putLoop_passes {p : Ptr} {k : Bytes} {ks : List Bytes} {h h' : Heap} {a : Nat} : ∀ {src : List Bytes} {m : Option Nat}, src ≠ [] → MapsAreMaps h m → getLoop h m src = .ok (some a) →
    putLoop h m (src ++ k :: ks) p = .ok (h', true) → ∃ c, deref h (some a) = some c ∧ c.type = .object ∧ MapsAreMaps h c.object ∧ putLoop h c.object (k :: ks) p = .ok (h', true)
  | [], _, hs, _, _, _ => absurd rfl hs
  | [x], m, _, hw, hg, hput => by
    simp only [getLoop, Res.ok.injEq] at hg
    cases hl : (mapOf h m).lookup x with
    | none => simp [hl] at hg
    | some q =>
      simp only [hl, Option.join_some] at hg
      subst hg
      simp only [List.cons_append, List.nil_append, putLoop, hl] at hput
      cases hd : deref h (some a) with
      | none => simp [hd] at hput
      | some c =>
        simp only [hd] at hput
        by_cases ht : c.type = .object
        · simp only [ht, ne_eq, not_true_eq_false, if_false] at hput
          exact ⟨c, rfl, ht, mapsAreMaps_below hw hd, hput⟩
        · simp [ht] at hput
  | x :: y :: xs, m, _, hw, hg, hput => by
    simp only [getLoop] at hg
    simp only [List.cons_append, putLoop] at hput
    cases hl : (mapOf h m).lookup x with
    | none => simp [hl] at hg
    | some q =>
      simp only [hl] at hg hput
      cases hd : deref h q with
      | none => simp [hd] at hg
      | some c =>
        simp only [hd] at hg hput
        by_cases ht : c.type = .object
        · simp only [ht, ne_eq, not_true_eq_false, if_false] at hput
          by_cases h0 : (mapOf h c.object).length = 0
          · simp [h0] at hg
          · simp only [h0, if_false] at hg
            exact putLoop_passes (src := y :: xs) (by simp) (mapsAreMaps_below hw hd) hg hput
        · simp [ht] at hput

theorem put_endless_any {h h1 h' : Heap} {e : Event} (hw : MapsAreMaps h e) {src : Bytes} {path : List Bytes} (hpp : ProperPrefix (keyToPath src) path) {a : Nat}
    (hg : apiGet h e src = .ok (h1, some a)) {ow : Bool} {e' : Event} {old : Ptr} (hp : put h1 e path (some a) ow = .ok (h', e', old, none)) : EndlessEvent h' e' := by
  obtain ⟨k, ks, rfl⟩ := hpp
  cases e with
  | none =>
    have : ∀ p, get h none p = .ok (h, none) := by
      intro p
      cases p <;> simp [get, mapOf, getLoop]
    simp [apiGet, this] at hg
  | some m =>
    obtain ⟨rfl, hne, hput⟩ := put_some hp
    have hput := hput hne
    by_cases hsrc : keyToPath src = []
    · by_cases h0 : (mapOf h (some m)).length = 0
      · simp [apiGet, get, h0] at hg
      · simp only [apiGet, hsrc, get, h0, if_false, Heap.alloc, Res.ok.injEq, Prod.mk.injEq, Option.some.injEq] at hg
        obtain ⟨rfl, rfl⟩ := hg
        have hw1 : MapsAreMaps (h ++ [HObj.cell (objCell (some m))]) (some m) := by
          refine ⟨fun m' hm' => ?_, fun b c m' hb hc => ?_⟩
          · obtain ⟨es, hes⟩ := hw.1 m' hm'
            exact ⟨es, by rw [List.getElem?_append_left (lt_of_getElem? hes)]; exact hes⟩
          · have : ∃ es, h[m']? = some (.map es) := by
              by_cases hbl : b < h.length
              · rw [List.getElem?_append_left hbl] at hb
                exact hw.2 b c m' hb hc
              · have : b = h.length := by
                  have := lt_of_getElem? hb
                  simp at this; omega
                subst this
                simp only [List.getElem?_append_right (Nat.le_refl _), Nat.sub_self, List.getElem?_cons_zero, Option.some.injEq, HObj.cell.injEq] at hb
                subst hb
                exact hw.1 m' (by simpa [objCell] using hc)
            obtain ⟨es, hes⟩ := this
            exact ⟨es, by rw [List.getElem?_append_left (lt_of_getElem? hes)]; exact hes⟩
        rw [hsrc, List.nil_append] at hput
        obtain ⟨⟨d, k0, x, es, g1, g2, g3, g4⟩, path', hd⟩ := putLoop_one_entry _ (by simp) hw1 hput
        have hcell : (h ++ [HObj.cell (objCell (some m))])[h.length]? = some (.cell (objCell (some m))) := by simp
        have hnd : h.length ≠ d := by rintro rfl; rw [hcell] at g1; simp at g1
        have hc' := g4 h.length (by simp) hnd
        rw [hcell] at hc'
        exact down_endless (within_endless (down_within (c := objCell (some m)) (by simp [deref, hc']) rfl hd)) hd
    · have hge : h1 = h ∧ getLoop h (some m) (keyToPath src) = .ok (some a) := by
        unfold apiGet at hg
        generalize keyToPath src = s at *
        cases s with
        | nil => exact absurd rfl hsrc
        | cons x xs =>
          simp only [get] at hg
          split at hg
          · simp at hg
          · cases hx : getLoop h (some m) (x :: xs) with
            | panic => simp [hx] at hg
            | ok q => simp [hx] at hg; exact ⟨hg.1.symm, by rw [hg.2]⟩
      obtain ⟨rfl, hgl⟩ := hge
      obtain ⟨-, path', hd⟩ := putLoop_one_entry _ (by simp) hw hput
      obtain ⟨c, c1, c2, c3, c4⟩ := putLoop_passes hsrc hw hgl hput
      obtain ⟨⟨d, k0, x, es, g1, g2, g3, g4⟩, path2, hd2⟩ := putLoop_one_entry _ (by simp) c3 c4
      have hca : h1[a]? = some (.cell c) := by
        simp only [deref] at c1
        split at c1
        · rename_i c' hx; simp only [Option.some.injEq] at c1; subst c1; exact hx
        · simp at c1
      have had : a ≠ d := by rintro rfl; rw [g1] at hca; simp at hca
      have hc' : deref h' (some a) = some c := by simp only [deref, g4 a (lt_of_getElem? hca) had, hca]
      exact down_endless (within_endless (down_within hc' c2 hd2)) hd

/-- **C79.** Storing a value of an event (or all of it, as `Get(".")` returns it) below itself, with `Put` or `TryPut`: if the call succeeds, the event contains itself - in any memory, whatever it shares with other events or within itself, even if it contained itself before (and the call has replaced an entry on the way round). -/
theorem put_below_itself_any {h h1 h' : Heap} {e : Event} (hw : MapsAreMaps h e) {src key : Bytes} (hpp : ProperPrefix (keyToPath src) (keyToPath key)) {a : Nat}
    (hg : apiGet h e src = .ok (h1, some a)) {e' : Event} {old : Ptr}
    (hp : apiPut h1 e key (some a) = .ok (h', e', old, none) ∨ apiTryPut h1 e key (some a) = .ok (h', e', old, none)) : EndlessEvent h' e' := by
  rcases hp with hp | hp
  · exact put_endless_any hw hpp hg hp
  · exact put_endless_any hw hpp hg hp

/-- **C79, C17.** `set` with `copy_from` a field above the target, in any memory: whenever it reports success, the event contains itself. -/
theorem set_copy_endless_any {h h' : Heap} {e : Event} (hw : MapsAreMaps h e) {value : Nat} (hv : h[value]? = some (.cell nullCell)) {copyFrom : Bytes} (hc : copyFrom ≠ []) (target : Bytes)
    (hpp : ProperPrefix (keyToPath copyFrom) (keyToPath target)) {e' : Event} (hrun : setProcess value copyFrom target h e = .ok (h', e', none)) : EndlessEvent h' e' := by
  rw [setProcess_copy hv hc] at hrun
  cases hg : apiGet h e copyFrom with
  | panic => simp [hg] at hrun
  | ok r =>
    obtain ⟨h1, p⟩ := r
    cases p with
    | none => simp [hg] at hrun
    | some a =>
      simp only [hg, putThen] at hrun
      cases hq : apiPut h1 e target (some a) with
      | panic => simp [hq] at hrun
      | ok q =>
        obtain ⟨h2, e2, old, err⟩ := q
        cases err with
        | some err => simp [hq] at hrun
        | none =>
          simp only [hq, Res.map_ok, Option.map_none, Res.ok.injEq, Prod.mk.injEq, and_true] at hrun
          obtain ⟨rfl, rfl⟩ := hrun
          exact put_endless_any hw hpp hg hq

/-- A case: the event is the map 0, whose names `a` and `b` have the same object, the event itself. `Put("a.b.a", Get("b"))` replaces the entry `a` through which it went. -/
theorem put_any_sample : MapsAreMaps [.map [(lit "a", some 1), (lit "b", some 1)], .cell (objCell (some 0))] (some 0) ∧ ProperPrefix (keyToPath (lit "a.b")) (keyToPath (lit "a.b.a")) ∧
    apiGet [.map [(lit "a", some 1), (lit "b", some 1)], .cell (objCell (some 0))] (some 0) (lit "a.b") = .ok ([.map [(lit "a", some 1), (lit "b", some 1)], .cell (objCell (some 0))], some 1) ∧
    ∃ h' old, apiPut [.map [(lit "a", some 1), (lit "b", some 1)], .cell (objCell (some 0))] (some 0) (lit "a.b.a") (some 1) = .ok (h', some 0, old, none) ∧ EndlessEvent h' (some 0) := by
  have hw : MapsAreMaps [.map [(lit "a", some 1), (lit "b", some 1)], .cell (objCell (some 0))] (some 0) := by
    refine ⟨fun m hm => ?_, fun a c m ha hc => ?_⟩
    · simp only [Option.some.injEq] at hm; subst hm; exact ⟨_, rfl⟩
    · cases a with
      | zero => simp at ha
      | succ a =>
        cases a with
        | zero => simp at ha; subst ha; simp only [objCell, Option.some.injEq] at hc; subst hc; exact ⟨_, rfl⟩
        | succ a => simp at ha
  have hpp : ProperPrefix (keyToPath (lit "a.b")) (keyToPath (lit "a.b.a")) := ⟨lit "a", [], by decide⟩
  exact ⟨hw, hpp, rfl, _, _, rfl, put_below_itself_any hw hpp (a := 1) rfl (.inl rfl)⟩

end Sawmill
