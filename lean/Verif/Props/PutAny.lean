import Verif.Props.SetProc
import Verif.Spec.Panics
/-!
# C02 and C04 for any value, C12 exactly
-/

namespace Sawmill
open ATree

/-- Going down from a name that holds the value `t` (or is missing). -/
theorem getLoop_cons {h : Heap} {m : Nat} {es : AMap ATree} {k : Bytes} (hl : (mapOf h (some m)).lookup k = (es.lookup k).map ptr) (hr : ∀ t, es.lookup k = some t → Rep h t) (ks : List Bytes) :
    getLoop h (some m) (k :: ks) = (aget es (k :: ks)).map ptr := by
  cases ks with
  | nil =>
    simp only [getLoop, aget, hl]
    cases AMap.lookup es k <;> simp [ptr]
  | cons k2 ks =>
    simp only [getLoop, aget, hl]
    cases hl : AMap.lookup es k with
    | none => simp [ptr]
    | some t =>
      have ht := hr t hl
      cases t with
      | nilp => simp [ptr, deref]
      | leaf a s =>
        simp only [Rep] at ht
        simp only [ptr, Option.map_some, deref, ht]
        have : (scalarCell s).object = none := by cases s <;> rfl
        simp [this, ptr, mapOf]
      | arrNil a => simp only [Rep] at ht; simp [ptr, deref, ht, arrCell, mapOf]
      | arr a vs => simp only [Rep] at ht; simp [ptr, deref, ht, arrCell, mapOf]
      | objNil a => simp only [Rep] at ht; simp [ptr, deref, ht, objCell, mapOf]
      | obj a m' es' =>
        simp only [Rep] at ht
        have hmo : mapOf h (some m') = ptrMap es' := by simp [mapOf, ht.2.1]
        simp only [ptr, Option.map_some, deref, ht.1, objCell, hmo]
        cases es' with
        | nil =>
          simp only [ptrMap, AMap.mapVals, List.map_nil, List.length_nil, if_true]
          cases ks <;> simp [aget, ptr]
        | cons e es' =>
          simp only [ptrMap, AMap.mapVals, List.map_cons, List.length_cons, Nat.add_eq_zero_iff, Nat.succ_ne_self, and_false, if_false]
          exact getLoop_spec _ ht.2.1 ht.2.2.2

/-- `putLoop` with any pointer at all: what is found at unrelated paths is what was there. -/
theorem putLoop_others {p : Ptr} (path : List Bytes) (hp : path ≠ []) {h h' : Heap} {m : Nat} {es : AMap ATree} (o : OwnsMap h m es)
    (hw : putLoop h (some m) path p = .ok (h', true)) {q : List Bytes} (hq : ¬ Related path q) : getLoop h' (some m) q = (aget es q).map ptr := by
  induction path generalizing h m es q with
  | nil => exact absurd rfl hp
  | cons k ks ih =>
    obtain ⟨fr, -, -, -⟩ := putLoop_raw _ hp o hw
    cases q with
    | nil => exact absurd (.inr List.nil_prefix) hq
    | cons k' qs =>
      by_cases hk : k = k'
      · subst hk
        rw [related_cons] at hq
        have hq' : ¬ Related ks qs := fun hr => hq ⟨rfl, hr⟩
        cases ks with
        | nil => exact absurd (.inl List.nil_prefix) hq'
        | cons k2 ks =>
          cases qs with
          | nil => exact absurd (.inr List.nil_prefix) hq'
          | cons q2 qs =>
            simp only [putLoop, mapOf, o.at_, lookup_ptrMap] at hw
            cases hl : AMap.lookup es k with
            | none =>
              simp only [hl, Option.map_none, Heap.alloc] at hw
              have hml := lt_of_getElem? o.at_
              have hwm : mapWrite (h ++ [HObj.map []] ++ [HObj.cell (objCell (some h.length))]) (some m) k (some (h ++ [HObj.map []]).length) =
                  .ok ((h ++ [HObj.map []] ++ [HObj.cell (objCell (some h.length))]).set m (.map ((ptrMap es).insert k (some (h ++ [HObj.map []]).length)))) := by
                simp only [mapWrite]
                rw [List.getElem?_append_left (by simp; omega), List.getElem?_append_left hml, o.at_]
              rw [hwm] at hw
              simp only at hw
              generalize hh3 : (h ++ [HObj.map []] ++ [HObj.cell (objCell (some h.length))]).set m (.map ((ptrMap es).insert k (some (h ++ [HObj.map []]).length))) = h3 at hw
              have hat : ∀ a, a ≠ m → h3[a]? = (h ++ [HObj.map []] ++ [HObj.cell (objCell (some h.length))])[a]? := by
                intro a ha; rw [← hh3, List.getElem?_set_ne (fun e => ha e.symm)]
              have hm3 : h3[m]? = some (.map ((ptrMap es).insert k (some (h.length + 1)))) := by
                rw [← hh3, List.getElem?_set_self (by simp; omega)]; simp
              have hn3 : h3[h.length]? = some (.map []) := by
                rw [hat _ (by omega)]; rw [List.getElem?_append_left (by simp)]; simp
              have hc3 : h3[h.length + 1]? = some (.cell (objCell (some h.length))) := by
                rw [hat _ (by omega)]; rw [List.getElem?_append_right (by simp)]; simp
              have o3 : OwnsMap h3 h.length [] := ⟨by simp [hn3, ptrMap, AMap.mapVals], AMap.sorted_nil, by simp [RepE], by simp [fpE]⟩
              obtain ⟨i1, -, i3, -⟩ := putLoop_raw _ (by simp) o3 hw
              have htn : touched h.length ([] : AMap ATree) (k2 :: ks) = [h.length] := by
                cases ks <;> simp [touched]
              rw [htn] at i1
              have hm' := i1.get hm3 (by simp; omega)
              have hc' := i1.get hc3 (by simp)
              rw [getLoop_step (p := some (h.length + 1)) (c := objCell (some h.length)) (by simp [mapOf, hm']) (by simp [deref, hc']) i3]
              simp only [objCell]
              rw [ih (by simp) o3 hw hq', aget_nil]
              simp [aget, hl]
            | some t0 =>
              have hr := rep_of_lookup o.rep hl
              have bad : ∀ (c : Cell) (a : Nat), t0.ptr = some a → h[a]? = some (.cell c) → c.type ≠ .object → False := by
                intro c a h1 h2 h3
                simp [hl, h1, deref, h2, h3] at hw
              cases t0 with
              | nilp => simp [hl, ptr, deref] at hw
              | leaf b s => simp only [Rep] at hr; exact (bad _ b rfl hr (by cases s <;> simp [scalarCell, nullCell, boolCell, intCell, uintCell, floatCell, strCell, tsCell])).elim
              | arrNil b => simp only [Rep] at hr; exact (bad _ b rfl hr (by simp [arrCell])).elim
              | arr b vs => simp only [Rep] at hr; exact (bad _ b rfl hr.1 (by simp [arrCell])).elim
              | objNil b =>
                simp only [Rep] at hr
                simp only [hl, Option.map_some, ptr, deref, hr, objCell, ne_eq, not_true_eq_false, if_false] at hw
                cases ks <;> simp [putLoop, mapWrite, mapOf] at hw
              | obj b m1 es1 =>
                simp only [Rep] at hr
                simp only [hl, Option.map_some, ptr, deref, hr.1, objCell, ne_eq, not_true_eq_false, if_false] at hw
                obtain ⟨i1, -, i3, -⟩ := putLoop_raw _ (by simp) (o.sub hl) hw
                have hsub : ∀ a ∈ touched m1 es1 (k2 :: ks), a ∈ fpE es := fun a ha =>
                  mem_fpE (AMap.mem_of_lookup hl) (by simpa [fp] using touched_sub _ _ _ a ha)
                have hmn : m ∉ touched m1 es1 (k2 :: ks) := fun hc => (List.nodup_cons.1 o.nodup).1 (hsub _ hc)
                have hm' := i1.get o.at_ hmn
                have hc' := i1.getFrozen hr.1 (by simp [objCell])
                rw [getLoop_step (p := some b) (c := objCell (some m1)) (by simp [mapOf, hm', lookup_ptrMap, hl, ptr]) (by simp [deref, hc']) i3]
                simp only [objCell]
                rw [ih (by simp) (o.sub hl) hw hq']
                simp [aget, hl]
      · apply getLoop_cons
        · -- the entry is still there
          have hml := lt_of_getElem? o.at_
          cases ks with
          | nil =>
            simp only [putLoop, mapWrite, o.at_, Res.map_ok, Res.ok.injEq, Prod.mk.injEq, and_true] at hw
            subst hw
            simp [mapOf, List.getElem?_set_self hml, AMap.lookup_insert_of_ne _ _ hk, lookup_ptrMap]
          | cons k2 ks =>
            simp only [putLoop, mapOf, o.at_, lookup_ptrMap] at hw
            cases hl : AMap.lookup es k with
            | none =>
              simp only [hl, Option.map_none, Heap.alloc] at hw
              have hwm : mapWrite (h ++ [HObj.map []] ++ [HObj.cell (objCell (some h.length))]) (some m) k (some (h ++ [HObj.map []]).length) =
                  .ok ((h ++ [HObj.map []] ++ [HObj.cell (objCell (some h.length))]).set m (.map ((ptrMap es).insert k (some (h ++ [HObj.map []]).length)))) := by
                simp only [mapWrite]
                rw [List.getElem?_append_left (by simp; omega), List.getElem?_append_left hml, o.at_]
              rw [hwm] at hw
              simp only at hw
              generalize hh3 : (h ++ [HObj.map []] ++ [HObj.cell (objCell (some h.length))]).set m (.map ((ptrMap es).insert k (some (h ++ [HObj.map []]).length))) = h3 at hw
              have hat : ∀ a, a ≠ m → h3[a]? = (h ++ [HObj.map []] ++ [HObj.cell (objCell (some h.length))])[a]? := by
                intro a ha; rw [← hh3, List.getElem?_set_ne (fun e => ha e.symm)]
              have hm3 : h3[m]? = some (.map ((ptrMap es).insert k (some (h.length + 1)))) := by
                rw [← hh3, List.getElem?_set_self (by simp; omega)]; simp
              have hn3 : h3[h.length]? = some (.map []) := by
                rw [hat _ (by omega)]; rw [List.getElem?_append_left (by simp)]; simp
              have o3 : OwnsMap h3 h.length [] := ⟨by simp [hn3, ptrMap, AMap.mapVals], AMap.sorted_nil, by simp [RepE], by simp [fpE]⟩
              obtain ⟨i1, -, -, -⟩ := putLoop_raw _ (by simp) o3 hw
              have htn : touched h.length ([] : AMap ATree) (k2 :: ks) = [h.length] := by
                cases ks <;> simp [touched]
              rw [htn] at i1
              have hm' := i1.get hm3 (by simp; omega)
              simp [mapOf, hm', AMap.lookup_insert_of_ne _ _ hk, lookup_ptrMap]
            | some t0 =>
              have hr := rep_of_lookup o.rep hl
              have bad : ∀ (c : Cell) (a : Nat), t0.ptr = some a → h[a]? = some (.cell c) → c.type ≠ .object → False := by
                intro c a h1 h2 h3
                simp [hl, h1, deref, h2, h3] at hw
              cases t0 with
              | nilp => simp [hl, ptr, deref] at hw
              | leaf b s => simp only [Rep] at hr; exact (bad _ b rfl hr (by cases s <;> simp [scalarCell, nullCell, boolCell, intCell, uintCell, floatCell, strCell, tsCell])).elim
              | arrNil b => simp only [Rep] at hr; exact (bad _ b rfl hr (by simp [arrCell])).elim
              | arr b vs => simp only [Rep] at hr; exact (bad _ b rfl hr.1 (by simp [arrCell])).elim
              | objNil b =>
                simp only [Rep] at hr
                simp only [hl, Option.map_some, ptr, deref, hr, objCell, ne_eq, not_true_eq_false, if_false] at hw
                cases ks <;> simp [putLoop, mapWrite, mapOf] at hw
              | obj b m1 es1 =>
                simp only [Rep] at hr
                simp only [hl, Option.map_some, ptr, deref, hr.1, objCell, ne_eq, not_true_eq_false, if_false] at hw
                obtain ⟨i1, -, -, -⟩ := putLoop_raw _ (by simp) (o.sub hl) hw
                have hsub : ∀ a ∈ touched m1 es1 (k2 :: ks), a ∈ fpE es := fun a ha =>
                  mem_fpE (AMap.mem_of_lookup hl) (by simpa [fp] using touched_sub _ _ _ a ha)
                have hmn : m ∉ touched m1 es1 (k2 :: ks) := fun hc => (List.nodup_cons.1 o.nodup).1 (hsub _ hc)
                have hm' := i1.get o.at_ hmn
                simp [mapOf, hm', lookup_ptrMap]
        · intro t ht
          refine rep_frame fr t (rep_of_lookup o.rep ht) ?_
          refine touched_disjoint' [k'] _ o (by simp [aget, ht]) ?_
          rintro ⟨x, xs, hx⟩
          simp at hx
          exact hk hx.1

/-- **C02**, with any value: one that is new, one that is in the event already (above, below or beside the key), or part of another event. A successful `Put` or `TryPut` changes no unrelated key: `Get` returns the same
pointer as before, and what is seen there is the same. -/
theorem put_other_keys_any {h h' : Heap} {f : AFields} {v : Ptr} {ow : Bool} {e' : Event} {old : Ptr} {k k' : Bytes} (o : Owns h f)
    (hput : put h f.event (keyToPath k) v ow = .ok (h', e', old, none)) (hk : ¬ Related (keyToPath k) (keyToPath k')) :
    (apiGet h f.event k' = .panic ∧ apiGet h' e' k' = .panic) ∨
    ∃ p x, apiGet h f.event k' = .ok (h, p) ∧ apiGet h' e' k' = .ok (h', p) ∧ Reads h p x ∧ Reads h' p x := by
  unfold apiGet
  generalize keyToPath k = path at *
  generalize hq : keyToPath k' = q at *
  have hp : path ≠ [] := by rintro rfl; exact hk (.inl List.nil_prefix)
  have hqn : q ≠ [] := by rintro rfl; exact hk (.inr List.nil_prefix)
  have hpl : path.length ≠ 0 := by simpa using hp
  by_cases hv : v = none
  · subst hv
    simp [put, hpl] at hput
    obtain ⟨rfl, rfl, rfl⟩ := hput
    have := get_spec o q
    cases hg : Spec.getFields f.erase q with
    | panic => simp only [hg] at this; exact .inl ⟨this, this⟩
    | ok v =>
      simp only [hg] at this
      obtain ⟨h1, t1, k1, k2, k3, k4, k5, k6⟩ := this
      have := k6 hqn
      subst this
      exact .inr ⟨t1.ptr, v, k1, k1, k3 ▸ rep_reads t1 k2, k3 ▸ rep_reads t1 k2⟩
  have main : ∀ (h : Heap) (m : Nat) (es : AMap ATree), OwnsMap h m es → put h (some m) path v ow = .ok (h', e', old, none) →
      (aget es q = .panic ∧ get h' e' q = .panic) ∨
      ∃ t', aget es q = .ok t' ∧ get h' e' q = .ok (h', t'.ptr) ∧ Rep h t' ∧ Rep h' t' := by
    intro h m es o hput
    rw [put_eq_some hp hv, get_spec' o path hp] at hput
    cases hg : aget es path with
    | panic => simp [hg] at hput
    | ok told =>
      simp only [hg, Res.map_ok] at hput
      split at hput
      · simp at hput
      · cases hw : putLoop h (some m) path v with
        | panic => simp [hw] at hput
        | ok r =>
          obtain ⟨h2, b⟩ := r
          cases b with
          | false => simp [hw] at hput
          | true =>
            simp only [hw, Res.ok.injEq, Prod.mk.injEq] at hput
            obtain ⟨rfl, rfl, _, _⟩ := hput
            obtain ⟨fr, -, hne, -⟩ := putLoop_raw _ hp o hw
            have hgl := putLoop_others _ hp o hw hk
            have hget : get h2 (some m) q = (aget es q).map fun t => (h2, t.ptr) := by
              have : ¬ (mapOf h2 (some m)).length = 0 := by simpa using hne
              cases q with
              | nil => exact absurd rfl hqn
              | cons x xs => simp only [get, this, if_false, hgl, res_map_map]; rfl
            cases hq' : aget es q with
            | panic => exact .inl ⟨rfl, by rw [hget, hq']; rfl⟩
            | ok t' =>
              have hrep := (aget_sub o.rep hq').1
              refine .inr ⟨t', rfl, by rw [hget, hq']; rfl, hrep, rep_frame fr t' hrep (touched_disjoint' _ _ o hq' ?_)⟩
              rintro ⟨x, xs, rfl⟩
              exact hk (.inr (List.prefix_append _ _))
  cases f with
  | some f =>
    obtain ⟨m, es⟩ := f
    have om : OwnsMap h m es := ⟨o.1, o.2.1, o.2.2.1, o.2.2.2⟩
    have hg0 := get_spec' om q hqn
    rcases main h m es om hput with ⟨h1, h2⟩ | ⟨t', h1, h2, h3, h4⟩
    · exact .inl ⟨by simp only [AFields.event, hg0, h1]; rfl, h2⟩
    · exact .inr ⟨t'.ptr, t'.erase, by simp only [AFields.event, hg0, h1]; rfl, h2, rep_reads t' h3, rep_reads t' h4⟩
  | none =>
    simp only [AFields.event] at hput ⊢
    rw [put_eq_none hp hv] at hput
    have o1 : OwnsMap (h ++ [HObj.map []]) h.length [] :=
      ⟨by simp [ptrMap, AMap.mapVals], AMap.sorted_nil, by simp [RepE], by simp [fpE]⟩
    rcases main _ _ _ o1 hput with ⟨h1, h2⟩ | ⟨t', h1, h2, h3, h4⟩
    · simp [aget_nil] at h1
    · rw [aget_nil] at h1
      simp at h1
      subst h1
      exact .inr ⟨none, .nilp, by simp [get, mapOf], h2, by simp [Reads], by simp [Reads]⟩

/-! ## C12 -/

theorem getLoop_panics_iff {h : Heap} : ∀ (path : List Bytes) (m : Option Nat), getLoop h m path = .panic ↔ NilOnTheWay h m path
  | [], m => by
    constructor
    · intro hg; simp [getLoop] at hg
    · rintro ⟨pre, x, y, rest, _, _, h1, _⟩; simp at h1
  | [k], m => by
    constructor
    · intro hg; simp [getLoop] at hg
    · rintro ⟨pre, x, y, rest, _, _, h1, _⟩
      cases pre with
      | nil => simp at h1
      | cons a as => cases as <;> simp at h1
  | k :: k2 :: ks, m => by
    simp only [getLoop]
    cases hl : (mapOf h m).lookup k with
    | none =>
      simp only [reduceCtorEq, false_iff]
      rintro ⟨pre, x, y, rest, m', q, h1, h2, h3, h4⟩
      cases pre with
      | nil =>
        simp only [List.nil_append, List.cons.injEq] at h1
        obtain ⟨rfl, rfl, rfl⟩ := h1
        simp only [Reaches] at h2
        subst h2
        simp [hl] at h3
      | cons a as =>
        simp only [List.cons_append, List.cons.injEq] at h1
        obtain ⟨rfl, h1⟩ := h1
        obtain ⟨q', c, i1, _⟩ := h2
        simp [hl] at i1
    | some q =>
      simp only
      cases hd : deref h q with
      | none =>
        simp only [true_iff]
        exact ⟨[], k, k2, ks, m, q, rfl, rfl, hl, hd⟩
      | some c =>
        simp only
        have key : NilOnTheWay h m (k :: k2 :: ks) ↔ NilOnTheWay h c.object (k2 :: ks) := by
          constructor
          · rintro ⟨pre, x, y, rest, m', q', h1, h2, h3, h4⟩
            cases pre with
            | nil =>
              simp only [List.nil_append, List.cons.injEq] at h1
              obtain ⟨rfl, rfl, rfl⟩ := h1
              simp only [Reaches] at h2
              subst h2
              rw [hl, Option.some.injEq] at h3
              subst h3
              simp [hd] at h4
            | cons a as =>
              simp only [List.cons_append, List.cons.injEq] at h1
              obtain ⟨rfl, h1⟩ := h1
              obtain ⟨q2, c2, i1, i2, i3⟩ := h2
              rw [hl, Option.some.injEq] at i1
              subst i1
              rw [hd, Option.some.injEq] at i2
              subst i2
              exact ⟨as, x, y, rest, m', q', h1, i3, h3, h4⟩
          · rintro ⟨pre, x, y, rest, m', q', h1, h2, h3, h4⟩
            exact ⟨k :: pre, x, y, rest, m', q', by simp [h1], ⟨q, c, hl, hd, h2⟩, h3, h4⟩
        rw [key]
        split
        · rename_i h0
          simp only [reduceCtorEq, false_iff]
          rintro ⟨pre, x, y, rest, m', q', h1, h2, h3, h4⟩
          have h0' : mapOf h c.object = [] := by simpa using h0
          cases pre with
          | nil =>
            simp only [Reaches] at h2
            subst h2
            simp [h0'] at h3
          | cons a as =>
            obtain ⟨q2, c2, i1, _⟩ := h2
            simp [h0'] at i1
        · exact getLoop_panics_iff (k2 :: ks) c.object

theorem not_on_the_way_of_empty {h : Heap} {m : Option Nat} (h0 : mapOf h m = []) (path : List Bytes) : ¬ NilOnTheWay h m path := by
  rintro ⟨pre, x, y, rest, m', q', h1, h2, h3, h4⟩
  cases pre with
  | nil =>
    simp only [Reaches] at h2
    subst h2
    simp [h0] at h3
  | cons a as =>
    obtain ⟨q2, c2, i1, _⟩ := h2
    simp [h0] at i1

theorem get_panics_path {h : Heap} {e : Event} {path : List Bytes} : get h e path = .panic ↔ NilOnTheWay h e path := by
  by_cases h0 : mapOf h e = []
  · constructor
    · intro hg
      cases path <;> simp [get, h0] at hg
    · exact fun hn => absurd hn (not_on_the_way_of_empty h0 path)
  · have : ¬ (mapOf h e).length = 0 := by simpa using h0
    cases path with
    | nil =>
      constructor
      · intro hg; simp [get, this, Heap.alloc] at hg
      · rintro ⟨pre, x, y, rest, _, _, h1, _⟩; simp at h1
    | cons k ks =>
      rw [← getLoop_panics_iff]
      simp only [get, this, if_false]
      cases getLoop h e (k :: ks) <;> simp

/-- **C12.** In every memory, with whatever sharing and cycles: `Get` panics exactly when a nil value is on the way, at a name of the key that is not the last one. -/
theorem get_panics_iff (h : Heap) (e : Event) (key : Bytes) : apiGet h e key = .panic ↔ NilOnTheWay h e (keyToPath key) := get_panics_path

/-- **C12.** And so does `Delete`. -/
theorem delete_panics_iff (h : Heap) (e : Event) (key : Bytes) : apiDelete h e key = .panic ↔ NilOnTheWay h e (keyToPath key) := by
  rw [← get_panics_path]
  unfold apiDelete
  cases hp : keyToPath key with
  | nil =>
    simp only [delete, reduceCtorEq, false_iff]
    rw [get_panics_path]
    rintro ⟨pre, x, y, rest, _, _, h1, _⟩
    simp at h1
  | cons k ks =>
    simp only [delete]
    split
    · rename_i h0
      simp [get, h0]
    · cases hg : get h e (k :: ks) with
      | panic => simp
      | ok r => simp only [reduceCtorEq, iff_false]; split <;> simp

theorem putLoop_fresh {p : Ptr} : ∀ (path : List Bytes) {h : Heap} {m : Nat}, h[m]? = some (.map []) → ∃ h', putLoop h (some m) path p = .ok (h', true)
  | [], h, m, _ => ⟨h, rfl⟩
  | [k], h, m, hm => ⟨_, by simp only [putLoop, mapWrite, hm]; rfl⟩
  | k :: k2 :: ks, h, m, hm => by
    have hml := lt_of_getElem? hm
    have h2m : (h ++ [HObj.map []] ++ [HObj.cell (objCell (some h.length))])[m]? = some (.map []) := by
      rw [List.getElem?_append_left (by simp; omega), List.getElem?_append_left hml, hm]
    simp only [putLoop, mapOf, hm, AMap.lookup, Heap.alloc, mapWrite, h2m]
    apply putLoop_fresh (k2 :: ks)
    rw [List.getElem?_set_ne (by omega), List.getElem?_append_left (by simp)]
    simp

theorem objects_reach {h : Heap} : ∀ {path : List Bytes} {m m' : Option Nat}, Through h m path m' → Reaches h m path m'
  | [], m, m', ht => ht
  | k :: ks, m, m', ht => by
    obtain ⟨q, c, h1, h2, h3, h4⟩ := ht
    exact ⟨q, c, h1, h2, objects_reach h4⟩

theorem putLoop_panics_iff {p : Ptr} : ∀ (path : List Bytes) {h : Heap} {m : Option Nat}, MapsAreMaps h m → (putLoop h m path p = .panic ↔
    (∃ pre x y rest m' q, path = pre ++ x :: y :: rest ∧ Through h m pre m' ∧ (mapOf h m').lookup x = some q ∧ deref h q = none) ∨ (∃ pre x rest, path = pre ++ x :: rest ∧ Through h m pre none))
  | [], h, m, _ => by
    constructor
    · intro hg; simp [putLoop] at hg
    · rintro (⟨pre, x, y, rest, _, _, h1, _⟩ | ⟨pre, x, rest, h1, _⟩) <;> simp at h1
  | [k], h, m, hw => by
    have h1 : ¬ ∃ pre x y rest m' q, [k] = pre ++ x :: y :: rest ∧ Through h m pre m' ∧ (mapOf h m').lookup x = some q ∧ deref h q = none := by
      rintro ⟨pre, x, y, rest, _, _, h1, _⟩
      cases pre with
      | nil => simp at h1
      | cons a as => cases as <;> simp at h1
    simp only [h1, false_or]
    cases m with
    | none =>
      simp only [putLoop, mapWrite, Res.map_panic, true_iff]
      exact ⟨[], k, [], rfl, rfl⟩
    | some a =>
      obtain ⟨es, he⟩ := hw.1 a rfl
      simp only [putLoop, mapWrite, he, Res.map_ok, reduceCtorEq, false_iff]
      rintro ⟨pre, x, rest, h1, h2⟩
      cases pre with
      | nil => simp [Through] at h2
      | cons b bs => cases bs <;> simp at h1
  | k :: k2 :: ks, h, m, hw => by
    simp only [putLoop]
    cases hl : (mapOf h m).lookup k with
    | none =>
      have h1 : ¬ ∃ pre x y rest m' q, k :: k2 :: ks = pre ++ x :: y :: rest ∧ Through h m pre m' ∧ (mapOf h m').lookup x = some q ∧ deref h q = none := by
        rintro ⟨pre, x, y, rest, m', q, h1, h2, h3, h4⟩
        cases pre with
        | nil =>
          simp only [List.nil_append, List.cons.injEq] at h1
          obtain ⟨rfl, rfl, rfl⟩ := h1
          simp only [Through] at h2
          subst h2
          simp [hl] at h3
        | cons a as =>
          simp only [List.cons_append, List.cons.injEq] at h1
          obtain ⟨rfl, h1⟩ := h1
          obtain ⟨q', c, i1, _⟩ := h2
          simp [hl] at i1
      simp only [h1, false_or, Heap.alloc]
      cases m with
      | none =>
        simp only [mapWrite, true_iff]
        exact ⟨[], k, k2 :: ks, rfl, rfl⟩
      | some a =>
        obtain ⟨es, he⟩ := hw.1 a rfl
        have hml := lt_of_getElem? he
        have h2m : (h ++ [HObj.map []] ++ [HObj.cell (objCell (some h.length))])[a]? = some (.map es) := by
          rw [List.getElem?_append_left (by simp; omega), List.getElem?_append_left hml, he]
        simp only [mapWrite, h2m]
        obtain ⟨h', hf⟩ := putLoop_fresh (p := p) (k2 :: ks) (h := (h ++ [HObj.map []] ++ [HObj.cell (objCell (some h.length))]).set a (.map (es.insert k (some (h ++ [HObj.map []]).length)))) (m := h.length) (by
          rw [List.getElem?_set_ne (by omega), List.getElem?_append_left (by simp)]
          simp)
        rw [hf]
        simp only [reduceCtorEq, false_iff]
        rintro ⟨pre, x, rest, h1, h2⟩
        cases pre with
        | nil => simp [Through] at h2
        | cons b bs =>
          simp only [List.cons_append, List.cons.injEq] at h1
          obtain ⟨rfl, h1⟩ := h1
          obtain ⟨q', c, i1, _⟩ := h2
          simp [hl] at i1
    | some q =>
      simp only
      cases hd : deref h q with
      | none =>
        simp only [true_iff]
        exact .inl ⟨[], k, k2, ks, m, q, rfl, rfl, hl, hd⟩
      | some c =>
        simp only
        have hw' : MapsAreMaps h c.object := by
          refine ⟨?_, hw.2⟩
          intro b hb
          obtain ⟨a, rfl, ha⟩ := deref_eq hd
          exact hw.2 a c b ha hb
        split
        · rename_i ht
          simp only [reduceCtorEq, false_iff]
          have hno : ∀ (as : List Bytes) (m' : Option Nat), ¬ Through h m (k :: as) m' := by
            rintro as m' ⟨q', c', i1, i2, i3, _⟩
            rw [hl, Option.some.injEq] at i1
            subst i1
            rw [hd, Option.some.injEq] at i2
            subst i2
            exact ht i3
          rintro (⟨pre, x, y, rest, m', q', h1, h2, h3, h4⟩ | ⟨pre, x, rest, h1, h2⟩)
          · cases pre with
            | nil =>
              simp only [List.nil_append, List.cons.injEq] at h1
              obtain ⟨rfl, rfl, rfl⟩ := h1
              simp only [Through] at h2
              subst h2
              rw [hl, Option.some.injEq] at h3
              subst h3
              simp [hd] at h4
            | cons a as =>
              simp only [List.cons_append, List.cons.injEq] at h1
              obtain ⟨rfl, h1⟩ := h1
              exact hno _ _ h2
          · cases pre with
            | nil =>
              simp only [Through] at h2
              subst h2
              simp [mapOf] at hl
            | cons a as =>
              simp only [List.cons_append, List.cons.injEq] at h1
              obtain ⟨rfl, h1⟩ := h1
              exact hno _ _ h2
        · rename_i ht
          have ht : c.type = .object := Classical.not_not.mp ht
          rw [putLoop_panics_iff (k2 :: ks) hw']
          constructor
          · rintro (⟨pre, x, y, rest, m', q', h1, h2, h3, h4⟩ | ⟨pre, x, rest, h1, h2⟩)
            · exact .inl ⟨k :: pre, x, y, rest, m', q', by simp [h1], ⟨q, c, hl, hd, ht, h2⟩, h3, h4⟩
            · exact .inr ⟨k :: pre, x, rest, by simp [h1], ⟨q, c, hl, hd, ht, h2⟩⟩
          · rintro (⟨pre, x, y, rest, m', q', h1, h2, h3, h4⟩ | ⟨pre, x, rest, h1, h2⟩)
            · cases pre with
              | nil =>
                simp only [List.nil_append, List.cons.injEq] at h1
                obtain ⟨rfl, rfl, rfl⟩ := h1
                simp only [Through] at h2
                subst h2
                rw [hl, Option.some.injEq] at h3
                subst h3
                simp [hd] at h4
              | cons a as =>
                simp only [List.cons_append, List.cons.injEq] at h1
                obtain ⟨rfl, h1⟩ := h1
                obtain ⟨q2, c2, i1, i2, i3, i4⟩ := h2
                rw [hl, Option.some.injEq] at i1
                subst i1
                rw [hd, Option.some.injEq] at i2
                subst i2
                exact .inl ⟨as, x, y, rest, m', q', h1, i4, h3, h4⟩
            · cases pre with
              | nil =>
                simp only [Through] at h2
                subst h2
                simp [mapOf] at hl
              | cons a as =>
                simp only [List.cons_append, List.cons.injEq] at h1
                obtain ⟨rfl, h1⟩ := h1
                obtain ⟨q2, c2, i1, i2, i3, i4⟩ := h2
                rw [hl, Option.some.injEq] at i1
                subst i1
                rw [hd, Option.some.injEq] at i2
                subst i2
                exact .inr ⟨as, x, rest, h1, i4⟩

/-- A nil map on the way means that nothing is there. -/
theorem get_below_nil_map {h : Heap} : ∀ (pre : List Bytes) {m : Option Nat} {x : Bytes} {rest : List Bytes}, Through h m pre none → getLoop h m (pre ++ x :: rest) = .ok none
  | [], m, x, rest, ht => by
    simp only [Through] at ht
    subst ht
    cases rest <;> simp [getLoop, mapOf]
  | k :: pre, m, x, rest, ht => by
    obtain ⟨q, c, h1, h2, h3, h4⟩ := ht
    obtain ⟨y, ys, hy⟩ : ∃ y ys, pre ++ x :: rest = y :: ys := by cases pre <;> simp
    have ih := get_below_nil_map pre (x := x) (rest := rest) h4
    rw [hy] at ih
    simp only [List.cons_append, hy, getLoop, h1, h2]
    split
    · rfl
    · exact ih

/-- **C12.** `Put` and `TryPut` of a non-nil value panic exactly when a nil value is on the way, or an object with a nil map. -/
theorem put_panics_iff {h : Heap} {e : Event} (hw : MapsAreMaps h e) (path : List Bytes) (a : Nat) (ow : Bool) :
    put h e path (some a) ow = .panic ↔ NilOnTheWay h e path ∨ NilMapOnTheWay h e path := by
  by_cases hp : path = []
  · subst hp
    simp only [put, List.length_nil, if_true, reduceCtorEq, false_iff]
    rintro (⟨pre, x, y, rest, _, _, h1, _⟩ | ⟨pre, x, rest, h1, _⟩) <;> simp at h1
  cases e with
  | none =>
    rw [put_eq_none hp (by simp), put_eq_some hp (by simp)]
    have hm : mapOf (h ++ [HObj.map []]) (some h.length) = [] := by simp [mapOf]
    have hg : get (h ++ [HObj.map []]) (some h.length) path = .ok (h ++ [HObj.map []], none) := by
      cases path with
      | nil => exact absurd rfl hp
      | cons k ks => simp [get, hm]
    obtain ⟨h', hf⟩ := putLoop_fresh (p := some a) path (h := h ++ [HObj.map []]) (m := h.length) (by simp)
    simp only [hg, hf, ne_eq, not_true, false_and, if_false, reduceCtorEq, false_iff]
    rintro (hn | ⟨pre, x, rest, h1, h2, h3⟩)
    · exact not_on_the_way_of_empty (by simp [mapOf]) path hn
    · cases pre with
      | nil => exact h2 rfl
      | cons b bs =>
        obtain ⟨q2, c2, i1, _⟩ := h3
        simp [mapOf] at i1
  | some m =>
    rw [put_eq_some hp (by simp)]
    cases hg : get h (some m) path with
    | panic => simp only [true_iff]; exact .inl (get_panics_path.mp hg)
    | ok r =>
      obtain ⟨h1, old⟩ := r
      have hnn : ¬ NilOnTheWay h (some m) path := fun hn => by rw [get_panics_path.mpr hn] at hg; simp at hg
      have h1e : h1 = h := by
        cases path with
        | nil => exact absurd rfl hp
        | cons x xs =>
          simp only [get] at hg
          split at hg
          · simp only [Res.ok.injEq, Prod.mk.injEq] at hg; exact hg.1.symm
          · cases hx : getLoop h (some m) (x :: xs) with
            | panic => simp [hx] at hg
            | ok q => simp [hx] at hg; exact hg.1.symm
      subst h1e
      simp only [hnn, false_or]
      have hl : putLoop h1 (some m) path (some a) = .panic ↔ NilMapOnTheWay h1 (some m) path := by
        rw [putLoop_panics_iff path hw]
        constructor
        · rintro (⟨pre, x, y, rest, m', q, i1, i2, i3, i4⟩ | ⟨pre, x, rest, i1, i2⟩)
          · exact absurd ⟨pre, x, y, rest, m', q, i1, objects_reach i2, i3, i4⟩ hnn
          · refine ⟨pre, x, rest, i1, ?_, i2⟩
            rintro rfl
            simp [Through] at i2
        · rintro ⟨pre, x, rest, i1, i2, i3⟩
          exact .inr ⟨pre, x, rest, i1, i3⟩
      rw [← hl]
      split
      · rename_i hc
        simp only [reduceCtorEq, false_iff]
        intro hpan
        obtain ⟨pre, x, rest, i1, i2, i3⟩ := hl.mp hpan
        have := get_below_nil_map pre (x := x) (rest := rest) i3
        subst i1
        apply hc.1
        cases pre with
        | nil => exact absurd rfl i2
        | cons b bs =>
          simp only [List.cons_append] at hg this
          simp only [get] at hg
          split at hg
          · simp only [Res.ok.injEq, Prod.mk.injEq] at hg; exact hg.2.symm
          · rw [this] at hg; simp at hg; exact hg.symm
      · cases hx : putLoop h1 (some m) path (some a) with
        | panic => simp
        | ok r =>
          obtain ⟨h2, b⟩ := r
          cases b <;> simp

theorem api_put_panics_iff {h : Heap} {e : Event} (hw : MapsAreMaps h e) (key : Bytes) (v : Ptr) :
    (apiPut h e key v = .panic ↔ v ≠ none ∧ (NilOnTheWay h e (keyToPath key) ∨ NilMapOnTheWay h e (keyToPath key))) ∧
    (apiTryPut h e key v = .panic ↔ v ≠ none ∧ (NilOnTheWay h e (keyToPath key) ∨ NilMapOnTheWay h e (keyToPath key))) := by
  cases v with
  | none =>
    simp only [apiPut, apiTryPut, put]
    by_cases hp : (keyToPath key).length = 0 <;> simp [hp]
  | some a =>
    simp only [apiPut, apiTryPut, ne_eq, reduceCtorEq, not_false_eq_true, true_and]
    exact ⟨put_panics_iff hw _ a true, put_panics_iff hw _ a false⟩

/-- `{"a": null}` decoded from JSON: a nil value on the way to `a.b`, not to `a`. -/
example : NilOnTheWay [.map [(lit "a", none)]] (some 0) (keyToPath (lit "a.b")) ∧ ¬ NilOnTheWay [.map [(lit "a", none)]] (some 0) (keyToPath (lit "a")) := by
  refine ⟨⟨[], lit "a", lit "b", [], some 0, none, by decide, rfl, by decide, rfl⟩, ?_⟩
  rw [← get_panics_iff]
  have : apiGet [.map [(lit "a", none)]] (some 0) (lit "a") = .ok ([.map [(lit "a", none)]], none) := rfl
  simp [this]

/-- `Object(nil)` on the way. -/
example : NilMapOnTheWay [.map [(lit "a", some 1)], .cell (objCell none)] (some 0) (keyToPath (lit "a.b")) ∧ MapsAreMaps [.map [(lit "a", some 1)], .cell (objCell none)] (some 0) := by
  refine ⟨⟨[lit "a"], lit "b", [], by decide, by simp, some 1, objCell none, by decide, rfl, rfl, rfl⟩, ?_, ?_⟩
  · intro m hm
    simp only [Option.some.injEq] at hm
    subst hm
    exact ⟨_, rfl⟩
  · intro a c m ha hm
    rcases a with _ | _ | a <;> simp at ha
    subst ha
    simp [objCell] at hm

/-- A value of the event put elsewhere in it: `Put("b", Get("a"))`, and what is at `a.x` is what it was. -/
example : ∃ h' e', apiPut [.cell (strCell (lit "v")), .map [(lit "a", some 3)], .map [(lit "x", some 0)], .cell (objCell (some 2))] (some 1) (lit "b") (some 3) = .ok (h', e', none, none) ∧
    ∃ p x, apiGet h' e' (lit "a.x") = .ok (h', p) ∧ Reads h' p x := by
  have ho : Owns [.cell (strCell (lit "v")), .map [(lit "a", some 3)], .map [(lit "x", some 0)], .cell (objCell (some 2))] (some (1, [(lit "a", .obj 3 2 [(lit "x", .leaf 0 (.str (lit "v")))])])) := by
    refine ⟨rfl, by simp [AMap.Sorted], ?_, by decide⟩
    simp [RepE, Rep, ptrMap, AMap.mapVals, ptr, scalarCell, AMap.Sorted]
  have hw : put [.cell (strCell (lit "v")), .map [(lit "a", some 3)], .map [(lit "x", some 0)], .cell (objCell (some 2))] (some 1) (keyToPath (lit "b")) (some 3) true = .ok (_, some 1, none, none) := rfl
  refine ⟨_, _, hw, ?_⟩
  rcases put_other_keys_any (k := lit "b") (k' := lit "a.x") ho hw (by simp only [Related]; decide) with ⟨h1, _⟩ | ⟨p, x, h1, h2, h3, h4⟩
  · have : apiGet [.cell (strCell (lit "v")), .map [(lit "a", some 3)], .map [(lit "x", some 0)], .cell (objCell (some 2))] (some 1) (lit "a.x") = .ok (_, some 0) := rfl
    simp only [AFields.event] at h1
    rw [this] at h1
    simp at h1
  · exact ⟨p, x, h2, h4⟩

/-! ## C04 -/

theorem getLoop_empty {h : Heap} {m : Option Nat} (h0 : (mapOf h m).length = 0) : ∀ path, getLoop h m path = .ok none
  | [] => rfl
  | [k] => by simp [getLoop, List.length_eq_zero_iff.mp h0]
  | k :: k2 :: ks => by simp [getLoop, List.length_eq_zero_iff.mp h0]

theorem mapsAreMaps_below {h : Heap} {e : Event} (hw : MapsAreMaps h e) {q : Ptr} {c : Cell} (hd : deref h q = some c) : MapsAreMaps h c.object := by
  refine ⟨fun m hm => ?_, hw.2⟩
  cases q with
  | none => simp [deref] at hd
  | some a =>
    refine hw.2 a c m ?_ hm
    simp only [deref] at hd
    split at hd <;> simp_all

theorem putLoop_false_iff {p : Ptr} : ∀ (path : List Bytes), path ≠ [] → ∀ {h h' : Heap} {m : Option Nat} {b : Bool}, MapsAreMaps h m → putLoop h m path p = .ok (h', b) →
    (b = false ↔ ∃ q r ptr c, path = q ++ r ∧ q ≠ [] ∧ r ≠ [] ∧ getLoop h m q = .ok ptr ∧ deref h ptr = some c ∧ c.type ≠ .object)
  | [], hp, _, _, _, _, _, _ => absurd rfl hp
  | [k], _, h, h', m, b, hw, hput => by
    simp only [putLoop] at hput
    cases hm : mapWrite h m k p with
    | panic => rw [hm] at hput; simp at hput
    | ok h2 =>
      rw [hm] at hput
      simp only [Res.map_ok, Res.ok.injEq, Prod.mk.injEq] at hput
      obtain ⟨_, rfl⟩ := hput
      simp only [Bool.true_eq_false, false_iff]
      rintro ⟨q, r, ptr, c, h1, h2, h3, _⟩
      cases q with
      | nil => exact h2 rfl
      | cons a as => cases as <;> simp_all
  | k :: k2 :: ks, _, h, h', m, b, hw, hput => by
    simp only [putLoop] at hput
    cases hl : (mapOf h m).lookup k with
    | none =>
      rw [hl] at hput
      have hb : b = true := by
        cases m with
        | none => simp [Heap.alloc, mapWrite] at hput
        | some a =>
          obtain ⟨es, he⟩ := hw.1 a rfl
          have hml := lt_of_getElem? he
          have h2m : (h ++ [HObj.map []] ++ [HObj.cell (objCell (some h.length))])[a]? = some (.map es) := by
            rw [List.getElem?_append_left (by simp; omega), List.getElem?_append_left hml, he]
          simp only [Heap.alloc, mapWrite, h2m] at hput
          obtain ⟨h'', hf⟩ := putLoop_fresh (p := p) (k2 :: ks) (h := (h ++ [HObj.map []] ++ [HObj.cell (objCell (some h.length))]).set a (.map (es.insert k (some (h ++ [HObj.map []]).length)))) (m := h.length) (by
            rw [List.getElem?_set_ne (by omega), List.getElem?_append_left (by simp)]
            simp)
          rw [hf] at hput
          simp only [Res.ok.injEq, Prod.mk.injEq] at hput
          exact hput.2.symm
      subst hb
      simp only [Bool.true_eq_false, false_iff]
      rintro ⟨q, r, ptr, c, h1, h2, h3, h4, h5, _⟩
      cases q with
      | nil => exact h2 rfl
      | cons a as =>
        simp only [List.cons_append, List.cons.injEq] at h1
        obtain ⟨rfl, h1⟩ := h1
        have : getLoop h m (k :: as) = .ok none := by cases as <;> simp [getLoop, hl]
        rw [this] at h4
        cases h4
        simp [deref] at h5
    | some inner =>
      rw [hl] at hput
      dsimp only at hput
      cases hd : deref h inner with
      | none => rw [hd] at hput; cases hput
      | some c =>
        rw [hd] at hput
        dsimp only at hput
        by_cases ht : c.type ≠ .object
        · rw [if_pos ht] at hput
          simp only [Res.ok.injEq, Prod.mk.injEq] at hput
          obtain ⟨_, rfl⟩ := hput
          simp only [true_iff]
          exact ⟨[k], k2 :: ks, inner, c, rfl, by simp, by simp, by simp [getLoop, hl], hd, ht⟩
        · rw [if_neg ht] at hput
          rw [putLoop_false_iff (k2 :: ks) (by simp) (mapsAreMaps_below hw hd) hput]
          have step : ∀ x xs, getLoop h m (k :: x :: xs) = getLoop h c.object (x :: xs) := by
            intro x xs
            simp only [getLoop, hl, hd]
            by_cases h0 : (mapOf h c.object).length = 0
            · rw [if_pos h0, getLoop_empty h0]
            · rw [if_neg h0]
          constructor
          · rintro ⟨q, r, ptr, c', h1, h2, h3, h4, h5, h6⟩
            cases q with
            | nil => exact absurd rfl h2
            | cons x xs => exact ⟨k :: x :: xs, r, ptr, c', by rw [h1]; rfl, by simp, h3, by rw [step]; exact h4, h5, h6⟩
          · rintro ⟨q, r, ptr, c', h1, h2, h3, h4, h5, h6⟩
            cases q with
            | nil => exact absurd rfl h2
            | cons a as =>
              simp only [List.cons_append, List.cons.injEq] at h1
              obtain ⟨rfl, h1⟩ := h1
              cases as with
              | nil =>
                simp only [getLoop, hl, Option.join_some, Res.ok.injEq] at h4
                subst h4
                rw [hd] at h5
                cases h5
                exact absurd h6 ht
              | cons x xs =>
                rw [step] at h4
                exact ⟨x :: xs, r, ptr, c', h1, by simp, h3, h4, h5, h6⟩

/-- C04, for any value and any event. `Put` of a value that is not nil, shared or part of the event or not, on an event in any memory in which no nil is on the way (C12): it returns; the error is `ErrEmptyKey` exactly when the key
names nothing, `ErrTargetKeyNotObject` exactly when some proper prefix of the path holds (according to `Get`) a value that is not an object, there is no other error, and on success the returned old value is what `Get` returned before. -/
theorem put_outcome_any {h : Heap} {e : Event} (hw : MapsAreMaps h e) {v : Ptr} (hv : v ≠ none) (k : Bytes) (h1 : ¬ NilOnTheWay h e (keyToPath k)) (h2 : ¬ NilMapOnTheWay h e (keyToPath k)) :
    ∃ h' e' old err, apiPut h e k v = .ok (h', e', old, err) ∧
      (err = some .emptyKey ↔ keyToPath k = []) ∧
      (err = some (.notObject (keyToPath k)) ↔ ∃ p q ptr c, keyToPath k = p ++ q ∧ p ≠ [] ∧ q ≠ [] ∧ get h e p = .ok (h, ptr) ∧ deref h ptr = some c ∧ c.type ≠ .object) ∧
      (err = none ∨ err = some .emptyKey ∨ err = some (.notObject (keyToPath k))) ∧
      (err = none → apiGet h e k = .ok (h, old)) := by
  have hnp : apiPut h e k v ≠ .panic := fun hp => by
    rcases ((api_put_panics_iff hw k v).1.1 hp).2 with x | x
    · exact h1 x
    · exact h2 x
  unfold apiPut apiGet at *
  generalize keyToPath k = path at *
  by_cases hp : path = []
  · subst hp
    refine ⟨h, e, none, some .emptyKey, by simp [put], by simp, ?_, by simp, by simp⟩
    simp only [Option.some.injEq, reduceCtorEq, false_iff]
    rintro ⟨p, q, _, _, h3, h4, _⟩
    cases p <;> simp at h3 h4
  cases e with
  | none =>
    rw [put_eq_none hp hv, put_eq_some hp hv]
    have hm : mapOf (h ++ [HObj.map []]) (some h.length) = [] := by simp [mapOf]
    have hg : get (h ++ [HObj.map []]) (some h.length) path = .ok (h ++ [HObj.map []], none) := by
      cases path with
      | nil => exact absurd rfl hp
      | cons k ks => simp [get, hm]
    obtain ⟨h', hf⟩ := putLoop_fresh (p := v) path (h := h ++ [HObj.map []]) (m := h.length) (by simp)
    refine ⟨h', some h.length, none, none, by simp [hg, hf], by simp [hp], ?_, by simp, fun _ => by simp [get, mapOf]⟩
    simp only [reduceCtorEq, false_iff]
    rintro ⟨p, q, ptr, c, _, _, _, h3, h4, _⟩
    simp only [get, mapOf, List.length_nil, if_true, Res.ok.injEq, Prod.mk.injEq, true_and] at h3
    subst h3
    simp [deref] at h4
  | some m =>
    rw [put_eq_some hp hv] at hnp ⊢
    have eqg : ∀ p, p ≠ [] → get h (some m) p = (getLoop h (some m) p).map (h, ·) := by
      intro p hp
      unfold get
      by_cases h0 : (mapOf h (some m)).length = 0
      · rw [if_pos h0, getLoop_empty h0]; rfl
      · rw [if_neg h0]; cases p with
        | nil => exact absurd rfl hp
        | cons _ _ => rfl
    rw [eqg path hp] at hnp ⊢
    cases hg : getLoop h (some m) path with
    | panic => rw [hg] at hnp; exact absurd rfl hnp
    | ok old =>
      rw [hg] at hnp
      simp only [Res.map_ok, Bool.true_eq_false, and_false, if_false] at hnp ⊢
      cases hl : putLoop h (some m) path v with
      | panic => rw [hl] at hnp; exact absurd rfl hnp
      | ok r =>
        obtain ⟨h', b⟩ := r
        have key := putLoop_false_iff path hp hw hl
        have key' : b = false ↔ ∃ p q ptr c, path = p ++ q ∧ p ≠ [] ∧ q ≠ [] ∧ get h (some m) p = .ok (h, ptr) ∧ deref h ptr = some c ∧ c.type ≠ .object := by
          rw [key]
          constructor
          · rintro ⟨q, r, ptr, c, h1, h2, h3, h4, h5⟩
            exact ⟨q, r, ptr, c, h1, h2, h3, by rw [eqg q h2, h4]; rfl, h5⟩
          · rintro ⟨q, r, ptr, c, h1, h2, h3, h4, h5⟩
            rw [eqg q h2] at h4
            cases hq : getLoop h (some m) q with
            | panic => rw [hq] at h4; cases h4
            | ok x => rw [hq] at h4; cases h4; exact ⟨q, r, _, c, h1, h2, h3, hq, h5⟩
        cases b with
        | true =>
          refine ⟨h', some m, old, none, rfl, by simp [hp], ?_, by simp, fun _ => rfl⟩
          rw [← key']; simp
        | false =>
          refine ⟨h', some m, none, some (.notObject path), rfl, by simp [hp], ?_, by simp, by simp⟩
          rw [← key']; simp

/-- A value of the event itself is put below one of its strings: `Put("a.x.y", Get("a"))` fails. -/
example : MapsAreMaps [.cell (strCell (lit "v")), .map [(lit "a", some 3)], .map [(lit "x", some 0)], .cell (objCell (some 2))] (some 1) ∧
    ¬ NilOnTheWay [.cell (strCell (lit "v")), .map [(lit "a", some 3)], .map [(lit "x", some 0)], .cell (objCell (some 2))] (some 1) (keyToPath (lit "a.x.y")) ∧
    ¬ NilMapOnTheWay [.cell (strCell (lit "v")), .map [(lit "a", some 3)], .map [(lit "x", some 0)], .cell (objCell (some 2))] (some 1) (keyToPath (lit "a.x.y")) ∧
    ∃ h' e', apiPut [.cell (strCell (lit "v")), .map [(lit "a", some 3)], .map [(lit "x", some 0)], .cell (objCell (some 2))] (some 1) (lit "a.x.y") (some 3) =
      .ok (h', e', none, some (.notObject [lit "a", lit "x", lit "y"])) := by
  have hw : MapsAreMaps [.cell (strCell (lit "v")), .map [(lit "a", some 3)], .map [(lit "x", some 0)], .cell (objCell (some 2))] (some 1) := by
    constructor
    · intro m hm; cases hm; exact ⟨_, rfl⟩
    · intro a c m ha hm
      rcases a with _ | _ | _ | _ | a <;> simp at ha
      · subst ha; simp [strCell] at hm
      · subst ha; simp only [objCell, Option.some.injEq] at hm; subst hm; exact ⟨_, rfl⟩
  have hput : apiPut [.cell (strCell (lit "v")), .map [(lit "a", some 3)], .map [(lit "x", some 0)], .cell (objCell (some 2))] (some 1) (lit "a.x.y") (some 3) =
      .ok (_, some 1, none, some (.notObject [lit "a", lit "x", lit "y"])) := rfl
  have hn : ¬ (some 3 ≠ none ∧ _) := fun x => by
    have h1 := (api_put_panics_iff hw (lit "a.x.y") (some 3)).1.2 x
    rw [hput] at h1
    cases h1
  exact ⟨hw, fun h => hn ⟨by simp, .inl h⟩, fun h => hn ⟨by simp, .inr h⟩, _, _, hput⟩

end Sawmill
