import Verif.Lemmas.History
/-!
# C01–C08, C11–C14: the event API

Theorems named without an ownership hypothesis hold on every heap, with any sharing between values.
-/

namespace Sawmill
open ATree

/-! ## A concrete heap used for the non-vacuity examples -/

/-- `{"a": {"b": "x"}, "l": [null], "n": 7}` -/
def sampleFields : AMap Val :=
  [(lit "a", .obj [(lit "b", .scalar (.str (lit "x")))]), (lit "l", .arr [.scalar .null]), (lit "n", .scalar (.int 7))]

/-- The heap in which those fields were built, with the map of an event holding them, and one more string value. -/
def sampleHeap : Heap × AFields × ATree :=
  let (h, ts) := buildE [] sampleFields
  let (h, m) := h.alloc (.map (ptrMap ts))
  let (h, t) := build h (.scalar (.str (lit "new")))
  (h, some (m, ts), t)

theorem sample_owns : Owns sampleHeap.1 sampleHeap.2.1 ∧ Rep sampleHeap.1 sampleHeap.2.2 ∧ sampleHeap.2.2.fp.Nodup ∧
    (∀ a ∈ sampleHeap.2.2.fp, a ∉ sampleHeap.2.1.fp) ∧ sampleHeap.2.1.erase = some sampleFields := by
  refine ⟨?_, ?_, ?_, ?_, ?_⟩
  · simp only [sampleHeap, sampleFields, buildE, build, buildL, Heap.alloc, Owns, RepE, Rep, RepL, fpE, fpL, fp, ptrMap, AMap.mapVals, ptr]
    refine ⟨by decide, by decide, ?_, by decide⟩
    simp [AMap.Sorted]
  · simp only [sampleHeap, sampleFields, buildE, build, buildL, Heap.alloc, Rep]; decide
  · simp [sampleHeap, sampleFields, buildE, build, buildL, Heap.alloc, fp]
  · simp [sampleHeap, sampleFields, buildE, build, buildL, Heap.alloc, fp]
  · simp [sampleHeap, sampleFields, buildE, build, buildL, Heap.alloc, AFields.erase, eraseE, eraseL, ATree.erase]

/-! ## C01 -/

/-- C01. After a successful `Put` of a non-nil value, `Get` of the same key returns that very pointer.  Holds for every heap without dangling
references in which no map contains itself, whatever is shared, and even if this `Put` creates a cycle. -/
theorem get_after_put {h h' : Heap} {e e' : Event} {k : Bytes} {val old : Ptr} {rank : Nat → Nat}
    (hc : Closed h) (he : e.In h) (hr : Ranked rank h) (hv : val ≠ none)
    (hput : apiPut h e k val = .ok (h', e', old, none)) : apiGet h' e' k = .ok (h', val) := by
  unfold apiPut at hput
  unfold apiGet
  generalize keyToPath k = path at *
  by_cases hp : path = []
  · subst hp; simp [put] at hput
  -- reduce to an event with a map
  have main : ∀ (h : Heap) (m : Nat) (rank : Nat → Nat), Closed h → m < h.length → Ranked rank h →
      put h (some m) path val true = .ok (h', e', old, none) → get h' e' path = .ok (h', val) := by
    intro h m rank hc hm hr hput
    rw [put_eq_some hp hv] at hput
    cases hg : get h (some m) path with
    | panic => simp [hg] at hput
    | ok r =>
      obtain ⟨h1, o⟩ := r
      have := get_ok_heap hp hg
      subst this
      simp only [hg, Bool.true_eq_false, and_false, if_false] at hput
      cases hl : putLoop h1 (some m) path val with
      | panic => simp [hl] at hput
      | ok r =>
        obtain ⟨h2, b⟩ := r
        cases b with
        | false => simp [hl] at hput
        | true =>
          simp only [hl, Res.ok.injEq, Prod.mk.injEq] at hput
          obtain ⟨rfl, rfl, _, _⟩ := hput
          obtain ⟨_, _, i3, i4⟩ := putLoop_get path hp hc hr hm hl
          have hne : (mapOf h2 (some m)).length ≠ 0 := by simpa using i4
          cases path with
          | nil => exact absurd rfl hp
          | cons a as => simp [get, hne, i3]
  cases e with
  | some m => exact main h m rank hc (he m rfl) hr hput
  | none =>
    rw [put_eq_none hp hv] at hput
    refine main _ h.length (fun x => rank x) ?_ (by simp) ?_ hput
    · intro a c m ha hm
      rcases Nat.lt_or_ge a h.length with hl | hl
      · rw [List.getElem?_append_left hl] at ha
        have := hc a c m ha hm
        simp; omega
      · rw [List.getElem?_append_right hl] at ha
        cases hx : a - h.length with
        | zero => simp [hx] at ha
        | succ n => simp [hx] at ha
    · intro m es kk p c m' hm hl hd hco
      have hml : m < h.length := by
        rcases Nat.lt_or_ge m h.length with h1 | h1
        · exact h1
        · rw [List.getElem?_append_right h1] at hm
          cases hx : m - h.length with
          | zero => simp [hx] at hm; subst hm; simp at hl
          | succ n => simp [hx] at hm
      rw [List.getElem?_append_left hml] at hm
      obtain ⟨pa, rfl, hpa⟩ := deref_eq hd
      have hpl : pa < h.length := by
        rcases Nat.lt_or_ge pa h.length with h1 | h1
        · exact h1
        · rw [List.getElem?_append_right h1] at hpa
          cases hx : pa - h.length with
          | zero => simp [hx] at hpa
          | succ n => simp [hx] at hpa
      rw [List.getElem?_append_left hpl] at hpa
      exact hr m es kk (some pa) c m' hm hl (by simp [deref, hpa]) hco

/-- The hypotheses of `get_after_put` hold with sharing: one object stored under two names. -/
example : let h : Heap := [.map [(lit "a", some 2), (lit "b", some 2)], .map [], .cell (objCell (some 1)), .cell (strCell (lit "x"))]
    Closed h ∧ Event.In (some 0) h ∧ Ranked (fun m => if m = 0 then 1 else 0) h ∧
    ∃ h' e' old, apiPut h (some 0) (lit "b.c") (some 3) = .ok (h', e', old, none) := by
  refine ⟨?_, ?_, ?_, ?_⟩
  · intro a c m ha hm
    match a, ha with
    | 2, ha => simp at ha; subst ha; simp [objCell] at hm; subst hm; simp
    | 3, ha => simp at ha; subst ha; simp [strCell] at hm
  · intro m hm; cases hm; simp
  · intro m es k p c m' hm hl hd hco
    match m, hm with
    | 0, hm =>
      simp at hm; subst hm
      obtain ⟨pa, rfl, hpa⟩ := deref_eq hd
      match pa, hpa with
      | 2, hpa => simp at hpa; subst hpa; simp [objCell] at hco; subst hco; simp
      | 3, hpa => simp at hpa; subst hpa; simp [strCell] at hco
    | 1, hm => simp at hm; subst hm; simp at hl
    | 2, hm => simp at hm
    | 3, hm => simp at hm
    | n + 4, hm => simp at hm
  · exact ⟨_, _, _, rfl⟩

/-- Why C01 excludes events that contain themselves: after `Put("a", Get("."))` a successful `Put("a.a", v)` is not seen by `Get("a.a")`.
(A run of the model from a new event.) -/
theorem get_after_put_fails_on_cycle : ∃ h0 p0 h1 e1 h2 r h3 e3 o3 h4 v h5 e5 o5,
    Heap.alloc [] (.cell (strCell (lit "x"))) = (h0, p0) ∧
    apiPut h0 newEvent (lit "x") (some p0) = .ok (h1, e1, none, none) ∧
    apiGet h1 e1 (lit ".") = .ok (h2, r) ∧
    apiPut h2 e1 (lit "a") r = .ok (h3, e3, o3, none) ∧
    Heap.alloc h3 (.cell (strCell (lit "v"))) = (h4, v) ∧
    apiPut h4 e3 (lit "a.a") (some v) = .ok (h5, e5, o5, none) ∧
    apiGet h5 e5 (lit "a.a") = .ok (h5, none) :=
  ⟨_, _, _, _, _, _, _, _, _, _, _, _, _, _, rfl, rfl, rfl, rfl, rfl, rfl, rfl⟩

/-! ## C02 -/

/-- C02. A successful `Put` changes no unrelated key: `Get` returns the same pointer, and what is seen there is the same. -/
theorem put_other_keys {h h' : Heap} {f : AFields} {t : ATree} {e' : Event} {old : Ptr} {k k' : Bytes}
    (o : Owns h f) (ht : Rep h t) (hd : t.fp.Nodup) (hdis : ∀ a ∈ t.fp, a ∉ f.fp)
    (hput : apiPut h f.event k t.ptr = .ok (h', e', old, none))
    (hk : ¬ Related (keyToPath k) (keyToPath k')) :
    (apiGet h f.event k' = .panic ∧ apiGet h' e' k' = .panic) ∨
    ∃ p v, apiGet h f.event k' = .ok (h, p) ∧ apiGet h' e' k' = .ok (h', p) ∧ Reads h p v ∧ Reads h' p v := by
  unfold apiPut at hput
  unfold apiGet
  generalize keyToPath k = path at *
  generalize hq : keyToPath k' = q at *
  have hp : path ≠ [] := by rintro rfl; exact hk (.inl List.nil_prefix)
  have hqn : q ≠ [] := by rintro rfl; exact hk (.inr List.nil_prefix)
  by_cases hn : t = .nilp
  · -- a nil value: nothing happens
    subst hn
    have : path.length ≠ 0 := by simpa using hp
    simp [put, this, ptr] at hput
    obtain ⟨rfl, rfl, rfl⟩ := hput
    have := get_spec o q
    cases hg : Spec.getFields f.erase q with
    | panic => simp only [hg] at this; exact .inl ⟨this, this⟩
    | ok v =>
      simp only [hg] at this
      obtain ⟨h1, t1, k1, k2, k3, k4, k5, k6⟩ := this
      have := k6 hqn
      subst this
      exact .inr ⟨t1.ptr, v, k1, k1, k3 ▸ rep_reads t1 k2, k3 ▸ rep_reads t1 k2⟩
  have hv : t.ptr ≠ none := fun hc => hn (ptr_eq_none.1 hc)
  have main : ∀ (h : Heap) (m : Nat) (es : AMap ATree), OwnsMap h m es → Rep h t → (∀ a ∈ t.fp, a ∉ m :: fpE es) →
      put h (some m) path t.ptr true = .ok (h', e', old, none) →
      (aget es q = .panic ∧ get h' e' q = .panic) ∨
      ∃ t', aget es q = .ok t' ∧ get h' e' q = .ok (h', t'.ptr) ∧ Rep h t' ∧ Rep h' t' := by
    intro h m es o ht hdis hput
    rw [put_eq_some hp hv, get_spec' o path hp] at hput
    cases hg : aget es path with
    | panic => simp [hg] at hput
    | ok told =>
      simp only [hg, Res.map_ok, Bool.true_eq_false, and_false, if_false] at hput
      have hs := putLoop_spec path hp o ht hd hdis
      cases ha : astore h.length es path t with
      | panic => simp only [ha] at hs; simp [hs] at hput
      | ok r =>
        cases r with
        | none => simp only [ha] at hs; simp [hs] at hput
        | some es' =>
          simp only [ha] at hs
          obtain ⟨h2, p1, p2, p3, p4⟩ := hs
          simp only [p1, Res.ok.injEq, Prod.mk.injEq] at hput
          obtain ⟨rfl, rfl, _, _⟩ := hput
          have he := aget_astore_other ha hk
          have hg' := get_spec' p2 q hqn
          rw [he] at hg'
          cases hq : aget es q with
          | panic => exact .inl ⟨rfl, by rw [hg', hq]; rfl⟩
          | ok t' =>
            exact .inr ⟨t', rfl, by rw [hg', hq]; rfl, (aget_sub o.rep hq).1, (aget_sub p2.rep (he.trans hq)).1⟩
  cases f with
  | some f =>
    obtain ⟨m, es⟩ := f
    have om : OwnsMap h m es := ⟨o.1, o.2.1, o.2.2.1, o.2.2.2⟩
    have hg0 := get_spec' om q hqn
    rcases main h m es om ht hdis hput with ⟨h1, h2⟩ | ⟨t', h1, h2, h3, h4⟩
    · exact .inl ⟨by simp only [AFields.event, hg0, h1]; rfl, h2⟩
    · exact .inr ⟨t'.ptr, t'.erase, by simp only [AFields.event, hg0, h1]; rfl, h2, rep_reads t' h3, rep_reads t' h4⟩
  | none =>
    simp only [AFields.event] at hput ⊢
    rw [put_eq_none hp hv] at hput
    have fr := frame_alloc h [HObj.map []]
    have o1 : OwnsMap (h ++ [HObj.map []]) h.length [] :=
      ⟨by simp [ptrMap, AMap.mapVals], AMap.sorted_nil, by simp [RepE], by simp [fpE]⟩
    rcases main _ _ _ o1 (rep_frame0 fr ht) (by
      intro a ha hc
      simp only [fpE, List.mem_singleton] at hc
      have := fp_lt t ht a ha
      omega) hput with ⟨h1, h2⟩ | ⟨t', h1, h2, h3, h4⟩
    · simp [aget_nil] at h1
    · rw [aget_nil] at h1
      simp at h1
      subst h1
      exact .inr ⟨none, .nilp, by simp [get, mapOf], h2, by simp [Reads], by simp [Reads]⟩

example : ¬ Related (keyToPath (lit "a.b")) (keyToPath (lit "a.c.d")) := by
  simp only [Related]; decide

/-! ## C03 -/

/-- C03. A `Put` or `TryPut` that returns an error has changed nothing at all: same heap, same event. Every heap without dangling references. -/
theorem put_error_atomic {h h' : Heap} {e e' : Event} {path : List Bytes} {val old : Ptr} {ow : Bool} {err : PutErr}
    (hc : Closed h) (he : e.In h) (hput : put h e path val ow = .ok (h', e', old, some err)) : h' = h ∧ e' = e := by
  by_cases hp : path = []
  · subst hp; simp [put] at hput; exact ⟨hput.1.symm, hput.2.1.symm⟩
  by_cases hv : val = none
  · have : path.length ≠ 0 := by simpa using hp
    simp [put, this, hv] at hput
  cases e with
  | some m =>
    rw [put_eq_some hp hv] at hput
    cases hg : get h (some m) path with
    | panic => simp [hg] at hput
    | ok r =>
      obtain ⟨h1, o⟩ := r
      have := get_ok_heap hp hg
      subst this
      simp only [hg] at hput
      split at hput
      · simp at hput; exact ⟨hput.1.symm, hput.2.1.symm⟩
      · cases hl : putLoop h1 (some m) path val with
        | panic => simp [hl] at hput
        | ok r =>
          obtain ⟨h2, b⟩ := r
          cases b with
          | true => simp [hl] at hput
          | false =>
            simp only [hl, Res.ok.injEq, Prod.mk.injEq] at hput
            obtain ⟨rfl, rfl, _⟩ := hput
            exact ⟨putLoop_false path hc (fun a ha => he a ha) hl, rfl⟩
  | none =>
    exfalso
    rw [put_eq_none hp hv, put_eq_some hp hv] at hput
    rw [get_empty (by simp [mapOf])] at hput
    simp only [ne_eq, not_true_eq_false, false_and, if_false] at hput
    cases hl : putLoop (h ++ [HObj.map []]) (some h.length) path val with
    | panic => simp [hl] at hput
    | ok r =>
      obtain ⟨h2, b⟩ := r
      cases b with
      | true => simp [hl] at hput
      | false => exact putLoop_empty path (by simp) hl

example : ∃ err, put sampleHeap.1 (AFields.event sampleHeap.2.1) [lit "n", lit "x"] (some 0) true = .ok (sampleHeap.1, AFields.event sampleHeap.2.1, none, some err) := by
  refine ⟨.notObject [lit "n", lit "x"], ?_⟩
  simp only [sampleHeap, sampleFields, buildE, build, buildL, Heap.alloc]
  decide

/-! ## C04 -/

/-- C04. `Put` of a non-nil value on an event holding no nils: it always returns; the error is `ErrEmptyKey` exactly when the key names nothing,
`ErrTargetKeyNotObject` exactly when some proper prefix of the path holds (according to `Get`) a value that is not an object, there is no other error, and on success
the returned old value is what `Get` returned before. -/
theorem put_outcome {h : Heap} {f : AFields} {t : ATree} (o : Owns h f) (hf : Fields.NoNil f.erase)
    (ht : Rep h t) (hd : t.fp.Nodup) (hdis : ∀ a ∈ t.fp, a ∉ f.fp) (htn : t.erase.NoNil) (k : Bytes) :
    ∃ h' e' old err, apiPut h f.event k t.ptr = .ok (h', e', old, err) ∧
      (err = some .emptyKey ↔ keyToPath k = []) ∧
      (err = some (.notObject (keyToPath k)) ↔ ∃ p q ptr c, keyToPath k = p ++ q ∧ p ≠ [] ∧ q ≠ [] ∧ get h f.event p = .ok (h, ptr) ∧
          deref h ptr = some c ∧ c.type ≠ .object) ∧
      (err = none ∨ err = some .emptyKey ∨ err = some (.notObject (keyToPath k))) ∧
      (err = none → apiGet h f.event k = .ok (h, old)) := by
  unfold apiPut apiGet
  generalize keyToPath k = path
  have key := put_spec o ht hd hdis path true
  obtain ⟨r, hr, _⟩ := putFields_noNil hf path (.inr htn) true
  obtain ⟨F', V, err⟩ := r
  rw [hr] at key
  simp only [PutPost] at key
  obtain ⟨h', f', old, err', k1, k2, k3, k4, k5, k6, k7, k8, k9, k10, k11⟩ := key
  refine ⟨h', _, _, err', k1, ?_, ?_, ?_, ?_⟩
  · constructor
    · rintro rfl
      cases err with
      | none => simp [errMatches] at k6
      | some er =>
        cases er <;> simp [errMatches] at k6
        by_cases hp : path = []
        · exact hp
        · simp only [Spec.putFields, hp, if_false] at hr
          have : t.erase.isNil = false := by cases ht : t.erase <;> simp_all [Val.isNil, Val.NoNil]
          simp only [this, Bool.false_eq_true, if_false] at hr
          cases hg : Spec.getFields f.erase path with
          | panic => simp [hg] at hr
          | ok v =>
            simp only [hg, Res.bind_ok, Bool.not_true, Bool.and_false, Bool.false_eq_true, if_false] at hr
            cases hst : Spec.store (Option.getD f.erase []) path t.erase with
            | panic => simp [hst] at hr
            | ok r => cases r <;> simp [hst] at hr
    · rintro rfl
      simp [Spec.putFields] at hr
      obtain ⟨rfl, rfl, rfl⟩ := hr
      cases err' with
      | none => simp [errMatches] at k6
      | some er => cases er <;> simp [errMatches] at k6; rfl
  all_goals
    by_cases hp : path = []
    · subst hp
      simp [Spec.putFields] at hr
      obtain ⟨rfl, rfl, rfl⟩ := hr
      have he : err' = some .emptyKey := by
        cases err' with
        | none => simp [errMatches] at k6
        | some er => cases er <;> simp [errMatches] at k6; rfl
      subst he
      simp
    have hnil : t.erase.isNil = false := by cases ht : t.erase <;> simp_all [Val.isNil, Val.NoNil]
    simp only [Spec.putFields, hp, if_false, hnil, Bool.false_eq_true] at hr
    obtain ⟨v, hg⟩ := getFields_noNil hf path
    simp only [hg, Res.bind_ok, Bool.not_true, Bool.and_false, Bool.false_eq_true, if_false] at hr
  · -- notObject
    have hnn : Val.NoNilEs (Option.getD f.erase []) := by
      cases hfe : f.erase with
      | none => simp [Val.NoNilEs]
      | some es => exact hf es hfe
    have hiff : (∃ p q ptr c, path = p ++ q ∧ p ≠ [] ∧ q ≠ [] ∧ get h f.event p = .ok (h, ptr) ∧ deref h ptr = some c ∧ c.type ≠ .object) ↔
        (∃ p q w, path = p ++ q ∧ p ≠ [] ∧ q ≠ [] ∧ Spec.get (Option.getD f.erase []) p = .ok w ∧ w.NotObject) := by
      have step : ∀ p, p ≠ [] → ∃ t', get h f.event p = .ok (h, ATree.ptr t') ∧ Rep h t' ∧ Spec.get (Option.getD f.erase []) p = .ok t'.erase := by
        intro p hpn
        have := get_spec o p
        obtain ⟨v', hv'⟩ := getFields_noNil hf p
        simp only [hv'] at this
        obtain ⟨h1, t1, l1, l2, l3, l4, l5, l6⟩ := this
        have := l6 hpn
        subst this
        refine ⟨t1, l1, l2, ?_⟩
        rw [l3, ← hv']
        cases hfe : f.erase with
        | none => simp [Spec.getFields, spec_get_nil]
        | some es => rw [getFields_some _ _ hpn]; rfl
      have types : ∀ t' : ATree, Rep h t' → ((∃ c, deref h t'.ptr = some c ∧ c.type ≠ .object) ↔ t'.erase.NotObject) := by
        intro t' hrep
        cases t' with
        | nilp => simp [ptr, deref, ATree.erase, Val.NotObject]
        | leaf a s =>
          simp only [Rep] at hrep
          have : (scalarCell s).type ≠ .object := by
            cases s <;> simp [scalarCell, nullCell, boolCell, intCell, uintCell, floatCell, strCell, tsCell]
          simp [ptr, deref, hrep, ATree.erase, Val.NotObject, this]
        | arrNil a => simp only [Rep] at hrep; simp [ptr, deref, hrep, ATree.erase, Val.NotObject, arrCell]
        | arr a vs => simp only [Rep] at hrep; simp [ptr, deref, hrep, ATree.erase, Val.NotObject, arrCell]
        | objNil a => simp only [Rep] at hrep; simp [ptr, deref, hrep, ATree.erase, Val.NotObject, objCell]
        | obj a m es => simp only [Rep] at hrep; simp [ptr, deref, hrep, ATree.erase, Val.NotObject, objCell]
      constructor
      · rintro ⟨p, q, ptr, c, h1, h2, h3, h4, h5, h6⟩
        obtain ⟨t', s1, s2, s3⟩ := step p h2
        rw [s1] at h4
        simp at h4
        subst h4
        exact ⟨p, q, _, h1, h2, h3, s3, (types t' s2).1 ⟨c, h5, h6⟩⟩
      · rintro ⟨p, q, w, h1, h2, h3, h4, h5⟩
        obtain ⟨t', s1, s2, s3⟩ := step p h2
        rw [s3] at h4
        simp at h4
        subst h4
        obtain ⟨c, h6, h7⟩ := (types t' s2).2 h5
        exact ⟨p, q, _, c, h1, h2, h3, s1, h6, h7⟩
    rw [hiff, ← store_none_iff path t.erase]
    cases hst : Spec.store (Option.getD f.erase []) path t.erase with
    | panic => simp [hst] at hr
    | ok r =>
      cases r with
      | none =>
        simp [hst] at hr
        obtain ⟨rfl, rfl, rfl⟩ := hr
        cases err' with
        | none => simp [errMatches] at k6
        | some er =>
          cases er <;> simp [errMatches] at k6
          next p => simp [k10 p (.inr rfl)]
      | some m =>
        simp [hst] at hr
        obtain ⟨rfl, rfl, rfl⟩ := hr
        cases err' with
        | none => simp
        | some er => cases er <;> simp [errMatches] at k6
  · cases hst : Spec.store (Option.getD f.erase []) path t.erase with
    | panic => simp [hst] at hr
    | ok r =>
      cases r with
      | none =>
        simp [hst] at hr
        obtain ⟨rfl, rfl, rfl⟩ := hr
        cases err' with
        | none => simp
        | some er =>
          cases er <;> simp [errMatches] at k6
          next p => simp [k10 p (.inr rfl)]
      | some m =>
        simp [hst] at hr
        obtain ⟨rfl, rfl, rfl⟩ := hr
        cases err' with
        | none => simp
        | some er => cases er <;> simp [errMatches] at k6
  · rintro rfl
    by_cases hv : t.ptr = none
    · have := ptr_eq_none.1 hv
      subst this
      simp [ATree.erase, Val.NoNil] at htn
    -- the pointer `put` returns is the one `get` returned
    have hg2 := get_spec o path
    simp only [hg] at hg2
    obtain ⟨h1, t1, l1, l2, l3, l4, l5, l6⟩ := hg2
    have := l6 hp
    subst this
    rw [l1]
    cases hfe : f.event with
    | some m =>
      rw [hfe] at k1 l1
      rw [put_eq_some hp hv, l1] at k1
      simp only [Bool.true_eq_false, and_false, if_false] at k1
      cases hl : putLoop h1 (some m) path t.ptr with
      | panic => simp [hl] at k1
      | ok r =>
        obtain ⟨h2, b⟩ := r
        cases b with
        | false => simp [hl] at k1
        | true => simp [hl] at k1; rw [k1.2.2]
    | none =>
      rw [hfe] at k1 l1
      rw [put_eq_none hp hv, put_eq_some hp hv, get_empty (by simp [mapOf])] at k1
      rw [get_empty (by simp [mapOf])] at l1
      simp at l1
      simp only [ne_eq, not_true_eq_false, false_and, if_false] at k1
      cases hl : putLoop (h1 ++ [HObj.map []]) (some h1.length) path t.ptr with
      | panic => simp [hl] at k1
      | ok r =>
        obtain ⟨h2, b⟩ := r
        cases b with
        | false => simp [hl] at k1
        | true => simp [hl] at k1; rw [← k1.2.2, l1]

example : Fields.NoNil (AFields.erase sampleHeap.2.1) ∧ sampleHeap.2.2.erase.NoNil := by
  constructor
  · rw [sample_owns.2.2.2.2]
    intro es he
    cases he
    simp [sampleFields, Val.NoNilEs, Val.NoNil]
  · simp [sampleHeap, sampleFields, buildE, build, buildL, Heap.alloc, ATree.erase, Val.NoNil]

/-! ## C05 -/

/-- C05. `TryPut` on a key that `Get` finds: the existing value, `ErrKeyExists`, and nothing changes. Any heap. -/
theorem tryPut_existing {h h1 : Heap} {e : Event} {k : Bytes} {val : Ptr} {x : Nat} (hp : keyToPath k ≠ []) (hv : val ≠ none)
    (hg : apiGet h e k = .ok (h1, some x)) :
    apiTryPut h e k val = .ok (h, e, some x, some (.keyExists (keyToPath k))) := by
  unfold apiGet at hg
  unfold apiTryPut
  have := get_ok_heap hp hg
  subst this
  cases e with
  | none => simp [get, mapOf] at hg
  | some m => rw [put_eq_some hp hv, hg]; simp

/-- C05. `TryPut` on a key where `Get` finds nothing (or panics) is `Put`. Any heap. -/
theorem tryPut_missing {h : Heap} {e : Event} {k : Bytes} {val : Ptr} (hg : ∀ h1 x, apiGet h e k ≠ .ok (h1, some x)) :
    apiTryPut h e k val = apiPut h e k val := by
  unfold apiGet at hg
  unfold apiTryPut apiPut
  generalize keyToPath k = path at *
  by_cases hp : path = []
  · subst hp; simp [put]
  by_cases hv : val = none
  · have : path.length ≠ 0 := by simpa using hp
    simp [put, this, hv]
  cases e with
  | none =>
    rw [put_eq_none hp hv, put_eq_none hp hv, put_eq_some hp hv, put_eq_some hp hv, get_empty (by simp [mapOf])]
    simp
  | some m =>
    rw [put_eq_some hp hv, put_eq_some hp hv]
    cases hq : get h (some m) path with
    | panic => rfl
    | ok r =>
      obtain ⟨h1, x⟩ := r
      cases x with
      | none => simp
      | some x => exact absurd hq (hg h1 x)

example : ∃ x, apiGet sampleHeap.1 (AFields.event sampleHeap.2.1) (lit "a.b") = .ok (sampleHeap.1, some x) := by
  refine ⟨0, ?_⟩
  simp only [sampleHeap, sampleFields, buildE, build, buildL, Heap.alloc]
  decide

/-! ## C06 -/

/-- C06. `Put`/`TryPut` of nil on a key that names something: nil, no error, nothing changes. Any heap. -/
theorem put_nil {h : Heap} {e : Event} {k : Bytes} (hp : keyToPath k ≠ []) :
    apiPut h e k none = .ok (h, e, none, none) ∧ apiTryPut h e k none = .ok (h, e, none, none) := by
  have : (keyToPath k).length ≠ 0 := by simpa using hp
  simp [apiPut, apiTryPut, put, this]

/-! ## C07 -/

/-- C07. `Delete` returns what `Get` would have returned, and afterwards `Get` finds nothing; it panics exactly when `Get` does. Any heap; keys naming something. -/
theorem delete_returns_get {h : Heap} {e : Event} {k : Bytes} (hp : keyToPath k ≠ []) :
    (apiGet h e k = .panic ∧ apiDelete h e k = .panic) ∨
    ∃ h' p, apiGet h e k = .ok (h, p) ∧ apiDelete h e k = .ok (h', p) ∧ apiGet h' e k = .ok (h', none) := by
  unfold apiGet apiDelete
  generalize keyToPath k = path at *
  cases path with
  | nil => exact absurd rfl hp
  | cons k ks =>
    by_cases he : (mapOf h e).length = 0
    · right
      refine ⟨h, none, by simp [get, he], by simp [delete, he], by simp [get, he]⟩
    · simp only [delete, he, if_false]
      cases hg : get h e (k :: ks) with
      | panic => exact .inl ⟨rfl, rfl⟩
      | ok r =>
        obtain ⟨h1, p⟩ := r
        have := get_ok_heap (by simp) hg
        subst this
        right
        by_cases hpn : p = none
        · subst hpn
          exact ⟨h1, none, rfl, by simp, hg⟩
        · refine ⟨mapDelete h1 e k, p, rfl, by simp [hpn], ?_⟩
          have hm : mapOf (mapDelete h1 e k) e = (mapOf h1 e).erase k := by
            cases e with
            | none => simp [mapOf] at he
            | some m =>
              simp only [mapOf] at he
              cases hmm : h1[m]? with
              | none => simp [hmm] at he
              | some ob =>
                cases ob with
                | cell c => simp [hmm] at he
                | map es => simp [mapDelete, mapOf, hmm, List.getElem?_set_self (lt_of_getElem? hmm)]
          simp only [get, hm]
          split
          · rfl
          · have : getLoop (mapDelete h1 e k) e (k :: ks) = .ok none := by
              cases ks <;> simp [getLoop, hm]
            simp [this]

example : keyToPath (lit "a.b") ≠ [] := by decide

/-- C07. `Delete` of the root key does nothing. -/
theorem delete_root {h : Heap} {e : Event} {k : Bytes} (hp : keyToPath k = []) : apiDelete h e k = .ok (h, none) := by
  simp [apiDelete, delete, hp]

/-! ## C08 -/

/-- C08, longer keys: `Delete("a.b")` also removes `"a.c"` (the code deletes the whole top-level entry). -/
theorem delete_removes_siblings : ∃ h e k k' h' p, ¬ Related (keyToPath k) (keyToPath k') ∧
    apiDelete h e k = .ok (h', some p) ∧ (∃ x, apiGet h e k' = .ok (h, some x)) ∧ apiGet h' e k' = .ok (h', none) := by
  refine ⟨[.map [(lit "a", some 2)], .map [(lit "b", some 3), (lit "c", some 3)], .cell (objCell (some 1)), .cell nullCell], some 0,
    lit "a.b", lit "a.c", _, 3, ?_, rfl, ⟨3, rfl⟩, rfl⟩
  simp only [Related]; decide

/-- C08. What `Delete` removes: never anything outside the top-level entry its key starts with. Every key starting with another name reads as before
(same pointer, same tree). -/
theorem delete_keeps_other_entries {h h' : Heap} {f : AFields} {p : Ptr} {k k' name other : Bytes} {rest rest' : List Bytes} (o : Owns h f)
    (hk : keyToPath k = name :: rest) (hdel : apiDelete h f.event k = .ok (h', p)) (hk'' : keyToPath k' = other :: rest') (hno : name ≠ other) :
    (apiGet h f.event k' = .panic ∧ apiGet h' f.event k' = .panic) ∨
    ∃ q v, apiGet h f.event k' = .ok (h, q) ∧ apiGet h' f.event k' = .ok (h', q) ∧ Reads h q v ∧ Reads h' q v := by
  unfold apiDelete at hdel
  unfold apiGet
  rw [hk] at hdel
  generalize keyToPath k' = q at *
  have hqn : q ≠ [] := by rw [hk'']; simp
  have hds := delete_spec o (name :: rest)
  have hgs := get_spec o q
  cases hs : Spec.deleteFields f.erase (name :: rest) with
  | panic => simp only [hs] at hds; rw [hds] at hdel; simp at hdel
  | ok r =>
    obtain ⟨F', V⟩ := r
    simp only [hs] at hds
    obtain ⟨h2, f', old, k1, k2, k3, k4, k5, k6, k7, k8, k9⟩ := hds
    rw [k1] at hdel
    simp at hdel
    obtain ⟨rfl, rfl⟩ := hdel
    -- pointer-level: compare `get` on the two maps
    cases f with
    | none =>
      right
      have : AFields.event f' = none := by rw [k2]; rfl
      refine ⟨none, .nilp, by simp [AFields.event, get, mapOf], by simp [AFields.event, get, mapOf], by simp [Reads], by simp [Reads]⟩
    | some f =>
      obtain ⟨m, es⟩ := f
      have om : OwnsMap h m es := ⟨o.1, o.2.1, o.2.2.1, o.2.2.2⟩
      -- the heap after the deletion
      have hcases : h2 = h ∨ h2 = h.set m (.map ((ptrMap es).erase name)) := by
        have k1 : delete h (some m) (name :: rest) = Res.ok (h2, old.ptr) := k1
        simp only [delete] at k1
        rw [get_spec' om (name :: rest) (by simp)] at k1
        by_cases hl : (mapOf h (some m)).length = 0
        · rw [if_pos hl] at k1; simp at k1; exact .inl k1.1.symm
        · rw [if_neg hl] at k1
          cases hg : aget es (name :: rest) with
          | panic => simp [hg] at k1
          | ok t =>
            simp only [hg, Res.map_ok] at k1
            split at k1
            · simp only [mapDelete, om.at_, Res.ok.injEq, Prod.mk.injEq] at k1; exact .inr k1.1.symm
            · simp at k1; exact .inl k1.1.symm
      rcases hcases with rfl | rfl
      · cases hg : Spec.getFields (AFields.erase (some (m, es))) q with
        | panic => simp only [hg] at hgs; exact .inl ⟨hgs, hgs⟩
        | ok v =>
          simp only [hg] at hgs
          obtain ⟨h1, t1, l1, l2, l3, l4, l5, l6⟩ := hgs
          have := l6 hqn
          subst this
          exact .inr ⟨t1.ptr, v, l1, l1, l3 ▸ rep_reads t1 l2, l3 ▸ rep_reads t1 l2⟩
      · have fr : Frame [m] h (h.set m (.map ((ptrMap es).erase name))) := frame_set om.at_
        have hnd := (List.nodup_cons.1 om.nodup).1
        have om2 : OwnsMap (h.set m (.map ((ptrMap es).erase name))) m (es.erase name) := by
          refine ⟨by simp [List.getElem?_set_self (lt_of_getElem? om.at_), ptrMap, AMap.mapVals_erase], AMap.sorted_erase _ om.sorted, ?_, ?_⟩
          · rw [repE_iff]
            intro e hee
            have hm := (AMap.mem_erase.1 hee).1
            refine rep_frame fr _ (repE_iff.1 om.rep e hm) ?_
            intro a ha hc
            simp only [List.mem_singleton] at hc
            subst hc
            exact hnd (mem_fpE_iff.2 ⟨e, hm, ha⟩)
          · cases hlk : es.lookup name with
            | none => rw [AMap.erase_of_not_mem hlk]; exact om.nodup
            | some t0 =>
              obtain ⟨l, r, q1, q2, q3⟩ := AMap.split_some om.sorted hlk
              rw [q3]
              have := om.nodup
              rw [q1] at this
              simp only [fpE_append, fpE, List.nodup_cons, List.nodup_append, List.mem_append] at this ⊢
              grind
        have hage : aget (es.erase name) q = aget es q := by
          cases q with
          | nil => exact absurd rfl hqn
          | cons x xs =>
            have hne : name ≠ x := by
              have := (List.cons.inj hk'').1
              rw [this]; exact hno
            cases xs <;> simp [aget, AMap.lookup_erase_of_ne _ hne]
        have g1 := get_spec' om q hqn
        have g2 := get_spec' om2 q hqn
        rw [hage] at g2
        cases hq : aget es q with
        | panic => exact .inl ⟨by simp only [AFields.event, g1, hq]; rfl, by simp only [AFields.event, g2, hq]; rfl⟩
        | ok t' =>
          exact .inr ⟨t'.ptr, t'.erase, by simp only [AFields.event, g1, hq]; rfl, by simp only [AFields.event, g2, hq]; rfl,
            rep_reads t' (aget_sub om.rep hq).1, rep_reads t' (aget_sub om2.rep (hage.trans hq)).1⟩

/-- C08, the other half: after a `Delete` that returned a value, every key starting with the same top-level name reads nil. Any heap. -/
theorem delete_clears_entry {h h' : Heap} {e : Event} {x : Nat} {k k' name : Bytes} {rest rest' : List Bytes}
    (hk : keyToPath k = name :: rest) (hdel : apiDelete h e k = .ok (h', some x)) (hk' : keyToPath k' = name :: rest') :
    apiGet h' e k' = .ok (h', none) := by
  unfold apiDelete at hdel
  unfold apiGet
  rw [hk] at hdel; rw [hk']
  by_cases he : (mapOf h e).length = 0
  · simp [delete, he] at hdel
  · simp only [delete, he, if_false] at hdel
    cases hg : get h e (name :: rest) with
    | panic => simp [hg] at hdel
    | ok r =>
      obtain ⟨h1, p⟩ := r
      have := get_ok_heap (by simp) hg
      subst this
      simp only [hg] at hdel
      by_cases hpn : p = none
      · simp [hpn] at hdel
      · simp [hpn] at hdel
        obtain ⟨rfl, rfl⟩ := hdel
        have hm : mapOf (mapDelete h1 e name) e = (mapOf h1 e).erase name := by
          cases e with
          | none => simp [mapOf] at he
          | some m =>
            simp only [mapOf] at he
            cases hmm : h1[m]? with
            | none => simp [hmm] at he
            | some ob =>
              cases ob with
              | cell c => simp [hmm] at he
              | map es => simp [mapDelete, mapOf, hmm, List.getElem?_set_self (lt_of_getElem? hmm)]
        simp only [get, hm]
        split
        · rfl
        · have : getLoop (mapDelete h1 e name) e (name :: rest') = .ok none := by
            cases rest' <;> simp [getLoop, hm]
          simp [this]

/-- C08: `Delete` of a key with one component leaves every unrelated key as it was (same pointer, same tree).
For keys with several components this is false (`delete_removes_siblings`). -/
theorem delete_other_keys_one_name {h h' : Heap} {f : AFields} {p : Ptr} {k k' name : Bytes} (o : Owns h f)
    (hk : keyToPath k = [name]) (hdel : apiDelete h f.event k = .ok (h', p)) (hk' : ¬ Related (keyToPath k) (keyToPath k')) :
    (apiGet h f.event k' = .panic ∧ apiGet h' f.event k' = .panic) ∨
    ∃ q v, apiGet h f.event k' = .ok (h, q) ∧ apiGet h' f.event k' = .ok (h', q) ∧ Reads h q v ∧ Reads h' q v := by
  cases hq : keyToPath k' with
  | nil => exact absurd (.inr (hq ▸ List.nil_prefix)) hk'
  | cons other rest' =>
    refine delete_keeps_other_entries o hk hdel hq ?_
    rintro rfl
    exact hk' (.inl (by simp [hk, hq]))

example : ∃ h' p, apiDelete sampleHeap.1 (AFields.event sampleHeap.2.1) (lit "a.b") = .ok (h', some p) := ⟨_, _, rfl⟩

/-! ## C11 -/

/-- C11. `Get` of the root key: nil exactly when the event has no fields; otherwise a new object around the event's own map. Any heap. -/
theorem get_root {h : Heap} {e : Event} {k : Bytes} (hk : keyToPath k = []) :
    (mapOf h e = [] → apiGet h e k = .ok (h, none)) ∧
    (mapOf h e ≠ [] → ∃ h' a c, apiGet h e k = .ok (h', some a) ∧ deref h' (some a) = some c ∧ c.type = .object ∧ c.object = e ∧
      h' = h ++ [.cell c] ∧ mapOf h' c.object = mapOf h e) := by
  constructor
  · intro he; simp [apiGet, get, he]
  · intro he
    refine ⟨h ++ [.cell (objCell e)], h.length, objCell e, by simp [apiGet, get, he, hk, Heap.alloc], by simp [deref], rfl, rfl, rfl, ?_⟩
    cases e with
    | none => simp [mapOf] at he
    | some m =>
      simp only [objCell, mapOf] at he ⊢
      have hml : m < h.length := by
        rcases Nat.lt_or_ge m h.length with h1 | h1
        · exact h1
        · simp [List.getElem?_eq_none h1] at he
      rw [List.getElem?_append_left hml]

example : keyToPath (lit ".") = [] ∧ keyToPath [] = [] := by decide

/-! ## C12 -/

/-- C12, nil values: `Get`, `Put`, `TryPut` and `Delete` panic below a name holding a nil value (which decoding a JSON `null` produces). -/
theorem api_panics_below_nil :
    apiGet [.map [(lit "a", none)]] (some 0) (lit "a.b") = .panic ∧
    apiPut [.map [(lit "a", none)], .cell nullCell] (some 0) (lit "a.b") (some 1) = .panic ∧
    apiTryPut [.map [(lit "a", none)], .cell nullCell] (some 0) (lit "a.b") (some 1) = .panic ∧
    apiDelete [.map [(lit "a", none)]] (some 0) (lit "a.b") = .panic := ⟨rfl, rfl, rfl, rfl⟩

/-- C12, nil objects: `Put` panics below an object built from a nil map (`Object(nil)`), where `Get` just returns nil. -/
theorem api_panics_below_nil_object :
    let h : Heap := [.map [(lit "a", some 1)], .cell (objCell none), .cell nullCell]
    apiPut h (some 0) (lit "a.b") (some 2) = .panic ∧ apiGet h (some 0) (lit "a.b") = .ok (h, none) := ⟨rfl, rfl⟩

/-- C12: on an event owning its contents and holding no nil value and no nil object, all calls return. -/
theorem api_never_panics {h : Heap} {f : AFields} {t : ATree} (o : Owns h f) (hf : Fields.NoNil f.erase)
    (ht : Rep h t) (hd : t.fp.Nodup) (hdis : ∀ a ∈ t.fp, a ∉ f.fp) (htn : t.erase.NoNil) (k : Bytes) :
    apiGet h f.event k ≠ .panic ∧ apiDelete h f.event k ≠ .panic ∧ apiPut h f.event k t.ptr ≠ .panic ∧ apiTryPut h f.event k t.ptr ≠ .panic := by
  unfold apiGet apiDelete apiPut apiTryPut
  generalize keyToPath k = path
  refine ⟨?_, ?_, ?_, ?_⟩
  · have := get_spec o path
    obtain ⟨v, hv⟩ := getFields_noNil hf path
    simp only [hv] at this
    obtain ⟨_, _, h1, _⟩ := this
    rw [h1]; simp
  · have := delete_spec o path
    obtain ⟨v, hv, _⟩ := deleteFields_noNil hf path
    simp only [hv] at this
    obtain ⟨_, _, _, h1, _⟩ := this
    rw [h1]; simp
  · have := put_spec o ht hd hdis path true
    obtain ⟨v, hv, _⟩ := putFields_noNil hf path (.inr htn) true
    simp only [PutPost, hv] at this
    obtain ⟨_, _, _, _, h1, _⟩ := this
    rw [h1]; simp
  · have := put_spec o ht hd hdis path false
    obtain ⟨v, hv, _⟩ := putFields_noNil hf path (.inr htn) false
    simp only [PutPost, hv] at this
    obtain ⟨_, _, _, _, h1, _⟩ := this
    rw [h1]; simp

/-! ## C13, C14 -/

/-- C13. Any number of new events, any interleaving of `Put`, `TryPut`, `Get`, `Delete` with freshly built nil-free values: nothing panics, and every
returned value, every error and all final contents are those of the nested-map specification. -/
theorem history_refines_nested_map (n : Nat) (cs : List (Nat × Call)) (hc : ∀ c ∈ cs, c.2.Good Val.Passable) :
    ∃ w rets s rs, World.run ⟨[], List.replicate n newEvent⟩ cs = .ok (w, rets) ∧
      Spec.run (List.replicate n none) cs = .ok (s, rs) ∧ AllShow rets rs ∧
      w.events.length = s.length ∧ ∀ (i : Nat) (e : Event) (f : Fields), w.events[i]? = some e → s[i]? = some f → Holds w.heap e f := by
  have hw : WorldOk ⟨[], List.replicate n newEvent⟩ (List.replicate n (none : AFields)) := by
    refine ⟨by simp [newEvent, AFields.event], ?_, ?_⟩
    · intro f hf; rw [List.mem_replicate] at hf; rw [hf.2]; trivial
    · intro i j f g hi hj _ a ha
      have : f = none := by
        have := List.mem_of_getElem? hi; rw [List.mem_replicate] at this; exact this.2
      subst this
      simp [AFields.fp] at ha
  have h1 := run_spec hw cs (fun c hcm => by
    have := hc c hcm
    obtain ⟨i, c⟩ := c
    cases c <;> simp_all [Call.Good, Val.Passable])
  have he : (List.replicate n (none : AFields)).map AFields.erase = List.replicate n none := by simp [AFields.erase]
  rw [he] at h1
  obtain ⟨s, rs, hs⟩ := spec_run_noNil (s := List.replicate n none) (by
    intro f hf; rw [List.mem_replicate] at hf; rw [hf.2]; intro es h; simp at h) cs hc
  simp only [hs] at h1
  obtain ⟨w', rets, fs', k1, k2, k3, k4⟩ := h1
  refine ⟨w', rets, s, rs, k1, hs, k4, ?_, ?_⟩
  · rw [k2.events, ← k3]; simp
  · intro i e f hi hf
    rw [k2.events, List.getElem?_map] at hi
    rw [← k3, List.getElem?_map] at hf
    cases hg : fs'[i]? with
    | none => simp [hg] at hi
    | some g =>
      simp [hg] at hi hf
      subst hi hf
      exact (k2.owns g (List.mem_of_getElem? hg)).holds

/-- A history with nested puts, overwriting, a failing put, a try and a delete satisfies the hypothesis. -/
example : ∀ c ∈ ([(0, .put (lit "a.b") (.scalar (.int 1))), (1, .put (lit "a") (.obj [(lit "x", .arr [.nilp])])), (0, .tryPut (lit "a.b.c") (.scalar .null)),
    (0, .put (lit "z") .nilp), (0, .delete (lit "a")), (1, .get (lit "."))] : List (Nat × Call)), c.2.Good Val.Passable := by
  simp [Call.Good, Val.Passable, Val.Canon, Val.CanonE, Val.CanonL, Val.NoNil, Val.NoNilEs, AMap.Sorted]

/-- C13 without the nil-freeness hypothesis: whatever (canonical) values are stored, model and specification agree, panics included. -/
theorem history_refines_with_panics (n : Nat) (cs : List (Nat × Call)) (hc : ∀ c ∈ cs, c.2.Good Val.Canon) :
    (Spec.run (List.replicate n none) cs = .panic ∧ World.run ⟨[], List.replicate n newEvent⟩ cs = .panic) ∨
    ∃ w rets s rs, World.run ⟨[], List.replicate n newEvent⟩ cs = .ok (w, rets) ∧
      Spec.run (List.replicate n none) cs = .ok (s, rs) ∧ AllShow rets rs ∧
      w.events.length = s.length ∧ ∀ (i : Nat) (e : Event) (f : Fields), w.events[i]? = some e → s[i]? = some f → Holds w.heap e f := by
  have hw : WorldOk ⟨[], List.replicate n newEvent⟩ (List.replicate n (none : AFields)) := by
    refine ⟨by simp [newEvent, AFields.event], ?_, ?_⟩
    · intro f hf; rw [List.mem_replicate] at hf; rw [hf.2]; trivial
    · intro i j f g hi hj _ a ha
      have : f = none := by
        have := List.mem_of_getElem? hi; rw [List.mem_replicate] at this; exact this.2
      subst this
      simp [AFields.fp] at ha
  have h1 := run_spec hw cs hc
  have he : (List.replicate n (none : AFields)).map AFields.erase = List.replicate n none := by simp [AFields.erase]
  rw [he] at h1
  cases hs : Spec.run (List.replicate n none) cs with
  | panic => simp only [hs] at h1; exact .inl ⟨rfl, h1⟩
  | ok r =>
    obtain ⟨s, rs⟩ := r
    right
    simp only [hs] at h1
    obtain ⟨w', rets, fs', k1, k2, k3, k4⟩ := h1
    refine ⟨w', rets, s, rs, k1, rfl, k4, ?_, ?_⟩
    · rw [k2.events, ← k3]; simp
    · intro i e f hi hf
      rw [k2.events, List.getElem?_map] at hi
      rw [← k3, List.getElem?_map] at hf
      cases hg : fs'[i]? with
      | none => simp [hg] at hi
      | some g =>
        simp [hg] at hi hf
        subst hi hf
        exact (k2.owns g (List.mem_of_getElem? hg)).holds

/-- C14. A call on one event leaves the contents of every other event as they were, when no map or array is reachable from both and the stored value
is not part of either. -/
theorem put_other_events {h h' : Heap} {f g : AFields} {t : ATree} {e' : Event} {old : Ptr} {k : Bytes} {ow : Bool} {err : Option PutErr}
    (o : Owns h f) (og : Owns h g) (hfg : ∀ a ∈ g.fp, a ∉ f.fp) (ht : Rep h t) (hd : t.fp.Nodup)
    (hdis : ∀ a ∈ t.fp, a ∉ f.fp) (hput : put h f.event (keyToPath k) t.ptr ow = .ok (h', e', old, err)) :
    Holds h g.event g.erase ∧ Holds h' g.event g.erase := by
  refine ⟨og.holds, ?_⟩
  have key := put_spec o ht hd hdis (keyToPath k) ow
  cases hs : Spec.putFields f.erase (keyToPath k) t.erase ow with
  | panic => simp only [PutPost, hs] at key; rw [key] at hput; simp at hput
  | ok r =>
    obtain ⟨F', V, er⟩ := r
    simp only [PutPost, hs] at key
    obtain ⟨h2, f', old', err', k1, k2, k3, k4, k5, k6, k7, k8, k9, k10, k11⟩ := key
    rw [k1] at hput
    simp only [Res.ok.injEq, Prod.mk.injEq] at hput
    obtain ⟨rfl, _⟩ := hput
    exact (og.frame k7 hfg).holds

/-- C14 for `Delete`. -/
theorem delete_other_events {h h' : Heap} {f g : AFields} {p : Ptr} {k : Bytes}
    (o : Owns h f) (og : Owns h g) (hfg : ∀ a ∈ g.fp, a ∉ f.fp) (hdel : apiDelete h f.event k = .ok (h', p)) :
    Holds h g.event g.erase ∧ Holds h' g.event g.erase := by
  refine ⟨og.holds, ?_⟩
  have key := delete_spec o (keyToPath k)
  unfold apiDelete at hdel
  cases hs : Spec.deleteFields f.erase (keyToPath k) with
  | panic => simp only [hs] at key; rw [key] at hdel; simp at hdel
  | ok r =>
    obtain ⟨F', V⟩ := r
    simp only [hs] at key
    obtain ⟨h2, f', old, k1, k2, k3, k4, k5, k6, k7, k8, k9⟩ := key
    rw [k1] at hdel
    simp only [Res.ok.injEq, Prod.mk.injEq] at hdel
    obtain ⟨rfl, _⟩ := hdel
    exact (og.frame k7 hfg).holds

/-- Two events in one heap, owning separate contents. -/
example : ∃ (h : Heap) (f g : AFields), Owns h f ∧ Owns h g ∧ (∀ a ∈ g.fp, a ∉ f.fp) ∧ f.erase = some sampleFields ∧ g.erase = some [] := by
  refine ⟨sampleHeap.1 ++ [.map []], sampleHeap.2.1, some (sampleHeap.1.length, []), ?_, ?_, ?_, sample_owns.2.2.2.2, by simp [AFields.erase, eraseE]⟩
  · exact sample_owns.1.frame (frame_alloc _ _) (by simp)
  · exact ⟨by simp [ptrMap, AMap.mapVals], AMap.sorted_nil, by simp [RepE], by simp [fpE]⟩
  · intro a ha hc
    simp only [AFields.fp, fpE, List.mem_singleton] at ha
    have := sample_owns.1.lt a hc
    omega

/-- The calls of a history that are made on event `i`, as a history of a single event. -/
def callsOn (i : Nat) (cs : List (Nat × Call)) : List (Nat × Call) := (cs.filter fun c => c.1 == i).map fun c => (0, c.2)

/-- What the calls on event `i` returned. -/
def returnsOn {α : Type} (i : Nat) (cs : List (Nat × Call)) (rs : List α) : List α := ((cs.zip rs).filter fun c => c.1.1 == i).map Prod.snd

/-- In the specification, an event sees only the calls made on it. -/
theorem spec_run_callsOn {i : Nat} (cs : List (Nat × Call)) : ∀ {s s' : List Fields} {rs : List (Val × Option Spec.Error)} {f : Fields}, Spec.run s cs = .ok (s', rs) → s[i]? = some f →
    ∃ f', s'[i]? = some f' ∧ Spec.run [f] (callsOn i cs) = .ok ([f'], returnsOn i cs rs) := by
  induction cs with
  | nil =>
    intro s s' rs f hr hf
    simp only [Spec.run, Res.ok.injEq, Prod.mk.injEq] at hr
    obtain ⟨rfl, rfl⟩ := hr
    exact ⟨f, hf, by simp [callsOn, returnsOn, Spec.run]⟩
  | cons c cs ih =>
    obtain ⟨j, c⟩ := c
    intro s s' rs f hr hf
    simp only [Spec.run] at hr
    obtain ⟨⟨s1, r⟩, h1, hr⟩ := Res.bind_eq_ok.mp hr
    obtain ⟨⟨s2, rs2⟩, h2, hr⟩ := Res.bind_eq_ok.mp hr
    simp only [Res.ok.injEq, Prod.mk.injEq] at hr
    obtain ⟨rfl, rfl⟩ := hr
    by_cases hj : j = i
    · subst hj
      have hone : ∃ f1, s1[j]? = some f1 ∧ Spec.call [f] 0 c = .ok ([f1], r) := by
        have hl : j < s.length := (List.getElem?_eq_some_iff.mp hf).1
        simp only [Spec.call, hf] at h1
        simp only [Spec.call, List.getElem?_cons_zero]
        cases c with
        | put k v =>
          simp only at h1 ⊢
          cases hp : Spec.putFields f (keyToPath k) v true with
          | panic => simp [hp, Res.map] at h1
          | ok x =>
            obtain ⟨f1, old, err⟩ := x
            simp only [hp, Res.map, Res.ok.injEq, Prod.mk.injEq] at h1
            obtain ⟨rfl, rfl⟩ := h1
            exact ⟨f1, by simp [hl], by simp [Res.map]⟩
        | tryPut k v =>
          simp only at h1 ⊢
          cases hp : Spec.putFields f (keyToPath k) v false with
          | panic => simp [hp, Res.map] at h1
          | ok x =>
            obtain ⟨f1, old, err⟩ := x
            simp only [hp, Res.map, Res.ok.injEq, Prod.mk.injEq] at h1
            obtain ⟨rfl, rfl⟩ := h1
            exact ⟨f1, by simp [hl], by simp [Res.map]⟩
        | get k =>
          simp only at h1 ⊢
          cases hp : Spec.getFields f (keyToPath k) with
          | panic => simp [hp, Res.map] at h1
          | ok x =>
            simp only [hp, Res.map, Res.ok.injEq, Prod.mk.injEq] at h1
            obtain ⟨rfl, rfl⟩ := h1
            exact ⟨f, hf, by simp [Res.map]⟩
        | delete k =>
          simp only at h1 ⊢
          cases hp : Spec.deleteFields f (keyToPath k) with
          | panic => simp [hp, Res.map] at h1
          | ok x =>
            obtain ⟨f1, v⟩ := x
            simp only [hp, Res.map, Res.ok.injEq, Prod.mk.injEq] at h1
            obtain ⟨rfl, rfl⟩ := h1
            exact ⟨f1, by simp [hl], by simp [Res.map]⟩
      obtain ⟨f1, g1, g2⟩ := hone
      obtain ⟨f', g3, g4⟩ := ih h2 g1
      refine ⟨f', g3, ?_⟩
      have e1 : callsOn j ((j, c) :: cs) = (0, c) :: callsOn j cs := by simp [callsOn]
      have e2 : returnsOn j ((j, c) :: cs) (r :: rs2) = r :: returnsOn j cs rs2 := by simp [returnsOn]
      rw [e1, e2]
      simp only [Spec.run]
      rw [g2]
      show (do let (s2, rs) ← Spec.run [f1] (callsOn j cs); Res.ok (s2, r :: rs)) = _
      rw [g4]
      rfl
    · have hs1 : s1[i]? = some f := by
        unfold Spec.call at h1
        cases hsj : s[j]? with
        | none =>
          simp only [hsj, Res.ok.injEq, Prod.mk.injEq] at h1
          rw [← h1.1]; exact hf
        | some g =>
          simp only [hsj] at h1
          cases c with
          | put k v =>
            simp only at h1
            cases hp : Spec.putFields g (keyToPath k) v true with
            | panic => simp [hp, Res.map] at h1
            | ok x =>
              simp only [hp, Res.map, Res.ok.injEq, Prod.mk.injEq] at h1
              rw [← h1.1, List.getElem?_set_ne hj]; exact hf
          | tryPut k v =>
            simp only at h1
            cases hp : Spec.putFields g (keyToPath k) v false with
            | panic => simp [hp, Res.map] at h1
            | ok x =>
              simp only [hp, Res.map, Res.ok.injEq, Prod.mk.injEq] at h1
              rw [← h1.1, List.getElem?_set_ne hj]; exact hf
          | get k =>
            simp only at h1
            cases hp : Spec.getFields g (keyToPath k) with
            | panic => simp [hp, Res.map] at h1
            | ok x =>
              simp only [hp, Res.map, Res.ok.injEq, Prod.mk.injEq] at h1
              rw [← h1.1]; exact hf
          | delete k =>
            simp only at h1
            cases hp : Spec.deleteFields g (keyToPath k) with
            | panic => simp [hp, Res.map] at h1
            | ok x =>
              simp only [hp, Res.map, Res.ok.injEq, Prod.mk.injEq] at h1
              rw [← h1.1, List.getElem?_set_ne hj]; exact hf
      obtain ⟨f', g3, g4⟩ := ih h2 hs1
      have hb : (j == i) = false := by simpa using hj
      refine ⟨f', g3, ?_⟩
      simpa [callsOn, returnsOn, hb] using g4

theorem allShow_returnsOn {i : Nat} (cs : List (Nat × Call)) : ∀ {rets : List Ret} {rs : List (Val × Option Spec.Error)}, AllShow rets rs → AllShow (returnsOn i cs rets) (returnsOn i cs rs) := by
  induction cs with
  | nil => intros; simp [returnsOn, AllShow]
  | cons c cs ih =>
    intro rets rs h
    cases rets with
    | nil => cases rs with
      | nil => simp [returnsOn, AllShow]
      | cons _ _ => simp [AllShow] at h
    | cons r rets =>
      cases rs with
      | nil => simp [AllShow] at h
      | cons s ss =>
        simp only [AllShow] at h
        have := ih h.2
        by_cases hc : (c.1 == i) = true
        · simpa [returnsOn, hc, AllShow] using ⟨h.1, this⟩
        · simpa [returnsOn, hc] using this

/-- C14, for histories. Whatever calls are made on any number of events, in any order: what the calls on event `i` return, and what it contains in the end, is what it would have been if only these calls had been made, on a single event in a memory of its own. -/
theorem events_do_not_interfere {n i : Nat} (hi : i < n) (cs : List (Nat × Call)) (hc : ∀ c ∈ cs, c.2.Good Val.Passable) :
    ∃ w rets w1 rets1 e e1 f rs, World.run ⟨[], List.replicate n newEvent⟩ cs = .ok (w, rets) ∧ World.run ⟨[], [newEvent]⟩ (callsOn i cs) = .ok (w1, rets1) ∧
      w.events[i]? = some e ∧ w1.events = [e1] ∧ Holds w.heap e f ∧ Holds w1.heap e1 f ∧
      AllShow (returnsOn i cs rets) rs ∧ AllShow rets1 rs := by
  obtain ⟨w, rets, s, rs, h1, h2, h3, h4, h5⟩ := history_refines_nested_map n cs hc
  obtain ⟨f', g1, g2⟩ := spec_run_callsOn (i := i) cs h2 (f := none) (by simp [hi])
  obtain ⟨w1, rets1, s1, rs1, k1, k2, k3, k4, k5⟩ := history_refines_nested_map 1 (callsOn i cs) (by
    intro c hcm
    simp only [callsOn, List.mem_map, List.mem_filter] at hcm
    obtain ⟨d, hd, rfl⟩ := hcm
    exact hc d hd.1)
  have e0 : List.replicate 1 (none : Fields) = [none] := rfl
  rw [e0, g2] at k2
  simp only [Res.ok.injEq, Prod.mk.injEq] at k2
  obtain ⟨rfl, rfl⟩ := k2
  have hlen : i < w.events.length := by
    rw [h4]; exact (List.getElem?_eq_some_iff.mp g1).1
  obtain ⟨e1, he1⟩ : ∃ e1, w1.events = [e1] := by
    match hw : w1.events, k4 with
    | [e1], _ => exact ⟨e1, rfl⟩
  refine ⟨w, rets, w1, rets1, _, e1, f', _, h1, k1, List.getElem?_eq_getElem hlen, he1, h5 i _ f' (List.getElem?_eq_getElem hlen) g1, k5 0 e1 f' (by simp [he1]) rfl, allShow_returnsOn cs h3, k3⟩

/-- A history on three events; the calls on event 1 alone. -/
example : callsOn 1 [(0, .put (lit "a") (.scalar (.int 1))), (1, .put (lit "a.b") (.scalar .null)), (2, .delete (lit "a")), (1, .get (lit "a"))] = [(0, .put (lit "a.b") (.scalar .null)), (0, .get (lit "a"))] := rfl

end Sawmill
