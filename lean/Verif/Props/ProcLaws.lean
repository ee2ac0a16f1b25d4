import Verif.Props.SetProc
import Verif.Props.UtilAppend
import Verif.Props.Event
/-!
# C16, C34–C38 as a user sees them, and examples
-/

namespace Sawmill
open ATree

/-- A successful put: the value is found there, and nothing unrelated changes. -/
theorem putP_ok {F F' : Fields} {key : Bytes} {v : Val} (hv : v.isNil = false) (hput : Spec.putP F key v = .ok (F', none)) :
    Spec.getFields F' (keyToPath key) = .ok v ∧ ∀ q, q ≠ [] → ¬ Related (keyToPath key) q → Spec.getFields F' q = Spec.getFields F q := by
  by_cases hp : keyToPath key = []
  · simp [Spec.putP, Spec.putFields, hp] at hput
  · simp only [Spec.putP] at hput
    rw [putFields_eq _ _ _ hp hv] at hput
    cases hg : Spec.getFields F (keyToPath key) with
    | panic => simp [hg] at hput
    | ok old =>
      simp only [hg, Res.bind_ok] at hput
      cases hs : Spec.store (F.getD []) (keyToPath key) v with
      | panic => simp [hs] at hput
      | ok r =>
        cases r with
        | none => simp [hs] at hput
        | some m =>
          simp only [hs, Res.bind_ok, Res.map_ok, Option.map_none, Res.ok.injEq, Prod.mk.injEq, and_true] at hput
          subst hput
          refine ⟨by rw [getFields_some _ _ hp]; exact get_store_self hp hs, ?_⟩
          intro q hq hr
          rw [getFields_some _ _ hq, get_store_other hs hr]
          cases F with
          | none => simp [Spec.getFields]; cases q with
            | nil => exact absurd rfl hq
            | cons k ks => cases ks <;> simp [Spec.get]
          | some es => rw [getFields_some _ _ hq]; rfl

/-- C34. What `lowercase`/`uppercase` on a string field gives: the converted string at the target, everything unrelated unchanged. `Get` is used to look. -/
theorem convert_string {h : Heap} {f : AFields} (o : Owns h f) (conv : Bytes → Bytes) (msg field target s : Bytes)
    (hs : Spec.getFields f.erase (keyToPath field) = .ok (.scalar (.str s))) {h' : Heap} {e' : Event}
    (hrun : convProcess conv msg field target h f.event = .ok (h', e', none)) :
    ∃ f', e' = AFields.event f' ∧ Owns h' f' ∧
      Spec.getFields f'.erase (keyToPath (if target = [] then field else target)) = .ok (.scalar (.str (conv s))) ∧
      ∀ q, q ≠ [] → ¬ Related (keyToPath (if target = [] then field else target)) q → Spec.getFields f'.erase q = Spec.getFields f.erase q := by
  have hc := convert_spec o conv msg field target
  have hsp : Spec.convert conv msg field target f.erase = Spec.putP f.erase (if target = [] then field else target) (Spec.str (conv s)) := by
    simp [Spec.convert, hs]
  rw [hsp] at hc
  cases hp : Spec.putP f.erase (if target = [] then field else target) (Spec.str (conv s)) with
  | panic => simp [hp, ProcPost, hrun] at hc
  | ok r =>
    obtain ⟨F', pe⟩ := r
    simp only [hp, ProcPost, hrun, Res.ok.injEq, Prod.mk.injEq] at hc
    obtain ⟨h1, f', err, ⟨rfl, rfl, rfl⟩, k2, rfl, k4, _⟩ := hc
    have : pe = none := by cases pe <;> simp [procErrMatches] at k4 ⊢
    subst this
    obtain ⟨g1, g2⟩ := putP_ok rfl hp
    exact ⟨f', rfl, k2, g1, g2⟩

/-- C34. A field that is absent: missing-key error. A field that is there but not a string: an error that is not a missing-key error and says so. Either way nothing changed. -/
theorem convert_other {h : Heap} {f : AFields} (o : Owns h f) (conv : Bytes → Bytes) (msg field target : Bytes) {v : Val}
    (hs : Spec.getFields f.erase (keyToPath field) = .ok v) (hv : ∀ s, v ≠ .scalar (.str s)) :
    ∃ h' f' err, convProcess conv msg field target h f.event = .ok (h', AFields.event f', some err) ∧ Owns h' f' ∧ f'.erase = f.erase ∧
      (v = .nilp → err = .keyMissing field) ∧ (v ≠ .nilp → err.isMissing = false ∧ err.text = msg) := by
  have hc := convert_spec o conv msg field target
  have hsp : Spec.convert conv msg field target f.erase = .ok (f.erase, some (if v.isNil then .missing field else .other msg)) := by
    simp only [Spec.convert, hs, Res.bind_ok]
    cases v with
    | scalar s => cases s <;> first | rfl | exact absurd rfl (hv _)
    | _ => rfl
  rw [hsp] at hc
  obtain ⟨h1, f', err, k1, k2, k3, k4, _⟩ := hc
  cases err with
  | none => simp [procErrMatches] at k4
  | some err =>
    refine ⟨h1, f', err, k1, k2, k3, ?_, ?_⟩
    · rintro rfl; simpa [Val.isNil, procErrMatches] using k4
    · intro hn
      have : v.isNil = false := by cases v <;> simp [Val.isNil] at hn ⊢
      simpa [this, procErrMatches] using k4

/-- Where something was found, something can be stored. -/
theorem store_of_get {m : AMap Val} {path : List Bytes} {v w : Val} (hp : path ≠ []) (hg : Spec.get m path = .ok v) (hn : v ≠ .nilp) : ∃ m', Spec.store m path w = .ok (some m') := by
  induction path generalizing m with
  | nil => exact absurd rfl hp
  | cons k ks ih =>
    cases ks with
    | nil => exact ⟨_, rfl⟩
    | cons k2 ks =>
      simp only [Spec.get] at hg
      simp only [Spec.store]
      split at hg
      · next es hl =>
        obtain ⟨m', h1⟩ := ih (by simp) hg
        exact ⟨m.insert k (.obj m'), by simp only [hl, h1]; rfl⟩
      · simp at hg
      · simp only [Res.ok.injEq] at hg; exact absurd hg.symm hn

/-- C35. `append` to an array: the value is added at the end, even if it is there already and whatever `allow_duplicates` says. -/
theorem append_array {h : Heap} {f : AFields} (o : Owns h f) (field value : Bytes) (dup : Bool) {vs : List Val}
    (hs : Spec.getFields f.erase (keyToPath field) = .ok (.arr vs)) :
    ∃ h' f', appendProcess field value dup h f.event = .ok (h', AFields.event f', none) ∧ Owns h' f' ∧
      Spec.getFields f'.erase (keyToPath field) = .ok (.arr (vs ++ [Spec.str value])) ∧
      ∀ q, q ≠ [] → ¬ Related (keyToPath field) q → Spec.getFields f'.erase q = Spec.getFields f.erase q := by
  have hc := append_spec o field value dup
  have hsp : Spec.append field value f.erase = (Spec.putP f.erase field (.arr (vs ++ [Spec.str value]))).map fun (f', _) => (f', none) := by
    simp [Spec.append, hs]
  rw [hsp] at hc
  have hp : keyToPath field ≠ [] := by
    intro hc
    rw [hc] at hs
    simp only [Spec.getFields, if_true] at hs
    split at hs <;> simp at hs
  -- storing where an array was found succeeds
  obtain ⟨m, hst⟩ : ∃ m, Spec.store (f.erase.getD []) (keyToPath field) (.arr (vs ++ [Spec.str value])) = .ok (some m) := by
    cases hfe : f.erase with
    | none => rw [hfe] at hs; simp [Spec.getFields] at hs
    | some es =>
      rw [hfe, getFields_some _ _ hp] at hs
      exact store_of_get hp hs (by simp)
  have hput : Spec.putP f.erase field (.arr (vs ++ [Spec.str value])) = .ok (some m, none) := by
    simp only [Spec.putP]; rw [putFields_eq _ _ _ hp rfl, hs]; simp [hst]
  rw [hput] at hc
  obtain ⟨h1, f', err, k1, k2, k3, k4, _⟩ := hc
  have : err = none := by cases err <;> simp [procErrMatches] at k4 ⊢
  subst this
  obtain ⟨g1, g2⟩ := putP_ok rfl hput
  exact ⟨h1, f', k1, k2, by rw [k3]; exact g1, by rw [k3]; exact g2⟩

/-- C35. `append` to a string field: success, and the event is unchanged. -/
theorem append_string {h : Heap} {f : AFields} (o : Owns h f) (field value : Bytes) (dup : Bool) {s : Bytes}
    (hs : Spec.getFields f.erase (keyToPath field) = .ok (.scalar (.str s))) :
    ∃ h' f', appendProcess field value dup h f.event = .ok (h', AFields.event f', none) ∧ Owns h' f' ∧ f'.erase = f.erase := by
  have hc := append_spec o field value dup
  have hsp : Spec.append field value f.erase = .ok (f.erase, none) := by simp [Spec.append, hs]
  rw [hsp] at hc
  obtain ⟨h1, f', err, k1, k2, k3, k4, _⟩ := hc
  have : err = none := by cases err <;> simp [procErrMatches] at k4 ⊢
  subst this
  exact ⟨h1, f', k1, k2, k3⟩

/-- C36. `remove` and `community_id` succeed and change nothing, on every event and configuration: the configured fields are still there afterwards. -/
theorem remove_changes_nothing (fields : List Bytes) (h : Heap) (e : Event) (k : Bytes) :
    ∃ h', removeProcess fields h e = .ok (h', e, none) ∧ apiGet h' e k = apiGet h e k := ⟨h, rfl, rfl⟩

theorem communityId_changes_nothing (h : Heap) (e : Event) (k : Bytes) :
    ∃ h', communityIdProcess h e = .ok (h', e, none) ∧ apiGet h' e k = apiGet h e k := ⟨h, rfl, rfl⟩

/-- C16. Copying a scalar: the event still owns its contents, so later changes of one field never show in the other. -/
theorem set_copy_scalar {h : Heap} {f : AFields} (o : Owns h f) {value : Nat} (hv : h[value]? = some (.cell nullCell)) {copyFrom : Bytes} (hc : copyFrom ≠ []) (target : Bytes)
    {s : Scalar} (hs : Spec.getFields f.erase (keyToPath copyFrom) = .ok (.scalar s)) :
    ProcPost h f (setProcess value copyFrom target h f.event) (Spec.putP f.erase target (.scalar s)) := by
  rw [setProcess_copy hv hc]
  have hg := apiGet_spec o copyFrom
  simp only [hs] at hg
  obtain ⟨h1, t, k1, k2, k3, k4, k5, k6, k7⟩ := hg
  cases t <;> simp [ATree.erase] at k3
  next a s' =>
    subst k3
    simp only [k1, ptr]
    have := putThen_spec (t := .leaf a s') o k4 k2 (by simp [fp]) (by simp [fp]) target
    exact this

/-- C38. `eventutil.Append` that succeeds: the new array is at the key, everything unrelated is unchanged. -/
theorem utilAppend_result {h : Heap} {f : AFields} {t : ATree} (o : Owns h f) (ht : Rep h t) (hd : t.fp.Nodup) (hdis : ∀ a ∈ t.fp, a ∉ f.fp) (hn : t ≠ .nilp) (key : Bytes)
    {h' : Heap} {e' : Event} (hrun : utilAppend h f.event key t.ptr = .ok (h', e', none)) :
    ∃ f' old, e' = AFields.event f' ∧ Owns h' f' ∧ Spec.getFields f.erase (keyToPath key) = .ok old ∧
      (∃ v, Spec.getFields f'.erase (keyToPath key) = .ok v ∧ Spec.asList v = Spec.asList old ++ Spec.elements t.erase ∧ (v = .arrNil ∨ ∃ vs, v = .arr vs)) ∧
      ∀ q, q ≠ [] → ¬ Related (keyToPath key) q → Spec.getFields f'.erase q = Spec.getFields f.erase q := by
  have hc := utilAppend_spec o ht hd hdis key
  have hen : t.erase.isNil = false := by
    cases hc : t.erase.isNil with
    | false => rfl
    | true => exact absurd (isNil_erase.1 hc) hn
  simp only [Spec.utilAppend, hen, Bool.false_eq_true, if_false] at hc
  cases hg : Spec.getFields f.erase (keyToPath key) with
  | panic => simp [hg, UtilPost, hrun] at hc
  | ok old =>
    have hnew : (Spec.appended old (Spec.elements t.erase) = .arrNil ∨ ∃ vs, Spec.appended old (Spec.elements t.erase) = .arr vs) ∧
        Spec.asList (Spec.appended old (Spec.elements t.erase)) = Spec.asList old ++ Spec.elements t.erase := by
      cases he : Spec.elements t.erase with
      | nil => cases old <;> simp [Spec.appended, Spec.asList, Spec.elements]
      | cons x xs => simp [Spec.appended, Spec.asList, Spec.elements]
    have hni : (Spec.appended old (Spec.elements t.erase)).isNil = false := by
      rcases hnew.1 with h | ⟨vs, h⟩ <;> rw [h] <;> rfl
    simp only [hg, Res.bind_ok] at hc
    cases hpf : Spec.putFields f.erase (keyToPath key) (Spec.appended old (Spec.elements t.erase)) true with
    | panic => simp [hpf, UtilPost, hrun] at hc
    | ok r =>
      obtain ⟨F', V, er⟩ := r
      simp only [hpf, Res.map_ok, UtilPost, hrun, Res.ok.injEq, Prod.mk.injEq] at hc
      obtain ⟨h1, f', err, ⟨rfl, rfl, rfl⟩, k2, rfl, k4, _⟩ := hc
      have : er = none := by cases er <;> simp [errMatches] at k4 ⊢
      subst this
      have hput : Spec.putP f.erase key (Spec.appended old (Spec.elements t.erase)) = .ok (f'.erase, none) := by simp [Spec.putP, hpf]
      obtain ⟨g1, g2⟩ := putP_ok hni hput
      exact ⟨f', old, rfl, k2, rfl, ⟨_, g1, hnew.2, hnew.1⟩, g2⟩

/-! ## Examples: the hypotheses are met -/

example : Spec.getFields (AFields.erase sampleHeap.2.1) (keyToPath (lit "a.b")) = .ok (.scalar (.str (lit "x"))) := by
  rw [sample_owns.2.2.2.2]; rfl

/-- A conversion that runs on the sample event. -/
example : ∃ h' e', convProcess (fun _ => lit "X") (lit "m") (lit "a.b") (lit "c") sampleHeap.1 (AFields.event sampleHeap.2.1) = .ok (h', e', none) := by
  simp only [sampleHeap, sampleFields, buildE, build, buildL, Heap.alloc]
  exact ⟨_, _, rfl⟩

/-- A missing field and a field that is not a string. -/
example : Spec.getFields (AFields.erase sampleHeap.2.1) (keyToPath (lit "zz")) = .ok .nilp ∧
    Spec.getFields (AFields.erase sampleHeap.2.1) (keyToPath (lit "l")) = .ok (.arr [.scalar .null]) := by
  rw [sample_owns.2.2.2.2]; exact ⟨rfl, rfl⟩

/-- `copy_from` with the source above the target does succeed on the sample event (and makes a cycle). -/
example : ∃ h' e', setProcess sampleHeap.1.length (lit "a") (lit "a.c") (sampleHeap.1 ++ [.cell nullCell]) (AFields.event sampleHeap.2.1) = .ok (h', e', none) := by
  simp only [sampleHeap, sampleFields, buildE, build, buildL, Heap.alloc]
  exact ⟨_, _, rfl⟩

example : ProperPrefix (keyToPath (lit "a")) (keyToPath (lit "a.c")) ∧ ¬ ProperPrefix (keyToPath (lit "l")) (keyToPath (lit "k")) ∧
    ¬ ProperPrefix (keyToPath (lit "k")) (keyToPath (lit "l")) := by
  refine ⟨⟨lit "c", [], rfl⟩, ?_, ?_⟩
  · rintro ⟨k, ks, h⟩
    have : (keyToPath (lit "k")).length = 1 := rfl
    rw [h] at this
    simp [show keyToPath (lit "l") = [lit "l"] from rfl] at this
  · rintro ⟨k, ks, h⟩
    have : (keyToPath (lit "l")).length = 1 := rfl
    rw [h] at this
    simp [show keyToPath (lit "k") = [lit "k"] from rfl] at this

/-- Copying the array `l` of the sample event to `k` succeeds. -/
example : ∃ h' e', setProcess sampleHeap.1.length (lit "l") (lit "k") (sampleHeap.1 ++ [.cell nullCell]) (AFields.event sampleHeap.2.1) = .ok (h', e', none) := by
  simp only [sampleHeap, sampleFields, buildE, build, buildL, Heap.alloc]
  exact ⟨_, _, rfl⟩

/-- `eventutil.Append` on the sample event. -/
example : ∃ h' e', utilAppend sampleHeap.1 (AFields.event sampleHeap.2.1) (lit "n") sampleHeap.2.2.ptr = .ok (h', e', none) := by
  simp only [sampleHeap, sampleFields, buildE, build, buildL, Heap.alloc]
  exact ⟨_, _, rfl⟩

end Sawmill
