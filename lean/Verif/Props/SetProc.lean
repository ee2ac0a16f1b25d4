import Verif.Lemmas.HeapReads
import Verif.Props.Processors
/-!
# C16, C17, C37: the `set` processor
-/

namespace Sawmill
open ATree

/-- As `ProcPost`, for a run after which the event may also hold the mutable parts `S` of a value that was put into it. -/
def ProcPostWith (S : List Nat) (h : Heap) (f : AFields) (run : Res (Heap × Event × Option Err)) (r : Res (Fields × Option Spec.PErr)) : Prop :=
  match r with
  | .panic => run = .panic
  | .ok (F', pe) => ∃ h' f' err, run = .ok (h', AFields.event f', err) ∧ Owns h' f' ∧ f'.erase = F' ∧ procErrMatches err pe ∧ Frame f.fp h h' ∧
      (∀ a ∈ f'.fp, a ∈ f.fp ∨ a ∈ S ∨ h.length ≤ a)

theorem procPost_of_with {h : Heap} {f : AFields} {run : Res (Heap × Event × Option Err)} {r : Res (Fields × Option Spec.PErr)} (hw : ProcPostWith [] h f run r) :
    ProcPost h f run r := by
  cases r with
  | panic => exact hw
  | ok r =>
    obtain ⟨F', pe⟩ := r
    obtain ⟨h', f', err, k1, k2, k3, k4, k5, k6⟩ := hw
    exact ⟨h', f', err, k1, k2, k3, k4, k5, fun a ha => by simpa using k6 a ha⟩

theorem putThen_with {h : Heap} {f : AFields} {t : ATree} (o : Owns h f) (ht : Rep h t) (hd : t.fp.Nodup) (hdis : ∀ a ∈ t.fp, a ∉ f.fp) (key : Bytes) :
    ProcPostWith t.fp h f (putThen h f.event key t.ptr) (Spec.putP f.erase key t.erase) := by
  have hk := put_spec o ht hd hdis (keyToPath key) true
  simp only [ProcPostWith, Spec.putP, putThen, apiPut]
  cases hs : Spec.putFields f.erase (keyToPath key) t.erase true with
  | panic => simp only [PutPost, hs] at hk; simp [hk]
  | ok r =>
    obtain ⟨F', V, er⟩ := r
    simp only [PutPost, hs] at hk
    obtain ⟨h', f', old, err', k1, k2, k3, k4, k5, k6, k7, k8, k9, k10, k11⟩ := hk
    simp only [Res.map_ok, k1]
    exact ⟨h', f', err'.map PutErr.toErr, rfl, k2, k3, put_err_says k1 k6, k7, k8⟩

theorem set_notnull {v : Val} (hn : v ≠ .scalar .null) (copyFrom target : Bytes) (F : Fields) : Spec.set v copyFrom target F = Spec.putP F target v := by
  cases v with
  | scalar s => cases s <;> first | exact absurd rfl hn | rfl
  | _ => rfl

/-- C37. `set` with a configured value: the value is put at the target field, whatever `copy_from` says. -/
theorem set_value_spec {h : Heap} {f : AFields} {t : ATree} (o : Owns h f) (ht : Rep h t) (hd : t.fp.Nodup) (hdis : ∀ a ∈ t.fp, a ∉ f.fp) {value : Nat}
    (hv : t.ptr = some value) (hnull : t.erase ≠ .scalar .null) (copyFrom target : Bytes) :
    ProcPostWith t.fp h f (setProcess value copyFrom target h f.event) (Spec.set t.erase copyFrom target f.erase) := by
  have hn : t ≠ .nilp := by rintro rfl; simp [ptr] at hv
  obtain ⟨a, c, d1, d2, _, _, d5, _⟩ := deref_rep ht hn
  rw [hv, Option.some.injEq] at d1
  subst d1
  have hc : c.type ≠ .null := fun hc => by
    obtain ⟨b, rfl⟩ := d5.1 hc
    exact hnull rfl
  simp only [setProcess, d2, ne_eq, hc, not_false_eq_true, if_true]
  rw [set_notnull hnull, ← hv]
  exact putThen_with o ht hd hdis target

/-- C37. `set` with a scalar value: nothing of the configuration that could change later is in the event. -/
theorem set_scalar_spec {h : Heap} {f : AFields} (o : Owns h f) {value : Nat} {s : Scalar} (hv : h[value]? = some (.cell (scalarCell s))) (hnull : s ≠ .null)
    (copyFrom target : Bytes) : ProcPost h f (setProcess value copyFrom target h f.event) (Spec.set (.scalar s) copyFrom target f.erase) := by
  have := set_value_spec (t := .leaf value s) o (by simpa [Rep] using hv) (by simp [fp]) (by simp [fp]) (value := value) rfl (by simpa [ATree.erase] using hnull) copyFrom target
  exact procPost_of_with (by simpa [fp, ATree.erase] using this)

/-- C37. `set` with neither a value nor a source: success without effect (an error if the target names no field). A configured null counts as no value. -/
theorem set_nothing_spec {h : Heap} {f : AFields} (o : Owns h f) {value : Nat} (hv : h[value]? = some (.cell nullCell)) (target : Bytes) :
    ProcPost h f (setProcess value [] target h f.event) (Spec.set (.scalar .null) [] target f.erase) := by
  simp only [setProcess, deref, hv, nullCell, ne_eq, not_true_eq_false, if_false, Spec.set, if_true]
  have := putThen_with (t := .nilp) o (by simp [Rep]) (by simp [fp]) (by simp [fp]) target
  exact procPost_of_with (by simpa [fp, ATree.erase, ptr] using this)

/-- Outcome of `copy_from` against the specification; the event need not own its contents afterwards. -/
def CopyPost (h : Heap) (f : AFields) (run : Res (Heap × Event × Option Err)) (r : Res (Fields × Option Spec.PErr)) : Prop :=
  match r with
  | .panic => run = .panic
  | .ok (F', pe) => ∃ h' e' err, run = .ok (h', e', err) ∧ Holds h' e' F' ∧ procErrMatches err pe ∧ Frame f.fp h h'

theorem setProcess_copy {h : Heap} {value : Nat} (hv : h[value]? = some (.cell nullCell)) {copyFrom : Bytes} (hc : copyFrom ≠ []) (target : Bytes) (e : Event) :
    setProcess value copyFrom target h e = match apiGet h e copyFrom with
      | .panic => .panic
      | .ok (h, none) => .ok (h, e, some (.keyMissing copyFrom))
      | .ok (h, some a) => putThen h e target (some a) := by
  simp only [setProcess, deref, hv, nullCell, hc, ne_eq, not_true_eq_false, if_false, not_false_eq_true, if_true]
  rcases hx : apiGet h e copyFrom with _ | ⟨h1, _ | a⟩ <;> rfl

theorem spec_set_copy {copyFrom : Bytes} (hc : copyFrom ≠ []) (target : Bytes) (F : Fields) {v : Val} (hg : Spec.getFields F (keyToPath copyFrom) = .ok v) :
    Spec.set (.scalar .null) copyFrom target F = if v.isNil then .ok (F, some (.missing copyFrom)) else Spec.putP F target v := by
  simp only [Spec.set, hc, if_false, hg, Res.bind_ok]
  cases v <;> simp [Val.isNil]

/-- C17, C37. `set` with `copy_from`, when the source is not above the target: the contents are those of storing a copy of the source's value at the target; a missing source
is a missing-key error and changes nothing. The event stays finite. -/
theorem set_copy_spec {h : Heap} {f : AFields} (o : Owns h f) {value : Nat} (hv : h[value]? = some (.cell nullCell)) {copyFrom : Bytes} (hc : copyFrom ≠ []) (target : Bytes)
    (hnp : ¬ ProperPrefix (keyToPath copyFrom) (keyToPath target)) :
    CopyPost h f (setProcess value copyFrom target h f.event) (Spec.set (.scalar .null) copyFrom target f.erase) := by
  have hg := apiGet_spec o copyFrom
  rw [setProcess_copy hv hc]
  cases hs : Spec.getFields f.erase (keyToPath copyFrom) with
  | panic => simp only [hs] at hg; simp [hg, CopyPost, Spec.set, hc, hs]
  | ok v =>
    rw [spec_set_copy hc _ _ hs]
    simp only [hs] at hg
    obtain ⟨h1, t, k1, k2, k3, k4, k5, k6, k7⟩ := hg
    by_cases hn : t = .nilp
    · subst hn
      simp only [ATree.erase] at k3
      subst k3
      simp only [k1, ptr, Val.isNil, if_true, CopyPost]
      exact ⟨h1, _, _, rfl, k5.holds, rfl, k4.mono (by simp) o.thaw⟩
    · have hvn : v.isNil = false := by
        cases hc : v.isNil with
        | false => rfl
        | true => rw [← k3] at hc; exact absurd (isNil_erase.1 hc) hn
      have hvn' : v ≠ .nilp := by rintro rfl; simp [Val.isNil] at hvn
      obtain ⟨a, c, d1, _⟩ := deref_rep k2 hn
      simp only [k1, d1, hvn, Bool.false_eq_true, if_false]
      by_cases ht : keyToPath target = []
      · simp only [putThen, apiPut, ht, put, List.length_nil, if_true, Res.map_ok, Spec.putP, Spec.putFields, CopyPost]
        exact ⟨h1, _, _, rfl, k5.holds, ⟨rfl, rfl⟩, k4.mono (by simp) o.thaw⟩
      · have hsrc : keyToPath copyFrom ≠ [] := by
          intro hc2
          rw [hc2] at hnp
          obtain ⟨x, xs, hx⟩ := List.exists_cons_of_ne_nil ht
          exact hnp ⟨x, xs, hx⟩
        obtain rfl := k7 hsrc
        cases f with
        | none => simp [AFields.erase, Spec.getFields] at hs; exact absurd hs.symm hvn'
        | some f =>
          obtain ⟨m, es⟩ := f
          have om : OwnsMap h1 m es := ⟨o.1, o.2.1, o.2.2.1, o.2.2.2⟩
          have hgs := get_spec' om _ hsrc
          simp only [AFields.erase, getFields_some _ _ hsrc, aget_erase] at hs
          simp only [apiGet, AFields.event, hgs] at k1
          obtain ⟨t', hg⟩ : ∃ t', aget es (keyToPath copyFrom) = .ok t' := by
            cases hg : aget es (keyToPath copyFrom) with
            | panic => simp [hg] at hs
            | ok t' => exact ⟨t', rfl⟩
          simp only [hg, Res.map_ok, Res.ok.injEq, Prod.mk.injEq, true_and] at hs k1
          rw [d1] at k1
          obtain ⟨tr, tsub⟩ := aget_sub om.rep hg
          have htn : t' ≠ .nilp := by rintro rfl; simp [ptr] at k1
          simp only [putThen, apiPut, AFields.event, Spec.putP, AFields.erase]
          rw [putFields_eq _ _ _ ht hvn, getFields_some _ _ ht, aget_erase]
          cases hgt : aget es (keyToPath target) with
          | panic =>
            rw [← k1, put_eq_some ht (by simp [k1]), get_spec' om _ ht, hgt]
            simp [CopyPost]
          | ok old =>
            have hps := put_share om tr htn _ ht (touched_disjoint' _ _ om hg hnp) hgt
            rw [k1] at hps
            simp only [Res.map_ok, Res.bind_ok, Option.getD_some]
            rw [← hs, astore_erase h1.length]
            cases ha : astore h1.length es (keyToPath target) t' with
            | panic => simp only [ha] at hps; simp [hps, CopyPost]
            | ok r =>
              cases r with
              | none =>
                simp only [ha] at hps
                simp only [hps, Res.map_ok, Option.map_none, Res.bind_ok, CopyPost]
                exact ⟨h1, _, _, rfl, om.owns.holds, ⟨rfl, by simp only [PutErr.toErr, Err.text, Spec.Error.says, pathString_slashed ht]⟩, (Frame.refl h1).mono (by simp) om.thaw⟩
              | some es' =>
                simp only [ha] at hps
                obtain ⟨h2, p1, p2, p3, p4, p5⟩ := hps
                simp only [p1, Res.map_ok, Option.map_some, Res.bind_ok, CopyPost]
                exact ⟨h2, _, _, rfl, ⟨m, ptrMap es', rfl, p2, repE_reads _ p4⟩, trivial, p5.mono (touched_sub _ _ _) om.thaw⟩

/-- C17. `set` with `copy_from` a field above the target (every field is below "."): either it fails and changes nothing, or it succeeds and the event contains itself, so
that it has no finite contents any more. -/
theorem set_copy_above {h h' : Heap} {f : AFields} (o : Owns h f) {value : Nat} (hv : h[value]? = some (.cell nullCell)) {copyFrom : Bytes} (hc : copyFrom ≠ []) (target : Bytes)
    (hpp : ProperPrefix (keyToPath copyFrom) (keyToPath target)) {e' : Event} {err : Option Err}
    (hrun : setProcess value copyFrom target h f.event = .ok (h', e', err)) :
    (err ≠ none ∧ e' = f.event ∧ Holds h' e' f.erase) ∨ (err = none ∧ ¬ ∃ F, Holds h' e' F) := by
  obtain ⟨k, ks, hpre⟩ := hpp
  have ht : keyToPath target ≠ [] := by rw [hpre]; simp
  rw [setProcess_copy hv hc] at hrun
  have hg := apiGet_spec o copyFrom
  cases hs : Spec.getFields f.erase (keyToPath copyFrom) with
  | panic => simp only [hs] at hg; simp [hg] at hrun
  | ok v =>
    simp only [hs] at hg
    obtain ⟨h1, t, k1, k2, k3, k4, k5, k6, k7⟩ := hg
    by_cases hn : t = .nilp
    · subst hn
      simp only [k1, ptr, Res.ok.injEq, Prod.mk.injEq] at hrun
      obtain ⟨rfl, rfl, rfl⟩ := hrun
      exact .inl ⟨by simp, rfl, k5.holds⟩
    · obtain ⟨a, c, d1, d2, _⟩ := deref_rep k2 hn
      have hvn : v ≠ .nilp := by rintro rfl; exact hn (erase_nilp.1 k3)
      cases f with
      | none => simp [AFields.erase, Spec.getFields] at hs; exact absurd hs.symm hvn
      | some f =>
        obtain ⟨m, es⟩ := f
        have om : OwnsMap h m es := ⟨o.1, o.2.1, o.2.2.1, o.2.2.2⟩
        have om1 : OwnsMap h1 m es := ⟨k5.1, k5.2.1, k5.2.2.1, k5.2.2.2⟩
        simp only [k1, d1] at hrun
        simp only [putThen, apiPut, AFields.event] at hrun
        rw [put_eq_some ht (by simp), get_spec' om1 _ ht] at hrun
        cases hgt : aget es (keyToPath target) with
        | panic => simp [hgt] at hrun
        | ok old =>
          simp only [hgt, Res.map_ok, Bool.true_eq_false, and_false, if_false] at hrun
          cases hpl : putLoop h1 (some m) (keyToPath target) (some a) with
          | panic => simp [hpl] at hrun
          | ok r =>
            obtain ⟨h2, b⟩ := r
            cases b with
            | false =>
              have := putLoop_refused _ om1 hpl
              subst this
              simp only [hpl, Res.map_ok, Res.ok.injEq, Prod.mk.injEq] at hrun
              obtain ⟨rfl, rfl, rfl⟩ := hrun
              exact .inl ⟨by simp, rfl, k5.holds⟩
            | true =>
              simp only [hpl, Res.map_ok, Res.ok.injEq, Prod.mk.injEq] at hrun
              obtain ⟨rfl, rfl, rfl⟩ := hrun
              refine .inr ⟨rfl, ?_⟩
              obtain ⟨i1, i2, i3, i4⟩ := putLoop_raw _ ht om1 hpl
              rintro ⟨F, hF⟩
              cases F with
              | none => simp [Holds] at hF
              | some F =>
                simp only [Holds] at hF
                obtain ⟨m0, ps, h01, hm, hr⟩ := hF
                simp only [Option.some.injEq] at h01
                subst h01
                by_cases hsrc : keyToPath copyFrom = []
                · -- the root
                  have hne : es ≠ [] := by
                    rintro rfl; simp [AFields.erase, eraseE, Spec.getFields] at hs; exact hvn hs.symm
                  simp only [apiGet, hsrc, get, AFields.event, mapOf, om.at_] at k1
                  have : ¬ (ptrMap es).length = 0 := by simpa [ptrMap, AMap.mapVals] using hne
                  simp only [this, if_false, Heap.alloc, Res.ok.injEq, Prod.mk.injEq] at k1
                  obtain ⟨rfl, k1⟩ := k1
                  rw [d1, Option.some.injEq] at k1
                  subst k1
                  have hcell : (h ++ [HObj.cell (objCell (some m))])[h.length]? = some (.cell (objCell (some m))) := by simp
                  exact no_reads_of_root hm _ ht (i1.getFrozen hcell (by simp [objCell])) i2 F hr
                · obtain rfl := k7 hsrc
                  have hgs := get_spec' om _ hsrc
                  simp only [apiGet, AFields.event, hgs] at k1
                  rw [hpre] at hpl
                  rcases putLoop_through _ _ _ om hpl with h0 | ⟨b, m1, es1, h0⟩
                  · simp only [h0, Res.map_ok, Res.ok.injEq, Prod.mk.injEq, true_and, d1] at k1
                    simp [ptr] at k1
                  · simp only [h0, Res.map_ok, Res.ok.injEq, Prod.mk.injEq, true_and, d1] at k1
                    simp only [ptr, Option.some.injEq] at k1
                    subst k1
                    have hrep := (aget_sub om.rep h0).1
                    simp only [Rep] at hrep
                    have g1 := i4 _ _ _ hpre _ _ _ h0
                    rw [hpre] at i2
                    exact no_reads_of_loop hm _ hsrc k ks (i1.getFrozen hrep.1 (by simp [objCell])) g1 i2 F hr

/-! ## C16: copies share arrays and objects -/

theorem related_iff {p q : List Bytes} : Related p q ↔ p = q ∨ ProperPrefix p q ∨ ProperPrefix q p := by
  have key : ∀ p q : List Bytes, p <+: q ↔ p = q ∨ ProperPrefix p q := by
    intro p q
    constructor
    · rintro ⟨r, rfl⟩
      cases r with
      | nil => simp
      | cons k ks => exact .inr ⟨k, ks, rfl⟩
    · rintro (rfl | ⟨k, ks, rfl⟩)
      · exact List.prefix_refl _
      · exact List.prefix_append _ _
  simp only [Related, key]
  grind

/-- What a successful copy leaves in the heap. -/
theorem set_copy_state {h h' : Heap} {f : AFields} (o : Owns h f) {value : Nat} (hv : h[value]? = some (.cell nullCell)) {copyFrom : Bytes} (hc : copyFrom ≠ []) (target : Bytes)
    (hsrc : keyToPath copyFrom ≠ []) (h1 : ¬ ProperPrefix (keyToPath copyFrom) (keyToPath target)) (h2 : ¬ ProperPrefix (keyToPath target) (keyToPath copyFrom)) {e' : Event}
    (hrun : setProcess value copyFrom target h f.event = .ok (h', e', none)) :
    ∃ m es' t, t ≠ .nilp ∧ e' = some m ∧ h'[m]? = some (.map (ptrMap es')) ∧ RepE h' es' ∧ t.fp.Nodup ∧ keyToPath target ≠ [] ∧
      aget es' (keyToPath copyFrom) = .ok t ∧ aget es' (keyToPath target) = .ok t ∧ apiGet h f.event copyFrom = .ok (h, t.ptr) ∧
      Spec.getFields f.erase (keyToPath copyFrom) = .ok t.erase := by
  rw [setProcess_copy hv hc] at hrun
  have hg := apiGet_spec o copyFrom
  cases hs : Spec.getFields f.erase (keyToPath copyFrom) with
  | panic => simp only [hs] at hg; simp [hg] at hrun
  | ok v =>
    simp only [hs] at hg
    obtain ⟨h1', t, k1, k2, k3, k4, k5, k6, k7⟩ := hg
    obtain rfl := k7 hsrc
    by_cases hn : t = .nilp
    · subst hn
      simp [k1, ptr] at hrun
    · obtain ⟨a, c, d1, d2, _⟩ := deref_rep k2 hn
      have hvn : v ≠ .nilp := by rintro rfl; exact hn (erase_nilp.1 k3)
      have ht : keyToPath target ≠ [] := by
        intro hc2
        simp [k1, d1, putThen, apiPut, hc2, put] at hrun
      cases f with
      | none => simp [AFields.erase, Spec.getFields] at hs; exact absurd hs.symm hvn
      | some f =>
        obtain ⟨m, es⟩ := f
        have om : OwnsMap h1' m es := ⟨o.1, o.2.1, o.2.2.1, o.2.2.2⟩
        have hgs := get_spec' om _ hsrc
        have k1' := k1
        simp only [apiGet, AFields.event, hgs] at k1
        obtain ⟨t', hg⟩ : ∃ t', aget es (keyToPath copyFrom) = .ok t' := by
          cases hg : aget es (keyToPath copyFrom) with
          | panic => simp [hg] at k1
          | ok t' => exact ⟨t', rfl⟩
        simp only [AFields.erase, getFields_some _ _ hsrc, aget_erase, hg, Res.map_ok, Res.ok.injEq] at hs
        simp only [hg, Res.map_ok, Res.ok.injEq, Prod.mk.injEq, true_and] at k1
        obtain ⟨tr, tsub⟩ := aget_sub om.rep hg
        have htn : t' ≠ .nilp := by rintro rfl; rw [d1] at k1; simp [ptr] at k1
        simp only [k1', d1] at hrun
        simp only [putThen, apiPut, AFields.event] at hrun
        cases hgt : aget es (keyToPath target) with
        | panic =>
          rw [put_eq_some ht (by simp), get_spec' om _ ht, hgt] at hrun
          simp at hrun
        | ok old =>
          have hps := put_share om tr htn _ ht (touched_disjoint' _ _ om hg h1) hgt
          rw [k1, d1] at hps
          cases ha : astore h1'.length es (keyToPath target) t' with
          | panic => simp only [ha] at hps; simp [hps] at hrun
          | ok r =>
            cases r with
            | none => simp only [ha] at hps; simp [hps] at hrun
            | some es' =>
              simp only [ha] at hps
              obtain ⟨h3, p1, p2, p3, p4, p5⟩ := hps
              simp only [p1, Res.map_ok, Option.map_none, Res.ok.injEq, Prod.mk.injEq, and_true] at hrun
              obtain ⟨rfl, rfl⟩ := hrun
              have hgs2 : aget es' (keyToPath copyFrom) = .ok t' := by
                by_cases heq : keyToPath copyFrom = keyToPath target
                · rw [heq]; exact aget_astore_self ht ha
                · rw [← hg]; exact aget_astore_other ha (by rw [related_iff]; rintro (h | h | h); exact heq h.symm; exact h2 h; exact h1 h)
              exact ⟨m, es', t', htn, rfl, p2, p4, aget_nodup (List.nodup_cons.1 om.nodup).2 hg, ht, hgs2, aget_astore_self ht ha, by rw [k1', k1], by rw [hs]⟩

/-- C16. After a successful `copy_from` both fields hold the very same pointer, the one `Get(source)` returned before (neither field being above the other, and the source
not the whole event). -/
theorem set_copy_alias {h h' : Heap} {f : AFields} (o : Owns h f) {value : Nat} (hv : h[value]? = some (.cell nullCell)) {copyFrom : Bytes} (hc : copyFrom ≠ []) (target : Bytes)
    (hsrc : keyToPath copyFrom ≠ []) (h1 : ¬ ProperPrefix (keyToPath copyFrom) (keyToPath target)) (h2 : ¬ ProperPrefix (keyToPath target) (keyToPath copyFrom)) {e' : Event}
    (hrun : setProcess value copyFrom target h f.event = .ok (h', e', none)) :
    ∃ p, p ≠ none ∧ apiGet h f.event copyFrom = .ok (h, p) ∧ apiGet h' e' copyFrom = .ok (h', p) ∧ apiGet h' e' target = .ok (h', p) := by
  obtain ⟨m, es', t, k1, rfl, k3, k4, k5, ht, k6, k7, k8, k9⟩ := set_copy_state o hv hc target hsrc h1 h2 hrun
  refine ⟨t.ptr, fun h => k1 (ptr_eq_none.1 h), k8, ?_, ?_⟩
  · simp [apiGet, get_at k3 k4 _ hsrc, k6]
  · simp [apiGet, get_at k3 k4 _ ht, k7]

/-- C16, as seen by a user. Copy an array field, then append to the original: the copy changes too. -/
theorem copy_then_append {h h' : Heap} {f : AFields} (o : Owns h f) {value : Nat} (hv : h[value]? = some (.cell nullCell)) {copyFrom : Bytes} (hc : copyFrom ≠ []) (target : Bytes)
    (hsrc : keyToPath copyFrom ≠ []) (h1 : ¬ ProperPrefix (keyToPath copyFrom) (keyToPath target)) (h2 : ¬ ProperPrefix (keyToPath target) (keyToPath copyFrom)) {e' : Event}
    (hrun : setProcess value copyFrom target h f.event = .ok (h', e', none)) {vs : List Val} (harr : Spec.getFields f.erase (keyToPath copyFrom) = .ok (.arr vs))
    (item : Bytes) (dup : Bool) :
    ∃ h2 p, appendProcess copyFrom item dup h' e' = .ok (h2, e', none) ∧ apiGet h2 e' target = .ok (h2, p) ∧ apiGet h2 e' copyFrom = .ok (h2, p) ∧
      Reads h2 p (.arr (vs ++ [Spec.str item])) := by
  obtain ⟨m, es', t, k1, rfl, k3, k4, k5, ht, k6, k7, k8, k9⟩ := set_copy_state o hv hc target hsrc h1 h2 hrun
  rw [harr, Res.ok.injEq] at k9
  obtain ⟨a, ts, rfl, hts⟩ : ∃ a ts, t = .arr a ts ∧ eraseL ts = vs := by
    cases t <;> simp [ATree.erase] at k9
    exact ⟨_, _, rfl, k9.symm⟩
  obtain ⟨tr, _⟩ := aget_sub k4 k6
  simp only [Rep] at tr
  simp only [fp, List.nodup_cons] at k5
  have hal := lt_of_getElem? tr.1
  let hs := h' ++ [HObj.cell (strCell item)]
  let h2 := hs.set a (.cell (arrCell (some (ts.map ptr ++ [some h'.length]))))
  have hcell : hs[a]? = some (.cell (arrCell (some (ts.map ptr)))) := by
    simp only [hs]; rw [List.getElem?_append_left hal]; exact tr.1
  have ha2 : h2[a]? = some (.cell (arrCell (some (ts.map ptr ++ [some h'.length])))) := by
    simp only [h2]; exact List.getElem?_set_self (by simp [hs]; omega)
  have fr : Frame [a] h' h2 := by
    refine ⟨by simp [h2, hs], ?_, ?_⟩
    · intro b hb hba
      simp only [List.mem_singleton] at hba
      simp only [h2, hs]
      rw [List.getElem?_set_ne (fun e => hba e.symm), List.getElem?_append_left hb]
    · intro b hb
      simp only [List.mem_singleton] at hb; subst hb
      rintro ⟨c, hc1, hc2⟩
      rw [tr.1, Option.some.injEq, HObj.cell.injEq] at hc1; subst hc1
      exact hc2 rfl
  have hget : ∀ path, path ≠ [] → aget es' path = .ok (.arr a ts) → get h2 (some m) path = .ok (h2, some a) := by
    intro path hp hg
    have hgl := getLoop_arr fr tr.1 ha2 path k3 k4
    rw [getLoop_spec _ k3 k4, hg] at hgl
    have hm2 : h2[m]? = some (.map (ptrMap es')) := fr.get k3 (by
      simp only [List.mem_singleton]; rintro rfl; rw [tr.1] at k3; simp at k3)
    have hne : ¬ (ptrMap es').length = 0 := by
      intro h0
      have : es' = [] := by simpa [ptrMap, AMap.mapVals] using h0
      subst this
      cases path with
      | nil => exact hp rfl
      | cons k ks => cases ks <;> simp [aget] at hg
    cases path with
    | nil => exact absurd rfl hp
    | cons k ks =>
      simp only [get, mapOf, hm2, hne, if_false]
      rw [hgl]; simp [ptr]
  refine ⟨h2, some a, ?_, by simp [apiGet, hget _ ht k7], by simp [apiGet, hget _ hsrc k6], ?_⟩
  · simp only [appendProcess, apiGet, get_at k3 k4 _ hsrc, k6, Res.map_ok, ptr, deref, tr.1, arrCell, Heap.alloc, appendTo]
    simp only [arrCell] at hcell
    simp [show (h' ++ [HObj.cell (strCell item)])[a]? = _ from hcell, h2, hs, arrCell]
  · simp only [Reads, deref, ha2]
    refine ⟨_, rfl, ?_⟩
    have hr2 : RepL h2 (ts ++ [.leaf h'.length (.str item)]) := by
      have := repL_frame fr ts tr.2 (by intro b hb hba; simp only [List.mem_singleton] at hba; subst hba; exact k5.1 hb)
      rw [repL_iff] at this ⊢
      intro e he
      rw [List.mem_append, List.mem_singleton] at he
      rcases he with he | rfl
      · exact this e he
      · simp only [Rep, h2, hs]
        rw [List.getElem?_set_ne (by omega)]
        simp [scalarCell]
    have := repL_reads _ hr2
    simpa [eraseL_eq, ← hts, ptr, ATree.erase, Spec.str] using this

end Sawmill
