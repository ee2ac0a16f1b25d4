import Verif.Lemmas.HeapGeneral
/-!
# Simulation of API histories
-/

namespace Sawmill
open ATree

/-- Invariant tying a world to annotated contents: each event owns its contents, and different events share nothing. -/
structure WorldOk (w : World) (fs : List AFields) : Prop where
  events : w.events = fs.map AFields.event
  owns : ∀ f ∈ fs, Owns w.heap f
  apart : ∀ (i j : Nat) (f g : AFields), fs[i]? = some f → fs[j]? = some g → i ≠ j → ∀ a ∈ f.fp, a ∉ g.fp

theorem WorldOk.frame0 {h h' : Heap} {es : List Event} {fs : List AFields} (w : WorldOk ⟨h, es⟩ fs) (fr : Frame [] h h') :
    WorldOk ⟨h', es⟩ fs :=
  ⟨w.events, fun f hf => (w.owns f hf).frame fr (by simp), w.apart⟩

/-- Changing event `i` inside its own footprint (plus new addresses) keeps the invariant. -/
theorem WorldOk.update {h h' : Heap} {es : List Event} {fs : List AFields} {i : Nat} {f f' : AFields} (w : WorldOk ⟨h, es⟩ fs)
    (hi : fs[i]? = some f) (fr : Frame f.fp h h') (o' : Owns h' f')
    (hfp : ∀ a ∈ f'.fp, a ∈ f.fp ∨ ∀ g ∈ fs, a ∉ g.fp) :
    WorldOk ⟨h', es.set i f'.event⟩ (fs.set i f') := by
  have hil := lt_of_getElem? hi
  refine ⟨by have := w.events; simp only at this; rw [this, List.map_set], ?_, ?_⟩
  · intro g hg
    rw [List.mem_iff_getElem?] at hg
    obtain ⟨j, hj⟩ := hg
    by_cases hij : i = j
    · subst hij
      rw [List.getElem?_set_self hil] at hj
      simp at hj; subst hj
      exact o'
    · rw [List.getElem?_set_ne hij] at hj
      exact (w.owns g (List.mem_of_getElem? hj)).frame fr (w.apart j i g f hj hi (Ne.symm hij))
  · intro a b g k hg hk hab x hx hx'
    have memf : ∀ j g, fs[j]? = some g → g ∈ fs := fun j g hj => List.mem_of_getElem? hj
    by_cases hia : i = a
    · subst hia
      rw [List.getElem?_set_self hil] at hg
      simp at hg; subst hg
      rw [List.getElem?_set_ne hab] at hk
      rcases hfp x hx with h1 | h1
      · exact w.apart i b f k hi hk hab x h1 hx'
      · exact h1 k (memf b k hk) hx'
    · rw [List.getElem?_set_ne hia] at hg
      by_cases hib : i = b
      · subst hib
        rw [List.getElem?_set_self hil] at hk
        simp at hk; subst hk
        rcases hfp x hx' with h1 | h1
        · exact w.apart a i g f hg hi hab x hx h1
        · exact h1 g (memf a g hg) hx
      · rw [List.getElem?_set_ne hib] at hk
        exact w.apart a b g k hg hk hab x hx hx'

theorem put_call_spec {h0 : Heap} {es : List Event} {fs : List AFields} (w : WorldOk ⟨h0, es⟩ fs) {i : Nat} {f : AFields}
    (hi : fs[i]? = some f) (v : Val) (hv : v.Canon) (path : List Bytes) (ow : Bool) :
    match Spec.putFields f.erase path v ow with
    | .panic => put (build h0 v).1 f.event path (build h0 v).2.ptr ow = .panic
    | .ok (F', V, err) => ∃ h' f' old err', put (build h0 v).1 f.event path (build h0 v).2.ptr ow = .ok (h', AFields.event f', ATree.ptr old, err') ∧
        WorldOk ⟨h', es.set i f'.event⟩ (fs.set i f') ∧ f'.erase = F' ∧ Rep h' old ∧ old.erase = V ∧ errMatches err' err ∧ ∃ S, Frame S h0 h' := by
  obtain ⟨b1, b2, b3, b4, b5⟩ := build_spec h0 v hv
  have w1 : WorldOk ⟨(build h0 v).1, es⟩ fs := w.frame0 b5
  have hf : f ∈ fs := List.mem_of_getElem? hi
  have o1 := w1.owns f hf
  have hdis : ∀ a ∈ (build h0 v).2.fp, ∀ g ∈ fs, a ∉ g.fp := fun a ha g hg hc => by
    have := (w.owns g hg).lt a hc
    have := b4 a ha
    simp only at *
    omega
  have key := put_spec o1 b1 b3 (fun a ha => hdis a ha f hf) path ow
  rw [b2] at key
  unfold PutPost at key
  cases hs : Spec.putFields f.erase path v ow with
  | panic => simpa [hs] using key
  | ok r =>
    obtain ⟨F', V, err⟩ := r
    simp only [hs] at key
    obtain ⟨h', f', old, err', k1, k2, k3, k4, k5, k6, k7, k8, k9, k10, k11⟩ := key
    refine ⟨h', f', old, err', k1, ?_, k3, k4, k5, k6, f.fp, (b5.mono (by simp) (w.owns f hf).thaw).trans k7 (fun a ha => .inl ha)⟩
    refine w1.update hi k7 k2 ?_
    intro a ha
    rcases k8 a ha with h1 | h1 | h1
    · exact .inl h1
    · exact .inr (hdis a h1)
    · right
      intro g hg hc
      have := (w1.owns g hg).lt a hc
      simp only at this
      omega

/-- One call: model and specification agree, and the invariant is kept. -/
theorem call_spec {w : World} {fs : List AFields} (hw : WorldOk w fs) (i : Nat) (c : Call) (hc : c.Good Val.Canon) :
    match Spec.call (fs.map AFields.erase) i c with
    | .panic => w.call i c = .panic
    | .ok (s', r) => ∃ w' ret fs', w.call i c = .ok (w', ret) ∧ WorldOk w' fs' ∧ fs'.map AFields.erase = s' ∧ ret.Shows r ∧ ret.heap = w'.heap ∧ ∃ S, Frame S w.heap w'.heap := by
  obtain ⟨h, es⟩ := w
  have hev := hw.events
  simp only at hev
  have hie : es[i]? = (fs[i]?).map AFields.event := by rw [hev, List.getElem?_map]
  have his : (fs.map AFields.erase)[i]? = (fs[i]?).map AFields.erase := by rw [List.getElem?_map]
  simp only [Spec.call, World.call, his, hie]
  cases hf : fs[i]? with
  | none =>
    simp only [Option.map_none]
    exact ⟨_, _, fs, rfl, hw, rfl, ⟨by simp [Reads], trivial⟩, rfl, [], Frame.refl _⟩
  | some f =>
    simp only [Option.map_some]
    have hmem : f ∈ fs := List.mem_of_getElem? hf
    cases c with
    | put k v =>
      have := put_call_spec hw hf v hc (keyToPath k) true
      simp only [apiPut]
      cases hs : Spec.putFields f.erase (keyToPath k) v true with
      | panic => simp only [hs] at this; simp [this]
      | ok r =>
        obtain ⟨F', V, err⟩ := r
        simp only [hs] at this
        obtain ⟨h', f', old, err', k1, k2, k3, k4, k5, k6, k7⟩ := this
        simp only [k1, Res.map_ok]
        refine ⟨_, _, fs.set i f', rfl, k2, by rw [List.map_set, k3], ⟨?_, k6⟩, rfl, k7⟩
        have := rep_reads old k4
        rwa [k5] at this
    | tryPut k v =>
      have := put_call_spec hw hf v hc (keyToPath k) false
      simp only [apiTryPut]
      cases hs : Spec.putFields f.erase (keyToPath k) v false with
      | panic => simp only [hs] at this; simp [this]
      | ok r =>
        obtain ⟨F', V, err⟩ := r
        simp only [hs] at this
        obtain ⟨h', f', old, err', k1, k2, k3, k4, k5, k6, k7⟩ := this
        simp only [k1, Res.map_ok]
        refine ⟨_, _, fs.set i f', rfl, k2, by rw [List.map_set, k3], ⟨?_, k6⟩, rfl, k7⟩
        have := rep_reads old k4
        rwa [k5] at this
    | get k =>
      have := get_spec (hw.owns f hmem) (keyToPath k)
      simp only [apiGet]
      cases hs : Spec.getFields f.erase (keyToPath k) with
      | panic => simp only [hs] at this; simp [this]
      | ok v =>
        simp only [hs] at this
        obtain ⟨h', t, k1, k2, k3, k4, k5, k6⟩ := this
        simp only [k1, Res.map_ok]
        refine ⟨_, _, fs, rfl, hw.frame0 k4, rfl, ⟨?_, trivial⟩, rfl, _, k4⟩
        have := rep_reads t k2
        rwa [k3] at this
    | delete k =>
      have := delete_spec (hw.owns f hmem) (keyToPath k)
      simp only [apiDelete]
      cases hs : Spec.deleteFields f.erase (keyToPath k) with
      | panic => simp only [hs] at this; simp [this]
      | ok r =>
        obtain ⟨F', V⟩ := r
        simp only [hs] at this
        obtain ⟨h', f', old, k1, k2, k3, k4, k5, k6, k7, k8, k9⟩ := this
        simp only [k1, Res.map_ok]
        have hu := hw.update hf k7 k3 (fun a ha => .inl (k8 a ha))
        have hes : es.set i f'.event = es := by
          rw [k2, hev]
          apply List.ext_getElem?
          intro j
          rw [List.getElem?_set]
          split
          · next hij =>
            subst hij
            have hl := lt_of_getElem? hf
            rw [List.getElem?_map, hf]
            simp [hl]
          · rfl
        rw [hes] at hu
        refine ⟨_, _, fs.set i f', rfl, hu, by rw [List.map_set, k4], ⟨?_, trivial⟩, rfl, _, k7⟩
        have := rep_reads old k5
        rwa [k6] at this

theorem run_spec {w : World} {fs : List AFields} (hw : WorldOk w fs) (cs : List (Nat × Call)) (hc : ∀ c ∈ cs, c.2.Good Val.Canon) :
    match Spec.run (fs.map AFields.erase) cs with
    | .panic => w.run cs = .panic
    | .ok (s', rs) => ∃ w' rets fs', w.run cs = .ok (w', rets) ∧ WorldOk w' fs' ∧ fs'.map AFields.erase = s' ∧
        AllShow rets rs := by
  induction cs generalizing w fs with
  | nil => exact ⟨w, [], fs, rfl, hw, rfl, trivial⟩
  | cons c cs ih =>
    obtain ⟨i, c⟩ := c
    have h1 := call_spec hw i c (hc (i, c) (by simp))
    simp only [Spec.run, World.run]
    cases hs : Spec.call (fs.map AFields.erase) i c with
    | panic => simp only [hs] at h1; simp [h1]
    | ok r =>
      obtain ⟨s1, r1⟩ := r
      simp only [hs] at h1
      obtain ⟨w1, ret, fs1, k1, k2, k3, k4, _⟩ := h1
      have h2 := ih k2 (fun c hcm => hc c (by simp [hcm]))
      rw [k3] at h2
      simp only [k1, Res.bind_ok]
      cases hs2 : Spec.run s1 cs with
      | panic => simp only [hs2] at h2; simp [h2]
      | ok r2 =>
        obtain ⟨s2, rs2⟩ := r2
        simp only [hs2] at h2
        obtain ⟨w2, rets, fs2, l1, l2, l3, l4⟩ := h2
        simp only [l1, Res.bind_ok]
        exact ⟨w2, _, fs2, rfl, l2, l3, k4, l4⟩

/-! ## No panics on nil-free histories -/

def Fields.NoNil (f : Fields) : Prop := ∀ es, f = some es → Val.NoNilEs es

/-- Values a client may pass: nil itself (a no-op) or a nil-free value. -/
def Val.Passable (v : Val) : Prop := v.Canon ∧ (v = .nilp ∨ v.NoNil)

theorem getFields_noNil {f : Fields} (h : f.NoNil) (path : List Bytes) : ∃ v, Spec.getFields f path = .ok v := by
  simp only [Spec.getFields]
  split
  · exact ⟨_, rfl⟩
  · split
    · exact ⟨_, rfl⟩
    · cases f with
      | none => simp [spec_get_nil]
      | some es => obtain ⟨v, hv, _⟩ := get_noNil path (h es rfl); exact ⟨v, hv⟩

theorem putFields_noNil {f : Fields} (h : f.NoNil) (path : List Bytes) {v : Val} (hv : v = .nilp ∨ v.NoNil) (ow : Bool) :
    ∃ r, Spec.putFields f path v ow = .ok r ∧ r.1.NoNil := by
  simp only [Spec.putFields]
  split
  · exact ⟨_, rfl, h⟩
  · split
    · exact ⟨_, rfl, h⟩
    · next hnil =>
      have hv' : v.NoNil := by
        rcases hv with rfl | hv
        · simp [Val.isNil] at hnil
        · exact hv
      obtain ⟨old, ho⟩ := getFields_noNil h path
      have hnn : Val.NoNilEs (f.getD []) := by
        cases f with
        | none => simp [Val.NoNilEs]
        | some es => exact h es rfl
      obtain ⟨r, h1, h2⟩ := store_noNil path hnn hv'
      simp only [ho, Res.bind_ok, h1]
      split
      · exact ⟨_, rfl, h⟩
      · cases r with
        | none => exact ⟨_, rfl, h⟩
        | some m => exact ⟨_, rfl, by intro es he; cases he; exact h2 m rfl⟩

theorem deleteFields_noNil {f : Fields} (h : f.NoNil) (path : List Bytes) :
    ∃ r, Spec.deleteFields f path = .ok r ∧ r.1.NoNil := by
  simp only [Spec.deleteFields]
  cases path with
  | nil => exact ⟨_, rfl, h⟩
  | cons k ks =>
    obtain ⟨old, ho⟩ := getFields_noNil h (k :: ks)
    simp only [ho, Res.bind_ok]
    split
    · exact ⟨_, rfl, h⟩
    · refine ⟨_, rfl, ?_⟩
      intro es he
      cases f with
      | none => simp at he
      | some es0 => simp at he; subst he; exact noNil_erase (h es0 rfl)

theorem call_noNil {s : List Fields} (hs : ∀ f ∈ s, f.NoNil) (i : Nat) (c : Call) (hc : c.Good Val.Passable) :
    ∃ s' r, Spec.call s i c = .ok (s', r) ∧ (∀ f ∈ s', f.NoNil) := by
  simp only [Spec.call]
  cases hi : s[i]? with
  | none => exact ⟨s, _, rfl, hs⟩
  | some f =>
    have hf := hs f (List.mem_of_getElem? hi)
    have hset : ∀ f' : Fields, f'.NoNil → ∀ g ∈ s.set i f', g.NoNil := fun f' hf' g hg => by
      rcases List.mem_or_eq_of_mem_set hg with h1 | h1
      · exact hs g h1
      · exact h1 ▸ hf'
    cases c with
    | put k v =>
      obtain ⟨r, h1, h2⟩ := putFields_noNil hf (keyToPath k) hc.2 true
      simp only [h1, Res.map_ok]
      exact ⟨_, _, rfl, hset _ h2⟩
    | tryPut k v =>
      obtain ⟨r, h1, h2⟩ := putFields_noNil hf (keyToPath k) hc.2 false
      simp only [h1, Res.map_ok]
      exact ⟨_, _, rfl, hset _ h2⟩
    | get k =>
      obtain ⟨r, h1⟩ := getFields_noNil hf (keyToPath k)
      simp only [h1, Res.map_ok]
      exact ⟨_, _, rfl, hs⟩
    | delete k =>
      obtain ⟨r, h1, h2⟩ := deleteFields_noNil hf (keyToPath k)
      simp only [h1, Res.map_ok]
      exact ⟨_, _, rfl, hset _ h2⟩

theorem spec_run_noNil {s : List Fields} (hs : ∀ f ∈ s, f.NoNil) (cs : List (Nat × Call)) (hc : ∀ c ∈ cs, c.2.Good Val.Passable) :
    ∃ s' r, Spec.run s cs = .ok (s', r) := by
  induction cs generalizing s with
  | nil => exact ⟨_, _, rfl⟩
  | cons c cs ih =>
    obtain ⟨i, c⟩ := c
    obtain ⟨s1, r1, h1, h2⟩ := call_noNil hs i c (hc (i, c) (by simp))
    obtain ⟨s2, r2, h3⟩ := ih h2 (fun c hcm => hc c (by simp [hcm]))
    exact ⟨s2, r1 :: r2, by simp [Spec.run, h1, h3]⟩

end Sawmill
