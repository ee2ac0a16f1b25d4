import Verif.Lemmas.HeapShare
import Verif.Spec.Processors
/-!
# C34–C38: the processors and eventutil.Append on events owning their contents
-/

namespace Sawmill
open ATree

/-- A processor run on an owned event does what the specification says: same outcome, the event still owns its contents, nothing outside the event was touched. -/
def ProcPost (h : Heap) (f : AFields) (run : Res (Heap × Event × Option Err)) (r : Res (Fields × Option Spec.PErr)) : Prop :=
  match r with
  | .panic => run = .panic
  | .ok (F', pe) => ∃ h' f' err, run = .ok (h', AFields.event f', err) ∧ Owns h' f' ∧ f'.erase = F' ∧ procErrMatches err pe ∧ Frame f.fp h h' ∧
      (∀ a ∈ f'.fp, a ∈ f.fp ∨ h.length ≤ a)

theorem frame_lift {h h' h'' : Heap} {S : List Nat} (f : Frame [] h h') (g : Frame S h' h'') (hS : ∀ a ∈ S, ¬ Frozen h a) : Frame S h h'' :=
  (f.mono (by simp) hS).trans g (fun a ha => .inl ha)

theorem pathString_slashed {path : List Bytes} (h : path ≠ []) : pathString path = Spec.slashed path := by
  have hf : ∀ p : List Bytes, p.flatMap (fun p => lit "/" ++ p) = Spec.slashed p := by
    intro p
    induction p with
    | nil => rfl
    | cons a t ih => simp only [List.flatMap_cons, ih, Spec.slashed]
  match path, h with
  | [p], _ => simp [pathString, Spec.slashed]
  | a :: b :: t, _ => exact hf (a :: b :: t)

/-- An error of `put` tells the path that was given. -/
theorem put_err_path {h h' : Heap} {e e' : Event} {path : List Bytes} {v old : Ptr} {ow : Bool} {er : PutErr} (hp : put h e path v ow = .ok (h', e', old, some er)) :
    er = .emptyKey ∨ path ≠ [] ∧ (er = .keyExists path ∨ er = .notObject path) := by
  unfold put at hp
  by_cases h0 : path.length = 0
  · simp only [h0, if_true, Res.ok.injEq, Prod.mk.injEq, Option.some.injEq] at hp
    exact .inl hp.2.2.2.symm
  · rw [if_neg h0] at hp
    refine .inr ⟨by rintro rfl; simp at h0, ?_⟩
    by_cases hv : v = none
    · simp [hv] at hp
    · rw [if_neg hv] at hp
      dsimp only at hp
      split at hp
      · simp at hp
      · split at hp
        · simp only [Res.ok.injEq, Prod.mk.injEq, Option.some.injEq] at hp
          exact .inl hp.2.2.2.symm
        · split at hp
          · simp at hp
          · simp at hp
          · simp only [Res.ok.injEq, Prod.mk.injEq, Option.some.injEq] at hp
            exact .inr hp.2.2.2.symm

/-- The error of `Put` as a Go error, and as the specification says. -/
theorem put_err_says {h h' : Heap} {e e' : Event} {key : Bytes} {v old : Ptr} {ow : Bool} {err : Option PutErr} {er : Option Spec.Error} (hp : put h e (keyToPath key) v ow = .ok (h', e', old, err))
    (hm : errMatches err er) : procErrMatches (err.map PutErr.toErr) (er.map fun x => .other (x.says key)) := by
  cases err with
  | none => cases er with
    | none => trivial
    | some x => simp [errMatches] at hm
  | some e' =>
    cases er with
    | none => cases e' <;> simp [errMatches] at hm
    | some x =>
      rcases put_err_path hp with rfl | ⟨hne, rfl | rfl⟩
      · cases x <;> simp [errMatches] at hm
        exact ⟨rfl, rfl⟩
      · cases x <;> simp [errMatches] at hm
        exact ⟨rfl, by simp only [PutErr.toErr, Err.text, Spec.Error.says, pathString_slashed hne]⟩
      · cases x <;> simp [errMatches] at hm
        exact ⟨rfl, by simp only [PutErr.toErr, Err.text, Spec.Error.says, pathString_slashed hne]⟩

/-- `Put` of a leaf or freshly built value, after the heap grew. -/
theorem putThen_spec {h h1 : Heap} {f : AFields} {t : ATree} (o : Owns h f) (fr : Frame [] h h1) (ht : Rep h1 t) (hd : t.fp.Nodup) (hnew : ∀ a ∈ t.fp, h.length ≤ a)
    (key : Bytes) : ProcPost h f (putThen h1 f.event key t.ptr) (Spec.putP f.erase key t.erase) := by
  have o1 := o.frame fr (by simp)
  have hk := put_spec o1 ht hd (fun a ha hc => by have := hnew a ha; have := o.lt a hc; omega) (keyToPath key) true
  simp only [ProcPost, Spec.putP, putThen, apiPut]
  cases hs : Spec.putFields f.erase (keyToPath key) t.erase true with
  | panic => simp only [PutPost, hs] at hk; simp [hk]
  | ok r =>
    obtain ⟨F', V, er⟩ := r
    simp only [PutPost, hs] at hk
    obtain ⟨h', f', old, err', k1, k2, k3, k4, k5, k6, k7, k8, k9, k10, k11⟩ := hk
    simp only [Res.map_ok, k1]
    refine ⟨h', f', err'.map PutErr.toErr, rfl, k2, k3, ?_, frame_lift fr k7 o.thaw, ?_⟩
    · exact put_err_says k1 k6
    · intro a ha
      rcases k8 a ha with h1 | h1 | h1
      · exact .inl h1
      · exact .inr (hnew a h1)
      · exact .inr (Nat.le_trans fr.len h1)

theorem deref_rep {h : Heap} {t : ATree} (ht : Rep h t) (hn : t ≠ .nilp) : ∃ a c, t.ptr = some a ∧ deref h (some a) = some c ∧
    (c.type = .string ↔ ∃ a s, t = .leaf a (.str s)) ∧ (c.type = .array ↔ (∃ a, t = .arrNil a) ∨ ∃ a vs, t = .arr a vs) ∧
    (c.type = .null ↔ ∃ a, t = .leaf a .null) ∧
    (∀ a s, t = .leaf a (.str s) → c.string = s) ∧ (∀ a, t = .arrNil a → c = arrCell none) ∧ (∀ a vs, t = .arr a vs → c = arrCell (some (vs.map ATree.ptr))) := by
  cases t with
  | nilp => exact absurd rfl hn
  | leaf a s =>
    simp only [Rep] at ht
    refine ⟨a, scalarCell s, rfl, by simp [deref, ht], ?_⟩
    cases s <;> simp [scalarCell, nullCell, boolCell, intCell, uintCell, floatCell, strCell, tsCell]
  | arrNil a => simp only [Rep] at ht; exact ⟨a, arrCell none, rfl, by simp [deref, ht], by simp [arrCell]⟩
  | arr a vs => simp only [Rep] at ht; exact ⟨a, _, rfl, by simp [deref, ht]; rfl, by simp [arrCell]⟩
  | objNil a => simp only [Rep] at ht; exact ⟨a, _, rfl, by simp [deref, ht]; rfl, by simp [objCell]⟩
  | obj a m es => simp only [Rep] at ht; exact ⟨a, _, rfl, by simp [deref, ht]; rfl, by simp [objCell]⟩

/-- What `Get` finds in an owned event. -/
theorem apiGet_spec {h : Heap} {f : AFields} (o : Owns h f) (key : Bytes) :
    match Spec.getFields f.erase (keyToPath key) with
    | .panic => apiGet h f.event key = .panic
    | .ok v => ∃ h' t, apiGet h f.event key = .ok (h', t.ptr) ∧ Rep h' t ∧ t.erase = v ∧ Frame [] h h' ∧ Owns h' f ∧
        (∀ a ∈ t.fp, a ∈ f.fp) ∧ (keyToPath key ≠ [] → h' = h) := by
  have := get_spec o (keyToPath key)
  unfold apiGet
  cases hs : Spec.getFields f.erase (keyToPath key) with
  | panic => simpa [hs] using this
  | ok v =>
    simp only [hs] at this
    obtain ⟨h', t, k1, k2, k3, k4, k5, k6⟩ := this
    exact ⟨h', t, k1, k2, k3, k4, o.frame k4 (by simp), k5, k6⟩

theorem ProcPost.unchanged {h h' : Heap} {f : AFields} {err : Option Err} {pe : Option Spec.PErr} (o : Owns h f) (fr : Frame [] h h') (hm : procErrMatches err pe) :
    ∃ h2 f' err', (Res.ok (h', f.event, err) : Res (Heap × Event × Option Err)) = .ok (h2, AFields.event f', err') ∧ Owns h2 f' ∧ f'.erase = f.erase ∧ procErrMatches err' pe ∧
      Frame f.fp h h2 ∧ (∀ a ∈ f'.fp, a ∈ f.fp ∨ h.length ≤ a) :=
  ⟨h', f, err, rfl, o.frame fr (by simp), rfl, hm, fr.mono (by simp) o.thaw, fun a ha => .inl ha⟩

/-- C34. `lowercase` and `uppercase` (any string conversion): a missing field is a missing-key error, a field that is not a string another error, neither changes the event;
a string is converted and put at the target field (at the field itself when no target is configured). -/
theorem convert_spec {h : Heap} {f : AFields} (o : Owns h f) (conv : Bytes → Bytes) (msg field target : Bytes) :
    ProcPost h f (convProcess conv msg field target h f.event) (Spec.convert conv msg field target f.erase) := by
  have hg := apiGet_spec o field
  simp only [Spec.convert, convProcess]
  cases hs : Spec.getFields f.erase (keyToPath field) with
  | panic => simp only [hs] at hg; simp [hg, ProcPost]
  | ok v =>
    simp only [hs] at hg
    obtain ⟨h1, t, k1, k2, k3, k4, k5, k6, k7⟩ := hg
    simp only [Res.bind_ok, k1]
    by_cases hn : t = .nilp
    · subst hn
      simp only [ATree.erase] at k3
      subst k3
      exact ProcPost.unchanged o k4 rfl
    · obtain ⟨a, c, d1, d2, d3, d4, d5, d6, _⟩ := deref_rep k2 hn
      simp only [d1, d2]
      by_cases hstr : ∃ a s, t = .leaf a (.str s)
      · obtain ⟨b, s, rfl⟩ := hstr
        simp only [ATree.erase] at k3
        subst k3
        simp only [d3.2 ⟨b, s, rfl⟩, ne_eq, not_true_eq_false, if_false, d6 b s rfl, Heap.alloc]
        have fr2 := k4.trans0 (frame_alloc h1 [.cell (strCell (conv s))])
        have := putThen_spec (t := .leaf h1.length (.str (conv s))) o fr2 (by simp [Rep, scalarCell]) (by simp [fp]) (by simp [fp])
          (if target = [] then field else target)
        simp only [ATree.erase, ptr] at this
        rw [show (if ¬ target = [] then target else field) = (if target = [] then field else target) by by_cases ht : target = [] <;> simp [ht]]
        exact this
      · have hc : c.type ≠ .string := fun h => hstr (d3.1 h)
        simp only [ne_eq, hc, not_false_eq_true, if_true]
        have hv : ∀ s, v ≠ .scalar (.str s) := by
          rintro s rfl
          cases t <;> simp [ATree.erase] at k3
          subst k3
          exact hstr ⟨_, _, rfl⟩
        have hvn : v ≠ .nilp := by rintro rfl; exact hn (erase_nilp.1 k3)
        have := ProcPost.unchanged (err := some (.other msg)) (pe := some (.other msg)) o k4 ⟨rfl, rfl⟩
        split
        · exact absurd rfl hvn
        · next s => exact absurd rfl (hv s)
        · exact this

/-! ## append -/

theorem insert_insert' {α : Type} (es : AMap α) (k : Bytes) (v w : α) : (es.insert k v).insert k w = es.insert k w := by
  induction es with
  | nil => simp [AMap.insert]
  | cons e t ih =>
    obtain ⟨k', v'⟩ := e
    by_cases h2 : k' = k
    · simp [AMap.insert, h2]
    · by_cases h1 : bLt k k' = true <;> simp [AMap.insert, h1, h2, ih]

/-- Storing twice at the same path: the second wins. -/
theorem store_store {m m' : AMap Val} (path : List Bytes) (v w : Val) (hs : Spec.store m path v = .ok (some m')) : Spec.store m' path w = Spec.store m path w := by
  induction path generalizing m m' with
  | nil => simp only [Spec.store, Res.ok.injEq, Option.some.injEq] at hs ⊢; exact hs.symm
  | cons k ks ih =>
    cases ks with
    | nil =>
      simp only [Spec.store, Res.ok.injEq, Option.some.injEq] at hs ⊢
      rw [← hs, insert_insert']
    | cons k2 ks =>
      simp only [Spec.store] at hs ⊢
      have key : ∀ es, ((Spec.store es (k2 :: ks) v).map (·.map fun es' => m.insert k (.obj es'))) = .ok (some m') →
          ∃ es', m' = m.insert k (.obj es') ∧ Spec.store es' (k2 :: ks) w = Spec.store es (k2 :: ks) w := by
        intro es he
        cases hr : Spec.store es (k2 :: ks) v with
        | panic => simp [hr] at he
        | ok r =>
          cases r with
          | none => simp [hr] at he
          | some es' =>
            simp only [hr, Res.map_ok, Option.map_some, Res.ok.injEq, Option.some.injEq] at he
            exact ⟨es', he.symm, ih hr⟩
      split at hs
      · next hl =>
        obtain ⟨es', rfl, h2⟩ := key [] hs
        simp only [AMap.lookup_insert_self, hl, h2, insert_insert']
      · next es hl =>
        obtain ⟨es', rfl, h2⟩ := key es hs
        simp only [AMap.lookup_insert_self, hl, h2, insert_insert']
      · simp at hs
      · simp at hs
      · simp at hs

theorem putFields_eq (f : Fields) (path : List Bytes) (v : Val) (hp : path ≠ []) (hv : v.isNil = false) :
    Spec.putFields f path v true = (do
      let old ← Spec.getFields f path
      match ← Spec.store (f.getD []) path v with
      | some m => .ok (some m, old, none)
      | none => .ok (f, .nilp, some .notObject)) := by
  simp only [Spec.putFields, hp, hv]
  cases Spec.getFields f path with
  | panic => rfl
  | ok old =>
    simp only [if_false, Bool.false_eq_true, Res.bind_ok, Bool.not_true, Bool.and_false]
    cases Spec.store (f.getD []) path v with
    | panic => rfl
    | ok r => cases r <;> rfl

/-- `Put` of a new value, with the tree stored where it was put. -/
theorem put_tree {h : Heap} {f : AFields} {t : ATree} (o : Owns h f) (ht : Rep h t) (hd : t.fp.Nodup) (hdis : ∀ a ∈ t.fp, a ∉ f.fp) (path : List Bytes)
    (hp : path ≠ []) (hn : t ≠ .nilp) :
    (put h f.event path t.ptr true = .panic ∧ Spec.putFields f.erase path t.erase true = .panic) ∨
    (put h f.event path t.ptr true = .ok (h, f.event, none, some (.notObject path)) ∧ Spec.store (f.erase.getD []) path t.erase = .ok none) ∨
    ∃ h' m es' old, put h f.event path t.ptr true = .ok (h', some m, old, none) ∧ OwnsMap h' m es' ∧ aget es' path = .ok t ∧
      Frame f.fp h h' ∧ (∀ a ∈ m :: fpE es', a ∈ f.fp ∨ a ∈ t.fp ∨ h.length ≤ a) ∧ Spec.store (f.erase.getD []) path t.erase = .ok (some (eraseE es')) := by
  have hen : t.erase.isNil = false := by
    cases hc : t.erase.isNil with
    | false => rfl
    | true => exact absurd (isNil_erase.1 hc) hn
  have hv : t.ptr ≠ none := fun hc => hn (ptr_eq_none.1 hc)
  have main : ∀ (h : Heap) (m : Nat) (es : AMap ATree), OwnsMap h m es → Rep h t → (∀ a ∈ t.fp, a ∉ m :: fpE es) →
      (put h (some m) path t.ptr true = .panic ∧ (aget es path = .panic ∨ astore h.length es path t = .panic)) ∨
      (put h (some m) path t.ptr true = .ok (h, some m, none, some (.notObject path)) ∧ astore h.length es path t = .ok none) ∨
      ∃ h' es' old, put h (some m) path t.ptr true = .ok (h', some m, old, none) ∧ OwnsMap h' m es' ∧ aget es' path = .ok t ∧ Frame (m :: fpE es) h h' ∧
        (∀ a ∈ m :: fpE es', a ∈ m :: fpE es ∨ a ∈ t.fp ∨ h.length ≤ a) ∧ astore h.length es path t = .ok (some es') := by
    intro h m es o ht hdis
    cases hg : aget es path with
    | panic => exact .inl ⟨by rw [put_eq_some hp hv, get_spec' o path hp, hg]; rfl, .inl rfl⟩
    | ok old =>
      have hs := put_replace o ht hn hd path hp (fun a ha => .inr (hdis a ha)) hg
      cases ha : astore h.length es path t with
      | panic => simp only [ha] at hs; exact .inl ⟨hs, .inr rfl⟩
      | ok r =>
        cases r with
        | none => simp only [ha] at hs; exact .inr (.inl ⟨hs, rfl⟩)
        | some es' =>
          simp only [ha] at hs
          obtain ⟨h', p1, p2, p3, p4⟩ := hs
          refine .inr (.inr ⟨h', es', old.ptr, p1, p2, aget_astore_self hp ha, p4.mono (touched_sub _ _ _) o.thaw, ?_, rfl⟩)
          intro a ha'
          simp only [List.mem_cons] at ha' ⊢
          rcases ha' with rfl | ha'
          · simp
          · rcases p3 a ha' with h5 | h5 | h5 <;> simp [h5]
  cases f with
  | some f =>
    obtain ⟨m, es⟩ := f
    have om : OwnsMap h m es := ⟨o.1, o.2.1, o.2.2.1, o.2.2.2⟩
    rcases main h m es om ht hdis with ⟨h1, h2⟩ | ⟨h1, h2⟩ | ⟨h', es', old, h1, h2, h3, h4, h5, h6⟩
    · refine .inl ⟨h1, ?_⟩
      rw [putFields_eq _ _ _ hp hen]
      simp only [AFields.erase, getFields_some _ _ hp, aget_erase, Option.getD_some, astore_erase h.length]
      rcases h2 with h2 | h2
      · simp [h2]
      · cases hg : aget es path <;> simp [h2]
    · exact .inr (.inl ⟨h1, by simp [AFields.erase, astore_erase h.length, h2]⟩)
    · exact .inr (.inr ⟨h', m, es', old, h1, h2, h3, h4, h5, by simp [AFields.erase, astore_erase h.length, h6]⟩)
  | none =>
    have fr := frame_alloc h [HObj.map []]
    have o1 : OwnsMap (h ++ [HObj.map []]) h.length [] :=
      ⟨by simp [ptrMap, AMap.mapVals], AMap.sorted_nil, by simp [RepE], by simp [fpE]⟩
    simp only [AFields.event, put_eq_none hp hv, AFields.erase, Option.getD_none]
    rcases main _ _ _ o1 (rep_frame0 fr ht) (by
      intro a ha hc
      simp only [fpE, List.mem_singleton] at hc
      have := fp_lt t ht a ha
      omega) with ⟨h1, h2⟩ | ⟨h1, h2⟩ | ⟨h', es', old, h1, h2, h3, h4, h5, h6⟩
    · exfalso
      rcases h2 with h2 | h2
      · simp [aget_nil] at h2
      · obtain ⟨es', he⟩ := spec_store_nil path t.erase
        have := astore_erase (h ++ [HObj.map []]).length [] path t
        rw [h2] at this
        simp [eraseE, he] at this
    · exact absurd h2 (astore_nil_ne _ _ _)
    · refine .inr (.inr ⟨h', h.length, es', old, h1, h2, h3, ?_, ?_, ?_⟩)
      · have := fr.trans' h4 (by intro a ha hl; simp only [fpE, List.mem_singleton] at ha; omega)
        simpa [AFields.fp, fpE] using this
      · intro a ha
        rcases h5 a ha with h7 | h7 | h7
        · simp only [fpE, List.mem_singleton] at h7; right; right; omega
        · simp [h7]
        · simp only [List.length_append, List.length_singleton] at h7; right; right; omega
      · have := astore_erase (h ++ [HObj.map []]).length [] path t
        rw [h6] at this
        simpa [eraseE] using this

/-- Whether and how storing fails does not depend on the value. -/
theorem store_fail {m : AMap Val} (path : List Bytes) (v w : Val) :
    (Spec.store m path v = .panic → Spec.store m path w = .panic) ∧ (Spec.store m path v = .ok none → Spec.store m path w = .ok none) := by
  induction path generalizing m with
  | nil => simp [Spec.store]
  | cons k ks ih =>
    cases ks with
    | nil => simp [Spec.store]
    | cons k2 ks =>
      simp only [Spec.store]
      have key : ∀ es, (((Spec.store es (k2 :: ks) v).map (·.map fun es' => m.insert k (.obj es'))) = .panic →
            ((Spec.store es (k2 :: ks) w).map (·.map fun es' => m.insert k (.obj es'))) = .panic) ∧
          (((Spec.store es (k2 :: ks) v).map (·.map fun es' => m.insert k (.obj es'))) = .ok none →
            ((Spec.store es (k2 :: ks) w).map (·.map fun es' => m.insert k (.obj es'))) = .ok none) := by
        intro es
        have := ih (m := es)
        cases hr : Spec.store es (k2 :: ks) v with
        | panic => simp [this.1 hr]
        | ok r => cases r with
          | none => simp [this.2 hr]
          | some r => simp
      split
      · exact key []
      · next es _ => exact key es
      · simp
      · simp
      · simp

/-- Appending through a pointer to a new cell changes nothing old. -/
theorem appendTo_new {h h1 : Heap} {b : Nat} {c : Cell} (fr : Frame [] h h1) (hb : h.length ≤ b) (hc : h1[b]? = some (.cell c)) (items : List Ptr) :
    ∃ h2, appendTo h1 b items = .ok h2 ∧ Frame [] h h2 := by
  refine ⟨h1.set b (.cell { c with array := some (c.array.getD [] ++ items) }), by simp only [appendTo, deref, hc], by simpa using fr.len, ?_, by simp⟩
  intro a ha _
  rw [List.getElem?_set_ne (by omega)]
  exact fr.same a ha (by simp)

theorem OwnsMap.frame {h h' : Heap} {S : List Nat} {m : Nat} {es : AMap ATree} (o : OwnsMap h m es) (fr : Frame S h h') (hd : ∀ a ∈ m :: fpE es, a ∉ S) : OwnsMap h' m es :=
  ⟨fr.get o.at_ (hd m (by simp)), o.sorted, repE_frame fr _ o.rep (fun a ha => hd a (by simp [ha])), o.nodup⟩

theorem fp_nodup_of_lookup {es : AMap ATree} {k : Bytes} {t : ATree} (hl : es.lookup k = some t) (hn : (fpE es).Nodup) : t.fp.Nodup := by
  induction es with
  | nil => simp [AMap.lookup] at hl
  | cons e r ih =>
    obtain ⟨k', v⟩ := e
    simp only [fpE, List.nodup_append] at hn
    simp only [AMap.lookup] at hl
    split at hl
    · simp only [Option.some.injEq] at hl; subst hl; exact hn.1
    · exact ih hl hn.2.1

theorem aget_nodup {es : AMap ATree} {path : List Bytes} {t : ATree} (hn : (fpE es).Nodup) (hg : aget es path = .ok t) : t.fp.Nodup := by
  induction path generalizing es with
  | nil => simp [aget] at hg; subst hg; simp [fp]
  | cons k ks ih =>
    cases ks with
    | nil =>
      simp only [aget, Res.ok.injEq] at hg
      cases hl : es.lookup k with
      | none => simp [hl] at hg; subst hg; simp [fp]
      | some u => simp [hl] at hg; subst hg; exact fp_nodup_of_lookup hl hn
    | cons k2 ks =>
      simp only [aget] at hg
      split at hg
      · next hl =>
        have := fp_nodup_of_lookup hl hn
        simp only [fp, List.nodup_cons] at this
        exact ih this.2 hg
      · simp at hg
      · simp at hg; subst hg; simp [fp]

/-- Appending a new string to an array inside an owned event. -/
theorem append_at {h : Heap} {m a : Nat} {es : AMap ATree} {old : ATree} {vs : List ATree} (path : List Bytes) (hp : path ≠ []) (o : OwnsMap h m es)
    (hg : aget es path = .ok old) (hold : (old = .arrNil a ∧ vs = []) ∨ old = .arr a vs) (value : Bytes) :
    ∃ h' es', appendTo (h ++ [.cell (strCell value)]) a [some h.length] = .ok h' ∧ OwnsMap h' m es' ∧ Frame (m :: fpE es) h h' ∧
      (∀ x ∈ fpE es', x ∈ fpE es) ∧ Spec.store (eraseE es) path (.arr (eraseL vs ++ [Spec.str value])) = .ok (some (eraseE es')) := by
  have fr := frame_alloc h [.cell (strCell value)]
  have o1 := o.frame fr (by simp)
  obtain ⟨hr, hsub⟩ := aget_sub o1.rep hg
  obtain ⟨hr0, _⟩ := aget_sub o.rep hg
  have hnd := aget_nodup (List.nodup_cons.1 o.nodup).2 hg
  have hvs : RepL (h ++ [HObj.cell (strCell value)]) vs ∧ (fpL vs).Nodup ∧ (∀ x ∈ fpL vs, x ∈ old.fp ∧ x ≠ a) ∧ a ∈ old.fp ∧
      ∃ p, (h ++ [HObj.cell (strCell value)])[a]? = some (.cell (arrCell p)) ∧ p.getD [] = vs.map ATree.ptr := by
    rcases hold with ⟨rfl, rfl⟩ | rfl
    · simp only [Rep] at hr
      exact ⟨by simp [RepL], by simp [fpL], by simp [fpL], by simp [fp], none, hr, rfl⟩
    · simp only [Rep] at hr
      simp only [fp, List.nodup_cons] at hnd
      refine ⟨hr.2, hnd.2, ?_, by simp [fp], _, hr.1, rfl⟩
      intro x hx
      exact ⟨by simp [fp, hx], by rintro rfl; exact hnd.1 hx⟩
  obtain ⟨v1, v2, v3, v4, pp, v5, v6⟩ := hvs
  have hrep : RepL (h ++ [HObj.cell (strCell value)]) (vs ++ [.leaf h.length (.str value)]) := by
    rw [repL_iff] at v1 ⊢
    intro e he
    rw [List.mem_append, List.mem_singleton] at he
    rcases he with he | rfl
    · exact v1 e he
    · simp [Rep, scalarCell]
  have hfp : fpL (vs ++ [.leaf h.length (.str value)]) = fpL vs := by simp [fpL_append, fpL, fp]
  obtain ⟨es2, r1, r2, r3, r4⟩ := array_update (a := a) (us := vs ++ [.leaf h.length (.str value)]) _ hp o1 hg
    (by rcases hold with ⟨h1, _⟩ | h1; exact .inl h1; exact .inr ⟨_, h1⟩) hrep (by rw [hfp]; exact v2) (by rw [hfp]; exact fun x hx => .inl (v3 x hx)) 0
  have he := astore_erase 0 es path (.arr a (vs ++ [.leaf h.length (.str value)]))
  rw [r1] at he
  refine ⟨_, es2, ?_, r2, ?_, ?_, ?_⟩
  · simp only [appendTo, deref, v5, Res.ok.injEq]
    simp [arrCell, ptr, v6]
  · exact (fr.mono (by simp) o.thaw).trans (r4.mono (T := m :: fpE es) (by intro x hx; simp only [List.mem_singleton] at hx; subst hx; simp [hsub _ v4]) o1.thaw) (fun a ha => .inl ha)
  · intro x hx
    rcases r3 x hx with h1 | h1
    · exact h1
    · rw [hfp] at h1; exact hsub _ (v3 x h1).1
  · simpa [ATree.erase, eraseL_eq, Spec.str] using he

/-- C35. `append`: what it really does. A field that is missing gets a new array with the value (and if it cannot be put there nothing happens and no error is
returned); an array gets the value at its end, whether or not it is already in it; a string field is left as it is, without an error; anything else is an error. -/
theorem append_spec {h : Heap} {f : AFields} (o : Owns h f) (field value : Bytes) (allowDuplicates : Bool) :
    ProcPost h f (appendProcess field value allowDuplicates h f.event) (Spec.append field value f.erase) := by
  have hg := apiGet_spec o field
  simp only [Spec.append, appendProcess]
  cases hs : Spec.getFields f.erase (keyToPath field) with
  | panic => simp only [hs] at hg; simp [hg, ProcPost]
  | ok v =>
    simp only [hs] at hg
    obtain ⟨h1, t, k1, k2, k3, k4, k5, k6, k7⟩ := hg
    simp only [Res.bind_ok, k1]
    by_cases hn : t = .nilp
    · -- nothing there
      subst hn
      simp only [ATree.erase] at k3
      subst k3
      simp only [ptr, Heap.alloc]
      have fr2 := k4.trans0 (frame_alloc h1 [.cell (arrCell none)])
      have o2 := o.frame fr2 (by simp)
      by_cases hp : keyToPath field = []
      · -- no name in the key: Put fails, the error is ignored
        simp only [apiPut, hp, put, List.length_nil, if_true, Spec.putP, Spec.putFields, Res.map_ok]
        obtain ⟨h2, q1, q2⟩ := appendTo_new (b := h1.length) (c := arrCell none) (fr2.trans0 (frame_alloc _ [.cell (strCell value)])) k4.len
          (by rw [List.getElem?_append_left (by simp)]; simp) [some (h1 ++ [HObj.cell (arrCell none)]).length]
        rw [q1]
        exact ProcPost.unchanged o q2 trivial
      · obtain rfl := k7 hp
        have hne : h1.length ∉ f.fp := fun hc => by have := o.lt _ hc; omega
        have hpt := put_tree (t := .arrNil h1.length) o2 (by simp [Rep]) (by simp [fp]) (by simpa [fp] using hne) _ hp (by simp)
        simp only [ptr, ATree.erase] at hpt
        simp only [apiPut, Spec.putP]
        rw [putFields_eq _ _ _ hp rfl, hs]
        rcases hpt with ⟨p1, p2⟩ | ⟨p1, p2⟩ | ⟨h2, m, es', old, p1, p2, p3, p4, p5, p6⟩
        · rw [putFields_eq _ _ _ hp rfl, hs] at p2
          have : Spec.store (f.erase.getD []) (keyToPath field) .arrNil = .panic := by
            cases hst : Spec.store (f.erase.getD []) (keyToPath field) .arrNil with
            | panic => rfl
            | ok r => cases r <;> simp [hst] at p2
          simp [p1, (store_fail _ _ (.arr [Spec.str value])).1 this, ProcPost]
        · simp only [p1, (store_fail _ _ (.arr [Spec.str value])).2 p2, Res.bind_ok, Res.map_ok]
          obtain ⟨h3, q1, q2⟩ := appendTo_new (b := h1.length) (c := arrCell none) (fr2.trans0 (frame_alloc _ [.cell (strCell value)])) (Nat.le_refl _)
            (by rw [List.getElem?_append_left (by simp)]; simp) [some (h1 ++ [HObj.cell (arrCell none)]).length]
          rw [q1]
          exact ProcPost.unchanged o q2 trivial
        · have hst := (store_store (keyToPath field) .arrNil (.arr [Spec.str value]) p6)
          obtain ⟨h3, es3, r1, r2, r3, r4, r5⟩ := append_at (vs := []) _ hp p2 p3 (.inl ⟨rfl, rfl⟩) value
          simp only [eraseL, List.nil_append] at r5
          simp only [p1, ← hst, r5, Res.bind_ok, Res.map_ok, r1, ProcPost]
          refine ⟨h3, some (m, es3), none, rfl, r2.owns, rfl, trivial, ?_, ?_⟩
          · refine ⟨Nat.le_trans fr2.len (Nat.le_trans p4.len r3.len), ?_, o.thaw⟩
            intro a ha hf
            have hl := Nat.lt_of_lt_of_le ha fr2.len
            have hnot : a ∉ m :: fpE es' := by
              intro hc
              rcases p5 a hc with h1 | h1 | h1
              · exact hf h1
              · simp [fp] at h1; omega
              · omega
            rw [r3.same a (Nat.lt_of_lt_of_le hl p4.len) hnot, p4.same a hl hf, fr2.same a ha (by simp)]
          · intro a ha
            have : a ∈ m :: fpE es' := by
              simp only [AFields.fp, List.mem_cons] at ha ⊢
              exact ha.imp id (r4 a)
            rcases p5 a this with h1 | h1 | h1
            · exact .inl h1
            · simp [fp] at h1; right; omega
            · right; simp at h1; omega
    · -- something there
      obtain ⟨a, c, d1, d2, d3, d4, d5, d6, d7, d8⟩ := deref_rep k2 hn
      simp only [d1, d2, Heap.alloc]
      have hvn : v ≠ .nilp := by rintro rfl; exact hn (erase_nilp.1 k3)
      by_cases hstr : ∃ a s, t = .leaf a (.str s)
      · obtain ⟨b, s, rfl⟩ := hstr
        simp only [ATree.erase] at k3
        subst k3
        simp only [d3.2 ⟨b, s, rfl⟩, if_true]
        have fr2 := k4.trans0 (frame_alloc h1 [.cell (arrCell (some [some a]))])
        obtain ⟨h3, q1, q2⟩ := appendTo_new (b := h1.length) (c := arrCell (some [some a])) (fr2.trans0 (frame_alloc _ [.cell (strCell value)])) k4.len
            (by rw [List.getElem?_append_left (by simp)]; simp) [some (h1 ++ [HObj.cell (arrCell (some [some a]))]).length]
        rw [q1]
        exact ProcPost.unchanged o q2 trivial
      · have hc : c.type ≠ .string := fun h => hstr (d3.1 h)
        simp only [hc, if_false]
        by_cases harr : (∃ a, t = .arrNil a) ∨ ∃ a vs, t = .arr a vs
        · simp only [d4.2 harr, ne_eq, not_true_eq_false, if_false]
          have hp : keyToPath field ≠ [] := by
            intro hc
            rw [hc] at hs
            simp only [Spec.getFields, if_true] at hs
            split at hs
            · simp at hs; exact hvn hs.symm
            · simp only [Res.ok.injEq] at hs
              subst hs
              rcases harr with ⟨b, rfl⟩ | ⟨b, vs, rfl⟩ <;> simp [ATree.erase] at k3
          obtain rfl := k7 hp
          cases f with
          | none => simp [AFields.erase, Spec.getFields] at hs; exact absurd hs.symm hvn
          | some f =>
            obtain ⟨m, es⟩ := f
            have om : OwnsMap h1 m es := ⟨o.1, o.2.1, o.2.2.1, o.2.2.2⟩
            have hgs := get_spec' om _ hp
            simp only [AFields.erase, getFields_some _ _ hp, aget_erase] at hs
            simp only [apiGet, AFields.event, hgs] at k1
            obtain ⟨t', hg⟩ : ∃ t', aget es (keyToPath field) = .ok t' := by
              cases hg : aget es (keyToPath field) with
              | panic => simp [hg] at hs
              | ok t' => exact ⟨t', rfl⟩
            simp only [hg, Res.map_ok, Res.ok.injEq, Prod.mk.injEq, true_and] at hs k1
            rw [d1] at k1
            have hold : ∃ vs, ((t' = .arrNil a ∧ vs = [] ∧ v = .arrNil) ∨ (t' = .arr a vs ∧ v = .arr (eraseL vs))) := by
              rcases harr with ⟨b, rfl⟩ | ⟨b, vs, rfl⟩
              · simp only [ATree.erase] at k3; subst k3
                cases t' <;> simp [ATree.erase] at hs
                simp [ptr] at k1; subst k1; exact ⟨[], .inl ⟨rfl, rfl, rfl⟩⟩
              · simp only [ATree.erase] at k3; subst k3
                cases t' <;> simp [ATree.erase] at hs
                simp [ptr] at k1; subst k1; exact ⟨_, .inr ⟨rfl, by rw [hs]⟩⟩
            obtain ⟨vs, hold⟩ := hold
            obtain ⟨h3, es3, r1, r2, r3, r4, r5⟩ := append_at (vs := vs) _ hp om hg (by rcases hold with ⟨h1, h2, _⟩ | ⟨h1, _⟩; exact .inl ⟨h1, h2⟩; exact .inr h1) value
            have hgf : Spec.getFields (some (eraseE es)) (keyToPath field) = .ok v := by
              rw [getFields_some _ _ hp, aget_erase, hg]; simp [hs]
            have hpf : Spec.putP (some (eraseE es)) field (.arr (eraseL vs ++ [Spec.str value])) = .ok (some (eraseE es3), none) := by
              simp only [Spec.putP]
              rw [putFields_eq _ _ _ hp rfl, hgf]
              simp [r5]
            simp only [r1, AFields.erase, AFields.event, Res.map_ok]
            have fin : ∃ h' f' err, (Res.ok (h3, some m, none) : Res (Heap × Event × Option Err)) = .ok (h', AFields.event f', err) ∧ Owns h' f' ∧ f'.erase = some (eraseE es3) ∧
                procErrMatches err none ∧ Frame (AFields.fp (some (m, es))) h1 h' ∧ (∀ a ∈ f'.fp, a ∈ AFields.fp (some (m, es)) ∨ h1.length ≤ a) :=
              ⟨h3, some (m, es3), none, rfl, r2.owns, rfl, trivial, r3, fun a ha => .inl (by
              simp only [AFields.fp, List.mem_cons] at ha ⊢; exact ha.imp id (r4 a))⟩
            rcases hold with ⟨_, rfl, rfl⟩ | ⟨_, rfl⟩
            · simp only [eraseL, List.nil_append] at hpf
              simp only [hpf, Res.map_ok, ProcPost]
              exact fin
            · simp only [hpf, Res.map_ok, ProcPost]
              exact fin
        · have hc2 : c.type ≠ .array := fun h => harr (d4.1 h)
          simp only [hc2, ne_eq, not_false_eq_true, if_true]
          have := ProcPost.unchanged (err := some (.other (lit "value to append to is not array"))) (pe := some (.other (lit "value to append to is not array"))) o k4 ⟨rfl, rfl⟩
          cases t with
          | nilp => exact absurd rfl hn
          | leaf b s =>
            simp only [ATree.erase] at k3; subst k3
            cases s <;> first | exact this | exact absurd ⟨_, _, rfl⟩ hstr
          | arrNil b => exact absurd (.inl ⟨_, rfl⟩) harr
          | arr b vs => exact absurd (.inr ⟨_, _, rfl⟩) harr
          | objNil b => simp only [ATree.erase] at k3; subst k3; exact this
          | obj b m es => simp only [ATree.erase] at k3; subst k3; exact this

end Sawmill
