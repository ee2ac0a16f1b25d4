import Verif.Spec.Reflect
import Verif.Lemmas.Hop
/-!
# Converting Go values
-/

namespace Sawmill
open ATree

/-! ## Objects under construction -/

/-- The map at `m`, made after `h0`, holds the entries `es`, all in memory made after `h0`. -/
def Building (nul : Ptr) (h0 h : Heap) (m : Nat) (es : AMap Val) : Prop :=
  ∃ ts, OwnsMap h m ts ∧ eraseE ts = es ∧ Frame [] h0 h ∧ h0.length ≤ m ∧ (∀ a ∈ fpE ts, h0.length ≤ a) ∧ IsNull h nul

theorem Building.start {nul : Ptr} {h : Heap} (hn : IsNull h nul) : Building nul h (h ++ [.map []]) h.length [] :=
  ⟨[], ⟨by simp [ptrMap, AMap.mapVals], AMap.sorted_nil, by simp [RepE], by simp [fpE]⟩, by simp [eraseE], frame_alloc _ _, Nat.le_refl _, by simp [fpE], hn.frame (frame_alloc _ _)⟩

theorem Building.grow {nul : Ptr} {h0 h h' : Heap} {m : Nat} {es : AMap Val} (b : Building nul h0 h m es) (f : Frame [] h h') : Building nul h0 h' m es := by
  obtain ⟨ts, o, e, fr, hm, hf, hn⟩ := b
  exact ⟨ts, o.frame0 f, e, fr.trans0 f, hm, hf, hn.frame f⟩

theorem Building.write {nul : Ptr} {h0 h h1 : Heap} {m : Nat} {es : AMap Val} (b : Building nul h0 h m es) {t : ATree} {v : Val} (b1 : FreshTree h h1 t v) (k : Bytes) :
    ∃ h2, mapWrite h1 (some m) k t.ptr = .ok h2 ∧ Building nul h0 h2 m (AMap.insert es k v) := by
  obtain ⟨ts, o, e, f, hm, hf, hn⟩ := b
  have o1 := o.frame0 b1.frame
  obtain ⟨h2, e2, q1, o2, k2, f2⟩ := mapWrite_owned (k := k) o1 b1.rep b1.nodup (fun a ha hc => by
    have := o.lt a hc
    have := b1.fresh a ha
    omega)
  refine ⟨h2, e2, _, o2, ?_, (f.trans0 b1.frame).trans f2 (by simp only [List.mem_singleton]; rintro a rfl; exact .inr hm), hm, ?_, ?_⟩
  · rw [eraseE_eq, AMap.mapVals_insert, b1.erase, ← eraseE_eq, e]
  · intro a ha
    rcases k2 a ha with ha | ha
    · exact hf a ha
    · exact Nat.le_trans f.len (b1.fresh a ha)
  · obtain ⟨a, rfl, ha⟩ := deref_eq (hn.frame b1.frame)
    have : a ≠ m := fun e => by subst e; rw [o1.at_] at ha; simp at ha
    simp [IsNull, deref, f2.get ha (by simp [this])]

theorem Building.finish {nul : Ptr} {h h1 : Heap} {m : Nat} {es : AMap Val} (b : Building nul h h1 m es) :
    ∃ t, some h1.length = t.ptr ∧ FreshTree h (h1 ++ [.cell (objCell (some m))]) t (.obj es) := by
  obtain ⟨ts, o1, e, h4, hm, h3, hn⟩ := b
  have f := frame_alloc h1 [HObj.cell (objCell (some m))]
  have o2 := o1.frame0 f
  refine ⟨.obj h1.length m ts, rfl, ?_, by simp [ATree.erase, e], ?_, ?_, h4.trans0 f⟩
  · simp only [Rep]
    exact ⟨by simp, o2.at_, o2.sorted, o2.rep⟩
  · simpa only [fp] using o2.nodup
  · intro a ha
    simp only [fp, List.mem_cons] at ha
    rcases ha with rfl | ha
    · exact hm
    · exact h3 a ha

theorem freshTree_leaf (h : Heap) (s : Scalar) : FreshTree h (h ++ [.cell (scalarCell s)]) (.leaf h.length s) (.scalar s) :=
  ⟨by simp [Rep], rfl, by simp [fp], by simp [fp], frame_alloc _ _⟩

theorem freshTree_null {h : Heap} {nul : Ptr} (hn : IsNull h nul) : ∃ t, nul = t.ptr ∧ FreshTree h h t (.scalar .null) := by
  obtain ⟨a, rfl, ha⟩ := deref_eq hn
  exact ⟨.leaf a .null, rfl, by simpa [Rep, scalarCell] using ha, rfl, by simp [fp], by simp [fp], Frame.refl h⟩

/-! ## Outcomes -/

/-- Nothing inside is unsupported or panics. -/
def Clean (n : GPlace) : Prop := ∀ n', Inside n n' → ¬ Unsupported n' ∧ ¬ Panicky n'

def HasUnsupported (n : GPlace) : Prop := ∃ n', Inside n n' ∧ Unsupported n'
def HasPanicky (n : GPlace) : Prop := ∃ n', Inside n n' ∧ Panicky n'

theorem clean_of_parts {n : GPlace} (h1 : ¬ Unsupported n) (h2 : ¬ Panicky n) (h : ∀ n', Part n n' → Clean n') : Clean n := by
  intro n' hi
  cases hi with
  | here => exact ⟨h1, h2⟩
  | part hp hs => exact h _ hp _ hs

theorem HasUnsupported.part {a b : GPlace} (hp : Part a b) (h : HasUnsupported b) : HasUnsupported a := by
  obtain ⟨n, h1, h2⟩ := h; exact ⟨n, .part hp h1, h2⟩
theorem HasPanicky.part {a b : GPlace} (hp : Part a b) (h : HasPanicky b) : HasPanicky a := by
  obtain ⟨n, h1, h2⟩ := h; exact ⟨n, .part hp h1, h2⟩
theorem HasUnsupported.self {a : GPlace} (h : Unsupported a) : HasUnsupported a := ⟨a, .here a, h⟩
theorem HasPanicky.self {a : GPlace} (h : Panicky a) : HasPanicky a := ⟨a, .here a, h⟩

/-- The names and the type in an error. -/
def RErr.keys : RErr → List Bytes
  | .unsupportedType _ => []
  | .onKey k e => k :: e.keys
def RErr.type : RErr → Bytes
  | .unsupportedType t => t
  | .onKey _ e => e.type

/-- The culprit is inside. -/
theorem Culprit.has {n : GPlace} {ks : List Bytes} {t : Bytes} (h : Culprit n ks t) : HasUnsupported n := by
  induction h with
  | other _ _ _ => exact .self (.other _ _ _)
  | uintptr _ _ _ _ => exact .self (.uintptr _ _ _ _)
  | iface _ _ => exact .self (.iface _ _)
  | value _ _ _ hb _ ih => exact ih.part (.value _ _ _ hb)
  | entry _ _ k x _ _ _ ih => exact ih.part (.entry _ _ k x (by simp))
  | target _ _ _ _ ih => exact ih.part (.target _ _ _)
  | item _ _ _ _ x _ _ _ ih => exact ih.part (.item _ _ _ _ x (by simp))
  | mapEntry _ _ _ k x _ _ _ ih => exact ih.part (.mapEntry _ _ _ k x (by simp))
  | field _ _ _ f _ _ hk _ ih => exact ih.part (.field _ _ _ f (by simp) hk)

/-- The outcome of converting the place `n`, standing for `v`. -/
def Outcome (n : GPlace) (v : Val) (h : Heap) : ROut (Heap × Ptr) → Prop
  | .ok (h', p) => (∃ t, p = t.ptr ∧ FreshTree h h' t v) ∧ Clean n
  | .unsupported e => Culprit n e.keys e.type
  | .panic => HasPanicky n

theorem outcome_leaf {n : GPlace} {h : Heap} {s : Scalar} {c : Cell} (hc : c = scalarCell s) (hcl : Clean n) : Outcome n (.scalar s) h (newCell h c) := by
  subst hc
  exact ⟨⟨_, rfl, freshTree_leaf h s⟩, hcl⟩

theorem clean_slot_leaf {e : Bool} {str : Option (Res Bytes)} {d : GData} (h1 : ∀ n', ¬ Part (.slot (.val (.mk e ⟨none, str⟩ d))) n') (h2 : ∀ t, d ≠ .other t) (h3 : ∀ t u, d ≠ .uintptr t u) (h4 : ∀ fs, d ≠ .struct fs) :
    Clean (.slot (.val (.mk e ⟨none, str⟩ d))) := by
  refine clean_of_parts ?_ ?_ (fun n' hp => (h1 n' hp).elim)
  · intro hu; cases hu
    · exact h2 _ rfl
    · exact h3 _ _ rfl
  · intro hu; cases hu
    exact h4 _ rfl

theorem clean_error {e : Bool} {s : Bytes} {str : Option (Res Bytes)} {d : GData} : Clean (.slot (.val (.mk e ⟨some (.ok s), str⟩ d))) := by
  refine clean_of_parts ?_ ?_ ?_
  · intro h; cases h
  · intro h; cases h
  · intro n' h; cases h

theorem outcome_orError {env : REnv} {e : Bool} {m : Methods} {d : GData} {h : Heap} {r : ROut (Heap × Ptr)}
    (hr : ∀ str, m = ⟨none, str⟩ → Outcome (.slot (.val (.mk e m d))) (valD env false d) h r) :
    Outcome (.slot (.val (.mk e m d))) (valV env false (.mk e m d)) h (orError m h r) := by
  obtain ⟨err, str⟩ := m
  match err with
  | none => simpa [orError, valV] using hr str rfl
  | some (.ok s) =>
    simp only [orError, valV, Bool.false_and, Option.isSome_some, and_self, if_true, Option.getD_some, textVal]
    exact outcome_leaf rfl clean_error
  | some .panic => exact HasPanicky.self (.error _ _ _)

theorem toValue_unmatched {env : REnv} {e : Bool} {m : Methods} {d : GData} (hb : (e && d.basic) = false) (h : Heap) :
    toValue env true (.mk e m d) h = toValue env false (.mk e m d) h := by
  match d with
  | .ptr .nil => simp [toValue]
  | .ptr (.to s) => simp [toValue]
  | .bool _ | .int _ _ | .uint _ _ | .uintptr _ _ | .float32 _ | .float64 _ | .string _ | .time _ _ | .map _ =>
    simp only [GData.basic, Bool.and_true] at hb
    simp [toValue, hb]
  | .list _ _ | .struct _ | .other _ => simp [toValue]

theorem valV_unmatched {env : REnv} {e : Bool} {m : Methods} {d : GData} (hb : (e && d.basic) = false) : valV env true (.mk e m d) = valV env false (.mk e m d) := by
  match d with
  | .ptr .nil => simp [valV, GData.basic, valD]
  | .ptr (.to s) => simp [valV, GData.basic, valD]
  | .bool _ | .int _ _ | .uint _ _ | .uintptr _ _ | .float32 _ | .float64 _ | .string _ | .time _ _ | .map _ =>
    simp only [GData.basic, Bool.and_true] at hb
    simp [valV, hb, GData.basic]
  | .list _ _ | .struct _ | .other _ => simp [valV, GData.basic, valD]

theorem outcome_unmatched {env : REnv} {e : Bool} {m : Methods} {d : GData} (hb : (e && d.basic) = false) {h : Heap}
    (ho : Outcome (.slot (.val (.mk e m d))) (valV env false (.mk e m d)) h (toValue env false (.mk e m d) h)) :
    Outcome (.iface (.val (.mk e m d))) (valV env true (.mk e m d)) h (toValue env true (.mk e m d) h) := by
  rw [toValue_unmatched hb, valV_unmatched hb]
  cases hr : toValue env false (.mk e m d) h with
  | ok r =>
    rw [hr] at ho
    refine ⟨ho.1, clean_of_parts ?_ ?_ ?_⟩
    · intro h; cases h
    · intro h; cases h
    · intro n' hp
      cases hp with
      | value => exact ho.2
      | entry => simp [GData.basic] at hb
  | unsupported => rw [hr] at ho; exact .value _ _ _ hb ho
  | panic => rw [hr] at ho; exact HasPanicky.part (.value _ _ _ hb) ho

theorem clean_iface_leaf {m : Methods} {d : GData} (hb : d.basic = true) (h4 : ∀ es, d ≠ .map es) : Clean (.iface (.val (.mk true m d))) := by
  refine clean_of_parts ?_ ?_ ?_
  · intro h; cases h
  · intro h; cases h
  · intro n' hp
    cases hp with
    | value _ _ _ h => simp [hb] at h
    | entry => exact (h4 _ rfl).elim

/-- The result for a value of one of the types of the type switch that has no parts. -/
theorem outcome_basic {env : REnv} {e : Bool} {m : Methods} {d : GData} {s : Scalar} {c : Cell} {h : Heap} (hc : c = scalarCell s) (hb : d.basic = true) (hm : ∀ es, d ≠ .map es)
    (hs : ∀ x, valD env x d = .scalar s) (hu : ∀ t u, d ≠ .uintptr t u) (ht : ∀ via, toValue env via (.mk e m d) h = if via && e then newCell h c else orError m h (newCell h c)) :
    Outcome (.slot (.val (.mk e m d))) (valV env false (.mk e m d)) h (toValue env false (.mk e m d) h) ∧
    Outcome (.iface (.val (.mk e m d))) (valV env true (.mk e m d)) h (toValue env true (.mk e m d) h) := by
  have hslot : Outcome (.slot (.val (.mk e m d))) (valV env false (.mk e m d)) h (toValue env false (.mk e m d) h) := by
    rw [ht]
    simp only [Bool.false_and, Bool.false_eq_true, if_false]
    refine outcome_orError fun str hmm => ?_
    subst hmm
    rw [hs]
    refine outcome_leaf hc (clean_slot_leaf ?_ ?_ hu ?_)
    · intro n' hp; cases hp <;> simp [GData.basic] at hb
      exact hm _ rfl
    · rintro t rfl; simp [GData.basic] at hb
    · rintro fs rfl; simp [GData.basic] at hb
  refine ⟨hslot, ?_⟩
  cases e with
  | false => exact outcome_unmatched (by simp) hslot
  | true =>
    rw [ht]
    simp only [valV, hb, Bool.and_self, if_true, hs, Bool.true_eq_false, false_and, if_false]
    exact outcome_leaf hc (clean_iface_leaf hb hm)

theorem hasS_item {e std : Bool} {str : Option (Res Bytes)} {xs : List GIface} {x : GIface} (hx : x ∈ xs) : Part (.slot (.val (.mk e ⟨none, str⟩ (.list std xs)))) (.iface x) := .item _ _ _ _ _ hx

/-- What converting several interface values gives. -/
def OutcomeL (xs : List GIface) (vs : List Val) (h : Heap) : ROut (Heap × List Ptr) → Prop
  | .ok (h', ps) => (∃ ts, ps = ts.map ptr ∧ RepL h' ts ∧ eraseL ts = vs ∧ (fpL ts).Nodup ∧ (∀ a ∈ fpL ts, h.length ≤ a) ∧ Frame [] h h') ∧ ∀ x ∈ xs, Clean (.iface x)
  | .unsupported e => ∃ pre x post, xs = pre ++ x :: post ∧ (∀ y ∈ pre, Clean (.iface y)) ∧ Culprit (.iface x) e.keys e.type
  | .panic => ∃ x ∈ xs, HasPanicky (.iface x)

/-- What a loop over entries gives. -/
def OutcomeE (escape : Bool) (nul : Ptr) (es : List (Bytes × GIface)) (vs : List (Bytes × Val)) (h0 : Heap) (m : Nat) (acc : AMap Val) : ROut Heap → Prop
  | .ok h' => Building nul h0 h' m (AMap.ofEntries vs acc) ∧ ∀ e ∈ es, Clean (.iface e.2)
  | .unsupported e => ∃ pre k x post ks, es = pre ++ (k, x) :: post ∧ (∀ y ∈ pre, Clean (.iface y.2)) ∧ e.keys = (if escape then k :: ks else ks) ∧ Culprit (.iface x) ks e.type
  | .panic => ∃ e ∈ es, HasPanicky (.iface e.2)

def StringPanic (f : GField) : Prop := f.kept = true ∧ (∃ tag, (∃ name ex zero s, f = .mk name ex tag zero s) ∧ lit "string" ∈ (parseTag tag).2) ∧ f.slot.stringer = some .panic

/-- What the loop over the fields of a struct gives. -/
def OutcomeF (nul : Ptr) (fs : List GField) (vs : List (Bytes × Val)) (h0 : Heap) (m : Nat) (acc : AMap Val) : ROut Heap → Prop
  | .ok h' => Building nul h0 h' m (AMap.ofEntries vs acc) ∧ ∀ f ∈ fs, f.kept = true → Clean (.slot f.slot) ∧ ¬ StringPanic f
  | .unsupported e => ∃ pre f post, fs = pre ++ f :: post ∧ (∀ g ∈ pre, g.kept = true → Clean (.slot g.slot) ∧ ¬ StringPanic g) ∧ f.kept = true ∧ Culprit (.slot f.slot) e.keys e.type
  | .panic => ∃ f ∈ fs, f.kept = true ∧ (HasPanicky (.slot f.slot) ∨ StringPanic f)

theorem tagHas_iff (ts : List Bytes) (o : Bytes) : tagHas ts o = true ↔ o ∈ ts := by
  induction ts with
  | nil => simp [tagHas]
  | cons t ts ih =>
    simp only [tagHas, List.mem_cons]
    split
    · rename_i h; simp [h]
    · rename_i h; rw [ih]; constructor
      · exact .inr
      · rintro (h' | h'); exact absurd h'.symm h; exact h'

mutual
theorem iface_spec {env : REnv} : ∀ (x : GIface) (h : Heap), IsNull h env.nul → Outcome (.iface x) (valI env x) h (ifaceToValue env x h)
  | .nil, h, hn => by
    simp only [ifaceToValue, valI, Outcome]
    refine ⟨freshTree_null hn, clean_of_parts ?_ ?_ ?_⟩
    · intro h; cases h
    · intro h; cases h
    · intro n' hp; cases hp
  | .val v, h, hn => by
    simp only [ifaceToValue, valI]
    exact (value_spec v h hn).2
theorem value_spec {env : REnv} : ∀ (v : GVal) (h : Heap), IsNull h env.nul →
    Outcome (.slot (.val v)) (valV env false v) h (toValue env false v h) ∧ Outcome (.iface (.val v)) (valV env true v) h (toValue env true v h)
  | .mk e m (.bool b), h, hn => outcome_basic (s := .bool b) (c := boolCell b) rfl rfl (by simp) (by simp [valD]) (by simp) (by simp [toValue])
  | .mk e m (.int k i), h, hn => outcome_basic (s := .int i) (c := intCell i) rfl rfl (by simp) (by simp [valD]) (by simp) (by simp [toValue])
  | .mk e m (.uint k u), h, hn => outcome_basic (s := .uint u) (c := uintCell u) rfl rfl (by simp) (by simp [valD]) (by simp) (by simp [toValue])
  | .mk e m (.float32 f), h, hn => outcome_basic (s := .float (env.widen f)) (c := floatCell (env.widen f)) rfl rfl (by simp) (by simp [valD]) (by simp) (by simp [toValue])
  | .mk e m (.float64 f), h, hn => outcome_basic (s := .float f) (c := floatCell f) rfl rfl (by simp) (by simp [valD]) (by simp) (by simp [toValue])
  | .mk e m (.string t), h, hn => outcome_basic (s := .str t) (c := strCell t) rfl rfl (by simp) (by simp [valD]) (by simp) (by simp [toValue])
  | .mk e m (.time l t), h, hn =>
    outcome_basic (s := .ts (BitVec.ofInt 64 t.unixNano)) (c := tsCell (BitVec.ofInt 64 t.unixNano)) rfl rfl (by simp) (by simp [valD]) (by simp) (by simp [toValue])
  | .mk e m (.uintptr t u), h, hn => by
    have hslot : Outcome (.slot (.val (.mk e m (.uintptr t u)))) (valV env false (.mk e m (.uintptr t u))) h (toValue env false (.mk e m (.uintptr t u)) h) := by
      simp only [toValue, Bool.false_and, Bool.false_eq_true, if_false]
      refine outcome_orError fun str hm => ?_
      subst hm
      exact .uintptr _ _ _ _
    refine ⟨hslot, ?_⟩
    cases e with
    | false => exact outcome_unmatched (by simp) hslot
    | true =>
      simp only [toValue, Bool.and_self, if_true, valV, GData.basic, Bool.true_eq_false, false_and, if_false, valD]
      exact outcome_leaf (s := .uint u) rfl (clean_iface_leaf rfl (by simp))
  | .mk e m (.ptr .nil), h, hn => by
    have hslot : Outcome (.slot (.val (.mk e m (.ptr .nil)))) (valV env false (.mk e m (.ptr .nil))) h (toValue env false (.mk e m (.ptr .nil)) h) := by
      simp only [toValue]
      refine outcome_orError fun str hm => ?_
      subst hm
      simp only [valD]
      exact ⟨freshTree_null hn, clean_slot_leaf (by intro n' hp; cases hp) (by simp) (by simp) (by simp)⟩
    exact ⟨hslot, outcome_unmatched (by simp [GData.basic]) hslot⟩
  | .mk e m (.ptr (.to s)), h, hn => by
    have hslot : Outcome (.slot (.val (.mk e m (.ptr (.to s))))) (valV env false (.mk e m (.ptr (.to s)))) h (toValue env false (.mk e m (.ptr (.to s))) h) := by
      simp only [toValue]
      refine outcome_orError fun str hm => ?_
      subst hm
      simp only [valD]
      have ih := slot_spec s h hn
      cases hr : slotToValue env s h with
      | ok r =>
        rw [hr] at ih
        refine ⟨ih.1, clean_of_parts (by intro h; cases h) (by intro h; cases h) ?_⟩
        intro n' hp; cases hp; exact ih.2
      | unsupported => rw [hr] at ih; exact .target _ _ _ ih
      | panic => rw [hr] at ih; exact HasPanicky.part (.target _ _ _) ih
    exact ⟨hslot, outcome_unmatched (by simp [GData.basic]) hslot⟩
  | .mk e m (.list std xs), h, hn => by
    have hslot : Outcome (.slot (.val (.mk e m (.list std xs)))) (valV env false (.mk e m (.list std xs))) h (toValue env false (.mk e m (.list std xs)) h) := by
      simp only [toValue]
      refine outcome_orError fun str hm => ?_
      subst hm
      simp only [valD]
      have ih := list_spec xs h hn
      cases hr : listItems env xs h with
      | ok r =>
        obtain ⟨h1, ps⟩ := r
        rw [hr] at ih
        obtain ⟨⟨ts, rfl, h2, h3, h4, h5, h6⟩, hcl⟩ := ih
        simp only [newCell, Heap.alloc]
        refine ⟨?_, clean_of_parts (by intro h; cases h) (by intro h; cases h) ?_⟩
        · have f := frame_alloc h1 [HObj.cell (arrCell (some (ts.map ptr)))]
          refine ⟨.arr h1.length ts, rfl, ?_, by simp [ATree.erase, h3], ?_, ?_, h6.trans0 f⟩
          · exact ⟨by simp, repL_frame f _ h2 (by simp)⟩
          · simp only [fp, List.nodup_cons]
            exact ⟨fun hc => by have := fpL_lt _ h2 _ hc; omega, h4⟩
          · intro a ha
            simp only [fp, List.mem_cons] at ha
            rcases ha with rfl | ha
            · exact h6.len
            · exact h5 a ha
        · intro n' hp; cases hp with | item _ _ _ _ x hx => exact hcl x hx
      | unsupported =>
        rw [hr] at ih
        obtain ⟨pre, x, post, rfl, hp, hu⟩ := ih
        exact .item _ _ _ _ _ _ hp hu
      | panic =>
        rw [hr] at ih
        obtain ⟨x, hx, hu⟩ := ih
        exact HasPanicky.part (hasS_item hx) hu
    exact ⟨hslot, outcome_unmatched (by simp [GData.basic]) hslot⟩
  | .mk e m (.map es), h, hn => by
    have hslot : Outcome (.slot (.val (.mk e m (.map es)))) (valV env false (.mk e m (.map es))) h (toValue env false (.mk e m (.map es)) h) := by
      simp only [toValue, Bool.false_and, Bool.false_eq_true, if_false]
      refine outcome_orError fun str hm => ?_
      subst hm
      simp only [valD]
      have ih := entries_spec false es (h ++ [.map []]) (Building.start hn)
      cases hr : mapEntries env false h.length es (h ++ [.map []]) with
      | ok h1 =>
        rw [hr] at ih
        simp only [newCell, Heap.alloc]
        refine ⟨ih.1.finish, clean_of_parts (by intro h; cases h) (by intro h; cases h) ?_⟩
        intro n' hp; cases hp with | mapEntry _ _ _ k x hx => exact ih.2 _ hx
      | unsupported =>
        rw [hr] at ih
        obtain ⟨pre, k, x, post, ks, rfl, hp, hk, hu⟩ := ih
        simp only [Bool.false_eq_true, if_false] at hk
        subst hk
        exact .mapEntry _ _ _ _ _ _ hp hu
      | panic =>
        rw [hr] at ih
        obtain ⟨⟨k, x⟩, hx, hu⟩ := ih
        exact HasPanicky.part (.mapEntry _ _ _ k x hx) hu
    refine ⟨hslot, ?_⟩
    cases e with
    | false => exact outcome_unmatched (by simp) hslot
    | true =>
      simp only [toValue, Bool.and_self, if_true, valV, GData.basic, Bool.true_eq_false, false_and, if_false, valD]
      have ih := entries_spec true es (h ++ [.map []]) (Building.start hn)
      cases hr : mapEntries env true h.length es (h ++ [.map []]) with
      | ok h1 =>
        rw [hr] at ih
        simp only [newCell, Heap.alloc]
        refine ⟨ih.1.finish, clean_of_parts (by intro h; cases h) (by intro h; cases h) ?_⟩
        intro n' hp
        cases hp with
        | entry _ _ k x hx => exact ih.2 _ hx
        | value _ _ _ hb => simp [GData.basic] at hb
      | unsupported =>
        rw [hr] at ih
        obtain ⟨pre, k, x, post, ks, rfl, hp, hk, hu⟩ := ih
        simp only [if_true] at hk
        show Culprit _ (RErr.keys _) _
        rw [hk]
        exact .entry _ _ _ _ _ hp hu
      | panic =>
        rw [hr] at ih
        obtain ⟨⟨k, x⟩, hx, hu⟩ := ih
        exact HasPanicky.part (.entry _ _ k x hx) hu
  | .mk e m (.struct fs), h, hn => by
    have hslot : Outcome (.slot (.val (.mk e m (.struct fs)))) (valV env false (.mk e m (.struct fs))) h (toValue env false (.mk e m (.struct fs)) h) := by
      simp only [toValue]
      refine outcome_orError fun str hm => ?_
      subst hm
      simp only [valD]
      have ih := fields_spec fs (h ++ [.map []]) (Building.start hn)
      cases hr : structFields env h.length fs (h ++ [.map []]) with
      | ok h1 =>
        rw [hr] at ih
        simp only [newCell, Heap.alloc]
        refine ⟨ih.1.finish, clean_of_parts (by intro h; cases h) ?_ ?_⟩
        · intro h
          cases h with
          | string _ _ _ f tag hf hk ht ho hs => exact (ih.2 f hf hk).2 ⟨hk, ⟨tag, ht, ho⟩, hs⟩
        · intro n' hp; cases hp with | field _ _ _ f hf hk => exact (ih.2 f hf hk).1
      | unsupported =>
        rw [hr] at ih
        obtain ⟨pre, f, post, rfl, hp, hk, hu⟩ := ih
        refine .field _ _ _ _ _ (clean_of_parts (by intro h; cases h) ?_ ?_) hk hu
        · intro h
          cases h with
          | string _ _ _ g tag hg hkg ht ho hs => exact (hp g hg hkg).2 ⟨hkg, ⟨tag, ht, ho⟩, hs⟩
        · intro n' hp'; cases hp' with | field _ _ _ g hg hkg => exact (hp g hg hkg).1
      | panic =>
        rw [hr] at ih
        obtain ⟨f, hf, hk, hu | hu⟩ := ih
        · exact HasPanicky.part (.field _ _ _ f hf hk) hu
        · obtain ⟨_, ⟨tag, ht, ho⟩, hs⟩ := hu
          exact HasPanicky.self (.string _ _ _ f tag hf hk ht ho hs)
    exact ⟨hslot, outcome_unmatched (by simp [GData.basic]) hslot⟩
  | .mk e m (.other t), h, hn => by
    have hslot : Outcome (.slot (.val (.mk e m (.other t)))) (valV env false (.mk e m (.other t))) h (toValue env false (.mk e m (.other t)) h) := by
      simp only [toValue]
      refine outcome_orError fun str hm => ?_
      subst hm
      exact .other _ _ _
    exact ⟨hslot, outcome_unmatched (by simp [GData.basic]) hslot⟩
theorem slot_spec {env : REnv} : ∀ (s : GSlot) (h : Heap), IsNull h env.nul → Outcome (.slot s) (valS env s) h (slotToValue env s h)
  | .val v, h, hn => by
    simp only [slotToValue, valS]
    exact (value_spec v h hn).1
  | .iface t false x, h, hn => Culprit.iface t x
  | .iface t true .nil, h, hn => HasPanicky.self (.nilError t)
  | .iface t true (.val (.mk e ⟨none, str⟩ d)), h, hn => by
    simp only [slotToValue, orError, GVal.methods]
    exact HasPanicky.self (.ifaceNoError _ _ _ _)
  | .iface t true (.val (.mk e ⟨some .panic, str⟩ d)), h, hn => by
    simp only [slotToValue, orError, GVal.methods]
    exact HasPanicky.self (.ifaceError _ _ _ _)
  | .iface t true (.val (.mk e ⟨some (.ok s), str⟩ d)), h, hn => by
    simp only [slotToValue, orError, GVal.methods, valS, Option.getD_some, textVal]
    refine outcome_leaf rfl (clean_of_parts ?_ ?_ ?_)
    · intro h; cases h
    · intro h; cases h
    · intro n' h; cases h
theorem list_spec {env : REnv} : ∀ (xs : List GIface) (h : Heap), IsNull h env.nul → OutcomeL xs (valL env xs) h (listItems env xs h)
  | [], h, hn => by
    simp only [listItems, valL, OutcomeL]
    exact ⟨⟨[], rfl, by simp [RepL], by simp [eraseL], by simp [fpL], by simp [fpL], Frame.refl h⟩, by simp⟩
  | x :: xs, h, hn => by
    have ih := iface_spec x h hn
    simp only [listItems, valL]
    cases hr : ifaceToValue env x h with
    | unsupported => rw [hr] at ih; exact ⟨[], x, xs, rfl, by simp, ih⟩
    | panic => rw [hr] at ih; exact ⟨x, by simp, ih⟩
    | ok r =>
      obtain ⟨h1, p⟩ := r
      rw [hr] at ih
      obtain ⟨⟨t, rfl, b1⟩, hc⟩ := ih
      have ih2 := list_spec xs h1 (hn.frame b1.frame)
      simp only []
      cases hr2 : listItems env xs h1 with
      | unsupported =>
        rw [hr2] at ih2
        obtain ⟨pre, y, post, rfl, hp, hu⟩ := ih2
        refine ⟨x :: pre, y, post, rfl, ?_, hu⟩
        intro z hz
        rcases List.mem_cons.1 hz with rfl | hz
        · exact hc
        · exact hp z hz
      | panic => rw [hr2] at ih2; obtain ⟨y, hy, hu⟩ := ih2; exact ⟨y, by simp [hy], hu⟩
      | ok r =>
        obtain ⟨h2, ps⟩ := r
        rw [hr2] at ih2
        obtain ⟨⟨ts, rfl, k1, k2, k3, k4, k5⟩, hcl⟩ := ih2
        refine ⟨⟨t :: ts, rfl, ⟨rep_frame0 k5 b1.rep, k1⟩, by simp [eraseL, b1.erase, k2], ?_, ?_, b1.frame.trans0 k5⟩, ?_⟩
        · simp only [fpL]
          rw [List.nodup_append]
          refine ⟨b1.nodup, k3, fun a ha b hb e => ?_⟩
          have := fp_lt _ b1.rep a ha
          have := k4 b hb
          omega
        · intro a ha
          simp only [fpL, List.mem_append] at ha
          rcases ha with ha | ha
          · exact b1.fresh a ha
          · exact Nat.le_trans b1.frame.len (k4 a ha)
        · intro y hy
          rcases List.mem_cons.1 hy with rfl | hy
          · exact hc
          · exact hcl y hy
theorem entries_spec {env : REnv} (escape : Bool) : ∀ (es : List (Bytes × GIface)) (h : Heap) {h0 : Heap} {m : Nat} {acc : AMap Val}, Building env.nul h0 h m acc →
    OutcomeE escape env.nul es (valE env escape es) h0 m acc (mapEntries env escape m es h)
  | [], h, h0, m, acc, b => by
    simp only [mapEntries, valE, OutcomeE]
    exact ⟨b, by simp⟩
  | (k, x) :: es, h, h0, m, acc, b => by
    have hn : IsNull h env.nul := b.choose_spec.2.2.2.2.2
    have ih := iface_spec x h hn
    simp only [mapEntries, valE]
    cases hr : ifaceToValue env x h with
    | unsupported er =>
      rw [hr] at ih
      refine ⟨[], k, x, es, er.keys, rfl, by simp, ?_, ?_⟩
      · cases escape <;> rfl
      · cases escape <;> exact ih
    | panic => rw [hr] at ih; exact ⟨(k, x), by simp, ih⟩
    | ok r =>
      obtain ⟨h1, p⟩ := r
      rw [hr] at ih
      obtain ⟨⟨t, rfl, b1⟩, hc⟩ := ih
      obtain ⟨h2, e2, b2⟩ := b.write b1 (if escape = true then escapeKey k else k)
      simp only [e2]
      have ih2 := entries_spec escape es h2 b2
      cases hr2 : mapEntries env escape m es h2 with
      | unsupported =>
        rw [hr2] at ih2
        obtain ⟨pre, k', y, post, ks, rfl, hp, hk, hu⟩ := ih2
        refine ⟨(k, x) :: pre, k', y, post, ks, rfl, ?_, hk, hu⟩
        intro z hz
        rcases List.mem_cons.1 hz with rfl | hz
        · exact hc
        · exact hp z hz
      | panic => rw [hr2] at ih2; obtain ⟨y, hy, hu⟩ := ih2; exact ⟨y, by simp [hy], hu⟩
      | ok h3 =>
        rw [hr2] at ih2
        refine ⟨by simpa using ih2.1, ?_⟩
        intro y hy
        rcases List.mem_cons.1 hy with rfl | hy
        · exact hc
        · exact ih2.2 y hy
theorem fields_spec {env : REnv} : ∀ (fs : List GField) (h : Heap) {h0 : Heap} {m : Nat} {acc : AMap Val}, Building env.nul h0 h m acc →
    OutcomeF env.nul fs (valF env fs) h0 m acc (structFields env m fs h)
  | [], h, h0, m, acc, b => by
    simp only [structFields, valF, OutcomeF]
    exact ⟨b, by simp⟩
  | .mk fname exported tag zero s :: fs, h, h0, m, acc, b => by
    have hn : IsNull h env.nul := b.choose_spec.2.2.2.2.2
    have skip : (GField.mk fname exported tag zero s).kept = false → ∀ r, OutcomeF env.nul fs (valF env fs) h0 m acc r →
        OutcomeF env.nul (.mk fname exported tag zero s :: fs) (valF env fs) h0 m acc r := by
      intro hk r hr
      cases r with
      | ok h1 =>
        refine ⟨hr.1, fun f hf hkf => ?_⟩
        rcases List.mem_cons.1 hf with rfl | hf
        · simp [hk] at hkf
        · exact hr.2 f hf hkf
      | unsupported =>
        obtain ⟨pre, f, post, rfl, hp, hkf, hu⟩ := hr
        refine ⟨.mk fname exported tag zero s :: pre, f, post, rfl, ?_, hkf, hu⟩
        intro z hz hkz
        rcases List.mem_cons.1 hz with rfl | hz
        · simp [hk] at hkz
        · exact hp z hz hkz
      | panic => obtain ⟨f, hf, hu⟩ := hr; exact ⟨f, by simp [hf], hu⟩
    have rest : ∀ (h2 : Heap) (acc2 : AMap Val) (vs : List (Bytes × Val)), Building env.nul h0 h2 m acc2 → AMap.ofEntries vs acc = AMap.ofEntries (valF env fs) acc2 →
        Clean (.slot s) → ¬ StringPanic (.mk fname exported tag zero s) → OutcomeF env.nul (.mk fname exported tag zero s :: fs) vs h0 m acc (structFields env m fs h2) := by
      intro h2 acc2 vs b2 hvs hc hs
      have ih2 := fields_spec fs h2 b2
      cases hr2 : structFields env m fs h2 with
      | unsupported =>
        rw [hr2] at ih2
        obtain ⟨pre, f, post, rfl, hp, hk, hu⟩ := ih2
        refine ⟨.mk fname exported tag zero s :: pre, f, post, rfl, ?_, hk, hu⟩
        intro z hz hkz
        rcases List.mem_cons.1 hz with rfl | hz
        · exact ⟨hc, hs⟩
        · exact hp z hz hkz
      | panic => rw [hr2] at ih2; obtain ⟨y, hy, hu⟩ := ih2; exact ⟨y, by simp [hy], hu⟩
      | ok h3 =>
        rw [hr2] at ih2
        refine ⟨by rw [hvs]; exact ih2.1, ?_⟩
        intro y hy hk
        rcases List.mem_cons.1 hy with rfl | hy
        · exact ⟨hc, hs⟩
        · exact ih2.2 y hy hk
    have hkept : (GField.mk fname exported tag zero s).kept = (exported && decide (tag ≠ [45]) && !(tagHas (parseTag tag).2 (lit "omitempty") && zero)) := by
      simp only [GField.kept]
      congr 3
      rw [Bool.eq_iff_iff, tagHas_iff, List.contains_iff_mem]
    simp only [structFields, valF]
    by_cases h1 : ¬ exported = true
    · have hk : (GField.mk fname exported tag zero s).kept = false := by rw [hkept]; simp [h1]
      rw [if_pos h1, if_pos hk]
      exact skip hk _ (fields_spec fs h b)
    rw [if_neg h1]
    rw [Classical.not_not] at h1
    by_cases h2 : tag = [45]
    · have hk : (GField.mk fname exported tag zero s).kept = false := by rw [hkept]; simp [h2]
      rw [if_pos h2, if_pos hk]
      exact skip hk _ (fields_spec fs h b)
    rw [if_neg h2]
    by_cases h3 : (tagHas (parseTag tag).2 (lit "omitempty") && zero) = true
    · have hk : (GField.mk fname exported tag zero s).kept = false := by rw [hkept]; simp [h3]
      rw [if_pos h3, if_pos hk]
      exact skip hk _ (fields_spec fs h b)
    rw [if_neg h3]
    have hk : (GField.mk fname exported tag zero s).kept = true := by rw [hkept, h1]; simp only [Bool.not_eq_true] at h3; simp [h2, h3]
    rw [if_neg (by simp [hk])]
    have hname : (if (parseTag tag).1 ≠ [] then (parseTag tag).1 else env.lower fname) = (if (parseTag tag).1 = [] then env.lower fname else (parseTag tag).1) := by
      by_cases hp : (parseTag tag).1 = [] <;> simp [hp]
    rw [hname]
    generalize (if (parseTag tag).1 = [] then env.lower fname else (parseTag tag).1) = name
    have ih := slot_spec s h hn
    cases hr : slotToValue env s h with
    | unsupported => rw [hr] at ih; exact ⟨[], _, fs, rfl, by simp, hk, ih⟩
    | panic => rw [hr] at ih; exact ⟨_, by simp, hk, .inl ih⟩
    | ok r =>
      obtain ⟨h1', p⟩ := r
      rw [hr] at ih
      obtain ⟨⟨t, rfl, b1⟩, hc⟩ := ih
      simp only []
      by_cases h4 : tagHas (parseTag tag).2 (lit "string") = true
      · rw [if_pos h4, if_pos ((tagHas_iff _ _).1 h4)]
        cases hs : s.stringer with
        | none => exact rest h1' acc _ (b.grow b1.frame) rfl hc (by rintro ⟨_, _, h⟩; simp [GField.slot, hs] at h)
        | some r =>
          cases r with
          | panic =>
            simp only []
            exact ⟨_, by simp, hk, .inr ⟨hk, ⟨tag, ⟨_, _, _, _, rfl⟩, (tagHas_iff _ _).1 h4⟩, hs⟩⟩
          | ok str =>
            simp only [textVal]
            have b2 := (b.grow b1.frame).write (freshTree_leaf h1' (.str str)) name
            obtain ⟨h2', e2, b2⟩ := b2
            rw [show scalarCell (.str str) = strCell str from rfl] at e2
            rw [show (some h1'.length : Ptr) = (ATree.leaf h1'.length (.str str)).ptr from rfl, e2]
            exact rest h2' _ _ b2 (by simp) hc (by rintro ⟨_, _, h⟩; simp [GField.slot, hs] at h)
      · rw [if_neg h4, if_neg (fun h => h4 ((tagHas_iff _ _).2 h))]
        obtain ⟨h2', e2, b2⟩ := b.write b1 name
        rw [e2]
        refine rest h2' _ _ b2 (by simp) hc ?_
        rintro ⟨_, ⟨tag', ⟨_, _, _, _, he⟩, ho⟩, _⟩
        cases he
        exact h4 ((tagHas_iff _ _).2 ho)
end

end Sawmill
