import Verif.Model.ReflectErr
import Verif.Props.Unpack
import Verif.Props.Quote
/-!
# C88: what the error of a conversion says, and when there is one
-/

namespace Sawmill
open ATree Spec

/-- The text about a place of type `type` below the names `ks`. -/
def Spec.unsupportedText (pr : Nat → Bool) (ks : List Bytes) (type : Bytes) : Bytes :=
  (ks.map fun k => lit "failed on key " ++ goQuote pr k ++ lit ": ").flatten ++ (lit "eventutil: unsupported type: " ++ type)

theorem RErr.text_eq (pr : Nat → Bool) : ∀ e : RErr, e.text pr = Spec.unsupportedText pr e.keys e.type
  | .unsupportedType t => rfl
  | .onKey k e => by simp [RErr.text, RErr.text_eq pr e, Spec.unsupportedText, RErr.keys, RErr.type]

theorem RErr.as_eq : ∀ e : RErr, e.as = e.type
  | .unsupportedType t => rfl
  | .onKey k e => by simp [RErr.as, RErr.type, RErr.as_eq e]

theorem RErr.ext : ∀ {e e' : RErr}, e.keys = e'.keys → e.type = e'.type → e = e'
  | .unsupportedType t, .unsupportedType t', _, h => by simpa [RErr.type] using h
  | .onKey k e, .onKey k' e', h1, h2 => by
    simp only [RErr.keys, List.cons.injEq] at h1
    rw [h1.1, RErr.ext h1.2 (by simpa [RErr.type] using h2)]
  | .unsupportedType _, .onKey _ _, h, _ => by simp [RErr.keys] at h
  | .onKey _ _, .unsupportedType _, h, _ => by simp [RErr.keys] at h

/-! ## The culprit is found -/

theorem listItems_app {env : REnv} {x : GIface} {post : List GIface} {e : RErr} {h1 : Heap} : ∀ {pre : List GIface} {h : Heap} {ps : List Ptr}, listItems env pre h = .ok (h1, ps) →
    ifaceToValue env x h1 = .unsupported e → listItems env (pre ++ x :: post) h = .unsupported e := by
  intro pre
  induction pre with
  | nil =>
    intro h ps h2 h3
    simp only [listItems, ROut.ok.injEq, Prod.mk.injEq] at h2
    obtain ⟨rfl, rfl⟩ := h2
    simp [listItems, h3]
  | cons y pre ih =>
    intro h ps h2 h3
    simp only [List.cons_append, listItems] at h2 ⊢
    cases hr : ifaceToValue env y h with
    | panic => rw [hr] at h2; simp at h2
    | unsupported => rw [hr] at h2; simp at h2
    | ok r =>
      obtain ⟨h', p⟩ := r
      rw [hr] at h2
      simp only [] at h2 ⊢
      cases hr2 : listItems env pre h' with
      | panic => rw [hr2] at h2; simp at h2
      | unsupported => rw [hr2] at h2; simp at h2
      | ok r =>
        obtain ⟨h'', ps'⟩ := r
        rw [hr2] at h2
        simp only [ROut.ok.injEq, Prod.mk.injEq] at h2
        obtain ⟨rfl, rfl⟩ := h2
        rw [ih hr2 h3]

theorem mapEntries_app {env : REnv} {escape : Bool} {m : Nat} {k : Bytes} {x : GIface} {post : List (Bytes × GIface)} {e : RErr} {h1 : Heap} : ∀ {pre : List (Bytes × GIface)} {h : Heap},
    mapEntries env escape m pre h = .ok h1 → ifaceToValue env x h1 = .unsupported e → mapEntries env escape m (pre ++ (k, x) :: post) h = .unsupported (if escape then .onKey k e else e) := by
  intro pre
  induction pre with
  | nil =>
    intro h h2 h3
    simp only [mapEntries, ROut.ok.injEq] at h2
    subst h2
    simp [mapEntries, h3]
  | cons y pre ih =>
    obtain ⟨k', y⟩ := y
    intro h h2 h3
    simp only [List.cons_append, mapEntries] at h2 ⊢
    cases hr : ifaceToValue env y h with
    | panic => rw [hr] at h2; simp at h2
    | unsupported => rw [hr] at h2; simp at h2
    | ok r =>
      obtain ⟨h', p⟩ := r
      rw [hr] at h2
      simp only [] at h2 ⊢
      cases hr2 : mapWrite h' (some m) (if escape = true then escapeKey k' else k') p with
      | panic => rw [hr2] at h2; simp at h2
      | ok h'' =>
        rw [hr2] at h2
        exact ih h2 h3

theorem structFields_app {env : REnv} {m : Nat} {fs : List GField} {e : RErr} {h1 : Heap} : ∀ {pre : List GField} {h : Heap},
    structFields env m pre h = .ok h1 → structFields env m fs h1 = .unsupported e → structFields env m (pre ++ fs) h = .unsupported e := by
  intro pre
  induction pre with
  | nil =>
    intro h h2 h3
    simp only [structFields, ROut.ok.injEq] at h2
    subst h2
    exact h3
  | cons y pre ih =>
    obtain ⟨fname, exported, tag, zero, s⟩ := y
    intro h h2 h3
    simp only [List.cons_append, structFields] at h2 ⊢
    by_cases c1 : ¬ exported = true
    · rw [if_pos c1] at h2 ⊢; exact ih h2 h3
    rw [if_neg c1] at h2 ⊢
    by_cases c2 : tag = [45]
    · rw [if_pos c2] at h2 ⊢; exact ih h2 h3
    rw [if_neg c2] at h2 ⊢
    by_cases c3 : (tagHas (parseTag tag).2 (lit "omitempty") && zero) = true
    · rw [if_pos c3] at h2 ⊢; exact ih h2 h3
    rw [if_neg c3] at h2 ⊢
    generalize (if (parseTag tag).1 ≠ [] then (parseTag tag).1 else env.lower fname) = name at h2 ⊢
    cases hr : slotToValue env s h with
    | panic => rw [hr] at h2; simp at h2
    | unsupported => rw [hr] at h2; simp at h2
    | ok r =>
      obtain ⟨h', p⟩ := r
      rw [hr] at h2
      simp only [] at h2 ⊢
      by_cases c4 : tagHas (parseTag tag).2 (lit "string") = true
      · rw [if_pos c4] at h2 ⊢
        cases hst : s.stringer with
        | none => rw [hst] at h2; exact ih h2 h3
        | some r =>
          rw [hst] at h2
          cases r with
          | panic => simp at h2
          | ok t =>
            simp only [] at h2 ⊢
            cases hw : mapWrite (h' ++ [.cell (strCell t)]) (some m) name (some h'.length) with
            | panic => rw [hw] at h2; simp at h2
            | ok h'' => rw [hw] at h2; exact ih h2 h3
      · rw [if_neg c4] at h2 ⊢
        cases hw : mapWrite h' (some m) name p with
        | panic => rw [hw] at h2; simp at h2
        | ok h'' => rw [hw] at h2; exact ih h2 h3

theorem clean_list {env : REnv} {xs : List GIface} {h : Heap} (hn : IsNull h env.nul) (hc : ∀ x ∈ xs, Clean (.iface x)) : ∃ h1 ps, listItems env xs h = .ok (h1, ps) ∧ IsNull h1 env.nul := by
  have := list_spec xs h hn
  cases hr : listItems env xs h with
  | ok r => obtain ⟨h1, ps⟩ := r; rw [hr] at this; obtain ⟨⟨_, _, _, _, _, _, f⟩, _⟩ := this; exact ⟨h1, ps, rfl, hn.frame f⟩
  | unsupported =>
    rw [hr] at this
    obtain ⟨pre, x, post, rfl, _, hu⟩ := this
    obtain ⟨n, h1, h2⟩ := hu.has
    exact absurd h2 (hc x (by simp) n h1).1
  | panic =>
    rw [hr] at this
    obtain ⟨x, hx, n, h1, h2⟩ := this
    exact absurd h2 (hc x hx n h1).2

theorem clean_entries {env : REnv} (escape : Bool) {es : List (Bytes × GIface)} {h h0 : Heap} {m : Nat} {acc : AMap Val} (b : Building env.nul h0 h m acc) (hc : ∀ e ∈ es, Clean (.iface e.2)) :
    ∃ h1, mapEntries env escape m es h = .ok h1 ∧ IsNull h1 env.nul := by
  have := entries_spec escape es h b
  cases hr : mapEntries env escape m es h with
  | ok h1 => rw [hr] at this; exact ⟨h1, rfl, this.1.choose_spec.2.2.2.2.2⟩
  | unsupported =>
    rw [hr] at this
    obtain ⟨pre, k, x, post, ks, rfl, _, _, hu⟩ := this
    obtain ⟨n, h1, h2⟩ := hu.has
    exact absurd h2 (hc (k, x) (by simp) n h1).1
  | panic =>
    rw [hr] at this
    obtain ⟨x, hx, n, h1, h2⟩ := this
    exact absurd h2 (hc x hx n h1).2

theorem clean_fields {env : REnv} {fs : List GField} {h h0 : Heap} {m : Nat} {acc : AMap Val} (b : Building env.nul h0 h m acc) {exact_ : Bool} {str : Option (Res Bytes)}
    (hc : Clean (.slot (.val (.mk exact_ ⟨none, str⟩ (.struct fs))))) : ∃ h1, structFields env m fs h = .ok h1 ∧ IsNull h1 env.nul := by
  have := fields_spec fs h b
  cases hr : structFields env m fs h with
  | ok h1 => rw [hr] at this; exact ⟨h1, rfl, this.1.choose_spec.2.2.2.2.2⟩
  | unsupported =>
    rw [hr] at this
    obtain ⟨pre, f, post, rfl, _, hk, hu⟩ := this
    obtain ⟨n, h1, h2⟩ := hu.has
    exact absurd h2 (hc n (.part (.field _ _ _ f (by simp) hk) h1)).1
  | panic =>
    rw [hr] at this
    obtain ⟨f, hf, hk, hu | hu⟩ := this
    · obtain ⟨n, h1, h2⟩ := hu
      exact absurd h2 (hc n (.part (.field _ _ _ f hf hk) h1)).2
    · obtain ⟨_, ⟨tag, ht, ho⟩, hs⟩ := hu
      exact absurd (.string _ _ _ f tag hf hk ht ho hs) (hc _ (.here _)).2

theorem structFields_kept {env : REnv} {m : Nat} {f : GField} {fs : List GField} {h : Heap} {e : RErr} (hk : f.kept = true) (hr : slotToValue env f.slot h = .unsupported e) :
    structFields env m (f :: fs) h = .unsupported e := by
  obtain ⟨fname, exported, tag, zero, s⟩ := f
  simp only [GField.slot] at hr
  simp only [GField.kept, Bool.and_eq_true, decide_eq_true_eq, Bool.not_eq_true', Bool.and_eq_false_iff] at hk
  obtain ⟨⟨h1, h2⟩, h3⟩ := hk
  simp only [structFields, h1, h2, not_true_eq_false, if_false]
  rw [if_neg, hr]
  intro h4
  rw [Bool.and_eq_true, tagHas_iff] at h4
  rcases h3 with h3 | h3
  · rw [← Bool.not_eq_true, List.contains_iff_mem] at h3; exact h3 h4.1
  · rw [h3] at h4; simp at h4

/-- What is reported about a place. -/
def Reported (env : REnv) (h : Heap) (e : RErr) : GPlace → Prop
  | .iface x => ifaceToValue env x h = .unsupported e
  | .slot s => slotToValue env s h = .unsupported e

theorem culprit_reported {env : REnv} {n : GPlace} {ks : List Bytes} {t : Bytes} (hc : Culprit n ks t) : ∀ h : Heap, IsNull h env.nul → ∃ e, Reported env h e n ∧ e.keys = ks ∧ e.type = t := by
  induction hc with
  | other _ _ t => intro h _; exact ⟨.unsupportedType t, by simp [Reported, slotToValue, toValue, orError], rfl, rfl⟩
  | uintptr _ _ t u => intro h _; exact ⟨.unsupportedType t, by simp [Reported, slotToValue, toValue, orError], rfl, rfl⟩
  | iface t x => intro h _; exact ⟨.unsupportedType t, by simp [Reported, slotToValue], rfl, rfl⟩
  | value ex m d hb _ ih =>
    intro h hn
    obtain ⟨e, h1, h2⟩ := ih h hn
    refine ⟨e, ?_, h2⟩
    simp only [Reported, slotToValue, ifaceToValue] at h1 ⊢
    rw [toValue_unmatched hb, h1]
  | entry m pre k x post hp _ ih =>
    intro h hn
    obtain ⟨h1, k1, k2⟩ := clean_entries true (Building.start hn) hp
    obtain ⟨e, i1, i2, i3⟩ := ih h1 k2
    refine ⟨.onKey k e, ?_, by simp [RErr.keys, i2], i3⟩
    simp only [Reported, ifaceToValue, toValue, Bool.and_self, if_true]
    rw [mapEntries_app k1 i1]
    rfl
  | target ex str s _ ih =>
    intro h hn
    obtain ⟨e, i1, i2⟩ := ih h hn
    exact ⟨e, by simpa [Reported, slotToValue, toValue, orError] using i1, i2⟩
  | item ex std str pre x post hp _ ih =>
    intro h hn
    obtain ⟨h1, ps, k1, k2⟩ := clean_list hn hp
    obtain ⟨e, i1, i2⟩ := ih h1 k2
    refine ⟨e, ?_, i2⟩
    simp only [Reported, slotToValue, toValue, orError]
    rw [listItems_app k1 i1]
  | mapEntry ex str pre k x post hp _ ih =>
    intro h hn
    obtain ⟨h1, k1, k2⟩ := clean_entries false (Building.start hn) hp
    obtain ⟨e, i1, i2⟩ := ih h1 k2
    refine ⟨e, ?_, i2⟩
    simp only [Reported, slotToValue, toValue, orError, Bool.false_and, Bool.false_eq_true, if_false]
    rw [mapEntries_app k1 i1]
    rfl
  | field ex str pre f post hp hk _ ih =>
    intro h hn
    obtain ⟨h1, k1, k2⟩ := clean_fields (Building.start hn) hp
    obtain ⟨e, i1, i2⟩ := ih h1 k2
    refine ⟨e, ?_, i2⟩
    simp only [Reported, slotToValue, toValue, orError]
    rw [structFields_app k1 (structFields_kept hk i1)]

/-- **C88.** `ReflectValue` returns an error exactly when, following the data in order, a place of an unsupported type comes before everything that panics; the error says which type that is and, quoted, the names on the way to it in values of
type `map[string]interface{}`, outermost first; `errors.As` finds the type. -/
theorem reflectValue_says {env : REnv} {h : Heap} (hn : IsNull h env.nul) (pr : Nat → Bool) (x : GIface) :
    (∀ e, ifaceToValue env x h = .unsupported e → ∃ ks type, Culprit (.iface x) ks type ∧ e.text pr = Spec.unsupportedText pr ks type ∧ e.as = type) ∧
    (∀ ks type, Culprit (.iface x) ks type → ∃ e, ifaceToValue env x h = .unsupported e ∧ e.text pr = Spec.unsupportedText pr ks type ∧ e.as = type) := by
  constructor
  · intro e he
    have := iface_spec x h hn
    rw [he] at this
    exact ⟨e.keys, e.type, this, RErr.text_eq pr e, RErr.as_eq e⟩
  · intro ks t hc
    obtain ⟨e, h1, rfl, rfl⟩ := culprit_reported hc h hn
    exact ⟨e, h1, RErr.text_eq pr e, RErr.as_eq e⟩

/-- C88. There is at most one culprit. -/
theorem culprit_unique {x : GIface} {ks ks' : List Bytes} {t t' : Bytes} (h1 : Culprit (.iface x) ks t) (h2 : Culprit (.iface x) ks' t') : ks = ks' ∧ t = t' := by
  have hn : IsNull [.cell nullCell] sampleEnv.nul := rfl
  obtain ⟨e, e1, rfl, rfl⟩ := culprit_reported h1 _ hn
  obtain ⟨e', e1', rfl, rfl⟩ := culprit_reported h2 _ hn
  simp only [Reported] at e1 e1'
  rw [e1] at e1'
  cases e1'
  exact ⟨rfl, rfl⟩

/-- C88. It panics exactly if something inside panics and no place of an unsupported type comes before it. -/
theorem reflectValue_panics_iff {env : REnv} {h : Heap} (hn : IsNull h env.nul) (x : GIface) :
    ifaceToValue env x h = .panic ↔ (∃ n, Inside (.iface x) n ∧ Panicky n) ∧ ¬ ∃ ks type, Culprit (.iface x) ks type := by
  have key := iface_spec x h hn
  constructor
  · intro he
    rw [he] at key
    refine ⟨key, ?_⟩
    rintro ⟨ks, t, hc⟩
    obtain ⟨e, h1, _⟩ := culprit_reported hc h hn
    simp only [Reported] at h1
    rw [he] at h1
    cases h1
  · rintro ⟨⟨n, h1, h2⟩, hno⟩
    cases hr : ifaceToValue env x h with
    | panic => rfl
    | unsupported e => rw [hr] at key; exact (hno ⟨_, _, key⟩).elim
    | ok r => rw [hr] at key; exact absurd h2 (key.2 n h1).2

/-- C88. The names and the type can be read off the text. -/
theorem unsupportedText_inj {pr pr' : Nat → Bool} : ∀ {ks ks' : List Bytes} {t t' : Bytes}, Spec.unsupportedText pr ks t = Spec.unsupportedText pr' ks' t' → ks = ks' ∧ t = t'
  | [], [], t, t', h => by simpa [Spec.unsupportedText] using h
  | k :: ks, k' :: ks', t, t', h => by
    simp only [Spec.unsupportedText, List.map_cons, List.flatten_cons, List.append_assoc, List.append_cancel_left_eq] at h
    obtain ⟨rfl, h'⟩ := quote_delimits h
    rw [List.append_cancel_left_eq] at h'
    obtain ⟨rfl, rfl⟩ := unsupportedText_inj (ks := ks) (ks' := ks') (pr := pr) (pr' := pr') (by simpa only [Spec.unsupportedText, List.append_assoc] using h')
    exact ⟨rfl, rfl⟩
  | [], k :: ks, t, t', h => by
    simp only [Spec.unsupportedText, List.map_cons, List.flatten_cons, List.map_nil, List.flatten_nil, List.nil_append, List.append_assoc] at h
    have := congrArg List.head? h
    simp [lit] at this
  | k :: ks, [], t, t', h => by
    simp only [Spec.unsupportedText, List.map_cons, List.flatten_cons, List.map_nil, List.flatten_nil, List.nil_append, List.append_assoc] at h
    have := congrArg List.head? h
    simp [lit] at this

/-- C88. `mapinterface.ToEvent` passes the error on: it is about an entry of the map, whose name it gives first. -/
theorem mapToEvent_says {env : REnv} {h : Heap} (hn : IsNull h env.nul) (pr : Nat → Bool) (order : List (Bytes × Ptr) → List (Bytes × Ptr)) (m : List (Bytes × GIface)) {e : RErr}
    (he : mapToEvent env order m h = .unsupported e) :
    ∃ pre k x post ks type, m = pre ++ (k, x) :: post ∧ (∀ y ∈ pre, ∀ n, Inside (.iface y.2) n → ¬ Unsupported n ∧ ¬ Panicky n) ∧ Culprit (.iface x) ks type ∧
      e.text pr = Spec.unsupportedText pr (k :: ks) type ∧ e.as = type := by
  have he' : ifaceToValue env (.val (.mk true {} (.map m))) h = .unsupported e := by
    unfold mapToEvent at he
    split at he
    · cases he
    · rename_i hr; cases he; exact hr
    · split at he
      · cases he
      · split at he <;> cases he
  obtain ⟨ks, t, hc, ht, ha⟩ := (reflectValue_says hn pr _).1 e he'
  cases hc with
  | value _ _ _ hb => simp [GData.basic] at hb
  | entry _ pre k x post hp hc => exact ⟨pre, k, x, post, _, t, rfl, hp, hc, ht, ha⟩

/-- C88. `EventValue.Unpack` passes the error on. -/
theorem unpack_says {env : REnv} {h : Heap} (hn : IsNull h env.nul) (pr : Nat → Bool) (x : GIface) (v : Cell) :
    (∀ h' v' e, unpackValue env x v h = .ok (h', v', some e) → ∃ ks type, Culprit (.iface x) ks type ∧ e.text pr = Spec.unsupportedText pr ks type ∧ e.as = type) ∧
    (∀ ks type, Culprit (.iface x) ks type → ∃ e, unpackValue env x v h = .ok (h, v, some e) ∧ e.text pr = Spec.unsupportedText pr ks type ∧ e.as = type) := by
  obtain ⟨k1, k2⟩ := reflectValue_says hn pr x
  constructor
  · intro h' v' e he
    unfold unpackValue at he
    split at he
    · cases he
    · rename_i hr; cases he; exact k1 _ hr
    · split at he <;> cases he
  · intro ks t hc
    obtain ⟨e, h1, h2⟩ := k2 ks t hc
    exact ⟨e, by simp [unpackValue, h1], h2⟩

/-- A map with a good entry, and below the name `a"b` a list with a struct whose exported field is a channel. -/
def badMap : List (Bytes × GIface) :=
  [(lit "good", .nil), (lit "a\"b", .val (.mk false {} (.list true [.nil, .val (.mk false {} (.struct [.mk (lit "C") true [] false (.val (.mk false {} (.other (lit "chan int"))))]))]))), (lit "z", .nil)]

/-- The hypotheses of the theorems can be met, and what the error says. -/
theorem reflect_says_sample : (∃ e, mapToEvent sampleEnv id badMap [.cell nullCell] = .unsupported e ∧ e.text (fun _ => false) = lit "failed on key \"a\\\"b\": eventutil: unsupported type: chan int") ∧
    Culprit (.iface (.val (.mk true {} (.map badMap)))) [lit "a\"b"] (lit "chan int") := by
  have hn : IsNull [.cell nullCell] sampleEnv.nul := rfl
  refine ⟨⟨.onKey (lit "a\"b") (.unsupportedType (lit "chan int")), rfl, by decide +kernel⟩, ?_⟩
  have := iface_spec (env := sampleEnv) (.val (.mk true {} (.map badMap))) _ hn
  exact this

end Sawmill
