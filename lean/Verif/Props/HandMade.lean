import Verif.Spec.HandMade
import Verif.Props.Reuse
import Verif.Props.Format
import Verif.Spec.Cycle
import Verif.Model.Convert
import Verif.Model.Reflect
/-!
# C98: values put together by hand
-/
namespace Sawmill
open Wire

section
variable (f : Cell → Cell)

theorem mapCells_get (h : Heap) (a : Nat) : (h.mapCells f)[a]? = (h[a]?).map (HObj.mapCell f) := by
  simp only [Heap.mapCells, List.getElem?_map]

theorem mapCells_deref (h : Heap) (p : Ptr) : deref (h.mapCells f) p = (deref h p).map f := by
  cases p with
  | none => rfl
  | some a =>
    simp only [deref, mapCells_get]
    cases h[a]? with
    | none => rfl
    | some o => cases o <;> rfl

theorem mapCells_mapOf (h : Heap) (m : Option Nat) : mapOf (h.mapCells f) m = mapOf h m := by
  cases m with
  | none => rfl
  | some a =>
    simp only [mapOf, mapCells_get]
    cases h[a]? with
    | none => rfl
    | some o => cases o <;> rfl

theorem mapCells_length (h : Heap) : (h.mapCells f).length = h.length := by simp [Heap.mapCells]

theorem mapCells_alloc_map (h : Heap) (es : AMap Ptr) : (h.mapCells f).alloc (.map es) = ((h.alloc (.map es)).1.mapCells f, (h.alloc (.map es)).2) := by
  simp [Heap.alloc, Heap.mapCells, HObj.mapCell]

theorem mapCells_alloc_cell (h : Heap) (c : Cell) (hc : f c = c) : (h.mapCells f).alloc (.cell c) = ((h.alloc (.cell c)).1.mapCells f, (h.alloc (.cell c)).2) := by
  simp [Heap.alloc, Heap.mapCells, HObj.mapCell, hc]

theorem mapCells_set_map (h : Heap) (m : Nat) (es : AMap Ptr) : (h.mapCells f).set m (.map es) = Heap.mapCells f (h.set m (.map es)) := by
  simp [Heap.mapCells, List.map_set, HObj.mapCell]

theorem mapCells_set_cell (h : Heap) (m : Nat) (c : Cell) : (h.mapCells f).set m (.cell (f c)) = Heap.mapCells f (h.set m (.cell c)) := by
  simp [Heap.mapCells, List.map_set, HObj.mapCell]

theorem mapCells_mapWrite (h : Heap) (m : Option Nat) (k : Bytes) (p : Ptr) : mapWrite (h.mapCells f) m k p = (mapWrite h m k p).map (Heap.mapCells f) := by
  cases m with
  | none => rfl
  | some m =>
    simp only [mapWrite, mapCells_get]
    cases h[m]? with
    | none => rfl
    | some o =>
      cases o with
      | cell c => rfl
      | map es => simp only [Option.map_some, HObj.mapCell, Res.map_ok, mapCells_set_map]

theorem mapCells_mapDelete (h : Heap) (m : Option Nat) (k : Bytes) : mapDelete (h.mapCells f) m k = (mapDelete h m k).mapCells f := by
  cases m with
  | none => rfl
  | some m =>
    simp only [mapDelete, mapCells_get]
    cases h[m]? with
    | none => rfl
    | some o =>
      cases o with
      | cell c => rfl
      | map es => simp only [Option.map_some, HObj.mapCell, mapCells_set_map]

end

theorem shown_type (c : Cell) : c.shown.type = c.type := by
  unfold Cell.shown; cases h : c.type <;> rfl

theorem shown_object (c : Cell) (h : c.type = .object) : c.shown = { type := .object, object := c.object } := by simp only [Cell.shown, h]
theorem shown_array (c : Cell) (h : c.type = .array) : c.shown = { type := .array, array := c.array } := by simp only [Cell.shown, h]
theorem shown_string (c : Cell) (h : c.type = .string) : c.shown = { type := .string, string := c.string } := by simp only [Cell.shown, h]

/-! ## Encoding and printing -/

theorem marshalPtr_shown (env : JEnv) (h : Heap) : ∀ (n : Nat) (p : Ptr), marshalPtr env (h.mapCells Cell.shown) n p = marshalPtr env h n p
  | 0, _ => rfl
  | n + 1, p => by
    have ih : marshalPtr env (h.mapCells Cell.shown) n = marshalPtr env h n := funext fun p => marshalPtr_shown env h n p
    simp only [marshalPtr, mapCells_deref]
    cases deref h p with
    | none => rfl
    | some c =>
      simp only [Option.map_some]
      cases ht : c.type <;> simp only [Cell.shown, ht, ih, mapCells_mapOf]

theorem marshalPtr_orNull (env : JEnv) (h : Heap) : ∀ (n : Nat) (p : Ptr), marshalPtr env (h.mapCells Cell.orNull) n p = marshalPtr env h n p
  | 0, _ => rfl
  | n + 1, p => by
    have ih : marshalPtr env (h.mapCells Cell.orNull) n = marshalPtr env h n := funext fun p => marshalPtr_orNull env h n p
    simp only [marshalPtr, mapCells_deref]
    cases deref h p with
    | none => rfl
    | some c =>
      simp only [Option.map_some]
      cases ht : c.type <;> simp [Cell.orNull, ht, ih, mapCells_mapOf]

theorem formatPtr_shown (ftoa : BitVec 64 → Bytes) (h : Heap) : ∀ (n : Nat) (p : Ptr), formatPtr ftoa (h.mapCells Cell.shown) n p = formatPtr ftoa h n p
  | 0, _ => rfl
  | n + 1, p => by
    have ih : formatPtr ftoa (h.mapCells Cell.shown) n = formatPtr ftoa h n := funext fun p => formatPtr_shown ftoa h n p
    simp only [formatPtr, mapCells_deref]
    cases deref h p with
    | none => rfl
    | some c =>
      simp only [Option.map_some]
      cases ht : c.type <;> simp only [Cell.shown, ht, ih, mapCells_mapOf]

theorem fromEventValueObject_shown (conv : Ptr → UOut PValue) (h : Heap) (p : Ptr) : fromEventValueObject conv (h.mapCells Cell.shown) p = fromEventValueObject conv h p := by
  simp only [fromEventValueObject, mapCells_deref]
  cases deref h p with
  | none => rfl
  | some c =>
    simp only [Option.map_some, shown_type]
    by_cases ht : c.type = .object
    · simp only [ht, shown_object c ht, mapCells_mapOf]
    · rw [if_pos ht, if_pos ht]

theorem fromEventValue_shown (h : Heap) : ∀ (n : Nat) (p : Ptr), fromEventValue (h.mapCells Cell.shown) n p = fromEventValue h n p
  | 0, _ => rfl
  | n + 1, p => by
    have ih : fromEventValue (h.mapCells Cell.shown) n = fromEventValue h n := funext fun p => fromEventValue_shown h n p
    simp only [fromEventValue, mapCells_deref]
    cases deref h p with
    | none => rfl
    | some c =>
      simp only [Option.map_some]
      cases ht : c.type <;> simp only [Cell.shown, ht, ih, fromEventValueObject_shown]

theorem goValue_shown (text : GoTime → Bytes) (h : Heap) : ∀ (n : Nat) (p : Ptr), goValue text (h.mapCells Cell.shown) n p = goValue text h n p
  | 0, _ => rfl
  | n + 1, p => by
    have ih : goValue text (h.mapCells Cell.shown) n = goValue text h n := funext fun p => goValue_shown text h n p
    simp only [goValue, mapCells_deref]
    cases deref h p with
    | none => rfl
    | some c =>
      simp only [Option.map_some]
      cases ht : c.type <;> simp only [Cell.shown, ht, ih, mapCells_mapOf]

/-- Reading the whole event. -/
theorem root_shown (h : Heap) (e : Event) : apiGet (h.mapCells Cell.shown) e (lit ".") = (apiGet h e (lit ".")).map fun x => (x.1.mapCells Cell.shown, x.2) := by
  have hk : keyToPath (lit ".") = [] := by decide +kernel
  simp only [apiGet, hk, get, mapCells_mapOf]
  split
  · rfl
  · simp only [mapCells_alloc_cell Cell.shown h (objCell e) rfl, Res.map_ok]

/-- **C98.** What the fields of a value hold that its type does not name appears nowhere: not in JSON, not in the printed text, not in protobuf messages, not in Go maps. -/
theorem hidden_fields (env : JEnv) (ftoa : BitVec 64 → Bytes) (text : GoTime → Bytes) (n : Nat) (h : Heap) (e : Event) (p : Ptr) :
    marshalEvent env n (h.mapCells Cell.shown) e = marshalEvent env n h e ∧ formatPtr ftoa (h.mapCells Cell.shown) n p = formatPtr ftoa h n p ∧
    fromEvent n (h.mapCells Cell.shown) e = fromEvent n h e ∧ mapFromEvent text n (h.mapCells Cell.shown) e = mapFromEvent text n h e := by
  refine ⟨?_, formatPtr_shown ftoa h n p, ?_, ?_⟩
  · have : marshalPtr env (h.mapCells Cell.shown) n = marshalPtr env h n := funext fun p => marshalPtr_shown env h n p
    simp only [marshalEvent, this, mapCells_mapOf]
  · simp only [fromEvent, root_shown]
    cases apiGet h e (lit ".") with
    | panic => rfl
    | ok x =>
      obtain ⟨h1, p1⟩ := x
      have : fromEventValue (h1.mapCells Cell.shown) n = fromEventValue h1 n := funext fun p => fromEventValue_shown h1 n p
      simp only [Res.map_ok, this, fromEventValueObject_shown]
  · simp only [mapFromEvent, root_shown]
    cases apiGet h e (lit ".") with
    | panic => rfl
    | ok x =>
      obtain ⟨h1, p1⟩ := x
      have : goValue text (h1.mapCells Cell.shown) n = goValue text h1 n := funext fun p => goValue_shown text h1 n p
      simp only [Res.map_ok, this, mapCells_deref]
      cases deref h1 p1 with
      | none => rfl
      | some c =>
        simp only [Option.map_some, shown_type]
        by_cases ht : c.type = .object
        · simp only [ht, shown_object c ht, mapCells_mapOf]
        · rw [if_pos ht, if_pos ht]

/-- **C98.** In JSON, a value of an unknown type is null. -/
theorem unknown_json (env : JEnv) (n : Nat) (h : Heap) (e : Event) : marshalEvent env n h e = marshalEvent env n (h.mapCells Cell.orNull) e := by
  have : marshalPtr env (h.mapCells Cell.orNull) n = marshalPtr env h n := funext fun p => marshalPtr_orNull env h n p
  simp only [marshalEvent, this, mapCells_mapOf]


/-! ## Values of an unknown type -/

/-- It does not end well: a panic, or the stack is exhausted. -/
def Crashes {α : Type} (r : UOut α) : Prop := r = .panic ∨ r = .fuel

theorem crashes_bind {α β : Type} {r : UOut α} (h : Crashes r) (k : α → UOut β) : Crashes (r >>= k) := by
  rcases h with rfl | rfl
  · exact .inl rfl
  · exact .inr rfl

theorem collect_crashes {α β : Type} {f : α → UOut β} {xs : List α} {x : α} (hx : x ∈ xs) (hc : Crashes (f x)) (hn : ∀ y ∈ xs, Crashes (f y) ∨ ∃ z, f y = .ok z) : Crashes (collect f xs) := by
  induction xs with
  | nil => cases hx
  | cons y ys ih =>
    simp only [collect]
    rcases hn y (by simp) with h | ⟨z, hz⟩
    · exact crashes_bind h _
    · rw [hz]
      show Crashes (collect f ys >>= _)
      rcases List.mem_cons.1 hx with rfl | hx
      · rw [hz] at hc; rcases hc with h | h <;> cases h
      · exact crashes_bind (ih hx fun y hy => hn y (by simp [hy])) _

theorem collect_fine {α β : Type} {f : α → UOut β} {xs : List α} (hn : ∀ y ∈ xs, Crashes (f y) ∨ ∃ z, f y = .ok z) : Crashes (collect f xs) ∨ ∃ zs, collect f xs = .ok zs := by
  induction xs with
  | nil => exact .inr ⟨[], rfl⟩
  | cons y ys ih =>
    simp only [collect]
    rcases hn y (by simp) with h | ⟨z, hz⟩
    · exact .inl (crashes_bind h _)
    · rw [hz]
      rcases ih fun y hy => hn y (by simp [hy]) with h | ⟨zs, hzs⟩
      · exact .inl (by show Crashes (collect f ys >>= _); exact crashes_bind h _)
      · exact .inr ⟨z :: zs, by show (collect f ys >>= _) = _; rw [hzs]; rfl⟩

/-- The conversion has no errors. -/
theorem fromEventValue_fine (h : Heap) : ∀ (n : Nat) (p : Ptr), Crashes (fromEventValue h n p) ∨ ∃ v, fromEventValue h n p = .ok v
  | 0, _ => .inl (.inr rfl)
  | n + 1, p => by
    have ih := fromEventValue_fine h n
    simp only [fromEventValue]
    cases hd : deref h p with
    | none => exact .inr ⟨_, rfl⟩
    | some c =>
      simp only
      cases ht : c.type with
      | array =>
        rcases collect_fine (xs := c.array.getD []) (fun y _ => ih y) with h1 | ⟨zs, h1⟩
        · exact .inl (crashes_bind h1 _)
        · simp only [h1]; exact .inr ⟨_, rfl⟩
      | object =>
        simp only [fromEventValueObject, hd, ht, ne_eq, not_true_eq_false, if_false]
        have hfine : ∀ y ∈ mapOf h c.object, Crashes ((fun e : Bytes × Ptr => (do let v ← fromEventValue h n e.2; .ok (e.1, v) : UOut (Bytes × PValue))) y) ∨ ∃ z, (fun e : Bytes × Ptr => (do let v ← fromEventValue h n e.2; .ok (e.1, v) : UOut (Bytes × PValue))) y = .ok z := by
          intro y _
          rcases ih y.2 with h1 | ⟨z, h1⟩
          · exact .inl (crashes_bind h1 _)
          · exact .inr ⟨(y.1, z), by simp only [h1]; rfl⟩
        rcases collect_fine hfine with h1 | ⟨zs, h1⟩
        · exact .inl (crashes_bind (crashes_bind h1 _) _)
        · simp only [h1]; exact .inr ⟨_, rfl⟩
      | unknown => exact .inl (.inl rfl)
      | _ => exact .inr ⟨_, rfl⟩

theorem fromEventValue_unknown {h : Heap} {p : Ptr} (hu : HasUnknown h p) : ∀ n, Crashes (fromEventValue h n p) := by
  induction hu with
  | here hd ht =>
    intro n
    cases n with
    | zero => exact .inr rfl
    | succ n => simp only [fromEventValue, hd, ht]; exact .inl rfl
  | item hd ht hq _ ih =>
    intro n
    cases n with
    | zero => exact .inr rfl
    | succ n =>
      simp only [fromEventValue, hd, ht]
      exact crashes_bind (collect_crashes hq (ih n) fun y _ => fromEventValue_fine h n y) _
  | field hd ht hq _ ih =>
    intro n
    cases n with
    | zero => exact .inr rfl
    | succ n =>
      simp only [fromEventValue, hd, ht, fromEventValueObject, ne_eq, not_true_eq_false, if_false]
      refine crashes_bind (crashes_bind (collect_crashes hq (crashes_bind (ih n) _) fun y _ => ?_) _) _
      rcases fromEventValue_fine h n y.2 with h1 | ⟨z, h1⟩
      · exact .inl (crashes_bind h1 _)
      · exact .inr ⟨(y.1, z), by simp only [h1]; rfl⟩

theorem collect_panic {α β : Type} {f : α → UOut β} {xs : List α} (h : collect f xs = .panic) : ∃ x ∈ xs, f x = .panic := by
  induction xs with
  | nil => cases h
  | cons y ys ih =>
    simp only [collect] at h
    cases hy : f y with
    | ok z =>
      rw [hy] at h
      cases hys : collect f ys with
      | ok zs => rw [hys] at h; cases h
      | panic => obtain ⟨x, hx, h2⟩ := ih hys; exact ⟨x, by simp [hx], h2⟩
      | err e => rw [hys] at h; cases h
      | fuel => rw [hys] at h; cases h
    | panic => exact ⟨y, by simp, hy⟩
    | err e => rw [hy] at h; cases h
    | fuel => rw [hy] at h; cases h

theorem fromEventValue_panics (h : Heap) : ∀ (n : Nat) (p : Ptr), fromEventValue h n p = .panic → HasUnknown h p
  | 0, _, hp => by cases hp
  | n + 1, p, hp => by
    have ih := fromEventValue_panics h n
    simp only [fromEventValue] at hp
    cases hd : deref h p with
    | none => rw [hd] at hp; cases hp
    | some c =>
      simp only [hd] at hp
      cases ht : c.type with
      | array =>
        simp only [ht] at hp
        cases hc : collect (fromEventValue h n) (c.array.getD []) with
        | panic => obtain ⟨q, hq, h2⟩ := collect_panic hc; exact .item hd ht hq (ih q h2)
        | ok _ => rw [hc] at hp; cases hp
        | err _ => rw [hc] at hp; cases hp
        | fuel => rw [hc] at hp; cases hp
      | object =>
        simp only [ht, fromEventValueObject, hd, ne_eq, not_true_eq_false, if_false] at hp
        cases hc : collect (fun e : Bytes × Ptr => (do let v ← fromEventValue h n e.2; .ok (e.1, v) : UOut (Bytes × PValue))) (mapOf h c.object) with
        | panic =>
          obtain ⟨⟨k, q⟩, hq, h2⟩ := collect_panic hc
          cases hv : fromEventValue h n q with
          | panic => exact .field hd ht hq (ih q hv)
          | ok _ => simp only [hv] at h2; cases h2
          | err _ => simp only [hv] at h2; cases h2
          | fuel => simp only [hv] at h2; cases h2
        | ok _ => rw [hc] at hp; cases hp
        | err _ => rw [hc] at hp; cases hp
        | fuel => rw [hc] at hp; cases hp
      | unknown => exact .here hd ht
      | _ => simp only [ht] at hp; cases hp

/-! ### The same for Go maps -/

/-- It does not end well: a panic, or the stack is exhausted. -/
def CrashesG {α : Type} (r : Option (Res α)) : Prop := r = some .panic ∨ r = none

theorem collectG_panics {α β : Type} {f : α → Option (Res β)} {xs : List α} {x : α} (hx : x ∈ xs) (hc : CrashesG (f x)) : CrashesG (collectG f xs) := by
  induction xs with
  | nil => cases hx
  | cons y ys ih =>
    simp only [collectG]
    cases hy : f y with
    | none => exact .inr rfl
    | some r =>
      cases r with
      | panic => exact .inl rfl
      | ok z =>
        rcases List.mem_cons.1 hx with rfl | hx
        · rw [hy] at hc; rcases hc with h | h <;> cases h
        · rcases ih hx with h | h <;> simp only [h]
          · exact .inl rfl
          · exact .inr rfl

theorem collectG_panic {α β : Type} {f : α → Option (Res β)} {xs : List α} (h : collectG f xs = some .panic) : ∃ x ∈ xs, f x = some .panic := by
  induction xs with
  | nil => cases h
  | cons y ys ih =>
    simp only [collectG] at h
    cases hy : f y with
    | none => rw [hy] at h; cases h
    | some r =>
      cases r with
      | panic => exact ⟨y, by simp, hy⟩
      | ok z =>
        simp only [hy] at h
        cases hys : collectG f ys with
        | none => simp [hys] at h
        | some r =>
          cases r with
          | panic => obtain ⟨x, hx, h2⟩ := ih hys; exact ⟨x, by simp [hx], h2⟩
          | ok zs => simp [hys] at h

theorem goFields_crashes {conv : Ptr → Option (Res GIface)} {es : List (Bytes × Ptr)} {k : Bytes} {q : Ptr} (hx : (k, q) ∈ es) (hc : CrashesG (conv q)) : CrashesG (goFields conv es) := by
  refine collectG_panics hx ?_
  rcases hc with h | h <;> simp only [h]
  · exact .inl rfl
  · exact .inr rfl

theorem goFields_panic {conv : Ptr → Option (Res GIface)} {es : List (Bytes × Ptr)} (h : goFields conv es = some .panic) : ∃ k q, (k, q) ∈ es ∧ conv q = some .panic := by
  obtain ⟨⟨k, q⟩, hx, h2⟩ := collectG_panic h
  refine ⟨k, q, hx, ?_⟩
  simp only at h2
  cases hv : conv q with
  | none => simp [hv] at h2
  | some r =>
    cases r with
    | panic => rfl
    | ok z => simp [hv] at h2

theorem goValue_unknown (text : GoTime → Bytes) {h : Heap} {p : Ptr} (hu : HasUnknown h p) : ∀ n, CrashesG (goValue text h n p) := by
  induction hu with
  | here hd ht =>
    intro n
    cases n with
    | zero => exact .inr rfl
    | succ n => simp only [goValue, hd, ht]; exact .inl rfl
  | item hd ht hq _ ih =>
    intro n
    cases n with
    | zero => exact .inr rfl
    | succ n =>
      simp only [goValue, hd, ht]
      rcases collectG_panics hq (ih n) with h | h <;> simp only [h]
      · exact .inl rfl
      · exact .inr rfl
  | field hd ht hq _ ih =>
    intro n
    cases n with
    | zero => exact .inr rfl
    | succ n =>
      simp only [goValue, hd, ht]
      rcases goFields_crashes hq (ih n) with h | h <;> simp only [h]
      · exact .inl rfl
      · exact .inr rfl

theorem goValue_panics (text : GoTime → Bytes) (h : Heap) : ∀ (n : Nat) (p : Ptr), goValue text h n p = some .panic → HasUnknown h p
  | 0, _, hp => by cases hp
  | n + 1, p, hp => by
    have ih := goValue_panics text h n
    simp only [goValue] at hp
    cases hd : deref h p with
    | none => rw [hd] at hp; cases hp
    | some c =>
      simp only [hd] at hp
      cases ht : c.type with
      | array =>
        simp only [ht] at hp
        cases hc : collectG (goValue text h n) (c.array.getD []) with
        | none => simp [hc] at hp
        | some r =>
          cases r with
          | panic => obtain ⟨q, hq, h2⟩ := collectG_panic hc; exact .item hd ht hq (ih q h2)
          | ok _ => simp [hc] at hp
      | object =>
        simp only [ht] at hp
        cases hc : goFields (goValue text h n) (mapOf h c.object) with
        | none => simp [hc] at hp
        | some r =>
          cases r with
          | panic => obtain ⟨k, q, hq, h2⟩ := goFields_panic hc; exact .field hd ht hq (ih q h2)
          | ok _ => simp [hc] at hp
      | unknown => exact .here hd ht
      | _ => simp only [ht] at hp; cases hp

/-! ### Whole events -/

theorem hasUnknown_more {h : Heap} {o : HObj} {p : Ptr} (hu : HasUnknown h p) : HasUnknown (h ++ [o]) p := by
  have hder : ∀ {p : Ptr} {c : Cell}, deref h p = some c → deref (h ++ [o]) p = some c := by
    intro p c hd
    cases p with
    | none => cases hd
    | some a =>
      simp only [deref] at hd ⊢
      cases ha : h[a]? with
      | none => rw [ha] at hd; cases hd
      | some x => rw [List.getElem?_append_left (lt_of_some ha), ha]; rw [ha] at hd; exact hd
  have hmap : ∀ {m : Option Nat} {x : Bytes × Ptr}, x ∈ mapOf h m → x ∈ mapOf (h ++ [o]) m := by
    intro m x hx
    cases m with
    | none => exact hx
    | some a =>
      simp only [mapOf] at hx ⊢
      cases ha : h[a]? with
      | none => rw [ha] at hx; cases hx
      | some y => rw [List.getElem?_append_left (lt_of_some ha), ha]; rw [ha] at hx; exact hx
  induction hu with
  | here hd ht => exact .here (hder hd) ht
  | item hd ht hq _ ih => exact .item (hder hd) ht hq ih
  | field hd ht hq _ ih => exact .field (hder hd) ht (hmap hq) ih

theorem mapOf_more {h : Heap} {o : HObj} {m : Nat} (hm : m < h.length) : mapOf (h ++ [o]) (some m) = mapOf h (some m) := by
  simp only [mapOf, List.getElem?_append_left hm]

/-- What `Get(".")` returns for an event with fields. -/
theorem root_get {h : Heap} {e : Event} (hne : mapOf h e ≠ []) : ∃ m, e = some m ∧ m < h.length ∧ apiGet h e (lit ".") = .ok (h ++ [.cell (objCell e)], some h.length) ∧
    deref (h ++ [.cell (objCell e)]) (some h.length) = some (objCell e) ∧ mapOf (h ++ [.cell (objCell e)]) e = mapOf h e := by
  have hk : keyToPath (lit ".") = [] := by decide +kernel
  cases e with
  | none => exact absurd rfl hne
  | some m =>
    have hm : m < h.length := by
      cases hx : h[m]? with
      | none => exact absurd (by simp only [mapOf, hx]) hne
      | some y => exact lt_of_some hx
    have hl : (mapOf h (some m)).length ≠ 0 := fun hz => hne (List.length_eq_zero_iff.1 hz)
    refine ⟨m, rfl, hm, ?_, ?_, mapOf_more hm⟩
    · simp only [apiGet, hk, get, if_neg hl, Heap.alloc]
    · simp [deref]

/-- **C98.** An event with a value of an unknown type anywhere in it becomes neither a protobuf message nor a Go map: the conversion panics, or runs out of the stack on its way. -/
theorem unknown_crashes (text : GoTime → Bytes) (n : Nat) {h : Heap} {e : Event} {k : Bytes} {p : Ptr} (hf : (k, p) ∈ mapOf h e) (hu : HasUnknown h p) :
    (fromEvent n h e = .panic ∨ fromEvent n h e = .fuel) ∧ (mapFromEvent text n h e = some .panic ∨ mapFromEvent text n h e = none) := by
  obtain ⟨m, rfl, _, hg, hd, hm⟩ := root_get (h := h) (e := e) (List.ne_nil_of_mem hf)
  rw [← hm] at hf
  have hu' := hasUnknown_more (o := .cell (objCell (some m))) hu
  constructor
  · simp only [fromEvent, hg, fromEventValueObject, hd]
    rw [if_neg (by simp [objCell])]
    refine crashes_bind (crashes_bind (collect_crashes hf (crashes_bind (fromEventValue_unknown hu' n) _) fun y _ => ?_) _) _
    rcases fromEventValue_fine (h ++ [.cell (objCell (some m))]) n y.2 with h1 | ⟨z, h1⟩
    · exact .inl (crashes_bind h1 _)
    · exact .inr ⟨(y.1, z), by simp only [h1]; rfl⟩
  · simp only [mapFromEvent, hg, hd]
    rw [if_neg (by simp [objCell])]
    rcases goFields_crashes hf (goValue_unknown text hu' n) with h1 | h1 <;> simp only [objCell] at h1 ⊢ <;> rw [h1]
    · exact .inl rfl
    · exact .inr rfl

theorem hasUnknown_less {h : Heap} {o : HObj} (hn : NoDangling h) {p : Ptr} (hp : InMemory h p) (hobj : ∀ (a : Nat) (c : Cell) (m : Nat), h[a]? = some (.cell c) → c.object = some m → m < h.length)
    (hu : HasUnknown (h ++ [o]) p) : HasUnknown h p := by
  have hder : ∀ {p : Ptr} {c : Cell}, InMemory h p → deref (h ++ [o]) p = some c → deref h p = some c := by
    intro p c hp hd
    cases p with
    | none => cases hd
    | some a =>
      simp only [deref] at hd ⊢
      rwa [List.getElem?_append_left (hp a rfl)] at hd
  have hcell : ∀ {p : Ptr} {c : Cell}, deref h p = some c → ∃ a : Nat, h[a]? = some (.cell c) := by
    intro p c hd
    cases p with
    | none => cases hd
    | some a =>
      simp only [deref] at hd
      cases ha : h[a]? with
      | none => rw [ha] at hd; cases hd
      | some x => cases x with
        | map es => rw [ha] at hd; cases hd
        | cell c' => rw [ha] at hd; cases hd; exact ⟨a, ha⟩
  induction hu with
  | here hd ht => exact .here (hder hp hd) ht
  | @item p c q hd ht hq _ ih =>
    have hd' := hder hp hd
    obtain ⟨a, ha⟩ := hcell hd'
    refine .item hd' ht hq (ih ?_)
    cases hps : c.array with
    | none => rw [hps] at hq; cases hq
    | some ps => rw [hps] at hq; exact hn.1 a c ps ha hps q hq
  | @field p c k q hd ht hq _ ih =>
    have hd' := hder hp hd
    obtain ⟨a, ha⟩ := hcell hd'
    cases hob : c.object with
    | none => rw [hob] at hq; cases hq
    | some m =>
      have hm := hobj a c m ha hob
      rw [hob, mapOf_more hm] at hq
      refine .field hd' ht (by rw [hob]; exact hq) (ih ?_)
      simp only [mapOf] at hq
      cases hx : h[m]? with
      | none => rw [hx] at hq; cases hq
      | some y => cases y with
        | cell c' => rw [hx] at hq; cases hq
        | map es => rw [hx] at hq; exact hn.2 m es hx k q hq

/-- **C98.** Nothing else makes the conversions panic. -/
theorem panic_unknown (text : GoTime → Bytes) (n : Nat) {h : Heap} {e : Event} (hn : NoDangling h) (hobj : ∀ (a : Nat) (c : Cell) (m : Nat), h[a]? = some (.cell c) → c.object = some m → m < h.length)
    (hp : fromEvent n h e = .panic ∨ mapFromEvent text n h e = some .panic) : ∃ k p, (k, p) ∈ mapOf h e ∧ HasUnknown h p := by
  by_cases hne : mapOf h e = []
  · have hg : apiGet h e (lit ".") = .ok (h, none) := by simp [apiGet, get, hne]
    rcases hp with hp | hp
    · simp only [fromEvent, hg, fromEventValueObject, deref] at hp; cases hp
    · simp [mapFromEvent, hg, deref] at hp
  · obtain ⟨m, rfl, _, hg, hd, hm⟩ := root_get (h := h) (e := e) hne
    have fin : ∀ k p, (k, p) ∈ mapOf h (some m) → HasUnknown (h ++ [.cell (objCell (some m))]) p → ∃ k p, (k, p) ∈ mapOf h (some m) ∧ HasUnknown h p := by
      intro k p hf hu
      refine ⟨k, p, hf, hasUnknown_less hn ?_ hobj hu⟩
      simp only [mapOf] at hf
      cases hx : h[m]? with
      | none => rw [hx] at hf; cases hf
      | some y => cases y with
        | cell c' => rw [hx] at hf; cases hf
        | map es => rw [hx] at hf; exact hn.2 m es hx k p hf
    rcases hp with hp | hp
    · simp only [fromEvent, hg, fromEventValueObject, hd] at hp
      rw [if_neg (by simp [objCell])] at hp
      have hob : (objCell (some m)).object = some m := rfl
      rw [hob, hm] at hp
      cases hc : collect (fun e : Bytes × Ptr => (do let v ← fromEventValue (h ++ [.cell (objCell (some m))]) n e.2; .ok (e.1, v) : UOut (Bytes × PValue))) (mapOf h (some m)) with
      | panic =>
        obtain ⟨⟨k, q⟩, hq, h2⟩ := collect_panic hc
        cases hv : fromEventValue (h ++ [.cell (objCell (some m))]) n q with
        | panic => exact fin k q hq (fromEventValue_panics _ n q hv)
        | ok _ => simp only [hv] at h2; cases h2
        | err _ => simp only [hv] at h2; cases h2
        | fuel => simp only [hv] at h2; cases h2
      | ok _ => rw [hc] at hp; cases hp
      | err _ => rw [hc] at hp; cases hp
      | fuel => rw [hc] at hp; cases hp
    · simp only [mapFromEvent, hg, hd] at hp
      rw [if_neg (by simp [objCell])] at hp
      have hob : (objCell (some m)).object = some m := rfl
      rw [hob, hm] at hp
      cases hc : goFields (goValue text (h ++ [.cell (objCell (some m))]) n) (mapOf h (some m)) with
      | none => rw [hc] at hp; cases hp
      | some r =>
        cases r with
        | panic => obtain ⟨k, q, hq, h2⟩ := goFields_panic hc; exact fin k q hq (goValue_panics text _ n q h2)
        | ok _ => rw [hc] at hp; cases hp

/-! ## The operations and pipelines -/

theorem noHidden_alloc {h : Heap} (hn : h.NoHiddenObject) (o : HObj) (ho : ∀ c, o = .cell c → c.type ≠ .object → c.object = none) : Heap.NoHiddenObject (h ++ [o]) := by
  intro a c ha ht
  by_cases hlt : a < h.length
  · rw [List.getElem?_append_left hlt] at ha; exact hn a c ha ht
  · rw [List.getElem?_append_right (Nat.le_of_not_lt hlt)] at ha
    cases hx : a - h.length with
    | zero => rw [hx] at ha; simp at ha; exact ho c ha ht
    | succ i => rw [hx] at ha; simp at ha

theorem noHidden_set {h : Heap} (hn : h.NoHiddenObject) (m : Nat) (o : HObj) (ho : ∀ c, o = .cell c → c.type ≠ .object → c.object = none) : Heap.NoHiddenObject (h.set m o) := by
  intro a c ha ht
  by_cases hm : m = a
  · subst hm
    rw [List.getElem?_set_self'] at ha
    cases hx : h[m]? with
    | none => rw [hx] at ha; cases ha
    | some y => rw [hx] at ha; simp at ha; exact ho c ha ht
  · rw [List.getElem?_set_ne hm] at ha; exact hn a c ha ht

theorem noHidden_mapWrite {h h' : Heap} {m : Option Nat} {k : Bytes} {v : Ptr} (hn : h.NoHiddenObject) (hw : mapWrite h m k v = .ok h') : h'.NoHiddenObject := by
  cases m with
  | none => simp [mapWrite] at hw
  | some a =>
    simp only [mapWrite] at hw
    split at hw
    · simp only [Res.ok.injEq] at hw; subst hw; exact noHidden_set hn _ _ (fun c hc => by cases hc)
    · simp at hw

/-- Related outcomes: the same answer, and the memory likewise. -/
def ShownAs {α : Type} (r r' : Res (Heap × α)) : Prop := ResSim (fun x y => x.1.NoHiddenObject ∧ y.1 = x.1.mapCells Cell.shown ∧ y.2 = x.2) r r'

theorem getLoop_shown {h : Heap} (hn : h.NoHiddenObject) (path : List Bytes) : ∀ m, getLoop (h.mapCells Cell.shown) m path = getLoop h m path := by
  induction path with
  | nil => intro m; rfl
  | cons k ks ih =>
    intro m
    cases ks with
    | nil => simp only [getLoop, mapCells_mapOf]
    | cons k2 ks =>
      simp only [getLoop, mapCells_mapOf]
      cases AMap.lookup (mapOf h m) k with
      | none => rfl
      | some inner =>
        simp only [mapCells_deref]
        cases hd : deref h inner with
        | none => rfl
        | some c =>
          have ho : c.shown.object = c.object := by
            by_cases ht : c.type = .object
            · rw [shown_object c ht]
            · have hob : c.object = none := by
                cases inner with
                | none => cases hd
                | some a =>
                  simp only [deref] at hd
                  cases ha : h[a]? with
                  | none => rw [ha] at hd; cases hd
                  | some x => cases x with
                    | map es => rw [ha] at hd; cases hd
                    | cell c' => rw [ha] at hd; cases hd; exact hn a c ha ht
              rw [hob]; unfold Cell.shown; cases hx : c.type <;> first | rfl | exact absurd hx ht
          simp only [Option.map_some, ho]
          split
          · rfl
          · exact ih _

theorem get_shown {h : Heap} (hn : h.NoHiddenObject) (e : Event) (path : List Bytes) : ShownAs (get h e path) (get (h.mapCells Cell.shown) e path) := by
  simp only [get, mapCells_mapOf]
  split
  · exact ⟨hn, rfl, rfl⟩
  · cases path with
    | nil =>
      simp only [mapCells_alloc_cell Cell.shown h (objCell e) rfl]
      exact ⟨noHidden_alloc hn _ (fun c hc ht => by cases hc; exact absurd rfl ht), rfl, rfl⟩
    | cons k ks =>
      simp only [getLoop_shown hn]
      cases getLoop h e (k :: ks) with
      | panic => trivial
      | ok p => exact ⟨hn, rfl, rfl⟩

theorem putLoop_shown (path : List Bytes) (v : Ptr) : ∀ {h : Heap} (_ : h.NoHiddenObject) (m : Option Nat), ShownAs (putLoop h m path v) (putLoop (h.mapCells Cell.shown) m path v) := by
  induction path with
  | nil => intro h hn m; exact ⟨hn, rfl, rfl⟩
  | cons k ks ih =>
    intro h hn m
    cases ks with
    | nil =>
      simp only [putLoop, mapCells_mapWrite]
      cases hw : mapWrite h m k v with
      | panic => trivial
      | ok h' => exact ⟨noHidden_mapWrite hn hw, rfl, rfl⟩
    | cons k2 ks =>
      simp only [putLoop, mapCells_mapOf]
      cases AMap.lookup (mapOf h m) k with
      | some inner =>
        simp only [mapCells_deref]
        cases hd : deref h inner with
        | none => trivial
        | some c =>
          simp only [Option.map_some, shown_type]
          by_cases ht : c.type = .object
          · rw [if_neg (by simp [ht]), if_neg (by simp [ht]), shown_object c ht]
            exact ih hn c.object
          · rw [if_pos ht, if_pos ht]; exact ⟨hn, rfl, rfl⟩
      | none =>
        simp only [mapCells_alloc_map]
        have hc := mapCells_alloc_cell Cell.shown (h.alloc (.map [])).1 (objCell (some (h.alloc (.map [])).2)) rfl
        simp only [hc, mapCells_mapWrite]
        have hn2 : Heap.NoHiddenObject ((h.alloc (.map [])).1.alloc (.cell (objCell (some (h.alloc (.map [])).2)))).1 :=
          noHidden_alloc (noHidden_alloc hn _ (fun c hc => by cases hc)) _ (fun c hc ht => by cases hc; exact absurd rfl ht)
        cases hw : mapWrite ((h.alloc (.map [])).1.alloc (.cell (objCell (some (h.alloc (.map [])).2)))).1 m k (some ((h.alloc (.map [])).1.alloc (.cell (objCell (some (h.alloc (.map [])).2)))).2) with
        | panic => trivial
        | ok h' => exact ih (noHidden_mapWrite hn2 hw) _

theorem put_shown {h : Heap} (hn : h.NoHiddenObject) (e : Event) (path : List Bytes) (v : Ptr) (o : Bool) : ShownAs (put h e path v o) (put (h.mapCells Cell.shown) e path v o) := by
  simp only [put]
  split
  · exact ⟨hn, rfl, rfl⟩
  split
  · exact ⟨hn, rfl, rfl⟩
  have key : ∀ {h : Heap} (_ : h.NoHiddenObject) (e : Event), ShownAs
      (match get h e path with
       | .panic => .panic
       | .ok (h, old) => if old ≠ none ∧ o = false then .ok (h, e, old, some (.keyExists path)) else match putLoop h e path v with
         | .panic => .panic
         | .ok (h', true) => .ok (h', e, old, none)
         | .ok (h', false) => .ok (h', e, none, some (.notObject path)) : Res (Heap × Event × Ptr × Option PutErr))
      (match get (h.mapCells Cell.shown) e path with
       | .panic => .panic
       | .ok (h, old) => if old ≠ none ∧ o = false then .ok (h, e, old, some (.keyExists path)) else match putLoop h e path v with
         | .panic => .panic
         | .ok (h', true) => .ok (h', e, old, none)
         | .ok (h', false) => .ok (h', e, none, some (.notObject path)) : Res (Heap × Event × Ptr × Option PutErr)) := by
    intro h hn e
    rcases (get_shown hn e path).cases with ⟨x, y⟩ | ⟨⟨h1, p1⟩, ⟨h2, p2⟩, x, y, hn1, h12, hp⟩
    · simp only [x, y]; trivial
    · simp only at hn1 h12 hp
      subst h12 hp
      simp only [x, y]
      split
      · exact ⟨hn1, rfl, rfl⟩
      · rcases (putLoop_shown path v hn1 e).cases with ⟨x', y'⟩ | ⟨⟨h3, b1⟩, ⟨h4, b2⟩, x', y', hn3, h34, hb⟩
        · simp only [x', y']; trivial
        · simp only at hn3 h34 hb
          subst h34 hb
          simp only [x', y']
          cases b2 <;> exact ⟨hn3, rfl, rfl⟩
  cases e with
  | none =>
    simp only [mapCells_alloc_map]
    exact key (noHidden_alloc hn _ (fun c hc => by cases hc)) _
  | some m => exact key hn (some m)

theorem delete_shown {h : Heap} (hn : h.NoHiddenObject) (e : Event) (path : List Bytes) : ShownAs (delete h e path) (delete (h.mapCells Cell.shown) e path) := by
  cases path with
  | nil => exact ⟨hn, rfl, rfl⟩
  | cons k ks =>
    simp only [delete, mapCells_mapOf]
    split
    · exact ⟨hn, rfl, rfl⟩
    rcases (get_shown hn e (k :: ks)).cases with ⟨x, y⟩ | ⟨⟨h1, p1⟩, ⟨h2, p2⟩, x, y, hn1, h12, hp⟩
    · simp only [x, y]; trivial
    · simp only at hn1 h12 hp
      subst h12 hp
      simp only [x, y]
      split
      · simp only [mapCells_mapDelete]
        refine ⟨?_, rfl, rfl⟩
        simp only [mapDelete]
        split
        · exact hn1
        · split
          · exact noHidden_set hn1 _ _ (fun c hc => by cases hc)
          · exact hn1
      · exact ⟨hn1, rfl, rfl⟩

theorem putThen_shown {h : Heap} (hn : h.NoHiddenObject) (e : Event) (k : Bytes) (v : Ptr) : ShownAs (putThen h e k v) (putThen (h.mapCells Cell.shown) e k v) := by
  simp only [putThen, apiPut]
  rcases (put_shown hn e (keyToPath k) v true).cases with ⟨x, y⟩ | ⟨⟨h1, p1⟩, ⟨h2, p2⟩, x, y, hn1, h12, hp⟩
  · simp only [x, y]; trivial
  · simp only at hn1 h12 hp
    subst h12 hp
    simp only [x, y]
    exact ⟨hn1, rfl, rfl⟩

theorem appendTo_shown {h : Heap} (hn : h.NoHiddenObject) {a : Nat} {c : Cell} (hd : deref h (some a) = some c) (ht : c.type = .array) (items : List Ptr) :
    ∃ h', appendTo h a items = .ok h' ∧ h'.NoHiddenObject ∧ appendTo (h.mapCells Cell.shown) a items = .ok (h'.mapCells Cell.shown) := by
  have hob : c.object = none := by
    simp only [deref] at hd
    cases ha : h[a]? with
    | none => rw [ha] at hd; cases hd
    | some x => cases x with
      | map es => rw [ha] at hd; cases hd
      | cell c' => rw [ha] at hd; cases hd; exact hn a c ha (by rw [ht]; intro h; cases h)
  refine ⟨h.set a (.cell { c with array := some (c.array.getD [] ++ items) }), by simp only [appendTo, hd], noHidden_set hn _ _ (fun c' hc _ => by cases hc; exact hob), ?_⟩
  simp only [appendTo, mapCells_deref, hd, Option.map_some, shown_array c ht]
  rw [← mapCells_set_cell]
  simp only [Cell.shown, ht]

theorem fresh_get (h : Heap) (c : Cell) : deref (h ++ [.cell c]) (some h.length) = some c := by simp [deref]

/-- **C98.** A built-in processor does the same, with the same answer, whatever the fields hold that the types do not name. -/
theorem step_shown (cv : Conv) (b : Builtin) {h : Heap} (hn : h.NoHiddenObject) (e : Event) : ShownAs (b.step cv h e) (b.step cv (h.mapCells Cell.shown) e) := by
  have hconv : ∀ (conv : Bytes → Bytes) (msg f t : Bytes), ShownAs (convProcess conv msg f t h e) (convProcess conv msg f t (h.mapCells Cell.shown) e) := by
    intro conv msg f t
    simp only [convProcess, apiGet]
    rcases (get_shown hn e (keyToPath f)).cases with ⟨x, y⟩ | ⟨⟨h1, p1⟩, ⟨h2, p2⟩, x, y, hn1, h12, hp⟩
    · simp only [x, y]; trivial
    · simp only at hn1 h12 hp
      subst h12 hp
      simp only [x, y]
      cases p2 with
      | none => exact ⟨hn1, rfl, rfl⟩
      | some a =>
        simp only [mapCells_deref]
        cases hd : deref h1 (some a) with
        | none => trivial
        | some c =>
          simp only [Option.map_some, shown_type]
          by_cases ht : c.type = .string
          · rw [if_neg (show ¬ c.type ≠ .string by simp [ht]), if_neg (show ¬ c.type ≠ .string by simp [ht]), shown_string c ht]
            simp only [mapCells_alloc_cell Cell.shown h1 (strCell (conv c.string)) rfl]
            exact putThen_shown (noHidden_alloc hn1 _ (fun c' hc _ => by cases hc; rfl)) _ _ _
          · rw [if_pos ht, if_pos ht]; exact ⟨hn1, rfl, rfl⟩
  cases b with
  | lowercase f t => exact hconv _ _ _ _
  | uppercase f t => exact hconv _ _ _ _
  | remove fs => exact ⟨hn, rfl, rfl⟩
  | communityId => exact ⟨hn, rfl, rfl⟩
  | set v c t =>
    simp only [Builtin.step, setProcess, mapCells_deref]
    cases hd : deref h (some v) with
    | none => trivial
    | some cl =>
      simp only [Option.map_some, shown_type]
      split
      · exact putThen_shown hn _ _ _
      split
      · simp only [apiGet]
        rcases (get_shown hn e (keyToPath c)).cases with ⟨x, y⟩ | ⟨⟨h1, p1⟩, ⟨h2, p2⟩, x, y, hn1, h12, hp⟩
        · simp only [x, y]; trivial
        · simp only at hn1 h12 hp
          subst h12 hp
          simp only [x, y]
          cases p2 with
          | none => exact ⟨hn1, rfl, rfl⟩
          | some a => exact putThen_shown hn1 _ _ _
      · exact putThen_shown hn _ _ _
  | append f v d =>
    simp only [Builtin.step, appendProcess, apiGet]
    rcases (get_shown hn e (keyToPath f)).cases with ⟨x, y⟩ | ⟨⟨h1, p1⟩, ⟨h2, p2⟩, x, y, hn1, h12, hp⟩
    · simp only [x, y]; trivial
    simp only at hn1 h12 hp
    subst h12 hp
    simp only [x, y]
    cases p2 with
    | none =>
      simp only [mapCells_alloc_cell Cell.shown h1 (arrCell none) rfl, apiPut]
      have hn2 : Heap.NoHiddenObject (h1.alloc (.cell (arrCell none))).1 := noHidden_alloc hn1 _ (fun c' hc _ => by cases hc; rfl)
      have hk2 : deref (h1.alloc (.cell (arrCell none))).1 (some (h1.alloc (.cell (arrCell none))).2) = some (arrCell none) := fresh_get h1 _
      rcases (put_shown hn2 e (keyToPath f) (some (h1.alloc (.cell (arrCell none))).2) true).cases with ⟨x2, y2⟩ | ⟨⟨h3, p3⟩, ⟨h4, p4⟩, x2, y2, hn3, h34, hp⟩
      · simp only [x2, y2]; trivial
      simp only at hn3 h34 hp
      subst h34 hp
      simp only [x2, y2]
      have hk3 : deref h3 (some (h1.alloc (.cell (arrCell none))).2) = some (arrCell none) := by
        have := (keeps_put (Q := fun _ => True) x2).same (h1.alloc (.cell (arrCell none))).2 (arrCell none) (by simp [Heap.alloc]) trivial
        simp only [deref, this]
      simp only [mapCells_alloc_cell Cell.shown h3 (strCell v) rfl]
      have hk4 : deref (h3.alloc (.cell (strCell v))).1 (some (h1.alloc (.cell (arrCell none))).2) = some (arrCell none) := by
        have h5 : h3[(h1.alloc (.cell (arrCell none))).2]? = some (.cell (arrCell none)) := (keeps_put (Q := fun _ => True) x2).same _ _ (by simp [Heap.alloc]) trivial
        have := (keeps_alloc (Q := fun _ => True) h3 (.cell (strCell v))).same _ _ h5 trivial
        simp only [deref, Heap.alloc] at this ⊢
        rw [this]
      obtain ⟨h5, a1, a2, a3⟩ := appendTo_shown (noHidden_alloc hn3 (.cell (strCell v)) (fun c' hc _ => by cases hc; rfl)) hk4 rfl [some (h3.alloc (.cell (strCell v))).2]
      simp only [Heap.alloc] at a1 a3 ⊢
      rw [a1, a3]
      exact ⟨a2, rfl, rfl⟩
    | some a =>
      simp only [mapCells_deref]
      cases hd : deref h1 (some a) with
      | none => trivial
      | some c =>
        simp only [Option.map_some, shown_type]
        by_cases hs : c.type = .string
        · rw [if_pos hs, if_pos hs]
          simp only [mapCells_alloc_cell Cell.shown h1 (arrCell (some [some a])) rfl]
          simp only [mapCells_alloc_cell Cell.shown (h1.alloc (.cell (arrCell (some [some a])))).1 (strCell v) rfl]
          have hn2 : Heap.NoHiddenObject (h1.alloc (.cell (arrCell (some [some a])))).1 := noHidden_alloc hn1 _ (fun c' hc _ => by cases hc; rfl)
          have hk4 : deref ((h1.alloc (.cell (arrCell (some [some a])))).1.alloc (.cell (strCell v))).1 (some (h1.alloc (.cell (arrCell (some [some a])))).2) = some (arrCell (some [some a])) := by
            have := (keeps_alloc (Q := fun _ => True) (h1.alloc (.cell (arrCell (some [some a])))).1 (.cell (strCell v))).same (h1.alloc (.cell (arrCell (some [some a])))).2 (arrCell (some [some a])) (by simp [Heap.alloc]) trivial
            simp only [deref, Heap.alloc] at this ⊢
            rw [this]
          obtain ⟨h5, a1, a2, a3⟩ := appendTo_shown (noHidden_alloc hn2 (.cell (strCell v)) (fun c' hc _ => by cases hc; rfl)) hk4 rfl [some ((h1.alloc (.cell (arrCell (some [some a])))).1.alloc (.cell (strCell v))).2]
          simp only [Heap.alloc] at a1 a3 ⊢
          rw [a1, a3]
          exact ⟨a2, rfl, rfl⟩
        · rw [if_neg hs, if_neg hs]
          by_cases ht : c.type = .array
          · rw [if_neg (by simp [ht]), if_neg (by simp [ht])]
            simp only [mapCells_alloc_cell Cell.shown h1 (strCell v) rfl]
            have hk4 : deref (h1.alloc (.cell (strCell v))).1 (some a) = some c := by
              simp only [deref] at hd
              cases ha : h1[a]? with
              | none => rw [ha] at hd; cases hd
              | some x => cases x with
                | map es => rw [ha] at hd; cases hd
                | cell c' =>
                  rw [ha] at hd; cases hd
                  have := (keeps_alloc (Q := fun _ => True) h1 (.cell (strCell v))).same a c ha trivial
                  simp only [deref, Heap.alloc] at this ⊢
                  rw [this]
            obtain ⟨h5, a1, a2, a3⟩ := appendTo_shown (noHidden_alloc hn1 (.cell (strCell v)) (fun c' hc _ => by cases hc; rfl)) hk4 ht [some (h1.alloc (.cell (strCell v))).2]
            simp only [Heap.alloc] at a1 a3 ⊢
            rw [a1, a3]
            exact ⟨a2, rfl, rfl⟩
          · rw [if_pos ht, if_pos ht]; exact ⟨hn1, rfl, rfl⟩

/-- Worlds related like this. -/
def ShownWorld (w1 w2 : Heap × Event) : Prop := w1.1.NoHiddenObject ∧ w2 = (w1.1.mapCells Cell.shown, w1.2)

theorem builtinCall_shown (cv : Conv) (w1 w2 : Heap × Event) (b : Builtin) (_hb : True) (hw : ShownWorld w1 w2) :
    ResSim (fun x y => ShownWorld x.1 y.1 ∧ x.2 = y.2) (builtinCall cv () w1 b) (builtinCall cv () w2 b) := by
  obtain ⟨h, e⟩ := w1
  obtain ⟨hn, rfl⟩ := hw
  simp only [builtinCall]
  simp only at hn
  rcases (step_shown cv b hn e).cases with ⟨x, y⟩ | ⟨⟨h1, e1, r1⟩, ⟨h2, p2⟩, x, y, hn1, h12, hp⟩
  · simp only [x, y]; trivial
  · simp only at hn1 h12 hp
    subst h12 hp
    simp only [x, y]
    exact ⟨⟨hn1, rfl⟩, rfl⟩

theorem ShownAs.eq {α : Type} {r r' : Res (Heap × α)} (h : ShownAs r r') : r' = r.map fun x => (x.1.mapCells Cell.shown, x.2) := by
  rcases h.cases with ⟨x, y⟩ | ⟨⟨h1, p1⟩, ⟨h2, p2⟩, x, y, _, h12, hp⟩
  · rw [x, y]; rfl
  · simp only at h12 hp; subst h12 hp; rw [x, y]; rfl

theorem ShownAs.kept {α : Type} {r r' : Res (Heap × α)} (h : ShownAs r r') {x : Heap × α} (hx : r = .ok x) : x.1.NoHiddenObject := by
  rcases h.cases with ⟨x, y⟩ | ⟨x1, x2, x', y, hn, _⟩
  · rw [x] at hx; cases hx
  · rw [x'] at hx; cases hx; exact hn

/-- **C98.** If only objects have maps in them, the operations answer alike and do alike whatever else the fields hold; and it stays so. -/
theorem operations_shown {h : Heap} (hn : h.NoHiddenObject) (e : Event) (key : Bytes) (v : Ptr) :
    apiGet (h.mapCells Cell.shown) e key = (apiGet h e key).map (fun x => (x.1.mapCells Cell.shown, x.2)) ∧
    apiPut (h.mapCells Cell.shown) e key v = (apiPut h e key v).map (fun x => (x.1.mapCells Cell.shown, x.2)) ∧
    apiTryPut (h.mapCells Cell.shown) e key v = (apiTryPut h e key v).map (fun x => (x.1.mapCells Cell.shown, x.2)) ∧
    apiDelete (h.mapCells Cell.shown) e key = (apiDelete h e key).map (fun x => (x.1.mapCells Cell.shown, x.2)) ∧
    (∀ x, apiGet h e key = .ok x → x.1.NoHiddenObject) ∧ (∀ x, apiPut h e key v = .ok x → x.1.NoHiddenObject) ∧ (∀ x, apiTryPut h e key v = .ok x → x.1.NoHiddenObject) ∧
    (∀ x, apiDelete h e key = .ok x → x.1.NoHiddenObject) :=
  ⟨(get_shown hn e _).eq, (put_shown hn e _ v true).eq, (put_shown hn e _ v false).eq, (delete_shown hn e _).eq,
    fun _ hx => (get_shown hn e _).kept hx, fun _ hx => (put_shown hn e _ v true).kept hx, fun _ hx => (put_shown hn e _ v false).kept hx, fun _ hx => (delete_shown hn e _).kept hx⟩

/-- **C98.** A pipeline of built-in processors ends alike, and leaves the event alike. -/
theorem pipeline_shown (cv : Conv) (p : Pipeline Builtin (Option Err)) {h : Heap} (hn : h.NoHiddenObject) (e : Event) (cs : Counters) (log : List Invocation) :
    (p.process (builtinCall cv) () ⟨(h.mapCells Cell.shown, e), cs, log⟩).map (fun x => (x.1.world, x.2)) =
      (p.process (builtinCall cv) () ⟨(h, e), cs, log⟩).map (fun x => ((x.1.world.1.mapCells Cell.shown, x.1.world.2), x.2)) := by
  have all : ∀ pr : Prog Builtin (Option Err), pr.Calls fun _ => True := by
    intro pr
    induction pr with
    | done _ => trivial
    | cancel k ih => exact ih
    | drop k ih => exact ih
    | call a k ih => exact ⟨trivial, ih⟩
  have alln : p.Calls fun _ => True := by
    have h : ∀ ns : List (Node Builtin (Option Err)), Node.CallsAll (fun _ => True) ns := by
      intro ns
      exact Node.rec_1 (motive_1 := fun n => n.Calls fun _ => True) (motive_2 := fun ns => Node.CallsAll (fun _ => True) ns)
        (fun _ _ _ _ _ pr ih => by simp only [Node.Calls]; exact ⟨all pr, ih⟩) (by simp only [Node.CallsAll]) (fun _ _ h1 h2 => by simp only [Node.CallsAll]; exact ⟨h1, h2⟩) ns
    exact ⟨h _, h _⟩
  rcases (pipelineProcess_sim (builtinCall cv) ShownWorld (fun _ => True) (fun _ w1 w2 b hb hw => builtinCall_shown cv w1 w2 b hb hw) p alln () (w1 := ⟨(h, e), cs, log⟩) (w2 := ⟨(h.mapCells Cell.shown, e), cs, log⟩) ⟨hn, rfl⟩).cases with
    ⟨x, y⟩ | ⟨⟨w1, r1⟩, ⟨w2, r2⟩, x, y, hw, hr⟩
  · rw [x, y]; rfl
  · simp only at hw hr
    subst hr
    rw [x, y]
    obtain ⟨_, hw2⟩ := hw
    simp only [Res.map_ok, hw2]

/-! ## Samples -/

/-- An event with a string that has a map in its field for objects, and a value of an unknown type in an array. -/
def handHeap : Heap :=
  [.map [(lit "a", some 1), (lit "c", some 4)], .cell { type := .string, string := lit "x", integer := 7, object := some 2 }, .map [(lit "b", some 3)], .cell (strCell (lit "y")),
   .cell (arrCell (some [none, some 5])), .cell { type := .unknown, string := lit "z" }]

/-- **C98.** Get follows the map of a string, although nothing else shows it and Put refuses to. -/
theorem hidden_get : apiGet handHeap (some 0) (lit "a.b") = .ok (handHeap, some 3) ∧
    apiGet (handHeap.mapCells Cell.shown) (some 0) (lit "a.b") = .ok (handHeap.mapCells Cell.shown, none) ∧
    apiPut handHeap (some 0) (lit "a.b") (some 3) = .ok (handHeap, some 0, none, some (.notObject [lit "a", lit "b"])) := by
  refine ⟨?_, ?_, ?_⟩ <;> decide +kernel

example : HasUnknown handHeap (some 4) := .item (c := arrCell (some [none, some 5])) (q := some 5) rfl rfl (by simp [arrCell]) (.here (c := { type := .unknown, string := lit "z" }) rfl rfl)
example : fromEvent 9 handHeap (some 0) = .panic := by rfl
example : NoDangling handHeap := by
  refine ⟨fun a c ps ha hc q hq => ?_, fun a es ha k q hq => ?_⟩
  · match a, ha with
    | 0, ha => cases ha
    | 1, ha => cases ha; cases hc
    | 2, ha => cases ha
    | 3, ha => cases ha; cases hc
    | 4, ha =>
      cases ha; cases hc
      simp at hq
      rcases hq with rfl | rfl
      · intro b hb; cases hb
      · intro b hb; cases hb; decide
    | 5, ha => cases ha; cases hc
    | n + 6, ha => simp [handHeap] at ha
  · match a, ha with
    | 0, ha =>
      cases ha
      simp at hq
      rcases hq with ⟨_, rfl⟩ | ⟨_, rfl⟩ <;> (intro b hb; cases hb; decide)
    | 1, ha => cases ha
    | 2, ha =>
      cases ha
      simp at hq
      obtain ⟨_, rfl⟩ := hq
      intro b hb; cases hb; decide
    | 3, ha => cases ha
    | 4, ha => cases ha
    | 5, ha => cases ha
    | n + 6, ha => simp [handHeap] at ha

/-- A string that also has a number in it: nothing shows the number. -/
def restHeap : Heap := [.map [(lit "a", some 1)], .cell { type := .string, string := lit "X", integer := 7 }]

example : restHeap.NoHiddenObject := by
  intro a c ha ht
  match a, ha with
  | 0, ha => cases ha
  | 1, ha => cases ha; rfl
  | n + 2, ha => simp [restHeap] at ha
example : restHeap.mapCells Cell.shown ≠ restHeap := by decide +kernel

end Sawmill
