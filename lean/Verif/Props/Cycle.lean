import Verif.Spec.Cycle
import Verif.Model.Format
import Verif.Props.SetProc
import Verif.Props.Convert
import Verif.Props.Json
import Verif.Props.Reflect
/-!
# C79: events that contain themselves
-/

namespace Sawmill
open Wire ATree

theorem endless_next {h : Heap} {p : Ptr} (he : Endless h p) : ∃ q, Child h p q ∧ Endless h q := by
  obtain ⟨way, rfl, hw⟩ := he
  exact ⟨way 1, hw 0, fun i => way (i + 1), rfl, fun i => hw (i + 1)⟩

/-! ## Nothing comes out -/

theorem collect_ok {α β : Type} {f : α → UOut β} : ∀ {xs : List α} {ys : List β}, collect f xs = .ok ys → ∀ x ∈ xs, ∃ y, f x = .ok y
  | [], _, _, _, hx => by simp at hx
  | x :: xs, ys, h, z, hz => by
    simp only [collect] at h
    obtain ⟨y, h1, h2⟩ := ubind_eq_ok.mp h
    obtain ⟨ys', h3, h4⟩ := ubind_eq_ok.mp h2
    rcases List.mem_cons.mp hz with rfl | hz
    · exact ⟨y, h1⟩
    · exact collect_ok h3 z hz

theorem fromEventValue_endless {h : Heap} : ∀ (n : Nat) {p : Ptr}, Endless h p → ∀ m, fromEventValue h n p ≠ .ok m
  | 0, p, _, m => by simp [fromEventValue]
  | n + 1, p, he, m => by
    obtain ⟨q, hc, hq⟩ := endless_next he
    intro hm
    cases hc with
    | item hd ht ha hq' =>
      simp only [fromEventValue, hd, ht] at hm
      obtain ⟨_, h1, _⟩ := ubind_eq_ok.mp hm
      rw [ha] at h1
      obtain ⟨y, hy⟩ := collect_ok h1 _ hq'
      exact fromEventValue_endless n hq y hy
    | entry hd ht hk =>
      simp only [fromEventValue, hd, ht, fromEventValueObject, ne_eq, not_true, if_false] at hm
      obtain ⟨_, h1, _⟩ := ubind_eq_ok.mp hm
      obtain ⟨_, h2, _⟩ := ubind_eq_ok.mp h1
      obtain ⟨y, hy⟩ := collect_ok h2 _ hk
      obtain ⟨z, hz, _⟩ := ubind_eq_ok.mp hy
      exact fromEventValue_endless n hq z hz

theorem joinText_ok {α : Type} {f : α → JOut Bytes} : ∀ {xs : List α} {t : Bytes}, joinText f xs = .ok t → ∀ x ∈ xs, ∃ y, f x = .ok y
  | [], _, _, _, hx => by simp at hx
  | [x], t, h, z, hz => by
    simp only [List.mem_singleton] at hz
    subst hz
    exact ⟨t, h⟩
  | x :: y :: xs, t, h, z, hz => by
    simp only [joinText] at h
    cases hx : f x with
    | error => simp [hx, JOut.bind] at h
    | fuel => simp [hx, JOut.bind] at h
    | ok a =>
      simp only [hx, JOut.bind] at h
      rcases List.mem_cons.mp hz with rfl | hz
      · exact ⟨a, hx⟩
      · cases hr : joinText f (y :: xs) with
        | error => simp [hr] at h
        | fuel => simp [hr] at h
        | ok b => exact joinText_ok hr z hz

theorem jbind_ok {α β : Type} {x : JOut α} {f : α → JOut β} {y : β} (h : x.bind f = .ok y) : ∃ a, x = .ok a ∧ f a = .ok y := by
  cases x with
  | ok a => exact ⟨a, rfl, h⟩
  | error => simp [JOut.bind] at h
  | fuel => simp [JOut.bind] at h

theorem marshalPtr_endless (env : JEnv) {h : Heap} : ∀ (n : Nat) {p : Ptr}, Endless h p → ∀ t, marshalPtr env h n p ≠ .ok t
  | 0, p, _, t => by simp [marshalPtr]
  | n + 1, p, he, t => by
    obtain ⟨q, hc, hq⟩ := endless_next he
    intro hm
    cases hc with
    | item hd ht ha hq' =>
      simp only [marshalPtr, hd, ht, ha] at hm
      obtain ⟨_, h1, _⟩ := jbind_ok hm
      obtain ⟨_, h2, _⟩ := jbind_ok h1
      obtain ⟨y, hy⟩ := joinText_ok h2 _ hq'
      exact marshalPtr_endless env n hq y hy
    | @entry c k hd ht hk =>
      simp only [marshalPtr, hd, ht] at hm
      cases ho : c.object with
      | none => simp [ho, mapOf] at hk
      | some m =>
        simp only [ho] at hm hk
        obtain ⟨_, h1, _⟩ := jbind_ok hm
        obtain ⟨_, h2, _⟩ := jbind_ok h1
        obtain ⟨y, hy⟩ := joinText_ok h2 _ hk
        obtain ⟨z, hz, _⟩ := jbind_ok hy
        exact marshalPtr_endless env n hq z hz

theorem collectG_ok {α β : Type} {f : α → Option (Res β)} : ∀ {xs : List α} {ys : List β}, collectG f xs = some (.ok ys) → ∀ x ∈ xs, ∃ y, f x = some (.ok y)
  | [], _, _, _, hx => by simp at hx
  | x :: xs, ys, h, z, hz => by
    simp only [collectG] at h
    cases hx : f x with
    | none => simp [hx] at h
    | some r =>
      cases r with
      | panic => simp [hx] at h
      | ok y =>
        simp only [hx] at h
        rcases List.mem_cons.mp hz with rfl | hz
        · exact ⟨y, hx⟩
        · cases hr : collectG f xs with
          | none => simp [hr] at h
          | some r =>
            cases r with
            | panic => simp [hr] at h
            | ok ys' => exact collectG_ok hr z hz

theorem goFields_ok {f : Ptr → Option (Res GIface)} {es : List (Bytes × Ptr)} {ys : List (Bytes × GIface)} (h : goFields f es = some (.ok ys)) : ∀ x ∈ es, ∃ y, f x.2 = some (.ok y) := by
  intro x hx
  obtain ⟨y, hy⟩ := collectG_ok h x hx

  cases hf : f x.2 with
  | none => simp [hf] at hy
  | some r =>
    cases r with
    | panic => simp [hf] at hy
    | ok z => exact ⟨z, rfl⟩

theorem goValue_endless (text : GoTime → Bytes) {h : Heap} : ∀ (n : Nat) {p : Ptr}, Endless h p → ∀ x, goValue text h n p ≠ some (.ok x)
  | 0, p, _, x => by simp [goValue]
  | n + 1, p, he, x => by
    obtain ⟨q, hc, hq⟩ := endless_next he
    intro hm
    cases hc with
    | @item c ps hd ht ha hq' =>
      simp only [goValue, hd, ht, ha, Option.getD_some] at hm
      cases hr : collectG (goValue text h n) ps with
      | none => simp [hr] at hm
      | some r =>
        cases r with
        | panic => simp [hr] at hm
        | ok ys =>
          obtain ⟨y, hy⟩ := collectG_ok hr _ hq'
          exact goValue_endless text n hq y hy
    | @entry c k hd ht hk =>
      simp only [goValue, hd, ht] at hm
      cases hr : goFields (goValue text h n) (mapOf h c.object) with
      | none => simp [hr] at hm
      | some r =>
        cases r with
        | panic => simp [hr] at hm
        | ok ys =>
          obtain ⟨y, hy⟩ := goFields_ok hr _ hk
          exact goValue_endless text n hq y hy

theorem printAll_ok {α : Type} {f : α → Option Bytes} : ∀ {xs : List α} {t : Bytes}, printAll f xs = some t → ∀ x ∈ xs, ∃ y, f x = some y
  | [], _, _, _, hx => by simp at hx
  | [x], t, h, z, hz => by
    simp only [List.mem_singleton] at hz
    subst hz
    exact ⟨t, h⟩
  | x :: y :: xs, t, h, z, hz => by
    simp only [printAll] at h
    cases hx : f x with
    | none => simp [hx] at h
    | some a =>
      simp only [hx] at h
      rcases List.mem_cons.mp hz with rfl | hz
      · exact ⟨a, hx⟩
      · cases hr : printAll f (y :: xs) with
        | none => simp [hr] at h
        | some b => exact printAll_ok hr z hz

theorem formatPtr_endless (ftoa : BitVec 64 → Bytes) {h : Heap} : ∀ (n : Nat) {p : Ptr}, Endless h p → formatPtr ftoa h n p = none
  | 0, p, _ => by simp [formatPtr]
  | n + 1, p, he => by
    obtain ⟨q, hc, hq⟩ := endless_next he
    cases hc with
    | @item c ps hd ht ha hq' =>
      simp only [formatPtr, hd, ht, ha, Option.getD_some, Option.map_eq_none_iff]
      cases hr : printAll (formatPtr ftoa h n) ps with
      | none => rfl
      | some b =>
        obtain ⟨y, hy⟩ := printAll_ok hr _ hq'
        rw [formatPtr_endless ftoa n hq] at hy
        simp at hy
    | @entry c k hd ht hk =>
      simp only [formatPtr, hd, ht, Option.map_eq_none_iff]
      generalize hg : (fun e : Bytes × Ptr => (formatPtr ftoa h n e.2).map fun t => e.1 ++ 58 :: t) = g
      cases hr : printAll g (mapOf h c.object) with
      | none => rfl
      | some b =>
        obtain ⟨y, hy⟩ := printAll_ok hr _ hk
        subst hg
        simp [formatPtr_endless ftoa n hq] at hy

/-! ## Whole events -/

theorem child_append {h : Heap} (x : Heap) {p q : Ptr} (hc : Child h p q) : Child (h ++ x) p q := by
  have hd : ∀ {p : Ptr} {c : Cell}, deref h p = some c → deref (h ++ x) p = some c := by
    intro p c hd
    cases p with
    | none => simp [deref] at hd
    | some a =>
      simp only [deref] at hd ⊢
      cases ha : h[a]? with
      | none => simp [ha] at hd
      | some o =>
        have hl : a < h.length := lt_of_getElem? ha
        rw [List.getElem?_append_left hl, ha]
        simpa [ha] using hd
  have hm : ∀ {m : Option Nat} {e : Bytes × Ptr}, e ∈ mapOf h m → e ∈ mapOf (h ++ x) m := by
    intro m e he
    cases m with
    | none => simp [mapOf] at he
    | some a =>
      simp only [mapOf] at he ⊢
      cases ha : h[a]? with
      | none => simp [ha] at he
      | some o =>
        have hl : a < h.length := lt_of_getElem? ha
        rw [List.getElem?_append_left hl, ha]
        simpa [ha] using he
  cases hc with
  | item h1 h2 h3 h4 => exact .item (hd h1) h2 h3 h4
  | entry h1 h2 h3 => exact .entry (hd h1) h2 (hm h3)

theorem endless_append {h : Heap} (x : Heap) {p : Ptr} (he : Endless h p) : Endless (h ++ x) p := by
  obtain ⟨way, h0, hw⟩ := he
  exact ⟨way, h0, fun i => child_append x (hw i)⟩

/-- The root of an event without an end. -/
theorem root_endless {h : Heap} {e : Event} (he : EndlessEvent h e) : ∃ h' a, apiGet h e (lit ".") = .ok (h', some a) ∧ ∃ c, deref h' (some a) = some c ∧ c.type = .object ∧ ∃ k p, (k, p) ∈ mapOf h' c.object ∧ Endless h' p := by
  obtain ⟨k, p, hk, hp⟩ := he
  have hne : mapOf h e ≠ [] := by intro h0; simp [h0] at hk
  obtain ⟨h', a, c, h1, h2, h3, h4, h5, h6⟩ := (get_root (h := h) (e := e) (k := lit ".") (by decide)).2 hne
  refine ⟨h', a, h1, c, h2, h3, k, p, by rw [h6]; exact hk, ?_⟩
  rw [h5]
  exact endless_append _ hp

/-- **C79.** An event that contains itself cannot be turned into anything: whatever the bound on the recursion, neither a protobuf message, nor JSON, nor a Go map comes out. -/
theorem endless_nothing {h : Heap} {e : Event} (he : EndlessEvent h e) (n : Nat) :
    (∀ m, fromEvent n h e ≠ .ok m) ∧ (∀ env t, marshalEvent env n h e ≠ .ok t) ∧ (∀ text m, mapFromEvent text n h e ≠ some (.ok m)) := by
  refine ⟨?_, ?_, ?_⟩
  · intro m hm
    obtain ⟨h', a, h1, c, h2, h3, k, p, hk, hp⟩ := root_endless he
    simp only [fromEvent, h1, fromEventValueObject, h2, h3, ne_eq, not_true, if_false] at hm
    obtain ⟨_, h4, _⟩ := ubind_eq_ok.mp hm
    obtain ⟨_, h5, _⟩ := ubind_eq_ok.mp h4
    obtain ⟨y, hy⟩ := collect_ok h5 _ hk
    obtain ⟨z, hz, _⟩ := ubind_eq_ok.mp hy
    exact fromEventValue_endless n hp z hz
  · intro env t hm
    obtain ⟨k, p, hk, hp⟩ := he
    cases e with
    | none => simp [mapOf] at hk
    | some m =>
      simp only [marshalEvent] at hm
      obtain ⟨_, h1, _⟩ := jbind_ok hm
      obtain ⟨_, h2, _⟩ := jbind_ok h1
      obtain ⟨y, hy⟩ := joinText_ok h2 _ hk
      obtain ⟨z, hz, _⟩ := jbind_ok hy
      exact marshalPtr_endless env n hp z hz
  · intro text m hm
    obtain ⟨h', a, h1, c, h2, h3, k, p, hk, hp⟩ := root_endless he
    simp only [mapFromEvent, h1, h2, h3, ne_eq, not_true, if_false] at hm
    cases hr : goFields (goValue text h' n) (mapOf h' c.object) with
    | none => simp [hr] at hm
    | some r =>
      cases r with
      | panic => simp [hr] at hm
      | ok ys =>
        obtain ⟨y, hy⟩ := goFields_ok hr _ hk
        exact goValue_endless text n hp y hy

/-- C79: nor a text, when one of its fields (or all of it) is printed. -/
theorem endless_not_printed {h : Heap} {p : Ptr} (he : Endless h p) (ftoa : BitVec 64 → Bytes) (n : Nat) : formatPtr ftoa h n p = none := formatPtr_endless ftoa n he

/-- C79: events with finite contents are not affected. -/
theorem holds_not_endless {h : Heap} {e : Event} {F : Fields} (hh : Holds h e F) : ¬ EndlessEvent h e := by
  intro he
  obtain ⟨N, hN⟩ := fromEvent_spec hh
  exact (endless_nothing he N).1 _ (hN N (Nat.le_refl N))

/-! ## How an event comes to contain itself -/

/-- `p` is found by going down the path from the map `m`, and every value on the way has type `Object`. -/
def Down (h : Heap) (p : Ptr) : Option Nat → List Bytes → Prop
  | _, [] => False
  | m, [k] => (mapOf h m).lookup k = some p
  | m, k :: k2 :: ks => ∃ q c, (mapOf h m).lookup k = some q ∧ deref h q = some c ∧ c.type = .object ∧ Down h p c.object (k2 :: ks)

theorem down_ne {h : Heap} {p : Ptr} : ∀ {m : Option Nat} {path : List Bytes}, Down h p m path → mapOf h m ≠ []
  | m, [], hd => hd.elim
  | m, [k], hd => by intro h0; simp [Down, h0] at hd
  | m, k :: k2 :: ks, hd => by
    obtain ⟨q, c, h1, _⟩ := hd
    intro h0; simp [h0] at h1

theorem down_step {h : Heap} {p q : Ptr} {m : Option Nat} {c : Cell} {k : Bytes} {ks : List Bytes} (h1 : (mapOf h m).lookup k = some q) (h2 : deref h q = some c)
    (h3 : c.type = .object) (hd : Down h p c.object ks) : Down h p m (k :: ks) := by
  cases ks with
  | nil => exact hd.elim
  | cons x xs => exact ⟨q, c, h1, h2, h3, hd⟩

theorem down_get {h : Heap} {p : Ptr} : ∀ {path : List Bytes} {m : Option Nat}, Down h p m path → getLoop h m path = .ok p
  | [], _, hd => hd.elim
  | [k], m, hd => by simp only [Down] at hd; simp [getLoop, hd]
  | k :: k2 :: ks, m, hd => by
    obtain ⟨q, c, h1, h2, h3, h4⟩ := hd
    rw [getLoop_step h1 h2 (down_ne h4)]
    exact down_get h4

theorem down_split {h : Heap} {p : Ptr} {k : Bytes} {ks : List Bytes} : ∀ {src : List Bytes} {m : Option Nat}, src ≠ [] → Down h p m (src ++ k :: ks) →
    ∃ q c, Down h q m src ∧ deref h q = some c ∧ c.type = .object ∧ Down h p c.object (k :: ks)
  | [], _, hs, _ => absurd rfl hs
  | [x], m, _, hd => by
    obtain ⟨q, c, h1, h2, h3, h4⟩ := hd
    exact ⟨q, c, h1, h2, h3, h4⟩
  | x :: y :: xs, m, _, hd => by
    obtain ⟨q, c, h1, h2, h3, h4⟩ := hd
    obtain ⟨q', c', i1, i2, i3, i4⟩ := down_split (src := y :: xs) (by simp) h4
    exact ⟨q', c', ⟨q, c, h1, h2, h3, i1⟩, i2, i3, i4⟩

/-- What is found below an object is within it. -/
theorem down_within {h : Heap} {p : Ptr} : ∀ {path : List Bytes} {q : Ptr} {c : Cell}, deref h q = some c → c.type = .object → Down h p c.object path → Within h q p
  | [], _, _, _, _, hd => hd.elim
  | [k], q, c, h1, h2, hd => .child (.entry h1 h2 (AMap.mem_of_lookup hd))
  | k :: k2 :: ks, q, c, h1, h2, hd => by
    obtain ⟨q', c', i1, i2, i3, i4⟩ := hd
    exact .deeper (.entry h1 h2 (AMap.mem_of_lookup i1)) (down_within i2 i3 i4)

theorem down_endless {h : Heap} {p : Ptr} (he : Endless h p) : ∀ {path : List Bytes} {m : Option Nat}, Down h p m path → ∃ k q, (k, q) ∈ mapOf h m ∧ Endless h q
  | [], _, hd => hd.elim
  | [k], m, hd => ⟨k, p, AMap.mem_of_lookup hd, he⟩
  | k :: k2 :: ks, m, hd => by
    obtain ⟨q, c, h1, h2, h3, h4⟩ := hd
    obtain ⟨k', q', i1, way, i2, i3⟩ := down_endless he h4
    refine ⟨k, q, AMap.mem_of_lookup h1, fun i => match i with | 0 => q | i + 1 => way i, rfl, ?_⟩
    intro i
    cases i with
    | zero => simp only [i2]; exact .entry h2 h3 i1
    | succ i => exact i3 i

/-- A set of values that each have a child in the set is a set of endless values. -/
theorem endless_of_closed {h : Heap} {S : Ptr → Prop} (hS : ∀ p, S p → ∃ q, S q ∧ Child h p q) {p : Ptr} (hp : S p) : Endless h p := by
  let next : {p : Ptr // S p} → {p : Ptr // S p} := fun p => ⟨Classical.choose (hS p.1 p.2), (Classical.choose_spec (hS p.1 p.2)).1⟩
  have hn : ∀ p, Child h p.1 (next p).1 := fun p => (Classical.choose_spec (hS p.1 p.2)).2
  let way : Nat → {p : Ptr // S p} := fun i => Nat.rec ⟨p, hp⟩ (fun _ q => next q) i
  exact ⟨fun i => (way i).1, rfl, fun i => hn (way i)⟩

/-- A value within itself has no end. -/
theorem within_endless {h : Heap} {p : Ptr} (hw : Within h p p) : Endless h p := by
  apply endless_of_closed (S := fun q => Within h q p) _ hw
  intro q hq
  cases hq with
  | child hc => exact ⟨p, hw, hc⟩
  | deeper hc hr => exact ⟨_, hr, hc⟩

/-- After a successful `putLoop` the pointer is found by going down the path through objects. -/
theorem putLoop_down {p : Ptr} (path : List Bytes) (hp : path ≠ []) {h h' : Heap} {m : Nat} {es : AMap ATree} (o : OwnsMap h m es)
    (hw : putLoop h (some m) path p = .ok (h', true)) : Down h' p (some m) path := by
  induction path generalizing h m es with
  | nil => exact absurd rfl hp
  | cons k ks ih =>
    cases ks with
    | nil =>
      simp only [putLoop, mapWrite, o.at_, Res.map_ok, Res.ok.injEq, Prod.mk.injEq, and_true] at hw
      subst hw
      have hl := lt_of_getElem? o.at_
      have hm : (h.set m (.map ((ptrMap es).insert k p)))[m]? = some (.map ((ptrMap es).insert k p)) := List.getElem?_set_self hl
      simp [Down, mapOf, hm]
    | cons k2 ks =>
      simp only [putLoop, mapOf, o.at_, lookup_ptrMap] at hw
      cases hl : AMap.lookup es k with
      | none =>
        simp only [hl, Option.map_none, Heap.alloc] at hw
        have hml := lt_of_getElem? o.at_
        have hwm : mapWrite (h ++ [HObj.map []] ++ [HObj.cell (objCell (some h.length))]) (some m) k (some (h ++ [HObj.map []]).length) =
            .ok ((h ++ [HObj.map []] ++ [HObj.cell (objCell (some h.length))]).set m (.map ((ptrMap es).insert k (some (h ++ [HObj.map []]).length)))) := by
          simp only [mapWrite]
          rw [List.getElem?_append_left (by simp; omega), List.getElem?_append_left hml, o.at_]
        rw [hwm] at hw
        simp only at hw
        generalize hh3 : (h ++ [HObj.map []] ++ [HObj.cell (objCell (some h.length))]).set m (.map ((ptrMap es).insert k (some (h ++ [HObj.map []]).length))) = h3 at hw
        have hat : ∀ a, a ≠ m → h3[a]? = (h ++ [HObj.map []] ++ [HObj.cell (objCell (some h.length))])[a]? := by
          intro a ha; rw [← hh3, List.getElem?_set_ne (fun e => ha e.symm)]
        have hm3 : h3[m]? = some (.map ((ptrMap es).insert k (some (h.length + 1)))) := by
          rw [← hh3, List.getElem?_set_self (by simp; omega)]; simp
        have hn3 : h3[h.length]? = some (.map []) := by
          rw [hat _ (by omega)]; rw [List.getElem?_append_left (by simp)]; simp
        have hc3 : h3[h.length + 1]? = some (.cell (objCell (some h.length))) := by
          rw [hat _ (by omega)]; rw [List.getElem?_append_right (by simp)]; simp
        have o3 : OwnsMap h3 h.length [] := ⟨by simp [hn3, ptrMap, AMap.mapVals], AMap.sorted_nil, by simp [RepE], by simp [fpE]⟩
        have i0 := ih (by simp) o3 hw
        obtain ⟨i1, -, -, -⟩ := putLoop_raw _ (by simp) o3 hw
        have htn : touched h.length ([] : AMap ATree) (k2 :: ks) = [h.length] := by
          cases ks <;> simp [touched]
        rw [htn] at i1
        have hm' := i1.get hm3 (by simp; omega)
        have hc' := i1.get hc3 (by simp)
        exact down_step (q := some (h.length + 1)) (c := objCell (some h.length)) (by simp [mapOf, hm']) (by simp [deref, hc']) rfl i0
      | some t0 =>
        have hr := rep_of_lookup o.rep hl
        have bad : ∀ (c : Cell) (a : Nat), t0.ptr = some a → h[a]? = some (.cell c) → c.type ≠ .object → False := by
          intro c a h1 h2 h3
          simp [hl, h1, deref, h2, h3] at hw
        cases t0 with
        | nilp => simp [hl, ptr, deref] at hw
        | leaf b s => simp only [Rep] at hr; exact (bad _ b rfl hr (by cases s <;> simp [scalarCell, nullCell, boolCell, intCell, uintCell, floatCell, strCell, tsCell])).elim
        | arrNil b => simp only [Rep] at hr; exact (bad _ b rfl hr (by simp [arrCell])).elim
        | arr b vs => simp only [Rep] at hr; exact (bad _ b rfl hr.1 (by simp [arrCell])).elim
        | objNil b =>
          simp only [Rep] at hr
          simp only [hl, Option.map_some, ptr, deref, hr, objCell, ne_eq, not_true_eq_false, if_false] at hw
          cases ks <;> simp [putLoop, mapWrite, mapOf] at hw
        | obj b m1 es1 =>
          simp only [Rep] at hr
          simp only [hl, Option.map_some, ptr, deref, hr.1, objCell, ne_eq, not_true_eq_false, if_false] at hw
          have i0 := ih (by simp) (o.sub hl) hw
          obtain ⟨i1, -, -, -⟩ := putLoop_raw _ (by simp) (o.sub hl) hw
          have hsub : ∀ a ∈ touched m1 es1 (k2 :: ks), a ∈ fpE es := fun a ha =>
            mem_fpE (AMap.mem_of_lookup hl) (by simpa [fp] using touched_sub _ _ _ a ha)
          have hmn : m ∉ touched m1 es1 (k2 :: ks) := fun hc => (List.nodup_cons.1 o.nodup).1 (hsub _ hc)
          have hm' := i1.get o.at_ hmn
          have hc' := i1.getFrozen hr.1 (by simp [objCell])
          exact down_step (q := some b) (c := objCell (some m1)) (by simp [mapOf, hm', lookup_ptrMap, hl, ptr]) (by simp [deref, hc']) rfl i0

/-- A value of the event (or all of it) is put below itself. -/
theorem get_putLoop_endless {h h1 h' : Heap} {m : Nat} {es : AMap ATree} (o : OwnsMap h m es) {src : Bytes} {k : Bytes} {ks : List Bytes} {a : Nat}
    (hg : apiGet h (some m) src = .ok (h1, some a)) (hw : putLoop h1 (some m) (keyToPath src ++ k :: ks) (some a) = .ok (h', true)) : EndlessEvent h' (some m) := by
  by_cases hsrc : keyToPath src = []
  · have hne : es ≠ [] := by
      rintro rfl
      simp [apiGet, get, mapOf, o.at_, ptrMap, AMap.mapVals] at hg
    simp only [apiGet, hsrc, get, mapOf, o.at_] at hg
    have : ¬ (ptrMap es).length = 0 := by simpa [ptrMap, AMap.mapVals] using hne
    simp only [this, if_false, Heap.alloc, Res.ok.injEq, Prod.mk.injEq, Option.some.injEq] at hg
    obtain ⟨rfl, rfl⟩ := hg
    have o1 : OwnsMap (h ++ [HObj.cell (objCell (some m))]) m es := by
      have := Owns.frame (f := some (m, es)) o.owns (frame_alloc h [.cell (objCell (some m))]) (by simp)
      exact ⟨this.1, this.2.1, this.2.2.1, this.2.2.2⟩
    rw [hsrc, List.nil_append] at hw
    have hd := putLoop_down _ (by simp) o1 hw
    obtain ⟨i1, -, -, -⟩ := putLoop_raw _ (by simp) o1 hw
    have hcell : (h ++ [HObj.cell (objCell (some m))])[h.length]? = some (.cell (objCell (some m))) := by simp
    have hc' := i1.getFrozen hcell (by simp [objCell])
    exact down_endless (within_endless (down_within (c := objCell (some m)) (by simp [deref, hc']) rfl hd)) hd
  · have hgs := get_spec' o _ hsrc
    simp only [apiGet, hgs] at hg
    have h1e : h1 = h := by
      cases hx : aget es (keyToPath src) with
      | panic => simp [hx] at hg
      | ok t => simp [hx] at hg; exact hg.1.symm
    subst h1e
    rcases putLoop_through _ _ _ o hw with h0 | ⟨b, m1, es1, h0⟩
    · simp [h0, ptr] at hg
    · simp only [h0, Res.map_ok, Res.ok.injEq, Prod.mk.injEq, true_and, ptr, Option.some.injEq] at hg
      subst hg
      obtain ⟨-, -, -, i4⟩ := putLoop_raw _ (by simp) o hw
      have g1 := i4 _ _ _ rfl _ _ _ h0
      have hd := putLoop_down _ (by simp) o hw
      obtain ⟨q, c, d1, d2, d3, d4⟩ := down_split hsrc hd
      have := down_get d1
      rw [g1, Res.ok.injEq] at this
      subst this
      exact down_endless (within_endless (down_within d2 d3 d4)) hd

theorem put_some {h h' : Heap} {m : Nat} {path : List Bytes} {a : Nat} {ow : Bool} {e' : Event} {old : Ptr} (hp : put h (some m) path (some a) ow = .ok (h', e', old, none)) :
    e' = some m ∧ path ≠ [] ∧ (path ≠ [] → putLoop h (some m) path (some a) = .ok (h', true)) := by
  have hpath : path ≠ [] := by rintro rfl; simp [put] at hp
  have hl : ¬ path.length = 0 := by simpa using hpath
  simp only [put, hl, if_false, reduceCtorEq] at hp
  cases hg : get h (some m) path with
  | panic => simp [hg] at hp
  | ok r =>
    obtain ⟨h0, o⟩ := r
    have h0e : h0 = h := by
      cases path with
      | nil => exact absurd rfl hpath
      | cons x xs =>
        simp only [get] at hg
        split at hg
        · simp only [Res.ok.injEq, Prod.mk.injEq] at hg; exact hg.1.symm
        · cases hx : getLoop h (some m) (x :: xs) with
          | panic => simp [hx] at hg
          | ok q => simp [hx] at hg; exact hg.1.symm
    subst h0e
    simp only [hg] at hp
    split at hp
    · simp at hp
    · cases hpl : putLoop h0 (some m) path (some a) with
      | panic => simp [hpl] at hp
      | ok r =>
        obtain ⟨h2, b⟩ := r
        cases b with
        | false => simp [hpl] at hp
        | true =>
          simp only [hpl, Res.ok.injEq, Prod.mk.injEq, and_true] at hp
          obtain ⟨rfl, rfl, rfl⟩ := hp
          exact ⟨rfl, hpath, fun _ => rfl⟩

theorem put_endless {h h1 h' : Heap} {f : AFields} (o : Owns h f) {src : Bytes} {path : List Bytes} (hpp : ProperPrefix (keyToPath src) path) {a : Nat}
    (hg : apiGet h f.event src = .ok (h1, some a)) {ow : Bool} {e' : Event} {old : Ptr} (hp : put h1 f.event path (some a) ow = .ok (h', e', old, none)) : EndlessEvent h' e' := by
  obtain ⟨k, ks, rfl⟩ := hpp
  cases f with
  | none =>
    have : ∀ p, get h none p = .ok (h, none) := by
      intro p
      cases p <;> simp [get, mapOf, getLoop]
    simp [apiGet, AFields.event, this] at hg
  | some f =>
    obtain ⟨m, es⟩ := f
    obtain ⟨rfl, hne, hw⟩ := put_some hp
    exact get_putLoop_endless ⟨o.1, o.2.1, o.2.2.1, o.2.2.2⟩ hg (hw hne)

/-- **C79.** Storing a value of an event (or all of it, as `Get(".")` returns it) below itself, with `Put` or `TryPut`: if the call succeeds, the event contains itself. -/
theorem put_below_itself {h h1 h' : Heap} {f : AFields} (o : Owns h f) {src key : Bytes} (hpp : ProperPrefix (keyToPath src) (keyToPath key)) {a : Nat}
    (hg : apiGet h f.event src = .ok (h1, some a)) {e' : Event} {old : Ptr}
    (hp : apiPut h1 f.event key (some a) = .ok (h', e', old, none) ∨ apiTryPut h1 f.event key (some a) = .ok (h', e', old, none)) : EndlessEvent h' e' := by
  rcases hp with hp | hp
  · exact put_endless o hpp hg hp
  · exact put_endless o hpp hg hp

/-- **C79, C17.** `set` with `copy_from` a field above the target: whenever it reports success, the event contains itself. -/
theorem set_copy_endless {h h' : Heap} {f : AFields} (o : Owns h f) {value : Nat} (hv : h[value]? = some (.cell nullCell)) {copyFrom : Bytes} (hc : copyFrom ≠ []) (target : Bytes)
    (hpp : ProperPrefix (keyToPath copyFrom) (keyToPath target)) {e' : Event} (hrun : setProcess value copyFrom target h f.event = .ok (h', e', none)) : EndlessEvent h' e' := by
  rw [setProcess_copy hv hc] at hrun
  cases hg : apiGet h f.event copyFrom with
  | panic => simp [hg] at hrun
  | ok r =>
    obtain ⟨h1, p⟩ := r
    cases p with
    | none => simp [hg] at hrun
    | some a =>
      simp only [hg, putThen] at hrun
      cases hq : apiPut h1 f.event target (some a) with
      | panic => simp [hq] at hrun
      | ok q =>
        obtain ⟨h2, e2, old, err⟩ := q
        cases err with
        | some err => simp [hq] at hrun
        | none =>
          simp only [hq, Res.map_ok, Option.map_none, Res.ok.injEq, Prod.mk.injEq, and_true] at hrun
          obtain ⟨rfl, rfl⟩ := hrun
          exact put_endless o hpp hg hq

/-! ## Everything else comes to an end -/

theorem ends {h : Heap} {p : Ptr} (hn : ¬ Endless h p) : Acc (fun q p => Child h p q) p := by
  apply Classical.byContradiction
  intro ha
  apply hn
  apply endless_of_closed (S := fun q => ¬ Acc (fun q p => Child h p q) q) _ ha
  intro q hq
  apply Classical.byContradiction
  intro hc
  apply hq
  constructor
  intro r hr
  apply Classical.byContradiction
  intro hr'
  exact hc ⟨r, hr', hr⟩

/-- One bound for all elements of a list. -/
theorem common_bound {α : Type} {Q : Nat → α → Prop} : ∀ {xs : List α}, (∀ x ∈ xs, ∃ N, ∀ n, N ≤ n → Q n x) → ∃ N, ∀ n, N ≤ n → ∀ x ∈ xs, Q n x
  | [], _ => ⟨0, fun _ _ x hx => by simp at hx⟩
  | x :: xs, hall => by
    obtain ⟨N1, h1⟩ := hall x (by simp)
    obtain ⟨N2, h2⟩ := common_bound (xs := xs) (Q := Q) fun y hy => hall y (by simp [hy])
    refine ⟨max N1 N2, fun n hn y hy => ?_⟩
    rcases List.mem_cons.mp hy with rfl | hy
    · exact h1 n (by omega)
    · exact h2 n (by omega) y hy

theorem collect_ends {α β : Type} {f : α → UOut β} : ∀ {xs : List α}, (∀ x ∈ xs, f x ≠ .fuel) → collect f xs ≠ .fuel
  | [], _ => by simp [collect]
  | x :: xs, hall => by
    have h1 := hall x (by simp)
    have h2 := collect_ends (xs := xs) fun y hy => hall y (by simp [hy])
    simp only [collect, Bind.bind, UOut.bind]
    cases hx : f x with
    | fuel => exact absurd hx h1
    | err => simp
    | panic => simp
    | ok y =>
      simp only
      cases hy : collect f xs with
      | fuel => exact absurd hy h2
      | err => simp
      | panic => simp
      | ok ys => simp

theorem ubind_ends {α β : Type} {x : UOut α} {f : α → UOut β} (h1 : x ≠ .fuel) (h2 : ∀ a, f a ≠ .fuel) : (x >>= f) ≠ .fuel := by
  cases x with
  | fuel => exact absurd rfl h1
  | err => simp [Bind.bind, UOut.bind]
  | panic => simp [Bind.bind, UOut.bind]
  | ok a => exact h2 a

theorem jbind_ends {α β : Type} {x : JOut α} {f : α → JOut β} (h1 : x ≠ .fuel) (h2 : ∀ a, f a ≠ .fuel) : x.bind f ≠ .fuel := by
  cases x with
  | fuel => exact absurd rfl h1
  | error => simp [JOut.bind]
  | ok a => exact h2 a

theorem fromEventValueObject_ends {h : Heap} {f : Ptr → UOut PValue} {p : Ptr} {c : Cell} (hd : deref h p = some c) (hf : ∀ e ∈ mapOf h c.object, f e.2 ≠ .fuel) :
    fromEventValueObject f h p ≠ .fuel := by
  simp only [fromEventValueObject, hd]
  split
  · simp
  · exact ubind_ends (collect_ends fun e he => ubind_ends (hf e he) (by simp)) (by simp)

theorem fromEventValue_ends {h : Heap} {p : Ptr} (hp : ¬ Endless h p) : ∃ N, ∀ n, N ≤ n → fromEventValue h n p ≠ .fuel := by
  have ha := ends hp
  clear hp
  induction ha with
  | intro p _ ih =>
    cases hd : deref h p with
    | none =>
      refine ⟨1, fun n hn => ?_⟩
      obtain ⟨n, rfl⟩ : ∃ k, n = k + 1 := ⟨n - 1, by omega⟩
      simp [fromEventValue, hd]
    | some c =>
      obtain ⟨N1, h1⟩ := common_bound (xs := if c.type = .array then c.array.getD [] else []) (Q := fun n q => fromEventValue h n q ≠ .fuel) (by
        intro q hq
        split at hq
        · rename_i ht
          cases hc : c.array with
          | none => simp [hc] at hq
          | some ps => rw [hc] at hq; exact ih q (.item hd ht hc hq)
        · simp at hq)
      obtain ⟨N2, h2⟩ := common_bound (xs := if c.type = .object then mapOf h c.object else []) (Q := fun n e => fromEventValue h n e.2 ≠ .fuel) (by
        intro e he
        split at he
        · rename_i ht
          exact ih e.2 (.entry (k := e.1) hd ht he)
        · simp at he)
      refine ⟨max N1 N2 + 1, fun n hn => ?_⟩
      obtain ⟨n, rfl⟩ : ∃ k, n = k + 1 := ⟨n - 1, by omega⟩
      have h1 := h1 n (by omega)
      have h2 := h2 n (by omega)
      simp only [fromEventValue, hd]
      cases ht : c.type with
      | array =>
        simp only [ht, if_true] at h1
        exact ubind_ends (collect_ends h1) (by simp)
      | object =>
        simp only [ht, if_true] at h2
        exact ubind_ends (fromEventValueObject_ends hd h2) (by simp)
      | _ => simp

theorem joinText_ends {α : Type} {f : α → JOut Bytes} : ∀ {xs : List α}, (∀ x ∈ xs, f x ≠ .fuel) → joinText f xs ≠ .fuel
  | [], _ => by simp [joinText]
  | [x], hall => hall x (by simp)
  | x :: y :: xs, hall => jbind_ends (hall x (by simp)) fun _ => jbind_ends (joinText_ends fun z hz => hall z (List.mem_cons_of_mem _ hz)) (by simp)

theorem compact_ends (t : Bytes) : compact t ≠ .fuel := by
  simp only [compact]
  split <;> simp

theorem marshalPtr_ends (env : JEnv) {h : Heap} {p : Ptr} (hp : ¬ Endless h p) : ∃ N, ∀ n, N ≤ n → marshalPtr env h n p ≠ .fuel := by
  have ha := ends hp
  clear hp
  induction ha with
  | intro p _ ih =>
    cases hd : deref h p with
    | none =>
      refine ⟨1, fun n hn => ?_⟩
      obtain ⟨n, rfl⟩ : ∃ k, n = k + 1 := ⟨n - 1, by omega⟩
      simp [marshalPtr, hd]
    | some c =>
      obtain ⟨N1, h1⟩ := common_bound (xs := if c.type = .array then c.array.getD [] else []) (Q := fun n q => marshalPtr env h n q ≠ .fuel) (by
        intro q hq
        split at hq
        · rename_i ht
          cases hc : c.array with
          | none => simp [hc] at hq
          | some ps => rw [hc] at hq; exact ih q (.item hd ht hc hq)
        · simp at hq)
      obtain ⟨N2, h2⟩ := common_bound (xs := if c.type = .object then mapOf h c.object else []) (Q := fun n e => marshalPtr env h n e.2 ≠ .fuel) (by
        intro e he
        split at he
        · rename_i ht
          exact ih e.2 (.entry (k := e.1) hd ht he)
        · simp at he)
      refine ⟨max N1 N2 + 1, fun n hn => ?_⟩
      obtain ⟨n, rfl⟩ : ∃ k, n = k + 1 := ⟨n - 1, by omega⟩
      have h1 := h1 n (by omega)
      have h2 := h2 n (by omega)
      simp only [marshalPtr, hd]
      refine jbind_ends ?_ compact_ends
      cases ht : c.type with
      | array =>
        simp only [ht, if_true] at h1
        cases hc : c.array with
        | none => simp
        | some ps => rw [hc] at h1; exact jbind_ends (joinText_ends h1) (by simp)
      | object =>
        simp only [ht, if_true] at h2
        cases hc : c.object with
        | none => simp
        | some m => rw [hc] at h2; exact jbind_ends (joinText_ends fun e he => jbind_ends (h2 e he) (by simp)) (by simp)
      | float => simp only; split <;> simp
      | timestamp => exact compact_ends _
      | _ => simp

theorem collectG_ends {α β : Type} {f : α → Option (Res β)} : ∀ {xs : List α}, (∀ x ∈ xs, f x ≠ none) → collectG f xs ≠ none
  | [], _ => by simp [collectG]
  | x :: xs, hall => by
    have h1 := hall x (by simp)
    have h2 := collectG_ends (xs := xs) fun y hy => hall y (by simp [hy])
    simp only [collectG]
    split
    · exact absurd ‹_› h1
    · simp
    · split
      · exact absurd ‹_› h2
      · simp
      · simp

theorem goFields_ends {f : Ptr → Option (Res GIface)} {es : List (Bytes × Ptr)} (hall : ∀ e ∈ es, f e.2 ≠ none) : goFields f es ≠ none := by
  refine collectG_ends fun e he => ?_
  have := hall e he
  cases hf : f e.2 with
  | none => exact absurd hf this
  | some r => cases r <;> simp

theorem goValue_ends (text : GoTime → Bytes) {h : Heap} {p : Ptr} (hp : ¬ Endless h p) : ∃ N, ∀ n, N ≤ n → goValue text h n p ≠ none := by
  have ha := ends hp
  clear hp
  induction ha with
  | intro p _ ih =>
    cases hd : deref h p with
    | none =>
      refine ⟨1, fun n hn => ?_⟩
      obtain ⟨n, rfl⟩ : ∃ k, n = k + 1 := ⟨n - 1, by omega⟩
      simp [goValue, hd]
    | some c =>
      obtain ⟨N1, h1⟩ := common_bound (xs := if c.type = .array then c.array.getD [] else []) (Q := fun n q => goValue text h n q ≠ none) (by
        intro q hq
        split at hq
        · rename_i ht
          cases hc : c.array with
          | none => simp [hc] at hq
          | some ps => rw [hc] at hq; exact ih q (.item hd ht hc hq)
        · simp at hq)
      obtain ⟨N2, h2⟩ := common_bound (xs := if c.type = .object then mapOf h c.object else []) (Q := fun n e => goValue text h n e.2 ≠ none) (by
        intro e he
        split at he
        · rename_i ht
          exact ih e.2 (.entry (k := e.1) hd ht he)
        · simp at he)
      refine ⟨max N1 N2 + 1, fun n hn => ?_⟩
      obtain ⟨n, rfl⟩ : ∃ k, n = k + 1 := ⟨n - 1, by omega⟩
      have h1 := h1 n (by omega)
      have h2 := h2 n (by omega)
      simp only [goValue, hd]
      cases ht : c.type with
      | array =>
        simp only [ht, if_true] at h1
        have := collectG_ends h1
        simp only
        split <;> simp_all
      | object =>
        simp only [ht, if_true] at h2
        have := goFields_ends h2
        simp only
        split <;> simp_all
      | _ => simp

theorem printAll_ends {α : Type} {f : α → Option Bytes} : ∀ {xs : List α}, (∀ x ∈ xs, f x ≠ none) → printAll f xs ≠ none
  | [], _ => by simp [printAll]
  | [x], hall => hall x (by simp)
  | x :: y :: xs, hall => by
    have h1 := hall x (by simp)
    have h2 := printAll_ends (xs := y :: xs) fun z hz => hall z (List.mem_cons_of_mem _ hz)
    simp only [printAll]
    split
    · exact absurd ‹_› h1
    · split
      · exact absurd ‹_› h2
      · simp

theorem formatPtr_ends (ftoa : BitVec 64 → Bytes) {h : Heap} {p : Ptr} (hp : ¬ Endless h p) : ∃ N, ∀ n, N ≤ n → formatPtr ftoa h n p ≠ none := by
  have ha := ends hp
  clear hp
  induction ha with
  | intro p _ ih =>
    cases hd : deref h p with
    | none =>
      refine ⟨1, fun n hn => ?_⟩
      obtain ⟨n, rfl⟩ : ∃ k, n = k + 1 := ⟨n - 1, by omega⟩
      simp [formatPtr, hd]
    | some c =>
      obtain ⟨N1, h1⟩ := common_bound (xs := if c.type = .array then c.array.getD [] else []) (Q := fun n q => formatPtr ftoa h n q ≠ none) (by
        intro q hq
        split at hq
        · rename_i ht
          cases hc : c.array with
          | none => simp [hc] at hq
          | some ps => rw [hc] at hq; exact ih q (.item hd ht hc hq)
        · simp at hq)
      obtain ⟨N2, h2⟩ := common_bound (xs := if c.type = .object then mapOf h c.object else []) (Q := fun n e => formatPtr ftoa h n e.2 ≠ none) (by
        intro e he
        split at he
        · rename_i ht
          exact ih e.2 (.entry (k := e.1) hd ht he)
        · simp at he)
      refine ⟨max N1 N2 + 1, fun n hn => ?_⟩
      obtain ⟨n, rfl⟩ : ∃ k, n = k + 1 := ⟨n - 1, by omega⟩
      have h1 := h1 n (by omega)
      have h2 := h2 n (by omega)
      simp only [formatPtr, hd, ne_eq, Option.map_eq_none_iff]
      cases ht : c.type with
      | array =>
        simp only [ht, if_true] at h1
        simpa using printAll_ends h1
      | object =>
        simp only [ht, if_true] at h2
        have := printAll_ends (f := fun e : Bytes × Ptr => (formatPtr ftoa h n e.2).map fun t => e.1 ++ 58 :: t) (xs := mapOf h c.object) fun e he => by simpa using h2 e he
        simpa using this
      | _ => simp

theorem child_of_append {h : Heap} {c0 : Cell} {p q : Ptr} (hp : ∀ a, p = some a → a < h.length) (hc : Child (h ++ [.cell c0]) p q) : Child h p q := by
  have hm : ∀ {m : Option Nat} {e : Bytes × Ptr}, e ∈ mapOf (h ++ [.cell c0]) m → e ∈ mapOf h m := by
    intro m e he
    cases m with
    | none => simp [mapOf] at he
    | some a =>
      simp only [mapOf] at he ⊢
      by_cases ha : a < h.length
      · rwa [List.getElem?_append_left ha] at he
      · rw [List.getElem?_append_right (by omega)] at he
        by_cases h0 : a = h.length
        · simp [h0] at he
        · rw [List.getElem?_eq_none (by simp; omega)] at he; simp at he
  have hd : ∀ {c : Cell}, deref (h ++ [.cell c0]) p = some c → deref h p = some c := by
    intro c hd
    cases p with
    | none => simp [deref] at hd
    | some a =>
      simp only [deref] at hd ⊢
      rwa [List.getElem?_append_left (hp a rfl)] at hd
  cases hc with
  | item h1 h2 h3 h4 => exact .item (hd h1) h2 h3 h4
  | entry h1 h2 h3 => exact .entry (hd h1) h2 (hm h3)

theorem NoDangling.map {h : Heap} (hn : NoDangling h) {m : Option Nat} {k : Bytes} {q : Ptr} (hk : (k, q) ∈ mapOf h m) : InMemory h q := by
  cases m with
  | none => simp [mapOf] at hk
  | some a =>
    simp only [mapOf] at hk
    split at hk
    · exact hn.2 a _ ‹_› k q hk
    · simp at hk

theorem NoDangling.child {h : Heap} (hn : NoDangling h) {p q : Ptr} (hc : Child h p q) : InMemory h q := by
  cases hc with
  | @item c ps h1 h2 h3 h4 =>
    cases p with
    | none => simp [deref] at h1
    | some a =>
      simp only [deref] at h1
      split at h1
      · simp only [Option.some.injEq] at h1; subst h1; exact hn.1 a _ ps ‹_› h3 q h4
      · simp at h1
  | entry h1 h2 h3 => exact hn.map h3

theorem endless_of_append {h : Heap} (hn : NoDangling h) {c0 : Cell} {p : Ptr} (hp : InMemory h p) (he : Endless (h ++ [.cell c0]) p) : Endless h p := by
  apply endless_of_closed (S := fun q => InMemory h q ∧ Endless (h ++ [.cell c0]) q) _ ⟨hp, he⟩
  rintro q ⟨hq, he⟩
  obtain ⟨r, hr, he'⟩ := endless_next he
  have := child_of_append hq hr
  exact ⟨r, ⟨hn.child this, he'⟩, this⟩

/-- **C79.** Conversely, on an event that does not contain itself all three come to an end, with a result, an error or a panic, however much of the event is shared. -/
theorem endless_or_ends {h : Heap} {e : Event} (hn : NoDangling h) (he : ¬ EndlessEvent h e) :
    (∃ N, ∀ n, N ≤ n → fromEvent n h e ≠ .fuel) ∧ (∀ env, ∃ N, ∀ n, N ≤ n → marshalEvent env n h e ≠ .fuel) ∧ (∀ text, ∃ N, ∀ n, N ≤ n → mapFromEvent text n h e ≠ none) := by
  have hroot := get_root (h := h) (e := e) (k := lit ".") (by decide)
  by_cases hne : mapOf h e = []
  · have hg := hroot.1 hne
    refine ⟨⟨0, fun n _ => ?_⟩, fun env => ⟨0, fun n _ => ?_⟩, fun text => ⟨0, fun n _ => ?_⟩⟩
    · simp [fromEvent, hg, fromEventValueObject, deref]
    · refine jbind_ends ?_ compact_ends
      cases e with
      | none => simp
      | some m => simp [hne, joinText, JOut.bind]
    · simp [mapFromEvent, hg, deref]
  · obtain ⟨h', a, c, h1, h2, h3, h4, rfl, h6⟩ := hroot.2 hne
    have hf : ∀ x ∈ mapOf h e, ¬ Endless (h ++ [.cell c]) x.2 := by
      intro x hx hx'
      exact he ⟨x.1, x.2, hx, endless_of_append hn (hn.map (k := x.1) hx) hx'⟩
    refine ⟨?_, fun env => ?_, fun text => ?_⟩
    · obtain ⟨N, hN⟩ := common_bound (Q := fun n (x : Bytes × Ptr) => fromEventValue (h ++ [.cell c]) n x.2 ≠ .fuel) fun x hx => fromEventValue_ends (hf x hx)
      refine ⟨N, fun n hn => ?_⟩
      simp only [fromEvent, h1]
      exact ubind_ends (fromEventValueObject_ends h2 (by rw [h6]; exact hN n hn)) (by simp)
    · obtain ⟨N, hN⟩ := common_bound (xs := mapOf h e) (Q := fun n (x : Bytes × Ptr) => marshalPtr env h n x.2 ≠ .fuel) fun x hx => marshalPtr_ends env fun hx' => he ⟨x.1, x.2, hx, hx'⟩
      refine ⟨N, fun n hn => ?_⟩
      simp only [marshalEvent]
      refine jbind_ends ?_ compact_ends
      cases e with
      | none => simp
      | some m => exact jbind_ends (joinText_ends fun x hx => jbind_ends (hN n hn x hx) (by simp)) (by simp)
    · obtain ⟨N, hN⟩ := common_bound (Q := fun n (x : Bytes × Ptr) => goValue text (h ++ [.cell c]) n x.2 ≠ none) fun x hx => goValue_ends text (hf x hx)
      refine ⟨N, fun n hn => ?_⟩
      have := goFields_ends (f := goValue text (h ++ [.cell c]) n) (es := mapOf h e) (hN n hn)
      simp only [mapFromEvent, h1, h2, h3, ne_eq, not_true, if_false, h6]
      cases hr : goFields (goValue text (h ++ [.cell c]) n) (mapOf h e) with
      | none => exact absurd hr this
      | some r => cases r <;> simp

/-! ## No pointer dangles -/

theorem NoDangling.alloc {h : Heap} (hn : NoDangling h) {o : HObj} (ho : (∀ c ps, o = .cell c → c.array = some ps → ∀ q ∈ ps, InMemory h q) ∧ (∀ es, o = .map es → ∀ k q, (k, q) ∈ es → InMemory h q)) :
    NoDangling (h ++ [o]) := by
  have mono : ∀ {q : Ptr}, InMemory h q → InMemory (h ++ [o]) q := by
    intro q hq a ha
    have := hq a ha
    simp; omega
  constructor
  · intro a c ps ha hc q hq
    by_cases hl : a < h.length
    · rw [List.getElem?_append_left hl] at ha
      exact mono (hn.1 a c ps ha hc q hq)
    · rw [List.getElem?_append_right (by omega)] at ha
      by_cases h0 : a - h.length = 0
      · simp only [h0, List.getElem?_cons_zero, Option.some.injEq] at ha
        exact mono (ho.1 c ps ha hc q hq)
      · rw [List.getElem?_eq_none (by simp; omega)] at ha; simp at ha
  · intro a es ha k q hk
    by_cases hl : a < h.length
    · rw [List.getElem?_append_left hl] at ha
      exact mono (hn.2 a es ha k q hk)
    · rw [List.getElem?_append_right (by omega)] at ha
      by_cases h0 : a - h.length = 0
      · simp only [h0, List.getElem?_cons_zero, Option.some.injEq] at ha
        exact mono (ho.2 es ha k q hk)
      · rw [List.getElem?_eq_none (by simp; omega)] at ha; simp at ha

theorem NoDangling.setMap {h : Heap} (hn : NoDangling h) {m : Nat} {es : AMap Ptr} (he : ∀ k q, (k, q) ∈ es → InMemory h q) : NoDangling (h.set m (.map es)) := by
  have mono : ∀ {q : Ptr}, InMemory h q → InMemory (h.set m (.map es)) q := by
    intro q hq a ha
    simpa using hq a ha
  constructor
  · intro a c ps ha hc q hq
    by_cases hl : m = a
    · subst hl
      rw [List.getElem?_set] at ha
      simp at ha
    · rw [List.getElem?_set_ne hl] at ha
      exact mono (hn.1 a c ps ha hc q hq)
  · intro a es' ha k q hk
    by_cases hl : m = a
    · subst hl
      rw [List.getElem?_set] at ha
      simp only [if_true] at ha
      split at ha
      · simp only [Option.some.injEq, HObj.map.injEq] at ha
        subst ha
        exact mono (he k q hk)
      · simp at ha
    · rw [List.getElem?_set_ne hl] at ha
      exact mono (hn.2 a es' ha k q hk)

theorem mem_insert_or {es : AMap Ptr} {k : Bytes} {p : Ptr} {x : Bytes × Ptr} (hx : x ∈ es.insert k p) : x = (k, p) ∨ x ∈ es := by
  induction es with
  | nil => simp [AMap.insert] at hx; exact .inl hx
  | cons e es ih =>
    obtain ⟨k', v'⟩ := e
    simp only [AMap.insert] at hx
    split at hx
    · rcases List.mem_cons.mp hx with h1 | h1
      · exact .inl h1
      · exact .inr (by simp [h1])
    · split at hx
      · rcases List.mem_cons.mp hx with h1 | h1
        · exact .inl h1
        · exact .inr (by simp [h1])
      · rcases List.mem_cons.mp hx with h1 | h1
        · exact .inr (by simp [h1])
        · rcases ih h1 with h2 | h2
          · exact .inl h2
          · exact .inr (by simp [h2])

theorem mem_erase_of {es : AMap Ptr} {k : Bytes} {x : Bytes × Ptr} (hx : x ∈ es.erase k) : x ∈ es := by
  induction es with
  | nil => simp [AMap.erase] at hx
  | cons e es ih =>
    obtain ⟨k', v'⟩ := e
    simp only [AMap.erase] at hx
    split at hx
    · simp [ih hx]
    · rcases List.mem_cons.mp hx with h1 | h1
      · simp [h1]
      · simp [ih h1]

theorem NoDangling.mapWrite {h h' : Heap} (hn : NoDangling h) {m : Option Nat} {k : Bytes} {p : Ptr} (hp : InMemory h p) (hw : mapWrite h m k p = .ok h') : NoDangling h' ∧ h'.length = h.length := by
  cases m with
  | none => simp [Sawmill.mapWrite] at hw
  | some m =>
    simp only [Sawmill.mapWrite] at hw
    split at hw
    · simp only [Res.ok.injEq] at hw
      subst hw
      refine ⟨hn.setMap fun k' q hq => ?_, by simp⟩
      rcases mem_insert_or hq with h1 | h1
      · simp only [Prod.mk.injEq] at h1
        rw [h1.2]; exact hp
      · exact hn.2 m _ ‹_› k' q h1
    · simp at hw

theorem NoDangling.putLoop {p : Ptr} : ∀ (path : List Bytes) {h h' : Heap} {m : Option Nat} {b : Bool}, NoDangling h → InMemory h p → putLoop h m path p = .ok (h', b) → NoDangling h'
  | [], h, h', m, b, hn, hp, hw => by
    simp only [Sawmill.putLoop, Res.ok.injEq, Prod.mk.injEq] at hw
    rw [← hw.1]; exact hn
  | [k], h, h', m, b, hn, hp, hw => by
    simp only [Sawmill.putLoop] at hw
    cases hx : Sawmill.mapWrite h m k p with
    | panic => simp [hx] at hw
    | ok h1 =>
      simp only [hx, Res.map_ok, Res.ok.injEq, Prod.mk.injEq] at hw
      rw [← hw.1]; exact (hn.mapWrite hp hx).1
  | k :: k2 :: ks, h, h', m, b, hn, hp, hw => by
    simp only [Sawmill.putLoop] at hw
    cases hl : (mapOf h m).lookup k with
    | some q =>
      simp only [hl] at hw
      cases hd : deref h q with
      | none => simp [hd] at hw
      | some c =>
        simp only [hd] at hw
        split at hw
        · simp only [Res.ok.injEq, Prod.mk.injEq] at hw
          rw [← hw.1]; exact hn
        · exact NoDangling.putLoop (k2 :: ks) hn hp hw
    | none =>
      simp only [hl, Heap.alloc] at hw
      have h1 : NoDangling (h ++ [HObj.map []]) := hn.alloc ⟨by simp, by intro es he k q hk; simp only [HObj.map.injEq] at he; subst he; simp at hk⟩
      have h2 : NoDangling (h ++ [HObj.map []] ++ [HObj.cell (objCell (some h.length))]) := h1.alloc ⟨by intro c ps hc ha; simp only [HObj.cell.injEq] at hc; subst hc; simp [objCell] at ha, by simp⟩
      split at hw
      · simp at hw
      · rename_i h3 hx
        have i2 := h2.mapWrite (by intro a ha; simp at ha; simp; omega) hx
        refine NoDangling.putLoop (k2 :: ks) i2.1 ?_ hw
        intro a ha
        have := hp a ha
        rw [i2.2]; simp; omega

theorem NoDangling.get {h h' : Heap} (hn : NoDangling h) {e : Event} {path : List Bytes} {p : Ptr} (hg : get h e path = .ok (h', p)) : NoDangling h' ∧ h.length ≤ h'.length ∧ InMemory h' p := by
  have loop : ∀ (path : List Bytes) {m : Option Nat} {p : Ptr}, getLoop h m path = .ok p → InMemory h p := by
    intro path
    induction path with
    | nil => intro m p hg; simp only [getLoop, Res.ok.injEq] at hg; subst hg; intro a ha; simp at ha
    | cons k ks ih =>
      intro m p hg
      cases ks with
      | nil =>
        simp only [getLoop, Res.ok.injEq] at hg
        cases hl : (mapOf h m).lookup k with
        | none => simp only [hl, Option.join_none] at hg; subst hg; intro a ha; simp at ha
        | some q => simp only [hl, Option.join_some] at hg; subst hg; exact hn.map (AMap.mem_of_lookup hl)
      | cons k2 ks =>
        simp only [getLoop] at hg
        cases hl : (mapOf h m).lookup k with
        | none => simp only [hl, Res.ok.injEq] at hg; subst hg; intro a ha; simp at ha
        | some q =>
          simp only [hl] at hg
          cases hd : deref h q with
          | none => simp [hd] at hg
          | some c =>
            simp only [hd] at hg
            split at hg
            · simp only [Res.ok.injEq] at hg; subst hg; intro a ha; simp at ha
            · exact ih hg
  cases path with
  | nil =>
    simp only [Sawmill.get] at hg
    split at hg
    · simp only [Res.ok.injEq, Prod.mk.injEq] at hg
      obtain ⟨rfl, rfl⟩ := hg
      exact ⟨hn, Nat.le_refl _, by intro a ha; simp at ha⟩
    · simp only [Heap.alloc, Res.ok.injEq, Prod.mk.injEq] at hg
      obtain ⟨rfl, rfl⟩ := hg
      refine ⟨hn.alloc ⟨by intro c ps hc ha; simp only [HObj.cell.injEq] at hc; subst hc; simp [objCell] at ha, by simp⟩, by simp, by intro a ha; simp at ha; simp; omega⟩
  | cons k ks =>
    simp only [Sawmill.get] at hg
    split at hg
    · simp only [Res.ok.injEq, Prod.mk.injEq] at hg
      obtain ⟨rfl, rfl⟩ := hg
      exact ⟨hn, Nat.le_refl _, by intro a ha; simp at ha⟩
    · cases hx : getLoop h e (k :: ks) with
      | panic => simp [hx] at hg
      | ok q =>
        simp only [hx, Res.map_ok, Res.ok.injEq, Prod.mk.injEq] at hg
        obtain ⟨rfl, rfl⟩ := hg
        exact ⟨hn, Nat.le_refl _, loop _ hx⟩

/-- C79: no call makes a dangling pointer: what `Get` and `Delete` return and what `Put` and `TryPut` leave behind points into the memory. -/
theorem NoDangling.put {h h' : Heap} (hn : NoDangling h) {e e' : Event} {path : List Bytes} {p old : Ptr} {ow : Bool} {err : Option PutErr} (hp : InMemory h p)
    (hw : put h e path p ow = .ok (h', e', old, err)) : NoDangling h' := by
  simp only [Sawmill.put] at hw
  split at hw
  · simp only [Res.ok.injEq, Prod.mk.injEq] at hw; rw [← hw.1]; exact hn
  · split at hw
    · simp only [Res.ok.injEq, Prod.mk.injEq] at hw; rw [← hw.1]; exact hn
    · have key : ∀ {h1 : Heap} {e1 : Event}, NoDangling h1 → InMemory h1 p → (match Sawmill.get h1 e1 path with
          | .panic => Res.panic
          | .ok (h, old) =>
            if old ≠ none ∧ ow = false then .ok (h, e1, old, some (PutErr.keyExists path))
            else match Sawmill.putLoop h e1 path p with
              | .panic => .panic
              | .ok (h', true) => .ok (h', e1, old, none)
              | .ok (h', false) => .ok (h', e1, none, some (PutErr.notObject path))) = .ok (h', e', old, err) → NoDangling h' := by
        intro h1 e1 hn1 hp1 hw
        cases hg : Sawmill.get h1 e1 path with
        | panic => simp [hg] at hw
        | ok r =>
          obtain ⟨h2, o2⟩ := r
          obtain ⟨i1, i2, -⟩ := hn1.get hg
          simp only [hg] at hw
          split at hw
          · simp only [Res.ok.injEq, Prod.mk.injEq] at hw; rw [← hw.1]; exact i1
          · cases hpl : Sawmill.putLoop h2 e1 path p with
            | panic => simp [hpl] at hw
            | ok r =>
              obtain ⟨h3, b⟩ := r
              have := NoDangling.putLoop path i1 (fun a ha => Nat.lt_of_lt_of_le (hp1 a ha) i2) hpl
              cases b <;> simp only [hpl, Res.ok.injEq, Prod.mk.injEq] at hw <;> (rw [← hw.1]; exact this)
      cases e with
      | none =>
        refine key ?_ ?_ hw
        · exact hn.alloc ⟨by simp, by intro es he k q hk; simp only [HObj.map.injEq] at he; subst he; simp at hk⟩
        · intro a ha; have := hp a ha; simp [Heap.alloc]; omega
      | some m => exact key hn hp hw

theorem NoDangling.delete {h h' : Heap} (hn : NoDangling h) {e : Event} {path : List Bytes} {p : Ptr} (hd : delete h e path = .ok (h', p)) : NoDangling h' := by
  cases path with
  | nil => simp only [Sawmill.delete, Res.ok.injEq, Prod.mk.injEq] at hd; rw [← hd.1]; exact hn
  | cons k ks =>
    simp only [Sawmill.delete] at hd
    split at hd
    · simp only [Res.ok.injEq, Prod.mk.injEq] at hd; rw [← hd.1]; exact hn
    · cases hg : Sawmill.get h e (k :: ks) with
      | panic => simp [hg] at hd
      | ok r =>
        obtain ⟨h1, v⟩ := r
        obtain ⟨i1, -, -⟩ := hn.get hg
        simp only [hg] at hd
        split at hd
        · simp only [Res.ok.injEq, Prod.mk.injEq] at hd
          rw [← hd.1]
          cases e with
          | none => exact i1
          | some m =>
            simp only [mapDelete]
            split
            · exact i1.setMap fun k' q hq => i1.2 m _ ‹_› k' q (mem_erase_of hq)
            · exact i1
        · simp only [Res.ok.injEq, Prod.mk.injEq] at hd; rw [← hd.1]; exact i1

/-! ## Samples -/

/-- `Put("a.b", "x")` and `Put("a.c", Get("a"))`. -/
theorem cycle_sample : ∃ h0 h1 h2, apiPut [.cell (strCell (lit "x"))] newEvent (lit "a.b") (some 0) = .ok (h0, some 1, none, none) ∧
    apiGet h0 (some 1) (lit "a") = .ok (h1, some 3) ∧ apiPut h1 (some 1) (lit "a.c") (some 3) = .ok (h2, some 1, none, none) ∧ EndlessEvent h2 (some 1) ∧ NoDangling h2 ∧
    ProperPrefix (keyToPath (lit "a")) (keyToPath (lit "a.c")) := by
  have p1 : ProperPrefix (keyToPath (lit "a")) (keyToPath (lit "a.c")) := ⟨lit "c", [], by decide⟩
  refine ⟨_, _, _, rfl, rfl, rfl, ?_, ?_, p1⟩
  · have ho : Owns [.cell (strCell (lit "x")), .map [(lit "a", some 3)], .map [(lit "b", some 0)], .cell (objCell (some 2))] (some (1, [(lit "a", .obj 3 2 [(lit "b", .leaf 0 (.str (lit "x")))])])) := by
      refine ⟨rfl, by simp [AMap.Sorted], ?_, by decide⟩
      simp [RepE, Rep, ptrMap, AMap.mapVals, ptr, scalarCell, AMap.Sorted]
    exact put_below_itself ho p1 (a := 3) rfl (.inl rfl)
  · have h0 : NoDangling [.cell (strCell (lit "x"))] := by
      constructor
      · intro a c ps ha hc
        cases a with
        | zero => simp at ha; subst ha; simp [strCell] at hc
        | succ a => simp at ha
      · intro a es ha
        cases a <;> simp at ha
    have h1 := h0.put (e := newEvent) (path := [lit "a", lit "b"]) (p := some 0) (ow := true) (by intro a ha; simp at ha; simp; omega) rfl
    exact h1.put (e := some 1) (path := [lit "a", lit "c"]) (p := some 3) (ow := true) (by intro a ha; simp at ha; subst ha; decide) rfl

end Sawmill
