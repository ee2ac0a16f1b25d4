import Verif.Spec.Slices
import Verif.Lemmas.Mem
/-!
# C85: slices that share memory
-/

namespace Sawmill
namespace Slices

theorem slots_push {m : Memory} {objs : List Obj} {x : List Ptr} {b : Nat} (h : b < m.backs.length) : Memory.slots ⟨objs, m.backs ++ [x]⟩ b = m.slots b := by
  simp only [Memory.slots, List.getElem?_append_left h]

theorem slots_new {m : Memory} {objs : List Obj} {x : List Ptr} : Memory.slots ⟨objs, m.backs ++ [x]⟩ m.backs.length = x := by
  simp [Memory.slots]

theorem slots_set_self {m : Memory} {objs : List Obj} {x : List Ptr} {b : Nat} (h : b < m.backs.length) : Memory.slots ⟨objs, m.backs.set b x⟩ b = x := by
  simp [Memory.slots, h]

theorem slots_set_ne {m : Memory} {objs : List Obj} {x : List Ptr} {b c : Nat} (h : b ≠ c) : Memory.slots ⟨objs, m.backs.set b x⟩ c = m.slots c := by
  simp [Memory.slots, List.getElem?_set_ne h]

theorem seen_get (m : Memory) (a : Nat) : m.seen[a]? = (m.objs[a]?).map m.seenObj := by simp [Memory.seen]

theorem deref_seen (m : Memory) (p : Ptr) : deref m.seen p = m.deref p := by
  cases p with
  | none => rfl
  | some a =>
    simp only [deref, Memory.deref, seen_get]
    cases m.objs[a]? with
    | none => rfl
    | some o => cases o <;> rfl

theorem mapOf_seen (m : Memory) (p : Option Nat) : mapOf m.seen p = m.mapOf p := by
  cases p with
  | none => rfl
  | some a =>
    simp only [mapOf, Memory.mapOf, seen_get]
    cases m.objs[a]? with
    | none => rfl
    | some o => cases o <;> rfl

/-- A change of a map: what is seen, and slices stay. -/
theorem seen_setMap (m : Memory) (a : Nat) (es : AMap Ptr) : Memory.seen { m with objs := m.objs.set a (.map es) } = m.seen.set a (.map es) := by
  simp only [Memory.seen, List.map_set]
  rfl

theorem mapWrite_seen (m : Memory) (p : Option Nat) (k : Bytes) (v : Ptr) : mapWrite m.seen p k v = (m.mapWrite p k v).map Memory.seen := by
  cases p with
  | none => rfl
  | some a =>
    simp only [mapWrite, Memory.mapWrite, seen_get]
    cases m.objs[a]? with
    | none => rfl
    | some o =>
      cases o with
      | cell => rfl
      | map es => simp only [Option.map_some, Memory.seenObj, Res.map, seen_setMap]

theorem mapDelete_seen (m : Memory) (p : Option Nat) (k : Bytes) : mapDelete m.seen p k = (m.mapDelete p k).seen := by
  cases p with
  | none => rfl
  | some a =>
    simp only [mapDelete, Memory.mapDelete, seen_get]
    cases m.objs[a]? with
    | none => rfl
    | some o =>
      cases o with
      | cell => rfl
      | map es => simp only [Option.map_some, Memory.seenObj, seen_setMap]

/-- The slices of a memory are those of another one. -/
theorem good_of_same {m m' : Memory} (hb : m'.backs = m.backs) (hh : ∀ a s, m'.Has a s → m.Has a s) (hok : m.Ok) (hap : m.Apart) : m'.Ok ∧ m'.Apart := by
  have hs : ∀ b, m'.slots b = m.slots b := fun b => by simp only [Memory.slots, hb]
  refine ⟨fun a s h => ?_, fun a b s t hne h1 h2 e => ?_⟩
  · rw [hb, hs]; exact hok a s (hh a s h)
  · simp only [Memory.Full, hs]; exact hap a b s t hne (hh a s h1) (hh b t h2) e

theorem has_setMap {m : Memory} {a : Nat} {es : AMap Ptr} : ∀ b s, Memory.Has { m with objs := m.objs.set a (.map es) } b s → m.Has b s := by
  rintro b s ⟨c, hc⟩
  by_cases e : a = b
  · subst e
    simp only [List.getElem?_set_self'] at hc
    cases h : m.objs[a]? <;> rw [h] at hc <;> cases hc
  · rw [List.getElem?_set_ne e] at hc
    exact ⟨c, hc⟩

theorem good_setMap {m : Memory} {a : Nat} {es : AMap Ptr} (hok : m.Ok) (hap : m.Apart) : Memory.Ok { m with objs := m.objs.set a (.map es) } ∧ Memory.Apart { m with objs := m.objs.set a (.map es) } :=
  good_of_same (m := m) rfl has_setMap hok hap

theorem mapWrite_good {m m' : Memory} {p : Option Nat} {k : Bytes} {v : Ptr} (e : m.mapWrite p k v = .ok m') (hok : m.Ok) (hap : m.Apart) : m'.Ok ∧ m'.Apart ∧ m'.backs = m.backs := by
  unfold Memory.mapWrite at e
  split at e
  · cases e
  · split at e
    · cases e
      exact ⟨(good_setMap hok hap).1, (good_setMap hok hap).2, rfl⟩
    · cases e

theorem mapDelete_good {m : Memory} {p : Option Nat} {k : Bytes} (hok : m.Ok) (hap : m.Apart) : (m.mapDelete p k).Ok ∧ (m.mapDelete p k).Apart ∧ (m.mapDelete p k).backs = m.backs := by
  unfold Memory.mapDelete
  split
  · exact ⟨hok, hap, rfl⟩
  · split
    · exact ⟨(good_setMap hok hap).1, (good_setMap hok hap).2, rfl⟩
    · exact ⟨hok, hap, rfl⟩

/-- Objects look the same if their slices do. -/
theorem seen_congr {m m' : Memory} {o : Obj} (h : ∀ c s, o = .cell c (some s) → m'.items s = m.items s) : m'.seenObj o = m.seenObj o := by
  cases o with
  | map => rfl
  | cell c s =>
    cases s with
    | none => rfl
    | some s => simp only [Memory.seenObj, Option.map_some, h c s rfl]

theorem has_of_mem {m : Memory} {c : Cell} {s : Slice} (h : Obj.cell c (some s) ∈ m.objs) : ∃ a, m.Has a s := by
  obtain ⟨a, ha⟩ := List.getElem?_of_mem h
  exact ⟨a, c, ha⟩

theorem items_push {m : Memory} {objs : List Obj} {x : List Ptr} {s : Slice} (h : s.back < m.backs.length) : Memory.items ⟨objs, m.backs ++ [x]⟩ s = m.items s := by
  simp only [Memory.items, slots_push h]

theorem alloc_seen (m : Memory) (hok : m.Ok) (extra : List Ptr) (o : HObj) : (m.alloc extra o).seen = m.seen ++ [o] := by
  cases o with
  | map es => simp [Memory.alloc, Memory.seen, Memory.seenObj]; intro o _; cases o <;> rfl
  | cell c =>
    obtain ⟨ci, cu, cf, ct, cs, ca, co, cb, cty⟩ := c
    cases ca with
    | none => simp [Memory.alloc, Memory.seen, Memory.seenObj]; intro o _; cases o <;> rfl
    | some ps =>
      simp only [Memory.alloc, Memory.seen, List.map_append, List.map_cons, List.map_nil]
      congr 1
      · refine List.map_congr_left fun o ho => seen_congr fun c s e => ?_
        subst e
        obtain ⟨a, ha⟩ := has_of_mem ho
        exact items_push (hok a s ha).1
      · simp only [Memory.seenObj, Option.map_some, Memory.items, slots_new, List.take_left]

theorem has_push {objs : List Obj} {bs bs' : List (List Ptr)} {o : Obj} {a : Nat} {s : Slice} (h : Memory.Has ⟨objs ++ [o], bs'⟩ a s) :
    (a < objs.length ∧ Memory.Has ⟨objs, bs⟩ a s) ∨ (a = objs.length ∧ ∃ c, o = .cell c (some s)) := by
  obtain ⟨c, hc⟩ := h
  simp only at hc
  rcases Nat.lt_trichotomy a objs.length with hl | hl | hl
  · rw [List.getElem?_append_left hl] at hc
    exact .inl ⟨hl, c, hc⟩
  · subst hl
    simp at hc
    exact .inr ⟨rfl, c, hc⟩
  · rw [List.getElem?_eq_none (by simp; omega)] at hc
    cases hc

theorem alloc_good {m : Memory} (hok : m.Ok) (hap : m.Apart) (extra : List Ptr) (o : HObj) : (m.alloc extra o).Ok ∧ (m.alloc extra o).Apart := by
  have plain : ∀ o : Obj, (∀ c s, o ≠ .cell c (some s)) → Memory.Ok ⟨m.objs ++ [o], m.backs⟩ ∧ Memory.Apart ⟨m.objs ++ [o], m.backs⟩ := by
    intro o ho
    refine good_of_same (m := m) rfl (fun a s h => ?_) hok hap
    rcases has_push (bs := m.backs) h with ⟨_, h⟩ | ⟨_, c, e⟩
    · exact h
    · exact absurd e (ho c s)
  cases o with
  | map es => exact plain _ (by simp)
  | cell c =>
    cases hc : c.array with
    | none => simp only [Memory.alloc, hc]; exact plain _ (by simp)
    | some ps =>
      simp only [Memory.alloc, hc]
      have old : ∀ {a s}, Memory.Has ⟨m.objs, m.backs⟩ a s → s.back < m.backs.length ∧ s.len ≤ (m.slots s.back).length := fun h => hok _ _ h
      refine ⟨fun a s h => ?_, fun a b s t hne h1 h2 e => ?_⟩
      · rcases has_push (bs := m.backs) h with ⟨_, h⟩ | ⟨_, c, e⟩
        · rw [slots_push (old h).1]
          have := old h
          simp only [List.length_append, List.length_singleton]
          omega
        · cases e
          rw [slots_new]
          simp
      · rcases has_push (bs := m.backs) h1 with ⟨_, h1⟩ | ⟨ea, c, e1⟩ <;> rcases has_push (bs := m.backs) h2 with ⟨_, h2⟩ | ⟨eb, c', e2⟩
        · simp only [Memory.Full, slots_push (old h1).1]
          exact hap a b s t hne h1 h2 e
        · cases e2
          have := (old h1).1
          simp only at e
          omega
        · cases e1
          have := (old h2).1
          simp only at e
          omega
        · exact absurd (ea.trans eb.symm) hne

/-! ## Appending -/

theorem has_set {objs : List Obj} {bs bs' : List (List Ptr)} {o : Obj} {a b : Nat} {s : Slice} (h : Memory.Has ⟨objs.set a o, bs'⟩ b s) :
    (a ≠ b ∧ Memory.Has ⟨objs, bs⟩ b s) ∨ (a = b ∧ ∃ c, o = .cell c (some s)) := by
  obtain ⟨c, hc⟩ := h
  by_cases e : a = b
  · subst e
    refine .inr ⟨rfl, c, ?_⟩
    rw [List.getElem?_set_self'] at hc
    cases h : objs[a]? with
    | none => rw [h] at hc; cases hc
    | some x => rw [h] at hc; simpa using hc
  · refine .inl ⟨e, c, ?_⟩
    rw [List.getElem?_set_ne e] at hc
    exact hc

/-- What is seen after one object and the backing arrays have changed. -/
theorem seen_set {m : Memory} {a : Nat} {o : Obj} {bs : List (List Ptr)} {x : HObj} (ha : a < m.objs.length) (hx : Memory.seenObj ⟨m.objs.set a o, bs⟩ o = x)
    (hs : ∀ b s, a ≠ b → m.Has b s → Memory.items ⟨m.objs.set a o, bs⟩ s = m.items s) : Memory.seen ⟨m.objs.set a o, bs⟩ = m.seen.set a x := by
  refine List.ext_getElem? fun i => ?_
  rw [seen_get]
  by_cases e : a = i
  · subst e
    rw [List.getElem?_set_self ha, List.getElem?_set_self (by simpa [Memory.seen] using ha)]
    simp only [Option.map_some, hx]
  · rw [List.getElem?_set_ne e, List.getElem?_set_ne e, seen_get]
    cases h : m.objs[i]? with
    | none => rfl
    | some y =>
      simp only [Option.map_some]
      rw [seen_congr fun c s e2 => hs i s e ⟨c, by rw [h, e2]⟩]

theorem items_in_place {m : Memory} {objs : List Obj} {s : Slice} {ps : List Ptr} (hb : s.back < m.backs.length) (hl : s.len ≤ (m.slots s.back).length) :
    Memory.items ⟨objs, m.backs.set s.back ((m.slots s.back).take s.len ++ ps ++ (m.slots s.back).drop (s.len + ps.length))⟩ ⟨s.back, s.len + ps.length⟩ = m.items s ++ ps := by
  simp only [Memory.items, slots_set_self hb]
  rw [List.take_append_of_le_length (by simp; omega)]
  rw [List.take_of_length_le (by simp; omega)]

theorem append_seen {m : Memory} (hok : m.Ok) (hap : m.Apart) (extra : List Ptr) (a : Nat) {ps : List Ptr} : (m.append extra a ps).map Memory.seen = appendTo m.seen a ps := by
  unfold Memory.append appendTo
  rw [deref_seen]
  unfold Memory.deref
  simp only
  cases ho : m.objs[a]? with
  | none => rfl
  | some o =>
    have ha : a < m.objs.length := (List.getElem?_eq_some_iff.1 ho).1
    cases o with
    | map => rfl
    | cell c s =>
      cases s with
      | none =>
        simp only [Res.map, Option.map_none, Option.getD_none, List.nil_append]
        rw [seen_set ha rfl fun b s _ h => items_push (hok b s h).1]
        simp only [Memory.seenObj, Option.map_some, Memory.items, slots_new, List.take_left]
      | some s =>
        have hs := hok a s ⟨c, ho⟩
        simp only [Option.map_some, Option.getD_some]
        split
        · next hroom =>
          simp only [Res.map]
          rw [seen_set ha rfl fun b t hne h => ?_]
          · simp only [Memory.seenObj, Option.map_some]
            rw [items_in_place hs.1 hs.2]
          · have ht := hok b t h
            simp only [Memory.items]
            by_cases e : s.back = t.back
            · rw [← e, slots_set_self hs.1]
              have f1 := hap a b s t hne ⟨c, ho⟩ h e
              have f2 := hap b a t s (Ne.symm hne) h ⟨c, ho⟩ e.symm
              simp only [Memory.Full] at f1 f2
              have : ps = [] := List.length_eq_zero_iff.1 (by omega)
              subst this
              simp
            · rw [slots_set_ne e]
        · simp only [Res.map]
          rw [seen_set ha rfl fun b t _ h => items_push (hok b t h).1]
          simp only [Memory.seenObj, Option.map_some]
          congr 4
          simp only [Memory.items, slots_new]
          rw [List.take_append_of_le_length (by simp; omega)]
          rw [List.take_of_length_le (by simp; omega)]

theorem append_good {m m' : Memory} (hok : m.Ok) (hap : m.Apart) {extra : List Ptr} {a : Nat} {ps : List Ptr} (e : m.append extra a ps = .ok m') : m'.Ok ∧ m'.Apart := by
  unfold Memory.append at e
  have fresh : ∀ {c : Cell} {n : Nat} {x : List Ptr}, n ≤ x.length → Memory.Ok ⟨m.objs.set a (.cell c (some ⟨m.backs.length, n⟩)), m.backs ++ [x]⟩ ∧ Memory.Apart ⟨m.objs.set a (.cell c (some ⟨m.backs.length, n⟩)), m.backs ++ [x]⟩ := by
    intro c n x hx
    have old : ∀ {a s}, Memory.Has ⟨m.objs, m.backs⟩ a s → s.back < m.backs.length ∧ s.len ≤ (m.slots s.back).length := fun h => hok _ _ h
    refine ⟨fun b s h => ?_, fun b d s t hne h1 h2 e => ?_⟩
    · rcases has_set (bs := m.backs) h with ⟨_, h⟩ | ⟨_, c, e⟩
      · rw [slots_push (old h).1]
        have := old h
        simp only [List.length_append, List.length_singleton]
        omega
      · cases e
        rw [slots_new]
        simp [hx]
    · rcases has_set (bs := m.backs) h1 with ⟨_, h1⟩ | ⟨ea, c, e1⟩ <;> rcases has_set (bs := m.backs) h2 with ⟨_, h2⟩ | ⟨eb, c', e2⟩
      · simp only [Memory.Full, slots_push (old h1).1]
        exact hap b d s t hne h1 h2 e
      · cases e2
        have := (old h1).1
        simp only at e
        omega
      · cases e1
        have := (old h2).1
        simp only at e
        omega
      · exact absurd (ea.symm.trans eb) hne
  split at e
  · cases e
    exact fresh (by simp)
  · next c s ho =>
    have hs := hok a s ⟨c, ho⟩
    split at e
    · next hroom =>
      cases e
      have hlen : ((m.slots s.back).take s.len ++ ps ++ (m.slots s.back).drop (s.len + ps.length)).length = (m.slots s.back).length := by
        simp only [List.length_append, List.length_take, List.length_drop]
        omega
      generalize hx : (m.slots s.back).take s.len ++ ps ++ (m.slots s.back).drop (s.len + ps.length) = x at hlen ⊢
      have slen : ∀ b, (Memory.slots ⟨m.objs.set a (.cell c (some ⟨s.back, s.len + ps.length⟩)), m.backs.set s.back x⟩ b).length = (m.slots b).length := by
        intro b
        by_cases e : s.back = b
        · subst e; rw [slots_set_self hs.1, hlen]
        · rw [slots_set_ne e]
      have lift : ∀ {b t}, a ≠ b → Memory.Has ⟨m.objs, m.backs⟩ b t → m.Has b t := fun _ h => h
      refine ⟨fun b t h => ?_, fun b d t u hne h1 h2 e => ?_⟩
      · rw [slen]
        rcases has_set (bs := m.backs) h with ⟨hne, h⟩ | ⟨_, c, e⟩
        · have := hok b t h
          simpa using this
        · cases e
          simpa using ⟨hs.1, hroom⟩
      · simp only [Memory.Full, slen]
        rcases has_set (bs := m.backs) h1 with ⟨n1, h1⟩ | ⟨ea, c1, e1⟩ <;> rcases has_set (bs := m.backs) h2 with ⟨n2, h2⟩ | ⟨eb, c2, e2⟩
        · exact hap b d t u hne h1 h2 e
        · cases e2
          simp only at e
          exact hap b a t s (Ne.symm n1) h1 ⟨c, ho⟩ e
        · cases e1
          simp only at e ⊢
          have := hap a d s u n2 ⟨c, ho⟩ h2 e
          simp only [Memory.Full] at this
          omega
        · exact absurd (ea.symm.trans eb) hne
    · cases e
      refine fresh ?_
      simp only [Memory.items, List.length_append, List.length_take]
      omega
  · cases e

/-! ## Elements that were seen stay -/

/-- A slice, held anywhere, whose elements no `append` overwrites. -/
def Covered (m : Memory) (s : Slice) : Prop := s.back < m.backs.length ∧ s.len ≤ (m.slots s.back).length ∧ ∀ a t, m.Has a t → t.back = s.back → s.len ≤ t.len

theorem covered_has {m : Memory} (hok : m.Ok) (hap : m.Apart) {a : Nat} {s : Slice} (h : m.Has a s) : Covered m s := by
  refine ⟨(hok a s h).1, (hok a s h).2, fun b t ht e => ?_⟩
  by_cases hab : b = a
  · subst hab
    obtain ⟨c, hc⟩ := h
    obtain ⟨c', hc'⟩ := ht
    rw [hc] at hc'
    cases hc'
    exact Nat.le_refl _
  · have := hap b a t s hab ht h e
    have h2 := (hok a s h).2
    simp only [Memory.Full, e] at this
    omega

/-- Slices that are kept. -/
def Keeps (m m' : Memory) : Prop := ∀ s, Covered m s → Covered m' s ∧ m'.items s = m.items s

theorem keeps_same {m m' : Memory} (hb : m'.backs = m.backs) (hh : ∀ a s, m'.Has a s → m.Has a s) : Keeps m m' := by
  have hs : ∀ b, m'.slots b = m.slots b := fun b => by simp only [Memory.slots, hb]
  intro s hc
  refine ⟨⟨by rw [hb]; exact hc.1, by rw [hs]; exact hc.2.1, fun a t h e => hc.2.2 a t (hh a t h) e⟩, by simp only [Memory.items, hs]⟩

theorem keeps_mapWrite {m m' : Memory} {p : Option Nat} {k : Bytes} {v : Ptr} (e : m.mapWrite p k v = .ok m') : Keeps m m' := by
  unfold Memory.mapWrite at e
  split at e
  · cases e
  · split at e
    · cases e; exact keeps_same rfl has_setMap
    · cases e

theorem keeps_mapDelete {m : Memory} {p : Option Nat} {k : Bytes} : Keeps m (m.mapDelete p k) := by
  unfold Memory.mapDelete
  split
  · exact keeps_same rfl fun _ _ h => h
  · split
    · exact keeps_same rfl has_setMap
    · exact keeps_same rfl fun _ _ h => h

theorem keeps_alloc {m : Memory} {extra : List Ptr} {o : HObj} : Keeps m (m.alloc extra o) := by
  have plain : ∀ o : Obj, (∀ c s, o ≠ .cell c (some s)) → Keeps m ⟨m.objs ++ [o], m.backs⟩ := by
    intro o ho
    refine keeps_same rfl fun a s h => ?_
    rcases has_push (bs := m.backs) h with ⟨_, h⟩ | ⟨_, c, e⟩
    · exact h
    · exact absurd e (ho c s)
  cases o with
  | map es => exact plain _ (by simp)
  | cell c =>
    cases hc : c.array with
    | none => simp only [Memory.alloc, hc]; exact plain _ (by simp)
    | some ps =>
      simp only [Memory.alloc, hc]
      intro s hs
      refine ⟨⟨by simp only [List.length_append]; have := hs.1; omega, by rw [slots_push hs.1]; exact hs.2.1, fun a t h e => ?_⟩, items_push hs.1⟩
      rcases has_push (bs := m.backs) h with ⟨_, h⟩ | ⟨_, c, e1⟩
      · exact hs.2.2 a t h e
      · cases e1
        have := hs.1
        simp only at e
        omega

theorem keeps_append {m m' : Memory} (hok : m.Ok) {extra : List Ptr} {a : Nat} {ps : List Ptr} (e : m.append extra a ps = .ok m') : Keeps m m' := by
  unfold Memory.append at e
  have fresh : ∀ {c : Cell} {n : Nat} {x : List Ptr}, Keeps m ⟨m.objs.set a (.cell c (some ⟨m.backs.length, n⟩)), m.backs ++ [x]⟩ := by
    intro c n x s hs
    refine ⟨⟨by simp only [List.length_append]; have := hs.1; omega, by rw [slots_push hs.1]; exact hs.2.1, fun b t h e => ?_⟩, items_push hs.1⟩
    rcases has_set (bs := m.backs) h with ⟨_, h⟩ | ⟨_, c, e1⟩
    · exact hs.2.2 b t h e
    · cases e1
      have := hs.1
      simp only at e
      omega
  split at e
  · cases e; exact fresh
  · next c s ho =>
    have hs := hok a s ⟨c, ho⟩
    split at e
    · next hroom =>
      cases e
      intro t ht
      have hlen : ((m.slots s.back).take s.len ++ ps ++ (m.slots s.back).drop (s.len + ps.length)).length = (m.slots s.back).length := by
        simp only [List.length_append, List.length_take, List.length_drop]
        omega
      refine ⟨⟨by simpa using ht.1, ?_, fun b u h e => ?_⟩, ?_⟩
      · by_cases e : s.back = t.back
        · rw [← e, slots_set_self hs.1, hlen, e]; exact ht.2.1
        · rw [slots_set_ne e]; exact ht.2.1
      · rcases has_set (bs := m.backs) h with ⟨_, h⟩ | ⟨_, c, e1⟩
        · exact ht.2.2 b u h e
        · cases e1
          simp only at e ⊢
          have := ht.2.2 a s ⟨_, ho⟩ e
          omega
      · simp only [Memory.items]
        by_cases e : s.back = t.back
        · rw [← e, slots_set_self hs.1]
          have := ht.2.2 a s ⟨_, ho⟩ e
          rw [List.append_assoc, List.take_append_of_le_length (by simp; omega), List.take_take, Nat.min_eq_left this]
        · rw [slots_set_ne e]
    · cases e; exact fresh
  · cases e

/-! ## Steps -/

/-- An outcome as it is seen. -/
def Next.seen {α : Type} : Next α → Mem.Next α
  | .finished x => .finished x
  | .crash => .crash
  | .next m inc t => .next m.seen inc t

theorem step_seen {α : Type} {m : Memory} (hok : m.Ok) (hap : m.Apart) (extra : List Ptr) (t : Mem α) : (step extra t m).seen = t.step m.seen := by
  cases t with
  | ret x => rfl
  | readCell p k =>
    simp only [step, Mem.step, deref_seen]
    cases m.deref p <;> rfl
  | readMap p k => simp only [step, Mem.step, mapOf_seen]; rfl
  | writeMap p key v k =>
    simp only [step, Mem.step, mapWrite_seen]
    cases m.mapWrite p key v <;> rfl
  | alloc o k =>
    simp only [step, Mem.step, Next.seen, alloc_seen m hok]
    simp [Memory.seen]
  | append a ps k =>
    simp only [step, Mem.step, ← append_seen hok hap extra a]
    cases m.append extra a ps <;> rfl
  | count => rfl
  | peek p k => simp only [step, Mem.step, deref_seen]; rfl
  | eraseMap p key k => simp only [step, Mem.step, mapDelete_seen]; rfl
  | crash => rfl

theorem step_good {α : Type} {m m' : Memory} (hok : m.Ok) (hap : m.Apart) {extra : List Ptr} {t t' : Mem α} {inc : Option (Bytes × Kind)} (e : step extra t m = .next m' inc t') : m'.Ok ∧ m'.Apart ∧ Keeps m m' := by
  have same : m.Ok ∧ m.Apart ∧ Keeps m m := ⟨hok, hap, fun s h => ⟨h, rfl⟩⟩
  cases t with
  | ret x => cases e
  | readCell p k =>
    simp only [step] at e
    split at e <;> cases e
    exact same
  | readMap p k => cases e; exact same
  | writeMap p key v k =>
    simp only [step] at e
    split at e
    · cases e
    · next h => cases e; exact ⟨(mapWrite_good h hok hap).1, (mapWrite_good h hok hap).2.1, keeps_mapWrite h⟩
  | alloc o k => cases e; exact ⟨(alloc_good hok hap extra o).1, (alloc_good hok hap extra o).2, keeps_alloc⟩
  | append a ps k =>
    simp only [step] at e
    split at e
    · cases e
    · next h => cases e; exact ⟨(append_good hok hap h).1, (append_good hok hap h).2, keeps_append hok h⟩
  | count => cases e; exact same
  | peek p k => cases e; exact same
  | eraseMap p key k => cases e; exact ⟨(mapDelete_good hok hap).1, (mapDelete_good hok hap).2.1, keeps_mapDelete⟩
  | crash => cases e

/-! ## The claims -/

/-- **C85.** Slices are lists: whatever the goroutines do, in whatever order, and however much capacity the runtime gives to slices, a world in which no two values share a backing array with room goes through the states of the world with lists, and keeps this property. -/
theorem slices_are_lists {X : Type} {s s' : World X} {n : Nat} (hs : World.Steps n s s') (hok : s.mem.Ok) (hap : s.mem.Apart) : Shared.Steps n s.seen s'.seen ∧ s'.mem.Ok ∧ s'.mem.Apart := by
  induction hs with
  | refl => exact ⟨.refl, hok, hap⟩
  | step _ hst ih =>
    obtain ⟨h1, h2, h3⟩ := ih hok hap
    cases hst with
    | @mk i t t' m inc extra hg e =>
      have e2 := step_seen h2 h3 extra t
      rw [e] at e2
      exact ⟨.step h1 (.mk hg e2.symm), (step_good h2 h3 e).1, (step_good h2 h3 e).2.1⟩

/-- **C85.** Conversely nothing is lost: every run with lists is a run with slices, for every capacity. -/
theorem lists_are_slices {X : Type} {s : World X} {u : Shared X} {n : Nat} (extra : List Ptr) (hs : Shared.Steps n s.seen u) (hok : s.mem.Ok) (hap : s.mem.Apart) : ∃ s', World.Steps n s s' ∧ s'.seen = u := by
  generalize hv : s.seen = v at hs
  induction hs with
  | refl => exact ⟨s, .refl, hv⟩
  | step _ hst ih =>
    obtain ⟨s', h1, rfl⟩ := ih hv
    obtain ⟨_, h2, h3⟩ := slices_are_lists h1 hok hap
    cases hst with
    | @mk i t t' h inc hg e =>
      have e2 := step_seen h2 h3 extra t
      rw [show t.step s'.mem.seen = _ from e] at e2
      cases e3 : step extra t s'.mem with
      | finished => rw [e3] at e2; cases e2
      | crash => rw [e3] at e2; cases e2
      | next m inc2 t2 =>
        rw [e3] at e2
        cases e2
        exact ⟨_, .step h1 (.mk hg e3), rfl⟩

theorem crashing_seen {X : Type} {s : World X} (hok : s.mem.Ok) (hap : s.mem.Apart) : s.Crashing ↔ s.seen.Crashing := by
  constructor
  · rintro ⟨t, ht, extra, e⟩
    refine ⟨t, ht, ?_⟩
    have := step_seen hok hap extra t
    rw [e] at this
    exact this.symm
  · rintro ⟨t, ht, e⟩
    refine ⟨t, ht, [], ?_⟩
    have := step_seen hok hap [] t
    rw [show t.step s.mem.seen = _ from e] at this
    cases e3 : step [] t s.mem with
    | finished => rw [e3] at this; cases this
    | crash => rfl
    | next => rw [e3] at this; cases this

/-- **C85.** The elements of a slice that a value had once are never overwritten, also not after the value got a longer slice (so it does not matter that Go reads the elements later than the slice). -/
theorem elements_stay {X : Type} {s s' : World X} {n : Nat} (hs : World.Steps n s s') (hok : s.mem.Ok) (hap : s.mem.Apart) {a : Nat} {x : Slice} (hx : s.mem.Has a x) : s'.mem.items x = s.mem.items x := by
  suffices Covered s'.mem x ∧ s'.mem.items x = s.mem.items x from this.2
  induction hs with
  | refl => exact ⟨covered_has hok hap hx, rfl⟩
  | step h hst ih =>
    obtain ⟨h1, h2⟩ := ih hok hap hx
    obtain ⟨_, g1, g2⟩ := slices_are_lists h hok hap
    cases hst with
    | mk hg e =>
      obtain ⟨k1, k2⟩ := (step_good g1 g2 e).2.2 x h1
      exact ⟨k1, k2.trans h2⟩

/-- **C85.** A program that starts without values never has two that share a backing array with room. -/
theorem never_shared {X : Type} {gs : List (Mem X)} {cs : Counters} {s : World X} {n : Nat} (hs : World.Steps n ⟨⟨[], []⟩, cs, gs⟩ s) : s.mem.Ok ∧ s.mem.Apart := by
  refine (slices_are_lists hs ?_ ?_).2
  · rintro a x ⟨c, h⟩; simp at h
  · rintro a b x y _ ⟨c, h⟩; simp at h

/-! ## Exactly when -/

theorem append_room {m : Memory} {a : Nat} {c : Cell} {s : Slice} (h : m.objs[a]? = some (.cell c (some s))) (hr : s.len < (m.slots s.back).length) (x : Ptr) :
    m.append [] a [x] = .ok ⟨m.objs.set a (.cell c (some ⟨s.back, s.len + 1⟩)), m.backs.set s.back ((m.slots s.back).take s.len ++ [x] ++ (m.slots s.back).drop (s.len + 1))⟩ := by
  simp only [Memory.append, h, List.length_singleton]
  rw [if_pos (by omega)]

theorem share_lt {m : Memory} {a b : Nat} {s t : Slice} (hne : a ≠ b) (ha : m.Has a s) (hb : m.Has b t) (e : s.back = t.back) (hk : s.back < m.backs.length) (hl : t.len ≤ (m.slots s.back).length)
    (hlt : s.len < t.len) (hall : ∀ x, (m.append [] a [x]).map Memory.seen = appendTo m.seen a [x]) : False := by
  obtain ⟨c, hc⟩ := ha
  obtain ⟨d, hd⟩ := hb
  obtain ⟨y, hy⟩ : ∃ y, (m.slots s.back)[s.len]? = some y := ⟨_, List.getElem?_eq_getElem (by omega)⟩
  obtain ⟨x, hx⟩ : ∃ x : Ptr, x ≠ y := by
    cases y with
    | none => exact ⟨some 0, by simp⟩
    | some _ => exact ⟨none, by simp⟩
  have h := hall x
  rw [append_room hc (by omega)] at h
  simp only [Res.map, appendTo, deref_seen, Memory.deref, hc] at h
  have h := Res.ok.inj h
  have h2 := congrArg (fun h : Heap => h[b]?) h
  simp only [List.getElem?_set_ne hne] at h2
  rw [seen_get, seen_get, List.getElem?_set_ne hne, hd] at h2
  simp only [Option.map_some, Memory.seenObj, Option.some.injEq, HObj.cell.injEq, Cell.mk.injEq, true_and, and_true] at h2
  simp only [Memory.items, ← e, slots_set_self hk] at h2
  have h3 := congrArg (fun l : List Ptr => l[s.len]?) h2
  simp only [List.getElem?_take, if_pos hlt, hy] at h3
  rw [List.append_assoc, List.getElem?_append_right (by rw [List.length_take]; exact Nat.min_le_left _ _), List.length_take, Nat.min_eq_left (by omega), Nat.sub_self] at h3
  simp only [List.singleton_append, List.getElem?_cons_zero, Option.some.injEq] at h3
  exact hx h3

/-- **C85.** Sharing is harmless exactly if no slice that shares its backing array has room: otherwise one or two calls of `append` (each through its own value) make a value show elements that it would not show if slices were lists. -/
theorem apart_iff {m : Memory} (hok : m.Ok) : m.Apart ↔ ∀ l extra, (m.appends extra l).map Memory.seen = appendAll m.seen l := by
  constructor
  · intro hap l extra
    induction l generalizing m with
    | nil => rfl
    | cons x l ih =>
      obtain ⟨a, ps⟩ := x
      simp only [Memory.appends, appendAll, ← append_seen hok hap extra a]
      cases e : m.append extra a ps with
      | panic => rfl
      | ok m' => exact ih (append_good hok hap e).1 (append_good hok hap e).2
  · intro hall a b s t hne ha hb e
    have hs := hok a s ha
    have ht := hok b t hb
    show s.len = (m.slots s.back).length
    refine Decidable.byContradiction fun hf => ?_
    have hroom : s.len < (m.slots s.back).length := by omega
    have one : ∀ a x, (m.append [] a [x]).map Memory.seen = appendTo m.seen a [x] := fun a x => by
      have := hall [(a, [x])] []
      simp only [Memory.appends, appendAll] at this
      cases h1 : m.append [] a [x] <;> cases h2 : appendTo m.seen a [x] <;> simp only [h1, h2] at this ⊢ <;> exact this
    rcases Nat.lt_trichotomy s.len t.len with hlt | heq | hlt
    · exact share_lt hne ha hb e hs.1 (by rw [e]; exact ht.2) hlt (one a)
    · obtain ⟨c, hc⟩ := ha
      have e1 := append_room hc hroom none
      have hlen : ((m.slots s.back).take s.len ++ [none] ++ (m.slots s.back).drop (s.len + 1)).length = (m.slots s.back).length := by
        simp only [List.length_append, List.length_take, List.length_drop, List.length_singleton]
        omega
      generalize (m.slots s.back).take s.len ++ [none] ++ (m.slots s.back).drop (s.len + 1) = sl at e1 hlen
      have hi : a < m.objs.length := (List.getElem?_eq_some_iff.1 hc).1
      obtain ⟨d, hd⟩ := hb
      refine share_lt (m := ⟨m.objs.set a (.cell c (some ⟨s.back, s.len + 1⟩)), m.backs.set s.back sl⟩) (a := b) (b := a) (s := t) (t := ⟨s.back, s.len + 1⟩) (Ne.symm hne)
        ⟨d, by simp only [List.getElem?_set_ne hne]; exact hd⟩ ⟨c, by simp only [List.getElem?_set_self hi]⟩ e.symm (by simpa using ht.1) ?_ (by simp only; omega) fun x => ?_
      · rw [← e, slots_set_self hs.1, hlen]
        simp only
        omega
      · have h2 := hall [(a, [none]), (b, [x])] []
        have h1 := one a none
        rw [e1] at h1
        simp only [Memory.appends, e1, appendAll, ← h1, Res.map] at h2
        generalize Memory.append _ [] b [x] = r1 at h2 ⊢
        generalize appendTo _ b [x] = r2 at h2 ⊢
        cases r1 <;> cases r2 <;> simp only at h2 ⊢ <;> first | rfl | exact h2 | cases h2
    · exact share_lt (Ne.symm hne) hb ha e.symm ht.1 (by rw [← e]; exact hs.2) hlt (one b)

/-! ## Running alone -/

/-- **C85.** Alone: the program does what it does with lists. -/
theorem alone_seen {α : Type} (extra : List Ptr) (t : Mem α) : ∀ {m : Memory}, m.Ok → m.Apart →
    (solo extra t m).map (fun r => (r.1.seen, r.2)) = (t.solo m.seen).map (fun r => (r.1, r.2.2.2)) ∧ ∀ m' x, solo extra t m = .ok (m', x) → m'.Ok ∧ m'.Apart := by
  have key : ∀ (r : Res (Heap × List (Bytes × Kind) × Nat × α)) (l : List (Bytes × Kind)), (r.map fun q : Heap × List (Bytes × Kind) × Nat × α => (q.1, l ++ q.2.1, q.2.2.1 + 1, q.2.2.2)).map (fun r => (r.1, r.2.2.2)) = r.map fun r => (r.1, r.2.2.2) := by
    intro r l
    cases r <;> rfl
  induction t with
  | ret x => intro m hok hap; exact ⟨rfl, by rintro m' x ⟨⟩; exact ⟨hok, hap⟩⟩
  | readCell p k ih =>
    intro m hok hap
    simp only [solo, Mem.solo, deref_seen]
    cases m.deref p with
    | none => exact ⟨rfl, by simp⟩
    | some c => exact ⟨(ih c hok hap).1.trans (key _ []).symm, (ih c hok hap).2⟩
  | readMap p k ih =>
    intro m hok hap
    simp only [solo, Mem.solo, mapOf_seen]
    exact ⟨(ih _ hok hap).1.trans (key _ []).symm, (ih _ hok hap).2⟩
  | writeMap p key' v k ih =>
    intro m hok hap
    simp only [solo, Mem.solo, mapWrite_seen]
    cases e : m.mapWrite p key' v with
    | panic => exact ⟨rfl, by simp⟩
    | ok m' =>
      have g := mapWrite_good e hok hap
      exact ⟨(ih g.1 g.2.1).1.trans (key _ []).symm, (ih g.1 g.2.1).2⟩
  | alloc o k ih =>
    intro m hok hap
    have g := alloc_good hok hap extra o
    have h := ih m.objs.length g.1 g.2
    rw [alloc_seen m hok] at h
    simp only [solo, Mem.solo, show m.seen.length = m.objs.length by simp [Memory.seen]]
    exact ⟨h.1.trans (key _ []).symm, h.2⟩
  | append a ps k ih =>
    intro m hok hap
    simp only [solo, Mem.solo, ← append_seen hok hap extra a]
    cases e : m.append extra a ps with
    | panic => exact ⟨rfl, by simp⟩
    | ok m' =>
      have g := append_good hok hap e
      exact ⟨(ih g.1 g.2).1.trans (key _ []).symm, (ih g.1 g.2).2⟩
  | count id kind k ih =>
    intro m hok hap
    simp only [solo, Mem.solo]
    exact ⟨(ih hok hap).1.trans (key _ [(id, kind)]).symm, (ih hok hap).2⟩
  | peek p k ih =>
    intro m hok hap
    simp only [solo, Mem.solo, deref_seen]
    exact ⟨(ih _ hok hap).1.trans (key _ []).symm, (ih _ hok hap).2⟩
  | eraseMap p key' k ih =>
    intro m hok hap
    simp only [solo, Mem.solo, mapDelete_seen]
    have g := mapDelete_good (p := p) (k := key') hok hap
    exact ⟨(ih g.1 g.2.1).1.trans (key _ []).symm, (ih g.1 g.2.1).2⟩
  | crash => intro m hok hap; exact ⟨rfl, by simp [solo]⟩

theorem alone_runs {α : Type} {extra : List Ptr} {t : Mem α} {m : Memory} (hok : m.Ok) (hap : m.Apart) {r : Res (Heap × α)} (h : Mem.Runs t m.seen r) : (solo extra t m).map (fun r => (r.1.seen, r.2)) = r := by
  rw [(alone_seen extra t hok hap).1]
  unfold Mem.Runs at h
  cases r with
  | panic => simp only at h; rw [h]; rfl
  | ok q => obtain ⟨n, h⟩ := h; rw [h]; rfl

open Mem in
theorem appendEach_runs {α : Type} {t : Nat} {k : Mem α} {r : Heap → Res (Heap × α)} : ∀ (ps : List Ptr) {h : Heap}, (deref h (some t)).isSome = true → (∀ h', Runs k h' (r h')) →
    Runs (appendEachM t ps k) h (andThen (if ps = [] then .ok h else appendTo h t ps) r)
  | [], h, _, hk => hk h
  | [p], h, _, hk => Runs.append fun h' _ => hk h'
  | p :: q :: ps, h, ht, hk => by
    obtain ⟨c, hc⟩ := Option.isSome_iff_exists.1 ht
    have e1 : appendTo h t [p] = .ok (h.set t (.cell { c with array := some (c.array.getD [] ++ [p]) })) := by simp only [appendTo, hc]
    have hlen : t < h.length := by
      simp only [deref] at hc
      split at hc
      · next h1 => exact (List.getElem?_eq_some_iff.1 h1).1
      · cases hc
    have hd : deref (h.set t (.cell { c with array := some (c.array.getD [] ++ [p]) })) (some t) = some { c with array := some (c.array.getD [] ++ [p]) } := by
      simp only [deref, List.getElem?_set_self hlen]
    have ih := appendEach_runs (q :: ps) (h := h.set t (.cell { c with array := some (c.array.getD [] ++ [p]) })) (by rw [hd]; rfl) hk
    refine (Runs.append (r := fun h' => andThen (if q :: ps = [] then .ok h' else appendTo h' t (q :: ps)) r) fun h' e => ?_).of_eq ?_
    · rw [e1] at e
      cases e
      exact ih
    · rw [e1]
      simp only [andThen, reduceCtorEq, if_false]
      have : appendTo (h.set t (.cell { c with array := some (c.array.getD [] ++ [p]) })) t (q :: ps) = appendTo h t (p :: q :: ps) := by
        simp [appendTo, hd, hc]
      rw [this]

open Mem in
theorem utilAppendM_runs (e : Event) (key : Bytes) (item : Ptr) (h : Heap) : Runs (utilAppendM e key item) h (utilAppend h e key item) := by
  cases item with
  | none => exact .ret _ _
  | some i =>
    have items : ∀ (g : Heap) (t : Nat), (deref g (some t)).isSome = true → Runs (appendItemsM e key i t) g
        (match deref g (some i) with
        | some c => andThen (if (if c.type = .array then c.array.getD [] else [some i]) = [] then .ok g else appendTo g t (if c.type = .array then c.array.getD [] else [some i])) fun h => (apiPut h e key (some t)).map fun (h, e, _, err) => (h, e, err)
        | none => .panic) := by
      intro g t ht
      cases hd : deref g (some i) with
      | none => exact .readCell_none hd
      | some c =>
        refine .readCell hd (appendEach_runs _ ht fun h' => ?_)
        refine (Runs.bind (putM_runs (keyToPath key) e (some t) true h') (r' := fun g r => .ok (g, r.1, r.2.2)) fun g r _ => .ret _ _).of_eq ?_
        simp only [apiPut]
        cases put h' e (keyToPath key) (some t) true <;> rfl
    simp only [utilAppendM, utilAppend, apiGet]
    refine (Runs.bind (getM_runs (keyToPath key) e h) (r' := fun g old => match old with
      | none => (match deref (g ++ [.cell (arrCell none)]) (some i) with
        | some c => andThen (if (if c.type = .array then c.array.getD [] else [some i]) = [] then .ok (g ++ [.cell (arrCell none)]) else appendTo (g ++ [.cell (arrCell none)]) g.length (if c.type = .array then c.array.getD [] else [some i])) fun h => (apiPut h e key (some g.length)).map fun (h, e, _, err) => (h, e, err)
        | none => .panic)
      | some a => match deref g (some a) with
        | none => .panic
        | some c0 => if c0.type ≠ .array then
            (match deref (g ++ [.cell (arrCell (some [some a]))]) (some i) with
            | some c => andThen (if (if c.type = .array then c.array.getD [] else [some i]) = [] then .ok (g ++ [.cell (arrCell (some [some a]))]) else appendTo (g ++ [.cell (arrCell (some [some a]))]) g.length (if c.type = .array then c.array.getD [] else [some i])) fun h => (apiPut h e key (some g.length)).map fun (h, e, _, err) => (h, e, err)
            | none => .panic)
          else
            (match deref g (some i) with
            | some c => andThen (if (if c.type = .array then c.array.getD [] else [some i]) = [] then .ok g else appendTo g a (if c.type = .array then c.array.getD [] else [some i])) fun h => (apiPut h e key (some a)).map fun (h, e, _, err) => (h, e, err)
            | none => .panic)) ?_).of_eq ?_
    · intro g old _
      cases old with
      | none => exact .alloc (items _ _ (by simp [deref]))
      | some a =>
        simp only
        cases hd : deref g (some a) with
        | none => exact .readCell_none hd
        | some c0 =>
          refine .readCell hd ?_
          simp only
          split
          · exact .alloc (items _ _ (by simp [deref]))
          · exact items _ _ (by rw [hd]; rfl)
    · cases get h e (keyToPath key) with
      | panic => rfl
      | ok q =>
        obtain ⟨g, old⟩ := q
        simp only [andThen, Heap.alloc]
        cases old with
        | none =>
          simp only
          cases deref (g ++ [.cell (arrCell none)]) (some i) with
          | none => rfl
          | some c =>
            simp only
            generalize (if c.type = .array then c.array.getD [] else [some i]) = its
            split <;> split <;> simp_all
        | some a =>
          simp only
          cases hd : deref g (some a) with
          | none => rfl
          | some c0 =>
            simp only
            split
            · cases deref (g ++ [.cell (arrCell (some [some a]))]) (some i) with
              | none => rfl
              | some c =>
                simp only
                generalize (if c.type = .array then c.array.getD [] else [some i]) = its
                split <;> split <;> simp_all
            · cases deref g (some i) with
              | none => rfl
              | some c =>
                simp only
                generalize (if c.type = .array then c.array.getD [] else [some i]) = its
                split <;> split <;> simp_all

/-- **C85.** `eventutil.Append`, element by element into slices, is appending to lists, also when the item is the value that it is appended to. -/
theorem util_append_slices {m : Memory} (hok : m.Ok) (hap : m.Apart) (extra : List Ptr) (e : Event) (key : Bytes) (item : Ptr) :
    (solo extra (utilAppendM e key item) m).map (fun r => (r.1.seen, r.2)) = utilAppend m.seen e key item := alone_runs hok hap (utilAppendM_runs e key item m.seen)

/-! ## Samples -/

/-- Two arrays (0 and 1) made from one slice with room (`event.Array(s...)` twice, or a copied `Value`), in one event (3). -/
def sharedMemory : Memory := ⟨[.cell (arrCell none) (some ⟨0, 1⟩), .cell (arrCell none) (some ⟨0, 1⟩), .cell (strCell (lit "v")) none, .map [(lit "a", some 0), (lit "b", some 1)]], [[some 2, none]]⟩

/-- `append` of `x` to `a` and of `y` to `b`. -/
def bothAppends : Mem (Event × Option Err) := (appendM (lit "a") (lit "x") (some 3)).bind fun _ => appendM (lit "b") (lit "y") (some 3)

theorem shared_not_apart : sharedMemory.Ok ∧ ¬ sharedMemory.Apart := by
  constructor
  · rintro a s ⟨c, h⟩
    match a with
    | 0 => cases h; decide
    | 1 => cases h; decide
    | 2 => cases h
    | 3 => cases h
    | a + 4 => simp [sharedMemory] at h
  · intro h
    have := h 0 1 ⟨0, 1⟩ ⟨0, 1⟩ (by decide) ⟨_, rfl⟩ ⟨_, rfl⟩ rfl
    revert this
    unfold Memory.Full
    decide

def textAt (h : Heap) (p : Ptr) : Option Bytes := (deref h p).map Cell.string
/-- The texts in the array at address `a`. -/
def textsAt (h : Heap) (a : Nat) : Option (List (Option Bytes)) := (deref h (some a)).bind fun c => c.array.map fun ps => ps.map (textAt h)

/-- `a` shows `y`, which was appended to `b`; with lists it shows `x`. -/
theorem shared_shows :
    ((solo [] bothAppends sharedMemory).map fun r => (textsAt r.1.seen 0, textsAt r.1.seen 1)) = .ok (some [some (lit "v"), some (lit "y")], some [some (lit "v"), some (lit "y")]) ∧
    ((bothAppends.solo sharedMemory.seen).map fun r => (textsAt r.1 0, textsAt r.1 1)) = .ok (some [some (lit "v"), some (lit "x")], some [some (lit "v"), some (lit "y")]) := by
  constructor <;> decide +kernel

/-- Two arrays with slices of their own, one with room: the hypotheses of the theorems are met. -/
def apartMemory : Memory := ⟨[.cell (arrCell none) (some ⟨0, 1⟩), .cell (arrCell none) (some ⟨1, 1⟩), .cell (strCell (lit "v")) none, .map [(lit "a", some 0), (lit "b", some 1)]], [[some 2, none], [some 2]]⟩

theorem apart_sample : apartMemory.Ok ∧ apartMemory.Apart ∧ ((solo [] bothAppends apartMemory).map fun r => (textsAt r.1.seen 0, textsAt r.1.seen 1)) = .ok (some [some (lit "v"), some (lit "x")], some [some (lit "v"), some (lit "y")]) := by
  have has : ∀ a s, apartMemory.Has a s → (a = 0 ∧ s = ⟨0, 1⟩) ∨ (a = 1 ∧ s = ⟨1, 1⟩) := by
    rintro a s ⟨c, h⟩
    match a with
    | 0 => cases h; exact .inl ⟨rfl, rfl⟩
    | 1 => cases h; exact .inr ⟨rfl, rfl⟩
    | 2 => cases h
    | 3 => cases h
    | a + 4 => simp [apartMemory] at h
  refine ⟨fun a s h => ?_, fun a b s t hne h1 h2 e => ?_, by decide +kernel⟩
  · rcases has a s h with ⟨_, rfl⟩ | ⟨_, rfl⟩ <;> decide
  · rcases has a s h1 with ⟨rfl, rfl⟩ | ⟨rfl, rfl⟩ <;> rcases has b t h2 with ⟨rfl, rfl⟩ | ⟨rfl, rfl⟩ <;> first | exact absurd rfl hne | exact absurd e (by decide)

end Slices
end Sawmill
