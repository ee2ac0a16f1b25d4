import Verif.Model.Processors
import Verif.Spec.Reads
import Verif.Base.AMap
/-!
# Heaps that look the same from outside

`Sim R h1 h2`: the addresses related by the one-to-one relation `R` hold the same objects, up to `R`.  Every operation of the model takes related states to related states.
-/

namespace Sawmill

def PtrSim (R : Nat → Nat → Prop) : Ptr → Ptr → Prop
  | none, none => True
  | some a, some b => R a b
  | _, _ => False

def PtrsSim (R : Nat → Nat → Prop) : List Ptr → List Ptr → Prop
  | [], [] => True
  | p :: ps, q :: qs => PtrSim R p q ∧ PtrsSim R ps qs
  | _, _ => False

def MapSim (R : Nat → Nat → Prop) : AMap Ptr → AMap Ptr → Prop
  | [], [] => True
  | (k, p) :: ps, (k', q) :: qs => k = k' ∧ PtrSim R p q ∧ MapSim R ps qs
  | _, _ => False

def SliceSim (R : Nat → Nat → Prop) : Option (List Ptr) → Option (List Ptr) → Prop
  | none, none => True
  | some ps, some qs => PtrsSim R ps qs
  | _, _ => False

structure CellSim (R : Nat → Nat → Prop) (c d : Cell) : Prop where
  integer : c.integer = d.integer
  unsigned : c.unsigned = d.unsigned
  float : c.float = d.float
  timestamp : c.timestamp = d.timestamp
  string : c.string = d.string
  array : SliceSim R c.array d.array
  object : PtrSim R c.object d.object
  bool : c.bool = d.bool
  type : c.type = d.type

def ObjSim (R : Nat → Nat → Prop) : HObj → HObj → Prop
  | .cell c, .cell d => CellSim R c d
  | .map es, .map fs => MapSim R es fs
  | _, _ => False

structure Sim (R : Nat → Nat → Prop) (h1 h2 : Heap) : Prop where
  fwd : ∀ {a b b'}, R a b → R a b' → b = b'
  bwd : ∀ {a a' b}, R a b → R a' b → a = a'
  obj : ∀ {a b}, R a b → ∃ o1 o2, h1[a]? = some o1 ∧ h2[b]? = some o2 ∧ ObjSim R o1 o2

def Ext (R R' : Nat → Nat → Prop) : Prop := ∀ a b, R a b → R' a b

theorem Ext.refl (R : Nat → Nat → Prop) : Ext R R := fun _ _ h => h
theorem Ext.trans {R R' R'' : Nat → Nat → Prop} (h : Ext R R') (h' : Ext R' R'') : Ext R R'' := fun a b r => h' a b (h a b r)

section mono
variable {R R' : Nat → Nat → Prop} (hx : Ext R R')
include hx

theorem ptrSim_mono {p q : Ptr} (h : PtrSim R p q) : PtrSim R' p q := by
  cases p <;> cases q <;> simp [PtrSim] at h ⊢
  exact hx _ _ h

theorem ptrsSim_mono {ps qs : List Ptr} (h : PtrsSim R ps qs) : PtrsSim R' ps qs := by
  induction ps generalizing qs with
  | nil => cases qs <;> simp [PtrsSim] at h ⊢
  | cons p ps ih => cases qs with
    | nil => simp [PtrsSim] at h
    | cons q qs => simp only [PtrsSim] at h ⊢; exact ⟨ptrSim_mono hx h.1, ih h.2⟩

theorem mapSim_mono {ps qs : AMap Ptr} (h : MapSim R ps qs) : MapSim R' ps qs := by
  induction ps generalizing qs with
  | nil => cases qs <;> simp [MapSim] at h ⊢
  | cons p ps ih => cases qs with
    | nil => simp [MapSim] at h
    | cons q qs => simp only [MapSim] at h ⊢; exact ⟨h.1, ptrSim_mono hx h.2.1, ih h.2.2⟩

theorem sliceSim_mono {ps qs : Option (List Ptr)} (h : SliceSim R ps qs) : SliceSim R' ps qs := by
  cases ps <;> cases qs <;> simp [SliceSim] at h ⊢
  exact ptrsSim_mono hx h

theorem cellSim_mono {c d : Cell} (h : CellSim R c d) : CellSim R' c d :=
  ⟨h.integer, h.unsigned, h.float, h.timestamp, h.string, sliceSim_mono hx h.array, ptrSim_mono hx h.object, h.bool, h.type⟩

theorem objSim_mono {o o' : HObj} (h : ObjSim R o o') : ObjSim R' o o' := by
  cases o <;> cases o' <;> simp only [ObjSim] at h ⊢
  · exact cellSim_mono hx h
  · exact mapSim_mono hx h
end mono

/-! ## Elementary operations -/

theorem lookup_sim {R : Nat → Nat → Prop} {ps qs : AMap Ptr} (h : MapSim R ps qs) (k : Bytes) :
    (ps.lookup k = none ∧ qs.lookup k = none) ∨ ∃ p q, ps.lookup k = some p ∧ qs.lookup k = some q ∧ PtrSim R p q := by
  induction ps generalizing qs with
  | nil => cases qs with
    | nil => exact .inl ⟨rfl, rfl⟩
    | cons q qs => simp [MapSim] at h
  | cons p ps ih => cases qs with
    | nil => simp [MapSim] at h
    | cons q qs =>
      obtain ⟨k1, p⟩ := p
      obtain ⟨k2, q⟩ := q
      simp only [MapSim] at h
      obtain ⟨rfl, h1, h2⟩ := h
      simp only [AMap.lookup]
      split
      · exact .inr ⟨p, q, rfl, rfl, h1⟩
      · exact ih h2

theorem insert_sim {R : Nat → Nat → Prop} {ps qs : AMap Ptr} (h : MapSim R ps qs) (k : Bytes) {p q : Ptr} (hp : PtrSim R p q) : MapSim R (ps.insert k p) (qs.insert k q) := by
  induction ps generalizing qs with
  | nil => cases qs with
    | nil => simp [AMap.insert, MapSim, hp]
    | cons q qs => simp [MapSim] at h
  | cons p0 ps ih => cases qs with
    | nil => simp [MapSim] at h
    | cons q0 qs =>
      obtain ⟨k1, p0⟩ := p0
      obtain ⟨k2, q0⟩ := q0
      simp only [MapSim] at h
      obtain ⟨rfl, h1, h2⟩ := h
      simp only [AMap.insert]
      split
      · simp [MapSim, hp, h2]
      · split
        · simp [MapSim, hp, h1, h2]
        · simp only [MapSim]; exact ⟨trivial, h1, ih h2⟩

theorem mapSim_length {R : Nat → Nat → Prop} {ps qs : AMap Ptr} (h : MapSim R ps qs) : ps.length = qs.length := by
  induction ps generalizing qs with
  | nil => cases qs <;> simp [MapSim] at h ⊢
  | cons p ps ih => cases qs with
    | nil => simp [MapSim] at h
    | cons q qs => simp only [MapSim] at h; simp [ih h.2.2]

theorem ptrsSim_append {R : Nat → Nat → Prop} {ps qs ps' qs' : List Ptr} (h : PtrsSim R ps qs) (h' : PtrsSim R ps' qs') : PtrsSim R (ps ++ ps') (qs ++ qs') := by
  induction ps generalizing qs with
  | nil => cases qs with
    | nil => simpa using h'
    | cons q qs => simp [PtrsSim] at h
  | cons p ps ih => cases qs with
    | nil => simp [PtrsSim] at h
    | cons q qs => simp only [PtrsSim] at h; simp only [List.cons_append, PtrsSim]; exact ⟨h.1, ih h.2⟩

theorem slice_getD_sim {R : Nat → Nat → Prop} {ps qs : Option (List Ptr)} (h : SliceSim R ps qs) : PtrsSim R (ps.getD []) (qs.getD []) := by
  cases ps <;> cases qs <;> simp [SliceSim] at h ⊢
  · simp [PtrsSim]
  · exact h

theorem deref_sim {R : Nat → Nat → Prop} {h1 h2 : Heap} (s : Sim R h1 h2) {p q : Ptr} (hp : PtrSim R p q) :
    (deref h1 p = none ∧ deref h2 q = none) ∨ ∃ c d, deref h1 p = some c ∧ deref h2 q = some d ∧ CellSim R c d := by
  cases p with
  | none => cases q with
    | none => exact .inl ⟨rfl, rfl⟩
    | some b => simp [PtrSim] at hp
  | some a => cases q with
    | none => simp [PtrSim] at hp
    | some b =>
      simp only [PtrSim] at hp
      obtain ⟨o1, o2, e1, e2, e3⟩ := s.obj hp
      cases o1 <;> cases o2 <;> simp only [ObjSim] at e3
      · exact .inr ⟨_, _, by simp [deref, e1], by simp [deref, e2], e3⟩
      · exact .inl ⟨by simp [deref, e1], by simp [deref, e2]⟩

theorem mapOf_sim {R : Nat → Nat → Prop} {h1 h2 : Heap} (s : Sim R h1 h2) {p q : Option Nat} (hp : PtrSim R p q) : MapSim R (mapOf h1 p) (mapOf h2 q) := by
  cases p with
  | none => cases q with
    | none => simp [mapOf, MapSim]
    | some b => simp [PtrSim] at hp
  | some a => cases q with
    | none => simp [PtrSim] at hp
    | some b =>
      simp only [PtrSim] at hp
      obtain ⟨o1, o2, e1, e2, e3⟩ := s.obj hp
      cases o1 <;> cases o2 <;> simp only [ObjSim] at e3
      · simp [mapOf, e1, e2, MapSim]
      · simpa [mapOf, e1, e2] using e3

/-- The relation with one more pair: the next addresses. -/
def Ext1 (R : Nat → Nat → Prop) (n1 n2 : Nat) : Nat → Nat → Prop := fun a b => R a b ∨ (a = n1 ∧ b = n2)

theorem ext1 (R : Nat → Nat → Prop) (n1 n2 : Nat) : Ext R (Ext1 R n1 n2) := fun _ _ h => .inl h

theorem lt_of_some {α : Type} {l : List α} {i : Nat} {x : α} (h : l[i]? = some x) : i < l.length := by
  rcases Nat.lt_or_ge i l.length with hl | hl
  · exact hl
  · simp [List.getElem?_eq_none hl] at h

theorem sim_alloc {R : Nat → Nat → Prop} {h1 h2 : Heap} (s : Sim R h1 h2) {o1 o2 : HObj} (ho : ObjSim (Ext1 R h1.length h2.length) o1 o2) :
    Sim (Ext1 R h1.length h2.length) (h1 ++ [o1]) (h2 ++ [o2]) := by
  have lt1 : ∀ {a b}, R a b → a < h1.length := fun r => by obtain ⟨_, _, e, _⟩ := s.obj r; exact lt_of_some e
  have lt2 : ∀ {a b}, R a b → b < h2.length := fun r => by obtain ⟨_, _, _, e, _⟩ := s.obj r; exact lt_of_some e
  refine ⟨?_, ?_, ?_⟩
  · rintro a b b' (h | ⟨i, j⟩) (h' | ⟨i', j'⟩)
    · exact s.fwd h h'
    · exact absurd (lt1 h) (by omega)
    · exact absurd (lt1 h') (by omega)
    · omega
  · rintro a a' b (h | ⟨i, j⟩) (h' | ⟨i', j'⟩)
    · exact s.bwd h h'
    · exact absurd (lt2 h) (by omega)
    · exact absurd (lt2 h') (by omega)
    · omega
  · rintro a b (h | ⟨rfl, rfl⟩)
    · obtain ⟨x, y, e1, e2, e3⟩ := s.obj h
      exact ⟨x, y, by rw [List.getElem?_append_left (lt1 h), e1], by rw [List.getElem?_append_left (lt2 h), e2], objSim_mono (ext1 _ _ _) e3⟩
    · exact ⟨o1, o2, by simp, by simp, ho⟩

theorem sim_set {R : Nat → Nat → Prop} {h1 h2 : Heap} (s : Sim R h1 h2) {a b : Nat} (hab : R a b) {o1 o2 : HObj} (ho : ObjSim R o1 o2) :
    Sim R (h1.set a o1) (h2.set b o2) := by
  refine ⟨s.fwd, s.bwd, ?_⟩
  intro a' b' hr
  obtain ⟨x, y, e1, e2, e3⟩ := s.obj hr
  by_cases ha : a = a'
  · subst ha
    have := s.fwd hab hr
    subst this
    exact ⟨o1, o2, List.getElem?_set_self (lt_of_some e1), List.getElem?_set_self (lt_of_some e2), ho⟩
  · have hb : b ≠ b' := fun hb => ha (s.bwd hab (hb ▸ hr))
    exact ⟨x, y, by rw [List.getElem?_set_ne ha, e1], by rw [List.getElem?_set_ne hb, e2], e3⟩

/-! ## The API -/

/-- Both panic, or both return related results. -/
def ResSim {α β : Type} (post : α → β → Prop) : Res α → Res β → Prop
  | .panic, .panic => True
  | .ok a, .ok b => post a b
  | _, _ => False

theorem ResSim.cases {α β : Type} {post : α → β → Prop} {x : Res α} {y : Res β} (h : ResSim post x y) :
    (x = .panic ∧ y = .panic) ∨ ∃ a b, x = .ok a ∧ y = .ok b ∧ post a b := by
  cases x <;> cases y <;> simp only [ResSim] at h
  · exact .inr ⟨_, _, rfl, rfl, h⟩
  · exact .inl ⟨rfl, rfl⟩

theorem getLoop_sim {R : Nat → Nat → Prop} {h1 h2 : Heap} (s : Sim R h1 h2) (path : List Bytes) {m1 m2 : Option Nat} (hm : PtrSim R m1 m2) :
    ResSim (PtrSim R) (getLoop h1 m1 path) (getLoop h2 m2 path) := by
  induction path generalizing m1 m2 with
  | nil => simp [getLoop, ResSim, PtrSim]
  | cons k ks ih =>
    have hl := lookup_sim (mapOf_sim s hm) k
    cases ks with
    | nil =>
      simp only [getLoop, ResSim]
      rcases hl with ⟨e1, e2⟩ | ⟨p, q, e1, e2, e3⟩
      · simp [e1, e2, PtrSim]
      · simpa [e1, e2] using e3
    | cons k2 ks =>
      simp only [getLoop]
      rcases hl with ⟨e1, e2⟩ | ⟨p, q, e1, e2, e3⟩
      · simp [e1, e2, PtrSim, ResSim]
      · rcases deref_sim s e3 with ⟨d1, d2⟩ | ⟨c, d, d1, d2, d3⟩
        · simp [e1, e2, d1, d2, ResSim]
        · simp only [e1, e2, d1, d2, mapSim_length (mapOf_sim s d3.object)]
          split
          · simp [ResSim, PtrSim]
          · exact ih d3.object

/-- Related heaps, with a possibly larger relation. -/
def HeapSim (R : Nat → Nat → Prop) (h1 h2 : Heap) (post : (Nat → Nat → Prop) → Prop) : Prop := ∃ R', Ext R R' ∧ Sim R' h1 h2 ∧ post R'

theorem cellSim_obj {R : Nat → Nat → Prop} {a b : Option Nat} (h : PtrSim R a b) : CellSim R (objCell a) (objCell b) :=
  ⟨rfl, rfl, rfl, rfl, rfl, by simp [objCell, SliceSim], h, rfl, rfl⟩

theorem cellSim_arr {R : Nat → Nat → Prop} {a b : Option (List Ptr)} (h : SliceSim R a b) : CellSim R (arrCell a) (arrCell b) :=
  ⟨rfl, rfl, rfl, rfl, rfl, h, by simp [arrCell, PtrSim], rfl, rfl⟩

theorem cellSim_self {R : Nat → Nat → Prop} {c : Cell} (ha : c.array = none) (ho : c.object = none) : CellSim R c c :=
  ⟨rfl, rfl, rfl, rfl, rfl, by simp [ha, SliceSim], by simp [ho, PtrSim], rfl, rfl⟩

theorem get_sim {R : Nat → Nat → Prop} {h1 h2 : Heap} (s : Sim R h1 h2) (path : List Bytes) {e1 e2 : Event} (he : PtrSim R e1 e2) :
    ResSim (fun x y => HeapSim R x.1 y.1 fun R' => PtrSim R' x.2 y.2) (get h1 e1 path) (get h2 e2 path) := by
  simp only [get, mapSim_length (mapOf_sim s he)]
  split
  · exact ⟨R, Ext.refl R, s, trivial⟩
  · cases path with
    | nil =>
      simp only [Heap.alloc]
      refine ⟨_, ext1 R h1.length h2.length, sim_alloc s (cellSim_obj (ptrSim_mono (ext1 _ _ _) he)), .inr ⟨rfl, rfl⟩⟩
    | cons k ks =>
      rcases (getLoop_sim s (k :: ks) he).cases with ⟨x, y⟩ | ⟨p, q, x, y, this⟩
      · simp only [x, y]; trivial
      · simp only [x, y]; exact ⟨R, Ext.refl R, s, this⟩

theorem mapWrite_sim {R : Nat → Nat → Prop} {h1 h2 : Heap} (s : Sim R h1 h2) {m1 m2 : Option Nat} (hm : PtrSim R m1 m2) (k : Bytes) {p q : Ptr} (hp : PtrSim R p q) :
    ResSim (fun x y => Sim R x y) (mapWrite h1 m1 k p) (mapWrite h2 m2 k q) := by
  cases m1 with
  | none => cases m2 with
    | none => simp [mapWrite, ResSim]
    | some b => simp [PtrSim] at hm
  | some a => cases m2 with
    | none => simp [PtrSim] at hm
    | some b =>
      simp only [PtrSim] at hm
      obtain ⟨o1, o2, e1, e2, e3⟩ := s.obj hm
      cases o1 <;> cases o2 <;> simp only [ObjSim] at e3
      · simp [mapWrite, e1, e2, ResSim]
      · simp only [mapWrite, e1, e2, ResSim]
        exact sim_set s hm (insert_sim e3 k hp)

theorem putLoop_sim {R : Nat → Nat → Prop} {h1 h2 : Heap} (s : Sim R h1 h2) (path : List Bytes) {m1 m2 : Option Nat} (hm : PtrSim R m1 m2) {p q : Ptr} (hp : PtrSim R p q) :
    ResSim (fun x y => x.2 = y.2 ∧ HeapSim R x.1 y.1 fun _ => True) (putLoop h1 m1 path p) (putLoop h2 m2 path q) := by
  induction path generalizing R h1 h2 m1 m2 with
  | nil => exact ⟨rfl, R, Ext.refl R, s, trivial⟩
  | cons k ks ih =>
    cases ks with
    | nil =>
      simp only [putLoop]
      rcases (mapWrite_sim s hm k hp).cases with ⟨x, y⟩ | ⟨g1, g2, x, y, this⟩
      · simp only [x, y]; trivial
      · simp only [x, y]; exact ⟨rfl, R, Ext.refl R, this, trivial⟩
    | cons k2 ks =>
      simp only [putLoop]
      rcases lookup_sim (mapOf_sim s hm) k with ⟨e1, e2⟩ | ⟨p', q', e1, e2, e3⟩
      · simp only [e1, e2, Heap.alloc]
        have s1 := sim_alloc (o1 := .map []) (o2 := .map []) s (by simp [ObjSim, MapSim])
        have s2 := sim_alloc (o1 := .cell (objCell (some h1.length))) (o2 := .cell (objCell (some h2.length))) s1
          (cellSim_obj (.inl (.inr ⟨rfl, rfl⟩)))
        have x1 : Ext R (Ext1 (Ext1 R h1.length h2.length) (h1 ++ [HObj.map []]).length (h2 ++ [HObj.map []]).length) := (ext1 _ _ _).trans (ext1 _ _ _)
        rcases (mapWrite_sim s2 (ptrSim_mono x1 hm) k (p := some (h1 ++ [HObj.map []]).length) (q := some (h2 ++ [HObj.map []]).length) (.inr ⟨rfl, rfl⟩)).cases with ⟨x, y⟩ | ⟨g1, g2, x, y, this⟩
        · simp only [x, y]; trivial
        · simp only [x, y]
          rcases (ih this (m1 := some h1.length) (m2 := some h2.length) (.inl (.inr ⟨rfl, rfl⟩)) (ptrSim_mono x1 hp)).cases with ⟨x', y'⟩ | ⟨l1, l2, x', y', t1, R', t2, t3, t4⟩
          · simp only [x', y']; trivial
          · simp only [x', y']; exact ⟨t1, R', x1.trans t2, t3, t4⟩
      · rcases deref_sim s e3 with ⟨d1, d2⟩ | ⟨c, d, d1, d2, d3⟩
        · simp [e1, e2, d1, d2, ResSim]
        · simp only [e1, e2, d1, d2, d3.type]
          split
          · exact ⟨rfl, R, Ext.refl R, s, trivial⟩
          · exact ih s d3.object hp

/-- Related outcomes of an operation on an event that returns something else besides: heap, event, rest. -/
def OpSim {α : Type} (R : Nat → Nat → Prop) (r : (Nat → Nat → Prop) → α → α → Prop) : Res (Heap × Event × α) → Res (Heap × Event × α) → Prop :=
  ResSim fun x y => HeapSim R x.1 y.1 fun R' => PtrSim R' x.2.1 y.2.1 ∧ r R' x.2.2 y.2.2

theorem put_sim {R : Nat → Nat → Prop} {h1 h2 : Heap} (s : Sim R h1 h2) (path : List Bytes) {e1 e2 : Event} (he : PtrSim R e1 e2) {p q : Ptr} (hp : PtrSim R p q) (ow : Bool) :
    OpSim R (fun R' x y => PtrSim R' x.1 y.1 ∧ x.2 = y.2) (put h1 e1 path p ow) (put h2 e2 path q ow) := by
  simp only [put]
  split
  · exact ⟨R, Ext.refl R, s, he, trivial, rfl⟩
  · have hpn : p = none ↔ q = none := by cases p <;> cases q <;> simp [PtrSim] at hp ⊢
    by_cases hq : q = none
    · simp only [hpn.2 hq, hq, if_true]
      exact ⟨R, Ext.refl R, s, he, trivial, rfl⟩
    · simp only [mt hpn.1 hq, hq, if_false]
      -- the map exists or is made
      have key : ∀ (R1 : Nat → Nat → Prop) (g1 g2 : Heap) (f1 f2 : Event), Ext R R1 → Sim R1 g1 g2 → PtrSim R1 f1 f2 →
          OpSim R (fun R' x y => PtrSim R' x.1 y.1 ∧ x.2 = y.2)
            (match get g1 f1 path with
              | .panic => .panic
              | .ok (h, old) =>
                if old ≠ none ∧ ow = false then .ok (h, f1, old, some (PutErr.keyExists path))
                else match putLoop h f1 path p with
                  | .panic => .panic
                  | .ok (h', true) => .ok (h', f1, old, none)
                  | .ok (h', false) => .ok (h', f1, none, some (PutErr.notObject path)))
            (match get g2 f2 path with
              | .panic => .panic
              | .ok (h, old) =>
                if old ≠ none ∧ ow = false then .ok (h, f2, old, some (PutErr.keyExists path))
                else match putLoop h f2 path q with
                  | .panic => .panic
                  | .ok (h', true) => .ok (h', f2, old, none)
                  | .ok (h', false) => .ok (h', f2, none, some (PutErr.notObject path))) := by
        intro R1 g1 g2 f1 f2 hx s1 hf
        rcases (get_sim s1 path hf).cases with ⟨x, y⟩ | ⟨⟨k1, o1⟩, ⟨k2, o2⟩, x, y, R2, hx2, s2, ho⟩
        · simp only [x, y]; trivial
        · simp only at s2 ho
          have hon : o1 = none ↔ o2 = none := by cases o1 <;> cases o2 <;> simp [PtrSim] at ho ⊢
          simp only [x, y, ne_eq, hon]
          split
          · exact ⟨R2, hx.trans hx2, s2, ptrSim_mono hx2 hf, ho, rfl⟩
          · rcases (putLoop_sim s2 path (ptrSim_mono hx2 hf) (ptrSim_mono (hx.trans hx2) hp)).cases with ⟨x', y'⟩ | ⟨⟨l1, b1⟩, ⟨l2, b2⟩, x', y', hb, R3, hx3, s3, _⟩
            · simp only [x', y']; trivial
            · simp only at hb s3
              subst hb
              cases b1
              · simp only [x', y']; exact ⟨R3, (hx.trans hx2).trans hx3, s3, ptrSim_mono (hx2.trans hx3) hf, trivial, rfl⟩
              · simp only [x', y']; exact ⟨R3, (hx.trans hx2).trans hx3, s3, ptrSim_mono (hx2.trans hx3) hf, ptrSim_mono hx3 ho, rfl⟩
      cases e1 with
      | none => cases e2 with
        | some b => simp [PtrSim] at he
        | none =>
          simp only [Heap.alloc]
          exact key _ _ _ _ _ (ext1 R h1.length h2.length) (sim_alloc s (o1 := .map []) (o2 := .map []) (by simp [ObjSim, MapSim])) (.inr ⟨rfl, rfl⟩)
      | some a => cases e2 with
        | none => simp [PtrSim] at he
        | some b => exact key R h1 h2 _ _ (Ext.refl R) s he

/-! ## The processors -/

/-- Outcome of a processor: same error, related heaps and events. -/
abbrev ProcSim (R : Nat → Nat → Prop) : Res (Heap × Event × Option Err) → Res (Heap × Event × Option Err) → Prop := OpSim R fun _ x y => x = y

theorem putThen_sim {R R0 : Nat → Nat → Prop} {h1 h2 : Heap} (hx : Ext R0 R) (s : Sim R h1 h2) (key : Bytes) {e1 e2 : Event} (he : PtrSim R e1 e2) {p q : Ptr} (hp : PtrSim R p q) :
    ProcSim R0 (putThen h1 e1 key p) (putThen h2 e2 key q) := by
  simp only [putThen, apiPut]
  rcases (put_sim s (keyToPath key) he hp true).cases with ⟨x, y⟩ | ⟨⟨g1, f1, r1, er1⟩, ⟨g2, f2, r2, er2⟩, x, y, R1, hx1, s1, hf, _, her⟩
  · simp only [x, y]; trivial
  · simp only at her hf s1
    subst her
    simp only [x, y]
    exact ⟨R1, hx.trans hx1, s1, hf, rfl⟩

theorem strCell_sim {R : Nat → Nat → Prop} (s : Bytes) : CellSim R (strCell s) (strCell s) := cellSim_self rfl rfl

theorem convProcess_sim {R : Nat → Nat → Prop} {h1 h2 : Heap} (s : Sim R h1 h2) {e1 e2 : Event} (he : PtrSim R e1 e2) (conv : Bytes → Bytes) (msg field target : Bytes) :
    ProcSim R (convProcess conv msg field target h1 e1) (convProcess conv msg field target h2 e2) := by
  simp only [convProcess, apiGet]
  rcases (get_sim s (keyToPath field) he).cases with ⟨x, y⟩ | ⟨⟨g1, p⟩, ⟨g2, q⟩, x, y, R1, hx1, s1, hp⟩
  · simp only [x, y]; trivial
  · simp only at hp s1
    simp only [x, y]
    cases p with
    | none => cases q with
      | none => exact ⟨R1, hx1, s1, ptrSim_mono hx1 he, rfl⟩
      | some b => simp [PtrSim] at hp
    | some a => cases q with
      | none => simp [PtrSim] at hp
      | some b =>
        rcases deref_sim s1 hp with ⟨d1, d2⟩ | ⟨c, d, d1, d2, d3⟩
        · simp only [d1, d2]; trivial
        · simp only [d1, d2, d3.type, d3.string]
          split
          · exact ⟨R1, hx1, s1, ptrSim_mono hx1 he, rfl⟩
          · simp only [Heap.alloc]
            exact putThen_sim (hx1.trans (ext1 _ _ _)) (sim_alloc (o1 := .cell (strCell _)) (o2 := .cell (strCell _)) s1 (strCell_sim _)) _ (ptrSim_mono (hx1.trans (ext1 _ _ _)) he) (.inr ⟨rfl, rfl⟩)

theorem setProcess_sim {R : Nat → Nat → Prop} {h1 h2 : Heap} (s : Sim R h1 h2) {e1 e2 : Event} (he : PtrSim R e1 e2) {value : Nat} (hv : R value value) (copyFrom target : Bytes) :
    ProcSim R (setProcess value copyFrom target h1 e1) (setProcess value copyFrom target h2 e2) := by
  simp only [setProcess]
  rcases deref_sim s (p := some value) (q := some value) hv with ⟨d1, d2⟩ | ⟨c, d, d1, d2, d3⟩
  · simp only [d1, d2]; trivial
  · simp only [d1, d2, d3.type]
    split
    · exact putThen_sim (Ext.refl R) s _ he hv
    · split
      · simp only [apiGet]
        rcases (get_sim s (keyToPath copyFrom) he).cases with ⟨x, y⟩ | ⟨⟨g1, p⟩, ⟨g2, q⟩, x, y, R1, hx1, s1, hp⟩
        · simp only [x, y]; trivial
        · simp only at hp s1
          simp only [x, y]
          cases p with
          | none => cases q with
            | none => exact ⟨R1, hx1, s1, ptrSim_mono hx1 he, rfl⟩
            | some b => simp [PtrSim] at hp
          | some a => cases q with
            | none => simp [PtrSim] at hp
            | some b => exact putThen_sim hx1 s1 _ (ptrSim_mono hx1 he) hp
      · exact putThen_sim (Ext.refl R) s _ he trivial

theorem appendTo_sim {R : Nat → Nat → Prop} {h1 h2 : Heap} (s : Sim R h1 h2) {a b : Nat} (hab : R a b) {ps qs : List Ptr} (hp : PtrsSim R ps qs) :
    ResSim (fun x y => Sim R x y) (appendTo h1 a ps) (appendTo h2 b qs) := by
  simp only [appendTo]
  rcases deref_sim s (p := some a) (q := some b) hab with ⟨d1, d2⟩ | ⟨c, d, d1, d2, d3⟩
  · simp only [d1, d2]; trivial
  · simp only [d1, d2, ResSim]
    exact sim_set s hab ⟨d3.integer, d3.unsigned, d3.float, d3.timestamp, d3.string, ptrsSim_append (slice_getD_sim d3.array) hp, d3.object, d3.bool, d3.type⟩

/-- The last steps of `append`: a new string is appended to an array. -/
theorem appendLast_sim {R R0 : Nat → Nat → Prop} {h1 h2 : Heap} (hx : Ext R0 R) (s : Sim R h1 h2) {e1 e2 : Event} (he : PtrSim R e1 e2) {a b : Nat} (hab : R a b) (value : Bytes) :
    ProcSim R0 ((appendTo (h1 ++ [.cell (strCell value)]) a [some h1.length]).map (·, e1, none)) ((appendTo (h2 ++ [.cell (strCell value)]) b [some h2.length]).map (·, e2, none)) := by
  have s1 := sim_alloc (o1 := .cell (strCell value)) (o2 := .cell (strCell value)) s (strCell_sim value)
  rcases (appendTo_sim s1 (.inl hab) (ps := [some h1.length]) (qs := [some h2.length]) ⟨.inr ⟨rfl, rfl⟩, trivial⟩).cases with ⟨x, y⟩ | ⟨g1, g2, x, y, this⟩
  · simp only [x, y]; trivial
  · simp only [x, y]; exact ⟨_, hx.trans (ext1 _ _ _), this, ptrSim_mono (ext1 _ _ _) he, rfl⟩

theorem appendProcess_sim {R : Nat → Nat → Prop} {h1 h2 : Heap} (s : Sim R h1 h2) {e1 e2 : Event} (he : PtrSim R e1 e2) (field value : Bytes) (dup : Bool) :
    ProcSim R (appendProcess field value dup h1 e1) (appendProcess field value dup h2 e2) := by
  simp only [appendProcess, apiGet]
  rcases (get_sim s (keyToPath field) he).cases with ⟨x, y⟩ | ⟨⟨g1, p⟩, ⟨g2, q⟩, x, y, R1, hx1, s1, hp⟩
  · simp only [x, y]; trivial
  · simp only at hp s1
    simp only [x, y]
    cases p with
    | none => cases q with
      | some b => simp [PtrSim] at hp
      | none =>
        simp only [Heap.alloc, apiPut]
        have hx2 : Ext R (Ext1 R1 g1.length g2.length) := hx1.trans (ext1 _ _ _)
        have s2 := sim_alloc s1 (o1 := .cell (arrCell none)) (o2 := .cell (arrCell none)) (cellSim_arr (by simp [SliceSim]))
        rcases (put_sim s2 (keyToPath field) (ptrSim_mono hx2 he) (p := some g1.length) (q := some g2.length) (.inr ⟨rfl, rfl⟩) true).cases with
          ⟨x', y'⟩ | ⟨⟨k1, f1, r1, er1⟩, ⟨k2, f2, r2, er2⟩, x', y', R3, hx3, s3, hf, _⟩
        · simp only [x', y']; trivial
        · simp only at s3 hf
          simp only [x', y']
          exact appendLast_sim (hx2.trans hx3) s3 hf (hx3 _ _ (.inr ⟨rfl, rfl⟩)) value
    | some a => cases q with
      | none => simp [PtrSim] at hp
      | some b =>
        rcases deref_sim s1 hp with ⟨d1, d2⟩ | ⟨c, d, d1, d2, d3⟩
        · simp only [d1, d2]; trivial
        · simp only [d1, d2, d3.type]
          split
          · simp only [Heap.alloc]
            have hx2 : Ext R (Ext1 R1 g1.length g2.length) := hx1.trans (ext1 _ _ _)
            have s2 := sim_alloc s1 (o1 := .cell (arrCell (some [some a]))) (o2 := .cell (arrCell (some [some b]))) (cellSim_arr ⟨.inl hp, trivial⟩)
            exact appendLast_sim hx2 s2 (ptrSim_mono hx2 he) (.inr ⟨rfl, rfl⟩) value
          · split
            · exact ⟨R1, hx1, s1, ptrSim_mono hx1 he, rfl⟩
            · simp only [Heap.alloc]
              exact appendLast_sim hx1 s1 (ptrSim_mono hx1 he) hp value

/-- The address of a processor's configured value. -/
def Builtin.valueAddr : Builtin → Option Nat
  | .set v _ _ => some v
  | _ => none

theorem step_sim (cv : Conv) {R : Nat → Nat → Prop} {h1 h2 : Heap} (s : Sim R h1 h2) {e1 e2 : Event} (he : PtrSim R e1 e2) (b : Builtin) (hb : ∀ v, b.valueAddr = some v → R v v) :
    ProcSim R (b.step cv h1 e1) (b.step cv h2 e2) := by
  cases b with
  | lowercase f t => exact convProcess_sim s he _ _ f t
  | uppercase f t => exact convProcess_sim s he _ _ f t
  | set v c t => exact setProcess_sim s he (hb v rfl) c t
  | append f v d => exact appendProcess_sim s he f v d
  | remove fs => exact ⟨R, Ext.refl R, s, he, rfl⟩
  | communityId => exact ⟨R, Ext.refl R, s, he, rfl⟩

/-! ## Reading -/

theorem deref_sim' {R : Nat → Nat → Prop} {h1 h2 : Heap} (s : Sim R h1 h2) {p q : Ptr} (hp : PtrSim R p q) {c : Cell} (hc : deref h1 p = some c) :
    ∃ d, deref h2 q = some d ∧ CellSim R c d := by
  rcases deref_sim s hp with ⟨d1, d2⟩ | ⟨c', d, d1, d2, d3⟩
  · rw [hc] at d1; simp at d1
  · rw [hc, Option.some.injEq] at d1; subst d1; exact ⟨d, d2, d3⟩

theorem cell_ext {R : Nat → Nat → Prop} {c d : Cell} (h : CellSim R c d) (ha : c.array = none) (ho : c.object = none) : d = c := by
  obtain ⟨i1, i2, i3, i4, i5, i6, i7, i8, i9⟩ := h
  cases c; cases d
  simp only at *
  subst ha ho
  rename_i arr obj _ _
  cases arr <;> simp [SliceSim] at i6
  cases obj <;> simp [PtrSim] at i7
  simp [*]

mutual
theorem reads_sim {R : Nat → Nat → Prop} {h1 h2 : Heap} (s : Sim R h1 h2) : ∀ (v : Val) {p q : Ptr}, PtrSim R p q → Reads h1 p v → Reads h2 q v
  | .nilp, p, q, hp, hr => by
    simp only [Reads] at hr ⊢; subst hr; cases q <;> simp [PtrSim] at hp ⊢
  | .scalar sc, p, q, hp, hr => by
    simp only [Reads] at hr ⊢
    obtain ⟨d, h3, h4⟩ := deref_sim' s hp hr
    rw [h3, cell_ext h4 (by cases sc <;> rfl) (by cases sc <;> rfl)]
  | .arrNil, p, q, hp, hr => by
    simp only [Reads] at hr ⊢
    obtain ⟨d, h3, h4⟩ := deref_sim' s hp hr
    rw [h3, cell_ext h4 rfl rfl]
  | .objNil, p, q, hp, hr => by
    simp only [Reads] at hr ⊢
    obtain ⟨d, h3, h4⟩ := deref_sim' s hp hr
    rw [h3, cell_ext h4 rfl rfl]
  | .arr vs, p, q, hp, hr => by
    simp only [Reads] at hr ⊢
    obtain ⟨ps, hr, hl⟩ := hr
    obtain ⟨d, h3, h4⟩ := deref_sim' s hp hr
    obtain ⟨i1, i2, i3, i4, i5, i6, i7, i8, i9⟩ := h4
    cases d
    simp only [arrCell] at *
    rename_i arr obj _ _
    cases arr <;> simp [SliceSim] at i6
    cases obj <;> simp [PtrSim] at i7
    next qs => exact ⟨qs, by simp [h3, ← i1, ← i2, ← i3, ← i4, ← i5, ← i8, ← i9], readsL_sim s vs i6 hl⟩
  | .obj es, p, q, hp, hr => by
    simp only [Reads] at hr ⊢
    obtain ⟨m, ps, hr, hm, hl⟩ := hr
    obtain ⟨d, h3, h4⟩ := deref_sim' s hp hr
    obtain ⟨i1, i2, i3, i4, i5, i6, i7, i8, i9⟩ := h4
    cases d
    simp only [objCell] at *
    rename_i arr obj _ _
    cases arr <;> simp [SliceSim] at i6
    cases obj <;> simp [PtrSim] at i7
    next m' =>
      obtain ⟨o1, o2, e1, e2, e3⟩ := s.obj i7
      rw [hm, Option.some.injEq] at e1; subst e1
      cases o2 <;> simp only [ObjSim] at e3
      next qs => exact ⟨m', qs, by simp [h3, ← i1, ← i2, ← i3, ← i4, ← i5, ← i8, ← i9], e2, readsE_sim s es e3 hl⟩
theorem readsL_sim {R : Nat → Nat → Prop} {h1 h2 : Heap} (s : Sim R h1 h2) : ∀ (vs : List Val) {ps qs : List Ptr}, PtrsSim R ps qs → ReadsL h1 ps vs → ReadsL h2 qs vs
  | [], [], [], _, _ => by simp [ReadsL]
  | [], [], _ :: _, h, _ => by simp [PtrsSim] at h
  | [], _ :: _, _, _, h => by simp [ReadsL] at h
  | v :: vs, [], _, _, h => by simp [ReadsL] at h
  | v :: vs, _ :: _, [], h, _ => by simp [PtrsSim] at h
  | v :: vs, p :: ps, q :: qs, h, hr => by
    simp only [PtrsSim, ReadsL] at h hr ⊢
    exact ⟨reads_sim s v h.1 hr.1, readsL_sim s vs h.2 hr.2⟩
theorem readsE_sim {R : Nat → Nat → Prop} {h1 h2 : Heap} (s : Sim R h1 h2) : ∀ (es : List (Bytes × Val)) {ps qs : List (Bytes × Ptr)}, MapSim R ps qs → ReadsE h1 ps es → ReadsE h2 qs es
  | [], [], [], _, _ => by simp [ReadsE]
  | [], [], _ :: _, h, _ => by simp [MapSim] at h
  | [], _ :: _, _, _, h => by simp [ReadsE] at h
  | e :: es, [], _, _, h => by simp [ReadsE] at h
  | e :: es, _ :: _, [], h, _ => by simp [MapSim] at h
  | (k, v) :: es, (k1, p) :: ps, (k2, q) :: qs, h, hr => by
    simp only [MapSim, ReadsE] at h hr ⊢
    obtain ⟨rfl, h1, h2⟩ := h
    exact ⟨hr.1, reads_sim s v h1 hr.2.1, readsE_sim s es h2 hr.2.2⟩
end

theorem holds_sim {R : Nat → Nat → Prop} {h1 h2 : Heap} (s : Sim R h1 h2) {e1 e2 : Event} (he : PtrSim R e1 e2) {F : Fields} (hF : Holds h1 e1 F) : Holds h2 e2 F := by
  cases F with
  | none => simp only [Holds] at hF ⊢; subst hF; cases e2 <;> simp [PtrSim] at he ⊢
  | some es =>
    simp only [Holds] at hF ⊢
    obtain ⟨m, ps, rfl, hm, hr⟩ := hF
    cases e2 <;> simp [PtrSim] at he
    next m' =>
      obtain ⟨o1, o2, e1, e2, e3⟩ := s.obj he
      rw [hm, Option.some.injEq] at e1; subst e1
      cases o2 <;> simp only [ObjSim] at e3
      next qs => exact ⟨m', qs, rfl, e2, readsE_sim s es e3 hr⟩

/-! The relation turned around. -/

def Flip (R : Nat → Nat → Prop) : Nat → Nat → Prop := fun a b => R b a

theorem ptrSim_flip {R : Nat → Nat → Prop} {p q : Ptr} (h : PtrSim R p q) : PtrSim (Flip R) q p := by
  cases p <;> cases q <;> simp [PtrSim] at h ⊢
  exact h
theorem ptrsSim_flip {R : Nat → Nat → Prop} {p q : List Ptr} (h : PtrsSim R p q) : PtrsSim (Flip R) q p := by
  induction p generalizing q with
  | nil => cases q <;> simp [PtrsSim] at h ⊢
  | cons x xs ih => cases q <;> simp only [PtrsSim] at h ⊢; exact ⟨ptrSim_flip h.1, ih h.2⟩
theorem mapSim_flip {R : Nat → Nat → Prop} {p q : AMap Ptr} (h : MapSim R p q) : MapSim (Flip R) q p := by
  induction p generalizing q with
  | nil => cases q <;> simp [MapSim] at h ⊢
  | cons x xs ih => cases q <;> simp only [MapSim] at h ⊢; exact ⟨h.1.symm, ptrSim_flip h.2.1, ih h.2.2⟩
theorem objSim_flip {R : Nat → Nat → Prop} {o o' : HObj} (h : ObjSim R o o') : ObjSim (Flip R) o' o := by
  cases o <;> cases o' <;> simp only [ObjSim] at h ⊢
  · exact ⟨h.integer.symm, h.unsigned.symm, h.float.symm, h.timestamp.symm, h.string.symm, by
      have := h.array
      revert this
      rename_i c d
      cases c.array <;> cases d.array <;> simp [SliceSim]
      exact ptrsSim_flip, ptrSim_flip h.object, h.bool.symm, h.type.symm⟩
  · exact mapSim_flip h
theorem Sim.flip {R : Nat → Nat → Prop} {h1 h2 : Heap} (s : Sim R h1 h2) : Sim (Flip R) h2 h1 :=
  ⟨fun h h' => s.bwd h h', fun h h' => s.fwd h h', fun r => by obtain ⟨o1, o2, e1, e2, e3⟩ := s.obj r; exact ⟨o2, o1, e2, e1, objSim_flip e3⟩⟩

end Sawmill
