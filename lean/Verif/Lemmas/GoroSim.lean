import Verif.Lemmas.Goro
/-!
# Goroutines that use the library as they like: the same run in two memories
-/

namespace Sawmill
namespace Goro
open Mem

/-- What is only read is closed under following pointers. -/
structure _root_.Sawmill.Zone.Closed (Z : Zone) : Prop where
  entry : ∀ {m es k a}, Z.S m → Z.h0[m]? = some (.map es) → (k, some a) ∈ es → Z.S a
  item : ∀ {b c ps a}, Z.S b → Z.h0[b]? = some (.cell c) → c.array = some ps → some a ∈ ps → Z.S a
  object : ∀ {b c m}, Z.S b → Z.h0[b]? = some (.cell c) → c.object = some m → Z.S m

/-- What two copies of a goroutine hold. -/
structure LocalsSim (Z : Zone) (R : Nat → Nat → Prop) (L M : Locals) : Prop where
  events : PtrsSim R L.events M.events
  vals : PtrsSim R L.vals M.vals
  seen : L.seen = M.seen
  inside : ∀ p ∈ L.seen, Z.In p

abbrev ProgSim {Y : Type} (Z : Zone) (R : Nat → Nat → Prop) (x y : Locals × Y) : Prop := LocalsSim Z R x.1 y.1 ∧ x.2 = y.2

abbrev SameOut {α : Type} (_ : Nat → Nat → Prop) (x y : α) : Prop := x = y

variable {Z : Zone} {R R' : Nat → Nat → Prop}

theorem LocalsSim.grow {L M : Locals} (h : LocalsSim Z R L M) (hx : Grow R R') : LocalsSim Z R' L M := ⟨ptrsSim_grow hx h.events, ptrsSim_grow hx h.vals, h.seen, h.inside⟩

theorem LocalsSim.keepVal {L M : Locals} (h : LocalsSim Z R L M) {p q : Ptr} (hp : PtrSim R p q) : LocalsSim Z R (L.keepVal p) (M.keepVal q) :=
  ⟨h.events, ptrsSim_append h.vals ⟨hp, trivial⟩, h.seen, h.inside⟩

theorem LocalsSim.keepSeen {L M : Locals} (h : LocalsSim Z R L M) {p : Ptr} (hp : Z.In p) : LocalsSim Z R (L.keepSeen p) (M.keepSeen p) := by
  refine ⟨h.events, h.vals, by simp [Locals.keepSeen, h.seen], fun q hq => ?_⟩
  simp only [Locals.keepSeen, List.mem_append, List.mem_singleton] at hq
  rcases hq with hq | rfl
  · exact h.inside q hq
  · exact hp

theorem ptrsSim_get {ps qs : List Ptr} (h : PtrsSim R ps qs) (i : Nat) : (ps[i]? = none ∧ qs[i]? = none) ∨ ∃ p q, ps[i]? = some p ∧ qs[i]? = some q ∧ PtrSim R p q := by
  induction ps generalizing qs i with
  | nil => cases qs with
    | nil => exact .inl ⟨by simp, by simp⟩
    | cons q qs => simp [PtrsSim] at h
  | cons p ps ih => cases qs with
    | nil => simp [PtrsSim] at h
    | cons q qs => cases i with
      | zero => exact .inr ⟨p, q, rfl, rfl, h.1⟩
      | succ i => simpa using ih h.2 i

theorem ptrsSim_set {ps qs : List Ptr} (h : PtrsSim R ps qs) (i : Nat) {p q : Ptr} (hp : PtrSim R p q) : PtrsSim R (ps.set i p) (qs.set i q) := by
  induction ps generalizing qs i with
  | nil => cases qs with
    | nil => simpa using h
    | cons q qs => simp [PtrsSim] at h
  | cons p ps ih => cases qs with
    | nil => simp [PtrsSim] at h
    | cons q qs => cases i with
      | zero => exact ⟨hp, h.2⟩
      | succ i => exact ⟨h.1, ih h.2 i⟩

theorem ptrsSim_pick {ps qs : List Ptr} (h : PtrsSim R ps qs) (is : List Nat) :
    (is.mapM (ps[·]?) = none ∧ is.mapM (qs[·]?) = none) ∨ ∃ xs ys, is.mapM (ps[·]?) = some xs ∧ is.mapM (qs[·]?) = some ys ∧ PtrsSim R xs ys := by
  induction is with
  | nil => exact .inr ⟨[], [], rfl, rfl, trivial⟩
  | cons i is ih =>
    simp only [List.mapM_cons]
    rcases ptrsSim_get h i with ⟨e1, e2⟩ | ⟨p, q, e1, e2, e3⟩
    · exact .inl (by simp [e1, e2])
    · rcases ih with ⟨f1, f2⟩ | ⟨xs, ys, f1, f2, f3⟩
      · exact .inl (by simp [e1, e2, f1, f2])
      · exact .inr ⟨p :: xs, q :: ys, by simp [e1, f1], by simp [e2, f2], e3, f3⟩

theorem mapSim_pick {ps qs : List Ptr} (h : PtrsSim R ps qs) (es : List (Bytes × Nat)) :
    ((es.mapM fun e => (ps[e.2]?).map (e.1, ·)) = none ∧ (es.mapM fun e => (qs[e.2]?).map (e.1, ·)) = none) ∨
      ∃ xs ys, (es.mapM fun e => (ps[e.2]?).map (e.1, ·)) = some xs ∧ (es.mapM fun e => (qs[e.2]?).map (e.1, ·)) = some ys ∧ MapSim R xs ys := by
  induction es with
  | nil => exact .inr ⟨[], [], rfl, rfl, trivial⟩
  | cons i is ih =>
    simp only [List.mapM_cons]
    rcases ptrsSim_get h i.2 with ⟨e1, e2⟩ | ⟨p, q, e1, e2, e3⟩
    · exact .inl (by simp [e1, e2])
    · rcases ih with ⟨f1, f2⟩ | ⟨xs, ys, f1, f2, f3⟩
      · exact .inl (by simp [e1, e2, f1, f2])
      · exact .inr ⟨(i.1, p) :: xs, (i.1, q) :: ys, by simp [e1, f1], by simp [e2, f2], rfl, e3, f3⟩

theorem ofEntries_sim {xs ys ms ns : AMap Ptr} (h : MapSim R xs ys) (hm : MapSim R ms ns) : MapSim R (AMap.ofEntries xs ms) (AMap.ofEntries ys ns) := by
  induction xs generalizing ys ms ns with
  | nil => cases ys with
    | nil => exact hm
    | cons y ys => simp [MapSim] at h
  | cons x xs ih => cases ys with
    | nil => simp [MapSim] at h
    | cons y ys =>
      obtain ⟨k, p⟩ := x
      obtain ⟨k', q⟩ := y
      obtain ⟨rfl, h1, h2⟩ := h
      exact ih (ys := ys) h2 (insert_sim hm k h1)

theorem mapSim_keys {ms ns : AMap Ptr} (h : MapSim R ms ns) : ms.map Prod.fst = ns.map Prod.fst := by
  induction ms generalizing ns with
  | nil => cases ns with
    | nil => rfl
    | cons y ys => simp [MapSim] at h
  | cons x xs ih => cases ns with
    | nil => simp [MapSim] at h
    | cons y ys => exact List.cons_eq_cons.mpr ⟨h.1, ih h.2.2⟩

theorem ptrsSim_nil {ps qs : List Ptr} (h : PtrsSim R ps qs) : ps = [] ↔ qs = [] := by cases ps <;> cases qs <;> simp [PtrsSim] at h ⊢

theorem ptrsSim_length {ps qs : List Ptr} (h : PtrsSim R ps qs) : ps.length = qs.length := by
  induction ps generalizing qs with
  | nil => cases qs <;> simp [PtrsSim] at h ⊢
  | cons p ps ih => cases qs with
    | nil => simp [PtrsSim] at h
    | cons q qs => simp [ih h.2]

theorem sliceSim_length {a b : Option (List Ptr)} (h : SliceSim R a b) : a.map List.length = b.map List.length := by
  cases a <;> cases b <;> simp [SliceSim] at h ⊢
  exact ptrsSim_length h

theorem ptrSim_isNone {p q : Ptr} (h : PtrSim R p q) : p.isNone = q.isNone := by cases p <;> cases q <;> simp [PtrSim] at h ⊢

theorem ptrSim_eq (h1 : OneToOne R) {p q p' q' : Ptr} (h : PtrSim R p q) (h' : PtrSim R p' q') : p = p' ↔ q = q' := by
  cases p <;> cases q <;> cases p' <;> cases q' <;> simp [PtrSim] at h h' ⊢
  constructor
  · rintro rfl; exact h1.1 _ _ _ h h'
  · rintro rfl; exact h1.2 _ _ _ h h'

theorem scalarCell_sim (s : Scalar) : CellSim R (scalarCell s) (scalarCell s) := cellSim_self (scalarCell_array s) (scalarCell_object s)

theorem memSim_eq {α : Type} (x : α) : MemSim Z SameOut (.ret x) (.ret x) R := (rfl : x = x)

section
variable {A Q : Type} {P P' : A → Prop} (h : ∀ a, P a → P' a)
include h

theorem prog_calls_mono (p : Sawmill.Prog A Q) (hp : p.Calls P) : p.Calls P' := by
  induction p with
  | done e => trivial
  | cancel p ih => exact ih hp
  | drop p ih => exact ih hp
  | call a p ih => exact ⟨h a hp.1, fun r => ih r (hp.2 r)⟩

mutual
theorem node_calls_mono : ∀ (n : Node A Q), n.Calls P → n.Calls P'
  | .mk _ _ _ _ onF proc, hn => ⟨prog_calls_mono h proc hn.1, callsAll_mono onF hn.2⟩
theorem callsAll_mono : ∀ (ns : List (Node A Q)), Node.CallsAll P ns → Node.CallsAll P' ns
  | [], _ => trivial
  | n :: ns, hn => ⟨node_calls_mono n hn.1, callsAll_mono ns hn.2⟩
end

theorem pipeline_calls_mono {p : Pipeline A Q} (hp : p.Calls P) : p.Calls P' := ⟨callsAll_mono h _ hp.1, callsAll_mono h _ hp.2⟩
end

/-! ## Own events and values -/

theorem deleteM_sim (path : List Bytes) {e e' : Event} (he : PtrSim R e e') : MemSim Z PtrSim (deleteM e path) (deleteM e' path) R := by
  cases path with
  | nil => exact (trivial : PtrSim R none none)
  | cons k ks =>
    refine memSim_readMapV he fun R1 es es' hx hes hV => ?_
    simp only [mapSim_length hes]
    split
    · exact (trivial : PtrSim R1 none none)
    · rename_i hne
      refine memSim_bind (getM_sim _ (ptrSim_grow hx he)) fun R2 v v' hx2 hv => ?_
      have hon : v = none ↔ v' = none := by cases v <;> cases v' <;> simp [PtrSim] at hv ⊢
      simp only [ne_eq, hon]
      split
      · refine memSim_eraseMap (ptrSim_grow (hx.trans hx2) he) (fun a ha hva => ?_) fun R3 hx3 => ptrSim_grow hx3 hv
        have := hV a ha hva
        subst this
        exact hne (mapSim_length hes).symm
      · exact hv

theorem joinM_sim {α β : Type} {P : (Nat → Nat → Prop) → α → β → Prop} {f : α → Mem (JOut Bytes)} {g : β → Mem (JOut Bytes)}
    (hP : ∀ {R R' x y}, Grow R R' → P R x y → P R' x y) (hf : ∀ {R x y}, P R x y → MemSim Z SameOut (f x) (g y) R) {xs : List α} {ys : List β} {R : Nat → Nat → Prop} (h : List.Forall₂ (P R) xs ys) :
    MemSim Z SameOut (joinM f xs) (joinM g ys) R := by
  have mono : ∀ {R R' xs ys}, Grow R R' → List.Forall₂ (P R) xs ys → List.Forall₂ (P R') xs ys := by
    intro R R' xs ys hx h
    induction h with
    | nil => exact .nil
    | cons a _ ih => exact .cons (hP hx a) ih
  induction xs generalizing ys R with
  | nil => cases h; exact memSim_eq _
  | cons x xs ih =>
    cases h with
    | cons h1 h2 =>
      cases xs with
      | nil => cases h2; exact hf h1
      | cons x' xs =>
        cases h2 with
        | cons h3 h4 =>
          refine memSim_bind (hf h1) fun R' a b hx hab => ?_
          subst hab
          cases a with
          | ok a => exact memSim_bind (ih (mono hx (.cons h3 h4))) fun R2 b b' _ hb => by subst hb; exact memSim_eq _
          | error => exact memSim_eq _
          | fuel => exact memSim_eq _

theorem ptrs_forall2 {ps qs : List Ptr} (h : PtrsSim R ps qs) : List.Forall₂ (PtrSim R) ps qs := by
  induction ps generalizing qs with
  | nil => cases qs with
    | nil => exact .nil
    | cons q qs => simp [PtrsSim] at h
  | cons p ps ih => cases qs with
    | nil => simp [PtrsSim] at h
    | cons q qs => exact .cons h.1 (ih h.2)

abbrev EntrySim (R : Nat → Nat → Prop) (x y : Bytes × Ptr) : Prop := x.1 = y.1 ∧ PtrSim R x.2 y.2

theorem map_forall2 {ps qs : AMap Ptr} (h : MapSim R ps qs) : List.Forall₂ (EntrySim R) ps qs := by
  induction ps generalizing qs with
  | nil => cases qs with
    | nil => exact .nil
    | cons q qs => simp [MapSim] at h
  | cons p ps ih => cases qs with
    | nil => simp [MapSim] at h
    | cons q qs => exact .cons ⟨h.1, h.2.1⟩ (ih h.2.2)

/-- The text of the entries of a map. -/
abbrev entriesM (env : JEnv) (n : Nat) (es : AMap Ptr) : Mem (JOut Bytes) :=
  (joinM (fun e : Bytes × Ptr => (marshalM env n e.2).bind fun t => .ret (t.bind fun t => .ok (encStr e.1 ++ 58 :: t))) es).bind fun t => .ret (t.bind fun t => .ok (123 :: (t ++ [125])))

theorem entriesM_sim (env : JEnv) (n : Nat) (ih : ∀ {R : Nat → Nat → Prop} {p q : Ptr}, PtrSim R p q → MemSim Z SameOut (marshalM env n p) (marshalM env n q) R) {es fs : AMap Ptr} (h : MapSim R es fs) :
    MemSim Z SameOut (entriesM env n es) (entriesM env n fs) R := by
  refine memSim_bind (joinM_sim (P := EntrySim) (fun hx h => ⟨h.1, ptrSim_grow hx h.2⟩) ?_ (map_forall2 h)) fun R2 b b' _ hb => by subst hb; exact memSim_eq _
  intro R x y hxy
  refine memSim_bind (ih hxy.2) fun R2 b b' _ hb => ?_
  subst hb
  rw [hxy.1]
  exact memSim_eq _

theorem marshalM_sim (env : JEnv) (n : Nat) {p q : Ptr} (h : PtrSim R p q) : MemSim Z SameOut (marshalM env n p) (marshalM env n q) R := by
  induction n generalizing R p q with
  | zero => exact memSim_eq _
  | succ n ih =>
    refine memSim_peek h (fun R' _ => memSim_eq _) fun R' c d hx hc => ?_
    have last : ∀ {t t' : Mem (JOut Bytes)}, MemSim Z SameOut t t' R' → MemSim Z SameOut (t.bind fun t => .ret (t.bind compact)) (t'.bind fun t => .ret (t.bind compact)) R' :=
      fun h => memSim_bind h fun R2 b b' _ hb => by subst hb; exact memSim_eq _
    simp only
    refine last ?_
    rw [← hc.type]
    cases hty : c.type <;> simp only
    case array =>
      have := hc.array
      cases ha : c.array <;> cases hb : d.array <;> simp only [ha, hb, SliceSim] at this ⊢
      · exact memSim_eq _
      · exact memSim_bind (joinM_sim (P := PtrSim) (fun hx h => ptrSim_grow hx h) ih (ptrs_forall2 this)) fun R2 b b' _ hb => by subst hb; exact memSim_eq _
    case object =>
      have := hc.object
      cases ha : c.object <;> cases hb : d.object <;> simp only [ha, hb, PtrSim] at this ⊢
      · exact memSim_eq _
      · exact memSim_readMap (m := some _) (m' := some _) this fun R2 es es' hx2 hes => entriesM_sim env n ih hes
    case bool => rw [hc.bool]; exact memSim_eq _
    case float => rw [hc.float]; exact memSim_eq _
    case integer => rw [hc.integer]; exact memSim_eq _
    case string => rw [hc.string]; exact memSim_eq _
    case timestamp => rw [hc.timestamp]; exact memSim_eq _
    case unsigned => rw [hc.unsigned]; exact memSim_eq _
    all_goals exact memSim_eq _

theorem marshalEventM_sim (env : JEnv) (n : Nat) {e e' : Event} (h : PtrSim R e e') : MemSim Z SameOut (marshalEventM env n e) (marshalEventM env n e') R := by
  refine memSim_bind (post := SameOut) ?_ fun R2 b b' _ hb => by subst hb; exact memSim_eq _
  cases e <;> cases e' <;> simp only [PtrSim] at h ⊢
  · exact memSim_eq _
  · exact memSim_readMap (m := some _) (m' := some _) h fun R2 es es' hx2 hes => entriesM_sim env n (marshalM_sim env n) hes

/-! ## What is only read -/

section
variable (hZ : Z.Closed)
include hZ

theorem in_entries {m : Option Nat} (hm : Z.In m) {k : Bytes} {p : Ptr} (hp : (k, p) ∈ mapOf Z.h0 m) : Z.In p := by
  rintro a rfl
  cases m with
  | none => simp [mapOf] at hp
  | some m =>
    simp only [mapOf] at hp
    split at hp
    · rename_i es he; exact hZ.entry (hm m rfl) he hp
    · simp at hp

theorem in_lookup {m : Option Nat} (hm : Z.In m) (k : Bytes) {p : Ptr} (hp : (mapOf Z.h0 m).lookup k = some p) : Z.In p := in_entries hZ hm (AMap.mem_of_lookup hp)

theorem in_join {m : Option Nat} (hm : Z.In m) (k : Bytes) : Z.In ((mapOf Z.h0 m).lookup k).join := by
  cases hl : (mapOf Z.h0 m).lookup k with
  | none => rintro a ⟨⟩
  | some p => simpa using in_lookup hZ hm k hl

theorem in_object {p : Ptr} (hp : Z.In p) {c : Cell} (hd : deref Z.h0 p = some c) : Z.In c.object := by
  intro m hm
  cases p with
  | none => simp [deref] at hd
  | some a =>
    simp only [deref] at hd
    split at hd
    · rename_i c' hc; cases hd; exact hZ.object (hp a rfl) hc hm
    · cases hd

theorem in_array {p : Ptr} (hp : Z.In p) {c : Cell} (hd : deref Z.h0 p = some c) {ps : List Ptr} (ha : c.array = some ps) {q : Ptr} (hq : q ∈ ps) : Z.In q := by
  rintro b rfl
  cases p with
  | none => simp [deref] at hd
  | some a =>
    simp only [deref] at hd
    split at hd
    · rename_i c' hc; cases hd; exact hZ.item (hp a rfl) hc ha hq
    · cases hd

abbrev InOut (Z : Zone) (_ : Nat → Nat → Prop) (p q : Ptr) : Prop := p = q ∧ Z.In p

omit hZ in
theorem in_none : Z.In none := by rintro a ⟨⟩

theorem getLoopM_in (path : List Bytes) {m : Option Nat} (hm : Z.In m) : MemSim Z (InOut Z) (getLoopM m path) (getLoopM m path) R := by
  induction path generalizing m R with
  | nil => exact ⟨rfl, in_none⟩
  | cons k ks ih =>
    cases ks with
    | nil => exact memSim_readMap_in hm fun R' hx => ⟨rfl, in_join hZ hm k⟩
    | cons k2 ks =>
      refine memSim_readMap_in hm fun R' hx => ?_
      cases hl : (mapOf Z.h0 m).lookup k with
      | none => exact ⟨rfl, in_none⟩
      | some p =>
        have hp := in_lookup hZ hm k hl
        refine memSim_readCell_in hp fun R2 c hx2 hd => ?_
        have ho := in_object hZ hp hd
        refine memSim_readMap_in ho fun R3 hx3 => ?_
        split
        · exact ⟨rfl, in_none⟩
        · exact ih ho

theorem getM_in {path : List Bytes} (hne : path ≠ []) {e : Event} (he : Z.In e) : MemSim Z (InOut Z) (getM e path) (getM e path) R := by
  refine memSim_readMap_in he fun R' hx => ?_
  split
  · exact ⟨rfl, in_none⟩
  · cases path with
    | nil => exact absurd rfl hne
    | cons k ks => exact getLoopM_in hZ _ he

omit hZ in
theorem joinM_in {α : Type} {P : α → Prop} {f : α → Mem (JOut Bytes)} (hf : ∀ {R : Nat → Nat → Prop} {x}, P x → MemSim Z SameOut (f x) (f x) R) {xs : List α} (h : ∀ x ∈ xs, P x) :
    MemSim Z SameOut (joinM f xs) (joinM f xs) R := by
  refine joinM_sim (P := fun _ x y => x = y ∧ P x) (fun _ h => h) (fun {R x y} h => by obtain ⟨rfl, h⟩ := h; exact hf h) ?_
  induction xs with
  | nil => exact .nil
  | cons x xs ih => exact .cons ⟨rfl, h x (by simp)⟩ (ih fun y hy => h y (by simp [hy]))

theorem marshalM_in (env : JEnv) (n : Nat) {p : Ptr} (hp : Z.In p) : MemSim Z SameOut (marshalM env n p) (marshalM env n p) R := by
  induction n generalizing R p with
  | zero => exact memSim_eq _
  | succ n ih =>
    refine memSim_peek_in hp fun R' hx => ?_
    cases hd : deref Z.h0 p with
    | none => exact memSim_eq _
    | some c =>
      simp only
      refine memSim_bind (post := SameOut) ?_ fun R2 b b' _ hb => by subst hb; exact memSim_eq _
      cases hty : c.type <;> simp only
      case array =>
        cases ha : c.array with
        | none => exact memSim_eq _
        | some ps => exact memSim_bind (joinM_in (P := Z.In) ih fun q hq => in_array hZ hp hd ha hq) fun R2 b b' _ hb => by subst hb; exact memSim_eq _
      case object =>
        cases ha : c.object with
        | none => exact memSim_eq _
        | some m =>
          have ho := in_object hZ hp hd
          rw [ha] at ho
          refine memSim_readMap_in ho fun R2 hx2 => memSim_bind (joinM_in (P := fun e : Bytes × Ptr => Z.In e.2) ?_ fun q hq => in_entries hZ ho hq) fun R2 b b' _ hb => by subst hb; exact memSim_eq _
          intro R x hx
          exact memSim_bind (ih hx) fun R2 b b' _ hb => by subst hb; exact memSim_eq _
      all_goals exact memSim_eq _

theorem marshalEventM_in (env : JEnv) (n : Nat) {e : Event} (he : Z.In e) : MemSim Z SameOut (marshalEventM env n e) (marshalEventM env n e) R := by
  refine memSim_bind (post := SameOut) ?_ fun R2 b b' _ hb => by subst hb; exact memSim_eq _
  cases e with
  | none => exact memSim_eq _
  | some m =>
    refine memSim_readMap_in he fun R2 hx2 => memSim_bind (joinM_in (P := fun e : Bytes × Ptr => Z.In e.2) ?_ fun q hq => in_entries hZ he hq) fun R2 b b' _ hb => by subst hb; exact memSim_eq _
    intro R x hx
    exact memSim_bind (marshalM_in hZ env n hx) fun R2 b b' _ hb => by subst hb; exact memSim_eq _

/-! ## Calls -/

theorem cmdM_sim (env : Env) (hsh : ∀ e ∈ env.shared, Z.In e) (hpipes : ∀ p ∈ env.pipes, p.Calls fun b => ∀ v, b.valueAddr = some v → R v v) (h1 : OneToOne R) {L M : Locals} (hL : LocalsSim Z R L M) (c : Cmd) :
    MemSim Z (ProgSim Z) (cmdM env L c) (cmdM env M c) R := by
  have text : ∀ {R' : Nat → Nat → Prop} (hx : Grow R R') (o : JOut Bytes), MemSim Z (ProgSim Z) (textM L o) (textM M o) R' := by
    intro R' hx o
    cases o with
    | ok bs => exact ⟨hL.grow hx, rfl⟩
    | error => exact ⟨hL.grow hx, rfl⟩
    | fuel => trivial
  have skip : ∀ r : Reply, MemSim Z (ProgSim Z) (.ret (L, r)) (.ret (M, r)) R := fun r => ⟨hL, rfl⟩
  cases c with
  | new => exact ⟨⟨ptrsSim_append hL.events ⟨trivial, trivial⟩, hL.vals, hL.seen, hL.inside⟩, rfl⟩
  | leaf s => exact memSim_alloc (scalarCell_sim s) fun R' n n' hx hn _ => ⟨(hL.grow hx).keepVal (p := some n) (q := some n') hn, rfl⟩
  | array vs =>
    simp only [cmdM]
    rcases ptrsSim_pick hL.vals vs with ⟨e1, e2⟩ | ⟨xs, ys, e1, e2, e3⟩
    · rw [e1, e2]; exact skip _
    · rw [e1, e2]
      simp only [ptrsSim_nil e3]
      refine memSim_alloc (cellSim_arr ?_) fun R' n n' hx hn _ => ⟨(hL.grow hx).keepVal (p := some n) (q := some n') hn, rfl⟩
      split
      · trivial
      · exact e3
  | object es =>
    simp only [cmdM]
    rcases mapSim_pick hL.vals es with ⟨e1, e2⟩ | ⟨xs, ys, e1, e2, e3⟩
    · rw [e1, e2]; exact skip _
    · rw [e1, e2]
      refine memSim_alloc (o := .map _) (o' := .map _) (ofEntries_sim e3 trivial) fun R' m m' hx hm _ => memSim_alloc (cellSim_obj hm) fun R2 n n' hx2 hn _ => ?_
      exact ⟨(hL.grow (hx.trans hx2)).keepVal (p := some n) (q := some n') hn, rfl⟩
  | put ow i key j =>
    simp only [cmdM]
    rcases ptrsSim_get hL.events i with ⟨e1, e2⟩ | ⟨e, e', e1, e2, he⟩
    · rw [e1, e2]; exact skip _
    · rcases ptrsSim_get hL.vals j with ⟨f1, f2⟩ | ⟨v, v', f1, f2, hv⟩
      · rw [e1, e2, f1, f2]; exact skip _
      · rw [e1, e2, f1, f2]
        refine memSim_bind (putM_sim _ he hv ow) fun R' x y hx hxy => ⟨?_, by rw [ptrSim_isNone hxy.2.1, hxy.2.2]⟩
        exact ⟨ptrsSim_set (ptrsSim_grow hx hL.events) i hxy.1, ptrsSim_append (ptrsSim_grow hx hL.vals) ⟨hxy.2.1, trivial⟩, hL.seen, hL.inside⟩
  | get i key =>
    simp only [cmdM]
    rcases ptrsSim_get hL.events i with ⟨e1, e2⟩ | ⟨e, e', e1, e2, he⟩
    · rw [e1, e2]; exact skip _
    · rw [e1, e2]
      exact memSim_bind (getM_sim _ he) fun R' x y hx hxy => ⟨(hL.grow hx).keepVal hxy, by rw [ptrSim_isNone hxy]⟩
  | delete i key =>
    simp only [cmdM]
    rcases ptrsSim_get hL.events i with ⟨e1, e2⟩ | ⟨e, e', e1, e2, he⟩
    · rw [e1, e2]; exact skip _
    · rw [e1, e2]
      exact memSim_bind (deleteM_sim _ he) fun R' x y hx hxy => ⟨(hL.grow hx).keepVal hxy, by rw [ptrSim_isNone hxy]⟩
  | process k i =>
    simp only [cmdM]
    cases hk : env.pipes[k]? with
    | none => exact skip _
    | some p =>
      rcases ptrsSim_get hL.events i with ⟨e1, e2⟩ | ⟨e, e', e1, e2, he⟩
      · rw [e1, e2]; exact skip _
      · rw [e1, e2]
        have hc := pipeline_thr_calls (hpipes p (List.mem_iff_getElem?.mpr ⟨k, hk⟩)) ()
        refine memSim_bind (thr_mem_sim env.conv _ hc he) fun R' x y hx hxy => ⟨?_, by rw [hxy.2]⟩
        exact ⟨ptrsSim_set (ptrsSim_grow hx hL.events) i hxy.1, ptrsSim_grow hx hL.vals, hL.seen, hL.inside⟩
  | look j =>
    simp only [cmdM]
    rcases ptrsSim_get hL.vals j with ⟨e1, e2⟩ | ⟨p, q, e1, e2, he⟩
    · rw [e1, e2]; exact skip _
    · rw [e1, e2]
      cases p <;> cases q <;> simp only [PtrSim] at he
      · exact skip _
      · refine memSim_readCell (p := some _) (q := some _) he fun R' c d hx hc _ => ?_
        have ho := hc.object
        rw [hc.type, hc.bool, hc.integer, hc.unsigned, hc.float, hc.timestamp, hc.string, sliceSim_length hc.array]
        cases ha : c.object <;> cases hb : d.object <;> simp only [ha, hb, PtrSim] at ho ⊢
        · exact ⟨hL.grow hx, rfl⟩
        · exact memSim_readMap (m := some _) (m' := some _) ho fun R2 es es' hx2 hes => ⟨hL.grow (hx.trans hx2), by rw [mapSim_keys hes]⟩
  | item j i =>
    simp only [cmdM]
    rcases ptrsSim_get hL.vals j with ⟨e1, e2⟩ | ⟨p, q, e1, e2, he⟩
    · rw [e1, e2]; exact skip _
    · rw [e1, e2]
      refine memSim_readCell he fun R' c d hx hc _ => ?_
      simp only [itemAt]
      rcases ptrsSim_get (slice_getD_sim hc.array) i with ⟨f1, f2⟩ | ⟨v, v', f1, f2, hv⟩
      · rw [f1, f2]; trivial
      · rw [f1, f2]; exact ⟨(hL.grow hx).keepVal hv, by rw [ptrSim_isNone hv]⟩
  | field j key =>
    simp only [cmdM]
    rcases ptrsSim_get hL.vals j with ⟨e1, e2⟩ | ⟨p, q, e1, e2, he⟩
    · rw [e1, e2]; exact skip _
    · rw [e1, e2]
      refine memSim_readCell he fun R' c d hx hc _ => memSim_readMap hc.object fun R2 es es' hx2 hes => ?_
      have : PtrSim R2 (es.lookup key).join (es'.lookup key).join := by
        rcases lookup_sim hes key with ⟨e1, e2⟩ | ⟨p, q, e1, e2, e3⟩
        · simp [e1, e2, PtrSim]
        · simpa [e1, e2] using e3
      exact ⟨(hL.grow (hx.trans hx2)).keepVal this, by rw [ptrSim_isNone this]⟩
  | same i j =>
    simp only [cmdM]
    rcases ptrsSim_get hL.vals i with ⟨e1, e2⟩ | ⟨p, q, e1, e2, he⟩
    · rw [e1, e2]; exact skip _
    · rcases ptrsSim_get hL.vals j with ⟨f1, f2⟩ | ⟨v, v', f1, f2, hv⟩
      · rw [e1, e2, f1, f2]; exact skip _
      · rw [e1, e2, f1, f2]
        simp only [ptrSim_eq h1 he hv]
        exact skip _
  | json i =>
    simp only [cmdM]
    rcases ptrsSim_get hL.events i with ⟨e1, e2⟩ | ⟨e, e', e1, e2, he⟩
    · rw [e1, e2]; exact skip _
    · rw [e1, e2]
      exact memSim_bind (marshalEventM_sim env.json env.stack he) fun R' x y hx hxy => by subst hxy; exact text hx x
  | sharedGet i key =>
    simp only [cmdM]
    cases hi : env.shared[i]? with
    | none => exact skip _
    | some e =>
      simp only
      split
      · exact skip _
      · rename_i hne
        refine memSim_bind (getM_in hZ hne (hsh e (List.mem_iff_getElem?.mpr ⟨i, hi⟩))) fun R' x y hx hxy => ?_
        obtain ⟨rfl, hp⟩ := hxy
        exact ⟨(hL.grow hx).keepSeen hp, rfl⟩
  | sharedLook j =>
    simp only [cmdM, ← hL.seen]
    rcases hj : L.seen[j]? with _ | _ | a
    · exact skip _
    · exact skip _
    · have hp := hL.inside _ (List.mem_iff_getElem?.mpr ⟨j, hj⟩)
      refine memSim_readCell_in hp fun R' c hx hd => ?_
      have ho := in_object hZ hp hd
      cases ha : c.object with
      | none => exact ⟨hL.grow hx, rfl⟩
      | some m =>
        rw [ha] at ho
        exact memSim_readMap_in ho fun R2 hx2 => ⟨hL.grow (hx.trans hx2), rfl⟩
  | sharedItem j i =>
    simp only [cmdM, ← hL.seen]
    rcases hj : L.seen[j]? with _ | p
    · exact skip _
    · have hp := hL.inside _ (List.mem_iff_getElem?.mpr ⟨j, hj⟩)
      refine memSim_readCell_in hp fun R' c hx hd => ?_
      simp only [itemAt]
      cases hi : (c.array.getD [])[i]? with
      | none => trivial
      | some q =>
        refine ⟨(hL.grow hx).keepSeen ?_, rfl⟩
        cases ha : c.array with
        | none => simp [ha] at hi
        | some ps =>
          simp only [ha, Option.getD_some] at hi
          exact in_array hZ hp hd ha (List.mem_iff_getElem?.mpr ⟨i, hi⟩)
  | sharedField j key =>
    simp only [cmdM, ← hL.seen]
    rcases hj : L.seen[j]? with _ | p
    · exact skip _
    · have hp := hL.inside _ (List.mem_iff_getElem?.mpr ⟨j, hj⟩)
      refine memSim_readCell_in hp fun R' c hx hd => ?_
      have ho := in_object hZ hp hd
      exact memSim_readMap_in ho fun R2 hx2 => ⟨(hL.grow (hx.trans hx2)).keepSeen (in_join hZ ho key), rfl⟩
  | sharedJson i =>
    simp only [cmdM]
    cases hi : env.shared[i]? with
    | none => exact skip _
    | some e =>
      exact memSim_bind (marshalEventM_in hZ env.json env.stack (hsh e (List.mem_iff_getElem?.mpr ⟨i, hi⟩))) fun R' x y hx hxy => by subst hxy; exact text hx x

theorem prog_sim {X : Type} (env : Env) (hsh : ∀ e ∈ env.shared, Z.In e) (hpipes : ∀ p ∈ env.pipes, p.Calls fun b => ∀ v, b.valueAddr = some v → R v v) (h1 : OneToOne R) {L M : Locals} (hL : LocalsSim Z R L M)
    (p : Prog X) : MemSim Z (ProgSim Z) (p.mem env L) (p.mem env M) R := by
  induction p generalizing R L M with
  | ret x => exact ⟨hL, rfl⟩
  | call c k ih =>
    refine memSim_bind (cmdM_sim hZ env hsh hpipes h1 hL c) fun R' x y hx hxy => ?_
    rw [← hxy.2]
    exact ih _ (fun p hp => pipeline_calls_mono (fun b hb v hv => hx.1 _ _ (hb v hv)) (hpipes p hp)) (hx.2 h1) hxy.1
end

end Goro
end Sawmill
