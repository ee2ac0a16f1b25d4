import Verif.Lemmas.Mem
/-!
# Programs with single memory accesses: the same run in two memories

`MemSim Z`: two programs do the same, access by access, on memories that look the same (`Lemmas/HeapSim.lean`); neither writes to what is shared (`Zone`).
-/

namespace Sawmill
open Mem

/-- What goroutines share: leaves (`V`), which may be part of anything, and a region `S` of the first memory that is only read. -/
structure Zone where
  V : Nat → Prop
  S : Nat → Prop
  h0 : Heap

/-- The pointer is nil or leads into the region that is only read. -/
def Zone.In (Z : Zone) (p : Ptr) : Prop := ∀ a, p = some a → Z.S a

/-- No address is related to two. -/
def OneToOne (R : Nat → Nat → Prop) : Prop := (∀ a b b', R a b → R a b' → b = b') ∧ ∀ a a' b, R a b → R a' b → a = a'

/-- More addresses are related. -/
def Grow (R R' : Nat → Nat → Prop) : Prop := Ext R R' ∧ (OneToOne R → OneToOne R')

theorem Grow.refl (R : Nat → Nat → Prop) : Grow R R := ⟨Ext.refl R, id⟩
theorem Grow.trans {R R' R'' : Nat → Nat → Prop} (h : Grow R R') (h' : Grow R' R'') : Grow R R'' := ⟨h.1.trans h'.1, h'.2 ∘ h.2⟩
theorem ptrSim_grow {R R' : Nat → Nat → Prop} (hx : Grow R R') {p q : Ptr} (h : PtrSim R p q) : PtrSim R' p q := ptrSim_mono hx.1 h
theorem ptrsSim_grow {R R' : Nat → Nat → Prop} (hx : Grow R R') {p q : List Ptr} (h : PtrsSim R p q) : PtrsSim R' p q := ptrsSim_mono hx.1 h
theorem objSim_grow {R R' : Nat → Nat → Prop} (hx : Grow R R') {p q : HObj} (h : ObjSim R p q) : ObjSim R' p q := objSim_mono hx.1 h
theorem Sim.one {R : Nat → Nat → Prop} {h1 h2 : Heap} (s : Sim R h1 h2) : OneToOne R := ⟨fun _ _ _ => s.fwd, fun _ _ _ => s.bwd⟩

def MemSim {α β : Type} (Z : Zone) (post : (Nat → Nat → Prop) → α → β → Prop) : Mem α → Mem β → (Nat → Nat → Prop) → Prop
  | .ret x, .ret y, R => post R x y
  | .readCell p k, .readCell q k', R =>
    (PtrSim R p q ∧ ∀ R' c d, Grow R R' → CellSim R' c d → (∀ a, p = some a → Z.V a → c.type ≠ .array) → MemSim Z post (k c) (k' d) R') ∨
    (p = q ∧ Z.In p ∧ ∀ R' c, Grow R R' → deref Z.h0 p = some c → MemSim Z post (k c) (k' c) R')
  | .readMap m k, .readMap m' k', R =>
    (PtrSim R m m' ∧ ∀ R' es es', Grow R R' → MapSim R' es es' → (∀ a, m = some a → Z.V a → es = []) → MemSim Z post (k es) (k' es') R') ∨
    (m = m' ∧ Z.In m ∧ ∀ R', Grow R R' → MemSim Z post (k (mapOf Z.h0 m)) (k' (mapOf Z.h0 m)) R')
  | .writeMap m key p k, .writeMap m' key' p' k', R => PtrSim R m m' ∧ key = key' ∧ PtrSim R p p' ∧ ∀ R', Grow R R' → MemSim Z post k k' R'
  | .alloc o k, .alloc o' k', R => ObjSim R o o' ∧ ∀ R' n n', Grow R R' → R' n n' → ¬ Z.V n → MemSim Z post (k n) (k' n') R'
  | .append a items k, .append a' items' k', R => R a a' ∧ ¬ Z.V a ∧ PtrsSim R items items' ∧ ∀ R', Grow R R' → MemSim Z post k k' R'
  | .count id kind k, .count id' kind' k', R => id = id' ∧ kind = kind' ∧ ∀ R', Grow R R' → MemSim Z post k k' R'
  | .peek p k, .peek q k', R =>
    (PtrSim R p q ∧ (∀ R', Grow R R' → MemSim Z post (k none) (k' none) R') ∧ ∀ R' c d, Grow R R' → CellSim R' c d → MemSim Z post (k (some c)) (k' (some d)) R') ∨
    (p = q ∧ Z.In p ∧ ∀ R', Grow R R' → MemSim Z post (k (deref Z.h0 p)) (k' (deref Z.h0 p)) R')
  | .eraseMap m key k, .eraseMap m' key' k', R => PtrSim R m m' ∧ (∀ a, m = some a → ¬ Z.V a) ∧ key = key' ∧ ∀ R', Grow R R' → MemSim Z post k k' R'
  | .crash, .crash, _ => True
  | _, _, _ => False

variable {α β γ δ : Type} {Z : Zone} {post : (Nat → Nat → Prop) → α → β → Prop} {post' : (Nat → Nat → Prop) → γ → δ → Prop} {R : Nat → Nat → Prop}

theorem memSim_mono (hpost : ∀ R R' x y, Grow R R' → post R x y → post R' x y) {t : Mem α} {t' : Mem β} {R' : Nat → Nat → Prop} (hx : Grow R R') (h : MemSim Z post t t' R) : MemSim Z post t t' R' := by
  cases t <;> cases t' <;> simp only [MemSim] at h ⊢
  · exact hpost _ _ _ _ hx h
  · rcases h with h | h
    · exact .inl ⟨ptrSim_grow hx h.1, fun R'' c d hx' => h.2 R'' c d (hx.trans hx')⟩
    · exact .inr ⟨h.1, h.2.1, fun R'' c hx' => h.2.2 R'' c (hx.trans hx')⟩
  · rcases h with h | h
    · exact .inl ⟨ptrSim_grow hx h.1, fun R'' c d hx' => h.2 R'' c d (hx.trans hx')⟩
    · exact .inr ⟨h.1, h.2.1, fun R'' hx' => h.2.2 R'' (hx.trans hx')⟩
  · exact ⟨ptrSim_grow hx h.1, h.2.1, ptrSim_grow hx h.2.2.1, fun R'' hx' => h.2.2.2 R'' (hx.trans hx')⟩
  · exact ⟨objSim_grow hx h.1, fun R'' c d hx' => h.2 R'' c d (hx.trans hx')⟩
  · exact ⟨hx.1 _ _ h.1, h.2.1, ptrsSim_grow hx h.2.2.1, fun R'' hx' => h.2.2.2 R'' (hx.trans hx')⟩
  · exact ⟨h.1, h.2.1, fun R'' hx' => h.2.2 R'' (hx.trans hx')⟩
  · rcases h with h | h
    · exact .inl ⟨ptrSim_grow hx h.1, fun R'' hx' => h.2.1 R'' (hx.trans hx'), fun R'' c d hx' => h.2.2 R'' c d (hx.trans hx')⟩
    · exact .inr ⟨h.1, h.2.1, fun R'' hx' => h.2.2 R'' (hx.trans hx')⟩
  · exact ⟨ptrSim_grow hx h.1, h.2.1, h.2.2.1, fun R'' hx' => h.2.2.2 R'' (hx.trans hx')⟩

theorem memSim_bind {t : Mem α} {t' : Mem β} {f : α → Mem γ} {f' : β → Mem δ} (h : MemSim Z post t t' R) (hf : ∀ R' x y, Grow R R' → post R' x y → MemSim Z post' (f x) (f' y) R') :
    MemSim Z post' (t.bind f) (t'.bind f') R := by
  induction t generalizing t' R with
  | ret x => cases t' <;> simp only [MemSim] at h; exact hf R x _ (Grow.refl R) h
  | readCell p k ih =>
    cases t' <;> simp only [MemSim] at h
    rcases h with h | h
    · exact .inl ⟨h.1, fun R' c d hx hc hv => ih c (h.2 R' c d hx hc hv) fun R'' x y hx' => hf R'' x y (hx.trans hx')⟩
    · exact .inr ⟨h.1, h.2.1, fun R' c hx hc => ih c (h.2.2 R' c hx hc) fun R'' x y hx' => hf R'' x y (hx.trans hx')⟩
  | readMap p k ih =>
    cases t' <;> simp only [MemSim] at h
    rcases h with h | h
    · exact .inl ⟨h.1, fun R' c d hx hc hv => ih c (h.2 R' c d hx hc hv) fun R'' x y hx' => hf R'' x y (hx.trans hx')⟩
    · exact .inr ⟨h.1, h.2.1, fun R' hx => ih _ (h.2.2 R' hx) fun R'' x y hx' => hf R'' x y (hx.trans hx')⟩
  | writeMap m key p k ih =>
    cases t' <;> simp only [MemSim] at h
    exact ⟨h.1, h.2.1, h.2.2.1, fun R' hx => ih (h.2.2.2 R' hx) fun R'' x y hx' => hf R'' x y (hx.trans hx')⟩
  | alloc o k ih =>
    cases t' <;> simp only [MemSim] at h
    exact ⟨h.1, fun R' n n' hx hn hv => ih n (h.2 R' n n' hx hn hv) fun R'' x y hx' => hf R'' x y (hx.trans hx')⟩
  | append a items k ih =>
    cases t' <;> simp only [MemSim] at h
    exact ⟨h.1, h.2.1, h.2.2.1, fun R' hx => ih (h.2.2.2 R' hx) fun R'' x y hx' => hf R'' x y (hx.trans hx')⟩
  | count id kind k ih =>
    cases t' <;> simp only [MemSim] at h
    exact ⟨h.1, h.2.1, fun R' hx => ih (h.2.2 R' hx) fun R'' x y hx' => hf R'' x y (hx.trans hx')⟩
  | peek p k ih =>
    cases t' <;> simp only [MemSim] at h
    rcases h with h | h
    · exact .inl ⟨h.1, fun R' hx => ih none (h.2.1 R' hx) fun R'' x y hx' => hf R'' x y (hx.trans hx'), fun R' c d hx hc => ih (some c) (h.2.2 R' c d hx hc) fun R'' x y hx' => hf R'' x y (hx.trans hx')⟩
    · exact .inr ⟨h.1, h.2.1, fun R' hx => ih _ (h.2.2 R' hx) fun R'' x y hx' => hf R'' x y (hx.trans hx')⟩
  | eraseMap m key k ih =>
    cases t' <;> simp only [MemSim] at h
    exact ⟨h.1, h.2.1, h.2.2.1, fun R' hx => ih (h.2.2.2 R' hx) fun R'' x y hx' => hf R'' x y (hx.trans hx')⟩
  | crash => cases t' <;> simp only [MemSim] at h; trivial

theorem memSim_readCell {p q : Ptr} {k : Cell → Mem α} {k' : Cell → Mem β} (hp : PtrSim R p q)
    (hk : ∀ R' c d, Grow R R' → CellSim R' c d → (∀ a, p = some a → Z.V a → c.type ≠ .array) → MemSim Z post (k c) (k' d) R') : MemSim Z post (.readCell p k) (.readCell q k') R := .inl ⟨hp, hk⟩
theorem memSim_readMapV {m m' : Option Nat} {k : AMap Ptr → Mem α} {k' : AMap Ptr → Mem β} (hp : PtrSim R m m')
    (hk : ∀ R' es es', Grow R R' → MapSim R' es es' → (∀ a, m = some a → Z.V a → es = []) → MemSim Z post (k es) (k' es') R') : MemSim Z post (.readMap m k) (.readMap m' k') R := .inl ⟨hp, hk⟩
theorem memSim_readMap {m m' : Option Nat} {k : AMap Ptr → Mem α} {k' : AMap Ptr → Mem β} (hp : PtrSim R m m')
    (hk : ∀ R' es es', Grow R R' → MapSim R' es es' → MemSim Z post (k es) (k' es') R') : MemSim Z post (.readMap m k) (.readMap m' k') R := .inl ⟨hp, fun R' es es' hx h _ => hk R' es es' hx h⟩
theorem memSim_writeMap {m m' : Option Nat} {key : Bytes} {p p' : Ptr} {k : Mem α} {k' : Mem β} (hm : PtrSim R m m') (hp : PtrSim R p p')
    (hk : ∀ R', Grow R R' → MemSim Z post k k' R') : MemSim Z post (.writeMap m key p k) (.writeMap m' key p' k') R := ⟨hm, rfl, hp, hk⟩
theorem memSim_alloc {o o' : HObj} {k : Nat → Mem α} {k' : Nat → Mem β} (ho : ObjSim R o o')
    (hk : ∀ R' n n', Grow R R' → R' n n' → ¬ Z.V n → MemSim Z post (k n) (k' n') R') : MemSim Z post (.alloc o k) (.alloc o' k') R := ⟨ho, hk⟩
theorem memSim_append {a a' : Nat} {items items' : List Ptr} {k : Mem α} {k' : Mem β} (ha : R a a') (hv : ¬ Z.V a) (hp : PtrsSim R items items')
    (hk : ∀ R', Grow R R' → MemSim Z post k k' R') : MemSim Z post (.append a items k) (.append a' items' k') R := ⟨ha, hv, hp, hk⟩
theorem memSim_peek {p q : Ptr} {k : Option Cell → Mem α} {k' : Option Cell → Mem β} (hp : PtrSim R p q) (hn : ∀ R', Grow R R' → MemSim Z post (k none) (k' none) R')
    (hk : ∀ R' c d, Grow R R' → CellSim R' c d → MemSim Z post (k (some c)) (k' (some d)) R') : MemSim Z post (.peek p k) (.peek q k') R := .inl ⟨hp, hn, hk⟩
theorem memSim_eraseMap {m m' : Option Nat} {key : Bytes} {k : Mem α} {k' : Mem β} (hm : PtrSim R m m') (hv : ∀ a, m = some a → ¬ Z.V a)
    (hk : ∀ R', Grow R R' → MemSim Z post k k' R') : MemSim Z post (.eraseMap m key k) (.eraseMap m' key k') R := ⟨hm, hv, rfl, hk⟩
theorem memSim_readCell_in {p : Ptr} {k : Cell → Mem α} {k' : Cell → Mem β} (hp : Z.In p)
    (hk : ∀ R' c, Grow R R' → deref Z.h0 p = some c → MemSim Z post (k c) (k' c) R') : MemSim Z post (.readCell p k) (.readCell p k') R := .inr ⟨rfl, hp, hk⟩
theorem memSim_readMap_in {m : Option Nat} {k : AMap Ptr → Mem α} {k' : AMap Ptr → Mem β} (hp : Z.In m)
    (hk : ∀ R', Grow R R' → MemSim Z post (k (mapOf Z.h0 m)) (k' (mapOf Z.h0 m)) R') : MemSim Z post (.readMap m k) (.readMap m k') R := .inr ⟨rfl, hp, hk⟩
theorem memSim_peek_in {p : Ptr} {k : Option Cell → Mem α} {k' : Option Cell → Mem β} (hp : Z.In p)
    (hk : ∀ R', Grow R R' → MemSim Z post (k (deref Z.h0 p)) (k' (deref Z.h0 p)) R') : MemSim Z post (.peek p k) (.peek p k') R := .inr ⟨rfl, hp, hk⟩

/-! ## The API and the processors -/

theorem getLoopM_sim (path : List Bytes) {m m' : Option Nat} (hm : PtrSim R m m') : MemSim Z PtrSim (getLoopM m path) (getLoopM m' path) R := by
  induction path generalizing m m' R with
  | nil => exact (trivial : PtrSim R none none)
  | cons k ks ih =>
    cases ks with
    | nil =>
      refine memSim_readMap hm fun R' es es' hx hes => ?_
      show PtrSim R' (es.lookup k).join (es'.lookup k).join
      rcases lookup_sim hes k with ⟨e1, e2⟩ | ⟨p, q, e1, e2, e3⟩
      · simp [e1, e2, PtrSim]
      · simpa [e1, e2] using e3
    | cons k2 ks =>
      refine memSim_readMap hm fun R' es es' hx hes => ?_
      rcases lookup_sim hes k with ⟨e1, e2⟩ | ⟨p, q, e1, e2, e3⟩
      · simp only [e1, e2]; exact (trivial : PtrSim R' none none)
      · simp only [e1, e2]
        refine memSim_readCell e3 fun R2 c d hx2 hc _ => memSim_readMap hc.object fun R3 fs fs' hx3 hfs => ?_
        rw [mapSim_length hfs]
        split
        · exact (trivial : PtrSim R3 none none)
        · exact ih (ptrSim_grow hx3 hc.object)

theorem getM_sim (path : List Bytes) {e e' : Event} (he : PtrSim R e e') : MemSim Z PtrSim (getM e path) (getM e' path) R := by
  refine memSim_readMap he fun R' es es' hx hes => ?_
  rw [mapSim_length hes]
  split
  · exact (trivial : PtrSim R' none none)
  · cases path with
    | nil => exact memSim_alloc (cellSim_obj (ptrSim_grow hx he)) fun R2 n n' hx2 hn _ => hn
    | cons k ks => exact getLoopM_sim _ (ptrSim_grow hx he)

theorem putLoopM_sim (path : List Bytes) {m m' : Option Nat} (hm : PtrSim R m m') {p q : Ptr} (hp : PtrSim R p q) : MemSim Z (fun _ x y => x = y) (putLoopM m path p) (putLoopM m' path q) R := by
  induction path generalizing m m' R with
  | nil => exact (rfl : true = true)
  | cons k ks ih =>
    cases ks with
    | nil => exact memSim_writeMap hm hp fun R' hx => (rfl : true = true)
    | cons k2 ks =>
      refine memSim_readMap hm fun R' es es' hx hes => ?_
      rcases lookup_sim hes k with ⟨e1, e2⟩ | ⟨p', q', e1, e2, e3⟩
      · simp only [e1, e2]
        refine memSim_alloc (by simp [ObjSim, MapSim]) fun R2 n n' hx2 hn _ => memSim_alloc (cellSim_obj hn) fun R3 b b' hx3 hb _ => ?_
        have hx' := (hx.trans hx2).trans hx3
        exact memSim_writeMap (ptrSim_grow hx' hm) hb fun R4 hx4 => ih (hx4.1 _ _ (hx3.1 _ _ hn)) (ptrSim_grow (hx'.trans hx4) hp)
      · simp only [e1, e2]
        refine memSim_readCell e3 fun R2 c d hx2 hc _ => ?_
        rw [hc.type]
        split
        · exact (rfl : false = false)
        · exact ih hc.object (ptrSim_grow (hx.trans hx2) hp)

/-- The same event (up to `R`), old value and error. -/
abbrev PutSim (R : Nat → Nat → Prop) (x y : Event × Ptr × Option PutErr) : Prop := PtrSim R x.1 y.1 ∧ PtrSim R x.2.1 y.2.1 ∧ x.2.2 = y.2.2

theorem putM'_sim (path : List Bytes) {e e' : Event} (he : PtrSim R e e') {p q : Ptr} (hp : PtrSim R p q) (ow : Bool) : MemSim Z PutSim (putM' e path p ow) (putM' e' path q ow) R := by
  refine memSim_bind (getM_sim path he) fun R' old old' hx ho => ?_
  have hon : old = none ↔ old' = none := by cases old <;> cases old' <;> simp [PtrSim] at ho ⊢
  simp only [ne_eq, hon]
  split
  · exact ⟨ptrSim_grow hx he, ho, rfl⟩
  · refine memSim_bind (putLoopM_sim path (ptrSim_grow hx he) (ptrSim_grow hx hp)) fun R2 b b' hx2 hb => ?_
    subst hb
    cases b
    · exact ⟨ptrSim_grow (hx.trans hx2) he, trivial, rfl⟩
    · exact ⟨ptrSim_grow (hx.trans hx2) he, ptrSim_grow hx2 ho, rfl⟩

theorem putM_sim (path : List Bytes) {e e' : Event} (he : PtrSim R e e') {p q : Ptr} (hp : PtrSim R p q) (ow : Bool) : MemSim Z PutSim (putM e path p ow) (putM e' path q ow) R := by
  have hon : p = none ↔ q = none := by cases p <;> cases q <;> simp [PtrSim] at hp ⊢
  simp only [putM, hon]
  split
  · exact ⟨he, trivial, rfl⟩
  · split
    · exact ⟨he, trivial, rfl⟩
    · cases e with
      | none => cases e' with
        | some b => simp [PtrSim] at he
        | none => exact memSim_alloc (by simp [ObjSim, MapSim]) fun R' n n' hx hn _ => putM'_sim _ (e := some n) (e' := some n') hn (ptrSim_grow hx hp) ow
      | some a => cases e' with
        | none => simp [PtrSim] at he
        | some b => exact putM'_sim _ he hp ow

/-- The same event (up to `R`) and the same result. -/
abbrev OutSim {X : Type} (R : Nat → Nat → Prop) (x y : Event × X) : Prop := PtrSim R x.1 y.1 ∧ x.2 = y.2

theorem outSim_mono {X : Type} (R R' : Nat → Nat → Prop) (x y : Event × X) (hx : Grow R R') (h : OutSim R x y) : OutSim R' x y := ⟨ptrSim_grow hx h.1, h.2⟩

theorem putThenM_sim (key : Bytes) {e e' : Event} (he : PtrSim R e e') {p q : Ptr} (hp : PtrSim R p q) : MemSim Z OutSim (putThenM e key p) (putThenM e' key q) R :=
  memSim_bind (putM_sim _ he hp true) fun R' x y hx h => ⟨h.1, by rw [h.2.2]⟩

theorem convM_sim (conv : Bytes → Bytes) (msg field target : Bytes) {e e' : Event} (he : PtrSim R e e') : MemSim Z OutSim (convM conv msg field target e) (convM conv msg field target e') R := by
  refine memSim_bind (getM_sim _ he) fun R' p q hx hp => ?_
  cases p with
  | none => cases q with
    | none => exact ⟨ptrSim_grow hx he, rfl⟩
    | some b => simp [PtrSim] at hp
  | some a => cases q with
    | none => simp [PtrSim] at hp
    | some b =>
      refine memSim_readCell hp fun R2 c d hx2 hc _ => ?_
      rw [hc.type, hc.string]
      split
      · exact ⟨ptrSim_grow (hx.trans hx2) he, rfl⟩
      · exact memSim_alloc (strCell_sim _) fun R3 n n' hx3 hn _ => putThenM_sim _ (ptrSim_grow ((hx.trans hx2).trans hx3) he) (p := some n) (q := some n') hn

theorem setM_sim {v : Nat} (hv : R v v) (copyFrom target : Bytes) {e e' : Event} (he : PtrSim R e e') : MemSim Z OutSim (setM v copyFrom target e) (setM v copyFrom target e') R := by
  refine memSim_readCell (p := some v) (q := some v) hv fun R1 c d hx1 hc _ => ?_
  have he1 := ptrSim_grow hx1 he
  rw [hc.type]
  split
  · exact putThenM_sim _ he1 (p := some v) (q := some v) (hx1.1 _ _ hv)
  · split
    · refine memSim_bind (getM_sim _ he1) fun R2 p q hx2 hp => ?_
      cases p with
      | none => cases q with
        | none => exact ⟨ptrSim_grow hx2 he1, rfl⟩
        | some b => simp [PtrSim] at hp
      | some a => cases q with
        | none => simp [PtrSim] at hp
        | some b => exact putThenM_sim _ (ptrSim_grow hx2 he1) (p := some a) (q := some b) hp
    · exact putThenM_sim _ he1 (p := none) (q := none) trivial

theorem appendM_sim (field value : Bytes) {e e' : Event} (he : PtrSim R e e') : MemSim Z OutSim (appendM field value e) (appendM field value e') R := by
  refine memSim_bind (getM_sim _ he) fun R1 p q hx1 hp => ?_
  have he1 := ptrSim_grow hx1 he
  cases p with
  | none => cases q with
    | some b => simp [PtrSim] at hp
    | none =>
      refine memSim_alloc (cellSim_arr (by simp [SliceSim])) fun R2 v v' hx2 hv hV => memSim_bind (putM_sim _ (ptrSim_grow hx2 he1) (p := some v) (q := some v') hv true) fun R3 x y hx3 hxy => ?_
      refine memSim_alloc (strCell_sim _) fun R4 n n' hx4 hn _ => memSim_append (hx4.1 _ _ (hx3.1 _ _ hv)) hV ⟨hn, trivial⟩ fun R5 hx5 => ?_
      exact ⟨ptrSim_grow (hx4.trans hx5) hxy.1, rfl⟩
  | some a => cases q with
    | none => simp [PtrSim] at hp
    | some b =>
      refine memSim_readCell hp fun R2 c d hx2 hc hV => ?_
      have he2 := ptrSim_grow hx2 he1
      rw [← hc.type]
      split
      · refine memSim_alloc (cellSim_arr ⟨hx2.1 _ _ hp, trivial⟩) fun R3 v v' hx3 hv hV3 => memSim_alloc (strCell_sim _) fun R4 n n' hx4 hn _ => ?_
        exact memSim_append (hx4.1 _ _ hv) hV3 ⟨hn, trivial⟩ fun R5 hx5 => ⟨ptrSim_grow ((hx3.trans hx4).trans hx5) he2, rfl⟩
      · split
        · exact ⟨he2, rfl⟩
        · rename_i hne
          refine memSim_alloc (strCell_sim _) fun R3 n n' hx3 hn _ => memSim_append (hx3.1 _ _ (hx2.1 _ _ hp)) (fun hVa => hV a rfl hVa (by simpa using hne)) ⟨hn, trivial⟩ fun R4 hx4 => ?_
          exact ⟨ptrSim_grow (hx3.trans hx4) he2, rfl⟩

theorem builtin_mem_sim (cv : Conv) (b : Builtin) (hb : ∀ v, b.valueAddr = some v → R v v) {e e' : Event} (he : PtrSim R e e') : MemSim Z OutSim (b.mem cv e) (b.mem cv e') R := by
  cases b with
  | lowercase f t => exact convM_sim _ _ _ _ he
  | uppercase f t => exact convM_sim _ _ _ _ he
  | set v c t => exact setM_sim (hb v rfl) _ _ he
  | append f v d => exact appendM_sim _ _ he
  | remove fs => exact ⟨he, rfl⟩
  | communityId => exact ⟨he, rfl⟩

/-- Every data call of a goroutine's run satisfies `P`. -/
def Thr.Calls {A R X : Type} (P : A → Prop) : Thr A R X → Prop
  | .ret _ => True
  | .inc _ _ k => k.Calls P
  | .call a k => P a ∧ ∀ r, (k r).Calls P

section
variable {A Q X Ev : Type} {P : A → Prop}

theorem prog_thr_calls (p : Prog A Q) (hp : p.Calls P) (ev : PEvent Ev) (k : PEvent Ev → Option Err → Thr A Q X) (hk : ∀ ev e, (k ev e).Calls P) : (p.thr ev k).Calls P := by
  induction p generalizing ev with
  | done e => exact hk _ _
  | cancel p ih => exact ih hp _
  | drop p ih => exact ih hp _
  | call a p ih => exact ⟨hp.1, fun r => ih r (hp.2 r) ev⟩

mutual
theorem node_thr_calls : ∀ (n : Node A Q), n.Calls P → ∀ (ev : PEvent Ev) (k : PEvent Ev → Option Err → Thr A Q X), (∀ ev e, (k ev e).Calls P) → (n.thr ev k).Calls P
  | .mk id cond ignF ignM onF proc, hn, ev, k, hk => by
    simp only [Node.Calls] at hn
    simp only [Node.thr, Thr.Calls]
    refine prog_thr_calls proc hn.1 ev _ fun ev e => ?_
    cases e with
    | none => exact hk _ _
    | some err =>
      simp only
      split
      · exact hk _ _
      · split
        · exact hk _ _
        · refine thrAll_calls onF hn.2 ev _ _ fun ev e => ?_
          split
          · exact hk _ _
          · exact hk _ _
theorem thrAll_calls : ∀ (ns : List (Node A Q)), Node.CallsAll P ns → ∀ (ev : PEvent Ev) (err : Option Err) (k : PEvent Ev → Option Err → Thr A Q X), (∀ ev e, (k ev e).Calls P) →
    (Node.thrAll ns ev err k).Calls P
  | [], _, ev, err, k, hk => hk _ _
  | n :: ns, hn, ev, err, k, hk => by
    simp only [Node.CallsAll] at hn
    simp only [Node.thrAll]
    refine node_thr_calls n hn.1 ev _ fun ev e => ?_
    cases e with
    | none => exact thrAll_calls ns hn.2 ev none k hk
    | some err => exact hk _ _
end

theorem pipeline_thr_calls {p : Pipeline A Q} (hp : p.Calls P) (evt : Ev) : (p.thr evt).Calls P := by
  have hfin : ∀ (ev : PEvent Ev) (e : Option Err), (finish ev e : Thr A Q _).Calls P := by intro ev e; cases e <;> trivial
  refine thrAll_calls p.processors hp.1 _ _ _ fun ev e => ?_
  cases e with
  | none => exact hfin ev none
  | some err =>
    simp only [Pipeline.afterProcessors]
    split
    · exact thrAll_calls p.onFailure hp.2 _ _ _ hfin
    · exact hfin _ _
end

theorem thr_mem_sim {X : Type} (cv : Conv) (t : Thr Builtin (Option Err) X) (ht : t.Calls fun b => ∀ v, b.valueAddr = some v → R v v) {e e' : Event} (he : PtrSim R e e') :
    MemSim Z OutSim (t.mem cv e) (t.mem cv e') R := by
  suffices h : ∀ R', Grow R R' → ∀ e e', PtrSim R' e e' → MemSim Z OutSim (t.mem cv e) (t.mem cv e') R' from h R (Grow.refl R) e e' he
  clear he
  induction t with
  | ret x => intro R' hx e e' he; exact ⟨he, rfl⟩
  | inc id k next ih => intro R' hx e e' he; exact ⟨rfl, rfl, fun R2 hx2 => ih ht R2 (hx.trans hx2) _ _ (ptrSim_grow hx2 he)⟩
  | call b next ih =>
    intro R' hx e e' he
    refine memSim_bind (builtin_mem_sim cv b (fun v hv => hx.1 _ _ (ht.1 v hv)) he) fun R2 x y hx2 hxy => ?_
    rw [← hxy.2]
    exact ih _ (ht.2 _) R2 (hx.trans hx2) _ _ hxy.1

end Sawmill
