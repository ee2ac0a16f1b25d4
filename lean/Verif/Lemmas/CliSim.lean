import Verif.Lemmas.Trim
import Verif.Lemmas.Scan
import Verif.Lemmas.JsonEnc
import Verif.Props.Reuse
/-!
# One line does not influence the next
-/

namespace Sawmill
open Rfc ATree

/-! ## Related heaps have the same JSON -/

theorem joinText_congr {α β : Type} {f : α → JOut Bytes} {g : β → JOut Bytes} {r : α → β → Prop} (h : ∀ x y, r x y → f x = g y) : ∀ {xs : List α} {ys : List β}, List.Forall₂ r xs ys → joinText f xs = joinText g ys
  | [], [], _ => rfl
  | [x], [y], .cons h1 _ => h x y h1
  | x :: x' :: xs, y :: y' :: ys, .cons h1 h2 => by
    rw [joinText_cons, joinText_cons, h x y h1, joinText_congr h h2]

theorem forall₂_ptrs {R : Nat → Nat → Prop} : ∀ {ps qs : List Ptr}, PtrsSim R ps qs → List.Forall₂ (PtrSim R) ps qs
  | [], [], _ => .nil
  | p :: ps, q :: qs, h => .cons h.1 (forall₂_ptrs h.2)

theorem forall₂_map {R : Nat → Nat → Prop} : ∀ {ps qs : AMap Ptr}, MapSim R ps qs → List.Forall₂ (fun x y : Bytes × Ptr => x.1 = y.1 ∧ PtrSim R x.2 y.2) ps qs
  | [], [], _ => .nil
  | (_, _) :: ps, (_, _) :: qs, h => .cons ⟨h.1, h.2.1⟩ (forall₂_map h.2.2)

theorem marshalPtr_sim (env : JEnv) {R : Nat → Nat → Prop} {h1 h2 : Heap} (s : Sim R h1 h2) : ∀ n p q, PtrSim R p q → marshalPtr env h1 n p = marshalPtr env h2 n q := by
  intro n
  induction n with
  | zero => intro p q _; rfl
  | succ n ih =>
    intro p q hp
    simp only [marshalPtr]
    rcases deref_sim s hp with ⟨d1, d2⟩ | ⟨c, d, d1, d2, i1, i2, i3, i4, i5, i6, i7, i8, i9⟩
    · rw [d1, d2]
    · rw [d1, d2]
      simp only
      rw [i9, i8, i3, i1, i5, i4, i2]
      have harr : (match c.array with
          | none => JOut.ok (lit "null")
          | some ps => (joinText (marshalPtr env h1 n) ps).bind fun t => .ok (91 :: (t ++ [93]))) = (match d.array with
          | none => JOut.ok (lit "null")
          | some ps => (joinText (marshalPtr env h2 n) ps).bind fun t => .ok (91 :: (t ++ [93]))) := by
        cases hc : c.array <;> cases hd : d.array <;> rw [hc, hd] at i6 <;> simp only [SliceSim] at i6
        simp only
        rw [joinText_congr ih (forall₂_ptrs i6)]
      have hobj : (match c.object with
          | none => JOut.ok (lit "null")
          | some m => (joinText (fun e : Bytes × Ptr => (marshalPtr env h1 n e.2).bind fun t => .ok (encStr e.1 ++ 58 :: t)) (mapOf h1 (some m))).bind fun t => .ok (123 :: (t ++ [125]))) = (match d.object with
          | none => JOut.ok (lit "null")
          | some m => (joinText (fun e : Bytes × Ptr => (marshalPtr env h2 n e.2).bind fun t => .ok (encStr e.1 ++ 58 :: t)) (mapOf h2 (some m))).bind fun t => .ok (123 :: (t ++ [125]))) := by
        cases hc : c.object <;> cases hd : d.object <;> rw [hc, hd] at i7 <;> simp only [PtrSim] at i7
        simp only
        rw [joinText_congr (r := fun x y : Bytes × Ptr => x.1 = y.1 ∧ PtrSim R x.2 y.2) (fun x y hxy => by rw [ih x.2 y.2 hxy.2, hxy.1]) (forall₂_map (mapOf_sim s (p := some _) (q := some _) i7))]
      cases ht : d.type with
      | array => exact congrArg (fun r => JOut.bind r compact) harr
      | object => exact congrArg (fun r => JOut.bind r compact) hobj
      | _ => rfl

theorem marshalEvent_sim (env : JEnv) (n : Nat) {R : Nat → Nat → Prop} {h1 h2 : Heap} (s : Sim R h1 h2) {e1 e2 : Event} (he : PtrSim R e1 e2) : marshalEvent env n h1 e1 = marshalEvent env n h2 e2 := by
  cases e1 <;> cases e2 <;> simp only [PtrSim] at he
  · rfl
  · simp only [marshalEvent]
    rw [joinText_congr (r := fun x y : Bytes × Ptr => x.1 = y.1 ∧ PtrSim R x.2 y.2) (fun x y hxy => by rw [marshalPtr_sim env s n x.2 y.2 hxy.2, hxy.1]) (forall₂_map (mapOf_sim s (p := some _) (q := some _) he))]

/-! ## The event of a line -/

theorem lineEvent_sim (i : Nat) (l : Bytes) {R : Nat → Nat → Prop} {h1 h2 : Heap} (s : Sim R h1 h2) :
    ResSim (fun x y => ∃ R', Ext R R' ∧ Sim R' x.1 y.1 ∧ PtrSim R' x.2 y.2) (lineEvent h1 i l) (lineEvent h2 i l) := by
  simp only [lineEvent, Heap.alloc, apiPut]
  have s1 := sim_alloc (o1 := .cell (uintCell (BitVec.ofNat 64 i))) (o2 := .cell (uintCell (BitVec.ofNat 64 i))) s (cellSim_self rfl rfl)
  rcases (put_sim s1 (keyToPath (lit "@metadata.line_number")) (e1 := newEvent) (e2 := newEvent) trivial (p := some h1.length) (q := some h2.length) (.inr ⟨rfl, rfl⟩) true).cases with
    ⟨x, y⟩ | ⟨⟨g1, f1, _, _⟩, ⟨g2, f2, _, _⟩, x, y, R1, x1, s2, hf, _⟩
  · rw [x, y]; trivial
  · rw [x, y]
    simp only at s2 hf ⊢
    have s3 := sim_alloc (o1 := .cell (strCell l)) (o2 := .cell (strCell l)) s2 (cellSim_self rfl rfl)
    rcases (put_sim s3 (keyToPath (lit "event.original")) (ptrSim_mono (ext1 _ _ _) hf) (p := some g1.length) (q := some g2.length) (.inr ⟨rfl, rfl⟩) true).cases with
      ⟨x', y'⟩ | ⟨⟨g1', f1', _, _⟩, ⟨g2', f2', _, _⟩, x', y', R2, x2, s4, hf', _⟩
    · rw [x', y']; trivial
    · rw [x', y']
      exact ⟨R2, ((((ext1 _ _ _).trans x1).trans (ext1 _ _ _)).trans x2), s4, hf'⟩

theorem keeps_lineEvent {Q : Cell → Prop} {h h' : Heap} {i : Nat} {l : Bytes} {e : Event} (hl : lineEvent h i l = .ok (h', e)) : Keeps Q h h' := by
  simp only [lineEvent, Heap.alloc, apiPut] at hl
  split at hl
  · simp at hl
  · next x =>
    split at hl
    · simp at hl
    · next y =>
      simp only [Res.ok.injEq, Prod.mk.injEq] at hl
      rw [← hl.1]
      exact (((keeps_alloc _ _).trans (keeps_put x)).trans (keeps_alloc _ _)).trans (keeps_put y)

/-! ## Handling a line -/

theorem keeps_handleLine (cv : Conv) (p : Pipeline Builtin (Option Err)) {w w' : PWorld Heap} {i : Nat} {l : Bytes} {r : Handled} (hh : handleLine cv p w i l = .ok (w', r)) :
    Keeps (fun c => c.type ≠ .array) w.world w'.world := by
  simp only [handleLine] at hh
  split at hh
  · simp at hh
  · next we hwe =>
    split at hh
    · simp at hh
    · next w1 ret err x =>
      simp only [Res.ok.injEq, Prod.mk.injEq] at hh
      rw [← hh.1]
      refine process_keeps (builtinCall cv) (fun u => Keeps (fun c => c.type ≠ .array) w.world u.1) ?_ p () (keeps_lineEvent (e := we.2) (by exact hwe)) x
      intro _ u b u' r hu hc
      simp only [builtinCall] at hc
      cases y : b.step cv u.1 u.2 with
      | panic => simp [y] at hc
      | ok z =>
        obtain ⟨g, f, e⟩ := z
        simp only [y, Res.map_ok, Res.ok.injEq, Prod.mk.injEq] at hc
        rw [← hc.1]
        exact hu.trans (keeps_step cv b y)

/-- Two heaps that agree on the configured values: the same line gets the same treatment. -/
theorem handleLine_same (cv : Conv) (p : Pipeline Builtin (Option Err)) (w1 w2 : PWorld Heap) (i : Nat) (l : Bytes)
    (hp : p.Calls fun b => ∀ v, b.valueAddr = some v → SharedLeaf w1.world w2.world v) :
    ResSim (fun x y => x.2.err = y.2.err ∧ x.2.returned = y.2.returned ∧ ∀ env n, marshalEvent env n x.2.heap x.2.event = marshalEvent env n y.2.heap y.2.event) (handleLine cv p w1 i l) (handleLine cv p w2 i l) := by
  simp only [handleLine]
  rcases (lineEvent_sim i l (sim_leaves w1.world w2.world)).cases with ⟨x, y⟩ | ⟨⟨g1, f1⟩, ⟨g2, f2⟩, x, y, R, hx, s, he⟩
  · rw [x, y]; trivial
  · rw [x, y]
    simp only at s he ⊢
    have := pipelineProcess_sim (builtinCall cv) (WSim (SharedLeaf w1.world w2.world)) _ (fun _ u1 u2 b hb hu => builtinCall_sim cv _ u1 u2 b hb hu) p hp ()
      (w1 := ⟨(g1, f1), w1.counts, w1.log⟩) (w2 := ⟨(g2, f2), w2.counts, w2.log⟩) ⟨R, s, he, fun v hv => hx _ _ ⟨rfl, hv⟩⟩
    rcases this.cases with ⟨x, y⟩ | ⟨⟨u1, q1⟩, ⟨u2, q2⟩, x, y, ⟨R', s', he', _⟩, hq⟩
    · rw [x, y]; trivial
    · simp only at hq s' he'
      subst hq
      rw [x, y]
      exact ⟨rfl, rfl, fun env n => marshalEvent_sim env n s' he'⟩

theorem soloOutcome_same (env : JEnv) (n : Nat) (cv : Conv) (p : Pipeline Builtin (Option Err)) (w w' : PWorld Heap) (i : Nat) (l : Bytes)
    (hp : p.Calls (Builtin.LeafConfig w.world)) (hk : Keeps (fun c => c.type ≠ .array) w.world w'.world) : soloOutcome env n cv p w i l = soloOutcome env n cv p w' i l := by
  have : ∀ b : Builtin, b.LeafConfig w.world → ∀ v, b.valueAddr = some v → SharedLeaf w.world w'.world v := by
    intro b hb v hv
    cases b with
    | set u c t =>
      simp only [Builtin.valueAddr, Option.some.injEq] at hv
      subst hv
      obtain ⟨sc, hsc⟩ := hb
      exact ⟨sc, hsc, hk.same _ _ hsc (by cases sc <;> simp [scalarCell, nullCell, boolCell, intCell, uintCell, floatCell, strCell, tsCell])⟩
    | _ => simp [Builtin.valueAddr] at hv
  have hs := handleLine_same cv p w w' i (trimSpace l) ⟨calls_nodes_mono this _ hp.1, calls_nodes_mono this _ hp.2⟩
  simp only [soloOutcome]
  split
  · rfl
  · rcases hs.cases with ⟨x, y⟩ | ⟨⟨u1, r1⟩, ⟨u2, r2⟩, x, y, h1, h2, h3⟩
    · rw [x, y]
    · rw [x, y]
      simp only at h1 h3 ⊢
      rw [h1]
      cases r2.err with
      | some e => rfl
      | none => simp only; rw [h3]

/-! ## Carriage returns -/

theorem trimSpace_dropCR (l : Bytes) : trimSpace (dropCR l) = trimSpace l := by
  unfold dropCR
  split
  · next h =>
    have hl := getLast_ascii h
    refine trimmed_unique (s := l) ?_ (trimSpace_spec l)
    obtain ⟨⟨a, b, ha, hb, he⟩, hx⟩ := trimSpace_spec l.dropLast
    refine ⟨⟨a, b ++ [13], ha, hb.append ⟨['\r'], by simp [spaces], by decide⟩, ?_⟩, hx⟩
    rw [← List.append_assoc, ← he]
    exact hl
  · rfl

theorem soloOutcome_dropCR (env : JEnv) (n : Nat) (cv : Conv) (p : Pipeline Builtin (Option Err)) (w : PWorld Heap) (i : Nat) (l : Bytes) : soloOutcome env n cv p w i (dropCR l) = soloOutcome env n cv p w i l := by
  simp only [soloOutcome, trimSpace_dropCR]

end Sawmill
