import Verif.Spec.Reuse
import Verif.Lemmas.HeapSim
import Verif.Lemmas.HeapOps
/-!
# C15: earlier events do not influence later ones (when configured values are leaves)
-/

namespace Sawmill

/-! ## The engine, on related worlds -/
section
variable {A R Ev W : Type} (call : Ev → W → A → Res (W × R)) (S : W → W → Prop) (P : A → Prop)

/-- Related states of one event's way through a pipeline. Counters and log may differ. -/
def StateSim (s1 s2 : PState Ev W) : Prop := s1.ev = s2.ev ∧ S s1.world s2.world

variable (hcall : ∀ ev w1 w2 a, P a → S w1 w2 → ResSim (fun x y => S x.1 y.1 ∧ x.2 = y.2) (call ev w1 a) (call ev w2 a))
include hcall

theorem run_sim (pr : Prog A R) (hp : pr.Calls P) (ev : PEvent Ev) {w1 w2 : W} (hw : S w1 w2) :
    ResSim (fun x y => x.1 = y.1 ∧ S x.2.1 y.2.1 ∧ x.2.2 = y.2.2) (pr.run call ev w1) (pr.run call ev w2) := by
  induction pr generalizing ev w1 w2 with
  | done e => exact ⟨rfl, hw, rfl⟩
  | cancel k ih => exact ih hp _ hw
  | drop k ih => exact ih hp _ hw
  | call a k ih =>
    simp only [Prog.Calls] at hp
    simp only [Prog.run]
    rcases (hcall ev.data w1 w2 a hp.1 hw).cases with ⟨x, y⟩ | ⟨⟨u1, r1⟩, ⟨u2, r2⟩, x, y, hu, hr⟩
    · simp only [x, y]; trivial
    · simp only at hr hu
      subst hr
      simp only [x, y]
      exact ih r1 (hp.2 r1) _ hu

mutual
theorem process_sim : ∀ (n : Node A R), n.Calls P → ∀ {s1 s2 : PState Ev W}, StateSim S s1 s2 →
    ResSim (fun x y => StateSim S x.1 y.1 ∧ x.2 = y.2) (n.process call s1) (n.process call s2)
  | .mk id cond ignF ignM onF proc, hn, s1, s2, hs => by
    simp only [Node.Calls] at hn
    simp only [Node.process, PState.inc]
    obtain ⟨hev, hw⟩ := hs
    rw [hev]
    rcases (run_sim call S P hcall proc hn.1 s2.ev hw).cases with ⟨x, y⟩ | ⟨⟨ev1, u1, r1⟩, ⟨ev2, u2, r2⟩, x, y, he, hu, hr⟩
    · simp only [x, y]; trivial
    · simp only at hr hu he
      subst hr he
      cases r1 with
      | none => simp only [x, y]; exact ⟨⟨rfl, hu⟩, rfl⟩
      | some err =>
        simp only [x, y]
        split
        · exact ⟨⟨rfl, hu⟩, rfl⟩
        · split
          · exact ⟨⟨rfl, hu⟩, rfl⟩
          · rcases (processAll_sim onF hn.2 (some err) (s1 := { s1 with ev := ev1, world := u1, counts := s1.counts.inc id .received })
              (s2 := { s2 with ev := ev1, world := u2, counts := s2.counts.inc id .received }) ⟨rfl, hu⟩).cases with
              ⟨x', y'⟩ | ⟨⟨t1, q1⟩, ⟨t2, q2⟩, x', y', ht, hq⟩
            · simp only [x', y']; trivial
            · simp only at hq ht
              subst hq
              simp only [x', y']
              split
              · exact ⟨ht, rfl⟩
              · exact ⟨ht, rfl⟩
theorem processAll_sim : ∀ (ns : List (Node A R)), Node.CallsAll P ns → ∀ (err : Option Err) {s1 s2 : PState Ev W}, StateSim S s1 s2 →
    ResSim (fun x y => StateSim S x.1 y.1 ∧ x.2 = y.2) (Node.processAll call ns s1 err) (Node.processAll call ns s2 err)
  | [], _, err, s1, s2, hs => by simp only [Node.processAll]; exact ⟨hs, rfl⟩
  | n :: ns, hn, err, s1, s2, hs => by
    simp only [Node.CallsAll] at hn
    simp only [Node.processAll]
    rcases (process_sim n hn.1 hs).cases with ⟨x', y'⟩ | ⟨⟨t1, q1⟩, ⟨t2, q2⟩, x', y', ht, hq⟩
    · simp only [x', y']; trivial
    · simp only at hq ht
      subst hq
      cases q1 with
      | none => simp only [x', y']; exact processAll_sim ns hn.2 none ht
      | some e => simp only [x', y']; exact ⟨ht, rfl⟩
end

theorem pipeline_sim (p : Pipeline A R) (hp : p.Calls P) {s1 s2 : PState Ev W} (hs : StateSim S s1 s2) :
    ResSim (fun x y => StateSim S x.1 y.1 ∧ x.2 = y.2) (p.run call s1) (p.run call s2) := by
  simp only [Pipeline.run]
  rcases (processAll_sim call S P hcall p.processors hp.1 none hs).cases with ⟨x', y'⟩ | ⟨⟨t1, q1⟩, ⟨t2, q2⟩, x', y', ht, hq⟩
  · simp only [x', y']; trivial
  · simp only at hq ht
    subst hq
    cases q1 with
    | none => simp only [x', y']; exact ⟨ht, rfl⟩
    | some e =>
      simp only [x', y']
      split
      · exact processAll_sim call S P hcall p.onFailure hp.2 (some e) ht
      · exact ⟨ht, rfl⟩

theorem pipelineProcess_sim (p : Pipeline A R) (hp : p.Calls P) (evt : Ev) {w1 w2 : PWorld W} (hw : S w1.world w2.world) :
    ResSim (fun x y => S x.1.world y.1.world ∧ x.2 = y.2) (p.process call evt w1) (p.process call evt w2) := by
  simp only [Pipeline.process]
  rcases (pipeline_sim call S P hcall p hp (s1 := ⟨{ data := evt }, w1.world, w1.counts, w1.log⟩) (s2 := ⟨{ data := evt }, w2.world, w2.counts, w2.log⟩) ⟨rfl, hw⟩).cases with
    ⟨x', y'⟩ | ⟨⟨t1, q1⟩, ⟨t2, q2⟩, x', y', ⟨ht1, ht2⟩, hq⟩
  · simp only [x', y']; trivial
  · simp only at hq ht1 ht2
    subst hq
    cases q1 with
    | none =>
      simp only [x', y', ht1]
      split
      · exact ⟨ht2, rfl⟩
      · exact ⟨ht2, rfl⟩
    | some e => simp only [x', y']; exact ⟨ht2, rfl⟩

end

/-! ## The built-in processors, on related heaps -/

/-- Related worlds; the configured values keep their addresses. -/
def WSim (V : Nat → Prop) (w1 w2 : Heap × Event) : Prop := ∃ R, Sim R w1.1 w2.1 ∧ PtrSim R w1.2 w2.2 ∧ ∀ v, V v → R v v

theorem builtinCall_sim (cv : Conv) (V : Nat → Prop) (w1 w2 : Heap × Event) (b : Builtin) (hb : ∀ v, b.valueAddr = some v → V v) (hw : WSim V w1 w2) :
    ResSim (fun x y => WSim V x.1 y.1 ∧ x.2 = y.2) (builtinCall cv () w1 b) (builtinCall cv () w2 b) := by
  obtain ⟨R, s, he, hv⟩ := hw
  simp only [builtinCall]
  rcases (step_sim cv s he b (fun v h => hv v (hb v h))).cases with ⟨x, y⟩ | ⟨⟨g1, f1, r1⟩, ⟨g2, f2, r2⟩, x, y, R', hx, s', hf, hr⟩
  · simp only [x, y]; trivial
  · simp only at hr hf s'
    subst hr
    simp only [x, y]
    exact ⟨⟨R', s', hf, fun v h => hx _ _ (hv v h)⟩, rfl⟩

/-! ## New events -/


mutual
theorem build_sim : ∀ (v : Val) {R : Nat → Nat → Prop} {h1 h2 : Heap}, Sim R h1 h2 →
    ∃ R', Ext R R' ∧ Sim R' (build h1 v).1 (build h2 v).1 ∧ PtrSim R' (build h1 v).2.ptr (build h2 v).2.ptr
  | .nilp, R, h1, h2, s => ⟨R, Ext.refl R, s, trivial⟩
  | .scalar sc, R, h1, h2, s => ⟨_, ext1 R _ _, sim_alloc (o1 := .cell (scalarCell sc)) (o2 := .cell (scalarCell sc)) s (cellSim_self (by cases sc <;> rfl) (by cases sc <;> rfl)), .inr ⟨rfl, rfl⟩⟩
  | .arrNil, R, h1, h2, s => ⟨_, ext1 R _ _, sim_alloc (o1 := .cell (arrCell none)) (o2 := .cell (arrCell none)) s (cellSim_self rfl rfl), .inr ⟨rfl, rfl⟩⟩
  | .objNil, R, h1, h2, s => ⟨_, ext1 R _ _, sim_alloc (o1 := .cell (objCell none)) (o2 := .cell (objCell none)) s (cellSim_self rfl rfl), .inr ⟨rfl, rfl⟩⟩
  | .arr vs, R, h1, h2, s => by
    obtain ⟨R1, x1, s1, hp⟩ := buildL_sim vs s
    simp only [build, Heap.alloc, ATree.ptr]
    refine ⟨_, x1.trans (ext1 _ (buildL h1 vs).1.length (buildL h2 vs).1.length), sim_alloc s1 (cellSim_arr (ptrsSim_mono (ext1 _ _ _) hp)), .inr ⟨rfl, rfl⟩⟩
  | .obj es, R, h1, h2, s => by
    obtain ⟨R1, x1, s1, hp⟩ := buildE_sim es s
    simp only [build, Heap.alloc, ATree.ptr]
    have s2 := sim_alloc (o1 := .map (ptrMap (buildE h1 es).2)) (o2 := .map (ptrMap (buildE h2 es).2)) s1 (mapSim_mono (ext1 _ _ _) hp)
    have s3 := sim_alloc (o1 := .cell (objCell (some (buildE h1 es).1.length))) (o2 := .cell (objCell (some (buildE h2 es).1.length))) s2 (cellSim_obj (.inl (.inr ⟨rfl, rfl⟩)))
    exact ⟨_, (x1.trans (ext1 _ _ _)).trans (ext1 _ _ _), s3, .inr ⟨rfl, rfl⟩⟩
theorem buildL_sim : ∀ (vs : List Val) {R : Nat → Nat → Prop} {h1 h2 : Heap}, Sim R h1 h2 →
    ∃ R', Ext R R' ∧ Sim R' (buildL h1 vs).1 (buildL h2 vs).1 ∧ PtrsSim R' ((buildL h1 vs).2.map ATree.ptr) ((buildL h2 vs).2.map ATree.ptr)
  | [], R, h1, h2, s => ⟨R, Ext.refl R, s, by simp [buildL, PtrsSim]⟩
  | v :: vs, R, h1, h2, s => by
    obtain ⟨R1, x1, s1, hp⟩ := build_sim v s
    obtain ⟨R2, x2, s2, hq⟩ := buildL_sim vs s1
    exact ⟨R2, x1.trans x2, s2, ptrSim_mono x2 hp, hq⟩
theorem buildE_sim : ∀ (es : List (Bytes × Val)) {R : Nat → Nat → Prop} {h1 h2 : Heap}, Sim R h1 h2 →
    ∃ R', Ext R R' ∧ Sim R' (buildE h1 es).1 (buildE h2 es).1 ∧ MapSim R' (ptrMap (buildE h1 es).2) (ptrMap (buildE h2 es).2)
  | [], R, h1, h2, s => ⟨R, Ext.refl R, s, by simp [buildE, ptrMap, AMap.mapVals, MapSim]⟩
  | (k, v) :: es, R, h1, h2, s => by
    obtain ⟨R1, x1, s1, hp⟩ := build_sim v s
    obtain ⟨R2, x2, s2, hq⟩ := buildE_sim es s1
    exact ⟨R2, x1.trans x2, s2, rfl, ptrSim_mono x2 hp, hq⟩
end

theorem buildEvent_sim (F : Fields) {R : Nat → Nat → Prop} {h1 h2 : Heap} (s : Sim R h1 h2) :
    ∃ R', Ext R R' ∧ Sim R' (buildEvent h1 F).1 (buildEvent h2 F).1 ∧ PtrSim R' (buildEvent h1 F).2 (buildEvent h2 F).2 := by
  cases F with
  | none => exact ⟨R, Ext.refl R, s, trivial⟩
  | some es =>
    obtain ⟨R1, x1, s1, hp⟩ := buildE_sim es s
    simp only [buildEvent, Heap.alloc]
    exact ⟨_, x1.trans (ext1 _ _ _), sim_alloc (o1 := .map (ptrMap (buildE h1 es).2)) (o2 := .map (ptrMap (buildE h2 es).2)) s1 (mapSim_mono (ext1 _ _ _) hp), .inr ⟨rfl, rfl⟩⟩

/-! ## Leaves are never overwritten -/

/-- The structs satisfying `Q` are as before. -/
structure Keeps (Q : Cell → Prop) (h h' : Heap) : Prop where
  len : h.length ≤ h'.length
  same : ∀ (a : Nat) (c : Cell), h[a]? = some (.cell c) → Q c → h'[a]? = some (.cell c)

theorem Keeps.refl {Q : Cell → Prop} (h : Heap) : Keeps Q h h := ⟨Nat.le_refl _, fun _ _ h _ => h⟩
theorem Keeps.trans {Q : Cell → Prop} {h h' h'' : Heap} (k : Keeps Q h h') (k' : Keeps Q h' h'') : Keeps Q h h'' :=
  ⟨Nat.le_trans k.len k'.len, fun a c hc ht => k'.same a c (k.same a c hc ht) ht⟩

theorem keeps_alloc {Q : Cell → Prop} (h : Heap) (o : HObj) : Keeps Q h (h ++ [o]) :=
  ⟨by simp, fun a c hc _ => by rw [List.getElem?_append_left (lt_of_some hc), hc]⟩

theorem keeps_mapWrite {Q : Cell → Prop} {h h' : Heap} {m : Option Nat} {k : Bytes} {v : Ptr} (hw : mapWrite h m k v = .ok h') : Keeps Q h h' := by
  cases m with
  | none => simp [mapWrite] at hw
  | some a =>
    simp only [mapWrite] at hw
    split at hw
    · next es hm =>
      simp only [Res.ok.injEq] at hw
      subst hw
      refine ⟨by simp, fun b c hc _ => ?_⟩
      by_cases hb : a = b
      · subst hb; rw [hm] at hc; simp at hc
      · rw [List.getElem?_set_ne hb, hc]
    · simp at hw

theorem keeps_get {Q : Cell → Prop} {h h' : Heap} {e : Event} {path : List Bytes} {p : Ptr} (hg : get h e path = .ok (h', p)) : Keeps Q h h' := by
  simp only [get] at hg
  split at hg
  · simp only [Res.ok.injEq, Prod.mk.injEq] at hg; rw [← hg.1]; exact Keeps.refl h
  · cases path with
    | nil => simp only [Heap.alloc, Res.ok.injEq, Prod.mk.injEq] at hg; rw [← hg.1]; exact keeps_alloc _ _
    | cons k ks =>
      simp only at hg
      cases x : getLoop h e (k :: ks) with
      | panic => simp [x] at hg
      | ok q => simp only [x, Res.map_ok, Res.ok.injEq, Prod.mk.injEq] at hg; rw [← hg.1]; exact Keeps.refl h

theorem keeps_putLoop {Q : Cell → Prop} {v : Ptr} (path : List Bytes) {h h' : Heap} {m : Option Nat} {b : Bool} (hp : putLoop h m path v = .ok (h', b)) : Keeps Q h h' := by
  induction path generalizing h m with
  | nil => simp only [putLoop, Res.ok.injEq, Prod.mk.injEq] at hp; rw [← hp.1]; exact Keeps.refl h
  | cons k ks ih =>
    cases ks with
    | nil =>
      simp only [putLoop] at hp
      cases x : mapWrite h m k v with
      | panic => simp [x] at hp
      | ok g => simp only [x, Res.map_ok, Res.ok.injEq, Prod.mk.injEq] at hp; rw [← hp.1]; exact keeps_mapWrite x
    | cons k2 ks =>
      simp only [putLoop] at hp
      cases hl : (mapOf h m).lookup k with
      | none =>
        simp only [hl, Heap.alloc] at hp
        split at hp
        · simp at hp
        · next g x => exact ((keeps_alloc _ _).trans (keeps_alloc _ _)).trans ((keeps_mapWrite x).trans (ih hp))
      | some p =>
        simp only [hl] at hp
        split at hp
        · simp at hp
        · split at hp
          · simp only [Res.ok.injEq, Prod.mk.injEq] at hp; rw [← hp.1]; exact Keeps.refl h
          · exact ih hp

theorem keeps_put {Q : Cell → Prop} {h h' : Heap} {e e' : Event} {path : List Bytes} {v old : Ptr} {ow : Bool} {err : Option PutErr} (hp : put h e path v ow = .ok (h', e', old, err)) : Keeps Q h h' := by
  simp only [put] at hp
  split at hp
  · simp only [Res.ok.injEq, Prod.mk.injEq] at hp; rw [← hp.1]; exact Keeps.refl h
  · split at hp
    · simp only [Res.ok.injEq, Prod.mk.injEq] at hp; rw [← hp.1]; exact Keeps.refl h
    · have key : ∀ (g : Heap) (f : Event), Keeps Q h g →
          (match get g f path with
              | .panic => Res.panic
              | .ok (h, old) =>
                if old ≠ none ∧ ow = false then .ok (h, f, old, some (PutErr.keyExists path))
                else match putLoop h f path v with
                  | .panic => .panic
                  | .ok (h', true) => .ok (h', f, old, none)
                  | .ok (h', false) => .ok (h', f, none, some (PutErr.notObject path))) = .ok (h', e', old, err) → Keeps Q h h' := by
        intro g f k hq
        cases x : get g f path with
        | panic => simp [x] at hq
        | ok r =>
          obtain ⟨g1, o⟩ := r
          simp only [x] at hq
          split at hq
          · simp only [Res.ok.injEq, Prod.mk.injEq] at hq; rw [← hq.1]; exact k.trans (keeps_get x)
          · split at hq
            · simp at hq
            · next x' => simp only [Res.ok.injEq, Prod.mk.injEq] at hq; rw [← hq.1]; exact (k.trans (keeps_get x)).trans (keeps_putLoop path x')
            · next x' => simp only [Res.ok.injEq, Prod.mk.injEq] at hq; rw [← hq.1]; exact (k.trans (keeps_get x)).trans (keeps_putLoop path x')
      cases e with
      | none => exact key _ _ (keeps_alloc h _) hp
      | some a => exact key _ _ (Keeps.refl h) hp

theorem keeps_putThen {Q : Cell → Prop} {h h' : Heap} {e e' : Event} {k : Bytes} {v : Ptr} {err : Option Err} (hp : putThen h e k v = .ok (h', e', err)) : Keeps Q h h' := by
  simp only [putThen, apiPut] at hp
  cases x : put h e (keyToPath k) v true with
  | panic => simp [x] at hp
  | ok r =>
    obtain ⟨g, f, o, er⟩ := r
    simp only [x, Res.map_ok, Res.ok.injEq, Prod.mk.injEq] at hp
    rw [← hp.1]; exact keeps_put x

theorem keeps_appendTo {Q : Cell → Prop} {h h' : Heap} {a : Nat} {c : Cell} {ps : List Ptr} (hc : deref h (some a) = some c) (ht : ¬ Q c) (hp : appendTo h a ps = .ok h') : Keeps Q h h' := by
  simp only [appendTo, hc, Res.ok.injEq] at hp
  subst hp
  refine ⟨by simp, fun b d hd htd => ?_⟩
  by_cases hb : a = b
  · subst hb
    simp only [deref, hd, Option.some.injEq] at hc
    subst hc; exact absurd htd ht
  · rw [List.getElem?_set_ne hb, hd]

theorem keeps_step (cv : Conv) (b : Builtin) {h h' : Heap} {e e' : Event} {err : Option Err} (hs : b.step cv h e = .ok (h', e', err)) : Keeps (fun c => c.type ≠ .array) h h' := by
  have conv : ∀ f msg field target, convProcess f msg field target h e = .ok (h', e', err) → Keeps (fun c => c.type ≠ .array) h h' := by
    intro f msg field target hs
    simp only [convProcess, apiGet] at hs
    split at hs
    · simp at hs
    · next x => simp only [Res.ok.injEq, Prod.mk.injEq] at hs; rw [← hs.1]; exact keeps_get x
    · next x =>
      split at hs
      · simp at hs
      · split at hs
        · simp only [Res.ok.injEq, Prod.mk.injEq] at hs; rw [← hs.1]; exact keeps_get x
        · simp only [Heap.alloc] at hs
          exact ((keeps_get x).trans (keeps_alloc _ _)).trans (keeps_putThen hs)
  cases b with
  | lowercase f t => exact conv _ _ _ _ hs
  | uppercase f t => exact conv _ _ _ _ hs
  | set v c t =>
    simp only [Builtin.step, setProcess, apiGet] at hs
    split at hs
    · simp at hs
    · split at hs
      · exact keeps_putThen hs
      · split at hs
        · split at hs
          · simp at hs
          · next x => simp only [Res.ok.injEq, Prod.mk.injEq] at hs; rw [← hs.1]; exact keeps_get x
          · next x => exact (keeps_get x).trans (keeps_putThen hs)
        · exact keeps_putThen hs
  | append f v d =>
    simp only [Builtin.step, appendProcess, apiGet, apiPut, Heap.alloc] at hs
    -- appending to an array struct
    have last : ∀ (g : Heap) (a : Nat) (c : Cell) (f : Event), Keeps (fun c => c.type ≠ .array) h g → deref g (some a) = some c → c.type = .array →
        (appendTo (g ++ [.cell (strCell v)]) a [some g.length]).map (·, f, none) = .ok (h', e', err) → Keeps (fun c => c.type ≠ .array) h h' := by
      intro g a c f k hc ht hp
      cases x : appendTo (g ++ [.cell (strCell v)]) a [some g.length] with
      | panic => simp [x] at hp
      | ok r =>
        simp only [x, Res.map_ok, Res.ok.injEq, Prod.mk.injEq] at hp
        rw [← hp.1]
        have hc' : deref (g ++ [.cell (strCell v)]) (some a) = some c := by
          simp only [deref] at hc ⊢
          split at hc
          · next d hd => rw [List.getElem?_append_left (lt_of_some hd), hd]; exact hc
          · simp at hc
        exact (k.trans (keeps_alloc _ _)).trans (keeps_appendTo hc' (by simp [ht]) x)
    split at hs
    · simp at hs
    · next g x =>
      split at hs
      · simp at hs
      · next g' f' _ _ x' =>
        -- the new array is in the heap and still an array
        have kp := keeps_put (Q := fun _ => True) x'
        have hsome : ∃ c, deref g' (some g.length) = some c ∧ c.type = .array := by
          exact ⟨arrCell none, by simp [deref, kp.same g.length (arrCell none) (by simp) trivial], rfl⟩
        obtain ⟨c, hc, ht⟩ := hsome
        exact last g' g.length c f' (((keeps_get x).trans (keeps_alloc _ _)).trans (keeps_put x')) hc ht hs
    · next g a x =>
      split at hs
      · simp at hs
      · next c hc =>
        split at hs
        · exact last _ g.length (arrCell (some [some a])) e ((keeps_get x).trans (keeps_alloc _ _)) (by simp [deref]) rfl hs
        · split at hs
          · simp only [Res.ok.injEq, Prod.mk.injEq] at hs; rw [← hs.1]; exact keeps_get x
          · next ht => exact last g a c e (keeps_get x) hc (by simpa using ht) hs
  | remove fs => simp only [Builtin.step, removeProcess, Res.ok.injEq, Prod.mk.injEq] at hs; rw [← hs.1]; exact Keeps.refl h
  | communityId => simp only [Builtin.step, communityIdProcess, Res.ok.injEq, Prod.mk.injEq] at hs; rw [← hs.1]; exact Keeps.refl h


/-- What every call preserves, `Process` preserves. -/
theorem process_keeps {A R Ev W : Type} (call : Ev → W → A → Res (W × R)) (I : W → Prop)
    (hcall : ∀ ev w a w' r, I w → call ev w a = .ok (w', r) → I w') (p : Pipeline A R) (evt : Ev) {w w' : PWorld W} {r : Option Ev × Option Err}
    (hI : I w.world) (hp : p.process call evt w = .ok (w', r)) : I w'.world := by
  have all : ∀ pr : Prog A R, pr.Calls fun _ => True := by
    intro pr
    induction pr with
    | done e => trivial
    | cancel k ih => exact ih
    | drop k ih => exact ih
    | call a k ih => exact ⟨trivial, ih⟩
  have alln : p.Calls fun _ => True := by
    have h : ∀ ns : List (Node A R), Node.CallsAll (fun _ => True) ns := by
      intro ns
      exact Node.rec_1 (motive_1 := fun n => n.Calls fun _ => True) (motive_2 := fun ns => Node.CallsAll (fun _ => True) ns)
        (fun id c f m o pr ih => ⟨all pr, ih⟩) trivial (fun n ns h1 h2 => ⟨h1, h2⟩) ns
    exact ⟨h _, h _⟩
  have := pipelineProcess_sim call (fun w1 w2 => w1 = w2 ∧ I w1) (fun _ => True) (by
    rintro ev w1 w2 a - ⟨rfl, hi⟩
    cases x : call ev w1 a with
    | panic => trivial
    | ok r => exact ⟨⟨rfl, hcall ev w1 a r.1 r.2 hi x⟩, rfl⟩) p alln evt (w1 := w) (w2 := w) ⟨rfl, hI⟩
  simp only [hp, ResSim] at this
  exact this.1.2

mutual
theorem keeps_build {Q : Cell → Prop} : ∀ (v : Val) (h : Heap), Keeps Q h (build h v).1
  | .nilp, h => Keeps.refl h
  | .scalar _, h => keeps_alloc _ _
  | .arrNil, h => keeps_alloc _ _
  | .objNil, h => keeps_alloc _ _
  | .arr vs, h => (keeps_buildL vs h).trans (keeps_alloc _ _)
  | .obj es, h => ((keeps_buildE es h).trans (keeps_alloc _ _)).trans (keeps_alloc _ _)
theorem keeps_buildL {Q : Cell → Prop} : ∀ (vs : List Val) (h : Heap), Keeps Q h (buildL h vs).1
  | [], h => Keeps.refl h
  | v :: vs, h => (keeps_build v h).trans (keeps_buildL vs _)
theorem keeps_buildE {Q : Cell → Prop} : ∀ (es : List (Bytes × Val)) (h : Heap), Keeps Q h (buildE h es).1
  | [], h => Keeps.refl h
  | (_, v) :: es, h => (keeps_build v h).trans (keeps_buildE es _)
end

theorem keeps_buildEvent {Q : Cell → Prop} (F : Fields) (h : Heap) : Keeps Q h (buildEvent h F).1 := by
  cases F with
  | none => exact Keeps.refl h
  | some es => exact (keeps_buildE es h).trans (keeps_alloc _ _)

theorem keeps_handle (cv : Conv) (p : Pipeline Builtin (Option Err)) {w w' : PWorld Heap} {F : Fields} {r : Handled} (hh : handle cv p w F = .ok (w', r)) :
    Keeps (fun c => c.type ≠ .array) w.world w'.world := by
  simp only [handle] at hh
  split at hh
  · simp at hh
  · next w1 ret err x =>
    simp only [Res.ok.injEq, Prod.mk.injEq] at hh
    rw [← hh.1]
    refine process_keeps (builtinCall cv) (fun u => Keeps (fun c => c.type ≠ .array) w.world u.1) ?_ p () (keeps_buildEvent F w.world) x
    intro _ u b u' r hu hc
    simp only [builtinCall] at hc
    cases y : b.step cv u.1 u.2 with
    | panic => simp [y] at hc
    | ok z =>
      obtain ⟨g, f, e⟩ := z
      simp only [y, Res.map_ok, Res.ok.injEq, Prod.mk.injEq] at hc
      rw [← hc.1]
      exact hu.trans (keeps_step cv b y)

theorem keeps_handleMany (cv : Conv) (p : Pipeline Builtin (Option Err)) (Fs : List Fields) {w w' : PWorld Heap} (hh : handleMany cv p w Fs = .ok w') :
    Keeps (fun c => c.type ≠ .array) w.world w'.world := by
  induction Fs generalizing w with
  | nil => simp only [handleMany, Res.ok.injEq] at hh; subst hh; exact Keeps.refl _
  | cons F Fs ih =>
    simp only [handleMany] at hh
    split at hh
    · simp at hh
    · next x => exact (keeps_handle cv p x).trans (ih hh)

mutual
theorem calls_node_mono {A R : Type} {P P' : A → Prop} (hi : ∀ a, P a → P' a) : ∀ n : Node A R, n.Calls P → n.Calls P'
  | .mk _ _ _ _ onF proc, h => by
    simp only [Node.Calls] at h ⊢
    refine ⟨?_, calls_nodes_mono hi onF h.2⟩
    replace h := h.1
    clear onF
    induction proc with
    | done e => trivial
    | cancel k ih => exact ih h
    | drop k ih => exact ih h
    | call a k ih => exact ⟨hi a h.1, fun r => ih r (h.2 r)⟩
theorem calls_nodes_mono {A R : Type} {P P' : A → Prop} (hi : ∀ a, P a → P' a) : ∀ ns : List (Node A R), Node.CallsAll P ns → Node.CallsAll P' ns
  | [], _ => trivial
  | n :: ns, h => ⟨calls_node_mono hi n h.1, calls_nodes_mono hi ns h.2⟩
end

/-- The addresses at which both heaps hold the same leaf. -/
def SharedLeaf (h1 h2 : Heap) (v : Nat) : Prop := ∃ s : Scalar, h1[v]? = some (.cell (scalarCell s)) ∧ h2[v]? = some (.cell (scalarCell s))

theorem sim_leaves (h1 h2 : Heap) : Sim (fun a b => a = b ∧ SharedLeaf h1 h2 a) h1 h2 := by
  refine ⟨fun h h' => h.1.symm.trans h'.1, fun h h' => h.1.trans h'.1.symm, ?_⟩
  rintro a b ⟨rfl, s, e1, e2⟩
  exact ⟨_, _, e1, e2, cellSim_self (by cases s <;> rfl) (by cases s <;> rfl)⟩

/-- Two heaps that agree on the configured values: the same event contents get the same treatment. -/
theorem same_treatment (cv : Conv) (p : Pipeline Builtin (Option Err)) (w1 w2 : PWorld Heap) (F : Fields)
    (hp : p.Calls fun b => ∀ v, b.valueAddr = some v → SharedLeaf w1.world w2.world v) :
    SameOutcome (handle cv p w1 F) (handle cv p w2 F) := by
  obtain ⟨R, hx, s, he⟩ := buildEvent_sim F (sim_leaves w1.world w2.world)
  have := pipelineProcess_sim (builtinCall cv) (WSim (SharedLeaf w1.world w2.world)) _ (fun _ u1 u2 b hb hu => builtinCall_sim cv _ u1 u2 b hb hu) p hp ()
    (w1 := ⟨buildEvent w1.world F, w1.counts, w1.log⟩) (w2 := ⟨buildEvent w2.world F, w2.counts, w2.log⟩) ⟨R, s, he, fun v hv => hx _ _ ⟨rfl, hv⟩⟩
  simp only [handle]
  rcases this.cases with ⟨x, y⟩ | ⟨⟨u1, q1⟩, ⟨u2, q2⟩, x, y, ⟨R', s', he', _⟩, hq⟩
  · simp only [x, y]; trivial
  · simp only at hq s' he'
    subst hq
    simp only [x, y]
    exact ⟨rfl, rfl, fun G => ⟨holds_sim s' he', holds_sim s'.flip (ptrSim_flip he')⟩⟩

/-- **C15.** When the configured values are leaves, what `Process` does with an event is the same whatever events the pipeline has processed before. -/
theorem history_independent (cv : Conv) (p : Pipeline Builtin (Option Err)) (w w' : PWorld Heap) (history : List Fields) (F : Fields)
    (hp : p.Calls (Builtin.LeafConfig w.world)) (hh : handleMany cv p w history = .ok w') :
    SameOutcome (handle cv p w F) (handle cv p w' F) := by
  have hk := keeps_handleMany cv p history hh
  have : ∀ b : Builtin, b.LeafConfig w.world → ∀ v, b.valueAddr = some v → SharedLeaf w.world w'.world v := by
    intro b hb v hv
    cases b with
    | set u c t =>
      simp only [Builtin.valueAddr, Option.some.injEq] at hv
      subst hv
      obtain ⟨sc, hsc⟩ := hb
      exact ⟨sc, hsc, hk.same _ _ hsc (by cases sc <;> simp [scalarCell, nullCell, boolCell, intCell, uintCell, floatCell, strCell, tsCell])⟩
    | _ => simp [Builtin.valueAddr] at hv
  exact same_treatment cv p w w' F ⟨calls_nodes_mono this _ hp.1, calls_nodes_mono this _ hp.2⟩

/-! ## When the configured value is an array -/

/-- `set` the field `x` to the configured array, then `append` `b` to `x`. The array is at address 1, its one element at 0. -/
def leakyPipeline : Pipeline Builtin (Option Err) where
  id := lit "p"
  processors := [
    .mk (lit "p.s") [] false false [] (Builtin.set 1 [] (lit "x")).prog,
    .mk (lit "p.a") [] false false [] (Builtin.append (lit "x") (lit "b") false).prog]
  onFailure := []

/-- The heap with the configuration of `leakyPipeline`: the array `["a"]`. -/
def leakyHeap : Heap := [.cell (strCell (lit "a")), .cell (arrCell (some [some 0]))]

def noCounts : Counters := fun _ => {}

/-- The length of the array at field `x` of the event handed back. -/
def lengthOfX (r : Res (PWorld Heap × Handled)) : Option Nat :=
  match r with
  | .panic => none
  | .ok (_, r) => match apiGet r.heap r.event (lit "x") with
    | .ok (h, p) => (deref h p).bind fun c => c.array.map List.length
    | .panic => none

/-- Process the contents `F₁`, then `F₂`; the length of the array at `x` of the second event. -/
def secondLengthOfX (p : Pipeline Builtin (Option Err)) (h : Heap) (F₁ F₂ : Fields) : Option Nat :=
  match handleMany ⟨id, id⟩ p ⟨h, noCounts, []⟩ [F₁] with
  | .panic => none
  | .ok w' => lengthOfX (handle ⟨id, id⟩ p w' F₂)

/-- The same empty event through the same pipeline, twice: first `x` is `["a", "b"]`, then `["a", "b", "b"]`. -/
theorem history_leaks : lengthOfX (handle ⟨id, id⟩ leakyPipeline ⟨leakyHeap, noCounts, []⟩ (some [])) = some 2 ∧
    secondLengthOfX leakyPipeline leakyHeap (some []) (some []) = some 3 := by
  decide +kernel

/-- A pipeline with a leaf as configured value that also appends to a field. -/
def tidyPipeline : Pipeline Builtin (Option Err) where
  id := lit "p"
  processors := [
    .mk (lit "p.s") [] false false [] (Builtin.set 0 [] (lit "y")).prog,
    .mk (lit "p.a") [] false false [] (Builtin.append (lit "x") (lit "b") false).prog]
  onFailure := []

/-- It meets the hypotheses of `history_independent`, and its history runs. -/
example : tidyPipeline.Calls (Builtin.LeafConfig leakyHeap) :=
  ⟨⟨⟨⟨⟨.str (lit "a"), rfl⟩, fun _ => trivial⟩, trivial⟩, ⟨⟨trivial, fun _ => trivial⟩, trivial⟩, trivial⟩, trivial⟩
example : secondLengthOfX tidyPipeline leakyHeap (some []) none = some 1 := by decide +kernel

end Sawmill
