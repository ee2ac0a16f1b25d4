import Verif.Lemmas.MemRun
import Verif.Props.PureLaws
import Verif.Props.Cli
/-!
# C65: goroutines that share one memory
-/

namespace Sawmill
open Mem

/-- Without interruption, the goroutine's program of single memory accesses is the run of the pipeline that the rest of this development is about. -/
theorem shared_refines (cv : Conv) (p : Pipeline Builtin (Option Err)) (h : Heap) (e : Event) (cs : Counters) (log : List Invocation) :
    match p.process (builtinCall cv) () ⟨(h, e), cs, log⟩ with
    | .panic => ((p.thr ()).mem cv e).solo h = .panic
    | .ok (w, r) => ∃ incs n, ((p.thr ()).mem cv e).solo h = .ok (w.world.1, incs, n, (w.world.2, r)) ∧ w.counts = cs.incAll incs := by
  have h1 := pipeline_thr_run (call := builtinCall cv) p () (h, e) cs log
  have h2 := thr_mem_solo cv (p.thr ()) h e
  rw [thr_run_solo] at h1
  revert h2
  cases hs : (p.thr ()).solo (builtinCall cv) () (h, e) with
  | panic =>
    intro h2
    rw [hs] at h1
    cases hp : p.process (builtinCall cv) () ⟨(h, e), cs, log⟩ with
    | panic => exact h2
    | ok q => rw [hp] at h1; simp at h1
  | ok q =>
    obtain ⟨w, l, n, x⟩ := q
    rintro ⟨m, h2⟩
    rw [hs] at h1
    cases hp : p.process (builtinCall cv) () ⟨(h, e), cs, log⟩ with
    | panic => rw [hp] at h1; simp at h1
    | ok q =>
      obtain ⟨w', r⟩ := q
      rw [hp] at h1
      simp only [Res.map_ok, Res.ok.injEq, Prod.mk.injEq] at h1
      obtain ⟨rfl, e2, rfl⟩ := h1
      exact ⟨l, m, h2, e2.symm⟩

/-- **C65.** Goroutines process events that share nothing but leaves; the processors' configured values are leaves. Whatever the scheduler does after each single memory access: nothing crashes, no two goroutines race, the number of steps is fixed, a goroutine that has
not returned can go on, and one that has returned has returned what it returns alone; its event holds what it holds then, whatever the others still do. When all have returned the counters are those of processing one event after another. -/
theorem shared_memory (cv : Conv) {p : Pipeline Builtin (Option Err)} {h : Heap} {events : List Event} {cs cs' : Counters} {rs : List ((Heap × Event) × Option Unit × Option Err)}
    (hsep : Separate h events) (hp : p.Calls (Builtin.LeafConfig h)) (hq : p.sequential (builtinCall cv) (events.map fun e => ((), (h, e))) cs = .ok (rs, cs')) :
    ∃ N, ∀ n s, Shared.Steps n (p.shared cv h events cs) s →
      ¬ s.Crashing ∧ ¬ s.Racing ∧ n ≤ N ∧ (s.Finished ↔ n = N) ∧ (¬ s.Finished → ∃ s', Shared.Step s s') ∧
      (∀ (i : Nat) e x, s.gs[i]? = some (.ret (e, x)) → ∃ w, rs[i]? = some (w, x) ∧ ∀ F, Holds s.heap e F ↔ Holds w.1 w.2 F) ∧
      (s.Finished → s.counts = cs') := by
  obtain ⟨N, sides, hi⟩ := inv_start cv hsep hp hq
  refine ⟨N, fun n s hs => ?_⟩
  obtain ⟨h1, h2, h3, h4, h5, h6, _, h7⟩ := hi.all n s hs
  refine ⟨h1, h2, h3, h4, h5, fun i e x hg => ?_, h7⟩
  obtain ⟨w, y, R, hr, hp, hsim⟩ := h6 i (e, x) hg
  simp only [List.getElem?_map, Option.map_eq_some_iff, Prod.mk.injEq] at hr
  obtain ⟨⟨⟨w', e'⟩, x'⟩, hr, rfl, rfl⟩ := hr
  simp only [OutSim] at hp
  obtain ⟨hp, rfl⟩ := hp
  exact ⟨_, hr, fun F => ⟨holds_sim hsim hp, holds_sim hsim.flip (ptrSim_flip hp)⟩⟩

/-! ## Events that own their contents -/

theorem scalarCell_array (s : Scalar) : (scalarCell s).array = none := by cases s <;> rfl
theorem scalarCell_object (s : Scalar) : (scalarCell s).object = none := by cases s <;> rfl

/-- What an address of an owned event is. -/
def PartOf (h : Heap) (S : List Nat) (a : Nat) : Prop :=
  (a ∈ S ∧ ∃ es : AMap ATree, h[a]? = some (.map (ptrMap es)) ∧ ∀ e ∈ es, Rep h e.2 ∧ ∀ b ∈ e.2.fp, b ∈ S) ∨ ∃ t : ATree, t.ptr = some a ∧ Rep h t ∧ ∀ b ∈ t.fp, b ∈ S

theorem owns_reach {h : Heap} {f : AFields} (o : Owns h f) {a : Nat} (hr : Reach h f.event a) : PartOf h f.fp a := by
  induction hr with
  | root he =>
    cases f with
    | none => simp [AFields.event] at he
    | some f =>
      obtain ⟨m, es⟩ := f
      simp only [AFields.event, Option.some.injEq] at he
      subst he
      exact .inl ⟨by simp [AFields.fp], es, o.1, fun e he => ⟨repE_iff.mp o.2.2.1 e he, fun b hb => List.mem_cons_of_mem _ (ATree.mem_fpE_iff.mpr ⟨e, he, hb⟩)⟩⟩
  | entry _ hm hk ih =>
    rcases ih with ⟨_, es, he, hes⟩ | ⟨t, ht, hrep, hfp⟩
    · rw [hm, Option.some.injEq, HObj.map.injEq] at he
      subst he
      simp only [ptrMap, AMap.mapVals, List.mem_map, Prod.mk.injEq] at hk
      obtain ⟨e, he, _, hp⟩ := hk
      exact .inr ⟨e.2, hp, (hes e he).1, (hes e he).2⟩
    · cases t <;> simp only [ATree.ptr, Option.some.injEq, reduceCtorEq] at ht <;> subst ht <;> simp [Rep, hm] at hrep
  | item _ hc hps hmem ih =>
    rcases ih with ⟨_, es, he, hes⟩ | ⟨t, ht, hrep, hfp⟩
    · rw [hc] at he; simp at he
    · cases t <;> simp only [ATree.ptr, Option.some.injEq, reduceCtorEq] at ht <;> subst ht
      · simp only [Rep, hc, Option.some.injEq, HObj.cell.injEq] at hrep; subst hrep; simp [scalarCell_array] at hps
      · simp only [Rep, hc, Option.some.injEq, HObj.cell.injEq] at hrep; subst hrep; simp [arrCell] at hps
      · simp only [Rep, hc, Option.some.injEq, HObj.cell.injEq] at hrep
        obtain ⟨rfl, hl⟩ := hrep
        simp only [arrCell, Option.some.injEq] at hps
        subst hps
        simp only [List.mem_map] at hmem
        obtain ⟨t, ht, hp⟩ := hmem
        exact .inr ⟨t, hp, repL_iff.mp hl t ht, fun b hb => hfp b (by simp only [ATree.fp]; exact List.mem_cons_of_mem _ (ATree.mem_fpL_iff.mpr ⟨t, ht, hb⟩))⟩
      · simp only [Rep, hc, Option.some.injEq, HObj.cell.injEq] at hrep; subst hrep; simp [objCell] at hps
      · simp only [Rep, hc, Option.some.injEq, HObj.cell.injEq] at hrep; obtain ⟨rfl, _⟩ := hrep; simp [objCell] at hps
  | object _ hc ho ih =>
    rcases ih with ⟨_, es, he, hes⟩ | ⟨t, ht, hrep, hfp⟩
    · rw [hc] at he; simp at he
    · cases t <;> simp only [ATree.ptr, Option.some.injEq, reduceCtorEq] at ht <;> subst ht
      · simp only [Rep, hc, Option.some.injEq, HObj.cell.injEq] at hrep; subst hrep; simp [scalarCell_object] at ho
      · simp only [Rep, hc, Option.some.injEq, HObj.cell.injEq] at hrep; subst hrep; simp [arrCell] at ho
      · simp only [Rep, hc, Option.some.injEq, HObj.cell.injEq] at hrep; obtain ⟨rfl, _⟩ := hrep; simp [arrCell] at ho
      · simp only [Rep, hc, Option.some.injEq, HObj.cell.injEq] at hrep; subst hrep; simp [objCell] at ho
      · rename_i es _
        simp only [Rep, hc, Option.some.injEq, HObj.cell.injEq] at hrep
        obtain ⟨rfl, h2, _, h3⟩ := hrep
        simp only [objCell, Option.some.injEq] at ho
        subst ho
        exact .inl ⟨hfp _ (by simp [ATree.fp]), es, h2, fun e he => ⟨repE_iff.mp h3 e he, fun b hb => hfp b (by simp only [ATree.fp]; exact List.mem_cons_of_mem _ (ATree.mem_fpE_iff.mpr ⟨e, he, hb⟩))⟩⟩

/-- Its own, a leaf, or the struct that points to one of its own maps. -/
theorem partOf_kind {h : Heap} {S : List Nat} {a : Nat} (hp : PartOf h S a) : a < h.length ∧ (a ∈ S ∨ h.Leaf a ∨ ∃ m ∈ S, h[a]? = some (.cell (objCell (some m)))) := by
  rcases hp with ⟨h1, es, h2, _⟩ | ⟨t, ht, hrep, hfp⟩
  · exact ⟨lt_of_some h2, .inl h1⟩
  · cases t <;> simp only [ATree.ptr, Option.some.injEq, reduceCtorEq] at ht <;> subst ht <;> simp only [Rep] at hrep
    · exact ⟨lt_of_some hrep, .inr (.inl (leaf_of_scalar ⟨_, hrep⟩))⟩
    · exact ⟨lt_of_some hrep, .inl (hfp _ (by simp [ATree.fp]))⟩
    · exact ⟨lt_of_some hrep.1, .inl (hfp _ (by simp [ATree.fp]))⟩
    · exact ⟨lt_of_some hrep, .inr (.inl ⟨_, hrep, by simp [objCell], rfl, rfl⟩)⟩
    · exact ⟨lt_of_some hrep.1, .inr (.inr ⟨_, hfp _ (by simp [ATree.fp]), hrep.1⟩)⟩

/-- An address of its own is a map or an array. -/
theorem owns_fp_kind {h : Heap} {f : AFields} (o : Owns h f) {a : Nat} (ha : a ∈ f.fp) (m : Nat) : h[a]? ≠ some (.cell (objCell (some m))) := by
  intro hc
  have hfr := o.thaw a ha
  exact hfr ⟨_, hc, by simp [objCell]⟩

/-- Events that own their contents, each its own, are separate. -/
theorem separate_of_owns {h : Heap} {fs : List AFields} (ho : ∀ f ∈ fs, Owns h f) (hd : ∀ (i j : Nat) f f', i ≠ j → fs[i]? = some f → fs[j]? = some f' → ∀ a ∈ f.fp, a ∉ f'.fp) :
    Separate h (fs.map AFields.event) := by
  refine ⟨?_, ?_⟩
  · intro e he a hr
    obtain ⟨f, hf, rfl⟩ := List.mem_map.mp he
    exact (partOf_kind (owns_reach (ho f hf) hr)).1
  · intro i j e e' a hij hi hj hr hr'
    simp only [List.getElem?_map, Option.map_eq_some_iff] at hi hj
    obtain ⟨f, hf, rfl⟩ := hi
    obtain ⟨f', hf', rfl⟩ := hj
    have o := ho f (List.mem_iff_getElem?.mpr ⟨i, hf⟩)
    have o' := ho f' (List.mem_iff_getElem?.mpr ⟨j, hf'⟩)
    rcases (partOf_kind (owns_reach o hr)).2 with k | k | ⟨m, hm, k⟩
    · rcases (partOf_kind (owns_reach o' hr')).2 with k' | k' | ⟨m', hm', k'⟩
      · exact absurd k' (hd i j f f' hij hf hf' a k)
      · exact k'
      · exact absurd k' (owns_fp_kind o k m')
    · exact k
    · rcases (partOf_kind (owns_reach o' hr')).2 with k' | k' | ⟨m', hm', k'⟩
      · exact absurd k (owns_fp_kind o' k' m)
      · exact k'
      · rw [k, Option.some.injEq, HObj.cell.injEq] at k'
        simp only [objCell, Cell.mk.injEq, Option.some.injEq] at k'
        have : m = m' := by simpa using k'
        exact absurd (this ▸ hm') (hd i j f f' hij hf hf' m hm)

/-- Processing one after another what does not panic. -/
theorem sequential_of_each (cv : Conv) (p : Pipeline Builtin (Option Err)) (h : Heap) (P : AFields → (Heap × Event) → Option Unit × Option Err → Prop) (fs : List AFields) (cs : Counters)
    (hp : ∀ f ∈ fs, ∀ cs, ∃ w r, p.process (builtinCall cv) () ⟨(h, f.event), cs, []⟩ = .ok (w, r) ∧ P f w.world r) :
    ∃ rs cs', p.sequential (builtinCall cv) ((fs.map AFields.event).map fun e => ((), (h, e))) cs = .ok (rs, cs') ∧ ∀ (i : Nat) f, fs[i]? = some f → ∃ w r, rs[i]? = some (w, r) ∧ P f w r := by
  induction fs generalizing cs with
  | nil => exact ⟨[], cs, rfl, by simp⟩
  | cons f fs ih =>
    obtain ⟨w, r, h1, h2⟩ := hp f (by simp) cs
    obtain ⟨rs, cs', h3, h4⟩ := ih w.counts fun f hf => hp f (by simp [hf])
    refine ⟨(w.world, r) :: rs, cs', by simp only [List.map_cons, Pipeline.sequential, h1, h3], ?_⟩
    intro i g hg
    cases i with
    | zero => simp at hg; subst hg; exact ⟨_, _, rfl, h2⟩
    | succ i => simp only [List.getElem?_cons_succ] at hg ⊢; exact h4 i g hg

/-- **C65.** Goroutines that process events which own their contents, with a pipeline that is a function on contents (C58): whatever the schedule of single memory accesses, each event ends with the contents, and each goroutine with the result, that this function gives. -/
theorem shared_pure (cv : Conv) {p : Pipeline Builtin (Option Err)} {q : Spec.Pipe} {h : Heap} {fs : List AFields} (ho : ∀ f ∈ fs, Owns h f)
    (hd : ∀ (i j : Nat) f f', i ≠ j → fs[i]? = some f → fs[j]? = some f' → ∀ a ∈ f.fp, a ∉ f'.fp) (hq : PipeIs h p q)
    (hrun : ∀ f ∈ fs, ∃ G pe, q.apply cv f.erase = .done (G, pe)) (cs : Counters) :
    ∃ N, ∀ n s, Shared.Steps n (p.shared cv h (fs.map AFields.event) cs) s →
      ¬ s.Crashing ∧ ¬ s.Racing ∧ n ≤ N ∧ (s.Finished ↔ n = N) ∧ (¬ s.Finished → ∃ s', Shared.Step s s') ∧
      ∀ (i : Nat) f e ret err, fs[i]? = some f → s.gs[i]? = some (.ret (e, ret, err)) →
        ∃ G pe, q.apply cv f.erase = .done (G, pe) ∧ Holds s.heap e G ∧ procErrMatches err pe ∧ (ret = some () ↔ pe = none) := by
  obtain ⟨rs, cs', h1, h2⟩ := sequential_of_each cv p h
    (fun f w r => ∃ G pe, q.apply cv f.erase = .done (G, pe) ∧ Holds w.1 w.2 G ∧ procErrMatches r.2 pe ∧ (r.1 = some () ↔ pe = none)) fs cs (by
      intro f hf cs
      obtain ⟨G, pe, hG⟩ := hrun f hf
      have := pipeline_pure cv (ho f hf) hq cs []
      rw [hG] at this
      cases pe with
      | none =>
        obtain ⟨w, f', e1, e2, e3, e4, _⟩ := this
        exact ⟨w, _, e1, G, none, hG, by rw [e2, ← e4]; exact e3.holds, trivial, by simp⟩
      | some pe =>
        obtain ⟨w, f', err, e1, e2, e3, e4, e5, _⟩ := this
        exact ⟨w, _, e1, G, some pe, hG, by rw [e2, ← e4]; exact e3.holds, e5, by simp⟩)
  obtain ⟨N, hN⟩ := shared_memory cv (separate_of_owns ho hd) (pipeIs_calls hq) h1
  refine ⟨N, fun n s hs => ?_⟩
  obtain ⟨k1, k2, k3, k4, k5, k6, _⟩ := hN n s hs
  refine ⟨k1, k2, k3, k4, k5, ?_⟩
  intro i f e ret err hf hg
  obtain ⟨w, hw, hF⟩ := k6 i e (ret, err) hg
  obtain ⟨w', r', hw', G, pe, g1, g2, g3, g4⟩ := h2 i f hf
  rw [hw, Option.some.injEq, Prod.mk.injEq] at hw'
  obtain ⟨rfl, rfl⟩ := hw'
  exact ⟨G, pe, g1, (hF G).mpr g2, g3, g4⟩

/-! ## New events -/

theorem buildEvent_owns (h : Heap) (F : Fields) (hc : ∀ es, F = some es → AMap.Sorted es ∧ Val.CanonE es) :
    ∃ f : AFields, f.event = (buildEvent h F).2 ∧ f.erase = F ∧ Owns (buildEvent h F).1 f ∧ (∀ a ∈ f.fp, h.length ≤ a) ∧ Frame [] h (buildEvent h F).1 := by
  cases F with
  | none => exact ⟨none, rfl, rfl, trivial, by simp [AFields.fp], Frame.refl _⟩
  | some es =>
    obtain ⟨hs, hc⟩ := hc es rfl
    have ⟨h1, h2, h3, h4, h5⟩ := buildE_spec h es hc
    simp only [buildEvent, Heap.alloc]
    have f := frame_alloc (buildE h es).1 [HObj.map (ptrMap (buildE h es).2)]
    refine ⟨some ((buildE h es).1.length, (buildE h es).2), rfl, by simp [AFields.erase, h2], ⟨by simp, ?_, repE_frame f _ h1 (by simp), ?_⟩, ?_, h5.trans0 f⟩
    · rw [← h2, ATree.eraseE_eq] at hs
      unfold AMap.Sorted at hs ⊢
      simpa [AMap.mapVals, List.pairwise_map] using hs
    · simp only [List.nodup_cons]
      exact ⟨fun hc => by have := fpE_lt _ h1 _ hc; omega, h3⟩
    · intro a ha
      simp only [AFields.fp, List.mem_cons] at ha
      rcases ha with rfl | ha
      · exact h5.len
      · exact h4 a ha

theorem buildEvents_owns (Fs : List Fields) (hc : ∀ es, some es ∈ Fs → AMap.Sorted es ∧ Val.CanonE es) (h : Heap) :
    ∃ fs : List AFields, fs.map AFields.event = (buildEvents h Fs).2 ∧ fs.map AFields.erase = Fs ∧ (∀ f ∈ fs, Owns (buildEvents h Fs).1 f) ∧ (∀ f ∈ fs, ∀ a ∈ f.fp, h.length ≤ a) ∧
      (∀ (i j : Nat) f f', i ≠ j → fs[i]? = some f → fs[j]? = some f' → ∀ a ∈ f.fp, a ∉ f'.fp) ∧ Frame [] h (buildEvents h Fs).1 := by
  induction Fs generalizing h with
  | nil => exact ⟨[], rfl, rfl, by simp, by simp, by simp, Frame.refl _⟩
  | cons F Fs ih =>
    obtain ⟨f, e1, e2, e3, e4, e5⟩ := buildEvent_owns h F fun es he => hc es (by simp [he])
    obtain ⟨fs, k1, k2, k3, k4, k5, k6⟩ := ih (fun es he => hc es (by simp [he])) (buildEvent h F).1
    simp only [buildEvents]
    have lt := e3.lt
    refine ⟨f :: fs, by simp [e1, k1], by simp [e2, k2], ?_, ?_, ?_, e5.trans0 k6⟩
    · intro g hg
      simp only [List.mem_cons] at hg
      rcases hg with rfl | hg
      · exact e3.frame k6 (by simp)
      · exact k3 g hg
    · intro g hg a ha
      simp only [List.mem_cons] at hg
      rcases hg with rfl | hg
      · exact e4 a ha
      · exact Nat.le_trans e5.len (k4 g hg a ha)
    · intro i j g g' hij hi hj a ha ha'
      cases i with
      | zero => cases j with
        | zero => exact hij rfl
        | succ j =>
          simp only [List.getElem?_cons_zero, Option.some.injEq, List.getElem?_cons_succ] at hi hj
          subst hi
          have := k4 g' (List.mem_iff_getElem?.mpr ⟨j, hj⟩) a ha'
          have := lt a ha
          omega
      | succ i => cases j with
        | zero =>
          simp only [List.getElem?_cons_zero, Option.some.injEq, List.getElem?_cons_succ] at hi hj
          subst hj
          have := k4 g (List.mem_iff_getElem?.mpr ⟨i, hi⟩) a ha
          have := lt a ha'
          omega
        | succ j =>
          simp only [List.getElem?_cons_succ] at hi hj
          exact k5 i j g g' (by omega) hi hj a ha ha'

/-- **C65.** The same for new events with the given contents. -/
theorem shared_built (cv : Conv) {p : Pipeline Builtin (Option Err)} {q : Spec.Pipe} {h : Heap} {Fs : List Fields} (hc : ∀ es, some es ∈ Fs → AMap.Sorted es ∧ Val.CanonE es) (hq : PipeIs h p q)
    (hrun : ∀ F ∈ Fs, ∃ G pe, q.apply cv F = .done (G, pe)) (cs : Counters) :
    ∃ N, ∀ n s, Shared.Steps n (p.shared cv (buildEvents h Fs).1 (buildEvents h Fs).2 cs) s →
      ¬ s.Crashing ∧ ¬ s.Racing ∧ n ≤ N ∧ (s.Finished ↔ n = N) ∧ (¬ s.Finished → ∃ s', Shared.Step s s') ∧
      ∀ (i : Nat) F e ret err, Fs[i]? = some F → s.gs[i]? = some (.ret (e, ret, err)) →
        ∃ G pe, q.apply cv F = .done (G, pe) ∧ Holds s.heap e G ∧ procErrMatches err pe ∧ (ret = some () ↔ pe = none) := by
  obtain ⟨fs, k1, k2, k3, k4, k5, k6⟩ := buildEvents_owns Fs hc h
  have hq' : PipeIs (buildEvents h Fs).1 p q := ⟨procsAre_mono (frame_scalars k6) _ _ hq.1, procsAre_mono (frame_scalars k6) _ _ hq.2⟩
  obtain ⟨N, hN⟩ := shared_pure cv k3 k5 hq' (fun f hf => hrun _ (by rw [← k2]; exact List.mem_map_of_mem hf)) cs
  rw [k1] at hN
  refine ⟨N, fun n s hs => ?_⟩
  obtain ⟨h1, h2, h3, h4, h5, h6⟩ := hN n s hs
  refine ⟨h1, h2, h3, h4, h5, fun i F e ret err hF hg => ?_⟩
  rw [← k2, List.getElem?_map, Option.map_eq_some_iff] at hF
  obtain ⟨f, hf, rfl⟩ := hF
  exact h6 i f e ret err hf hg

/-! ## Samples, and what goes wrong otherwise -/

/-- Run the goroutines in the given order, one access each. -/
def Shared.exec {X : Type} : List Nat → Shared X → Option (Shared X)
  | [], s => some s
  | i :: is, s =>
    match s.gs[i]? with
    | none => none
    | some t => match t.step s.heap with
      | .next h inc t' => Shared.exec is ⟨h, s.counts.incOpt inc, s.gs.set i t'⟩
      | _ => none

theorem exec_steps {X : Type} (is : List Nat) {s s' : Shared X} (h : s.exec is = some s') : ∃ n, Shared.Steps n s s' := by
  have trans : ∀ {n : Nat} {a b c : Shared X}, Shared.Step a b → Shared.Steps n b c → Shared.Steps (n + 1) a c := by
    intro n a b c hab hbc
    induction hbc with
    | refl => exact .step .refl hab
    | step _ hs ih => exact .step (ih hab) hs
  induction is generalizing s with
  | nil => simp only [Shared.exec, Option.some.injEq] at h; subst h; exact ⟨0, .refl⟩
  | cons i is ih =>
    simp only [Shared.exec] at h
    split at h
    · simp at h
    · rename_i t ht
      split at h
      · rename_i g inc t' hs
        obtain ⟨n, hn⟩ := ih h
        exact ⟨n + 1, trans (.mk ht hs) hn⟩
      · simp at h

/-- The accesses that two goroutines are about to make. -/
def Shared.accesses {X : Type} (s : Shared X) : Option (Nat × Bool) × Option (Nat × Bool) := ((s.gs[0]?).bind Mem.access, (s.gs[1]?).bind Mem.access)

theorem racing_of_accesses {X : Type} {s : Shared X} {a : Nat} {w : Bool} (h : s.accesses = (some (a, true), some (a, w))) : s.Racing := by
  simp only [Shared.accesses, Prod.mk.injEq, Option.bind_eq_some_iff] at h
  obtain ⟨⟨t, ht, h1⟩, t', ht', h2⟩ := h
  exact ⟨0, 1, t, t', a, w, by omega, ht, ht', h1, h2⟩

/-- A `set` with an array as configured value puts the same array into every event (C15): two goroutines that process new events of their own race. -/
theorem leaky_config_races : ∃ n s, Shared.Steps n (leakyPipeline.shared noConv (buildEvents leakyHeap [some [], some []]).1 (buildEvents leakyHeap [some [], some []]).2 noCounts) s ∧ s.Racing := by
  have hk : ((leakyPipeline.shared noConv (buildEvents leakyHeap [some [], some []]).1 (buildEvents leakyHeap [some [], some []]).2 noCounts).exec (List.replicate 10 0 ++ List.replicate 10 1)).map Shared.accesses
      = some (some (1, true), some (1, true)) := by decide +kernel
  simp only [Option.map_eq_some_iff] at hk
  obtain ⟨s, hs, ha⟩ := hk
  obtain ⟨n, hn⟩ := exec_steps _ hs
  exact ⟨n, s, hn, racing_of_accesses ha⟩

/-- Two goroutines that process the same event race, whatever the configured value is. -/
theorem same_event_races : ∃ n s, Shared.Steps n (markPipeline.shared noConv [.cell (strCell (lit "m")), .map []] [some 1, some 1] noCounts) s ∧ s.Racing := by
  have hk : ((markPipeline.shared noConv [.cell (strCell (lit "m")), .map []] [some 1, some 1] noCounts).exec [0, 0, 0, 1, 1, 1]).map Shared.accesses = some (some (1, true), some (1, true)) := by decide +kernel
  simp only [Option.map_eq_some_iff] at hk
  obtain ⟨s, hs, ha⟩ := hk
  obtain ⟨n, hn⟩ := exec_steps _ hs
  exact ⟨n, s, hn, racing_of_accesses ha⟩

/-- What `tidyPipeline` does. -/
def tidyPipe : Spec.Pipe := ⟨[.mk (.set (.str (lit "a")) [] (lit "y")) false false [], .mk (.append (lit "x") (lit "b")) false false []], []⟩

theorem tidy_is : PipeIs leakyHeap tidyPipeline tidyPipe :=
  ⟨⟨_, _, rfl, ⟨_, _, _, rfl, ⟨_, rfl, rfl⟩, rfl, rfl⟩, _, _, rfl, ⟨_, _, _, rfl, rfl, rfl, rfl⟩, rfl⟩, rfl⟩

/-- Two new events, one empty and one without a map, meet the hypotheses of `shared_built`. -/
theorem tidy_shared : ∃ N, ∀ n s, Shared.Steps n (tidyPipeline.shared noConv (buildEvents leakyHeap [some [], none]).1 (buildEvents leakyHeap [some [], none]).2 noCounts) s →
    ¬ s.Crashing ∧ ¬ s.Racing ∧ (s.Finished ↔ n = N) := by
  obtain ⟨N, hN⟩ := shared_built noConv (h := leakyHeap) (p := tidyPipeline) (q := tidyPipe) (Fs := [some [], none]) (by simp [AMap.sorted_nil, Val.CanonE]) tidy_is (by
    intro F hF
    simp only [List.mem_cons, List.not_mem_nil, or_false] at hF
    rcases hF with rfl | rfl <;> exact ⟨_, _, rfl⟩) noCounts
  exact ⟨N, fun n s hs => ⟨(hN n s hs).1, (hN n s hs).2.1, (hN n s hs).2.2.2.1⟩⟩

/-- One of the schedules, step by step: the goroutines take turns, and both return without error. -/
example : ((tidyPipeline.shared noConv (buildEvents leakyHeap [some [], none]).1 (buildEvents leakyHeap [some [], none]).2 noCounts).exec ((List.replicate 15 [0, 1]).flatten ++ [1])).map
    (fun s => s.gs.map fun t => match t with | .ret (_, some (), none) => true | _ => false) = some [true, true] := by decide +kernel

end Sawmill
