import Verif.Model.PipelineConc
import Verif.Props.PipelineCounts
/-!
# C31: concurrent use
-/

namespace Sawmill
variable {A R Ev W X : Type} {call : Ev → W → A → Res (W × R)}

/-! ## The small-step engine alone is the big-step engine -/

/-- Running a goroutine by itself. -/
def Thr.run (call : Ev → W → A → Res (W × R)) : Thr A R X → Ev → W → Counters → Res (W × Counters × X)
  | .ret x, _, w, cs => .ok (w, cs, x)
  | .inc id k next, ev, w, cs => next.run call ev w (cs.inc id k)
  | .call a next, ev, w, cs =>
    match call ev w a with
    | .panic => .panic
    | .ok (w', r) => (next r).run call ev w' cs

theorem prog_thr_run (p : Prog A R) (ev : PEvent Ev) (w : W) (cs : Counters) (k : PEvent Ev → Option Err → Thr A R X) :
    (p.thr ev k).run call ev.data w cs = (match p.run call ev w with
      | .panic => .panic
      | .ok (ev', w', e) => (k ev' e).run call ev.data w' cs) := by
  induction p generalizing ev w with
  | done e => rfl
  | cancel p ih => simp only [Prog.thr, Prog.run]; exact ih ev.cancel w
  | drop p ih => simp only [Prog.thr, Prog.run]; exact ih ev.drop w
  | call a p ih =>
    simp only [Prog.thr, Prog.run, Thr.run]
    cases call ev.data w a with
    | panic => rfl
    | ok r => exact ih _ ev _

mutual
theorem node_thr_run (n : Node A R) (s : PState Ev W) (k : PEvent Ev → Option Err → Thr A R X) :
    (n.thr s.ev k).run call s.ev.data s.world s.counts = (match n.process call s with
      | .panic => .panic
      | .ok (s', e) => (k s'.ev e).run call s.ev.data s'.world s'.counts) := by
  match n with
  | .mk id cond ignF ignM onF proc =>
    simp only [Node.thr, Node.process, Thr.run, prog_thr_run, PState.inc]
    cases hr : proc.run call s.ev s.world with
    | panic => rfl
    | ok r =>
      obtain ⟨ev, w, e⟩ := r
      have hd := run_dropped hr
      cases e with
      | none => simp [Thr.run, PState.note]
      | some err =>
        simp only
        by_cases h1 : ev.dropped = true
        · simp [h1, Thr.run, PState.note]
        by_cases h2 : (ignM && err.isMissing) = true
        · simp [h1, h2, Thr.run, PState.note]
        simp only [h1, h2, if_false, Bool.false_eq_true]
        have ih := thrAll_run onF { s with ev := ev, world := w, counts := s.counts.inc id .received } (some err)
          (fun ev err' => if ignF && err'.isSome then Thr.inc id .sent (k ev none) else Thr.inc id .errors (k ev err'))
        simp only at ih
        rw [hd.2] at ih
        rw [ih]
        cases Node.processAll call onF { s with ev := ev, world := w, counts := s.counts.inc id .received } (some err) with
        | panic => rfl
        | ok r =>
          obtain ⟨s', e'⟩ := r
          cases hc : (ignF && e'.isSome) <;> simp [hc, Thr.run, PState.note]
theorem thrAll_run (ns : List (Node A R)) (s : PState Ev W) (e : Option Err) (k : PEvent Ev → Option Err → Thr A R X) :
    (Node.thrAll ns s.ev e k).run call s.ev.data s.world s.counts = (match Node.processAll call ns s e with
      | .panic => .panic
      | .ok (s', e) => (k s'.ev e).run call s.ev.data s'.world s'.counts) := by
  match ns with
  | [] => rfl
  | n :: ns =>
    simp only [Node.thrAll, Node.processAll, node_thr_run]
    cases hp : Node.process call n s with
    | panic => rfl
    | ok r =>
      obtain ⟨s', e'⟩ := r
      have hd := process_ev hp
      cases e' with
      | some err => rfl
      | none =>
        simp only
        rw [← hd.2]
        exact thrAll_run ns s' none k
end

/-- The small-step model run alone gives exactly what `Pipeline.process` gives. -/
theorem pipeline_thr_run (p : Pipeline A R) (evt : Ev) (w : W) (cs : Counters) (log : List Invocation) :
    (p.thr evt).run call evt w cs = (match p.process call evt ⟨w, cs, log⟩ with
      | .panic => .panic
      | .ok (w', r) => .ok (w'.world, w'.counts, r)) := by
  unfold Pipeline.thr Pipeline.process Pipeline.run
  have h := thrAll_run (call := call) p.processors ⟨{ data := evt }, w, cs, log⟩ none p.afterProcessors
  simp only at h
  rw [h]
  cases hp : Node.processAll call p.processors ⟨{ data := evt }, w, cs, log⟩ none with
  | panic => rfl
  | ok r =>
    obtain ⟨s, e⟩ := r
    have hd := processAll_ev hp
    simp only at hd
    cases e with
    | none => simp only [Pipeline.afterProcessors, finish, Thr.run]; cases s.ev.dropped <;> rfl
    | some err =>
      simp only [Pipeline.afterProcessors]
      by_cases hl : p.onFailure.length > 0
      · simp only [hl, if_true]
        have h2 := thrAll_run (call := call) p.onFailure s (some err) finish
        rw [hd.2] at h2
        rw [h2]
        cases Node.processAll call p.onFailure s (some err) with
        | panic => rfl
        | ok r =>
          obtain ⟨s', e'⟩ := r
          cases e' with
          | none => simp only [finish, Thr.run]; cases s'.ev.dropped <;> rfl
          | some e => rfl
      · simp only [hl, if_false, finish, Thr.run]

/-! ## What one goroutine does, counted without the shared counters -/

/-- The rest of a goroutine's run by itself: its final world, the increments it makes, the number of steps and the result. -/
def Thr.solo (call : Ev → W → A → Res (W × R)) : Thr A R X → Ev → W → Res (W × List (Bytes × Kind) × Nat × X)
  | .ret x, _, w => .ok (w, [], 0, x)
  | .inc id k next, ev, w => (next.solo call ev w).map fun (w, l, n, x) => (w, (id, k) :: l, n + 1, x)
  | .call a next, ev, w =>
    match call ev w a with
    | .panic => .panic
    | .ok (w', r) => ((next r).solo call ev w').map fun (w, l, n, x) => (w, l, n + 1, x)

/-- Applying a list of increments. -/
def Counters.incAll (cs : Counters) (l : List (Bytes × Kind)) : Counters := l.foldl (fun cs e => cs.inc e.1 e.2) cs

theorem inc_comm (cs : Counters) (i j : Bytes) (k m : Kind) : (cs.inc i k).inc j m = (cs.inc j m).inc i k := by
  funext b
  simp only [Counters.inc]
  by_cases h1 : b = i
  · subst h1
    by_cases h2 : b = j
    · subst h2; simp only [if_true]; cases k <;> cases m <;> rfl
    · simp [h2]
  · simp [h1]

theorem incAll_inc (cs : Counters) (i : Bytes) (k : Kind) (l : List (Bytes × Kind)) : (cs.inc i k).incAll l = (cs.incAll l).inc i k := by
  induction l generalizing cs with
  | nil => rfl
  | cons e l ih => simp only [Counters.incAll, List.foldl_cons] at ih ⊢; rw [inc_comm]; exact ih _

theorem incAll_cons (cs : Counters) (e : Bytes × Kind) (l : List (Bytes × Kind)) : cs.incAll (e :: l) = (cs.incAll l).inc e.1 e.2 := by
  show (cs.inc e.1 e.2).incAll l = _
  exact incAll_inc ..

theorem incAll_append (cs : Counters) (l m : List (Bytes × Kind)) : cs.incAll (l ++ m) = (cs.incAll l).incAll m := by
  simp [Counters.incAll, List.foldl_append]

theorem incAll_perm {l m : List (Bytes × Kind)} (h : l.Perm m) (cs : Counters) : cs.incAll l = cs.incAll m := by
  induction h generalizing cs with
  | nil => rfl
  | cons e _ ih => rw [incAll_cons, incAll_cons, ih]
  | swap a b l => rw [incAll_cons, incAll_cons, incAll_cons, incAll_cons, inc_comm]
  | trans _ _ ih1 ih2 => rw [ih1, ih2]

theorem thr_run_solo (t : Thr A R X) (ev : Ev) (w : W) (cs : Counters) :
    t.run call ev w cs = (t.solo call ev w).map fun (w, l, _, x) => (w, cs.incAll l, x) := by
  induction t generalizing w cs with
  | ret x => rfl
  | inc id k next ih =>
    simp only [Thr.run, Thr.solo, ih]
    cases next.solo call ev w with
    | panic => rfl
    | ok r => rfl
  | call a next ih =>
    simp only [Thr.run, Thr.solo]
    cases call ev w a with
    | panic => rfl
    | ok r =>
      simp only [ih]
      cases (next r.2).solo call ev r.1 with
      | panic => rfl
      | ok q => rfl

/-! ## All interleavings -/

/-- What remains to be done by every goroutine, each by itself. -/
def soloAll (call : Ev → W → A → Res (W × R)) : List (Goroutine A R Ev W X) → Res (List (W × X) × List (Bytes × Kind) × Nat)
  | [] => .ok ([], [], 0)
  | g :: gs =>
    match g.rest.solo call g.ev g.world with
    | .panic => .panic
    | .ok (w, l, n, x) =>
      match soloAll call gs with
      | .panic => .panic
      | .ok (rs, l', n') => .ok ((w, x) :: rs, l ++ l', n + n')

theorem soloAll_set {gs : List (Goroutine A R Ev W X)} {i : Nat} {g g' : Goroutine A R Ev W X} {rs : List (W × X)} {l : List (Bytes × Kind)} {n : Nat}
    {w : W} {x : X} {l0 : List (Bytes × Kind)} {n0 : Nat} {pre : List (Bytes × Kind)}
    (hg : gs[i]? = some g) (h : soloAll call gs = .ok (rs, l, n))
    (h0 : g'.rest.solo call g'.ev g'.world = .ok (w, l0, n0, x))
    (h1 : g.rest.solo call g.ev g.world = .ok (w, pre ++ l0, n0 + 1, x)) :
    ∃ l' n', soloAll call (gs.set i g') = .ok (rs, l', n') ∧ l.Perm (pre ++ l') ∧ n = n' + 1 := by
  induction gs generalizing i rs l n with
  | nil => simp at hg
  | cons a gs ih =>
    simp only [soloAll] at h
    cases i with
    | zero =>
      simp at hg
      subst hg
      simp only [h1] at h
      simp only [List.set_cons_zero, soloAll, h0]
      cases hs : soloAll call gs with
      | panic => simp [hs] at h
      | ok r =>
        obtain ⟨rs2, l2, n2⟩ := r
        simp only [hs, Res.ok.injEq, Prod.mk.injEq] at h ⊢
        obtain ⟨rfl, rfl, rfl⟩ := h
        exact ⟨_, _, ⟨rfl, rfl, rfl⟩, by simp [List.append_assoc], by omega⟩
    | succ i =>
      simp at hg
      simp only [List.set_cons_succ, soloAll]
      cases ha : a.rest.solo call a.ev a.world with
      | panic => simp [ha] at h
      | ok q =>
        obtain ⟨w1, l1, n1, x1⟩ := q
        simp only [ha] at h ⊢
        cases hs : soloAll call gs with
        | panic => simp [hs] at h
        | ok r =>
          obtain ⟨rs2, l2, n2⟩ := r
          simp only [hs, Res.ok.injEq, Prod.mk.injEq] at h
          obtain ⟨rfl, rfl, rfl⟩ := h
          obtain ⟨l', n', q1, q2, q3⟩ := ih hg hs
          refine ⟨l1 ++ l', n1 + n', by simp only [q1], (List.Perm.append_left l1 q2).trans ?_, by omega⟩
          rw [← List.append_assoc, ← List.append_assoc]
          exact List.Perm.append_right _ List.perm_append_comm

theorem soloAll_get {gs : List (Goroutine A R Ev W X)} {i : Nat} {g : Goroutine A R Ev W X} {r : List (W × X) × List (Bytes × Kind) × Nat}
    (hg : gs[i]? = some g) (h : soloAll call gs = .ok r) : ∃ q, g.rest.solo call g.ev g.world = .ok q := by
  induction gs generalizing i r with
  | nil => simp at hg
  | cons a gs ih =>
    simp only [soloAll] at h
    cases ha : a.rest.solo call a.ev a.world with
    | panic => simp [ha] at h
    | ok q =>
      simp only [ha] at h
      cases hs : soloAll call gs with
      | panic => simp [hs] at h
      | ok r2 =>
        cases i with
        | zero => simp at hg; subst hg; exact ⟨q, ha⟩
        | succ i => simp at hg; exact ih hg hs

/-- A step of any goroutine does not change what the goroutines would do by themselves, nor where the counters will end. -/
theorem step_solo {c d : Conc A R Ev W X} {rs : List (W × X)} {l : List (Bytes × Kind)} {n : Nat}
    (hs : Conc.Step call c d) (h : soloAll call c.gs = .ok (rs, l, n)) :
    ∃ l' n', soloAll call d.gs = .ok (rs, l', n') ∧ d.counts.incAll l' = c.counts.incAll l ∧ n = n' + 1 := by
  cases hs with
  | @inc i id k next ev w hg =>
    obtain ⟨q, hq⟩ := soloAll_get hg h
    simp only [Thr.solo] at hq
    cases hn : next.solo call ev w with
    | panic => simp [hn] at hq
    | ok r =>
      obtain ⟨w0, l0, n0, x0⟩ := r
      obtain ⟨l', n', q1, q2, q3⟩ := soloAll_set (pre := [(id, k)]) (g' := ⟨next, ev, w⟩) hg h hn (by simp [Thr.solo, hn])
      refine ⟨l', n', q1, ?_, q3⟩
      rw [incAll_perm q2, List.singleton_append, incAll_cons]
      exact incAll_inc ..
  | @call i a next ev w w' r hg hc =>
    obtain ⟨q, hq⟩ := soloAll_get hg h
    simp only [Thr.solo, hc] at hq
    cases hn : (next r).solo call ev w' with
    | panic => simp [hn] at hq
    | ok q2 =>
      obtain ⟨w0, l0, n0, x0⟩ := q2
      obtain ⟨l', n', q1, q2, q3⟩ := soloAll_set (pre := []) (g' := ⟨next r, ev, w'⟩) hg h hn (by simp [Thr.solo, hc, hn])
      exact ⟨l', n', q1, (incAll_perm q2 _).symm, q3⟩

theorem steps_solo {c d : Conc A R Ev W X} {rs : List (W × X)} {l : List (Bytes × Kind)} {n m : Nat}
    (hs : Conc.Steps call m c d) (h : soloAll call c.gs = .ok (rs, l, n)) :
    ∃ l' n', soloAll call d.gs = .ok (rs, l', n') ∧ d.counts.incAll l' = c.counts.incAll l ∧ n = n' + m := by
  induction hs with
  | refl => exact ⟨l, n, h, rfl, rfl⟩
  | step _ hs ih =>
    obtain ⟨l', n', h1, h2, h3⟩ := ih h
    obtain ⟨l2, n2, h4, h5, h6⟩ := step_solo hs h1
    exact ⟨l2, n2, h4, h5.trans h2, by omega⟩

theorem soloAll_finished {gs : List (Goroutine A R Ev W X)} {rs : List (W × X)} {l : List (Bytes × Kind)} {n : Nat}
    (hf : ∀ g ∈ gs, ∃ x, g.rest = .ret x) (h : soloAll call gs = .ok (rs, l, n)) :
    l = [] ∧ n = 0 ∧ gs.map (fun g => (g.rest, g.world)) = rs.map (fun r => (Thr.ret r.2, r.1)) := by
  induction gs generalizing rs l n with
  | nil => simp [soloAll] at h; obtain ⟨rfl, rfl, rfl⟩ := h; simp
  | cons g gs ih =>
    obtain ⟨x, hx⟩ := hf g (by simp)
    simp only [soloAll, hx, Thr.solo] at h
    cases hs : soloAll call gs with
    | panic => simp [hs] at h
    | ok r =>
      obtain ⟨rs2, l2, n2⟩ := r
      simp only [hs, Res.ok.injEq, Prod.mk.injEq] at h
      obtain ⟨rfl, rfl, rfl⟩ := h
      obtain ⟨rfl, rfl, h3⟩ := ih (fun g hg => hf g (by simp [hg])) hs
      simp [hx, h3]

theorem sequential_solo (p : Pipeline A R) (jobs : List (Ev × W)) (cs : Counters) :
    p.sequential call jobs cs = (soloAll call (jobs.map fun j => (⟨p.thr j.1, j.1, j.2⟩ : Goroutine A R Ev W _))).map
      fun (rs, l, _) => (rs, cs.incAll l) := by
  induction jobs generalizing cs with
  | nil => rfl
  | cons j js ih =>
    obtain ⟨e, w⟩ := j
    have h1 := pipeline_thr_run (call := call) p e w cs []
    rw [thr_run_solo] at h1
    simp only [Pipeline.sequential, List.map_cons, soloAll]
    cases hs : (p.thr e).solo call e w with
    | panic =>
      simp only [hs, Res.map_panic] at h1
      cases hp : p.process call e ⟨w, cs, []⟩ with
      | panic => rfl
      | ok r => simp [hp] at h1
    | ok q =>
      obtain ⟨w1, l1, n1, x1⟩ := q
      simp only [hs, Res.map_ok] at h1
      cases hp : p.process call e ⟨w, cs, []⟩ with
      | panic => simp [hp] at h1
      | ok r =>
        simp only [hp, Res.ok.injEq, Prod.mk.injEq] at h1
        obtain ⟨h2, h3, h4⟩ := h1
        simp only [ih, ← h2, ← h3, ← h4]
        cases soloAll call (js.map fun j => (⟨p.thr j.1, j.1, j.2⟩ : Goroutine A R Ev W _)) with
        | panic => rfl
        | ok q => obtain ⟨a, b, c⟩ := q; simp [incAll_append]

/-- C31. Whatever the schedule: if processing the jobs one after another does not panic, giving `rs` and counters `cs'`, then the concurrent run never panics; when all goroutines have
returned, each has exactly the result and the world it has in the sequential run and the counters are `cs'`. -/
theorem concurrent_eq_sequential {p : Pipeline A R} {jobs : List (Ev × W)} {cs cs' : Counters} {rs : List (W × Option Ev × Option Err)}
    {m : Nat} {d : Conc A R Ev W (Option Ev × Option Err)}
    (hseq : p.sequential call jobs cs = .ok (rs, cs')) (hrun : Conc.Steps call m (p.start jobs cs) d) :
    ¬ d.Crashing call ∧
    (d.Finished → d.gs.map (fun g => (g.rest, g.world)) = rs.map (fun r => (Thr.ret r.2, r.1)) ∧ d.counts = cs') := by
  rw [sequential_solo] at hseq
  cases hs : soloAll call (jobs.map fun j => (⟨p.thr j.1, j.1, j.2⟩ : Goroutine A R Ev W (Option Ev × Option Err))) with
  | panic => simp [hs] at hseq
  | ok q =>
    obtain ⟨rs0, l0, n0⟩ := q
    simp only [hs, Res.map_ok, Res.ok.injEq, Prod.mk.injEq] at hseq
    obtain ⟨rfl, rfl⟩ := hseq
    obtain ⟨l', n', h1, h2, h3⟩ := steps_solo hrun (show soloAll call (p.start jobs cs).gs = _ from hs)
    constructor
    · rintro ⟨g, hg, a, next, hr, hp⟩
      obtain ⟨i, hi⟩ := List.mem_iff_getElem?.1 hg
      obtain ⟨q, hq⟩ := soloAll_get hi h1
      simp [hr, Thr.solo, hp] at hq
    · intro hf
      obtain ⟨rfl, rfl, h4⟩ := soloAll_finished hf h1
      exact ⟨h4, h2⟩

/-- C31. No deadlock and no endless run: there is a bound on the number of steps of all schedules, and a run that is not finished can go on. -/
theorem concurrent_terminates {p : Pipeline A R} {jobs : List (Ev × W)} {cs cs' : Counters} {rs : List (W × Option Ev × Option Err)}
    (hseq : p.sequential call jobs cs = .ok (rs, cs')) :
    ∃ bound, ∀ m d, Conc.Steps call m (p.start jobs cs) d → m ≤ bound ∧ (¬ d.Finished → ∃ e, Conc.Step call d e) := by
  rw [sequential_solo] at hseq
  cases hs : soloAll call (jobs.map fun j => (⟨p.thr j.1, j.1, j.2⟩ : Goroutine A R Ev W (Option Ev × Option Err))) with
  | panic => simp [hs] at hseq
  | ok q =>
    obtain ⟨rs0, l0, n0⟩ := q
    refine ⟨n0, fun m d hrun => ?_⟩
    obtain ⟨l', n', h1, h2, h3⟩ := steps_solo hrun (show soloAll call (p.start jobs cs).gs = _ from hs)
    refine ⟨by omega, fun hf => ?_⟩
    simp only [Conc.Finished] at hf
    have : ∃ g ∈ d.gs, ∀ x, g.rest ≠ .ret x := by
      apply Classical.byContradiction
      intro hc
      apply hf
      intro g hg
      apply Classical.byContradiction
      intro hx
      exact hc ⟨g, hg, fun x h => hx ⟨x, h⟩⟩
    obtain ⟨g, hg, hx⟩ := this
    obtain ⟨i, hi⟩ := List.mem_iff_getElem?.1 hg
    obtain ⟨rest, ev, w⟩ := g
    cases rest with
    | ret x => exact absurd rfl (hx x)
    | inc id k next => exact ⟨_, .inc hi⟩
    | call a next =>
      obtain ⟨q, hq⟩ := soloAll_get hi h1
      cases hc : call ev w a with
      | panic => simp [Thr.solo, hc] at hq
      | ok r => obtain ⟨w', r⟩ := r; exact ⟨_, .call hi hc⟩

/-- C31. The order of the sequential run does not matter for the counters. -/
theorem sequential_order {p : Pipeline A R} {jobs jobs' : List (Ev × W)} {cs cs' : Counters} {rs : List (W × Option Ev × Option Err)}
    (hp : jobs.Perm jobs') (hseq : p.sequential call jobs cs = .ok (rs, cs')) :
    ∃ rs', p.sequential call jobs' cs = .ok (rs', cs') ∧ rs.Perm rs' := by
  have key : ∀ (js js' : List (Ev × W)), js.Perm js' → ∀ rs l n,
      soloAll call (js.map fun j => (⟨p.thr j.1, j.1, j.2⟩ : Goroutine A R Ev W (Option Ev × Option Err))) = .ok (rs, l, n) →
      ∃ rs' l' n', soloAll call (js'.map fun j => (⟨p.thr j.1, j.1, j.2⟩ : Goroutine A R Ev W (Option Ev × Option Err))) = .ok (rs', l', n') ∧
        rs.Perm rs' ∧ l.Perm l' := by
    intro js js' hp
    induction hp with
    | nil => intro rs l n h; exact ⟨rs, l, n, h, .refl _, .refl _⟩
    | cons j _ ih =>
      intro rs l n h
      simp only [List.map_cons, soloAll] at h ⊢
      cases hj : (p.thr j.1).solo call j.1 j.2 with
      | panic => simp [hj] at h
      | ok q =>
        simp only [hj] at h ⊢
        split at h
        · cases h
        · rename_i rs2 l2 n2 hs
          simp only [Res.ok.injEq, Prod.mk.injEq] at h
          obtain ⟨rfl, rfl, rfl⟩ := h
          obtain ⟨rs', l', n', h1, h2, h3⟩ := ih _ _ _ hs
          simp only [h1]
          exact ⟨_, _, _, rfl, h2.cons _, h3.append_left _⟩
    | swap a b js =>
      intro rs l n h
      simp only [List.map_cons, soloAll] at h ⊢
      cases ha : (p.thr a.1).solo call a.1 a.2 with
      | panic => simp [ha] at h; split at h <;> cases h
      | ok qa =>
        cases hb : (p.thr b.1).solo call b.1 b.2 with
        | panic => simp [hb] at h
        | ok qb =>
          simp only [ha, hb] at h ⊢
          cases hs : soloAll call (js.map fun j => (⟨p.thr j.1, j.1, j.2⟩ : Goroutine A R Ev W (Option Ev × Option Err))) with
          | panic => simp [hs] at h
          | ok q =>
            simp only [hs, Res.ok.injEq, Prod.mk.injEq] at h ⊢
            obtain ⟨rfl, rfl, rfl⟩ := h
            refine ⟨_, _, _, ⟨rfl, rfl, rfl⟩, .swap _ _ _, ?_⟩
            rw [← List.append_assoc, ← List.append_assoc]
            exact List.Perm.append_right _ List.perm_append_comm
    | trans _ _ ih1 ih2 =>
      intro rs l n h
      obtain ⟨rs1, l1, n1, h1, h2, h3⟩ := ih1 _ _ _ h
      obtain ⟨rs2, l2, n2, h4, h5, h6⟩ := ih2 _ _ _ h1
      exact ⟨rs2, l2, n2, h4, h2.trans h5, h3.trans h6⟩
  rw [sequential_solo] at hseq ⊢
  cases hs : soloAll call (jobs.map fun j => (⟨p.thr j.1, j.1, j.2⟩ : Goroutine A R Ev W (Option Ev × Option Err))) with
  | panic => simp [hs] at hseq
  | ok q =>
    obtain ⟨rs0, l0, n0⟩ := q
    simp only [hs, Res.map_ok, Res.ok.injEq, Prod.mk.injEq] at hseq
    obtain ⟨rfl, rfl⟩ := hseq
    obtain ⟨rs', l', n', h1, h2, h3⟩ := key _ _ hp _ _ _ hs
    exact ⟨rs', by rw [h1]; simp [incAll_perm h3], h2⟩

/-- Two goroutines on a small pipeline: the sequential run does not panic, so the theorems apply. -/
example : ∃ rs cs', (Pipeline.mk (lit "p") [.mk (lit "a") [] false false [] (writing 1)] []).sequential
    recordCall [((), []), ((), [7])] (fun _ => {}) = .ok (rs, cs') :=
  ⟨_, _, rfl⟩

end Sawmill
