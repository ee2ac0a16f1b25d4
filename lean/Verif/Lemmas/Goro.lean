import Verif.Model.Goro
import Verif.Props.Mem
/-!
# Goroutines that use the library as they like: running alone
-/

namespace Sawmill
namespace Goro
open Mem

theorem deleteM_runs (path : List Bytes) (e : Event) (h : Heap) : Runs (deleteM e path) h (delete h e path) := by
  cases path with
  | nil => exact .ret _ _
  | cons k ks =>
    simp only [deleteM, delete]
    refine .readMap ?_
    split
    · exact .ret _ _
    · refine (Runs.bind (getM_runs (k :: ks) e h) (r' := fun g v => if v ≠ none then .ok (mapDelete g e k, v) else .ok (g, v)) ?_).of_eq ?_
      · intro g v _
        split
        · exact .eraseMap (.ret _ _)
        · exact .ret _ _
      · rcases get h e (k :: ks) with ⟨g, v⟩ | _ <;> rfl

/-- A program that only reads. -/
theorem Runs.pure {α β : Type} {t : Mem α} {h : Heap} {x : α} (ht : Runs t h (.ok (h, x))) {f : α → Mem β} {r : Res (Heap × β)} (hf : Runs (f x) h r) : Runs (t.bind f) h r :=
  (Runs.bind ht (r' := fun _ _ => r) (by rintro g y hy; cases hy; exact hf)).of_eq rfl

theorem joinM_runs {α : Type} {f : α → Mem (JOut Bytes)} {g : α → JOut Bytes} {h : Heap} (hf : ∀ x, Runs (f x) h (.ok (h, g x))) (xs : List α) : Runs (joinM f xs) h (.ok (h, joinText g xs)) := by
  induction xs with
  | nil => exact .ret _ _
  | cons x xs ih =>
    cases xs with
    | nil => exact hf x
    | cons y ys =>
      simp only [joinM, joinText]
      refine Runs.pure (hf x) ?_
      cases g x with
      | ok a => exact Runs.pure ih (.ret _ _)
      | error => exact .ret _ _
      | fuel => exact .ret _ _

theorem entriesM_runs {env : JEnv} {h : Heap} {n : Nat} (ih : ∀ p, Runs (marshalM env n p) h (.ok (h, marshalPtr env h n p))) (es : AMap Ptr) :
    Runs ((joinM (fun e : Bytes × Ptr => (marshalM env n e.2).bind fun t => .ret (t.bind fun t => .ok (encStr e.1 ++ 58 :: t))) es).bind fun t => .ret (t.bind fun t => .ok (123 :: (t ++ [125])))) h
      (.ok (h, (joinText (fun e : Bytes × Ptr => (marshalPtr env h n e.2).bind fun t => .ok (encStr e.1 ++ 58 :: t)) es).bind fun t => .ok (123 :: (t ++ [125])))) := by
  refine Runs.pure (joinM_runs (g := fun e : Bytes × Ptr => (marshalPtr env h n e.2).bind fun t => .ok (encStr e.1 ++ 58 :: t)) (fun e => ?_) es) (.ret _ _)
  exact Runs.pure (ih e.2) (.ret _ _)

theorem marshalM_runs (env : JEnv) (h : Heap) (n : Nat) (p : Ptr) : Runs (marshalM env n p) h (.ok (h, marshalPtr env h n p)) := by
  induction n generalizing p with
  | zero => exact .ret _ _
  | succ n ih =>
    simp only [marshalM, marshalPtr]
    refine .peek ?_
    cases hd : deref h p with
    | none => exact .ret _ _
    | some c =>
      simp only
      cases hty : c.type <;> simp only
      case array =>
        cases c.array with
        | none => exact Runs.pure (.ret _ _) (.ret _ _)
        | some ps => exact Runs.pure (x := (joinText (marshalPtr env h n) ps).bind fun t => .ok (91 :: (t ++ [93]))) (Runs.pure (joinM_runs ih ps) (.ret _ _)) (.ret _ _)
      case object =>
        cases c.object with
        | none => exact Runs.pure (.ret _ _) (.ret _ _)
        | some m => exact Runs.pure (.readMap (entriesM_runs ih _)) (.ret _ _)
      all_goals exact Runs.pure (.ret _ _) (.ret _ _)

theorem marshalEventM_runs (env : JEnv) (h : Heap) (n : Nat) (e : Event) : Runs (marshalEventM env n e) h (.ok (h, marshalEvent env n h e)) := by
  unfold marshalEventM marshalEvent
  cases e with
  | none => exact Runs.pure (.ret _ _) (.ret _ _)
  | some m => exact Runs.pure (.readMap (entriesM_runs (marshalM_runs env h n) _)) (.ret _ _)

/-- Without interruption `t` does `r`. -/
def RunsC {Y : Type} (t : Mem (Locals × Y)) (h : Heap) (cs : Counters) (r : Res (State × Y)) : Prop :=
  match r with
  | .panic => t.solo h = .panic
  | .ok (s, y) => ∃ incs n, t.solo h = .ok (s.heap, incs, n, (s.locals, y)) ∧ s.counts = cs.incAll incs

theorem Runs.toC {Y : Type} {t : Mem (Locals × Y)} {h : Heap} {r : Res (Heap × Locals × Y)} (cs : Counters) (ht : Runs t h r) : RunsC t h cs (r.map fun q => (⟨q.1, cs, q.2.1⟩, q.2.2)) := by
  cases r with
  | panic => exact ht
  | ok q =>
    obtain ⟨n, hn⟩ := ht
    exact ⟨[], n, hn, rfl⟩

theorem lookM_runs (L : Locals) (h : Heap) (a : Nat) : Runs (lookM L a) h (match deref h (some a) with
    | none => .panic
    | some c => .ok (h, L, .look (some (.of h c)))) := by
  unfold lookM
  cases hd : deref h (some a) with
  | none => exact .readCell_none hd
  | some c =>
    refine .readCell hd ?_
    simp only [Look.of]
    cases c.object with
    | none => exact .ret _ _
    | some m => exact .readMap (.ret _ _)

theorem itemM_runs (keep : Ptr → Locals) (h : Heap) (p : Ptr) (i : Nat) : Runs (itemM keep p i) h (match deref h p with
    | none => .panic
    | some c => (itemAt c i).map fun q => (h, keep q, .value q.isNone none)) := by
  unfold itemM
  cases hd : deref h p with
  | none => exact .readCell_none hd
  | some c =>
    refine .readCell hd ?_
    simp only
    cases itemAt c i with
    | panic => exact .crash
    | ok q => exact .ret _ _

theorem fieldM_runs (keep : Ptr → Locals) (h : Heap) (p : Ptr) (key : Bytes) : Runs (fieldM keep p key) h (match deref h p with
    | none => .panic
    | some c => .ok (h, keep ((mapOf h c.object).lookup key).join, .value ((mapOf h c.object).lookup key).join.isNone none)) := by
  unfold fieldM
  cases hd : deref h p with
  | none => exact .readCell_none hd
  | some c => exact .readCell hd (.readMap (.ret _ _))

theorem textM_runs (env : JEnv) (n : Nat) (L : Locals) (h : Heap) (e : Event) : Runs ((marshalEventM env n e).bind (textM L)) h (match marshalEvent env n h e with
    | .fuel => .panic
    | .error => .ok (h, L, .refused)
    | .ok bs => .ok (h, L, .text bs)) := by
  refine Runs.pure (marshalEventM_runs env h n e) ?_
  cases marshalEvent env n h e with
  | fuel => exact .crash
  | error => exact .ret _ _
  | ok bs => exact .ret _ _

theorem Runs.toC' {Y : Type} {t : Mem (Locals × Y)} {h : Heap} {r : Res (Heap × Locals × Y)} {cs : Counters} (ht : Runs t h r) {r' : Res (State × Y)} (he : (r.map fun q => (⟨q.1, cs, q.2.1⟩, q.2.2)) = r') : RunsC t h cs r' :=
  he ▸ Runs.toC cs ht

theorem cmdM_runs (env : Env) (h : Heap) (cs : Counters) (L : Locals) (c : Cmd) : RunsC (cmdM env L c) h cs (step env ⟨h, cs, L⟩ c) := by
  cases c with
  | new => exact Runs.toC' (.ret _ _) rfl
  | leaf s => exact Runs.toC' (.alloc (.ret _ _)) rfl
  | array vs =>
    simp only [cmdM, step]
    cases vs.mapM (L.vals[·]?) with
    | none => exact Runs.toC' (.ret _ _) rfl
    | some ps => exact Runs.toC' (.alloc (.ret _ _)) rfl
  | object es =>
    simp only [cmdM, step]
    cases es.mapM fun e => (L.vals[e.2]?).map (e.1, ·) with
    | none => exact Runs.toC' (.ret _ _) rfl
    | some ps => exact Runs.toC' (r := .ok (h ++ [.map (AMap.ofEntries ps [])] ++ [.cell (objCell (some h.length))], L.keepVal (some (h.length + 1)), .done)) (.alloc (.alloc (by
        have := Runs.ret (L.keepVal (some (h ++ [HObj.map (AMap.ofEntries ps [])]).length), Reply.done) (h ++ [HObj.map (AMap.ofEntries ps [])] ++ [HObj.cell (objCell (some h.length))])
        simpa using this))) rfl
  | put ow i key j =>
    simp only [cmdM, step]
    cases L.events[i]? with
    | none => exact Runs.toC' (.ret _ _) rfl
    | some e =>
      cases L.vals[j]? with
      | none => exact Runs.toC' (.ret _ _) rfl
      | some v =>
        refine Runs.toC' (Runs.bind (putM_runs (keyToPath key) e v ow h) (r' := fun g r => .ok (g, ⟨L.events.set i r.1, L.vals ++ [r.2.1], L.seen⟩, .value r.2.1.isNone r.2.2)) fun g r _ => .ret _ _) ?_
        simp only
        rcases put h e (keyToPath key) v ow with ⟨g, e', old, er⟩ | _ <;> rfl
  | get i key =>
    simp only [cmdM, step]
    cases L.events[i]? with
    | none => exact Runs.toC' (.ret _ _) rfl
    | some e =>
      refine Runs.toC' (Runs.bind (getM_runs (keyToPath key) e h) (r' := fun g p => .ok (g, L.keepVal p, .value p.isNone none)) fun g r _ => .ret _ _) ?_
      simp only
      rcases get h e (keyToPath key) with ⟨g, p⟩ | _ <;> rfl
  | delete i key =>
    simp only [cmdM, step]
    cases L.events[i]? with
    | none => exact Runs.toC' (.ret _ _) rfl
    | some e =>
      refine Runs.toC' (Runs.bind (deleteM_runs (keyToPath key) e h) (r' := fun g p => .ok (g, L.keepVal p, .value p.isNone none)) fun g r _ => .ret _ _) ?_
      simp only
      rcases delete h e (keyToPath key) with ⟨g, p⟩ | _ <;> rfl
  | process k i =>
    simp only [cmdM, step]
    cases env.pipes[k]? with
    | none => exact Runs.toC' (.ret _ _) rfl
    | some p =>
      cases L.events[i]? with
      | none => exact Runs.toC' (.ret _ _) rfl
      | some e =>
        simp only
        have := shared_refines env.conv p h e cs []
        revert this
        rcases p.process (builtinCall env.conv) () ⟨(h, e), cs, []⟩ with ⟨w, evt, err⟩ | _
        · rintro ⟨incs, n, h1, h2⟩
          exact ⟨incs, n, by simp [solo_bind, h1, solo], h2⟩
        · intro h1
          show Mem.solo _ _ = _
          simp only at h1
          simp [solo_bind, h1]
  | look j =>
    simp only [cmdM, step]
    rcases L.vals[j]? with _ | _ | a
    · exact Runs.toC' (.ret _ _) rfl
    · exact Runs.toC' (.ret _ _) rfl
    · refine Runs.toC' (lookM_runs L h a) ?_
      simp only
      cases deref h (some a) <;> rfl
  | item j i =>
    simp only [cmdM, step]
    rcases L.vals[j]? with _ | p
    · exact Runs.toC' (.ret _ _) rfl
    · refine Runs.toC' (itemM_runs L.keepVal h p i) ?_
      simp only
      cases deref h p with
      | none => rfl
      | some c => simp only; cases itemAt c i <;> rfl
  | field j key =>
    simp only [cmdM, step]
    rcases L.vals[j]? with _ | p
    · exact Runs.toC' (.ret _ _) rfl
    · refine Runs.toC' (fieldM_runs L.keepVal h p key) ?_
      simp only
      cases deref h p <;> rfl
  | same i j =>
    simp only [cmdM, step]
    cases L.vals[i]? with
    | none => exact Runs.toC' (.ret _ _) rfl
    | some p => cases L.vals[j]? with
      | none => exact Runs.toC' (.ret _ _) rfl
      | some q => exact Runs.toC' (.ret _ _) rfl
  | json i =>
    simp only [cmdM, step]
    rcases L.events[i]? with _ | e
    · exact Runs.toC' (.ret _ _) rfl
    · refine Runs.toC' (textM_runs env.json env.stack L h e) ?_
      simp only
      cases marshalEvent env.json env.stack h e <;> rfl
  | sharedGet i key =>
    simp only [cmdM, step]
    rcases env.shared[i]? with _ | e
    · exact Runs.toC' (.ret _ _) rfl
    · simp only
      split
      · exact Runs.toC' (.ret _ _) rfl
      · refine Runs.toC' (Runs.bind (getM_runs (keyToPath key) e h) (r' := fun g p => .ok (g, L.keepSeen p, .value p.isNone none)) fun g r _ => .ret _ _) ?_
        rcases get h e (keyToPath key) with ⟨g, p⟩ | _ <;> rfl
  | sharedLook j =>
    simp only [cmdM, step]
    rcases L.seen[j]? with _ | _ | a
    · exact Runs.toC' (.ret _ _) rfl
    · exact Runs.toC' (.ret _ _) rfl
    · refine Runs.toC' (lookM_runs L h a) ?_
      simp only
      cases deref h (some a) <;> rfl
  | sharedItem j i =>
    simp only [cmdM, step]
    rcases L.seen[j]? with _ | p
    · exact Runs.toC' (.ret _ _) rfl
    · refine Runs.toC' (itemM_runs L.keepSeen h p i) ?_
      simp only
      cases deref h p with
      | none => rfl
      | some c => simp only; cases itemAt c i <;> rfl
  | sharedField j key =>
    simp only [cmdM, step]
    rcases L.seen[j]? with _ | p
    · exact Runs.toC' (.ret _ _) rfl
    · refine Runs.toC' (fieldM_runs L.keepSeen h p key) ?_
      simp only
      cases deref h p <;> rfl
  | sharedJson i =>
    simp only [cmdM, step]
    rcases env.shared[i]? with _ | e
    · exact Runs.toC' (.ret _ _) rfl
    · refine Runs.toC' (textM_runs env.json env.stack L h e) ?_
      simp only
      cases marshalEvent env.json env.stack h e <;> rfl

/-- The program of single accesses, without interruption, is the program of calls. -/
theorem prog_runs {X : Type} (env : Env) (p : Prog X) (s : State) : RunsC (p.mem env s.locals) s.heap s.counts (p.run env s) := by
  induction p generalizing s with
  | ret x => exact ⟨[], 0, rfl, rfl⟩
  | call c k ih =>
    have h1 := cmdM_runs env s.heap s.counts s.locals c
    simp only [Prog.mem, Prog.run]
    revert h1
    show RunsC _ _ _ (step env s c) → _
    cases step env s c with
    | panic => intro h1; show Mem.solo _ _ = _; simp only [RunsC] at h1; simp [solo_bind, h1]
    | ok q =>
      obtain ⟨s1, r⟩ := q
      rintro ⟨incs, n, h1, h2⟩
      have h3 := ih r s1
      simp only
      revert h3
      cases (k r).run env s1 with
      | panic => intro h3; show Mem.solo _ _ = _; simp only [RunsC] at h3; simp [solo_bind, h1, h3]
      | ok q2 =>
        obtain ⟨s2, x⟩ := q2
        rintro ⟨incs2, n2, h3, h4⟩
        exact ⟨incs ++ incs2, n + n2, by simp [solo_bind, h1, h3], by rw [h4, h2, incAll_append]⟩

end Goro
end Sawmill
