import Verif.Spec.CliPure
import Verif.Props.Plan
import Verif.Props.Cli
import Verif.Lemmas.JsonFun
/-!
# What follows for users of a pipeline (C58, C59), and the command line program as a function of configuration and lines (C62)
-/

namespace Sawmill
variable {pr : Nat → Bool}
open Rfc

/-! ## C58 -/

/-- **C58.** Two events with the same contents, in whatever memory, with whatever counters: `Process` panics for both or for neither, fails for both (with errors of the same kind) or for neither, and leaves the same contents. -/
theorem same_contents_same_outcome (cv : Conv) {p : Pipeline Builtin (Option Err)} {q : Spec.Pipe} {h g : Heap} {e f : AFields} (oe : Owns h e) (of : Owns g f) (hp : PipeIs h p q) (gp : PipeIs g p q)
    (hc : e.erase = f.erase) (hs : q.apply cv e.erase ≠ .shares) (c1 c2 : Counters) (l1 l2 : List Invocation) :
    (p.process (builtinCall cv) () ⟨(h, e.event), c1, l1⟩ = .panic ∧ p.process (builtinCall cv) () ⟨(g, f.event), c2, l2⟩ = .panic) ∨
    ∃ w1 w2 ret err1 err2 F pe, p.process (builtinCall cv) () ⟨(h, e.event), c1, l1⟩ = .ok (w1, ret, err1) ∧ p.process (builtinCall cv) () ⟨(g, f.event), c2, l2⟩ = .ok (w2, ret, err2) ∧
      Holds w1.world.1 w1.world.2 F ∧ Holds w2.world.1 w2.world.2 F ∧ procErrMatches err1 pe ∧ procErrMatches err2 pe := by
  have k1 := pipeline_pure cv oe hp c1 l1
  have k2 := pipeline_pure cv of gp c2 l2
  rw [← hc] at k2
  cases hq : q.apply cv e.erase with
  | crash => rw [hq] at k1 k2; exact .inl ⟨k1, k2⟩
  | shares => exact absurd hq hs
  | done x =>
    obtain ⟨F, pe⟩ := x
    rw [hq] at k1 k2
    cases pe with
    | none =>
      obtain ⟨w1, f1, a1, a2, a3, a4, _⟩ := k1
      obtain ⟨w2, f2, b1, b2, b3, b4, _⟩ := k2
      exact .inr ⟨w1, w2, some (), none, none, F, none, a1, b1, by rw [a2, ← a4]; exact a3.holds, by rw [b2, ← b4]; exact b3.holds, trivial, trivial⟩
    | some pe =>
      obtain ⟨w1, f1, e1, a1, a2, a3, a4, a5, _⟩ := k1
      obtain ⟨w2, f2, e2, b1, b2, b3, b4, b5, _⟩ := k2
      exact .inr ⟨w1, w2, none, some e1, some e2, F, some pe, a1, b1, by rw [a2, ← a4]; exact a3.holds, by rw [b2, ← b4]; exact b3.holds, a5, b5⟩

mutual
/-- No `set` in it copies a field. -/
def Spec.Proc.NoCopy : Spec.Proc → Prop
  | .mk step _ _ onF => (∀ s c t, step = .set s c t → s = .null → c = []) ∧ Spec.NoCopyAll onF
def Spec.NoCopyAll : List Spec.Proc → Prop
  | [] => True
  | p :: ps => Spec.Proc.NoCopy p ∧ Spec.NoCopyAll ps
end

theorem of_ne_shares {α : Type} (r : Res α) : Spec.Run.of r ≠ .shares := by cases r <;> simp [Spec.Run.of]

theorem step_no_shares (cv : Conv) (s : Spec.Step) (hs : ∀ x c t, s = .set x c t → x = .null → c = []) (F : Fields) : s.apply cv F ≠ .shares := by
  cases s with
  | set x c t =>
    cases x with
    | null =>
      obtain rfl := hs _ _ _ rfl rfl
      simp only [Spec.Step.apply, if_true]
      exact of_ne_shares _
    | _ => simp only [Spec.Step.apply]; exact of_ne_shares _
  | remove => simp [Spec.Step.apply]
  | communityId => simp [Spec.Step.apply]
  | _ => exact of_ne_shares _

mutual
theorem proc_no_shares (cv : Conv) : ∀ (q : Spec.Proc), q.NoCopy → ∀ F, q.apply cv F ≠ .shares
  | .mk step ignF ignM onF, hq, F => by
    simp only [Spec.Proc.NoCopy] at hq
    have h1 := step_no_shares cv step hq.1 F
    simp only [Spec.Proc.apply]
    cases hr : step.apply cv F with
    | crash => simp
    | shares => exact absurd hr h1
    | done x =>
      obtain ⟨G, pe⟩ := x
      cases pe with
      | none => simp
      | some pe =>
        simp only
        split
        · simp
        · split
          · simp
          · have h2 := procs_no_shares cv onF hq.2 G
            cases hr2 : Spec.applyAll cv onF G with
            | crash => simp
            | shares => exact absurd hr2 h2
            | done y => simp
theorem procs_no_shares (cv : Conv) : ∀ (qs : List Spec.Proc), Spec.NoCopyAll qs → ∀ F, Spec.applyAll cv qs F ≠ .shares
  | [], _, F => by simp [Spec.applyAll]
  | q :: qs, hq, F => by
    simp only [Spec.NoCopyAll] at hq
    have h1 := proc_no_shares cv q hq.1 F
    simp only [Spec.applyAll]
    cases hr : q.apply cv F with
    | crash => simp
    | shares => exact absurd hr h1
    | done x =>
      obtain ⟨G, pe⟩ := x
      cases pe with
      | some pe => simp
      | none => exact procs_no_shares cv qs hq.2 G
end

/-- C58: without `copy_from` contents always say everything. -/
theorem no_copy_no_shares (cv : Conv) {q : Spec.Pipe} (h1 : Spec.NoCopyAll q.processors) (h2 : Spec.NoCopyAll q.onFailure) (F : Fields) : q.apply cv F ≠ .shares := by
  have k1 := procs_no_shares cv _ h1 F
  simp only [Spec.Pipe.apply]
  cases hr : Spec.applyAll cv q.processors F with
  | crash => simp
  | shares => exact absurd hr k1
  | done x =>
    obtain ⟨G, pe⟩ := x
    cases pe with
    | none => simp
    | some pe =>
      simp only
      split
      · simp
      · exact procs_no_shares cv _ h2 G

/-! ## C59: configurations -/

section
variable {C : Type} {kinds : List ProcKind} {fill : ProcKind → C → Except Err Opts} {nilConfig : C} {h : Heap} {r : Registry Opts (Built Builtin (Option Err))}

/-- **C59.** A configuration that `New` accepts means a function of the contents of events, and the pipeline computes that function. -/
theorem config_semantics (hn : kinds.Nodup) (hr : Registered kinds r) (hf : FillOk h kinds fill) (cv : Conv) {c : Config C} {p : Pipeline Builtin (Option Err)}
    (hp : Pipeline.new (registryFactory pr fill nilConfig r) c = .ok (.ok p)) :
    ∃ q, Spec.plan (Spec.optionsOf h kinds fill) nilConfig c = some q ∧ PipeIs h p q ∧
      ∀ {f : AFields}, Owns h f → ∀ counts log, PurePost h f (p.process (builtinCall cv) () ⟨(h, f.event), counts, log⟩) (q.apply cv f.erase) := by
  have := new_plan (pr := pr) (nilConfig := nilConfig) hn hr hf c
  cases hq : Spec.plan (Spec.optionsOf h kinds fill) nilConfig c with
  | none => simp only [hq] at this; obtain ⟨e, he⟩ := this; rw [hp] at he; cases he
  | some q =>
    simp only [hq] at this
    obtain ⟨p', he, hi⟩ := this
    rw [hp] at he
    simp only [Res.ok.injEq, Except.ok.injEq] at he; subst he
    exact ⟨q, rfl, hi, fun o counts log => pipeline_pure cv o hi counts log⟩

/-- C59: whatever the options of a processor are, failures are ignored only for `set` and `community_id`. -/
theorem ignore_failure_only (name : Bytes) (o : Option (OptCfg C)) {step : Spec.Step} {ignF ignM : Bool} {onF : List Spec.Proc}
    (hf : FillOk h kinds fill) (hp : Spec.planOpts (Spec.optionsOf h kinds fill) nilConfig name o = some (.mk step ignF ignM onF)) (hi : ignF = true) : name = lit "set" ∨ name = lit "community_id" := by
  have key : ∀ {config : C} {x : Spec.Step × Bool × Bool}, Spec.optionsOf h kinds fill name config = some x → x.2.1 = true → name = lit "set" ∨ name = lit "community_id" := by
    intro config x hx hi
    simp only [Spec.optionsOf, kindName_eq] at hx
    split at hx
    · cases hx
    · next k hk =>
      have hm := List.mem_of_find?_eq_some hk
      have hname : k.name = name := by simpa using List.find?_some hk
      split at hx
      · cases hx
      · next o ho =>
        have ht := hf.typed k hm _ _ ho
        cases o with
        | set => left; rw [← hname, ← ht]; rfl
        | communityId => right; rw [← hname, ← ht]; rfl
        | _ => simp only [Spec.stepOf, Option.some.injEq] at hx; subst hx; cases hi
  cases o with
  | none =>
    simp only [Spec.planOpts, Option.map_eq_some_iff] at hp
    obtain ⟨x, hx, he⟩ := hp
    simp only [Spec.Proc.mk.injEq] at he
    exact key hx (by rw [he.2.1]; exact hi)
  | some o =>
    cases o with
    | mk id cond onF' config =>
      simp only [Spec.planOpts, Spec.planOpt] at hp
      split at hp
      · next x ps hx hps =>
        simp only [Option.some.injEq, Spec.Proc.mk.injEq] at hp
        exact key hx (by rw [hp.2.1]; exact hi)
      · cases hp

/-- C59: a `lowercase`, `uppercase` or `append` that fails with anything else than a missing key, and has no on_failure processors, fails the pipeline. -/
theorem failure_not_ignored (cv : Conv) {step : Spec.Step} {ignM : Bool} {rest : List Spec.Proc} {F G : Fields} {t : Bytes} (hs : step.apply cv F = .done (G, some (.other t))) :
    Spec.Pipe.apply cv ⟨.mk step false ignM [] :: rest, []⟩ F = .done (G, some (.other t)) := by
  simp [Spec.Pipe.apply, Spec.applyAll, Spec.Proc.apply, hs, Spec.PErr.isMissing]
end

/-! ## C62: the command line program -/

mutual
theorem procIs_calls {h : Heap} : ∀ (n : Node Builtin (Option Err)) (q : Spec.Proc), ProcIs h n q → n.Calls (Builtin.LeafConfig h)
  | .mk _ _ _ _ onF proc, q, hq => by
    simp only [ProcIs] at hq
    obtain ⟨b, step, qs, rfl, hb, _, hqs⟩ := hq
    simp only [Node.Calls]
    refine ⟨⟨?_, fun _ => trivial⟩, procsAre_calls onF qs hqs⟩
    cases b with
    | set v c t => obtain ⟨x, _, hx⟩ := hb; exact ⟨x, hx⟩
    | _ => trivial
theorem procsAre_calls {h : Heap} : ∀ (ns : List (Node Builtin (Option Err))) (qs : List Spec.Proc), ProcsAre h ns qs → Node.CallsAll (Builtin.LeafConfig h) ns
  | [], _, _ => by simp [Node.CallsAll]
  | n :: ns, qs, hq => by
    simp only [ProcsAre] at hq
    obtain ⟨q, r, _, h1, h2⟩ := hq
    simp only [Node.CallsAll]
    exact ⟨procIs_calls n q h1, procsAre_calls ns r h2⟩
end

theorem pipeIs_calls {h : Heap} {p : Pipeline Builtin (Option Err)} {q : Spec.Pipe} (hq : PipeIs h p q) : p.Calls (Builtin.LeafConfig h) := ⟨procsAre_calls _ _ hq.1, procsAre_calls _ _ hq.2⟩

/-- A run from contents that are there ends with contents that are there. -/
def Spec.Run.There (r : Spec.Run (Fields × Option Spec.PErr)) : Prop := ∀ F pe, r = .done (F, pe) → ∃ m, F = some m

theorem there_put {m : AMap Val} {key : Bytes} {v : Val} {F : Fields} {pe : Option Spec.PErr} (h : Spec.putP (some m) key v = .ok (F, pe)) : ∃ m', F = some m' := by
  simp only [Spec.putP, Spec.putFields] at h
  split at h
  · simp only [Res.map_ok, Res.ok.injEq, Prod.mk.injEq] at h; exact ⟨m, h.1.symm⟩
  · split at h
    · simp only [Res.map_ok, Res.ok.injEq, Prod.mk.injEq] at h; exact ⟨m, h.1.symm⟩
    · cases hg : Spec.getFields (some m) (keyToPath key) with
      | panic => simp [hg] at h
      | ok old =>
        simp only [hg, Res.bind_ok, Option.getD_some, Bool.not_true, Bool.and_false, Bool.false_eq_true, if_false] at h
        cases hs : Spec.store m (keyToPath key) v with
        | panic => simp [hs] at h
        | ok o =>
          cases o with
          | none => simp only [hs, Res.bind_ok, Res.map_ok, Res.ok.injEq, Prod.mk.injEq] at h; exact ⟨m, h.1.symm⟩
          | some m' => simp only [hs, Res.bind_ok, Res.map_ok, Res.ok.injEq, Prod.mk.injEq] at h; exact ⟨m', h.1.symm⟩

theorem there_putOf {m : AMap Val} {key : Bytes} {v : Val} : (Spec.Run.of (Spec.putP (some m) key v)).There := by
  intro F pe h
  cases hp : Spec.putP (some m) key v with
  | panic => simp [hp, Spec.Run.of] at h
  | ok x => simp only [hp, Spec.Run.of, Spec.Run.done.injEq] at h; subst h; exact there_put hp

theorem there_convert {conv : Bytes → Bytes} {msg field target : Bytes} {m : AMap Val} : (Spec.Run.of (Spec.convert conv msg field target (some m))).There := by
  intro F pe h
  simp only [Spec.convert] at h
  cases hg : Spec.getFields (some m) (keyToPath field) with
  | panic => simp [hg, Spec.Run.of] at h
  | ok v =>
    simp only [hg, Res.bind_ok] at h
    split at h
    · simp only [Spec.Run.of, Spec.Run.done.injEq, Prod.mk.injEq] at h; exact ⟨m, h.1.symm⟩
    · exact there_putOf F pe h
    · simp only [Spec.Run.of, Spec.Run.done.injEq, Prod.mk.injEq] at h; exact ⟨m, h.1.symm⟩

theorem there_append {field value : Bytes} {m : AMap Val} : (Spec.Run.of (Spec.append field value (some m))).There := by
  intro F pe h
  have key : ∀ {k : Bytes} {v : Val}, Spec.Run.of ((Spec.putP (some m) k v).map fun (f', _) => (f', (none : Option Spec.PErr))) = .done (F, pe) → ∃ m', F = some m' := by
    intro k v h
    cases hp : Spec.putP (some m) k v with
    | panic => simp [hp, Spec.Run.of] at h
    | ok x =>
      obtain ⟨G, e⟩ := x
      simp only [hp, Res.map_ok, Spec.Run.of, Spec.Run.done.injEq, Prod.mk.injEq] at h
      obtain ⟨m', hm⟩ := there_put hp
      exact ⟨m', by rw [← h.1, hm]⟩
  simp only [Spec.append] at h
  cases hg : Spec.getFields (some m) (keyToPath field) with
  | panic => simp [hg, Spec.Run.of] at h
  | ok v =>
    simp only [hg, Res.bind_ok] at h
    split at h
    · exact key h
    · exact key h
    · exact key h
    all_goals (simp only [Spec.Run.of, Spec.Run.done.injEq, Prod.mk.injEq] at h; exact ⟨m, h.1.symm⟩)

theorem there_done {m : AMap Val} {e : Option Spec.PErr} : (Spec.Run.done (some m, e)).There := by
  intro F pe h
  simp only [Spec.Run.done.injEq, Prod.mk.injEq] at h
  exact ⟨m, h.1.symm⟩

theorem there_step (cv : Conv) (s : Spec.Step) (m : AMap Val) : (s.apply cv (some m)).There := by
  cases s with
  | lowercase f t => exact there_convert
  | uppercase f t => exact there_convert
  | append f v => exact there_append
  | remove => exact there_done
  | communityId => exact there_done
  | set x c t =>
    cases x with
    | null =>
      simp only [Spec.Step.apply]
      split
      · exact there_putOf
      · split
        · intro F pe h; cases h
        · exact there_done
        · exact there_putOf
        · intro F pe h; cases h
    | _ => simp only [Spec.Step.apply]; exact there_putOf

mutual
theorem there_proc (cv : Conv) : ∀ (q : Spec.Proc) (m : AMap Val), (q.apply cv (some m)).There
  | .mk step ignF ignM onF, m => by
    have h1 := there_step cv step m
    simp only [Spec.Proc.apply]
    cases hr : step.apply cv (some m) with
    | crash => intro F pe h; cases h
    | shares => intro F pe h; cases h
    | done x =>
      obtain ⟨G, pe⟩ := x
      obtain ⟨m1, rfl⟩ := h1 _ _ hr
      cases pe with
      | none => exact there_done
      | some pe =>
        simp only
        split
        · exact there_done
        · split
          · exact there_done
          · have h2 := there_procs cv onF m1
            cases hr2 : Spec.applyAll cv onF (some m1) with
            | crash => intro F pe h; cases h
            | shares => intro F pe h; cases h
            | done y =>
              obtain ⟨G2, pe2⟩ := y
              obtain ⟨m2, rfl⟩ := h2 _ _ hr2
              exact there_done
theorem there_procs (cv : Conv) : ∀ (qs : List Spec.Proc) (m : AMap Val), (Spec.applyAll cv qs (some m)).There
  | [], m => by simp only [Spec.applyAll]; exact there_done
  | q :: qs, m => by
    have h1 := there_proc cv q m
    simp only [Spec.applyAll]
    cases hr : q.apply cv (some m) with
    | crash => intro F pe h; cases h
    | shares => intro F pe h; cases h
    | done x =>
      obtain ⟨G, pe⟩ := x
      obtain ⟨m1, rfl⟩ := h1 _ _ hr
      cases pe with
      | some pe => exact there_done
      | none => exact there_procs cv qs m1
end

/-- C58: an event with fields stays one with fields. -/
theorem there_pipe (cv : Conv) (q : Spec.Pipe) (m : AMap Val) : (q.apply cv (some m)).There := by
  have h1 := there_procs cv q.processors m
  simp only [Spec.Pipe.apply]
  cases hr : Spec.applyAll cv q.processors (some m) with
  | crash => intro F pe h; cases h
  | shares => intro F pe h; cases h
  | done x =>
    obtain ⟨G, pe⟩ := x
    obtain ⟨m1, rfl⟩ := h1 _ _ hr
    cases pe with
    | none => exact there_done
    | some pe =>
      simp only
      split
      · exact there_done
      · exact there_procs cv q.onFailure m1

/-- **C62.** What the program does with a line is what the pipeline does to a number and a text. -/
theorem cli_line {env : JEnv} (hl : env.Lawful) (n : Nat) (cv : Conv) {p : Pipeline Builtin (Option Err)} {q : Spec.Pipe} {w : PWorld Heap} (hp : PipeIs w.world p q) (i : Nat) (l : Bytes)
    (hs : ∀ t, Trimmed l t → q.apply cv (some (lineFields i t)) ≠ .shares) : LineDoes env n cv q i l (soloOutcome env n cv p w i l) := by
  have ht := trimSpace_spec l
  have hbl := trimSpace_blank_iff l
  simp only [soloOutcome]
  split
  · next h => exact .blank (hbl.1 h)
  · next h =>
    have hb : ¬ Blank l := fun hx => h (hbl.2 hx)
    obtain ⟨h', f, he, o, hc, hnew, hfr⟩ := lineEvent_spec w.world i (trimSpace l)
    have key := pipeline_pure cv o (p := p) (q := q) ⟨procsAre_mono (frame_scalars hfr) _ _ hp.1, procsAre_mono (frame_scalars hfr) _ _ hp.2⟩ w.counts w.log
    rw [hc] at key
    have hth := there_pipe cv q (lineFields i (trimSpace l))
    simp only [handleLine, he]
    have hk : PurePost h' f (p.process (builtinCall cv) () ⟨(h', f.event), w.counts, w.log⟩) (q.apply cv (some (lineFields i (trimSpace l)))) := key
    cases hq : q.apply cv (some (lineFields i (trimSpace l))) with
    | crash => rw [hq] at hk; rw [show p.process (builtinCall cv) () ⟨(h', f.event), w.counts, w.log⟩ = .panic from hk]; exact .crash hb ht hq
    | shares => exact absurd hq (hs _ ht)
    | done x =>
      obtain ⟨F, pe⟩ := x
      obtain ⟨m, rfl⟩ := hth _ _ hq
      rw [hq] at hk
      cases pe with
      | some pe =>
        obtain ⟨w1, f1, e1, a1, a2, a3, a4, a5, _⟩ := hk
        simp only [a1]
        exact .failed hb ht hq a5
      | none =>
        obtain ⟨w1, f1, a1, a2, a3, a4, _⟩ := hk
        simp only [a1]
        have hh : Holds w1.world.1 w1.world.2 (some m) := by rw [a2, ← a4]; exact a3.holds
        rcases marshalEvent_cases hl hh n with ⟨hx, hd⟩ | ⟨hx, hd⟩ | ⟨out, js, hx, hd, h1, h2, h3⟩
        · simp only [hx]; exact .overflow hb ht hq hd
        · simp only [hx]; exact .unencodable hb ht hq hd
        · simp only [hx]; exact .text hb ht hq h1 h2 h3

/-- **C62.** The command line program with a configuration that it accepts: the pipeline is the one that the configuration asks for, and every line of the input is treated as the function that it means says (with `cli_spec`, C51, for the output as a whole). -/
theorem cli_config {env : JEnv} (hl : env.Lawful) (n : Nat) (cv : Conv) {C : Type} {fill : ProcKind → C → Except Err Opts} {nilConfig : C} {r : Registry Opts (Built Builtin (Option Err))} {w : PWorld Heap}
    (hr : Registered cliKinds r) (hf : FillOk w.world cliKinds fill) {c : Config C} {p : Pipeline Builtin (Option Err)} (hp : Pipeline.new (registryFactory pr fill nilConfig r) c = .ok (.ok p)) :
    ∃ q, Spec.plan (Spec.optionsOf w.world cliKinds fill) nilConfig c = some q ∧ p.Calls (Builtin.LeafConfig w.world) ∧
      ∀ (i : Nat) (l : Bytes), (∀ t, Trimmed l t → q.apply cv (some (lineFields i t)) ≠ .shares) → LineDoes env n cv q i l (soloOutcome env n cv p w i l) := by
  obtain ⟨q, h1, h2, _⟩ := config_semantics (nilConfig := nilConfig) (by decide) hr hf cv hp
  exact ⟨q, h1, pipeIs_calls h2, fun i l hs => cli_line hl n cv h2 i l hs⟩

end Sawmill
