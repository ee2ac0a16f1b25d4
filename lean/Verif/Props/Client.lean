import Verif.Spec.Client
import Verif.Props.PureLaws
import Verif.Props.Json
import Verif.Props.Convert
import Verif.Props.Reflect
import Verif.Props.Programs
/-!
# C70: programs
-/

namespace Sawmill
open ATree Rfc Wire

/-- A new event in new memory. -/
theorem WorldOk.append {h h' : Heap} {es : List Event} {fs : List AFields} {f' : AFields} (w : WorldOk ⟨h, es⟩ fs) (fr : Frame [] h h') (o' : Owns h' f') (hfp : ∀ a ∈ f'.fp, h.length ≤ a) :
    WorldOk ⟨h', es ++ [f'.event]⟩ (fs ++ [f']) := by
  have w1 := w.frame0 fr
  refine ⟨by have := w.events; simp only at this; simp [this], ?_, ?_⟩
  · intro g hg
    rcases List.mem_append.1 hg with hg | hg
    · exact w1.owns g hg
    · simp only [List.mem_singleton] at hg; subst hg; exact o'
  · have old : ∀ (i : Nat) (g : AFields), (fs ++ [f'])[i]? = some g → (i < fs.length ∧ fs[i]? = some g) ∨ (i = fs.length ∧ g = f') := by
      intro i g hg
      by_cases hi : i < fs.length
      · rw [List.getElem?_append_left hi] at hg; exact .inl ⟨hi, hg⟩
      · rw [List.getElem?_append_right (by omega)] at hg
        have := lt_of_getElem? hg
        simp only [List.length_singleton] at this
        have h0 : i - fs.length = 0 := by omega
        rw [h0] at hg
        simp only [List.getElem?_cons_zero, Option.some.injEq] at hg
        exact .inr ⟨by omega, hg.symm⟩
    have lt : ∀ (i : Nat) (g : AFields), fs[i]? = some g → ∀ a ∈ g.fp, a < h.length := fun i g hg => (w.owns g (List.mem_of_getElem? hg)).lt
    intro i j f g hf hg hij a ha ha'
    rcases old i f hf with ⟨_, h1⟩ | ⟨h1, rfl⟩ <;> rcases old j g hg with ⟨_, h2⟩ | ⟨h2, rfl⟩
    · exact w.apart i j f g h1 h2 hij a ha ha'
    · have := lt i f h1 a ha; have := hfp a ha'; omega
    · have := lt j g h2 a ha'; have := hfp a ha; omega
    · omega

namespace Client

theorem pipesAre_mono {S : List Nat} {h h' : Heap} (fr : Frame S h h') : ∀ (ps : List (Pipeline Builtin (Option Err))) (qs : List Spec.Pipe), PipesAre h ps qs → PipesAre h' ps qs
  | [], [], _ => trivial
  | _ :: ps, _ :: qs, hp => ⟨⟨procsAre_mono (frame_scalars fr) _ _ hp.1.1, procsAre_mono (frame_scalars fr) _ _ hp.1.2⟩, pipesAre_mono fr ps qs hp.2⟩

theorem pipesAre_get {h : Heap} : ∀ {ps : List (Pipeline Builtin (Option Err))} {qs : List Spec.Pipe}, PipesAre h ps qs → ∀ k : Nat, (ps[k]? = none ∧ qs[k]? = none) ∨ ∃ p q, ps[k]? = some p ∧ qs[k]? = some q ∧ PipeIs h p q
  | [], [], _, k => .inl ⟨by simp, by simp⟩
  | p :: ps, q :: qs, hp, 0 => .inr ⟨p, q, rfl, rfl, hp.1⟩
  | _ :: ps, _ :: qs, hp, k + 1 => by
    simp only [List.getElem?_cons_succ]
    exact pipesAre_get hp.2 k

/-- The invariant. -/
structure Ok (env : Env) (ps : List (Pipeline Builtin (Option Err))) (qs : List Spec.Pipe) (c : State) (fs : List AFields) : Prop where
  world : WorldOk ⟨c.heap, c.events⟩ fs
  pipes : PipesAre c.heap ps qs
  null : IsNull c.heap env.reflect.nul

theorem isNull_mono {S : List Nat} {h h' : Heap} (fr : Frame S h h') {nul : Ptr} (hn : IsNull h nul) : IsNull h' nul := by
  cases nul with
  | none => simp [IsNull, deref] at hn
  | some a =>
    simp only [IsNull, deref] at hn ⊢
    have : h[a]? = some (.cell (scalarCell .null)) := by
      cases hh : h[a]? with
      | none => simp [hh] at hn
      | some o => cases o <;> simp_all [scalarCell]
    rw [frame_scalars fr a .null this]
    rfl

/-- What one call does. -/
def StepOk (env : Env) (ps : List (Pipeline Builtin (Option Err))) (qs : List Spec.Pipe) (c : State) (fs : List AFields) (op : Op) : Prop :=
  ∃ N r, Does env qs (fs.map AFields.erase) op r ∧
    match r with
    | .shares => True
    | .crash => ∀ n, N ≤ n → step env n ps c op = .error .panic
    | .done (s', x) => ∃ c' y fs', (∀ n, N ≤ n → step env n ps c op = .ok (c', y)) ∧ Ok env ps qs c' fs' ∧ fs'.map AFields.erase = s' ∧ y.Shows env.json x

section
variable {env : Env} {ps : List (Pipeline Builtin (Option Err))} {qs : List Spec.Pipe} {c : State} {fs : List AFields}

theorem Ok.get (ok : Ok env ps qs c fs) (i : Nat) :
    (c.events[i]? = none ∧ (fs.map AFields.erase)[i]? = none) ∨ ∃ f, fs[i]? = some f ∧ c.events[i]? = some f.event ∧ (fs.map AFields.erase)[i]? = some f.erase ∧ Owns c.heap f := by
  have h1 : c.events[i]? = (fs[i]?).map AFields.event := by have := ok.world.events; simp only at this; rw [this, List.getElem?_map]
  have h2 : (fs.map AFields.erase)[i]? = (fs[i]?).map AFields.erase := by rw [List.getElem?_map]
  cases hf : fs[i]? with
  | none => rw [hf] at h1 h2; exact .inl ⟨h1, h2⟩
  | some f => rw [hf] at h1 h2; exact .inr ⟨f, rfl, h1, h2, ok.world.owns f (List.mem_of_getElem? hf)⟩

theorem step_ok (hl : env.json.Lawful) (ho : ∀ l, (env.order l).Perm l) (ok : Ok env ps qs c fs) (op : Op) (hg : op.Good) : StepOk env ps qs c fs op := by
  cases op with
  | new =>
    refine ⟨0, _, .new, _, _, fs ++ [none], fun n _ => rfl, ⟨?_, ok.pipes, ok.null⟩, by simp [AFields.erase], trivial⟩
    exact ok.world.append (Frame.refl _) (f' := none) (by simp [Owns]) (by simp [AFields.fp])
  | api i a =>
    have key := call_spec ok.world i a hg
    cases hs : Spec.call (fs.map AFields.erase) i a with
    | panic =>
      simp only [hs] at key
      exact ⟨0, _, .apiCrash hs, fun n _ => by simp [step, key]⟩
    | ok r =>
      obtain ⟨s', v, err⟩ := r
      simp only [hs] at key
      obtain ⟨w', ret, fs', k1, k2, k3, k4, _, S, fr⟩ := key
      exact ⟨0, _, .api hs, { c with heap := w'.heap, events := w'.events }, .value ret, fs', fun n _ => by simp [step, k1], ⟨k2, pipesAre_mono fr _ _ ok.pipes, isNull_mono fr ok.null⟩, k3, k4⟩
  | process k i =>
    rcases pipesAre_get ok.pipes k with ⟨h1, h2⟩ | ⟨p, q, h1, h2, hpq⟩
    · exact ⟨0, _, .noProcess (.inl h2), c, .skipped, fs, fun n _ => by simp [step, h1], ok, rfl, trivial⟩
    · rcases ok.get i with ⟨h3, h4⟩ | ⟨f, hf, h3, h4, o⟩
      · exact ⟨0, _, .noProcess (.inr h4), c, .skipped, fs, fun n _ => by simp [step, h1, h3], ok, rfl, trivial⟩
      · have key := pipeline_pure env.conv o hpq (c.counts k) (c.logs k)
        have lt : ∀ a, c.heap.length ≤ a → ∀ g ∈ fs, a ∉ g.fp := fun a ha g hg hc => by
          have := (ok.world.owns g hg).lt a hc
          simp only at this
          omega
        cases hq : q.apply env.conv f.erase with
        | crash => simp only [hq, PurePost] at key; exact ⟨0, _, .processCrash h2 h4 hq, fun n _ => by simp [step, h1, h3, key]⟩
        | shares => exact ⟨0, _, .processShares h2 h4 hq, trivial⟩
        | done y =>
          obtain ⟨F', pe⟩ := y
          cases pe with
          | none =>
            simp only [hq, PurePost] at key
            obtain ⟨w', f', k1, k2, k3, k4, fr, k5⟩ := key
            refine ⟨0, _, .process h2 h4 hq, ⟨w'.world.1, c.events.set i w'.world.2, fun j => if j = k then w'.counts else c.counts j, fun j => if j = k then w'.log else c.logs j⟩, .processed true none, fs.set i f', fun n _ => by simp only [step, h1, h3, k1, Option.isSome], ⟨?_, pipesAre_mono fr _ _ ok.pipes, isNull_mono fr ok.null⟩, by rw [List.map_set, k4], ⟨trivial, by simp⟩⟩
            simp only [k2]
            exact ok.world.update hf fr k3 fun a ha => (k5 a ha).imp id fun h => lt a h
          | some pe =>
            simp only [hq, PurePost] at key
            obtain ⟨w', f', err, k1, k2, k3, k4, ke, fr, k5⟩ := key
            refine ⟨0, _, .process h2 h4 hq, ⟨w'.world.1, c.events.set i w'.world.2, fun j => if j = k then w'.counts else c.counts j, fun j => if j = k then w'.log else c.logs j⟩, .processed false (some err), fs.set i f', fun n _ => by simp only [step, h1, h3, k1, Option.isSome], ⟨?_, pipesAre_mono fr _ _ ok.pipes, isNull_mono fr ok.null⟩, by rw [List.map_set, k4], ⟨ke, by simp⟩⟩
            simp only [k2]
            exact ok.world.update hf fr k3 fun a ha => (k5 a ha).imp id fun h => lt a h
  | toJson i =>
    rcases ok.get i with ⟨h3, h4⟩ | ⟨f, hf, h3, h4, o⟩
    · exact ⟨0, _, .noToJson h4, c, .skipped, fs, fun n _ => by simp [step, h3], ok, rfl, trivial⟩
    · cases f with
      | none =>
        exact ⟨0, _, .toJson h4, c, .text (lit "null"), fs, fun n _ => by simp only [step, h3, AFields.event, (json_round_trip_empty env.json n c.heap []).1], ok, rfl, trivial, rfl⟩
      | some mt =>
        have hh := o.holds
        obtain ⟨N, k1, k2⟩ := marshalEvent_spec hl hh
        by_cases he : Val.FiniteFloatsE (eraseE mt.2) ∧ Val.nestE (eraseE mt.2) < 10000
        · obtain ⟨bs, js, k3, k4, k5⟩ := k1 he
          exact ⟨N, _, .toJson h4, c, .text bs, fs, fun n hn => by simp only [step, h3, k3 n hn], ok, rfl, he, js, k4, k5, marshalEvent_enc hh (k3 N (Nat.le_refl _))⟩
        · exact ⟨N, _, .toJson h4, c, .refused, fs, fun n hn => by simp only [step, h3, k2 he n hn], ok, rfl, he⟩
  | fromJson i t =>
    rcases ok.get i with ⟨h3, h4⟩ | ⟨f, hf, h3, h4, o⟩
    · exact ⟨0, _, .noFromJson h4, c, .skipped, fs, fun n _ => by simp [step, h3], ok, rfl, trivial⟩
    · cases hu : unmarshalEvent env.json t c.heap with
      | none =>
        refine ⟨0, _, .fromJsonRefused h4 fun F hF => ?_, c, .refused, fs, fun n _ => by simp [step, h3, hu], ok, rfl, trivial⟩
        have : ∃ r, unmarshalEvent env.json t c.heap = some r := by
          refine (unmarshalEvent_accepts_iff _ _ _).2 ?_
          cases F with
          | none => exact .inl hF
          | some gs => obtain ⟨es, h1, h2, h3, _⟩ := hF; exact .inr ⟨es, h1, h2, h3⟩
        rw [hu] at this
        obtain ⟨r, hr⟩ := this
        cases hr
      | some r =>
        rcases (unmarshalEvent_accepts_iff env.json t c.heap).1 ⟨r, hu⟩ with hd | ⟨es, hd, hn, hr⟩
        · rw [unmarshalEvent_null env.json hd] at hu
          simp only [Option.some.injEq] at hu; subst hu
          refine ⟨0, _, .fromJson h4 (F := none) hd, { c with events := c.events.set i none }, .done, fs.set i none, fun n _ => by simp only [step, h3, unmarshalEvent_null env.json hd], ⟨?_, ok.pipes, ok.null⟩, by rw [List.map_set]; rfl, trivial⟩
          exact ok.world.update hf ((Frame.refl _).mono (by simp) o.thaw) (f' := none) (by simp [Owns]) (by simp [AFields.fp])
        · obtain ⟨h', f', he, o', hc, hfp, fr⟩ := unmarshalEvent_object env.json hd hn hr c.heap
          refine ⟨0, _, .fromJson h4 (F := some _) ⟨es, hd, hn, hr, rfl⟩, { c with heap := h', events := c.events.set i f'.event }, .done, fs.set i f', fun n _ => by simp only [step, h3, he], ⟨?_, pipesAre_mono fr _ _ ok.pipes, isNull_mono fr ok.null⟩, by rw [List.map_set, hc], trivial⟩
          refine ok.world.update hf (fr.mono (by simp) o.thaw) o' fun a ha => .inr fun g hg hc => ?_
          have := (ok.world.owns g hg).lt a hc
          have := hfp a ha
          simp only at *
          omega
  | toMessage i =>
    rcases ok.get i with ⟨h3, h4⟩ | ⟨f, hf, h3, h4, o⟩
    · exact ⟨0, _, .noToMessage h4, c, .skipped, fs, fun n _ => by simp [step, h3], ok, rfl, trivial⟩
    · obtain ⟨N, k⟩ := fromEvent_spec o.holds
      exact ⟨N, _, .toMessage h4, c, .message _, fs, fun n hn => by simp only [step, h3, k n hn], ok, rfl, rfl⟩
  | fromMessage l =>
    match l with
    | .nil => exact ⟨0, _, .fromMessageNil (.inl rfl), c, .nilEvent, fs, fun n _ => rfl, ok, rfl, trivial⟩
    | .mk .nil u => exact ⟨0, _, .fromMessageNil (.inr ⟨u, rfl⟩), c, .nilEvent, fs, fun n _ => rfl, ok, rfl, trivial⟩
    | .mk (.mk fields u') u =>
      by_cases hk : HasKindE fields
      · obtain ⟨h', f', k1, o', k2, _, k3, fr⟩ := toLogEvent_spec ok.null u u' hk
        exact ⟨0, _, .fromMessage hk, { c with heap := h', events := c.events ++ [f'.event] }, .done, fs ++ [f'], fun n _ => by simp only [step, k1], ⟨ok.world.append fr o' k3, pipesAre_mono fr _ _ ok.pipes, isNull_mono fr ok.null⟩, by simp [k2], trivial⟩
      · exact ⟨0, _, .fromMessageCrash hk, fun n _ => by simp only [step, (toLogEvent_panics_iff ok.null fields u u').2 hk]⟩
  | toMap i =>
    rcases ok.get i with ⟨h3, h4⟩ | ⟨f, hf, h3, h4, o⟩
    · exact ⟨0, _, .noToMap h4, c, .skipped, fs, fun n _ => by simp [step, h3], ok, rfl, trivial⟩
    · obtain ⟨N, k⟩ := mapFromEvent_spec (text := env.text) o.holds
      exact ⟨N, _, .toMap h4, c, .goMap _, fs, fun n hn => by simp only [step, h3, k n hn], ok, rfl, rfl⟩
  | fromMap m =>
    have key := mapToEvent_outcome ok.null ho m hg
    cases hm : mapToEvent env.reflect env.order m c.heap with
    | panic =>
      simp only [hm] at key
      obtain ⟨x, hx, n, hi, hu⟩ := key
      exact ⟨0, _, .fromMapCrash hx hi hu, fun n _ => by simp only [step, hm]⟩
    | unsupported =>
      simp only [hm] at key
      obtain ⟨x, hx, n, hi, hu⟩ := key
      exact ⟨0, _, .fromMapRefused hx hi hu, c, .refused, fs, fun n _ => by simp only [step, hm], ok, rfl, trivial⟩
    | ok r =>
      obtain ⟨h', e⟩ := r
      simp only [hm] at key
      obtain ⟨⟨f', es, rfl, o', hp, hh, hfp, fr⟩, hx⟩ := key
      refine ⟨0, _, .fromMap hx hp, { c with heap := h', events := c.events ++ [f'.event] }, .done, fs ++ [f'], fun n _ => by simp only [step, hm], ⟨ok.world.append fr o' hfp, pipesAre_mono fr _ _ ok.pipes, isNull_mono fr ok.null⟩, ?_, trivial⟩
      simp [Holds.unique o'.holds hh]

theorem allHold {h : Heap} : ∀ (fs : List AFields), (∀ f ∈ fs, Owns h f) → AllHold h (fs.map AFields.event) (fs.map AFields.erase)
  | [], _ => trivial
  | f :: fs, ho => ⟨(ho f (by simp)).holds, allHold fs fun g hg => ho g (by simp [hg])⟩

theorem run_ok (hl : env.json.Lawful) (ho : ∀ l, (env.order l).Perm l) : ∀ (ops : List Op) {c : State} {fs : List AFields}, Ok env ps qs c fs → (∀ op ∈ ops, op.Good) →
    ∃ N xs e, Runs env qs (fs.map AFields.erase) ops xs e ∧ ∀ n, N ≤ n → Matches env.json xs (run env n ps c ops) e
  | [], c, fs, ok, _ => ⟨0, [], _, .nil, fun n _ => ⟨trivial, c, rfl, by
      have := ok.world.events
      simp only at this
      rw [this]
      exact allHold fs ok.world.owns⟩⟩
  | op :: ops, c, fs, ok, hg => by
    obtain ⟨N1, r, hd, hr⟩ := step_ok hl ho ok op (hg op (by simp))
    match r with
    | .shares => exact ⟨0, [], .shares, .shares hd, fun n _ => ⟨[], _, rfl, trivial⟩⟩
    | .crash =>
      refine ⟨N1, [], .crash, .crash hd, fun n hn => ?_⟩
      simp only [run, hr n hn]
      exact ⟨trivial, rfl⟩
    | .done (s', x) =>
      obtain ⟨c', y, fs', k1, k2, rfl, k4⟩ := hr
      obtain ⟨N2, xs, e, h1, h2⟩ := run_ok hl ho ops k2 (fun o h => hg o (by simp [h]))
      refine ⟨max N1 N2, x :: xs, e, .step hd h1, fun n hn => ?_⟩
      have h3 := h2 n (by omega)
      simp only [run, k1 n (by omega)]
      cases e with
      | contents s => exact ⟨⟨k4, h3.1⟩, h3.2⟩
      | crash => exact ⟨⟨k4, h3.1⟩, h3.2⟩
      | shares =>
        obtain ⟨rs, rest, e1, e2⟩ := h3
        exact ⟨y :: rs, rest, by simp [e1], k4, e2⟩
end

/-! ## The theorems -/

/-- **C70.** A program that starts without events, whose pipelines are configured like `qs`, behaves like the calls on the bare contents (`Runs`): same replies, same end, if the stack is large enough. -/
theorem program_runs {env : Env} (hl : env.json.Lawful) (ho : ∀ l, (env.order l).Perm l) {ps : List (Pipeline Builtin (Option Err))} {qs : List Spec.Pipe} {c : State} (hs : c.events = [])
    (hp : PipesAre c.heap ps qs) (hn : IsNull c.heap env.reflect.nul) (ops : List Op) (hg : ∀ op ∈ ops, op.Good) :
    ∃ N xs e, Runs env qs [] ops xs e ∧ ∀ n, N ≤ n → Matches env.json xs (run env n ps c ops) e := by
  have := run_ok (env := env) (ps := ps) (qs := qs) hl ho ops (c := c) (fs := []) ⟨⟨by simp [hs], by simp, by simp⟩, hp, hn⟩ hg
  simpa using this

theorem does_unique {env : Env} {qs : List Spec.Pipe} {s : List Fields} {op : Op} (hd : op.Determined) {r1 r2 : Spec.Run (List Fields × Says)} (h1 : Does env qs s op r1) (h2 : Does env qs s op r2) : r1 = r2 := by
  cases h1 with
  | fromMap => exact hd.elim
  | fromMapRefused => exact hd.elim
  | fromMapCrash => exact hd.elim
  | fromJson hi h =>
    cases h2 with
    | fromJson hi2 h2 => rw [eventText_unique h h2]
    | fromJsonRefused _ h2 => exact absurd h (h2 _)
    | noFromJson hi2 => rw [hi] at hi2; cases hi2
  | fromJsonRefused hi h =>
    cases h2 with
    | fromJson _ h2 => exact absurd h2 (h _)
    | fromJsonRefused => rfl
    | noFromJson hi2 => rw [hi] at hi2; cases hi2
  | noProcess h =>
    cases h2 with
    | noProcess => rfl
    | _ => simp_all
  | _ => cases h2 <;> simp_all

theorem runs_unique {env : Env} {qs : List Spec.Pipe} {s : List Fields} {ops : List Op} (hd : ∀ op ∈ ops, op.Determined) {xs1 xs2 : List Says} {e1 e2 : End} (h1 : Runs env qs s ops xs1 e1)
    (h2 : Runs env qs s ops xs2 e2) : xs1 = xs2 ∧ e1 = e2 := by
  induction h1 generalizing xs2 with
  | nil => cases h2; exact ⟨rfl, rfl⟩
  | step h _ ih =>
    have u := fun {r} (h' : Does env qs _ _ r) => does_unique (hd _ (by simp)) h h'
    cases h2 with
    | step h' hr' =>
      have := u h'
      simp only [Spec.Run.done.injEq, Prod.mk.injEq] at this
      obtain ⟨rfl, rfl⟩ := this
      obtain ⟨rfl, rfl⟩ := ih (fun o ho => hd o (by simp [ho])) hr'
      exact ⟨rfl, rfl⟩
    | crash h' => cases u h'
    | shares h' => cases u h'
  | crash h =>
    have u := fun {r} (h' : Does env qs _ _ r) => does_unique (hd _ (by simp)) h h'
    cases h2 with
    | step h' hr' => cases u h'
    | crash h' => exact ⟨rfl, rfl⟩
    | shares h' => cases u h'
  | shares h =>
    have u := fun {r} (h' : Does env qs _ _ r) => does_unique (hd _ (by simp)) h h'
    cases h2 with
    | step h' hr' => cases u h'
    | crash h' => cases u h'
    | shares h' => exact ⟨rfl, rfl⟩

/-- C70: what a program sees does not depend on the memory it starts with, on where things are in it, on what the counters of the pipelines say, nor (`env`, apart from `ToEvent`) on the order in which Go iterates over maps. -/
theorem program_determined {env : Env} (hl : env.json.Lawful) {order1 order2 : List (Bytes × Ptr) → List (Bytes × Ptr)} (ho1 : ∀ l, (order1 l).Perm l) (ho2 : ∀ l, (order2 l).Perm l)
    {ps1 ps2 : List (Pipeline Builtin (Option Err))} {qs : List Spec.Pipe} {c1 c2 : State} (hs1 : c1.events = []) (hs2 : c2.events = []) (hp1 : PipesAre c1.heap ps1 qs) (hp2 : PipesAre c2.heap ps2 qs)
    (hn1 : IsNull c1.heap env.reflect.nul) (hn2 : IsNull c2.heap env.reflect.nul) (ops : List Op) (hg : ∀ op ∈ ops, op.Good) (hd : ∀ op ∈ ops, op.Determined) :
    ∃ N xs e, ∀ n, N ≤ n → Matches env.json xs (run { env with order := order1 } n ps1 c1 ops) e ∧ Matches env.json xs (run { env with order := order2 } n ps2 c2 ops) e := by
  obtain ⟨N1, xs1, e1, r1, m1⟩ := program_runs (env := { env with order := order1 }) hl ho1 hs1 hp1 hn1 ops hg
  obtain ⟨N2, xs2, e2, r2, m2⟩ := program_runs (env := { env with order := order2 }) hl ho2 hs2 hp2 hn2 ops hg
  have conv : ∀ {s ops xs e}, Runs { env with order := order2 } qs s ops xs e → Runs { env with order := order1 } qs s ops xs e := by
    intro s ops xs e h
    have hd' : ∀ {s op r}, Does { env with order := order2 } qs s op r → Does { env with order := order1 } qs s op r := by
      intro s op r h
      cases h with
      | new => exact .new
      | api h => exact .api h
      | apiCrash h => exact .apiCrash h
      | process h1 h2 h3 => exact .process h1 h2 h3
      | processCrash h1 h2 h3 => exact .processCrash h1 h2 h3
      | processShares h1 h2 h3 => exact .processShares h1 h2 h3
      | noProcess h => exact .noProcess h
      | toJson h => exact .toJson h
      | noToJson h => exact .noToJson h
      | fromJson h1 h2 => exact .fromJson h1 h2
      | fromJsonRefused h1 h2 => exact .fromJsonRefused h1 h2
      | noFromJson h => exact .noFromJson h
      | toMessage h => exact .toMessage h
      | noToMessage h => exact .noToMessage h
      | fromMessage h => exact .fromMessage h
      | fromMessageCrash h => exact .fromMessageCrash h
      | fromMessageNil h => exact .fromMessageNil h
      | toMap h => exact .toMap h
      | noToMap h => exact .noToMap h
      | fromMap h1 h2 => exact .fromMap h1 h2
      | fromMapRefused h1 h2 h3 => exact .fromMapRefused h1 h2 h3
      | fromMapCrash h1 h2 h3 => exact .fromMapCrash h1 h2 h3
    induction h with
    | nil => exact .nil
    | step h _ ih => exact .step (hd' h) ih
    | crash h => exact .crash (hd' h)
    | shares h => exact .shares (hd' h)
  obtain ⟨rfl, rfl⟩ := runs_unique hd r1 (conv r2)
  exact ⟨max N1 N2, xs1, e1, fun n hn => ⟨m1 n (by omega), m2 n (by omega)⟩⟩

/-- The JSON text that is returned is determined by the contents. -/
theorem shows_json_unique {env : JEnv} {f : Fields} {r1 r2 : Reply} (h1 : r1.Shows env (.json f)) (h2 : r2.Shows env (.json f)) : r1 = r2 := by
  cases r1 <;> simp only [Reply.Shows] at h1 <;> cases r2 <;> simp only [Reply.Shows] at h2
  · cases f with
    | none => obtain ⟨_, rfl⟩ := h1; obtain ⟨_, rfl⟩ := h2; rfl
    | some es =>
      obtain ⟨_, _, _, _, h1⟩ := h1
      obtain ⟨_, _, _, _, h2⟩ := h2
      rw [h1] at h2
      cases h2
      rfl
  · exact absurd h1.1 h2
  · exact absurd h2.1 h1
  · rfl

/-- C70: without `copy_from` the contents always say enough. -/
theorem program_no_shares {env : Env} {qs : List Spec.Pipe} (hq : ∀ q ∈ qs, Spec.NoCopyAll q.processors ∧ Spec.NoCopyAll q.onFailure) {s : List Fields} {ops : List Op} {xs : List Says} {e : End}
    (h : Runs env qs s ops xs e) : e ≠ .shares := by
  induction h with
  | nil => simp
  | step _ _ ih => exact ih
  | crash => simp
  | shares h =>
    cases h with
    | processShares hk _ h =>
      have := hq _ (List.mem_of_getElem? hk)
      exact absurd h (no_copy_no_shares env.conv this.1 this.2 _)

theorem agreeOff_set {j : Nat} {s s' : List Fields} (h : AgreeOff j s s') (i : Nat) (f : Fields) : AgreeOff j (s.set i f) (s'.set i f) := by
  refine ⟨by simp [h.1], fun k hk => ?_⟩
  rw [List.getElem?_set, List.getElem?_set, h.1, h.2 k hk]

theorem agreeOff_set_left {j : Nat} {s s' : List Fields} (h : AgreeOff j s s') (f : Fields) : AgreeOff j (s.set j f) s' := by
  refine ⟨by simp [h.1], fun k hk => ?_⟩
  rw [List.getElem?_set_ne (Ne.symm hk), h.2 k hk]

theorem agreeOff_append {j : Nat} {s s' : List Fields} (h : AgreeOff j s s') (f : Fields) : AgreeOff j (s ++ [f]) (s' ++ [f]) := by
  refine ⟨by simp [h.1], fun k hk => ?_⟩
  rw [List.getElem?_append, List.getElem?_append, h.1, h.2 k hk]

theorem call_agree {j i : Nat} (hij : i ≠ j) {s t : List Fields} (ha : AgreeOff j s t) {c : Call} {s' : List Fields} {v : Val} {err : Option Spec.Error} (h : Spec.call s i c = .ok (s', v, err)) :
    ∃ t', Spec.call t i c = .ok (t', v, err) ∧ AgreeOff j s' t' := by
  simp only [Spec.call, ← ha.2 i hij] at h ⊢
  cases hi : s[i]? with
  | none => simp only [hi, Res.ok.injEq, Prod.mk.injEq] at h ⊢; obtain ⟨rfl, rfl, rfl⟩ := h; exact ⟨t, ⟨rfl, rfl, rfl⟩, ha⟩
  | some f =>
    simp only [hi] at h ⊢
    cases c with
    | put k x =>
      simp only at h ⊢
      cases hp : Spec.putFields f (keyToPath k) x true with
      | panic => simp [hp, Res.map] at h
      | ok r => simp only [hp, Res.map, Res.ok.injEq, Prod.mk.injEq] at h ⊢; obtain ⟨rfl, rfl, rfl⟩ := h; exact ⟨_, ⟨rfl, rfl, rfl⟩, agreeOff_set ha _ _⟩
    | tryPut k x =>
      simp only at h ⊢
      cases hp : Spec.putFields f (keyToPath k) x false with
      | panic => simp [hp, Res.map] at h
      | ok r => simp only [hp, Res.map, Res.ok.injEq, Prod.mk.injEq] at h ⊢; obtain ⟨rfl, rfl, rfl⟩ := h; exact ⟨_, ⟨rfl, rfl, rfl⟩, agreeOff_set ha _ _⟩
    | get k =>
      simp only at h ⊢
      cases hp : Spec.getFields f (keyToPath k) with
      | panic => simp [hp, Res.map] at h
      | ok r => simp only [hp, Res.map, Res.ok.injEq, Prod.mk.injEq] at h ⊢; obtain ⟨rfl, rfl, rfl⟩ := h; exact ⟨_, ⟨rfl, rfl, rfl⟩, ha⟩
    | delete k =>
      simp only at h ⊢
      cases hp : Spec.deleteFields f (keyToPath k) with
      | panic => simp [hp, Res.map] at h
      | ok r => simp only [hp, Res.map, Res.ok.injEq, Prod.mk.injEq] at h ⊢; obtain ⟨rfl, rfl, rfl⟩ := h; exact ⟨_, ⟨rfl, rfl, rfl⟩, agreeOff_set ha _ _⟩

theorem does_agree {env : Env} {qs : List Spec.Pipe} {j : Nat} {s t : List Fields} (ha : AgreeOff j s t) {op : Op} (hj : op.target ≠ some j) {s' : List Fields} {x : Says} (h : Does env qs s op (.done (s', x))) :
    ∃ t', Does env qs t op (.done (t', x)) ∧ AgreeOff j s' t' := by
  have at_ : ∀ {i}, i ≠ j → t[i]? = s[i]? := fun h => (ha.2 _ h).symm
  cases h with
  | new => exact ⟨_, .new, agreeOff_append ha _⟩
  | api h =>
    obtain ⟨t', h1, h2⟩ := call_agree (by simpa [Op.target] using hj) ha h
    exact ⟨t', .api h1, h2⟩
  | process h1 h2 h3 => exact ⟨_, .process h1 ((at_ (by simpa [Op.target] using hj)).trans h2) h3, agreeOff_set ha _ _⟩
  | noProcess h => exact ⟨_, .noProcess (h.imp id fun h => (at_ (by simpa [Op.target] using hj)).trans h), ha⟩
  | toJson h => exact ⟨_, .toJson ((at_ (by simpa [Op.target] using hj)).trans h), ha⟩
  | noToJson h => exact ⟨_, .noToJson ((at_ (by simpa [Op.target] using hj)).trans h), ha⟩
  | fromJson h h2 => exact ⟨_, .fromJson ((at_ (by simpa [Op.target] using hj)).trans h) h2, agreeOff_set ha _ _⟩
  | fromJsonRefused h h2 => exact ⟨_, .fromJsonRefused ((at_ (by simpa [Op.target] using hj)).trans h) h2, ha⟩
  | noFromJson h => exact ⟨_, .noFromJson ((at_ (by simpa [Op.target] using hj)).trans h), ha⟩
  | toMessage h => exact ⟨_, .toMessage ((at_ (by simpa [Op.target] using hj)).trans h), ha⟩
  | noToMessage h => exact ⟨_, .noToMessage ((at_ (by simpa [Op.target] using hj)).trans h), ha⟩
  | fromMessage h => exact ⟨_, .fromMessage h, agreeOff_append ha _⟩
  | fromMessageNil h => exact ⟨_, .fromMessageNil h, ha⟩
  | toMap h => exact ⟨_, .toMap ((at_ (by simpa [Op.target] using hj)).trans h), ha⟩
  | noToMap h => exact ⟨_, .noToMap ((at_ (by simpa [Op.target] using hj)).trans h), ha⟩
  | fromMap h1 h2 => exact ⟨_, .fromMap h1 h2, agreeOff_append ha _⟩
  | fromMapRefused h1 h2 h3 => exact ⟨_, .fromMapRefused h1 h2 h3, ha⟩

/-- A call changes no event but its own. -/
theorem does_local {env : Env} {qs : List Spec.Pipe} {j : Nat} {s t : List Fields} (ha : AgreeOff j s t) {op : Op} (hj : op.target = some j) {s' : List Fields} {x : Says} (h : Does env qs s op (.done (s', x))) :
    AgreeOff j s' t := by
  cases h with
  | new => cases hj
  | api h =>
    rename_i i c v err
    simp only [Op.target, Option.some.injEq] at hj; subst hj
    simp only [Spec.call] at h
    cases hi : s[i]? with
    | none => simp only [hi, Res.ok.injEq, Prod.mk.injEq] at h; obtain ⟨rfl, rfl, rfl⟩ := h; exact ha
    | some f =>
      simp only [hi] at h
      cases c with
      | put k x =>
        simp only at h
        cases hp : Spec.putFields f (keyToPath k) x true <;> simp only [hp, Res.map, Res.ok.injEq, Prod.mk.injEq, reduceCtorEq] at h
        obtain ⟨rfl, rfl, rfl⟩ := h; exact agreeOff_set_left ha _
      | tryPut k x =>
        simp only at h
        cases hp : Spec.putFields f (keyToPath k) x false <;> simp only [hp, Res.map, Res.ok.injEq, Prod.mk.injEq, reduceCtorEq] at h
        obtain ⟨rfl, rfl, rfl⟩ := h; exact agreeOff_set_left ha _
      | get k =>
        simp only at h
        cases hp : Spec.getFields f (keyToPath k) <;> simp only [hp, Res.map, Res.ok.injEq, Prod.mk.injEq, reduceCtorEq] at h
        obtain ⟨rfl, rfl, rfl⟩ := h; exact ha
      | delete k =>
        simp only at h
        cases hp : Spec.deleteFields f (keyToPath k) <;> simp only [hp, Res.map, Res.ok.injEq, Prod.mk.injEq, reduceCtorEq] at h
        obtain ⟨rfl, rfl, rfl⟩ := h; exact agreeOff_set_left ha _
  | process => simp only [Op.target, Option.some.injEq] at hj; subst hj; exact agreeOff_set_left ha _
  | fromJson => simp only [Op.target, Option.some.injEq] at hj; subst hj; exact agreeOff_set_left ha _
  | fromMessage => cases hj
  | fromMap => cases hj
  | _ => exact ha

theorem runs_without {env : Env} {qs : List Spec.Pipe} (j : Nat) {s : List Fields} {ops : List Op} {xs : List Says} {e : End} (h : Runs env qs s ops xs e) :
    ∀ {t : List Fields}, AgreeOff j s t → ∀ {s'}, e = .contents s' → ∃ t', Runs env qs t (without j ops) (repliesWithout j ops xs) (.contents t') ∧ AgreeOff j s' t' := by
  induction h with
  | nil => intro t ha s' he; cases he; exact ⟨t, .nil, ha⟩
  | crash => intro t ha s' he; cases he
  | shares => intro t ha s' he; cases he
  | @step s op s1 x ops xs e h _ ih =>
    intro t ha s' he
    by_cases hj : op.target = some j
    · obtain ⟨t', h1, h2⟩ := ih (does_local ha hj h) he
      refine ⟨t', ?_, h2⟩
      simp only [without, repliesWithout, hj, List.filter_cons, ne_eq, not_true_eq_false, decide_false, Bool.false_eq_true, if_false, if_true]
      exact h1
    · obtain ⟨t1, hd, ha1⟩ := does_agree ha hj h
      obtain ⟨t', h1, h2⟩ := ih ha1 he
      refine ⟨t', ?_, h2⟩
      simp only [without, repliesWithout, hj, List.filter_cons, ne_eq, not_false_eq_true, decide_true, if_true, if_false]
      exact .step hd h1

/-- C70, events are independent: in a program that does not crash, leaving out all calls on event `j` changes neither the replies of the other calls nor the contents of the other events. -/
theorem program_independent {env : Env} (hl : env.json.Lawful) (ho : ∀ l, (env.order l).Perm l) {ps : List (Pipeline Builtin (Option Err))} {qs : List Spec.Pipe} {c : State} (hs : c.events = [])
    (hp : PipesAre c.heap ps qs) (hn : IsNull c.heap env.reflect.nul) (ops : List Op) (hg : ∀ op ∈ ops, op.Good) (hd : ∀ op ∈ ops, op.Determined) (j : Nat) {xs : List Says} {s : List Fields}
    (hr : Runs env qs [] ops xs (.contents s)) :
    ∃ N s', AgreeOff j s s' ∧ ∀ n, N ≤ n → Matches env.json xs (run env n ps c ops) (.contents s) ∧
      Matches env.json (repliesWithout j ops xs) (run env n ps c (without j ops)) (.contents s') := by
  obtain ⟨N1, xs1, e1, r1, m1⟩ := program_runs hl ho hs hp hn ops hg
  obtain ⟨rfl, rfl⟩ := runs_unique hd hr r1
  obtain ⟨s', r2, ha⟩ := runs_without j hr ⟨rfl, fun _ _ => rfl⟩ rfl
  have sub : ∀ op ∈ without j ops, op ∈ ops := fun op h => (List.mem_filter.1 h).1
  obtain ⟨N2, xs2, e2, r3, m2⟩ := program_runs hl ho hs hp hn (without j ops) (fun op h => hg op (sub op h))
  obtain ⟨rfl, rfl⟩ := runs_unique (fun op h => hd op (sub op h)) r2 r3
  exact ⟨max N1 N2, s', ha, fun n h => ⟨m1 n (by omega), m2 n (by omega)⟩⟩

end Client
end Sawmill
