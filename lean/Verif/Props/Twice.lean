import Verif.Spec.Twice
import Verif.Props.Commute
/-!
# C97: an event that is processed twice
-/
namespace Sawmill
open Spec (Run PErr Elsewhere)

theorem store_twice {m m' : AMap Val} {path : List Bytes} {v : Val} (h : Spec.store m path v = .ok (some m')) : Spec.store m' path v = .ok (some m') := (store_store path v v h).trans h

/-- What a put that does not crash leaves behind: nothing new and an error, or nothing new because there was nothing to put, or the value. -/
theorem putP_cases {F F1 : Fields} {key : Bytes} {v : Val} {e : Option PErr} (h : Spec.putP F key v = .ok (F1, e)) :
    (F1 = F ∧ (e ≠ none ∨ v = .nilp)) ∨ (e = none ∧ v.isNil = false ∧ keyToPath key ≠ [] ∧ ∃ m, F1 = some m ∧ Spec.store (F.getD []) (keyToPath key) v = .ok (some m)) := by
  unfold Spec.putP at h
  by_cases hp : keyToPath key = []
  · simp [Spec.putFields, hp] at h
    exact .inl ⟨h.1.symm, .inl (by rw [← h.2]; simp)⟩
  · by_cases hv : v.isNil = true
    · simp [Spec.putFields, hp, hv] at h
      exact .inl ⟨h.1.symm, .inr (by cases v <;> first | rfl | cases hv)⟩
    · have hv : v.isNil = false := by simpa using hv
      rw [putFields_cases hp hv] at h
      cases hg : Spec.get (F.getD []) (keyToPath key) with
      | panic => simp [hg, Res.bind] at h
      | ok old =>
        cases hs : Spec.store (F.getD []) (keyToPath key) v with
        | panic => simp [hg, hs, Res.bind] at h
        | ok r => cases r with
          | none => simp [hg, hs, Res.bind] at h; exact .inl ⟨h.1.symm, .inl (by rw [← h.2]; simp)⟩
          | some m => simp [hg, hs, Res.bind] at h; exact .inr ⟨h.2.symm, hv, hp, m, h.1.symm, rfl⟩

theorem putP_stored {m : AMap Val} {key : Bytes} {v : Val} (hv : v.isNil = false) (hp : keyToPath key ≠ []) {m0 : AMap Val} (h : Spec.store m0 (keyToPath key) v = .ok (some m)) : Spec.putP (some m) key v = .ok (some m, none) := by
  unfold Spec.putP
  rw [putFields_cases hp hv]
  simp [get_store_self hp h, store_twice h, Res.bind]

theorem putP_twice {F F1 : Fields} {key : Bytes} {v : Val} {e : Option PErr} (h : Spec.putP F key v = .ok (F1, e)) : Spec.putP F1 key v = .ok (F1, e) := by
  rcases putP_cases h with ⟨rfl, _⟩ | ⟨rfl, hv, hp, m, rfl, hs⟩
  · exact h
  · exact putP_stored hv hp hs

/-- What is read elsewhere after a put. -/
theorem putP_elsewhere {F F1 : Fields} {key : Bytes} {v : Val} {e : Option PErr} (h : Spec.putP F key v = .ok (F1, e)) {q : List Bytes} (hq : Elsewhere q (keyToPath key)) : Spec.getFields F1 q = Spec.getFields F q := by
  rcases putP_cases h with ⟨rfl, _⟩ | ⟨rfl, hv, hp, m, rfl, hs⟩
  · rfl
  · have hq0 : q ≠ [] := fun e => hq (.inl (by rw [e]; exact List.nil_prefix))
    rw [getFields_ne _ hq0, getFields_ne _ hq0]
    exact get_store_other hs (fun hr => hq (hr.symm))

/-- What is read where it was put. -/
theorem putP_there {F F1 : Fields} {key : Bytes} {v : Val} (h : Spec.putP F key v = .ok (F1, none)) (hv : v.isNil = false) : Spec.getFields F1 (keyToPath key) = .ok v := by
  rcases putP_cases h with ⟨rfl, h1 | h1⟩ | ⟨_, hv, hp, m, rfl, hs⟩
  · exact absurd rfl h1
  · rw [h1] at hv; cases hv
  · rw [getFields_ne _ hp]; exact get_store_self hp hs

theorem putP_error {F F1 : Fields} {key : Bytes} {v : Val} {e : PErr} (h : Spec.putP F key v = .ok (F1, some e)) : F1 = F := by
  rcases putP_cases h with ⟨rfl, _⟩ | ⟨h, _⟩
  · rfl
  · cases h

theorem convert_twice {conv : Bytes → Bytes} {msg field target : Bytes} (hr : Elsewhere (keyToPath field) (keyToPath (if target = [] then field else target)) ∨ keyToPath field = keyToPath (if target = [] then field else target) ∧ ∀ s, conv (conv s) = conv s)
    {F F1 : Fields} {e : Option PErr} (h : Spec.convert conv msg field target F = .ok (F1, e)) : Spec.convert conv msg field target F1 = .ok (F1, e) := by
  cases hg : Spec.getFields F (keyToPath field) with
  | panic => simp [Spec.convert, hg] at h
  | ok x =>
    by_cases hs : ∃ s, x = .scalar (.str s)
    · obtain ⟨s, rfl⟩ := hs
      have hput : Spec.putP F (if target = [] then field else target) (Spec.str (conv s)) = .ok (F1, e) := by simpa [Spec.convert, hg] using h
      cases e with
      | some e => rw [putP_error hput] at h ⊢; exact h
      | none =>
        rcases hr with hr | ⟨hr, hi⟩
        · have := putP_elsewhere hput hr
          simp only [Spec.convert, this, hg, Res.bind_ok]
          exact putP_twice hput
        · have := putP_there hput rfl
          rw [← hr] at this
          simp only [Spec.convert, this, Res.bind_ok, Spec.str, hi]
          exact putP_twice hput
    · have hx : F1 = F := by
        cases x with
        | scalar y => cases y <;> first | (simp [Spec.convert, hg] at h; exact h.1.symm) | exact absurd ⟨_, rfl⟩ hs
        | _ => simp [Spec.convert, hg] at h; exact h.1.symm
      rw [hx] at h ⊢; exact h

/-- A processor on what it has left behind. -/
theorem step_twice {cv : Conv} {s : Spec.Step} (hs : s.Repeatable cv) {F F1 : Fields} {e : Option PErr} (h : s.apply cv F = .done (F1, e)) : s.apply cv F1 = .done (F1, e) := by
  have ofr : ∀ {r : Res (Fields × Option PErr)}, Run.of r = .done (F1, e) ↔ r = .ok (F1, e) := by
    intro r; cases r <;> simp [Run.of]
  cases s with
  | lowercase field target => simp only [Spec.Step.apply, ofr] at h ⊢; exact convert_twice hs h
  | uppercase field target => simp only [Spec.Step.apply, ofr] at h ⊢; exact convert_twice hs h
  | append field value => exact absurd hs id
  | remove => simp only [Spec.Step.apply, Run.done.injEq, Prod.mk.injEq] at h ⊢; simp [h.2]
  | communityId => simp only [Spec.Step.apply, Run.done.injEq, Prod.mk.injEq] at h ⊢; simp [h.2]
  | set x c t =>
    by_cases hx : x = .null
    · subst hx
      simp only [Spec.Step.apply] at h ⊢
      by_cases hc : c = []
      · rw [if_pos hc] at h ⊢
        rw [ofr] at h ⊢
        exact putP_twice h
      · rw [if_neg hc] at h ⊢
        have hs : Elsewhere (keyToPath c) (keyToPath t) ∨ keyToPath c = keyToPath t := by
          rcases hs with hs | hs
          · exact absurd hs hc
          · exact hs
        cases hg : Spec.getFields F (keyToPath c) with
        | panic => simp [hg] at h
        | ok y =>
          cases y with
          | nilp => simp only [hg, Run.done.injEq, Prod.mk.injEq] at h; rw [← h.1, hg]; simp [h.2]
          | scalar y =>
            simp only [hg, ofr] at h
            cases e with
            | some e => have hF := putP_error h; subst hF; simp only [hg, Spec.Run.of, h]
            | none =>
              have hg1 : Spec.getFields F1 (keyToPath c) = .ok (.scalar y) := by
                rcases hs with hs | hs
                · rw [putP_elsewhere h hs, hg]
                · rw [hs]; exact putP_there h rfl
              simp only [hg1, Spec.Run.of, putP_twice h]
          | _ => simp [hg] at h
    · have ha : ∀ F, (Spec.Step.set x c t).apply cv F = Run.of (Spec.putP F t (.scalar x)) := by
        intro F
        cases x <;> first | rfl | exact absurd rfl hx
      rw [ha, ofr] at h ⊢
      exact putP_twice h

theorem apply_sorted {cv : Conv} {ps : List Spec.Proc} {F G : Fields} {e : Option PErr} (hF : F.Sorted) (h : Spec.applyAll cv ps F = .done (G, e)) : G.Sorted := by
  obtain ⟨a, _, ha⟩ := procs_act cv ps
  exact act_sorted hF ((ha F).trans h)

theorem mem_readsAll {ps : List Spec.Proc} {x : List Bytes} : x ∈ Spec.readsAll ps ↔ ∃ p ∈ ps, x ∈ p.reads := by
  induction ps with
  | nil => simp [Spec.readsAll]
  | cons p ps ih => simp [Spec.readsAll, ih]

theorem mem_writesAll {ps : List Spec.Proc} {x : List Bytes} : x ∈ Spec.writesAll ps ↔ ∃ p ∈ ps, x ∈ p.writes := by
  induction ps with
  | nil => simp [Spec.writesAll]
  | cons p ps ih => simp [Spec.writesAll, ih]

/-- What processors have nothing to do to, they still have nothing to do to after others that use other fields. -/
theorem settled_after {cv : Conv} {ps qs : List Spec.Proc} (hi : ∀ p ∈ ps, ∀ q ∈ qs, p.Independent q) {F G : Fields} (hF : F.Sorted) {e e' : Option PErr} (h1 : Spec.applyAll cv ps F = .done (F, e)) (h2 : Spec.applyAll cv qs F = .done (G, e')) :
    Spec.applyAll cv ps G = .done (G, e) := by
  obtain ⟨a, ha, ha'⟩ := procs_act cv ps
  obtain ⟨b, hb, hb'⟩ := procs_act cv qs
  obtain ⟨K, g1, g2⟩ := run_run (R := Spec.readsAll ps) (W := Spec.writesAll ps) (R' := Spec.readsAll qs) (W' := Spec.writesAll qs)
    (by
      intro x hx y hy
      obtain ⟨p, hp, hx⟩ := mem_writesAll.1 hx
      rcases List.mem_append.1 hy with hy | hy
      · obtain ⟨q, hq, hy⟩ := mem_readsAll.1 hy; exact (hi p hp q hq).1 x hx y (List.mem_append_left _ hy)
      · obtain ⟨q, hq, hy⟩ := mem_writesAll.1 hy; exact (hi p hp q hq).1 x hx y (List.mem_append_right _ hy))
    (by
      intro x hx y hy
      obtain ⟨q, hq, hx⟩ := mem_writesAll.1 hx
      rcases List.mem_append.1 hy with hy | hy
      · obtain ⟨p, hp, hy⟩ := mem_readsAll.1 hy; exact (hi p hp q hq).2 x hx y (List.mem_append_left _ hy)
      · obtain ⟨p, hp, hy⟩ := mem_writesAll.1 hy; exact (hi p hp q hq).2 x hx y (List.mem_append_right _ hy))
    ha hb hF ((ha' F).trans h1) ((hb' F).trans h2)
  rw [hb', h2] at g1
  cases g1
  rw [← ha']
  exact g2

theorem applyAll_single {cv : Conv} {p : Spec.Proc} {F : Fields} : Spec.applyAll cv [p] F = p.apply cv F := by
  simp only [Spec.applyAll]
  cases p.apply cv F with
  | crash => rfl
  | shares => rfl
  | done x => obtain ⟨G, e⟩ := x; cases e <;> rfl

theorem step_alone {cv : Conv} {s : Spec.Step} {F : Fields} : (Spec.Proc.mk s false false []).apply cv F = s.apply cv F := by
  simp only [Spec.Proc.apply]
  cases s.apply cv F with
  | crash => rfl
  | shares => rfl
  | done x => obtain ⟨G, e⟩ := x; cases e <;> rfl

/-- A processor that fails has not changed the event. -/
theorem step_failed {cv : Conv} {s : Spec.Step} {F F1 : Fields} {e : PErr} (h : s.apply cv F = .done (F1, some e)) : F1 = F := by
  have ofr : ∀ {r : Res (Fields × Option PErr)}, Run.of r = .done (F1, some e) ↔ r = .ok (F1, some e) := by
    intro r; cases r <;> simp [Run.of]
  have conv : ∀ {c : Bytes → Bytes} {msg field target : Bytes}, Spec.convert c msg field target F = .ok (F1, some e) → F1 = F := by
    intro c msg field target h
    cases hg : Spec.getFields F (keyToPath field) with
    | panic => simp [Spec.convert, hg] at h
    | ok x =>
      cases x with
      | scalar y =>
        cases y with
        | str s => exact putP_error (by simpa [Spec.convert, hg] using h)
        | _ => simp [Spec.convert, hg] at h; exact h.1.symm
      | _ => simp [Spec.convert, hg] at h; exact h.1.symm
  cases s with
  | lowercase field target => simp only [Spec.Step.apply, ofr] at h; exact conv h
  | uppercase field target => simp only [Spec.Step.apply, ofr] at h; exact conv h
  | append field value =>
    simp only [Spec.Step.apply, ofr] at h
    cases hg : Spec.getFields F (keyToPath field) with
    | panic => simp [Spec.append, hg] at h
    | ok x =>
      have quiet : ∀ v, (Spec.putP F field v).map (fun x => (x.1, (none : Option PErr))) ≠ .ok (F1, some e) := by
        intro v hv
        cases hp : Spec.putP F field v <;> simp [hp] at hv
      cases x with
      | scalar y => cases y <;> (simp [Spec.append, hg] at h; try exact h.1.symm)
      | nilp => simp only [Spec.append, hg, Res.bind_ok] at h; exact absurd h (quiet _)
      | arrNil => simp only [Spec.append, hg, Res.bind_ok] at h; exact absurd h (quiet _)
      | arr vs => simp only [Spec.append, hg, Res.bind_ok] at h; exact absurd h (quiet _)
      | _ => simp [Spec.append, hg] at h; exact h.1.symm
  | remove => simp [Spec.Step.apply] at h
  | communityId => simp [Spec.Step.apply] at h
  | set x c t =>
    by_cases hx : x = .null
    · subst hx
      simp only [Spec.Step.apply] at h
      by_cases hc : c = []
      · rw [if_pos hc, ofr] at h; exact putP_error h
      · rw [if_neg hc] at h
        cases hg : Spec.getFields F (keyToPath c) with
        | panic => simp [hg] at h
        | ok y =>
          cases y with
          | nilp => simp only [hg, Run.done.injEq, Prod.mk.injEq] at h; exact h.1.symm
          | scalar y => simp only [hg, ofr] at h; exact putP_error h
          | _ => simp [hg] at h
    · have ha : (Spec.Step.set x c t).apply cv F = Run.of (Spec.putP F t (.scalar x)) := by
        cases x <;> first | rfl | exact absurd rfl hx
      rw [ha, ofr] at h
      exact putP_error h

mutual
theorem proc_twice {cv : Conv} : ∀ (p : Spec.Proc), p.Repeatable cv → ∀ {F F1 : Fields} {e : Option PErr}, F.Sorted → p.apply cv F = .done (F1, e) → p.apply cv F1 = .done (F1, e)
  | .mk step ignF ignM onF, hr, F, F1, e, hF, h => by
    have ih := fun {F F1 : Fields} {e : Option PErr} => procs_twice (cv := cv) onF (F := F) (F1 := F1) (e := e)
    simp only [Spec.Proc.Repeatable] at hr
    obtain ⟨h1, h2, h3, h4⟩ := hr
    simp only [Spec.Proc.apply] at h
    cases hs : step.apply cv F with
    | crash => simp [hs] at h
    | shares => simp [hs] at h
    | done x =>
      obtain ⟨G, er⟩ := x
      cases er with
      | none =>
        simp only [hs, Run.done.injEq, Prod.mk.injEq] at h
        obtain ⟨rfl, rfl⟩ := h
        simp only [Spec.Proc.apply, step_twice h1 hs]
      | some err =>
        have hG := step_failed hs
        subst hG
        simp only [hs] at h
        by_cases hm : (ignM && err.isMissing) = true
        · rw [if_pos hm, Run.done.injEq, Prod.mk.injEq] at h
          obtain ⟨rfl, rfl⟩ := h
          simp only [Spec.Proc.apply, hs, if_pos hm]
        · rw [if_neg hm] at h
          by_cases ho : onF.isEmpty = true
          · rw [if_pos ho, Run.done.injEq, Prod.mk.injEq] at h
            obtain ⟨rfl, rfl⟩ := h
            simp only [Spec.Proc.apply, hs, if_neg hm, if_pos ho]
          · rw [if_neg ho] at h
            cases ha : Spec.applyAll cv onF G with
            | crash => simp [ha] at h
            | shares => simp [ha] at h
            | done y =>
              obtain ⟨G1, e1⟩ := y
              simp only [ha, Run.done.injEq, Prod.mk.injEq] at h
              obtain ⟨rfl, rfl⟩ := h
              have hst : step.apply cv G1 = .done (G1, some err) := by
                have := settled_after (cv := cv) (ps := [.mk step false false []]) (qs := onF) (by intro p hp q hq; rw [List.mem_singleton.1 hp]; exact h4 q hq) hF (by rw [applyAll_single, step_alone]; exact hs) ha
                rw [applyAll_single, step_alone] at this
                exact this
              simp only [Spec.Proc.apply, hst, if_neg hm, if_neg ho, ih h2 h3 hF ha]
theorem procs_twice {cv : Conv} : ∀ (ps : List Spec.Proc), Spec.RepeatableAll cv ps → ps.Pairwise Spec.Proc.Independent → ∀ {F F1 : Fields} {e : Option PErr}, F.Sorted → Spec.applyAll cv ps F = .done (F1, e) → Spec.applyAll cv ps F1 = .done (F1, e)
  | [], _, _, F, F1, e, _, h => by
    simp only [Spec.applyAll, Run.done.injEq, Prod.mk.injEq] at h ⊢
    simp [h.2]
  | p :: ps, hr, hi, F, F1, e, hF, h => by
    have ih1 := fun {F F1 : Fields} {e : Option PErr} => proc_twice (cv := cv) p (F := F) (F1 := F1) (e := e)
    have ih2 := fun {F F1 : Fields} {e : Option PErr} => procs_twice (cv := cv) ps (F := F) (F1 := F1) (e := e)
    simp only [Spec.RepeatableAll] at hr
    rw [List.pairwise_cons] at hi
    simp only [Spec.applyAll] at h
    cases hp : p.apply cv F with
    | crash => simp [hp] at h
    | shares => simp [hp] at h
    | done x =>
      obtain ⟨G, er⟩ := x
      have hp2 := ih1 hr.1 hF hp
      cases er with
      | some err =>
        simp only [hp, Run.done.injEq, Prod.mk.injEq] at h
        obtain ⟨rfl, rfl⟩ := h
        simp only [Spec.applyAll, hp2]
      | none =>
        simp only [hp] at h
        have hG : G.Sorted := apply_sorted (ps := [p]) hF (by rw [applyAll_single]; exact hp)
        have := settled_after (cv := cv) (ps := [p]) (qs := ps) (by intro a ha q hq; rw [List.mem_singleton.1 ha]; exact hi.1 q hq) hG (by rw [applyAll_single]; exact hp2) h
        rw [applyAll_single] at this
        simp only [Spec.applyAll, this]
        exact ih2 hr.2 hi.2 hG h
end

/-- C97, on contents. -/
theorem pipe_twice {cv : Conv} {q : Spec.Pipe} (hr : q.Repeatable cv) {F F1 : Fields} {e : Option PErr} (hF : F.Sorted) (h : q.apply cv F = .done (F1, e)) : q.apply cv F1 = .done (F1, e) := by
  obtain ⟨h1, h2, h3⟩ := hr
  rw [List.pairwise_append] at h3
  obtain ⟨i1, i2, i3⟩ := h3
  simp only [Spec.Pipe.apply] at h ⊢
  cases ha : Spec.applyAll cv q.processors F with
  | crash => simp [ha] at h
  | shares => simp [ha] at h
  | done x =>
    obtain ⟨G, er⟩ := x
    have hG := apply_sorted hF ha
    have ha2 := procs_twice _ h1 i1 hF ha
    cases er with
    | none =>
      simp only [ha, Run.done.injEq, Prod.mk.injEq] at h
      obtain ⟨rfl, rfl⟩ := h
      simp only [ha2]
    | some err =>
      simp only [ha] at h
      by_cases ho : q.onFailure.isEmpty = true
      · rw [if_pos ho, Run.done.injEq, Prod.mk.injEq] at h
        obtain ⟨rfl, rfl⟩ := h
        simp only [ha2, if_pos ho]
      · rw [if_neg ho] at h
        simp only [settled_after i3 hG ha2 h, if_neg ho]
        exact procs_twice _ h2 i2 hG h

theorem pipeIs_mono {h h' : Heap} {S : List Nat} (fr : Frame S h h') {p : Pipeline Builtin (Option Err)} {q : Spec.Pipe} (hq : PipeIs h p q) : PipeIs h' p q :=
  ⟨procsAre_mono (frame_scalars fr) _ _ hq.1, procsAre_mono (frame_scalars fr) _ _ hq.2⟩

/-- **C97.** An event that is processed a second time by the same pipeline is returned (or not) as the first time, with the same error or none, and its contents stay as the first time has left them. (As long as no `copy_from` meets an array or an object.) -/
theorem process_twice (cv : Conv) {p : Pipeline Builtin (Option Err)} {q : Spec.Pipe} {h : Heap} {f : AFields} (o : Owns h f) (hq : PipeIs h p q) (hr : q.Repeatable cv) (hs : q.apply cv f.erase ≠ .shares) (c c' : Counters) (l l' : List Invocation)
    {w : PWorld (Heap × Event)} {ret : Option Unit} {err : Option Err} (hp : p.process (builtinCall cv) () ⟨(h, f.event), c, l⟩ = .ok (w, ret, err)) :
    ∃ w' err' F, p.process (builtinCall cv) () ⟨w.world, c', l'⟩ = .ok (w', ret, err') ∧ err'.map Err.text = err.map Err.text ∧ err'.map Err.isMissing = err.map Err.isMissing ∧ Holds w.world.1 w.world.2 F ∧ Holds w'.world.1 w'.world.2 F := by
  have k1 := pipeline_pure cv o hq c l
  cases ha : q.apply cv f.erase with
  | crash => simp only [ha, PurePost] at k1; rw [hp] at k1; cases k1
  | shares => exact absurd ha hs
  | done x =>
    obtain ⟨F, e⟩ := x
    have again := pipe_twice hr (owns_erase_sorted o) ha
    cases e with
    | none =>
      simp only [ha, PurePost] at k1
      obtain ⟨w1, f1, a1, a2, a3, a4, fr, _⟩ := k1
      rw [hp] at a1
      simp only [Res.ok.injEq, Prod.mk.injEq] at a1
      obtain ⟨rfl, rfl, rfl⟩ := a1
      have k2 := pipeline_pure cv a3 (pipeIs_mono fr hq) c' l'
      rw [a4, again, ← a2] at k2
      simp only [PurePost] at k2
      obtain ⟨w2, f2, b1, b2, b3, b4, _⟩ := k2
      exact ⟨w2, none, F, b1, rfl, rfl, by rw [a2, ← a4]; exact a3.holds, by rw [b2, ← b4]; exact b3.holds⟩
    | some e =>
      simp only [ha, PurePost] at k1
      obtain ⟨w1, f1, er1, a1, a2, a3, a4, m1, fr, _⟩ := k1
      rw [hp] at a1
      simp only [Res.ok.injEq, Prod.mk.injEq] at a1
      obtain ⟨rfl, rfl, rfl⟩ := a1
      have k2 := pipeline_pure cv a3 (pipeIs_mono fr hq) c' l'
      rw [a4, again, ← a2] at k2
      simp only [PurePost] at k2
      obtain ⟨w2, f2, er2, b1, b2, b3, b4, m2, _⟩ := k2
      refine ⟨w2, some er2, F, b1, ?_, ?_, by rw [a2, ← a4]; exact a3.holds, by rw [b2, ← b4]; exact b3.holds⟩
      · simp only [Option.map_some, procErrMatches_text m1, procErrMatches_text m2]
      · obtain ⟨x, hx, x1⟩ := procErrMatches_some m1
        cases hx
        obtain ⟨y, hy, x2⟩ := procErrMatches_some m2
        cases hy
        simp only [Option.map_some, x1, x2]

/-! ## Samples -/

/-- A `set`, a `lowercase` with another target and an on_failure processor, and a copy. -/
def twiceProcs : List Spec.Proc := [.mk (.set (.int 1) [] (lit "a.b")) false false [], .mk (.lowercase (lit "c") (lit "d")) false false [.mk (.set (.str (lit "no")) [] (lit "error")) false false []], .mk (.set .null (lit "x") (lit "y")) false true []]

theorem twice_sample (cv : Conv) : Spec.Pipe.Repeatable cv ⟨twiceProcs, []⟩ ∧
    Spec.Pipe.apply cv ⟨twiceProcs, []⟩ (some [(lit "c", .scalar (.int 7)), (lit "x", .scalar (.bool true))]) =
      .done (some [(lit "a", .obj [(lit "b", .scalar (.int 1))]), (lit "c", .scalar (.int 7)), (lit "error", .scalar (.str (lit "no"))), (lit "x", .scalar (.bool true)), (lit "y", .scalar (.bool true))], none) := by
  refine ⟨?_, rfl⟩
  have h1 : keyToPath (lit "a.b") = [lit "a", lit "b"] := by decide +kernel
  have h2 : keyToPath (lit "c") = [lit "c"] := by decide +kernel
  have h3 : keyToPath (lit "d") = [lit "d"] := by decide +kernel
  have h4 : keyToPath (lit "x") = [lit "x"] := by decide +kernel
  have h5 : keyToPath (lit "y") = [lit "y"] := by decide +kernel
  have h6 : keyToPath (lit "error") = [lit "error"] := by decide +kernel
  have n1 : lit "d" ≠ [] := by decide +kernel
  have n2 : lit "x" ≠ [] := by decide +kernel
  have e : [lit "a", lit "c", lit "d", lit "x", lit "y", lit "error"].Nodup := by decide +kernel
  simp only [List.nodup_cons, List.mem_cons, List.not_mem_nil, or_false, not_or] at e
  obtain ⟨⟨a1, a2, a3, a4, a5⟩, ⟨b1, b2, b3, b4⟩, ⟨c1, c2, c3⟩, ⟨d1, d2⟩, d3, _⟩ := e
  simp [twiceProcs, Spec.Pipe.Repeatable, Spec.RepeatableAll, Spec.Proc.Repeatable, Spec.Step.Repeatable, Spec.Proc.Independent, Spec.Proc.reads, Spec.Proc.writes, Spec.readsAll, Spec.writesAll, Spec.Step.reads, Spec.Step.writes, Spec.Elsewhere, h1, h2, h3, h4, h5, h6, n1, n2,
    a1, a2, a3, a4, a5, b1, b2, b3, b4, c1, c2, c3, d1, d2, d3, Ne.symm a1, Ne.symm a2, Ne.symm a3, Ne.symm a4, Ne.symm a5, Ne.symm b1, Ne.symm b2, Ne.symm b3, Ne.symm b4, Ne.symm c1, Ne.symm c2, Ne.symm c3, Ne.symm d1, Ne.symm d2, Ne.symm d3]

/-- **C97.** Not so `append`: the value is there twice. -/
theorem append_twice (cv : Conv) : Spec.Pipe.apply cv ⟨[.mk (.append (lit "t") (lit "x")) false false []], []⟩ (some []) = .done (some [(lit "t", .arr [.scalar (.str (lit "x"))])], none) ∧
    Spec.Pipe.apply cv ⟨[.mk (.append (lit "t") (lit "x")) false false []], []⟩ (some [(lit "t", .arr [.scalar (.str (lit "x"))])]) = .done (some [(lit "t", .arr [.scalar (.str (lit "x")), .scalar (.str (lit "x"))])], none) := ⟨rfl, rfl⟩

/-- **C97.** Not so a processor that writes what it or another one reads: here `lowercase` of `a.b` with the target `a` fails the second time. -/
theorem overwrite_twice (cv : Conv) : Spec.Pipe.apply cv ⟨[.mk (.lowercase (lit "a.b") (lit "a")) false false []], []⟩ (some [(lit "a", .obj [(lit "b", .scalar (.str (lit "X")))])]) = .done (some [(lit "a", .scalar (.str (cv.lower (lit "X"))))], none) ∧
    Spec.Pipe.apply cv ⟨[.mk (.lowercase (lit "a.b") (lit "a")) false false []], []⟩ (some [(lit "a", .scalar (.str (cv.lower (lit "X"))))]) = .done (some [(lit "a", .scalar (.str (cv.lower (lit "X"))))], some (.missing (lit "a.b"))) := ⟨rfl, rfl⟩

end Sawmill
