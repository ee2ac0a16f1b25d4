import Verif.Spec.ErrTexts
import Verif.Props.PureLaws
import Verif.Spec.Pipeline
/-!
# C86: what errors say
-/

namespace Sawmill

/-! ## `Put` and `TryPut` -/

/-- **C86.** The error of `Put`: the key is empty, or a name on the way is no object; the text tells which, and shows the path. It wraps `ErrEmptyKey` or `ErrTargetKeyNotObject`. -/
theorem put_says {h h' : Heap} {e e' : Event} {key : Bytes} {v old : Ptr} {er : PutErr} (hp : apiPut h e key v = .ok (h', e', old, some er)) :
    (keyToPath key = [] ∧ er.toErr.text = lit "event put failed: key name is empty" ∧ Err.IsOrWraps (.other (lit "key name is empty")) er.toErr) ∨
    (keyToPath key ≠ [] ∧ er.toErr.text = lit "event put failed for path <" ++ Spec.slashed (keyToPath key) ++ lit ">: target key is not an object" ∧
      Err.IsOrWraps (.other (lit "target key is not an object")) er.toErr) := by
  unfold apiPut put at hp
  by_cases h0 : (keyToPath key).length = 0
  · simp only [h0, if_true, Res.ok.injEq, Prod.mk.injEq, Option.some.injEq] at hp
    obtain ⟨_, _, _, rfl⟩ := hp
    exact .inl ⟨List.length_eq_zero_iff.1 h0, rfl, .wrap .self⟩
  · rw [if_neg h0] at hp
    have hne : keyToPath key ≠ [] := fun hc => h0 (by rw [hc]; rfl)
    refine .inr ⟨hne, ?_⟩
    by_cases hv : v = none
    · simp [hv] at hp
    · rw [if_neg hv] at hp
      dsimp only at hp
      split at hp
      · simp at hp
      · simp only [Bool.true_eq_false, and_false, if_false] at hp
        split at hp
        · simp at hp
        · simp at hp
        · simp only [Res.ok.injEq, Prod.mk.injEq, Option.some.injEq] at hp
          obtain ⟨_, _, _, rfl⟩ := hp
          exact ⟨by simp only [PutErr.toErr, Err.text, pathString_slashed hne], .wrap .self⟩

/-- **C86.** The error of `TryPut`, likewise; there is a third one, with which the value comes that is there. -/
theorem tryPut_says {h h' : Heap} {e e' : Event} {key : Bytes} {v old : Ptr} {er : PutErr} (hp : apiTryPut h e key v = .ok (h', e', old, some er)) :
    (keyToPath key = [] ∧ old = none ∧ er.toErr.text = lit "event put failed: key name is empty" ∧ Err.IsOrWraps (.other (lit "key name is empty")) er.toErr) ∨
    (keyToPath key ≠ [] ∧ old ≠ none ∧ er.toErr.text = lit "event put failed for path <" ++ Spec.slashed (keyToPath key) ++ lit ">: key already exists" ∧ Err.IsOrWraps (.other (lit "key already exists")) er.toErr) ∨
    (keyToPath key ≠ [] ∧ old = none ∧ er.toErr.text = lit "event put failed for path <" ++ Spec.slashed (keyToPath key) ++ lit ">: target key is not an object" ∧
      Err.IsOrWraps (.other (lit "target key is not an object")) er.toErr) := by
  unfold apiTryPut put at hp
  by_cases h0 : (keyToPath key).length = 0
  · simp only [h0, if_true, Res.ok.injEq, Prod.mk.injEq, Option.some.injEq] at hp
    obtain ⟨_, _, rfl, rfl⟩ := hp
    exact .inl ⟨List.length_eq_zero_iff.1 h0, rfl, rfl, .wrap .self⟩
  · rw [if_neg h0] at hp
    have hne : keyToPath key ≠ [] := fun hc => h0 (by rw [hc]; rfl)
    refine .inr ?_
    by_cases hv : v = none
    · simp [hv] at hp
    · rw [if_neg hv] at hp
      dsimp only at hp
      split at hp
      · simp at hp
      · split at hp
        · next ho =>
          simp only [Res.ok.injEq, Prod.mk.injEq, Option.some.injEq] at hp
          obtain ⟨_, _, rfl, rfl⟩ := hp
          exact .inl ⟨hne, ho.1, by simp only [PutErr.toErr, Err.text, pathString_slashed hne], .wrap .self⟩
        · split at hp
          · simp at hp
          · simp at hp
          · simp only [Res.ok.injEq, Prod.mk.injEq, Option.some.injEq] at hp
            obtain ⟨_, _, rfl, rfl⟩ := hp
            exact .inr ⟨hne, rfl, by simp only [PutErr.toErr, Err.text, pathString_slashed hne], .wrap .self⟩

/-! ## Pipelines -/

theorem putP_texts {F G : Fields} {key : Bytes} {v : Val} {pe : Spec.PErr} (h : Spec.putP F key v = .ok (G, some pe)) : pe.isMissing = false ∧ pe.text ∈ Spec.putTexts key := by
  simp only [Spec.putP] at h
  cases hp : Spec.putFields F (keyToPath key) v true with
  | panic => simp [hp] at h
  | ok x =>
    obtain ⟨G', old, err⟩ := x
    simp only [hp, Res.map_ok, Res.ok.injEq, Prod.mk.injEq] at h
    cases err with
    | none => simp at h
    | some er =>
      obtain ⟨_, h⟩ := h
      simp only [Option.map_some, Option.some.injEq] at h
      subst h
      refine ⟨rfl, ?_⟩
      simp only [Spec.PErr.text, Spec.putTexts]
      unfold Spec.putFields at hp
      by_cases hk : keyToPath key = []
      · simp only [hk, if_true, Res.ok.injEq, Prod.mk.injEq, Option.some.injEq] at hp
        obtain ⟨_, _, rfl⟩ := hp
        simp [hk, Spec.Error.says]
      · rw [if_neg hk] at hp
        rw [if_neg hk]
        have : er = .notObject := by
          split at hp
          · simp at hp
          · simp only [Bool.not_true, Bool.and_false, Bool.false_eq_true, if_false] at hp
            obtain ⟨old', _, hp⟩ := Res.bind_eq_ok.mp hp
            obtain ⟨r, _, hp⟩ := Res.bind_eq_ok.mp hp
            cases r <;> simp at hp
            exact hp.2.2.symm
        subst this
        simp [Spec.Error.says]

theorem of_done {α : Type} {r : Res α} {x : α} (h : Spec.Run.of r = .done x) : r = .ok x := by
  cases r with
  | panic => simp [Spec.Run.of] at h
  | ok y => simp only [Spec.Run.of, Spec.Run.done.injEq] at h; rw [h]

theorem convert_texts {conv : Bytes → Bytes} {msg field target : Bytes} {F G : Fields} {pe : Spec.PErr} (h : Spec.convert conv msg field target F = .ok (G, some pe)) :
    (pe.isMissing, pe.text) ∈ (true, Spec.missingText field) :: (false, msg) :: (Spec.putTexts (if target = [] then field else target)).map (false, ·) := by
  simp only [Spec.convert] at h
  obtain ⟨v, _, h⟩ := Res.bind_eq_ok.mp h
  split at h
  · simp only [Res.ok.injEq, Prod.mk.injEq, Option.some.injEq] at h
    obtain ⟨_, rfl⟩ := h
    exact List.mem_cons_self
  · obtain ⟨h1, h2⟩ := putP_texts h
    rw [h1]
    exact List.mem_cons_of_mem _ (List.mem_cons_of_mem _ (List.mem_map.2 ⟨_, h2, rfl⟩))
  · simp only [Res.ok.injEq, Prod.mk.injEq, Option.some.injEq] at h
    obtain ⟨_, rfl⟩ := h
    exact List.mem_cons_of_mem _ List.mem_cons_self

theorem append_texts {field value : Bytes} {F G : Fields} {pe : Spec.PErr} (h : Spec.append field value F = .ok (G, some pe)) :
    (pe.isMissing, pe.text) ∈ [(false, lit "value to append to is not array")] := by
  have quiet : ∀ {v : Val}, (Spec.putP F field v).map (fun (f', _) => (f', (none : Option Spec.PErr))) ≠ .ok (G, some pe) := by
    intro v hc
    cases hp : Spec.putP F field v with
    | panic => simp [hp] at hc
    | ok x => simp [hp] at hc
  simp only [Spec.append] at h
  obtain ⟨v, _, h⟩ := Res.bind_eq_ok.mp h
  split at h
  · exact absurd h quiet
  · exact absurd h quiet
  · exact absurd h quiet
  · simp at h
  · simp only [Res.ok.injEq, Prod.mk.injEq, Option.some.injEq] at h
    obtain ⟨_, rfl⟩ := h
    exact List.mem_singleton.2 rfl

theorem step_texts (cv : Conv) {step : Spec.Step} {F G : Fields} {pe : Spec.PErr} (h : step.apply cv F = .done (G, some pe)) : (pe.isMissing, pe.text) ∈ step.texts := by
  have putOf : ∀ {key : Bytes} {v : Val}, Spec.Run.of (Spec.putP F key v) = .done (G, some pe) → (pe.isMissing, pe.text) ∈ (Spec.putTexts key).map (false, ·) := by
    intro key v h
    obtain ⟨h1, h2⟩ := putP_texts (of_done h)
    rw [h1]
    exact List.mem_map.2 ⟨_, h2, rfl⟩
  cases step with
  | lowercase f t => exact convert_texts (of_done h)
  | uppercase f t => exact convert_texts (of_done h)
  | append f v => exact append_texts (of_done h)
  | remove => simp [Spec.Step.apply] at h
  | communityId => simp [Spec.Step.apply] at h
  | set s c t =>
    by_cases hs : s = .null
    · subst hs
      simp only [Spec.Step.apply, Spec.Step.texts] at h ⊢
      by_cases hc : c = []
      · rw [if_pos hc] at h
        exact List.mem_append_right _ (putOf h)
      · rw [if_neg hc] at h
        rw [if_neg hc]
        split at h
        · simp at h
        · simp only [Spec.Run.done.injEq, Prod.mk.injEq, Option.some.injEq] at h
          obtain ⟨_, rfl⟩ := h
          exact List.mem_append_left _ (List.mem_singleton.2 rfl)
        · exact List.mem_append_right _ (putOf h)
        · simp at h
    · have ha : (Spec.Step.set s c t).apply cv F = .of (Spec.putP F t (.scalar s)) := by cases s <;> first | exact absurd rfl hs | rfl
      have ht : (Spec.Step.set s c t).texts = (Spec.putTexts t).map (false, ·) := by cases s <;> first | exact absurd rfl hs | rfl
      rw [ha] at h
      rw [ht]
      exact putOf h

mutual
theorem proc_texts (cv : Conv) : ∀ (p : Spec.Proc) (F G : Fields) (pe : Spec.PErr), p.apply cv F = .done (G, some pe) → (pe.isMissing, pe.text) ∈ p.texts
  | .mk step ignF ignM onF, F, G, pe, h => by
    simp only [Spec.Proc.apply] at h
    simp only [Spec.Proc.texts]
    split at h
    · simp at h
    · simp at h
    · simp at h
    · next f1 err hs =>
      by_cases hm : (ignM && err.isMissing) = true
      · rw [if_pos hm] at h; simp at h
      · rw [if_neg hm] at h
        by_cases ho : onF.isEmpty = true
        · rw [if_pos ho] at h
          simp only [Spec.Run.done.injEq, Prod.mk.injEq] at h
          obtain ⟨_, h⟩ := h
          cases ignF with
          | true => simp at h
          | false =>
            simp only [Bool.false_eq_true, if_false, Option.some.injEq] at h
            subst h
            simp only [Bool.false_eq_true, if_false, ho, if_true]
            refine List.mem_filter.2 ⟨step_texts cv hs, ?_⟩
            cases hb : (ignM && err.isMissing) with
            | true => exact absurd hb hm
            | false => simp only [hb, Bool.not_false]
        · rw [if_neg ho] at h
          split at h
          · simp at h
          · simp at h
          · next f2 err2 h2 =>
            simp only [Spec.Run.done.injEq, Prod.mk.injEq] at h
            obtain ⟨_, h⟩ := h
            cases ignF with
            | true => simp at h
            | false =>
              simp only [Bool.false_eq_true, if_false] at h
              subst h
              simp only [Bool.false_eq_true, if_false, ho]
              exact procs_texts cv onF _ _ _ h2
theorem procs_texts (cv : Conv) : ∀ (ps : List Spec.Proc) (F G : Fields) (pe : Spec.PErr), Spec.applyAll cv ps F = .done (G, some pe) → (pe.isMissing, pe.text) ∈ Spec.textsAll ps
  | [], F, G, pe, h => by simp [Spec.applyAll] at h
  | p :: ps, F, G, pe, h => by
    simp only [Spec.applyAll] at h
    simp only [Spec.textsAll]
    split at h
    · simp at h
    · simp at h
    · next f1 err hs =>
      simp only [Spec.Run.done.injEq, Prod.mk.injEq, Option.some.injEq] at h
      obtain ⟨_, rfl⟩ := h
      exact List.mem_append_left _ (proc_texts cv p _ _ _ hs)
    · exact List.mem_append_right _ (procs_texts cv ps _ _ _ h)
end

/-- What the error of a pipeline says is one of the texts that its configuration allows. -/
theorem pipe_texts (cv : Conv) {q : Spec.Pipe} {F G : Fields} {pe : Spec.PErr} (h : q.apply cv F = .done (G, some pe)) : pe.text ∈ q.texts := by
  simp only [Spec.Pipe.apply] at h
  simp only [Spec.Pipe.texts]
  refine List.mem_map.2 ⟨(pe.isMissing, pe.text), ?_, rfl⟩
  split at h
  · next f err hs =>
    by_cases ho : q.onFailure.isEmpty = true
    · rw [if_pos ho] at h
      rw [if_pos ho]
      simp only [Spec.Run.done.injEq, Prod.mk.injEq, Option.some.injEq] at h
      obtain ⟨_, rfl⟩ := h
      exact procs_texts cv _ _ _ _ hs
    · rw [if_neg ho] at h
      rw [if_neg ho]
      exact procs_texts cv _ _ _ _ h
  · next hn => exact absurd h (by intro hc; exact hn _ _ hc)

/-- **C86.** What the error says that `Process` returns is determined by the configuration and the contents of the event; and whatever the event contains, it is one of finitely many texts that the configuration determines (`Spec.Pipe.texts`): nothing of the event is shown. -/
theorem process_says (cv : Conv) {p : Pipeline Builtin (Option Err)} {q : Spec.Pipe} {h : Heap} {f : AFields} (o : Owns h f) (hq : PipeIs h p q) (counts : Counters) (log : List Invocation) {G : Fields} {pe : Spec.PErr}
    (ha : q.apply cv f.erase = .done (G, some pe)) :
    ∃ w' err, p.process (builtinCall cv) () ⟨(h, f.event), counts, log⟩ = .ok (w', none, some err) ∧ err.text = pe.text ∧ err.text ∈ q.texts := by
  have := pipeline_pure cv o hq counts log
  rw [ha] at this
  obtain ⟨w', f', err, k1, _, _, _, k5, _⟩ := this
  have ht := procErrMatches_text k5
  exact ⟨w', err, k1, ht, by rw [ht]; exact pipe_texts cv ha⟩

/-- **C86.** If the configuration allows no text, because failures are ignored wherever there can be one, `Process` returns no error. -/
theorem process_silent (cv : Conv) {p : Pipeline Builtin (Option Err)} {q : Spec.Pipe} {h : Heap} {f : AFields} (o : Owns h f) (hq : PipeIs h p q) (counts : Counters) (log : List Invocation) (ht : q.texts = [])
    (hs : q.apply cv f.erase ≠ .shares) {w' : PWorld (Heap × Event)} {evt : Option Unit} {err : Option Err} (hr : p.process (builtinCall cv) () ⟨(h, f.event), counts, log⟩ = .ok (w', evt, err)) : err = none := by
  have := pipeline_pure cv o hq counts log
  cases ha : q.apply cv f.erase with
  | crash => rw [ha] at this; simp only [PurePost] at this; rw [hr] at this; cases this
  | shares => exact absurd ha hs
  | done x =>
    obtain ⟨G, pe⟩ := x
    cases pe with
    | none =>
      rw [ha] at this
      obtain ⟨_, _, k1, _⟩ := this
      rw [hr] at k1
      simp only [Res.ok.injEq, Prod.mk.injEq] at k1
      exact k1.2.2
    | some pe => have := pipe_texts cv ha; rw [ht] at this; cases this

/-! ## What the texts tell -/

theorem slashed_inj : ∀ {p q : List Bytes}, (∀ n ∈ p, (47 : UInt8) ∉ n) → (∀ n ∈ q, (47 : UInt8) ∉ n) → Spec.slashed p = Spec.slashed q → p = q
  | [], [], _, _, _ => rfl
  | [], b :: q, _, _, h => by simp [Spec.slashed, lit] at h
  | a :: p, [], _, _, h => by simp [Spec.slashed, lit] at h
  | a :: p, b :: q, hp, hq, h => by
    have cut : ∀ (n : Bytes) (r : List Bytes), (47 : UInt8) ∉ n → (n ++ Spec.slashed r).takeWhile (· ≠ 47) = n := by
      intro n r hn
      induction n with
      | nil => cases r <;> simp [Spec.slashed, lit]
      | cons c n ih =>
        simp only [List.mem_cons, not_or] at hn
        simp only [List.cons_append, List.takeWhile_cons]
        rw [if_pos (by simpa using Ne.symm hn.1), ih hn.2]
    simp only [Spec.slashed, List.append_assoc, List.append_cancel_left_eq] at h
    have h1 := cut a p (hp a List.mem_cons_self)
    have h2 := cut b q (hq b List.mem_cons_self)
    rw [h] at h1
    obtain rfl : a = b := h1.symm.trans h2
    rw [List.append_cancel_left_eq] at h
    rw [slashed_inj (fun n hn => hp n (List.mem_cons_of_mem _ hn)) (fun n hn => hq n (List.mem_cons_of_mem _ hn)) h]

/-- **C86.** The text of an error of `Put` or `TryPut` tells which error it is, and the path, if no name contains a slash. -/
theorem put_text_tells {k1 k2 : Bytes} {e1 e2 : Spec.Error} (h : e1.says k1 = e2.says k2) :
    e1 = e2 ∧ (e1 ≠ .emptyKey → Spec.slashed (keyToPath k1) = Spec.slashed (keyToPath k2) ∧
      ((∀ n ∈ keyToPath k1, (47 : UInt8) ∉ n) → (∀ n ∈ keyToPath k2, (47 : UInt8) ∉ n) → keyToPath k1 = keyToPath k2)) := by
  have hd : e1 = e2 := by
    have hl := congrArg List.getLast? h
    have hx := congrArg (fun l => l[16]?) h
    cases e1 <;> cases e2 <;> first | rfl | (exfalso; simp [Spec.Error.says, lit] at hx; done) | (exfalso; simp only [Spec.Error.says, List.getLast?_append] at hl; simp [lit] at hl; done)
  subst hd
  refine ⟨rfl, fun hne => ?_⟩
  have hs : Spec.slashed (keyToPath k1) = Spec.slashed (keyToPath k2) := by
    cases e1 with
    | emptyKey => exact absurd rfl hne
    | keyExists => simpa only [Spec.Error.says, List.append_cancel_left_eq, List.append_cancel_right_eq] using h
    | notObject => simpa only [Spec.Error.says, List.append_cancel_left_eq, List.append_cancel_right_eq] using h
  exact ⟨hs, fun h1 h2 => slashed_inj h1 h2 hs⟩

/-- C86: with slashes in names the path shown is ambiguous. -/
example : Spec.slashed (keyToPath (lit "a.b/c")) = Spec.slashed (keyToPath (lit "a/b.c")) ∧ keyToPath (lit "a.b/c") ≠ keyToPath (lit "a/b.c") := by decide +kernel

/-! ## Samples -/

/-- A pipeline that may say five things; a `set` whose failures are ignored says none. -/
example : (⟨[.mk (.lowercase (lit "a") (lit "b.c")) false false [], .mk (.set .null (lit "x") (lit "")) false true [], .mk (.set (.bool true) [] (lit "d.e")) true false []], []⟩ : Spec.Pipe).texts =
    [lit "key <a> is missing from event", lit "value to lowercase is not a string", lit "event put failed for path </b/c>: target key is not an object", lit "event put failed: key name is empty"] := by decide +kernel

/-- The hypotheses of `process_says`: an event without contents, and a pipeline that wants a field. -/
example (cv : Conv) : ∃ w' err, (⟨lit "p", [.mk (lit "id") [] false false [] (Builtin.prog (.lowercase (lit "a") []))], []⟩ : Pipeline Builtin (Option Err)).process (builtinCall cv) () ⟨([], none), noCounts, []⟩ = .ok (w', none, some err) ∧
    err.text = lit "key <a> is missing from event" := by
  obtain ⟨w', err, h1, h2, _⟩ := process_says cv (p := ⟨lit "p", [.mk (lit "id") [] false false [] (Builtin.prog (.lowercase (lit "a") []))], []⟩) (q := ⟨[.mk (.lowercase (lit "a") []) false false []], []⟩) (h := []) (f := none) trivial
    ⟨⟨_, _, rfl, ⟨_, _, _, rfl, rfl, rfl, rfl⟩, rfl⟩, rfl⟩ noCounts [] (G := none) (pe := .missing (lit "a")) rfl
  exact ⟨w', err, h1, h2⟩

/-- The error of `Put` below a string, and of `TryPut` at it. -/
example : ∃ r1 r2, apiPut [.map [(lit "a", some 1)], .cell (strCell (lit "s"))] (some 0) (lit "a.b\\.c") (some 1) = .ok r1 ∧ r1.2.2.2.map (·.toErr.text) = some (lit "event put failed for path </a/b.c>: target key is not an object") ∧
    apiTryPut [.map [(lit "a", some 1)], .cell (strCell (lit "s"))] (some 0) (lit "a") (some 1) = .ok r2 ∧ r2.2.2.1 = some 1 ∧ r2.2.2.2.map (·.toErr.text) = some (lit "event put failed for path </a>: key already exists") :=
  ⟨_, _, rfl, by decide +kernel, rfl, by decide +kernel, by decide +kernel⟩

end Sawmill
