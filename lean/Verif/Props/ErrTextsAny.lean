import Verif.Props.ErrTexts
/-!
# C86: what errors say, whatever memory looks like
-/

namespace Sawmill

theorem putThen_texts {h : Heap} {e : Event} {key : Bytes} {v : Ptr} {h' : Heap} {e' : Event} {err : Err} (hp : putThen h e key v = .ok (h', e', some err)) : (err.isMissing, err.text) ∈ (Spec.putTexts key).map (false, ·) := by
  simp only [putThen] at hp
  cases ha : apiPut h e key v with
  | panic => simp [ha] at hp
  | ok x =>
    obtain ⟨h2, e2, old, er⟩ := x
    simp only [ha, Res.map_ok, Res.ok.injEq, Prod.mk.injEq] at hp
    cases er with
    | none => simp at hp
    | some er =>
      obtain ⟨_, _, hp⟩ := hp
      simp only [Option.map_some, Option.some.injEq] at hp
      subst hp
      have hm : er.toErr.isMissing = false := by cases er <;> rfl
      rw [hm]
      refine List.mem_map.2 ⟨_, ?_, rfl⟩
      rcases put_says ha with ⟨h1, h2, _⟩ | ⟨h1, h2, _⟩
      · rw [h2, Spec.putTexts, if_pos h1]; exact List.mem_singleton.2 rfl
      · rw [h2, Spec.putTexts, if_neg h1]; exact List.mem_singleton.2 rfl

theorem conv_texts {conv : Bytes → Bytes} {msg field target : Bytes} {h h' : Heap} {e e' : Event} {err : Err} (hp : convProcess conv msg field target h e = .ok (h', e', some err)) :
    (err.isMissing, err.text) ∈ (true, Spec.missingText field) :: (false, msg) :: (Spec.putTexts (if target = [] then field else target)).map (false, ·) := by
  simp only [convProcess] at hp
  split at hp
  · cases hp
  · simp only [Res.ok.injEq, Prod.mk.injEq, Option.some.injEq] at hp
    obtain ⟨_, _, rfl⟩ := hp
    simp [Err.text, Err.isMissing, Spec.missingText]
  · split at hp
    · cases hp
    · split at hp
      · simp only [Res.ok.injEq, Prod.mk.injEq, Option.some.injEq] at hp
        obtain ⟨_, _, rfl⟩ := hp
        simp [Err.text, Err.isMissing]
      · have := putThen_texts hp
        have he : (if target = [] then field else target) = (if target ≠ [] then target else field) := by by_cases ht : target = [] <;> simp [ht]
        rw [he]
        exact List.mem_cons_of_mem _ (List.mem_cons_of_mem _ this)


/-- **C86.** Whatever the memory and the event: the error of a processor says what its configuration allows. -/
theorem step_says {cv : Conv} {b : Builtin} {step : Spec.Step} {h h' : Heap} {e e' : Event} {err : Err} (hi : StepIs h b step) (hp : b.step cv h e = .ok (h', e', some err)) : (err.isMissing, err.text) ∈ step.texts := by
  cases b with
  | lowercase f t => simp only [StepIs] at hi; subst hi; exact conv_texts hp
  | uppercase f t => simp only [StepIs] at hi; subst hi; exact conv_texts hp
  | remove fs => simp [Builtin.step, removeProcess] at hp
  | communityId => simp [Builtin.step, communityIdProcess] at hp
  | set v c t =>
    simp only [StepIs] at hi
    obtain ⟨x, rfl, hv⟩ := hi
    simp only [Builtin.step, setProcess, deref, hv] at hp
    have put : (err.isMissing, err.text) ∈ (Spec.putTexts t).map (false, ·) → (err.isMissing, err.text) ∈ (Spec.Step.set x c t).texts := by
      intro hm
      cases x <;> first | exact hm | exact List.mem_append_right _ hm
    split at hp
    · exact put (putThen_texts hp)
    · next hx =>
      have hx : x = .null := by cases x <;> simp [scalarCell, nullCell, boolCell, intCell, uintCell, floatCell, strCell, tsCell] at hx ⊢
      subst hx
      split at hp
      · next hc =>
        split at hp
        · cases hp
        · simp only [Res.ok.injEq, Prod.mk.injEq, Option.some.injEq] at hp
          obtain ⟨_, _, rfl⟩ := hp
          exact List.mem_append_left _ (by simp [hc, Err.text, Err.isMissing, Spec.missingText])
        · exact put (putThen_texts hp)
      · exact put (putThen_texts hp)
  | append f v d =>
    simp only [StepIs] at hi
    subst hi
    simp only [Builtin.step, appendProcess] at hp
    have hm : ∀ {r : Res Heap} {ev : Event}, r.map (fun x => (x, ev, (none : Option Err))) ≠ .ok (h', e', some err) := by
      intro r ev; cases r <;> simp
    split at hp
    · cases hp
    · split at hp
      · cases hp
      · exact absurd hp hm
    · split at hp
      · cases hp
      · split at hp
        · exact absurd hp hm
        · split at hp
          · simp only [Res.ok.injEq, Prod.mk.injEq, Option.some.injEq] at hp
            obtain ⟨_, _, rfl⟩ := hp
            simp [Spec.Step.texts, Err.text, Err.isMissing]
          · exact absurd hp hm

theorem scalars_of_keeps {h h' : Heap} (k : Keeps (fun c => c.type ≠ .array) h h') (v : Nat) (s : Scalar) (hv : h[v]? = some (.cell (scalarCell s))) : h'[v]? = some (.cell (scalarCell s)) :=
  k.same v _ hv (scalarCell_type s)

theorem prog_run_builtin {cv : Conv} {b : Builtin} {ev ev' : PEvent Unit} {w w' : Heap × Event} {err : Option Err} (h : b.prog.run (builtinCall cv) ev w = .ok (ev', w', err)) :
    ev' = ev ∧ b.step cv w.1 w.2 = .ok (w'.1, w'.2, err) := by
  simp only [Builtin.prog, Prog.run, builtinCall] at h
  cases hs : b.step cv w.1 w.2 with
  | panic => simp [hs] at h
  | ok x =>
    simp only [hs, Res.map_ok, Res.ok.injEq, Prod.mk.injEq] at h
    obtain ⟨rfl, rfl, rfl⟩ := h
    exact ⟨rfl, rfl⟩

mutual
theorem node_says (cv : Conv) : ∀ (n : Node Builtin (Option Err)) (q : Spec.Proc) (s s' : PState Unit (Heap × Event)) (err : Option Err), ProcIs s.world.1 n q → n.process (builtinCall cv) s = .ok (s', err) →
    Keeps (fun c => c.type ≠ .array) s.world.1 s'.world.1 ∧ ∀ x, err = some x → (x.isMissing, x.text) ∈ q.texts
  | .mk id cond ignF ignM onF proc, q, s, s', err, hq, hp => by
    simp only [ProcIs] at hq
    obtain ⟨b, step, qs, rfl, hb, rfl, hon⟩ := hq
    simp only [Node.process] at hp
    split at hp
    · cases hp
    · next ev w hr =>
      simp only [Res.ok.injEq, Prod.mk.injEq] at hp
      obtain ⟨rfl, rfl⟩ := hp
      exact ⟨keeps_step cv b (prog_run_builtin hr).2, by simp⟩
    · next ev w e1 hr =>
      obtain ⟨hev, hs⟩ := prog_run_builtin hr
      have hk := keeps_step cv b hs
      have hk1 : Keeps (fun c => c.type ≠ .array) s.world.1 w.1 := hk
      split at hp
      · simp only [Res.ok.injEq, Prod.mk.injEq] at hp
        obtain ⟨rfl, rfl⟩ := hp
        exact ⟨hk, by simp⟩
      · split at hp
        · simp only [Res.ok.injEq, Prod.mk.injEq] at hp
          obtain ⟨rfl, rfl⟩ := hp
          exact ⟨hk, by simp⟩
        · next him =>
          split at hp
          · cases hp
          · next s2 err2 hall =>
            have ih := nodes_says cv onF qs _ s2 (some e1) err2 (procsAre_mono (scalars_of_keeps hk1) _ _ hon) hall
            have hk2 : Keeps (fun c => c.type ≠ .array) s.world.1 s2.world.1 := hk1.trans ih.1
            split at hp
            · simp only [Res.ok.injEq, Prod.mk.injEq] at hp
              obtain ⟨rfl, rfl⟩ := hp
              exact ⟨hk2, by simp⟩
            · next hig =>
              simp only [Res.ok.injEq, Prod.mk.injEq] at hp
              obtain ⟨rfl, rfl⟩ := hp
              refine ⟨hk2, fun x hx => ?_⟩
              subst hx
              have hF : ignF = false := by cases ignF <;> simp_all
              subst hF
              simp only [Spec.Proc.texts, Bool.false_eq_true, if_false]
              cases onF with
              | nil =>
                simp only [ProcsAre] at hon
                subst hon
                simp only [Node.processAll, Res.ok.injEq, Prod.mk.injEq, Option.some.injEq] at hall
                obtain ⟨_, rfl⟩ := hall
                simp only [List.isEmpty_nil, if_true]
                refine List.mem_filter.2 ⟨step_says hb hs, ?_⟩
                cases hz : (ignM && e1.isMissing) with
                | true => exact absurd hz him
                | false => simp only [Bool.not_false]
              | cons n ns =>
                have hne : qs.isEmpty = false := by
                  simp only [ProcsAre] at hon
                  obtain ⟨q1, r1, rfl, _⟩ := hon
                  rfl
                simp only [hne, Bool.false_eq_true, if_false]
                exact ih.2 x rfl (by simp)
theorem nodes_says (cv : Conv) : ∀ (ns : List (Node Builtin (Option Err))) (qs : List Spec.Proc) (s s' : PState Unit (Heap × Event)) (err err' : Option Err), ProcsAre s.world.1 ns qs →
    Node.processAll (builtinCall cv) ns s err = .ok (s', err') → Keeps (fun c => c.type ≠ .array) s.world.1 s'.world.1 ∧ ∀ x, err' = some x → ns ≠ [] → (x.isMissing, x.text) ∈ Spec.textsAll qs
  | [], qs, s, s', err, err', hq, hp => by
    simp only [Node.processAll, Res.ok.injEq, Prod.mk.injEq] at hp
    obtain ⟨rfl, rfl⟩ := hp
    exact ⟨Keeps.refl _, fun x _ h => absurd rfl h⟩
  | n :: ns, qs, s, s', err, err', hq, hp => by
    simp only [ProcsAre] at hq
    obtain ⟨q, r, rfl, h1, h2⟩ := hq
    simp only [Node.processAll] at hp
    simp only [Spec.textsAll]
    split at hp
    · cases hp
    · next s1 e1 hn =>
      have ih := node_says cv n q s s1 (some e1) h1 hn
      simp only [Res.ok.injEq, Prod.mk.injEq] at hp
      obtain ⟨rfl, rfl⟩ := hp
      exact ⟨ih.1, fun x hx _ => List.mem_append_left _ (ih.2 x hx)⟩
    · next s1 hn =>
      have ih := node_says cv n q s s1 none h1 hn
      have ih2 := nodes_says cv ns r s1 s' none err' (procsAre_mono (scalars_of_keeps ih.1) _ _ h2) hp
      refine ⟨ih.1.trans ih2.1, fun x hx _ => List.mem_append_right _ (ih2.2 x hx ?_)⟩
      intro hns
      subst hns hx
      simp [Node.processAll] at hp
end

/-- **C86.** Whatever memory looks like (events that share values with others or with the configuration, or contain themselves): what the error of `Process` says is one of the texts that the configuration allows. -/
theorem process_says_any (cv : Conv) {p : Pipeline Builtin (Option Err)} {q : Spec.Pipe} {w w' : PWorld (Heap × Event)} {evt : Option Unit} {err : Err} (hq : PipeIs w.world.1 p q)
    (hp : p.process (builtinCall cv) () w = .ok (w', evt, some err)) : err.text ∈ q.texts := by
  simp only [Pipeline.process] at hp
  split at hp
  · cases hp
  · next s e1 hr =>
    simp only [Res.ok.injEq, Prod.mk.injEq, Option.some.injEq] at hp
    obtain ⟨_, _, rfl⟩ := hp
    simp only [Pipeline.run] at hr
    simp only [Spec.Pipe.texts]
    refine List.mem_map.2 ⟨(e1.isMissing, e1.text), ?_, rfl⟩
    split at hr
    · cases hr
    · simp at hr
    · next s1 e2 ha =>
      have ih := nodes_says cv p.processors q.processors _ s1 none (some e2) hq.1 ha
      have hne : p.processors ≠ [] := by intro hc; simp [hc, Node.processAll] at ha
      split at hr
      · next hof =>
        have h2 := nodes_says cv p.onFailure q.onFailure s1 s (some e2) (some e1) (procsAre_mono (scalars_of_keeps ih.1) _ _ hq.2) hr
        have hno : p.onFailure ≠ [] := by intro hc; simp [hc] at hof
        have hqo : q.onFailure.isEmpty = false := by
          have := hq.2
          cases hpo : p.onFailure with
          | nil => exact absurd hpo hno
          | cons n ns => rw [hpo] at this; simp only [ProcsAre] at this; obtain ⟨q1, r1, h, _⟩ := this; rw [h]; rfl
        simp only [hqo, Bool.false_eq_true, if_false]
        exact h2.2 e1 rfl hno
      · next hof =>
        have hpo : p.onFailure = [] := by cases hpo : p.onFailure with
          | nil => rfl
          | cons n ns => simp [hpo] at hof
        have hqo : q.onFailure.isEmpty = true := by
          have := hq.2
          rw [hpo] at this; simp only [ProcsAre] at this; rw [this]; rfl
        simp only [Res.ok.injEq, Prod.mk.injEq, Option.some.injEq] at hr
        obtain ⟨_, rfl⟩ := hr
        simp only [hqo, if_true]
        exact ih.2 e2 rfl hne
  · split at hp <;> simp at hp

/-- **C86.** If the configuration allows no text, `Process` returns no error, whatever memory looks like. -/
theorem process_silent_any (cv : Conv) {p : Pipeline Builtin (Option Err)} {q : Spec.Pipe} {w w' : PWorld (Heap × Event)} {evt : Option Unit} {err : Option Err} (hq : PipeIs w.world.1 p q) (ht : q.texts = [])
    (hp : p.process (builtinCall cv) () w = .ok (w', evt, err)) : err = none := by
  cases err with
  | none => rfl
  | some err => have := process_says_any cv hq hp; rw [ht] at this; cases this

/-- An event that contains itself: `lowercase` fails, and says what its configuration allows. -/
theorem process_says_cyclic : PipeIs [.map [(lit "a", some 1)], .cell (objCell (some 0))] ⟨lit "p", [.mk (lit "i") [] false false [] (Builtin.lowercase (lit "a.a.a") []).prog], []⟩ ⟨[.mk (.lowercase (lit "a.a.a") []) false false []], []⟩ ∧
    ∃ w', Pipeline.process (builtinCall ⟨id, id⟩) ⟨lit "p", [.mk (lit "i") [] false false [] (Builtin.lowercase (lit "a.a.a") []).prog], []⟩ () ⟨([.map [(lit "a", some 1)], .cell (objCell (some 0))], some 0), fun _ => {}, []⟩
      = .ok (w', none, some (.other (lit "value to lowercase is not a string"))) :=
  ⟨⟨⟨_, _, rfl, ⟨_, _, _, rfl, rfl, rfl, rfl⟩, rfl⟩, rfl⟩, _, rfl⟩

end Sawmill
