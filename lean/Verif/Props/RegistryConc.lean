import Verif.Spec.RegistryConc
import Verif.Props.Registry
/-!
# C103: the registry used by several goroutines
-/

namespace Sawmill
section
variable {V P C X : Type} {pr : Nat → Bool} {unpack : Ctor V P → C → Res (Except Err V)}

/-! ## Only `NewProcessor` -/

/-- What holds in every state of goroutines that call `NewProcessor` only. -/
def ReadersOk (pr : Nat → Bool) (unpack : Ctor V P → C → Res (Except Err V)) (r : Registry V P) (ps : List (RegProg V P C X)) (s : RegSys V P C X) : Prop :=
  s.reg = r ∧ s.threads.length = ps.length ∧ ∀ (i : Nat) (t : RegThread V P C X), s.threads[i]? = some t → ∃ (p q : RegProg V P C X), ps[i]? = some p ∧ t = .here q ∧ q.Reads ∧ q.alone pr unpack r = p.alone pr unpack r

theorem readers_start (r : Registry V P) {ps : List (RegProg V P C X)} (h : ∀ p ∈ ps, p.Reads) : ReadersOk pr unpack r ps (.start r ps) := by
  refine ⟨rfl, by simp [RegSys.start], ?_⟩
  intro i t ht
  simp only [RegSys.start, List.getElem?_map, Option.map_eq_some_iff] at ht
  obtain ⟨p, hp, rfl⟩ := ht
  exact ⟨p, p, hp, rfl, h p (List.mem_of_getElem? hp), rfl⟩

theorem readers_step {r : Registry V P} {ps : List (RegProg V P C X)} {s : RegSys V P C X} (h : ReadersOk pr unpack r ps s) (i : Nat) : ReadersOk pr unpack r ps (s.step pr unpack i) := by
  obtain ⟨h1, h2, h3⟩ := h
  unfold RegSys.step
  cases ht : s.threads[i]? with
  | none => exact ⟨h1, h2, h3⟩
  | some t =>
    obtain ⟨p, q, hp, rfl, hq, ha⟩ := h3 i t ht
    have hi : i < s.threads.length := by
      rcases Nat.lt_or_ge i s.threads.length with h | h
      · exact h
      · rw [List.getElem?_eq_none h] at ht; cases ht
    cases hq with
    | done x =>
      refine ⟨h1, by simp [h2], ?_⟩
      intro j u hu
      simp only [List.getElem?_set, RegThread.step] at hu
      by_cases hj : i = j
      · subst hj
        simp only [hi, if_true, Option.some.injEq] at hu
        exact ⟨p, _, hp, hu.symm, .done x, ha⟩
      · rw [if_neg hj] at hu; exact h3 j u hu
    | newProc n c k hk =>
      refine ⟨h1, by simp [h2], ?_⟩
      intro j u hu
      simp only [List.getElem?_set, RegThread.step] at hu
      by_cases hj : i = j
      · subst hj
        simp only [hi, if_true, Option.some.injEq] at hu
        refine ⟨p, _, hp, hu.symm, hk _, ?_⟩
        rw [← ha, h1, RegProg.alone]
      · rw [if_neg hj] at hu; exact h3 j u hu

theorem readers_run {r : Registry V P} {ps : List (RegProg V P C X)} : ∀ (sched : List Nat) {s : RegSys V P C X}, ReadersOk pr unpack r ps s → ReadersOk pr unpack r ps (s.run pr unpack sched)
  | [], _, h => h
  | i :: sched, s, h => readers_run sched (s := s.step pr unpack i) (readers_step h i)

/-- C103: goroutines that call `NewProcessor` only never race, in any schedule; the registry stays as it is, and a goroutine that has come to its end has the result that it gets alone. -/
theorem readers_fine (r : Registry V P) {ps : List (RegProg V P C X)} (h : ∀ p ∈ ps, p.Reads) (sched : List Nat) :
    ¬ ((RegSys.start r ps).run pr unpack sched).Race ∧ ((RegSys.start r ps).run pr unpack sched).reg = r ∧
    ∀ (i : Nat) (x : X), ((RegSys.start r ps).run pr unpack sched).results[i]? = some (some x) → ∃ p : RegProg V P C X, ps[i]? = some p ∧ x = (p.alone pr unpack r).2 := by
  obtain ⟨h1, h2, h3⟩ := readers_run (pr := pr) (unpack := unpack) sched (readers_start r h)
  refine ⟨?_, h1, ?_⟩
  · rintro ⟨i, j, t, u, _, hi, _, hw, _⟩
    obtain ⟨_, q, _, rfl, hq, _⟩ := h3 i t hi
    cases hq <;> simp [RegThread.next] at hw
  · intro i x hx
    simp only [RegSys.results, List.getElem?_map, Option.map_eq_some_iff] at hx
    obtain ⟨t, ht, hx⟩ := hx
    obtain ⟨p, q, hp, rfl, _, ha⟩ := h3 i t ht
    cases q with
    | done y =>
      simp only [Option.some.injEq] at hx
      subst hx
      exact ⟨p, hp, by rw [← ha]; rfl⟩
    | register _ _ _ => simp at hx
    | newProc _ _ _ => simp at hx

theorem run_append (s : RegSys V P C X) (a b : List Nat) : s.run pr unpack (a ++ b) = (s.run pr unpack a).run pr unpack b := List.foldl_append

/-- A goroutine that reads comes to its end if it is let run, and the others stay where they are. -/
theorem reader_finishes {r : Registry V P} : ∀ (q : RegProg V P C X), q.Reads → ∀ (s : RegSys V P C X) (i : Nat), s.reg = r → s.threads[i]? = some (.here q) →
    ∃ n, s.run pr unpack (List.replicate n i) = ⟨r, s.threads.set i (.here (.done (q.alone pr unpack r).2))⟩ := by
  intro q hq
  induction hq with
  | done x =>
    intro s i hr ht
    refine ⟨0, ?_⟩
    simp only [List.replicate_zero, RegSys.run, List.foldl_nil, RegProg.alone]
    obtain ⟨reg, ts⟩ := s
    simp only at hr ht ⊢
    subst hr
    congr 1
    apply List.ext_getElem?
    intro j
    rw [List.getElem?_set]
    split
    · rename_i h; subst h
      rw [ht]; split
      · rfl
      · rename_i h; rw [List.getElem?_eq_none (by omega)] at ht; cases ht
    · rfl
  | newProc n c k hk ih =>
    intro s i hr ht
    have hs : s.step pr unpack i = ⟨r, s.threads.set i (.here (k (r.newProcessor pr unpack n c)))⟩ := by
      simp only [RegSys.step, ht, RegThread.step, hr]
    have hi : i < s.threads.length := by
      rcases Nat.lt_or_ge i s.threads.length with h | h
      · exact h
      · rw [List.getElem?_eq_none h] at ht; cases ht
    obtain ⟨m, hm⟩ := ih (r.newProcessor pr unpack n c) (s.step pr unpack i) i (by rw [hs]) (by rw [hs]; simp [hi])
    refine ⟨m + 1, ?_⟩
    rw [List.replicate_succ]
    show RegSys.run pr unpack (s.step pr unpack i) (List.replicate m i) = _
    rw [hm, hs]
    simp [RegProg.alone]

/-! ## `New` -/

theorem reads_bind {Y : Type} {p : RegProg V P C X} {g : X → RegProg V P C Y} (h : p.Reads) (hg : ∀ x, (g x).Reads) : (p.bind g).Reads := by
  induction h with
  | done x => exact hg x
  | newProc n c k _ ih => exact .newProc n c _ ih

theorem reads_andThen {Y E : Type} {p : RegProg V P C (Res (Except E X))} {g : X → RegProg V P C (Res (Except E Y))} (h : p.Reads) (hg : ∀ x, (g x).Reads) : (p.andThen g).Reads := by
  refine reads_bind h ?_
  rintro ((_ | x) | _)
  · exact .done _
  · exact hg x
  · exact .done _

theorem alone_bind {Y : Type} {p : RegProg V P C X} {g : X → RegProg V P C Y} (h : p.Reads) (r : Registry V P) : (p.bind g).alone pr unpack r = (g (p.alone pr unpack r).2).alone pr unpack r := by
  induction h with
  | done x => rfl
  | newProc n c k _ ih => simp only [RegProg.bind, RegProg.alone, ih]

theorem alone_reads {p : RegProg V P C X} (h : p.Reads) (r : Registry V P) : (p.alone pr unpack r).1 = r := by
  induction h with
  | done x => rfl
  | newProc n c k _ ih => simp only [RegProg.alone, ih]

end

section
variable {V A R C : Type} (nilConfig : C) (pr : Nat → Bool) (unpack : Ctor V (Built A R) → C → Res (Except Err V)) (r : Registry V (Built A R))

/-- The factory that looks processors up in the registry. -/
def regFactory : Factory A R C := ⟨r.newProcessor pr unpack, nilConfig⟩

/-- The program reads only, and has this result alone. -/
def Gives {X : Type} (p : RegProg V (Built A R) C X) (x : X) : Prop := p.Reads ∧ (p.alone pr unpack r).2 = x

theorem gives_done {X : Type} (x : X) : Gives pr unpack r (.done x) x := ⟨.done x, rfl⟩

/-- The result of the first part, and of the second part if the first one has succeeded. -/
def thenE {X Y E : Type} (x : Res (Except E X)) (y : X → Res (Except E Y)) : Res (Except E Y) :=
  match x with
  | .panic => .panic
  | .ok (.error e) => .ok (.error e)
  | .ok (.ok x) => y x

theorem gives_andThen {X Y E : Type} {p : RegProg V (Built A R) C (Res (Except E X))} {x : Res (Except E X)} {g : X → RegProg V (Built A R) C (Res (Except E Y))} {y : X → Res (Except E Y)}
    (h : Gives pr unpack r p x) (hg : ∀ x, Gives pr unpack r (g x) (y x)) : Gives pr unpack r (p.andThen g) (thenE x y) := by
  refine ⟨reads_andThen h.1 fun x => (hg x).1, ?_⟩
  rw [RegProg.andThen, alone_bind h.1, h.2]
  rcases x with (_ | x) | _
  · rfl
  · exact (hg x).2
  · rfl

theorem gives_newProcessor {base : Bytes} {i : Nat} {name cond : Bytes} {config : C} {hp : Bytes → RegProg V (Built A R) C (Res (Except NewErr (List (Node A R))))} {h : Bytes → Res (Except NewErr (List (Node A R)))}
    (hh : ∀ b, Gives pr unpack r (hp b) (h b)) :
    Gives pr unpack r (newProcessorProg base i name cond config hp) (newProcessor (regFactory nilConfig pr unpack r) base i name cond config h) := by
  have key : ∀ y, Gives pr unpack r ((fun
    | .panic => .done .panic
    | .ok (.error e) => .done (.ok (.error (.construct (componentId base i name) e)))
    | .ok (.ok b) =>
      (RegProg.done (ignores b)).andThen fun (ignM, ignF) =>
        (hp (componentId base i name ++ lit ".on_failure")).andThen fun hs =>
          .done (.ok (.ok (.mk (componentId base i name) cond (ignF.getD false) (ignM.getD false) hs b.proc))) : Res (Except Err (Built A R)) → RegProg V (Built A R) C (Res (Except NewErr (Node A R)))) y)
      (match y with
      | .panic => .panic
      | .ok (.error e) => .ok (.error (.construct (componentId base i name) e))
      | .ok (.ok b) =>
        thenE (ignores b) fun x => thenE (h (componentId base i name ++ lit ".on_failure")) fun hs =>
          .ok (.ok (.mk (componentId base i name) cond (x.2.getD false) (x.1.getD false) hs b.proc))) := by
    rintro ((_ | b) | _)
    · exact gives_done ..
    rotate_left
    · exact gives_done ..
    · exact gives_andThen pr unpack r (gives_done pr unpack r (ignores b)) fun x => gives_andThen pr unpack r (hh _) fun hs => gives_done ..
  refine ⟨.newProc _ _ _ fun y => (key y).1, ?_⟩
  rw [newProcessorProg, RegProg.alone]
  refine (key (r.newProcessor pr unpack name config)).2.trans ?_
  rw [newProcessor]
  simp only [regFactory, thenE]
  cases r.newProcessor pr unpack name config with
  | panic => rfl
  | ok x =>
    cases x with
    | error e => rfl
    | ok b =>
      simp only
      cases ignores b with
      | panic => rfl
      | ok x =>
        cases x with
        | error e => rfl
        | ok x =>
          simp only
          rcases h (componentId base i name ++ lit ".on_failure") with (_ | _) | _ <;> rfl

mutual
theorem gives_newProcessors (base : Bytes) : ∀ (cs : List (ProcCfg C)) (i : Nat), Gives pr unpack r (newProcessorsProg nilConfig base cs i) (newProcessors (regFactory nilConfig pr unpack r) base cs i)
  | [], i => gives_done ..
  | c :: cs, i => by
    have h1 := gives_newFrom base i c
    have h2 := gives_newProcessors base cs (i + 1)
    rw [newProcessorsProg, newProcessors]
    refine cast (congrArg _ ?_) (gives_andThen pr unpack r h1 (y := fun n => thenE _ fun ns => .ok (.ok (n :: ns))) fun n => gives_andThen pr unpack r h2 fun ns => gives_done ..)
    simp only [thenE]
    rcases newFrom (regFactory nilConfig pr unpack r) base i c with (_ | _) | _
    · rfl
    · simp only
      rcases newProcessors (regFactory nilConfig pr unpack r) base cs (i + 1) with (_ | _) | _ <;> rfl
    · rfl
theorem gives_newFrom (base : Bytes) (i : Nat) : ∀ (c : ProcCfg C), Gives pr unpack r (newFromProg nilConfig base i c) (newFrom (regFactory nilConfig pr unpack r) base i c)
  | [] => gives_done ..
  | [e] => gives_newEntry base i e
  | _ :: _ :: _ => gives_done ..
theorem gives_newEntry (base : Bytes) (i : Nat) : ∀ (e : Bytes × Option (OptCfg C)), Gives pr unpack r (newEntryProg nilConfig base i e) (newEntry (regFactory nilConfig pr unpack r) base i e)
  | (name, o) => gives_newOptions base i name o
theorem gives_newOptions (base : Bytes) (i : Nat) (name : Bytes) : ∀ (o : Option (OptCfg C)), Gives pr unpack r (newOptionsProg nilConfig base i name o) (newOptions (regFactory nilConfig pr unpack r) base i name o)
  | none => gives_newProcessor nilConfig pr unpack r fun _ => gives_done ..
  | some o => gives_newOption base i name o
theorem gives_newOption (base : Bytes) (i : Nat) (name : Bytes) : ∀ (o : OptCfg C), Gives pr unpack r (newOptionProg nilConfig base i name o) (newOption (regFactory nilConfig pr unpack r) base i name o)
  | .mk _ cond onF config => gives_newProcessor nilConfig pr unpack r fun b => gives_newProcessors b onF 0
end

/-- C103: `New` calls `NewProcessor` only; alone it gives what Model/PipelineNew says (C30), with the processors of the registry. -/
theorem newProg_alone (c : Config C) : (newProg (V := V) (A := A) (R := R) nilConfig c).Reads ∧ (newProg nilConfig c).alone pr unpack r = (r, Pipeline.new (regFactory nilConfig pr unpack r) c) := by
  have : Gives pr unpack r (newProg nilConfig c) (Pipeline.new (regFactory nilConfig pr unpack r) c) := by
    rw [newProg, Pipeline.new]
    by_cases hc : c.id = []
    · rw [if_pos hc, if_pos hc]; exact gives_done ..
    · rw [if_neg hc, if_neg hc]
      refine cast (congrArg _ ?_) (gives_andThen pr unpack r (y := fun ps => thenE _ fun hs => .ok (.ok ⟨c.id, ps, hs⟩)) (gives_newProcessors nilConfig pr unpack r _ _ _) fun ps => gives_andThen pr unpack r (gives_newProcessors nilConfig pr unpack r _ _ _) fun hs => gives_done ..)
      simp only [thenE]
      rcases newProcessors (regFactory nilConfig pr unpack r) (c.id ++ lit ".processors") c.processors 0 with (_ | _) | _
      · rfl
      · simp only
        rcases newProcessors (regFactory nilConfig pr unpack r) (c.id ++ lit ".on_failure") c.onFailure 0 with (_ | _) | _ <;> rfl
      · rfl
  exact ⟨this.1, Prod.ext (alone_reads this.1 r) this.2⟩

/-- C103: any number of goroutines may call `New` at the same time. -/
theorem new_concurrent (cs : List (Config C)) (sched : List Nat) :
    ¬ ((RegSys.start r (cs.map (newProg nilConfig))).run pr unpack sched).Race ∧
    ∀ (i : Nat) (x : Res (Except NewErr (Pipeline A R))), ((RegSys.start r (cs.map (newProg nilConfig))).run pr unpack sched).results[i]? = some (some x) →
      ∃ c, cs[i]? = some c ∧ x = Pipeline.new (regFactory nilConfig pr unpack r) c := by
  obtain ⟨h1, _, h3⟩ := readers_fine (pr := pr) (unpack := unpack) r (ps := cs.map (newProg nilConfig)) (by
    intro p hp
    obtain ⟨c, _, rfl⟩ := List.mem_map.1 hp
    exact (newProg_alone nilConfig pr unpack r c).1) sched
  refine ⟨h1, ?_⟩
  intro i x hx
  obtain ⟨p, hp, rfl⟩ := h3 i x hx
  rw [List.getElem?_map, Option.map_eq_some_iff] at hp
  obtain ⟨c, hc, rfl⟩ := hp
  exact ⟨c, hc, by rw [(newProg_alone nilConfig pr unpack r c).2]⟩

end

section
variable {V P C X : Type} {pr : Nat → Bool} {unpack : Ctor V P → C → Res (Except Err V)}

/-! ## `Register` -/

/-- C103: while a goroutine registers a new name no other one may use the registry: there is a schedule that ends in a data race, whatever the other call is and whatever its name is. -/
theorem register_races {r : Registry V P} {name : Bytes} (hn : AMap.lookup r name = none) {f : Option (GoFunc V P)} (hf : WellShaped f) (k : Res (Option RegErr) → RegProg V P C X) {q : RegProg V P C X} (hq : ∀ x, q ≠ .done x) :
    ∃ sched, ((RegSys.start r [.register name f k, q]).run pr unpack sched).Race := by
  obtain ⟨c, hc⟩ := (validateConfig_accepts_iff f).2 hf
  refine ⟨[0], 0, 1, .writing name c (k (.ok none)), .here q, by omega, ?_, ?_, rfl, ?_⟩
  · simp [RegSys.run, RegSys.start, RegSys.step, RegThread.step, hn, hc]
  · simp [RegSys.run, RegSys.start, RegSys.step]
  · cases q with
    | done x => exact absurd rfl (hq x)
    | register _ _ _ => simp [RegThread.next]
    | newProc _ _ _ => simp [RegThread.next]

/-- C103: two goroutines that register the same new name may both succeed; then the second constructor has replaced the first (so C32 does not hold between goroutines). -/
theorem register_twice {r : Registry V P} {name : Bytes} (hn : AMap.lookup r name = none) {f g : Option (GoFunc V P)} {c d : Ctor V P} (hf : validateConfig f = .ok (.ok c)) (hg : validateConfig g = .ok (.ok d)) :
    ∃ sched, ((RegSys.start r [RegProg.register (C := C) name f .done, .register name g .done]).run pr unpack sched).results = [some (.ok none), some (.ok none)] ∧
      AMap.lookup ((RegSys.start r [RegProg.register (C := C) name f .done, .register name g .done]).run pr unpack sched).reg name = some d := by
  refine ⟨[0, 1, 0, 1], ?_⟩
  simp [RegSys.run, RegSys.start, RegSys.step, RegThread.step, RegSys.results, hn, hf, hg]

/-- One goroutine: its steps are the calls of Model/Registry, one after the other. -/
theorem single_run : ∀ (p : RegProg V P C X) (r : Registry V P), ∃ n, (RegSys.start r [p]).run pr unpack (List.replicate n 0) = ⟨(p.alone pr unpack r).1, [.here (.done (p.alone pr unpack r).2)]⟩
  | .done x, r => ⟨0, rfl⟩
  | .newProc n c k, r => by
    obtain ⟨m, hm⟩ := single_run (k (r.newProcessor pr unpack n c)) r
    exact ⟨m + 1, hm⟩
  | .register n f k, r => by
    cases hl : AMap.lookup r n with
    | some c =>
      obtain ⟨m, hm⟩ := single_run (k (.ok (some (.alreadyRegistered n)))) r
      refine ⟨m + 1, ?_⟩
      rw [List.replicate_succ]
      simp only [RegSys.run, List.foldl_cons]
      simp only [RegSys.start, RegSys.step, List.map_cons, List.map_nil, List.getElem?_cons_zero, RegThread.step, hl, List.set_cons_zero, RegProg.alone, Registry.register]
      exact hm
    | none =>
      cases hv : validateConfig f with
      | panic =>
        obtain ⟨m, hm⟩ := single_run (k .panic) r
        refine ⟨m + 1, ?_⟩
        rw [List.replicate_succ]
        simp only [RegSys.run, List.foldl_cons]
        simp only [RegSys.start, RegSys.step, List.map_cons, List.map_nil, List.getElem?_cons_zero, RegThread.step, hl, hv, List.set_cons_zero, RegProg.alone, Registry.register]
        exact hm
      | ok x =>
        cases x with
        | error e =>
          obtain ⟨m, hm⟩ := single_run (k (.ok (some e))) r
          refine ⟨m + 1, ?_⟩
          rw [List.replicate_succ]
          simp only [RegSys.run, List.foldl_cons]
          simp only [RegSys.start, RegSys.step, List.map_cons, List.map_nil, List.getElem?_cons_zero, RegThread.step, hl, hv, List.set_cons_zero, RegProg.alone, Registry.register]
          exact hm
        | ok c =>
          obtain ⟨m, hm⟩ := single_run (k (.ok none)) (AMap.insert r n c)
          refine ⟨m + 2, ?_⟩
          rw [List.replicate_succ, List.replicate_succ]
          simp only [RegSys.run, List.foldl_cons]
          simp only [RegSys.start, RegSys.step, List.map_cons, List.map_nil, List.getElem?_cons_zero, RegThread.step, hl, hv, List.set_cons_zero, RegProg.alone, Registry.register]
          exact hm

/-- C103: goroutines that only read can all come to their ends, so the results above are not about nothing. -/
theorem readers_finish (r : Registry V P) : ∀ (ps : List (RegProg V P C X)), (∀ p ∈ ps, p.Reads) → ∃ sched, ((RegSys.start r ps).run pr unpack sched).results = ps.map fun p => some (p.alone pr unpack r).2 := by
  intro ps h
  have : ∀ n, n ≤ ps.length → ∃ sched, (RegSys.start r ps).run pr unpack sched = ⟨r, (ps.take n).map (fun p => .here (.done (p.alone pr unpack r).2)) ++ (ps.drop n).map .here⟩ := by
    intro n
    induction n with
    | zero => intro _; exact ⟨[], by simp [RegSys.run, RegSys.start]⟩
    | succ n ih =>
      intro hn
      obtain ⟨sched, hs⟩ := ih (by omega)
      have hd : ps.drop n = ps[n] :: ps.drop (n + 1) := List.drop_eq_getElem_cons (by omega)
      obtain ⟨m, hm⟩ := reader_finishes (pr := pr) (unpack := unpack) (r := r) ps[n] (h _ (List.getElem_mem _)) ((RegSys.start r ps).run pr unpack sched) n (by rw [hs]) (by
        rw [hs, hd]
        simp [List.getElem?_append, Nat.min_eq_left (show n ≤ ps.length by omega)])
      refine ⟨sched ++ List.replicate m n, ?_⟩
      rw [run_append, hm, hs, hd]
      simp only [RegSys.mk.injEq, true_and]
      rw [List.set_append, if_neg (by simp; omega)]
      simp only [List.length_map, List.length_take, Nat.min_eq_left (show n ≤ ps.length by omega), Nat.sub_self, List.map_cons, List.set_cons_zero]
      rw [List.take_succ_eq_append_getElem (by omega)]
      simp only [List.map_append, List.map_cons, List.map_nil, List.append_assoc, List.cons_append, List.nil_append]
  obtain ⟨sched, hs⟩ := this ps.length (by omega)
  refine ⟨sched, ?_⟩
  rw [hs]
  simp [RegSys.results]

end

/-! ## A concrete case -/

/-- A registry with one constructor, which is called with options and fails if they are `false`; two goroutines; every schedule gives the same results. -/
def boolCtor : GoFunc Bool Nat := ⟨.mk .func [.mk .struct [] [] false false] [.mk .ptr [] [] true false, .mk .iface [] [] false true] false false, fun b => .ok (7, if b then none else some (.other (lit "no"))), true⟩

theorem boolCtor_shaped : WellShaped (some boolCtor) := ⟨_, _, _, _, rfl, rfl, rfl, rfl, rfl, rfl, rfl, rfl, by simp [boolCtor]⟩

/-- A case for `register_races`. -/
example : ∃ sched, ((RegSys.start ([] : Registry Bool Nat) [.register [97] (some boolCtor) fun _ => .done none, .newProc [98] true fun x => .done (some x)]).run (fun _ => true) (fun _ b => .ok (.ok b)) sched).Race :=
  register_races (by rfl) boolCtor_shaped _ (by simp)

theorem registry_conc_sample : ((RegSys.start ([] : Registry Bool Nat) [.register [97] (some boolCtor) fun _ => .done none, .newProc [97] true fun x => .done (some x)]).run (fun _ => true) (fun _ b => .ok (.ok b)) [0, 0, 1]).results = [some none, some (some (.ok (.ok 7)))] ∧
    ((RegSys.start ([] : Registry Bool Nat) [.register [97] (some boolCtor) fun _ => .done none, .newProc [97] true fun x => .done (some x)]).run (fun _ => true) (fun _ b => .ok (.ok b)) [0, 1, 0]).results =
      [some none, some (some (.ok (.error (.other (lit "processor type \"a\" not found")))))] := by
  refine ⟨rfl, ?_⟩
  rfl

end Sawmill
