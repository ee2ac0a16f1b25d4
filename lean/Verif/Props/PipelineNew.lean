import Verif.Spec.PipelineNew
import Verif.Spec.Pipeline
/-!
# C28, C29, C30: building pipelines, component IDs, metrics
-/

namespace Sawmill
variable {A R C : Type} {F : Factory A R C}

/-! ## C30 -/

theorem ignores_ok_iff {b : Built A R} {x : Option Bool × Option Bool} :
    ignores b = .ok (.ok x) ↔ ∃ m, b.config = some m ∧ m.numIn = 0 ∧ m.numOut = 1 ∧ m.isStruct = true ∧ x = (m.ignoreMissing, m.ignoreFailure) := by
  unfold ignores
  cases b.config with
  | none => simp
  | some m =>
    by_cases h1 : m.numOut = 1 <;> by_cases h2 : m.numIn = 0 <;> by_cases h3 : m.isStruct = true <;>
      simp_all <;> exact ⟨fun h => h.symm, fun h => h.symm⟩

theorem newProcessor_ok_iff {base name cond : Bytes} {i : Nat} {config : C} {hf : Bytes → Res (Except NewErr (List (Node A R)))} {n : Node A R} :
    newProcessor F base i name cond config hf = .ok (.ok n) ↔
      ∃ proc ignM ignF hs, Builds F name config proc ignM ignF ∧ hf (componentId base i name ++ lit ".on_failure") = .ok (.ok hs) ∧
        n = .mk (componentId base i name) cond ignF ignM hs proc := by
  simp only [newProcessor]
  cases hF : F.newProcessor name config with
  | panic => simp [Builds, hF]
  | ok r =>
    cases r with
    | error e => simp [Builds, hF]
    | ok b =>
      simp only
      constructor
      · intro h
        split at h
        · cases h
        · cases h
        · rename_i ignM ignF hi
          obtain ⟨m, h1, h2, h3, h4, h5⟩ := ignores_ok_iff.1 hi
          simp only [Prod.mk.injEq] at h5
          obtain ⟨rfl, rfl⟩ := h5
          split at h
          · cases h
          · cases h
          · rename_i hs hh
            simp only [Res.ok.injEq, Except.ok.injEq] at h
            obtain ⟨p, cfg⟩ := b
            simp only at h1
            subst h1
            exact ⟨p, _, _, hs, ⟨m, hF, h2, h3, h4, rfl, rfl⟩, hh, h.symm⟩
      · rintro ⟨proc, ignM, ignF, hs, ⟨m, h0, h1, h2, h3, h4, h5⟩, hh, rfl⟩
        rw [hF] at h0
        simp only [Res.ok.injEq, Except.ok.injEq] at h0
        subst h0
        have : ignores (A := A) (R := R) ⟨proc, some m⟩ = .ok (.ok (m.ignoreMissing, m.ignoreFailure)) :=
          ignores_ok_iff.2 ⟨m, rfl, h1, h2, h3, rfl⟩
        simp only [this, hh, h4, h5]

theorem newOptions_none {base name : Bytes} {i : Nat} {n : Node A R} :
    newOptions F base i name none = .ok (.ok n) ↔ Mirrors F base i [(name, none)] n := by
  simp only [newOptions, newProcessor_ok_iff]
  constructor
  · rintro ⟨proc, ignM, ignF, hs, h1, h2, rfl⟩
    simp only [Res.ok.injEq, Except.ok.injEq] at h2
    subst h2
    exact .mk (.nilOptions name) h1 .nil
  · intro h
    cases h with
    | mk hn hb hm =>
      cases hn
      cases hm
      exact ⟨_, _, _, [], hb, rfl, rfl⟩

mutual
theorem newProcessors_iff (cs : List (ProcCfg C)) (base : Bytes) (i : Nat) (ns : List (Node A R)) :
    newProcessors F base cs i = .ok (.ok ns) ↔ MirrorsAll F base i cs ns := by
  match cs with
  | [] =>
    simp only [newProcessors, Res.ok.injEq, Except.ok.injEq]
    constructor
    · rintro rfl; exact .nil
    · intro h; cases h; rfl
  | c :: cs =>
    have ih1 := newFrom_iff c base i
    have ih2 := newProcessors_iff cs base (i + 1)
    simp only [newProcessors]
    constructor
    · intro h
      split at h
      · cases h
      · cases h
      · rename_i n hn
        split at h
        · cases h
        · cases h
        · rename_i ns' hns
          simp only [Res.ok.injEq, Except.ok.injEq] at h
          subst h
          exact .cons ((ih1 n).1 hn) ((ih2 ns').1 hns)
    · intro h
      cases h with
      | cons h1 h2 => simp only [(ih1 _).2 h1, (ih2 _).2 h2]
theorem newFrom_iff (c : ProcCfg C) (base : Bytes) (i : Nat) (n : Node A R) :
    newFrom F base i c = .ok (.ok n) ↔ Mirrors F base i c n := by
  match c with
  | [] =>
    simp only [newFrom]
    constructor
    · intro h; cases h
    · intro h; cases h with | mk hn _ _ => cases hn
  | [e] => simp only [newFrom]; exact newEntry_iff e base i n
  | _ :: _ :: _ =>
    simp only [newFrom]
    constructor
    · intro h; cases h
    · intro h; cases h with | mk hn _ _ => cases hn
theorem newEntry_iff (e : Bytes × Option (OptCfg C)) (base : Bytes) (i : Nat) (n : Node A R) :
    newEntry F base i e = .ok (.ok n) ↔ Mirrors F base i [e] n := by
  match e with
  | (name, o) => simp only [newEntry]; exact newOptions_iff o base i name n
theorem newOptions_iff (o : Option (OptCfg C)) (base : Bytes) (i : Nat) (name : Bytes) (n : Node A R) :
    newOptions F base i name o = .ok (.ok n) ↔ Mirrors F base i [(name, o)] n := by
  match o with
  | none => exact newOptions_none
  | some o => simp only [newOptions]; exact newOption_iff o base i name n
theorem newOption_iff (o : OptCfg C) (base : Bytes) (i : Nat) (name : Bytes) (n : Node A R) :
    newOption F base i name o = .ok (.ok n) ↔ Mirrors F base i [(name, some o)] n := by
  match o with
  | .mk id cond onF config =>
    have ih := newProcessors_iff onF
    simp only [newOption, newProcessor_ok_iff, ih]
    constructor
    · rintro ⟨proc, ignM, ignF, hs, h1, h2, rfl⟩
      exact .mk (.withOptions name id cond onF config) h1 h2
    · intro h
      cases h with
      | mk hn hb hm =>
        cases hn
        exact ⟨_, _, _, _, hb, hm, rfl⟩
end

theorem validAll_mirrors {cs : List (ProcCfg C)} (h : ValidAll F cs) : ∀ (base : Bytes) (i : Nat), ∃ ns, MirrorsAll F base i cs ns :=
  ValidAll.rec (motive_1 := fun c _ => ∀ (base : Bytes) (i : Nat), ∃ n, Mirrors F base i c n)
    (motive_2 := fun cs _ => ∀ (base : Bytes) (i : Nat), ∃ ns, MirrorsAll F base i cs ns)
    (fun {_ name _ _ _ _ _ _} h1 h2 _ ih base i => by
      obtain ⟨hs, h4⟩ := ih (base ++ lit "[" ++ itoa i ++ lit "]." ++ name ++ lit ".on_failure") 0
      exact ⟨_, .mk h1 h2 h4⟩)
    (fun base i => ⟨[], .nil⟩)
    (fun _ _ ih1 ih2 base i => by
      obtain ⟨n, h3⟩ := ih1 base i
      obtain ⟨ns, h4⟩ := ih2 base (i + 1)
      exact ⟨n :: ns, .cons h3 h4⟩)
    h

mutual
theorem mirrors_valid {c : ProcCfg C} {base : Bytes} {i : Nat} {n : Node A R} (h : Mirrors F base i c n) : Valid F c := by
  cases h with
  | mk h1 h2 h3 => exact .mk h1 h2 (mirrorsAll_valid h3)
theorem mirrorsAll_valid {cs : List (ProcCfg C)} {base : Bytes} {i : Nat} {ns : List (Node A R)} (h : MirrorsAll F base i cs ns) : ValidAll F cs := by
  cases h with
  | nil => exact .nil
  | cons h1 h2 => exact .cons (mirrors_valid h1) (mirrorsAll_valid h2)
end

/-- C30. `New` returns a pipeline exactly when that pipeline is the one the configuration describes. -/
theorem new_iff {c : Config C} {p : Pipeline A R} :
    Pipeline.new F c = .ok (.ok p) ↔ c.id ≠ [] ∧ p.id = c.id ∧ MirrorsAll F (c.id ++ lit ".processors") 0 c.processors p.processors ∧
      MirrorsAll F (c.id ++ lit ".on_failure") 0 c.onFailure p.onFailure := by
  unfold Pipeline.new
  by_cases hid : c.id = []
  · simp [hid]
  simp only [hid, if_false, ne_eq, not_false_eq_true, true_and]
  constructor
  · intro h
    split at h
    · cases h
    · cases h
    · rename_i ps h1
      split at h
      · cases h
      · cases h
      · rename_i hs h2
        simp only [Res.ok.injEq, Except.ok.injEq] at h
        subst h
        exact ⟨rfl, (newProcessors_iff _ _ _ _).1 h1, (newProcessors_iff _ _ _ _).1 h2⟩
  · rintro ⟨h0, h1, h2⟩
    obtain ⟨i, ps, hs⟩ := p
    simp only at h0 h1 h2
    subst h0
    simp only [(newProcessors_iff _ _ _ _).2 h1, (newProcessors_iff _ _ _ _).2 h2]

/-- C30. `New` succeeds exactly when the ID is not empty and every entry at every level is valid. -/
theorem new_succeeds_iff {c : Config C} :
    (∃ p : Pipeline A R, Pipeline.new F c = .ok (.ok p)) ↔ c.id ≠ [] ∧ ValidAll F c.processors ∧ ValidAll F c.onFailure := by
  simp only [new_iff]
  constructor
  · rintro ⟨p, h1, _, h2, h3⟩; exact ⟨h1, mirrorsAll_valid h2, mirrorsAll_valid h3⟩
  · rintro ⟨h1, h2, h3⟩
    obtain ⟨ps, h4⟩ := validAll_mirrors h2 (c.id ++ lit ".processors") 0
    obtain ⟨hs, h5⟩ := validAll_mirrors h3 (c.id ++ lit ".on_failure") 0
    exact ⟨⟨c.id, ps, hs⟩, h1, rfl, h4, h5⟩

/-! ## C29 -/

mutual
theorem visit_prefix {base : Bytes} {i : Nat} {c : ProcCfg C} {n : Node A R} (h : Mirrors F base i c n) :
    ∀ m ∈ n.visit, ∃ r, m.id = base ++ lit "[" ++ itoa i ++ lit "]." ++ r := by
  cases h with
  | @mk _ _ _ name _ _ _ _ _ _ hs h1 h2 h3 =>
    intro m hm
    simp only [Node.visit, List.mem_cons] at hm
    rcases hm with rfl | hm
    · exact ⟨name, rfl⟩
    · obtain ⟨j, r, _, hr⟩ := visitAll_prefix h3 m hm
      exact ⟨name ++ lit ".on_failure" ++ lit "[" ++ itoa j ++ lit "]." ++ r, by rw [hr]; simp only [List.append_assoc]⟩
theorem visitAll_prefix {base : Bytes} {i : Nat} {cs : List (ProcCfg C)} {ns : List (Node A R)} (h : MirrorsAll F base i cs ns) :
    ∀ m ∈ Node.visitAll ns, ∃ j r, i ≤ j ∧ m.id = base ++ lit "[" ++ itoa j ++ lit "]." ++ r := by
  cases h with
  | nil => simp [Node.visitAll]
  | cons h1 h2 =>
    intro m hm
    simp only [Node.visitAll, List.mem_append] at hm
    rcases hm with hm | hm
    · obtain ⟨r, hr⟩ := visit_prefix h1 m hm
      exact ⟨i, r, Nat.le_refl _, hr⟩
    · obtain ⟨j, r, hj, hr⟩ := visitAll_prefix h2 m hm
      exact ⟨j, r, by omega, hr⟩
end

theorem index_unique {base r q : Bytes} {i j : Nat}
    (h : base ++ lit "[" ++ itoa i ++ lit "]." ++ r = base ++ lit "[" ++ itoa j ++ lit "]." ++ q) : i = j := by
  simp only [List.append_assoc, List.append_cancel_left_eq] at h
  have hl : lit "]." = [93, 46] := by decide
  rw [hl] at h
  simp only [List.cons_append, List.nil_append] at h
  have nd : ∀ n, (93 : UInt8) ∉ itoa n := fun n hc => by
    have := itoa_digits n _ hc
    simp [isDigit] at this
  exact itoa_inj (split_unique (nd i) (nd j) h).1

mutual
theorem visit_nodup {base : Bytes} {i : Nat} {c : ProcCfg C} {n : Node A R} (h : Mirrors F base i c n) : (n.visit.map Node.id).Nodup := by
  cases h with
  | @mk _ _ _ name _ _ _ _ _ _ hs h1 h2 h3 =>
    simp only [Node.visit, List.map_cons, List.nodup_cons]
    refine ⟨?_, visitAll_nodup h3⟩
    rw [List.mem_map]
    rintro ⟨m, hm, he⟩
    obtain ⟨j, r, _, hr⟩ := visitAll_prefix h3 m hm
    rw [hr] at he
    have := congrArg List.length he
    have h8 : (lit "[").length = 1 := by decide
    simp only [Node.id, List.length_append, h8] at this
    omega
theorem visitAll_nodup {base : Bytes} {i : Nat} {cs : List (ProcCfg C)} {ns : List (Node A R)} (h : MirrorsAll F base i cs ns) :
    ((Node.visitAll ns).map Node.id).Nodup := by
  cases h with
  | nil => simp [Node.visitAll]
  | cons h1 h2 =>
    simp only [Node.visitAll, List.map_append, List.nodup_append]
    refine ⟨visit_nodup h1, visitAll_nodup h2, ?_⟩
    intro x hx y hy hxy
    subst hxy
    obtain ⟨m, hm, rfl⟩ := List.mem_map.1 hx
    obtain ⟨m', hm', he⟩ := List.mem_map.1 hy
    obtain ⟨r, hr⟩ := visit_prefix h1 m hm
    obtain ⟨j, q, hj, hq⟩ := visitAll_prefix h2 m' hm'
    have := index_unique (hr.symm.trans (he.symm.trans hq))
    omega
end

/-- C29. Component IDs are pairwise distinct over all processors of a pipeline: nested on_failure processors and global ones included, for any names and any nesting. -/
theorem component_ids_unique {c : Config C} {p : Pipeline A R} (h : Pipeline.new F c = .ok (.ok p)) :
    ((Node.visitAll p.processors ++ Node.visitAll p.onFailure).map Node.id).Nodup := by
  obtain ⟨_, _, h1, h2⟩ := new_iff.1 h
  rw [List.map_append, List.nodup_append]
  refine ⟨visitAll_nodup h1, visitAll_nodup h2, ?_⟩
  intro x hx y hy hxy
  subst hxy
  obtain ⟨m, hm, rfl⟩ := List.mem_map.1 hx
  obtain ⟨m', hm', he⟩ := List.mem_map.1 hy
  obtain ⟨j, r, _, hr⟩ := visitAll_prefix h1 m hm
  obtain ⟨k, q, _, hq⟩ := visitAll_prefix h2 m' hm'
  rw [hr, hq] at he
  simp only [List.append_assoc, List.append_cancel_left_eq] at he
  have e1 : lit ".on_failure" = lit ".o" ++ lit "n_failure" := by decide
  have e2 : lit ".processors" = lit ".p" ++ lit "rocessors" := by decide
  rw [e1, e2] at he
  simp only [List.append_assoc] at he
  have := (List.append_inj he (by decide)).1
  exact absurd this (by decide)

/-! ## C28 -/

mutual
theorem mem_visit {n m : Node A R} (h : m ∈ n.visit) : m = n ∨ Below m n.onFailure := by
  match n with
  | .mk i c f mm o p =>
    simp only [Node.visit, List.mem_cons] at h
    rcases h with h | h
    · exact .inl h
    · exact .inr (mem_visitAll h)
theorem mem_visitAll {ns : List (Node A R)} {m : Node A R} (h : m ∈ Node.visitAll ns) : Below m ns := by
  match ns with
  | [] => simp [Node.visitAll] at h
  | n :: ns =>
    simp only [Node.visitAll, List.mem_append] at h
    rcases h with h | h
    · rcases mem_visit h with rfl | h
      · exact .here (by simp)
      · exact .deeper (m := n) (by simp) h
    · cases mem_visitAll h with
      | here h => exact .here (by simp [h])
      | deeper h1 h2 => exact .deeper (by simp [h1]) h2
end

theorem visit_sub_visitAll {ns : List (Node A R)} {n m : Node A R} (hn : n ∈ ns) (h : m ∈ n.visit) : m ∈ Node.visitAll ns := by
  induction ns with
  | nil => simp at hn
  | cons a ns ih =>
    simp only [Node.visitAll, List.mem_append]
    rcases List.mem_cons.1 hn with rfl | hn
    · exact .inl h
    · exact .inr (ih hn)

theorem visitAll_of_below {ns : List (Node A R)} {m : Node A R} (h : Below m ns) : m ∈ Node.visitAll ns := by
  induction h with
  | here h => exact visit_sub_visitAll h (by cases m; simp [Node.visit])
  | @deeper n ns hn _ ih => exact visit_sub_visitAll hn (by cases n; simp only [Node.visit, List.mem_cons]; exact .inr ih)

/-- C28. `Metrics` of a pipeline made by `New` returns the four counters of every processor in `processors` and in the on_failure lists below them, and nothing else, each exactly once.
(It does not return those of the pipeline's own on_failure processors: `metrics_miss_global_on_failure`.) -/
theorem metrics_exact {c : Config C} {p : Pipeline A R} (h : Pipeline.new F c = .ok (.ok p)) :
    p.metrics.Nodup ∧ ∀ id k, (id, k) ∈ p.metrics ↔ ∃ n, Below n p.processors ∧ n.id = id := by
  constructor
  · have hn := component_ids_unique h
    rw [List.map_append, List.nodup_append] at hn
    have hn := hn.1
    unfold Pipeline.metrics Pipeline.visitProcessors
    revert hn
    generalize Node.visitAll p.processors = ns
    intro hn
    induction ns with
    | nil => simp
    | cons n ns ih =>
      simp only [List.map_cons, List.nodup_cons] at hn
      simp only [List.flatMap_cons, List.nodup_append]
      refine ⟨by simp, ih hn.2, ?_⟩
      intro a ha b hb hab
      subst hab
      rw [List.mem_flatMap] at hb
      obtain ⟨m, hm, hb⟩ := hb
      have h1 : a.1 = n.id := by simp at ha; rcases ha with rfl | rfl | rfl | rfl <;> rfl
      have h2 : a.1 = m.id := by simp at hb; rcases hb with rfl | rfl | rfl | rfl <;> rfl
      exact hn.1 (List.mem_map.2 ⟨m, hm, by rw [← h2, h1]⟩)
  · intro id k
    simp only [Pipeline.metrics, Pipeline.visitProcessors, List.mem_flatMap]
    constructor
    · rintro ⟨n, hn, h⟩
      refine ⟨n, mem_visitAll hn, ?_⟩
      simp at h
      rcases h with h | h | h | h <;> exact h.1.symm
    · rintro ⟨n, hn, rfl⟩
      exact ⟨n, visitAll_of_below hn, by cases k <;> simp⟩

/-! ## A concrete configuration -/

/-- A registry that knows every name. -/
def anyFactory : Factory Unit Unit Unit := ⟨fun _ _ => .ok (.ok ⟨.done none, some { ignoreMissing := some true }⟩), ()⟩

/-- Two processors, the first with a nested handler, and a global handler. -/
def sampleConfig : Config Unit :=
  ⟨lit "p", [[(lit "set", some (.mk [] [] [[(lit "remove", none)]] ()))], [(lit "append", none)]], [[(lit "set", none)]]⟩

theorem sampleConfig_new : ∃ p, Pipeline.new anyFactory sampleConfig = .ok (.ok p) ∧
    (Node.visitAll p.processors).map Node.id = [lit "p.processors[0].set", lit "p.processors[0].set.on_failure[0].remove", lit "p.processors[1].append"] ∧
    (Node.visitAll p.onFailure).map Node.id = [lit "p.on_failure[0].set"] := by
  refine ⟨_, rfl, ?_, ?_⟩ <;>
  · simp only [Node.visitAll, Node.visit, List.map, List.append_nil, List.nil_append, List.cons_append, Node.id, componentId, sampleConfig, itoa_lt (show 0 < 10 by omega), itoa_lt (show 1 < 10 by omega), itoa_lt (show 0 + 1 < 10 by omega)]
    decide

/-- C28: the counters of the pipeline's own on_failure processors are not among the metrics. -/
theorem metrics_miss_global_on_failure : ∃ p, Pipeline.new anyFactory sampleConfig = .ok (.ok p) ∧
    ∃ n, n ∈ p.onFailure ∧ ∀ k, (n.id, k) ∉ p.metrics := by
  obtain ⟨p, h, h1, h2⟩ := sampleConfig_new
  refine ⟨p, h, ?_⟩
  have hp := (new_iff.1 h).2.2.2
  generalize hon : p.onFailure = on at hp
  cases hp with
  | @cons _ _ _ _ n ns hp _ =>
    have heq : n :: ns = p.onFailure := hon.symm
    refine ⟨n, by simp, ?_⟩
    intro k hk
    have hb := ((metrics_exact h).2 n.id k).1 hk
    obtain ⟨m, hm, he⟩ := hb
    have hu := component_ids_unique h
    rw [List.map_append, List.nodup_append] at hu
    refine hu.2.2 n.id (List.mem_map.2 ⟨m, visitAll_of_below hm, he⟩) n.id (List.mem_map.2 ⟨n, visitAll_of_below (.here (by rw [← heq]; simp)), rfl⟩) rfl

end Sawmill
