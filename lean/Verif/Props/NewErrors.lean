import Verif.Model.NewText
import Verif.Spec.NewErrors
import Verif.Props.PipelineNew
/-!
# C83: what `New` reports
-/

namespace Sawmill
variable {A R C : Type} {F : Factory A R C}

/-- An outcome without the value. -/
def dropValue {α : Type} : Res (Except NewErr α) → Res (Except NewErr Unit)
  | .panic => .panic
  | .ok (.error e) => .ok (.error e)
  | .ok (.ok _) => .ok (.ok ())

/-- One after the other. -/
def thenRes (a b : Res (Except NewErr Unit)) : Res (Except NewErr Unit) :=
  match a with
  | .panic => .panic
  | .ok (.error e) => .ok (.error e)
  | .ok (.ok _) => b

theorem thenRes_assoc (a b c : Res (Except NewErr Unit)) : thenRes (thenRes a b) c = thenRes a (thenRes b c) := by
  unfold thenRes
  rcases a with (e | a) | _ <;> rfl

theorem thenRes_ok (a : Res (Except NewErr Unit)) : thenRes a (.ok (.ok ())) = a := by
  unfold thenRes
  rcases a with (e | a) | _ <;> rfl

/-- The entry by itself. -/
def checkBuilt (F : Factory A R C) (place name : Bytes) (config : C) : Res (Except NewErr Unit) :=
  match F.newProcessor name config with
  | .panic => .panic
  | .ok (.error e) => .ok (.error (.construct (place ++ lit "." ++ name) e))
  | .ok (.ok b) => dropValue (ignores b)

def checkEntry (F : Factory A R C) (place : Bytes) : ProcCfg C → Res (Except NewErr Unit)
  | [] => .ok (.error .noProcessor)
  | [(name, none)] => checkBuilt F place name F.nilConfig
  | [(name, some (.mk _ _ _ config))] => checkBuilt F place name config
  | _ :: _ :: _ => .ok (.error .manyProcessors)

def checkAll (F : Factory A R C) : List (Bytes × ProcCfg C) → Res (Except NewErr Unit)
  | [] => .ok (.ok ())
  | x :: xs => thenRes (checkEntry F x.1 x.2) (checkAll F xs)

theorem checkAll_append : ∀ (xs ys : List (Bytes × ProcCfg C)), checkAll F (xs ++ ys) = thenRes (checkAll F xs) (checkAll F ys)
  | [], ys => rfl
  | x :: xs, ys => by simp only [List.cons_append, checkAll, checkAll_append xs ys, thenRes_assoc]

theorem newProcessor_check (base name cond : Bytes) (i : Nat) (config : C) (hf : Bytes → Res (Except NewErr (List (Node A R)))) :
    dropValue (newProcessor F base i name cond config hf) =
      thenRes (checkBuilt F (base ++ lit "[" ++ itoa i ++ lit "]") name config) (dropValue (hf (componentId base i name ++ lit ".on_failure"))) := by
  have hid : componentId base i name = base ++ lit "[" ++ itoa i ++ lit "]" ++ lit "." ++ name := by
    simp only [componentId, List.append_assoc]; rfl
  simp only [newProcessor, checkBuilt]
  cases F.newProcessor name config with
  | panic => rfl
  | ok r =>
    cases r with
    | error e => simp only [hid]; rfl
    | ok b =>
      simp only
      cases ignores b with
      | panic => rfl
      | ok r =>
        cases r with
        | error e => rfl
        | ok v =>
          obtain ⟨ignM, ignF⟩ := v
          simp only
          cases hf (componentId base i name ++ lit ".on_failure") with
          | panic => rfl
          | ok r => cases r <;> rfl

mutual
theorem newProcessors_check (base : Bytes) : ∀ (cs : List (ProcCfg C)) (i : Nat), dropValue (newProcessors F base cs i : Res (Except NewErr (List (Node A R)))) = checkAll F (entriesAll base i cs)
  | [], i => rfl
  | c :: cs, i => by
    have h1 := newFrom_check base i c
    have h2 := newProcessors_check base cs (i + 1)
    simp only [newProcessors, entriesAll, checkAll_append, ← h1, ← h2]
    cases (newFrom F base i c : Res (Except NewErr (Node A R))) with
    | panic => rfl
    | ok r =>
      cases r with
      | error e => rfl
      | ok n =>
        simp only
        cases (newProcessors F base cs (i + 1) : Res (Except NewErr (List (Node A R)))) with
        | panic => rfl
        | ok r => cases r <;> rfl
theorem newFrom_check (base : Bytes) (i : Nat) : ∀ (c : ProcCfg C), dropValue (newFrom F base i c : Res (Except NewErr (Node A R))) = checkAll F (entriesOf (base ++ lit "[" ++ itoa i ++ lit "]") c)
  | [] => rfl
  | [e] => by simp only [newFrom, entriesOf, checkAll]; exact newEntry_check base i e
  | _ :: _ :: _ => by simp [newFrom, entriesOf, checkAll, checkEntry, dropValue, thenRes]
theorem newEntry_check (base : Bytes) (i : Nat) : ∀ (e : Bytes × Option (OptCfg C)), dropValue (newEntry F base i e : Res (Except NewErr (Node A R))) =
    thenRes (checkEntry F (base ++ lit "[" ++ itoa i ++ lit "]") [e]) (checkAll F (entriesIn (base ++ lit "[" ++ itoa i ++ lit "]") e))
  | (name, o) => by simp only [newEntry, entriesIn]; exact newOptions_check base i name o
theorem newOptions_check (base : Bytes) (i : Nat) (name : Bytes) : ∀ (o : Option (OptCfg C)), dropValue (newOptions F base i name o : Res (Except NewErr (Node A R))) =
    thenRes (checkEntry F (base ++ lit "[" ++ itoa i ++ lit "]") [(name, o)]) (checkAll F (entriesOpt (base ++ lit "[" ++ itoa i ++ lit "]" ++ lit "." ++ name ++ lit ".on_failure") o))
  | none => by simp only [newOptions, entriesOpt, newProcessor_check, checkEntry]; rfl
  | some o => by simp only [newOptions, entriesOpt]; exact newOption_check base i name o
theorem newOption_check (base : Bytes) (i : Nat) (name : Bytes) : ∀ (o : OptCfg C), dropValue (newOption F base i name o : Res (Except NewErr (Node A R))) =
    thenRes (checkEntry F (base ++ lit "[" ++ itoa i ++ lit "]") [(name, some o)]) (checkAll F (entriesMk (base ++ lit "[" ++ itoa i ++ lit "]" ++ lit "." ++ name ++ lit ".on_failure") o))
  | .mk _ cond onF config => by
    have := newProcessors_check (base ++ lit "[" ++ itoa i ++ lit "]" ++ lit "." ++ name ++ lit ".on_failure") onF 0
    have hid : componentId base i name = base ++ lit "[" ++ itoa i ++ lit "]" ++ lit "." ++ name := by
      simp only [componentId, List.append_assoc]; rfl
    simp only [newOption, newProcessor_check, checkEntry, entriesMk, hid, this]
end

theorem new_check {c : Config C} (hid : c.id ≠ []) : dropValue (Pipeline.new F c : Res (Except NewErr (Pipeline A R))) = checkAll F c.entries := by
  simp only [Pipeline.new, if_neg hid, Config.entries, checkAll_append, ← newProcessors_check]
  cases (newProcessors F (c.id ++ lit ".processors") c.processors 0 : Res (Except NewErr (List (Node A R)))) with
  | panic => rfl
  | ok r =>
    cases r with
    | error e => rfl
    | ok ps =>
      simp only
      cases (newProcessors F (c.id ++ lit ".on_failure") c.onFailure 0 : Res (Except NewErr (List (Node A R)))) with
      | panic => rfl
      | ok r => cases r <;> rfl

/-- The three outcomes for one entry. -/
theorem checkEntry_spec (x : Bytes × ProcCfg C) :
    (checkEntry F x.1 x.2 = .ok (.ok ()) ↔ EntryFine F x) ∧ (∀ e, checkEntry F x.1 x.2 = .ok (.error e) ↔ EntryFault F x e) ∧ (checkEntry F x.1 x.2 = .panic ↔ EntryCrash F x) := by
  have built : ∀ (place name : Bytes) (config : C) (c : ProcCfg C), (∃ cond onF, Names F c name cond onF config) → (∀ name' cond' onF' config', Names F c name' cond' onF' config' → name' = name ∧ config' = config) → c.length = 1 →
      (checkBuilt F place name config = .ok (.ok ()) ↔ EntryFine F (place, c)) ∧ (∀ e, checkBuilt F place name config = .ok (.error e) ↔ EntryFault F (place, c) e) ∧ (checkBuilt F place name config = .panic ↔ EntryCrash F (place, c)) := by
    rintro place name config c ⟨cond, onF, hn⟩ hu hl
    unfold checkBuilt
    cases hF : F.newProcessor name config with
    | panic =>
      refine ⟨⟨by simp, ?_⟩, fun e => ⟨by simp, ?_⟩, ⟨fun _ => .construct hn hF, fun _ => rfl⟩⟩
      · rintro ⟨name', cond', onF', config', proc, ignM, ignF, h1, m, h2, _⟩
        obtain ⟨rfl, rfl⟩ := hu _ _ _ _ h1
        rw [hF] at h2; cases h2
      · rintro h
        cases h with
        | empty => simp at hl
        | many h => omega
        | construct h1 h2 => obtain ⟨rfl, rfl⟩ := hu _ _ _ _ h1; rw [hF] at h2; cases h2
        | noConfig h1 h2 => obtain ⟨rfl, rfl⟩ := hu _ _ _ _ h1; rw [hF] at h2; cases h2
        | results h1 h2 => obtain ⟨rfl, rfl⟩ := hu _ _ _ _ h1; rw [hF] at h2; cases h2
    | ok r =>
      cases r with
      | error er =>
        refine ⟨⟨by simp, ?_⟩, fun e => ⟨?_, ?_⟩, ⟨by simp, ?_⟩⟩
        · rintro ⟨name', cond', onF', config', proc, ignM, ignF, h1, m, h2, _⟩
          obtain ⟨rfl, rfl⟩ := hu _ _ _ _ h1
          rw [hF] at h2; cases h2
        · intro h
          simp only [Res.ok.injEq, Except.error.injEq] at h
          subst h
          exact .construct hn hF
        · intro h
          cases h with
          | empty => simp at hl
          | many h => omega
          | construct h1 h2 => obtain ⟨rfl, rfl⟩ := hu _ _ _ _ h1; rw [hF] at h2; cases h2; rfl
          | noConfig h1 h2 => obtain ⟨rfl, rfl⟩ := hu _ _ _ _ h1; rw [hF] at h2; cases h2
          | results h1 h2 => obtain ⟨rfl, rfl⟩ := hu _ _ _ _ h1; rw [hF] at h2; cases h2
        · intro h
          cases h with
          | construct h1 h2 => obtain ⟨rfl, rfl⟩ := hu _ _ _ _ h1; rw [hF] at h2; cases h2
          | config h1 h2 => obtain ⟨rfl, rfl⟩ := hu _ _ _ _ h1; rw [hF] at h2; cases h2
      | ok b =>
        obtain ⟨proc, cm⟩ := b
        simp only [ignores]
        cases cm with
        | none =>
          refine ⟨⟨by simp [dropValue], ?_⟩, fun e => ⟨?_, ?_⟩, ⟨by simp [dropValue], ?_⟩⟩
          · rintro ⟨name', cond', onF', config', proc, ignM, ignF, h1, m, h2, _⟩
            obtain ⟨rfl, rfl⟩ := hu _ _ _ _ h1
            rw [hF] at h2; cases h2
          · intro h
            simp only [dropValue, Res.ok.injEq, Except.error.injEq] at h
            subst h
            exact .noConfig hn hF
          · intro h
            cases h with
            | empty => simp at hl
            | many h => omega
            | construct h1 h2 => obtain ⟨rfl, rfl⟩ := hu _ _ _ _ h1; rw [hF] at h2; cases h2
            | noConfig h1 h2 => rfl
            | results h1 h2 => obtain ⟨rfl, rfl⟩ := hu _ _ _ _ h1; rw [hF] at h2; cases h2
          · intro h
            cases h with
            | construct h1 h2 => obtain ⟨rfl, rfl⟩ := hu _ _ _ _ h1; rw [hF] at h2; cases h2
            | config h1 h2 => obtain ⟨rfl, rfl⟩ := hu _ _ _ _ h1; rw [hF] at h2; cases h2
        | some m =>
          have fine : EntryFine F (place, c) ↔ m.numOut = 1 ∧ m.numIn = 0 ∧ m.isStruct = true := by
            constructor
            · rintro ⟨name', cond', onF', config', proc, ignM, ignF, h1, m, h2, h3, h4, h5, _⟩
              obtain ⟨rfl, rfl⟩ := hu _ _ _ _ h1
              rw [hF] at h2; cases h2
              exact ⟨h4, h3, h5⟩
            · rintro ⟨h1, h2, h3⟩
              exact ⟨name, cond, onF, config, proc, _, _, hn, m, hF, h2, h1, h3, rfl, rfl⟩
          have fault : ∀ e, EntryFault F (place, c) e ↔ e = .configResults ∧ m.numOut ≠ 1 := by
            intro e
            constructor
            · intro h
              cases h with
              | empty => simp at hl
              | many h => omega
              | construct h1 h2 => obtain ⟨rfl, rfl⟩ := hu _ _ _ _ h1; rw [hF] at h2; cases h2
              | noConfig h1 h2 => obtain ⟨rfl, rfl⟩ := hu _ _ _ _ h1; rw [hF] at h2; cases h2
              | results h1 h2 h3 => obtain ⟨rfl, rfl⟩ := hu _ _ _ _ h1; rw [hF] at h2; cases h2; exact ⟨rfl, h3⟩
            · rintro ⟨rfl, h⟩
              exact .results hn hF h
          have crash : EntryCrash F (place, c) ↔ m.numOut = 1 ∧ (m.numIn ≠ 0 ∨ m.isStruct = false) := by
            constructor
            · intro h
              cases h with
              | construct h1 h2 => obtain ⟨rfl, rfl⟩ := hu _ _ _ _ h1; rw [hF] at h2; cases h2
              | config h1 h2 h3 h4 => obtain ⟨rfl, rfl⟩ := hu _ _ _ _ h1; rw [hF] at h2; cases h2; exact ⟨h3, h4⟩
            · rintro ⟨h1, h2⟩
              exact .config hn hF h1 h2
          rw [fine, crash]
          simp only [fault]
          by_cases h1 : m.numOut = 1 <;> by_cases h2 : m.numIn = 0 <;> by_cases h3 : m.isStruct = true <;> simp_all [dropValue] <;> exact fun _ => ⟨fun h => h.symm, fun h => h.symm⟩
  obtain ⟨place, c⟩ := x
  match c with
  | [] =>
    refine ⟨⟨by simp [checkEntry], ?_⟩, fun e => ⟨fun h => ?_, fun h => ?_⟩, ⟨by simp [checkEntry], ?_⟩⟩
    · rintro ⟨_, _, _, _, _, _, _, h, _⟩; cases h
    · simp only [checkEntry, Res.ok.injEq, Except.error.injEq] at h; subst h; exact .empty
    · cases h with
      | empty => rfl
      | many h => simp at h
      | construct h => cases h
      | noConfig h => cases h
      | results h => cases h
    · intro h
      cases h with
      | construct h => cases h
      | config h => cases h
  | [(name, none)] => exact built place name F.nilConfig _ ⟨_, _, .nilOptions name⟩ (fun _ _ _ _ h => by cases h; exact ⟨rfl, rfl⟩) rfl
  | [(name, some (.mk id cond onF config))] => exact built place name config _ ⟨_, _, .withOptions name id cond onF config⟩ (fun _ _ _ _ h => by cases h; exact ⟨rfl, rfl⟩) rfl
  | a :: b :: t =>
    refine ⟨⟨by simp [checkEntry], ?_⟩, fun e => ⟨fun h => ?_, fun h => ?_⟩, ⟨by simp [checkEntry], ?_⟩⟩
    · rintro ⟨_, _, _, _, _, _, _, h, _⟩; cases h
    · simp only [checkEntry, Res.ok.injEq, Except.error.injEq] at h; subst h; exact .many (by simp)
    · cases h with
      | many h => simp [checkEntry]
      | construct h => cases h
      | noConfig h => cases h
      | results h => cases h
    · intro h
      cases h with
      | construct h => cases h
      | config h => cases h

theorem checkAll_spec : ∀ (xs : List (Bytes × ProcCfg C)),
    (checkAll F xs = .ok (.ok ()) ↔ ∀ x ∈ xs, EntryFine F x) ∧
    (∀ e, checkAll F xs = .ok (.error e) ↔ ∃ a x b, xs = a ++ x :: b ∧ (∀ y ∈ a, EntryFine F y) ∧ EntryFault F x e) ∧
    (checkAll F xs = .panic ↔ ∃ a x b, xs = a ++ x :: b ∧ (∀ y ∈ a, EntryFine F y) ∧ EntryCrash F x)
  | [] => by simp [checkAll]
  | x :: xs => by
    obtain ⟨i1, i2, i3⟩ := checkAll_spec xs
    obtain ⟨c1, c2, c3⟩ := checkEntry_spec (F := F) x
    have key : ∀ (Q : Bytes × ProcCfg C → Prop), EntryFine F x → ¬ Q x → ((∃ a y b, x :: xs = a ++ y :: b ∧ (∀ z ∈ a, EntryFine F z) ∧ Q y) ↔ ∃ a y b, xs = a ++ y :: b ∧ (∀ z ∈ a, EntryFine F z) ∧ Q y) := by
      intro Q hf hq
      constructor
      · rintro ⟨a, y, b, h1, h2, h3⟩
        cases a with
        | nil => cases h1; exact absurd h3 hq
        | cons a0 a => cases h1; exact ⟨a, y, b, rfl, fun z hz => h2 z (List.mem_cons_of_mem _ hz), h3⟩
      · rintro ⟨a, y, b, h1, h2, h3⟩
        exact ⟨x :: a, y, b, by rw [h1]; rfl, fun z hz => by
          rcases List.mem_cons.1 hz with rfl | hz
          · exact hf
          · exact h2 z hz, h3⟩
    have key2 : ∀ (Q : Bytes × ProcCfg C → Prop), ¬ EntryFine F x → ((∃ a y b, x :: xs = a ++ y :: b ∧ (∀ z ∈ a, EntryFine F z) ∧ Q y) ↔ Q x) := by
      intro Q hf
      constructor
      · rintro ⟨a, y, b, h1, h2, h3⟩
        cases a with
        | nil => cases h1; exact h3
        | cons a0 a => cases h1; exact absurd (h2 x (by simp)) hf
      · intro h
        exact ⟨[], x, xs, rfl, by simp, h⟩
    simp only [checkAll]
    rcases hx : checkEntry F x.1 x.2 with (e | u) | _
    · have hnf : ¬ EntryFine F x := fun h => by rw [c1.2 h] at hx; cases hx
      have hnc : ¬ EntryCrash F x := fun h => by rw [c3.2 h] at hx; cases hx
      refine ⟨⟨by simp [thenRes], fun h => absurd (h x (by simp)) hnf⟩, fun e' => ?_, ?_⟩
      · rw [key2 _ hnf, ← c2 e', hx]; rfl
      · rw [key2 _ hnf]; simp [thenRes, hnc]
    · have hf : EntryFine F x := c1.1 hx
      have hne : ∀ e, ¬ EntryFault F x e := fun e h => by rw [(c2 e).2 h] at hx; cases hx
      have hnc : ¬ EntryCrash F x := fun h => by rw [c3.2 h] at hx; cases hx
      refine ⟨?_, fun e => ?_, ?_⟩
      · simp only [thenRes, i1, List.mem_cons, forall_eq_or_imp, hf, true_and]
      · rw [key _ hf (hne e)]; exact i2 e
      · rw [key _ hf hnc]; exact i3
    · have hnf : ¬ EntryFine F x := fun h => by rw [c1.2 h] at hx; cases hx
      have hc : EntryCrash F x := c3.1 hx
      refine ⟨⟨by simp [thenRes], fun h => absurd (h x (by simp)) hnf⟩, fun e' => ?_, ?_⟩
      · rw [key2 _ hnf, ← c2 e', hx]; rfl
      · rw [key2 _ hnf]; simp [thenRes, hc]

/-- **C83.** What `New` answers: a pipeline if nothing is wrong with any entry; otherwise the first entry in reading order with which something is wrong decides, and the answer is what is wrong with it. Nothing after it has a say. -/
theorem new_reports_first (c : Config C) (hid : c.id ≠ []) :
    ((∃ p : Pipeline A R, Pipeline.new F c = .ok (.ok p)) ↔ ∀ x ∈ c.entries, EntryFine F x) ∧
    (∀ e, (Pipeline.new F c : Res (Except NewErr (Pipeline A R))) = .ok (.error e) ↔ ∃ before x after, c.entries = before ++ x :: after ∧ (∀ y ∈ before, EntryFine F y) ∧ EntryFault F x e) ∧
    ((Pipeline.new F c : Res (Except NewErr (Pipeline A R))) = .panic ↔ ∃ before x after, c.entries = before ++ x :: after ∧ (∀ y ∈ before, EntryFine F y) ∧ EntryCrash F x) := by
  have h := new_check (A := A) (R := R) (F := F) hid
  obtain ⟨i1, i2, i3⟩ := checkAll_spec (F := F) c.entries
  simp only [← i1, ← i2, ← i3, ← h]
  rcases (Pipeline.new F c : Res (Except NewErr (Pipeline A R))) with (e | p) | _ <;> simp [dropValue]

/-- **C83.** Without an ID nothing else is looked at. -/
theorem new_without_id (c : Config C) (hid : c.id = []) : (Pipeline.new F c : Res (Except NewErr (Pipeline A R))) = .ok (.error .emptyId) := by
  simp [Pipeline.new, hid]

/-- **C83.** If a constructor fails, the text of the error starts with the component ID of the processor, and `errors.Is` and `errors.As` see the constructor's error. The errors about malformed entries do not say where the entry is. -/
theorem new_error_text (text : Err → Bytes) {c : Config C} {e : NewErr} (h : (Pipeline.new F c : Res (Except NewErr (Pipeline A R))) = .ok (.error e)) :
    (∃ place name err, (∃ x ∈ c.entries, x.1 = place ∧ x.2.map (·.1) = [name]) ∧ e.text text = lit "failed constructing processor with ID " ++ (place ++ lit "." ++ name) ++ lit ": " ++ text err ∧ e.unwrap = some err) ∨
    (e.unwrap = none ∧ e.text text ∈ [lit "pipeline must have a non-empty id", lit "processor cannot be empty", lit "only one processor must be specified", lit "error Config() method not found", lit "error Config() must return one value"]) := by
  by_cases hid : c.id = []
  · rw [new_without_id c hid] at h
    cases h
    exact .inr ⟨rfl, by simp [NewErr.text]⟩
  · obtain ⟨a, x, b, h1, h2, h3⟩ := ((new_reports_first c hid).2.1 e).1 h
    cases h3 with
    | empty => exact .inr ⟨rfl, by simp [NewErr.text]⟩
    | many => exact .inr ⟨rfl, by simp [NewErr.text]⟩
    | noConfig => exact .inr ⟨rfl, by simp [NewErr.text]⟩
    | results => exact .inr ⟨rfl, by simp [NewErr.text]⟩
    | @construct place cfg name cond onF config er hn hf =>
      refine .inl ⟨place, name, er, ⟨(place, cfg), by rw [h1]; simp, rfl, ?_⟩, rfl, rfl⟩
      cases hn <;> rfl

/-! ## Where the entries are -/

theorem index_of_place {base r q : Bytes} {i j : Nat}
    (h : base ++ lit "[" ++ itoa i ++ lit "]" ++ r = base ++ lit "[" ++ itoa j ++ lit "]" ++ q) : i = j := by
  simp only [List.append_assoc, List.append_cancel_left_eq] at h
  have hl : lit "]" = [93] := by decide
  rw [hl] at h
  simp only [List.cons_append, List.nil_append] at h
  have nd : ∀ n, (93 : UInt8) ∉ itoa n := fun n hc => by
    have := itoa_digits n _ hc
    simp [isDigit] at this
  exact itoa_inj (split_unique (nd i) (nd j) h).1

mutual
theorem entriesAll_prefix (base : Bytes) : ∀ (cs : List (ProcCfg C)) (i : Nat), ∀ x ∈ entriesAll base i cs, ∃ j r, i ≤ j ∧ x.1 = base ++ lit "[" ++ itoa j ++ lit "]" ++ r
  | [], i => by simp [entriesAll]
  | c :: cs, i => by
    intro x hx
    have h1 := entriesOf_prefix (base ++ lit "[" ++ itoa i ++ lit "]") c x
    have h2 := entriesAll_prefix base cs (i + 1) x
    simp only [entriesAll, List.mem_append] at hx
    rcases hx with hx | hx
    · obtain ⟨r, hr⟩ := h1 hx
      exact ⟨i, r, Nat.le_refl _, hr⟩
    · obtain ⟨j, r, hj, hr⟩ := h2 hx
      exact ⟨j, r, by omega, hr⟩
theorem entriesOf_prefix (place : Bytes) : ∀ (c : ProcCfg C), ∀ x ∈ entriesOf place c, ∃ r, x.1 = place ++ r
  | [] => by intro x hx; simp only [entriesOf, List.mem_singleton] at hx; subst hx; exact ⟨[], by simp⟩
  | [e] => by
    intro x hx
    have h := entriesIn_prefix place e x
    simp only [entriesOf, List.mem_cons] at hx
    rcases hx with rfl | hx
    · exact ⟨[], by simp⟩
    · obtain ⟨r, hr⟩ := h hx
      exact ⟨_, by rw [hr, List.append_assoc, List.append_assoc]⟩
  | a :: b :: t => by intro x hx; simp only [entriesOf, List.mem_singleton] at hx; subst hx; exact ⟨[], by simp⟩
theorem entriesIn_prefix (place : Bytes) : ∀ (e : Bytes × Option (OptCfg C)), ∀ x ∈ entriesIn place e, ∃ r, x.1 = place ++ (lit "." ++ e.1) ++ (lit ".on_failure" ++ lit "[" ++ r)
  | (name, o) => by
    intro x hx
    obtain ⟨r, hr⟩ := entriesOpt_prefix _ o x hx
    exact ⟨r, by rw [hr]; simp only [List.append_assoc]⟩
theorem entriesOpt_prefix (base : Bytes) : ∀ (o : Option (OptCfg C)), ∀ x ∈ entriesOpt base o, ∃ r, x.1 = base ++ lit "[" ++ r
  | none => by simp [entriesOpt]
  | some o => by simp only [entriesOpt]; exact entriesMk_prefix base o
theorem entriesMk_prefix (base : Bytes) : ∀ (o : OptCfg C), ∀ x ∈ entriesMk base o, ∃ r, x.1 = base ++ lit "[" ++ r
  | .mk _ _ onF _ => by
    intro x hx
    obtain ⟨j, r, _, hr⟩ := entriesAll_prefix base onF 0 x hx
    exact ⟨itoa j ++ lit "]" ++ r, by rw [hr]; simp only [List.append_assoc]⟩
end

theorem lit_dot_length : (lit ".").length = 1 := by decide

mutual
theorem entriesAll_nodup (base : Bytes) : ∀ (cs : List (ProcCfg C)) (i : Nat), (entriesAll base i cs).Pairwise (fun x y => x.1 ≠ y.1 ∧ ∀ e f, x.2 = [e] → y.2 = [f] → x.1 ++ lit "." ++ e.1 ≠ y.1 ++ lit "." ++ f.1)
  | [], i => by simp [entriesAll]
  | c :: cs, i => by
    have h1 := entriesOf_nodup (base ++ lit "[" ++ itoa i ++ lit "]") c
    have h2 := entriesAll_nodup base cs (i + 1)
    simp only [entriesAll]
    refine List.pairwise_append.2 ⟨h1, h2, ?_⟩
    intro x hx y hy
    obtain ⟨r, hr⟩ := entriesOf_prefix _ c x hx
    obtain ⟨j, q, hj, hq⟩ := entriesAll_prefix base cs (i + 1) y hy
    constructor
    · intro h
      rw [hr, hq] at h
      have := index_of_place h
      omega
    · intro e f _ _ h
      rw [hr, hq, List.append_assoc _ q, List.append_assoc _ r, List.append_assoc _ (q ++ _), List.append_assoc _ (r ++ _)] at h
      have := index_of_place h
      omega
theorem entriesOf_nodup (place : Bytes) : ∀ (c : ProcCfg C), (entriesOf place c).Pairwise (fun x y => x.1 ≠ y.1 ∧ ∀ e f, x.2 = [e] → y.2 = [f] → x.1 ++ lit "." ++ e.1 ≠ y.1 ++ lit "." ++ f.1)
  | [] => by simp [entriesOf]
  | [e] => by
    have h := entriesIn_nodup place e
    simp only [entriesOf, List.pairwise_cons]
    refine ⟨?_, h⟩
    intro y hy
    obtain ⟨r, hr⟩ := entriesIn_prefix place e y hy
    constructor
    · intro h
      rw [hr] at h
      have := congrArg List.length h
      have h8 := lit_dot_length
      simp only [List.length_append] at this
      omega
    · intro e' f he _ h
      cases he
      rw [hr] at h
      have := congrArg List.length h
      have h8 := lit_dot_length
      simp only [List.length_append] at this
      omega
  | a :: b :: t => by simp [entriesOf]
theorem entriesIn_nodup (place : Bytes) : ∀ (e : Bytes × Option (OptCfg C)), (entriesIn place e).Pairwise (fun x y => x.1 ≠ y.1 ∧ ∀ e f, x.2 = [e] → y.2 = [f] → x.1 ++ lit "." ++ e.1 ≠ y.1 ++ lit "." ++ f.1)
  | (name, o) => by simp only [entriesIn]; exact entriesOpt_nodup _ o
theorem entriesOpt_nodup (base : Bytes) : ∀ (o : Option (OptCfg C)), (entriesOpt base o).Pairwise (fun x y => x.1 ≠ y.1 ∧ ∀ e f, x.2 = [e] → y.2 = [f] → x.1 ++ lit "." ++ e.1 ≠ y.1 ++ lit "." ++ f.1)
  | none => by simp [entriesOpt]
  | some o => by simp only [entriesOpt]; exact entriesMk_nodup base o
theorem entriesMk_nodup (base : Bytes) : ∀ (o : OptCfg C), (entriesMk base o).Pairwise (fun x y => x.1 ≠ y.1 ∧ ∀ e f, x.2 = [e] → y.2 = [f] → x.1 ++ lit "." ++ e.1 ≠ y.1 ++ lit "." ++ f.1)
  | .mk _ _ onF _ => by simp only [entriesMk]; exact entriesAll_nodup base onF 0
end

/-- **C83.** The component ID in an error leads to one entry only: whatever the processors are called, no two entries of a configuration share a place, and no two that name one processor share a component ID. -/
theorem places_unique (c : Config C) : c.entries.Pairwise (fun x y => x.1 ≠ y.1 ∧ ∀ e f, x.2 = [e] → y.2 = [f] → x.1 ++ lit "." ++ e.1 ≠ y.1 ++ lit "." ++ f.1) := by
  have e1 : lit ".on_failure" = lit ".o" ++ lit "n_failure" := by decide
  have e2 : lit ".processors" = lit ".p" ++ lit "rocessors" := by decide
  refine List.pairwise_append.2 ⟨entriesAll_nodup _ _ _, entriesAll_nodup _ _ _, ?_⟩
  intro x hx y hy
  obtain ⟨j, r, _, hr⟩ := entriesAll_prefix _ _ _ x hx
  obtain ⟨k, q, _, hq⟩ := entriesAll_prefix _ _ _ y hy
  have key : ∀ u v : Bytes, c.id ++ lit ".processors" ++ u ≠ c.id ++ lit ".on_failure" ++ v := by
    intro u v he
    rw [e1, e2] at he
    simp only [List.append_assoc, List.append_cancel_left_eq] at he
    exact absurd (List.append_inj he (by decide)).1 (by decide)
  constructor
  · intro h
    rw [hr, hq] at h
    simp only [List.append_assoc] at h key
    exact key _ _ h
  · intro e f _ _ h
    rw [hr, hq] at h
    simp only [List.append_assoc] at h key
    exact key _ _ h

/-! ## Concrete cases -/

/-- A registry that knows every name but `sett`; the constructor of `boom` panics. -/
def pickyFactory : Factory Unit Unit Unit :=
  ⟨fun name _ => if name = lit "sett" then .ok (.error (.other (lit "unknown"))) else if name = lit "boom" then .panic else .ok (.ok ⟨.done none, some {}⟩), ()⟩

/-- A wrong name in a handler, before an entry that names nothing and one whose constructor panics. -/
def faultyConfig : Config Unit :=
  ⟨lit "p", [[(lit "set", some (.mk [] [] [[(lit "append", none)], [(lit "sett", none)]] ()))], [], [(lit "boom", none)]], [[(lit "set", none)]]⟩

/-- C83, a case: the wrong name in the handler is reported, with its place; the two later faults are not. -/
theorem new_reports_first_sample : Pipeline.new pickyFactory faultyConfig = .ok (.error (.construct (lit "p.processors[0].set.on_failure[1].sett") (.other (lit "unknown")))) ∧
    NewErr.text (fun _ => lit "unknown") (.construct (lit "p.processors[0].set.on_failure[1].sett") (.other (lit "unknown"))) = lit "failed constructing processor with ID p.processors[0].set.on_failure[1].sett: unknown" ∧
    faultyConfig.id ≠ [] ∧ faultyConfig.entries.length = 6 := by
  refine ⟨?_, by decide, by decide, by decide⟩
  have h1 : pickyFactory.newProcessor (lit "set") () = .ok (.ok ⟨.done none, some {}⟩) := by simp only [pickyFactory]; rw [if_neg (by decide), if_neg (by decide)]
  have h2 : pickyFactory.newProcessor (lit "append") () = .ok (.ok ⟨.done none, some {}⟩) := by simp only [pickyFactory]; rw [if_neg (by decide), if_neg (by decide)]
  have h3 : pickyFactory.newProcessor (lit "sett") () = .ok (.error (.other (lit "unknown"))) := by simp [pickyFactory]
  have h4 : pickyFactory.nilConfig = () := rfl
  simp [Pipeline.new, faultyConfig, newProcessors, newFrom, newEntry, newOptions, newOption, newProcessor, h1, h2, h3, h4, ignores, componentId, itoa_lt]
  rw [if_neg (by decide)]
  congr 2

/-- C83, a case: with the handler corrected the empty entry is next; with that gone, the panic. -/
theorem new_reports_next_sample :
    Pipeline.new pickyFactory ⟨lit "p", [[(lit "set", none)], [], [(lit "boom", none)]], []⟩ = .ok (.error .noProcessor) ∧
    Pipeline.new pickyFactory ⟨lit "p", [[(lit "set", none)], [(lit "boom", none)], []], []⟩ = .panic ∧
    Pipeline.new pickyFactory ⟨[], [[(lit "boom", none)]], []⟩ = .ok (.error .emptyId) := by
  have h1 : pickyFactory.newProcessor (lit "set") () = .ok (.ok ⟨.done none, some {}⟩) := by simp only [pickyFactory]; rw [if_neg (by decide), if_neg (by decide)]
  have h3 : pickyFactory.newProcessor (lit "boom") () = .panic := by simp only [pickyFactory]; rw [if_neg (by decide)]; simp
  have h4 : pickyFactory.nilConfig = () := rfl
  have h0 : lit "p" ≠ [] := by decide
  simp [Pipeline.new, newProcessors, newFrom, newEntry, newOptions, newProcessor, h0, h1, h3, h4, ignores]

end Sawmill
