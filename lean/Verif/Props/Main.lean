import Verif.Spec.Main
import Verif.Props.Cli
/-!
# C80: the command line program as a whole
-/

namespace Sawmill

/-! ## Flags -/

theorem flagNamed_some {n : Bytes} {k : FlagName} (h : flagNamed n = some k) : k.text = n := by
  have := List.find?_some h
  simpa using this

theorem flagNamed_text (k : FlagName) : flagNamed k.text = some k := by cases k <;> decide

theorem cutEq_some {name n v : Bytes} (h : cutEq name = (n, some v)) : name = n ++ 61 :: v := by
  cases name with
  | nil => simp [cutEq] at h
  | cons c t =>
    simp only [cutEq] at h
    split at h
    · rename_i hm
      simp only [Prod.mk.injEq, Option.some.injEq] at h
      obtain ⟨rfl, rfl⟩ := h
      have h1 := List.takeWhile_append_dropWhile (p := fun x : UInt8 => decide (x ≠ 61)) (l := t)
      have hne : t.dropWhile (fun x : UInt8 => decide (x ≠ 61)) ≠ [] := by
        intro h0
        rw [h0, List.append_nil] at h1
        have := List.all_takeWhile (p := fun x : UInt8 => decide (x ≠ 61)) (l := t)
        rw [h1] at this
        have := List.all_eq_true.mp this 61 hm
        simp at this
      obtain ⟨x, xs, hx⟩ := List.exists_cons_of_ne_nil hne
      have hx61 : x = 61 := by
        have := List.head_dropWhile_not (fun x : UInt8 => decide (x ≠ 61)) hne
        simp only [hx, List.head_cons, decide_eq_false_iff_not, ne_eq, Classical.not_not] at this
        exact this
      rw [hx] at h1 ⊢
      subst hx61
      simp only [List.drop_succ_cons, List.drop_zero, List.cons_append, h1]
    · simp at h

theorem cutEq_none {name n : Bytes} (h : cutEq name = (n, none)) : name = n := by
  cases name with
  | nil => simp [cutEq] at h; exact h.symm
  | cons c t =>
    simp only [cutEq] at h
    split at h
    · simp at h
    · simp only [Prod.mk.injEq, and_true] at h; exact h

theorem nameStep_flag (name : Bytes) : nameStep name ≠ .stop ∧ nameStep name ≠ .dashes := by
  unfold nameStep
  split
  · simp
  · split
    · split <;> simp
    · split <;> simp

theorem flagStep_stop {s : Bytes} : flagStep s = .stop ↔ ¬ ∃ c t, s = 45 :: c :: t := by
  constructor
  · rintro h ⟨c, t, rfl⟩
    simp only [flagStep] at h
    split at h
    · split at h
      · simp at h
      · exact (nameStep_flag _).1 h
    · exact (nameStep_flag _).1 h
  · intro h
    unfold flagStep
    split
    · exact absurd ⟨_, _, rfl⟩ h
    · rfl

theorem flagStep_flag {s : Bytes} (hs : flagStep s ≠ .stop) (hd : flagStep s ≠ .dashes) : ∃ d name, IsDash d ∧ s = d ++ name ∧ flagStep s = nameStep name := by
  unfold flagStep at hs hd ⊢
  split at hs
  · rename_i c t
    by_cases hc : c = 45
    · subst hc
      simp only [if_true] at hd ⊢
      by_cases ht : t = []
      · simp [ht] at hd
      · exact ⟨lit "--", t, .inr rfl, rfl, by simp [ht]⟩
    · exact ⟨lit "-", c :: t, .inl rfl, rfl, by simp [hc]⟩
  · exact absurd rfl hs

theorem flagStep_dashes {s : Bytes} : flagStep s = .dashes ↔ s = lit "--" := by
  constructor
  · intro h
    unfold flagStep at h
    split at h
    · split at h
      · split at h
        · rename_i h1 h2
          rw [h1, h2]; rfl
        · exact absurd h (nameStep_flag _).2
      · exact absurd h (nameStep_flag _).2
    · simp at h
  · rintro rfl; rfl

theorem flagStep_set {s : Bytes} {k : FlagName} {v : Bytes} : flagStep s = .set k v ↔ ∃ d, IsDash d ∧ s = d ++ k.text ++ 61 :: v := by
  constructor
  · intro h
    obtain ⟨d, name, hd, hs, h'⟩ := flagStep_flag (s := s) (by simp [h]) (by simp [h])
    rw [h] at h'
    replace h := h'.symm
    refine ⟨d, hd, ?_⟩
    unfold nameStep at h
    split at h
    · simp at h
    · split at h
      · split at h <;> simp at h
      · rename_i k' hk
        split at h
        · rename_i v' hv
          simp only [FlagStep.set.injEq] at h
          obtain ⟨rfl, rfl⟩ := h
          have := cutEq_some (name := name) (n := (cutEq name).1) (v := v') (by rw [← hv])
          rw [flagNamed_some hk, List.append_assoc, ← this, hs]
        · simp at h
  · rintro ⟨d, rfl | rfl, rfl⟩ <;> cases k <;> simp [flagStep, FlagName.text, lit, nameStep, cutEq, flagNamed]

theorem flagStep_take {s : Bytes} {k : FlagName} : flagStep s = .take k ↔ ∃ d, IsDash d ∧ s = d ++ k.text := by
  constructor
  · intro h
    obtain ⟨d, name, hd, hs, h'⟩ := flagStep_flag (s := s) (by simp [h]) (by simp [h])
    rw [h] at h'
    replace h := h'.symm
    refine ⟨d, hd, ?_⟩
    unfold nameStep at h
    split at h
    · simp at h
    · split at h
      · split at h <;> simp at h
      · rename_i k' hk
        split at h
        · simp at h
        · rename_i hv
          simp only [FlagStep.take.injEq] at h
          subst h
          have := cutEq_none (name := name) (n := (cutEq name).1) (by rw [← hv])
          rw [flagNamed_some hk, ← this, hs]
  · rintro ⟨d, rfl | rfl, rfl⟩ <;> cases k <;> rfl

/-- The flags after some assignments. -/
def CliFlags.assignAll (f : CliFlags) (asg : List (FlagName × Bytes)) : CliFlags := asg.foldl (fun f a => f.assign a.1 a.2) f

theorem parse_spelled {args : List Bytes} {asg : List (FlagName × Bytes)} {pos : List Bytes} (h : Spelled args asg pos) : ∀ f : CliFlags, CliFlags.parse f args = .ok (f.assignAll asg, pos) := by
  induction h with
  | nothing => intro f; rfl
  | @rest s ss hs =>
    intro f
    have := flagStep_stop.mpr hs
    cases ss <;> simp [CliFlags.parse, this, CliFlags.assignAll]
  | @dashes ss =>
    intro f
    have := flagStep_dashes.mpr (rfl : lit "--" = lit "--")
    cases ss <;> simp [CliFlags.parse, this, CliFlags.assignAll]
  | @joined d v k ss pos asg hd _ ih =>
    intro f
    have := flagStep_set.mpr ⟨d, hd, (rfl : d ++ k.text ++ 61 :: v = d ++ k.text ++ 61 :: v)⟩
    cases ss with
    | nil =>
      have ih := ih (f.assign k v)
      simp only [CliFlags.parse] at ih
      simp only [CliFlags.parse, this, ih]; rfl
    | cons s ss => simp only [CliFlags.parse, this, ih]; rfl
  | @apart d v k ss pos asg hd _ ih =>
    intro f
    have := flagStep_take.mpr ⟨d, hd, (rfl : d ++ k.text = d ++ k.text)⟩
    simp only [CliFlags.parse, this, ih]; rfl

theorem spelled_of_parse : ∀ (args : List Bytes) {f g : CliFlags} {pos : List Bytes}, CliFlags.parse f args = .ok (g, pos) → ∃ asg, Spelled args asg pos ∧ g = f.assignAll asg
  | [], f, g, pos, h => by
    simp only [CliFlags.parse, Except.ok.injEq, Prod.mk.injEq] at h
    obtain ⟨rfl, rfl⟩ := h
    exact ⟨[], .nothing, rfl⟩
  | [s], f, g, pos, h => by
    simp only [CliFlags.parse] at h
    cases hs : flagStep s with
    | stop =>
      simp only [hs, Except.ok.injEq, Prod.mk.injEq] at h
      obtain ⟨rfl, rfl⟩ := h
      exact ⟨[], .rest (flagStep_stop.mp hs), rfl⟩
    | dashes =>
      simp only [hs, Except.ok.injEq, Prod.mk.injEq] at h
      obtain ⟨rfl, rfl⟩ := h
      rw [flagStep_dashes.mp hs]
      exact ⟨[], .dashes, rfl⟩
    | bad e => simp [hs] at h
    | take k => simp [hs] at h
    | set k v =>
      simp only [hs, Except.ok.injEq, Prod.mk.injEq] at h
      obtain ⟨rfl, rfl⟩ := h
      obtain ⟨d, hd, rfl⟩ := flagStep_set.mp hs
      exact ⟨[(k, v)], .joined hd .nothing, rfl⟩
  | s :: v :: rest, f, g, pos, h => by
    simp only [CliFlags.parse] at h
    cases hs : flagStep s with
    | stop =>
      simp only [hs, Except.ok.injEq, Prod.mk.injEq] at h
      obtain ⟨rfl, rfl⟩ := h
      exact ⟨[], .rest (flagStep_stop.mp hs), rfl⟩
    | dashes =>
      simp only [hs, Except.ok.injEq, Prod.mk.injEq] at h
      obtain ⟨rfl, rfl⟩ := h
      rw [flagStep_dashes.mp hs]
      exact ⟨[], .dashes, rfl⟩
    | bad e => simp [hs] at h
    | take k =>
      simp only [hs] at h
      obtain ⟨asg, h1, rfl⟩ := spelled_of_parse rest h
      obtain ⟨d, hd, rfl⟩ := flagStep_take.mp hs
      exact ⟨(k, v) :: asg, .apart hd h1, rfl⟩
    | set k x =>
      simp only [hs] at h
      obtain ⟨asg, h1, rfl⟩ := spelled_of_parse (v :: rest) h
      obtain ⟨d, hd, rfl⟩ := flagStep_set.mp hs
      exact ⟨(k, x) :: asg, .joined hd h1, rfl⟩

theorem nameStep_help {name : Bytes} (h : nameStep name = .bad .help) : (cutEq name).1 = lit "h" ∨ (cutEq name).1 = lit "help" := by
  unfold nameStep at h
  split at h
  · simp at h
  · split at h
    · split at h
      · rename_i h1; exact h1.symm
      · simp at h
    · split at h <;> simp at h

theorem flagStep_help {s : Bytes} : flagStep s = .bad .help ↔ AsksHelp s := by
  constructor
  · intro h
    obtain ⟨d, name, hd, hs, h'⟩ := flagStep_flag (s := s) (by simp [h]) (by simp [h])
    rw [h] at h'
    have h1 := nameStep_help h'.symm
    refine ⟨d, (cutEq name).1, hd, h1, ?_⟩
    cases hv : (cutEq name).2 with
    | none =>
      have := cutEq_none (name := name) (n := (cutEq name).1) (by rw [← hv])
      left; rw [← this, hs]
    | some v =>
      have := cutEq_some (name := name) (n := (cutEq name).1) (v := v) (by rw [← hv])
      right; exact ⟨v, by rw [List.append_assoc, ← this, hs]⟩
  · rintro ⟨d, name, rfl | rfl, rfl | rfl, rfl | ⟨v, rfl⟩⟩ <;> simp [flagStep, lit, nameStep, cutEq, flagNamed, FlagName.text]

/-- **C80.** Help is shown exactly if an argument asks for it, and everything before it sets flags. -/
theorem flags_help (f : CliFlags) (args : List Bytes) : CliFlags.parse f args = .error .help ↔ ∃ pre s post, args = pre ++ s :: post ∧ Settings pre ∧ AsksHelp s := by
  constructor
  · exact go args f
  · rintro ⟨pre, s, post, rfl, hs, hh⟩
    have hh := flagStep_help.mpr hh
    induction hs generalizing f with
    | nothing => cases post <;> simp [CliFlags.parse, hh]
    | @joined d v k ss hd _ ih =>
      have := flagStep_set.mpr ⟨d, hd, (rfl : d ++ k.text ++ 61 :: v = d ++ k.text ++ 61 :: v)⟩
      have ih := ih (f.assign k v)
      cases hss : ss ++ s :: post with
      | nil => simp at hss
      | cons x xs =>
        rw [hss] at ih
        simp only [List.cons_append, hss, CliFlags.parse, this, ih]
    | @apart d v k ss hd _ ih =>
      have := flagStep_take.mpr ⟨d, hd, (rfl : d ++ k.text = d ++ k.text)⟩
      simp only [List.cons_append, CliFlags.parse, this, ih (f.assign k v)]
where
  go : ∀ (args : List Bytes) (f : CliFlags), CliFlags.parse f args = .error .help → ∃ pre s post, args = pre ++ s :: post ∧ Settings pre ∧ AsksHelp s
  | [], f, h => by simp [CliFlags.parse] at h
  | [s], f, h => by
    simp only [CliFlags.parse] at h
    cases hs : flagStep s with
    | stop => simp [hs] at h
    | dashes => simp [hs] at h
    | bad e =>
      simp only [hs, Except.error.injEq] at h
      subst h
      exact ⟨[], s, [], rfl, .nothing, flagStep_help.mp hs⟩
    | take k => simp [hs] at h
    | set k v => simp [hs] at h
  | s :: v :: rest, f, h => by
    simp only [CliFlags.parse] at h
    cases hs : flagStep s with
    | stop => simp [hs] at h
    | dashes => simp [hs] at h
    | bad e =>
      simp only [hs, Except.error.injEq] at h
      subst h
      exact ⟨[], s, v :: rest, rfl, .nothing, flagStep_help.mp hs⟩
    | take k =>
      simp only [hs] at h
      obtain ⟨pre, x, post, rfl, h1, h2⟩ := go rest _ h
      obtain ⟨d, hd, rfl⟩ := flagStep_take.mp hs
      exact ⟨(d ++ k.text) :: v :: pre, x, post, rfl, .apart hd h1, h2⟩
    | set k x =>
      simp only [hs] at h
      obtain ⟨pre, y, post, he, h1, h2⟩ := go (v :: rest) _ h
      obtain ⟨d, hd, rfl⟩ := flagStep_set.mp hs
      exact ⟨(d ++ k.text ++ 61 :: x) :: pre, y, post, by rw [he]; rfl, .joined hd h1, h2⟩

theorem get_assign (f : CliFlags) (k k' : FlagName) (v : Bytes) : (f.assign k v).get k' = if k = k' then v else f.get k' := by
  cases k <;> cases k' <;> simp [CliFlags.assign, CliFlags.get]

theorem get_assignAll (k : FlagName) : ∀ (asg : List (FlagName × Bytes)) (f : CliFlags), (f.assignAll asg).get k = ((asg.filter fun a => a.1 = k).getLast?.map Prod.snd).getD (f.get k)
  | [], f => rfl
  | (k', v) :: asg, f => by
    have ih := get_assignAll k asg (f.assign k' v)
    have h0 : f.assignAll ((k', v) :: asg) = (f.assign k' v).assignAll asg := rfl
    rw [h0, ih, get_assign]
    by_cases hk : k' = k
    · subst hk
      simp only [if_true, List.filter_cons, decide_true]
      cases hf : asg.filter (fun a => a.1 = k') with
      | nil => simp
      | cons x xs =>
        cases hl : (x :: xs).getLast? with
        | none => simp at hl
        | some y => simp [List.getLast?_cons_cons, hl]
    · simp [hk]

/-- **C80.** The arguments are understood exactly if they spell out assignments; then every flag has the last value it was given, or its default. -/
theorem flags_meaning (args : List Bytes) :
    (∀ g pos, CliFlags.parse {} args = .ok (g, pos) → ∃ asg, Spelled args asg pos ∧ ∀ k, g.get k = flagValue asg k) ∧
    (∀ asg pos, Spelled args asg pos → ∃ g, CliFlags.parse {} args = .ok (g, pos) ∧ ∀ k, g.get k = flagValue asg k) := by
  constructor
  · intro g pos h
    obtain ⟨asg, h1, rfl⟩ := spelled_of_parse args h
    exact ⟨asg, h1, fun k => get_assignAll k asg {}⟩
  · intro asg pos h
    exact ⟨_, parse_spelled h {}, fun k => get_assignAll k asg {}⟩

/-! ## main -/

section
variable {C : Type} (E : MainEnv C) (F : Factory Builtin (Option Err) C) (env : JEnv) (n : Nat) (cv : Conv) (wr : Writer) (i : Input) (w : PWorld Heap)

theorem open_ok {f : CliFlags} {fs : Files} (h : Creatable E f) : ∃ fs1, openProfile E fs f.cpuProfile = some fs1 ∧ openProfile E fs1 f.memProfile = some (created f fs) := by
  obtain ⟨h1, h2⟩ := h
  by_cases hc : f.cpuProfile = []
  · refine ⟨fs, by simp [openProfile, hc], ?_⟩
    by_cases hm : f.memProfile = []
    · simp only [openProfile, hm, if_true, Option.some.injEq]
      funext name
      simp only [created, hc, hm]
      split
      · rename_i h0; simp_all
      · rfl
    · rcases h2 with h2 | h2
      · exact absurd h2 hm
      · simp only [openProfile, hm, if_false, h2, if_true, Option.some.injEq]
        funext name
        simp only [created, Files.set, hc]
        by_cases hn : name = f.memProfile
        · subst hn; simp [hm]
        · simp [hn]
  · rcases h1 with h1 | h1
    · exact absurd h1 hc
    · refine ⟨fs.set f.cpuProfile (.profile false), by simp [openProfile, hc, h1], ?_⟩
      by_cases hm : f.memProfile = []
      · simp only [openProfile, hm, if_true, Option.some.injEq]
        funext name
        simp only [created, Files.set, hm]
        by_cases hn : name = f.cpuProfile
        · subst hn; simp [hc]
        · simp [hn]
      · rcases h2 with h2 | h2
        · exact absurd h2 hm
        · simp only [openProfile, hm, if_false, h2, if_true, Option.some.injEq]
          funext name
          simp only [created, Files.set]
          by_cases hn : name = f.memProfile
          · subst hn; simp [hm]
          · by_cases hn' : name = f.cpuProfile
            · subst hn'; simp [hc, hn]
            · simp [hn, hn']

theorem open_fails {f : CliFlags} {fs : Files} (h : ¬ Creatable E f) : openProfile E fs f.cpuProfile = none ∨ ∃ fs1, openProfile E fs f.cpuProfile = some fs1 ∧ openProfile E fs1 f.memProfile = none := by
  unfold Creatable at h
  by_cases hc : f.cpuProfile = [] ∨ E.canCreate f.cpuProfile = true
  · right
    have hm : ¬ (f.memProfile = [] ∨ E.canCreate f.memProfile = true) := fun hm => h ⟨hc, hm⟩
    have hm' := not_or.mp hm
    have : ∃ fs1, openProfile E fs f.cpuProfile = some fs1 := by
      unfold openProfile
      split
      · exact ⟨_, rfl⟩
      · split
        · exact ⟨_, rfl⟩
        · rcases hc with hc | hc <;> contradiction
    obtain ⟨fs1, h1⟩ := this
    exact ⟨fs1, h1, by simp [openProfile, hm'.1, hm'.2]⟩
  · have hc' := not_or.mp hc
    exact .inl (by simp [openProfile, hc'.1, hc'.2])

theorem runDeferred_ok {f : CliFlags} {fs : Files} (h : Writable E f) (status : Nat) (cli : Option Cli) : runDeferred E f (created f fs) status cli = ⟨status, written f fs, cli⟩ := by
  obtain ⟨h1, h2⟩ := h
  have key : ∃ fs1, finishProfile E (created f fs) f.memProfile = some fs1 ∧ finishProfile E fs1 f.cpuProfile = some (written f fs) := by
    by_cases hm : f.memProfile = []
    · refine ⟨created f fs, by simp [finishProfile, hm], ?_⟩
      by_cases hc : f.cpuProfile = []
      · simp only [finishProfile, hc, if_true, Option.some.injEq]
        funext name
        simp only [created, written, hc, hm]
        split <;> simp_all
      · rcases h1 with h1 | h1
        · exact absurd h1 hc
        · simp only [finishProfile, hc, if_false, h1, if_true, Option.some.injEq]
          funext name
          simp only [created, written, Files.set, hm]
          by_cases hn : name = f.cpuProfile
          · subst hn; simp [hc]
          · simp only [hn, if_false, false_or]
            split <;> simp_all
    · rcases h2 with h2 | h2
      · exact absurd h2 hm
      · refine ⟨(created f fs).set f.memProfile (.profile true), by simp [finishProfile, hm, h2], ?_⟩
        by_cases hc : f.cpuProfile = []
        · simp only [finishProfile, hc, if_true, Option.some.injEq]
          funext name
          simp only [created, written, Files.set, hc]
          by_cases hn : name = f.memProfile
          · subst hn; simp [hm]
          · simp only [hn, if_false, or_false]
            split <;> simp_all
        · rcases h1 with h1 | h1
          · exact absurd h1 hc
          · simp only [finishProfile, hc, if_false, h1, if_true, Option.some.injEq]
            funext name
            simp only [created, written, Files.set]
            by_cases hn : name = f.cpuProfile
            · subst hn; simp [hc]
            · by_cases hn' : name = f.memProfile
              · subst hn'; simp [hm, hn]
              · simp [hn, hn']
  obtain ⟨fs1, k1, k2⟩ := key
  simp only [runDeferred, k1, k2]

theorem runDeferred_fails {f : CliFlags} {fs : Files} (h : ¬ Writable E f) (status : Nat) (cli : Option Cli) : (runDeferred E f fs status cli).status = 1 ∧ (runDeferred E f fs status cli).cli = cli := by
  unfold runDeferred
  split
  · exact ⟨rfl, rfl⟩
  · rename_i fs1 h1
    split
    · exact ⟨rfl, rfl⟩
    · rename_i fs2 h2
      exfalso
      apply h
      unfold finishProfile at h1 h2
      constructor
      · split at h2
        · exact .inl ‹_›
        · split at h2
          · exact .inr ‹_›
          · simp at h2
      · split at h1
        · exact .inl ‹_›
        · split at h1
          · exact .inr ‹_›
          · simp at h1


theorem main_help (args : List Bytes) (fs : Files) (h : CliFlags.parse {} args = .error .help) : mainRun E F env n cv wr i w args fs = ⟨0, fs, none⟩ := by
  simp [mainRun, h]

/-- **C80.** Arguments that are not understood: status 2 (0 if help is asked for), and nothing is touched. -/
theorem main_bad_flags {args : List Bytes} {e : FlagErr} (fs : Files) (h : CliFlags.parse {} args = .error e) : mainRun E F env n cv wr i w args fs = ⟨if e = .help then 0 else 2, fs, none⟩ := by
  cases e <;> simp [mainRun, h]

theorem main_uncreatable {args : List Bytes} {f : CliFlags} {pos : List Bytes} (fs : Files) (h : CliFlags.parse {} args = .ok (f, pos)) (hc : ¬ Creatable E f) :
    (mainRun E F env n cv wr i w args fs).status = 1 ∧ (mainRun E F env n cv wr i w args fs).cli = none := by
  simp only [mainRun, h]
  rcases open_fails E (fs := fs) hc with h1 | ⟨fs1, h1, h2⟩
  · simp [h1]
  · simp [h1, h2]

/-- What happens once the profiles have been created. -/
theorem main_created {args : List Bytes} {f : CliFlags} {pos : List Bytes} (fs : Files) (h : CliFlags.parse {} args = .ok (f, pos)) (hc : Creatable E f) :
    mainRun E F env n cv wr i w args fs = mainLoad E F env n cv wr i w f (created f fs) := by
  obtain ⟨fs1, h1, h2⟩ := open_ok E (fs := fs) hc
  simp only [mainRun, h, h1, h2]

theorem loads_iff {f : CliFlags} {fs : Files} {p : Pipeline Builtin (Option Err)} : Loads E F f fs p ↔ ∃ c, loadPipeline E (created f fs) f.pipeline = some c ∧ newOrPanic F c = .ok (.ok p) := by
  unfold Loads loadPipeline
  constructor
  · rintro ⟨file, c, h1, h2, h3⟩
    exact ⟨some c, by simp [h1, h2], h3⟩
  · rintro ⟨c, h1, h3⟩
    split at h1
    · simp at h1
    · rename_i file hf
      cases c with
      | none => simp [newOrPanic] at h3
      | some c => exact ⟨file, c, hf, h1, h3⟩

theorem refused_iff {f : CliFlags} {fs : Files} : Refused E F f fs ↔ loadPipeline E (created f fs) f.pipeline = none ∨ ∃ c e, loadPipeline E (created f fs) f.pipeline = some c ∧ newOrPanic F c = .ok (.error e) := by
  unfold Refused loadPipeline
  cases hf : created f fs f.pipeline with
  | none => simp
  | some file =>
    cases hd : E.decode file.read with
    | none => simp [hd]
    | some c =>
      cases c with
      | none => simp [hd, newOrPanic]
      | some c => simp [hd, newOrPanic]

/-- **C80.** The pipeline file cannot be read, is not understood or is refused: status 1, the input is not read, and profiles that were asked for are left empty. -/
theorem main_refused {args : List Bytes} {f : CliFlags} {pos : List Bytes} {fs : Files} (h : CliFlags.parse {} args = .ok (f, pos)) (hc : Creatable E f) (hr : Refused E F f fs) :
    mainRun E F env n cv wr i w args fs = ⟨1, created f fs, none⟩ := by
  rw [main_created E F env n cv wr i w fs h hc]
  rcases (refused_iff E F).mp hr with h1 | ⟨c, e, h1, h2⟩
  · simp [mainLoad, h1]
  · simp [mainLoad, h1, h2]

/-- **C80.** The pipeline is loaded: the rest is up to `processInput`. -/
theorem main_loaded {args : List Bytes} {f : CliFlags} {pos : List Bytes} {fs : Files} {p : Pipeline Builtin (Option Err)} (h : CliFlags.parse {} args = .ok (f, pos)) (hc : Creatable E f) (hl : Loads E F f fs p) :
    let r := processInput env n cv p wr i w
    let out := mainRun E F env n cv wr i w args fs
    out.cli = some r.1 ∧
    (r.2 = .done → Writable E f → out.status = 0 ∧ out.files = written f fs) ∧
    (r.2 = .panic → Writable E f → out.status = 2 ∧ out.files = written f fs) ∧
    (r.2 = .done ∨ r.2 = .panic → ¬ Writable E f → out.status = 1) ∧
    (∀ e, r.2 = .readFailed e → out.status = 1 ∧ out.files = created f fs) ∧
    (r.2 = .overflow → out.status = 2 ∧ out.files = created f fs) := by
  intro r out
  obtain ⟨c, h1, h2⟩ := (loads_iff E F).mp hl
  have ho : out = _ := main_created E F env n cv wr i w fs h hc
  simp only [mainLoad, h1, h2] at ho
  have hr : processInput env n cv p wr i w = r := rfl
  rw [hr] at ho
  clear_value out r
  obtain ⟨s, e⟩ := r
  subst ho
  by_cases hw : Writable E f
  · cases e <;> simp [hw, runDeferred_ok E hw]
  · cases e <;> simp [hw, runDeferred_fails E hw]

/-- **C80.** When the exit status is 0. -/
theorem main_zero_iff (args : List Bytes) (fs : Files) : (mainRun E F env n cv wr i w args fs).status = 0 ↔
    CliFlags.parse {} args = .error .help ∨
    ∃ f pos p, CliFlags.parse {} args = .ok (f, pos) ∧ Creatable E f ∧ Loads E F f fs p ∧ (processInput env n cv p wr i w).2 = .done ∧ Writable E f := by
  constructor
  · intro h
    cases hp : CliFlags.parse {} args with
    | error e =>
      rw [main_bad_flags E F env n cv wr i w fs hp] at h
      by_cases he : e = .help
      · exact .inl (by rw [he])
      · simp [he] at h
    | ok fp =>
      obtain ⟨f, pos⟩ := fp
      right
      refine ⟨f, pos, ?_⟩
      by_cases hc : Creatable E f
      · have ho := main_created E F env n cv wr i w fs hp hc
        cases h1 : loadPipeline E (created f fs) f.pipeline with
        | none => rw [ho] at h; simp [mainLoad, h1] at h
        | some c =>
          cases h2 : newOrPanic F c with
          | panic =>
            rw [ho] at h
            simp only [mainLoad, h1, h2] at h
            by_cases hw : Writable E f
            · rw [runDeferred_ok E hw] at h; simp at h
            · rw [(runDeferred_fails E hw _ _).1] at h; simp at h
          | ok r =>
            cases r with
            | error e => rw [ho] at h; simp [mainLoad, h1, h2] at h
            | ok p =>
              have hl := (loads_iff E F).mpr ⟨c, h1, h2⟩
              obtain ⟨m0, m1, m2, m3, m4, m5⟩ := main_loaded E F env n cv wr i w hp hc hl
              refine ⟨p, rfl, hc, hl, ?_⟩
              cases hr : (processInput env n cv p wr i w).2 with
              | done =>
                refine ⟨rfl, Classical.byContradiction fun hw => ?_⟩
                have := m3 (.inl hr) hw; omega
              | readFailed e => have := (m4 e hr).1; omega
              | overflow => have := (m5 hr).1; omega
              | panic =>
                by_cases hw : Writable E f
                · have := (m2 hr hw).1; omega
                · have := m3 (.inr hr) hw; omega
      · have := (main_uncreatable E F env n cv wr i w fs hp hc).1
        omega
  · rintro (h | ⟨f, pos, p, h, hc, hl, hd, hw⟩)
    · rw [main_help E F env n cv wr i w args fs h]
    · exact ((main_loaded E F env n cv wr i w h hc hl).2.1 hd hw).1

/-- **C80.** The input is read, and output written, exactly if the arguments are understood, the profiles can be created and the pipeline is loaded; then this is what `processInput` does with it. -/
theorem main_processes_iff (args : List Bytes) (fs : Files) (s : Cli) : (mainRun E F env n cv wr i w args fs).cli = some s ↔
    ∃ f pos p, CliFlags.parse {} args = .ok (f, pos) ∧ Creatable E f ∧ Loads E F f fs p ∧ s = (processInput env n cv p wr i w).1 := by
  constructor
  · intro h
    cases hp : CliFlags.parse {} args with
    | error e => rw [main_bad_flags E F env n cv wr i w fs hp] at h; simp at h
    | ok fp =>
      obtain ⟨f, pos⟩ := fp
      refine ⟨f, pos, ?_⟩
      by_cases hc : Creatable E f
      · have ho := main_created E F env n cv wr i w fs hp hc
        cases h1 : loadPipeline E (created f fs) f.pipeline with
        | none => rw [ho] at h; simp [mainLoad, h1] at h
        | some c =>
          cases h2 : newOrPanic F c with
          | panic =>
            rw [ho] at h
            simp only [mainLoad, h1, h2] at h
            by_cases hw : Writable E f
            · rw [runDeferred_ok E hw] at h; simp at h
            · rw [(runDeferred_fails E hw _ _).2] at h; simp at h
          | ok r =>
            cases r with
            | error e => rw [ho] at h; simp [mainLoad, h1, h2] at h
            | ok p =>
              have hl := (loads_iff E F).mpr ⟨c, h1, h2⟩
              have m0 := (main_loaded E F env n cv wr i w hp hc hl).1
              refine ⟨p, rfl, hc, hl, ?_⟩
              rw [m0] at h
              exact (Option.some.inj h).symm
      · rw [(main_uncreatable E F env n cv wr i w fs hp hc).2] at h; simp at h
  · rintro ⟨f, pos, p, h, hc, hl, rfl⟩
    exact (main_loaded E F env n cv wr i w h hc hl).1

/-- **C80.** A document that decodes to a nil configuration (YAML `null`) makes the program crash: status 2, although the profiles are still written. -/
theorem main_null_config {args : List Bytes} {f : CliFlags} {pos : List Bytes} {fs : Files} {file : FileC} (h : CliFlags.parse {} args = .ok (f, pos)) (hc : Creatable E f) (hf : created f fs f.pipeline = some file) (hd : E.decode file.read = some none) (hw : Writable E f) :
    mainRun E F env n cv wr i w args fs = ⟨2, written f fs, none⟩ := by
  rw [main_created E F env n cv wr i w fs h hc]
  simp only [mainLoad, loadPipeline, hf, hd, newOrPanic]
  exact runDeferred_ok E hw 2 none

/-- **C80.** If the pipeline file is also named as a profile, it is emptied before it is read: its contents are lost and the program ends with status 1 (an empty text is no YAML document). -/
theorem main_clobber {args : List Bytes} {f : CliFlags} {pos : List Bytes} (fs : Files) (h : CliFlags.parse {} args = .ok (f, pos)) (hc : Creatable E f) (hn : f.pipeline ≠ []) (hp : f.pipeline = f.cpuProfile ∨ f.pipeline = f.memProfile) (hd : E.decode [] = none) :
    (mainRun E F env n cv wr i w args fs).status = 1 ∧ (mainRun E F env n cv wr i w args fs).files f.pipeline = some (.profile false) ∧ (mainRun E F env n cv wr i w args fs).cli = none := by
  have hcr : created f fs f.pipeline = some (.profile false) := by
    unfold created; exact if_pos ⟨hn, hp⟩
  have hr : Refused E F f fs := .inr ⟨_, hcr, .inl hd⟩
  rw [main_refused E F env n cv wr i w h hc hr]
  exact ⟨rfl, hcr, rfl⟩

/-- **C80.** Without `-p` (no file has an empty name) the status is 1 and the input is not read. -/
theorem main_no_pipeline {args : List Bytes} {f : CliFlags} {pos : List Bytes} {fs : Files} (h : CliFlags.parse {} args = .ok (f, pos)) (hn : f.pipeline = []) (h0 : fs [] = none) :
    (mainRun E F env n cv wr i w args fs).status = 1 ∧ (mainRun E F env n cv wr i w args fs).cli = none := by
  by_cases hc : Creatable E f
  · have hr : Refused E F f fs := .inl (by simp [created, hn, h0])
    rw [main_refused E F env n cv wr i w h hc hr]
    exact ⟨rfl, rfl⟩
  · exact main_uncreatable E F env n cv wr i w fs h hc

theorem openProfile_others {fs fs' : Files} {name other : Bytes} (h : openProfile E fs name = some fs') (ho : other ≠ name) : fs' other = fs other := by
  unfold openProfile at h
  split at h
  · simp only [Option.some.injEq] at h; rw [h]
  · split at h
    · simp only [Option.some.injEq] at h; rw [← h]; simp [Files.set, ho]
    · simp at h

theorem finishProfile_others {fs fs' : Files} {name other : Bytes} (h : finishProfile E fs name = some fs') (ho : other ≠ name) : fs' other = fs other := by
  unfold finishProfile at h
  split at h
  · simp only [Option.some.injEq] at h; rw [h]
  · split at h
    · simp only [Option.some.injEq] at h; rw [← h]; simp [Files.set, ho]
    · simp at h

theorem runDeferred_others {f : CliFlags} {fs : Files} {other : Bytes} (h1 : other ≠ f.cpuProfile) (h2 : other ≠ f.memProfile) (status : Nat) (cli : Option Cli) : (runDeferred E f fs status cli).files other = fs other := by
  unfold runDeferred
  split
  · rfl
  · rename_i fs1 e1
    split
    · exact finishProfile_others E e1 h2
    · rename_i fs2 e2
      exact (finishProfile_others E e2 h1).trans (finishProfile_others E e1 h2)

/-- **C80.** No file but the two profiles is ever changed. -/
theorem main_other_files (args : List Bytes) (fs : Files) (other : Bytes) (h : ∀ f pos, CliFlags.parse {} args = .ok (f, pos) → other ≠ f.cpuProfile ∧ other ≠ f.memProfile) :
    (mainRun E F env n cv wr i w args fs).files other = fs other := by
  cases hp : CliFlags.parse {} args with
  | error e => rw [main_bad_flags E F env n cv wr i w fs hp]
  | ok fp =>
    obtain ⟨f, pos⟩ := fp
    obtain ⟨h1, h2⟩ := h f pos hp
    simp only [mainRun, hp]
    split
    · rfl
    · rename_i fs1 e1
      split
      · exact openProfile_others E e1 h1
      · rename_i fs2 e2
        have e : fs2 other = fs other := (openProfile_others E e2 h2).trans (openProfile_others E e1 h1)
        rw [← e]
        unfold mainLoad
        split
        · rfl
        · split
          · exact runDeferred_others E h1 h2 _ _
          · rfl
          · split
            · exact runDeferred_others E h1 h2 _ _
            · rfl
            · exact runDeferred_others E h1 h2 _ _
            · rfl

/-- **C80.** Lines that fail do not show in the status: if the input can be read, its lines are short enough, and none of them crashes the program, the status is 0 - whatever was logged. -/
theorem main_failing_lines {args : List Bytes} {f : CliFlags} {pos : List Bytes} {fs : Files} {p : Pipeline Builtin (Option Err)} (h : CliFlags.parse {} args = .ok (f, pos)) (hc : Creatable E f) (hl : Loads E F f fs p) (hw : Writable E f)
    (hp : p.Calls (Builtin.LeafConfig w.world)) (hi : ∀ c ∈ i.chunks, c ≠ []) (hf : i.fails = false)
    {ls : List Bytes} {last : Bytes} (hj : i.chunks.flatten = joinLines ls last) (hls : ∀ x ∈ ls, (10 : UInt8) ∉ x ∧ x.length < 65536) (hlast : (10 : UInt8) ∉ last ∧ last.length < 65536)
    (hcr : firstCrash (soloOutcomes env n cv p w 1 (linesOf ls last)) = none) :
    let out := mainRun E F env n cv (fun _ => none) i w args fs
    out.status = 0 ∧ out.cli.map (·.log) = some ((soloOutcomes env n cv p w 1 (linesOf ls last)).flatMap fun o => o.2.logged o.1) := by
  intro out
  obtain ⟨_, e2, e3⟩ := cli_spec env n cv p w hp hi hj hls hlast
  obtain ⟨m0, m1, _⟩ := main_loaded E F env n cv (fun _ => none) i w h hc hl
  rw [hcr, hf] at e3
  refine ⟨(m1 e3 hw).1, ?_⟩
  show (mainRun E F env n cv (fun _ => none) i w args fs).cli.map _ = _
  rw [m0, Option.map_some, e2]
  generalize soloOutcomes env n cv p w 1 (linesOf ls last) = os at hcr
  have : beforeCrash os = os := by
    have key : ∀ (l : List (Nat × LineOutcome)), (∀ x ∈ l, x.2.crash = none) → l.takeWhile (fun o => o.2.crash.isNone) = l := by
      intro l
      induction l with
      | nil => intro _; rfl
      | cons a l ih =>
        intro h
        simp [h a (by simp), ih fun x hx => h x (List.mem_cons_of_mem _ hx)]
    exact key os (by simpa [firstCrash] using hcr)
  rw [this]

end

/-! ## Examples -/

/-- The registry knows one processor: lowercase the field `a`, which no line has. -/
def mainFactory : Factory Builtin (Option Err) Unit where
  newProcessor := fun _ _ => .ok (.ok ⟨(Builtin.lowercase (lit "a") []).prog, some {}⟩)
  nilConfig := ()

def mainConfig : Config Unit := ⟨lit "x", [[(lit "lowercase", none)]], []⟩

/-- A text is a pipeline; the empty text is none; `null` is nil. -/
def mainEnv : MainEnv Unit where
  canCreate := fun name => name ≠ lit "/"
  canWrite := fun name => name ≠ lit "full"
  decode := fun bs => if bs = [] then none else if bs = lit "null" then some none else some (some mainConfig)

/-- The file `f` holds a pipeline, `n` holds `null`. -/
def mainFiles : Files := fun name => if name = lit "f" then some (.text (lit "id: x")) else if name = lit "n" then some (.text (lit "null")) else none

/-- **C80.** Examples of arguments. -/
theorem flags_sample :
    (∃ g, CliFlags.parse {} [lit "-p", lit "f", lit "--cpuprofile=a=b", lit "x", lit "-p=g"] = .ok (g, [lit "x", lit "-p=g"]) ∧ g.pipeline = lit "f" ∧ g.cpuProfile = lit "a=b" ∧ g.metricsAddr = lit "localhost:9003") ∧
    (∃ g, CliFlags.parse {} [lit "-p=f", lit "-p", lit "-h"] = .ok (g, []) ∧ g.pipeline = lit "-h") ∧
    CliFlags.parse {} [lit "-p=f", lit "-h=3"] = .error .help ∧
    CliFlags.parse {} [lit "-p=f", lit "-q"] = .error .undefined ∧
    CliFlags.parse {} [lit "---p"] = .error .badSyntax ∧
    CliFlags.parse {} [lit "-p"] = .error .needsArgument :=
  ⟨⟨_, rfl, rfl, rfl, rfl⟩, ⟨_, rfl, rfl⟩, rfl, rfl, rfl, rfl⟩

theorem mainPipeline_new : ∃ nodes, Pipeline.new mainFactory mainConfig = .ok (.ok ⟨lit "x", nodes, []⟩) ∧ nodes = [.mk (componentId (lit "x.processors") 0 (lit "lowercase")) [] false false [] (Builtin.lowercase (lit "a") []).prog] := ⟨_, rfl, rfl⟩

/-- The pipeline of `mainConfig`. -/
def mainPipeline : Pipeline Builtin (Option Err) := ⟨lit "x", [.mk (componentId (lit "x.processors") 0 (lit "lowercase")) [] false false [] (Builtin.lowercase (lit "a") []).prog], []⟩

theorem main_loads_sample (f : CliFlags) (hp : f.pipeline = lit "f") (h1 : f.cpuProfile ≠ lit "f") (h2 : f.memProfile ≠ lit "f") : Loads mainEnv mainFactory f mainFiles mainPipeline := by
  refine ⟨.text (lit "id: x"), mainConfig, ?_, rfl, rfl⟩
  rw [hp]
  have : ¬ (lit "f" ≠ [] ∧ (lit "f" = f.cpuProfile ∨ lit "f" = f.memProfile)) := fun h => h.2.elim (fun h => h1 h.symm) (fun h => h2 h.symm)
  rw [created, if_neg this]
  rfl

theorem main_calls_sample : mainPipeline.Calls (Builtin.LeafConfig markWorld.world) := ⟨⟨⟨⟨trivial, fun _ => trivial⟩, trivial⟩, trivial⟩, trivial⟩

theorem main_process_fails (i : Nat) (l : Bytes) : ∃ w r e, mainPipeline.process (builtinCall noConv) () ⟨(lineHeap (strCell (lit "m")) i l, some 2), noCounts, []⟩ = .ok (w, r, some e) := ⟨_, _, _, rfl⟩

theorem main_line_fails (i : Nat) (l : Bytes) (hl : ¬ Blank l) : ∃ e, soloOutcome bitsEnv 5 noConv mainPipeline markWorld i l = .failed e := by
  have ht : trimSpace l ≠ [] := fun h => hl ((trimSpace_blank_iff l).1 h)
  obtain ⟨w, r, e, h⟩ := main_process_fails i (trimSpace l)
  have : ∃ w r, handleLine noConv mainPipeline markWorld i (trimSpace l) = .ok (w, r) ∧ r.err = some e := by
    simp only [handleLine, markWorld, startWorld, lineEvent_start, h]
    exact ⟨_, _, rfl, rfl⟩
  obtain ⟨w', r', h1, h2⟩ := this
  exact ⟨e, by simp only [soloOutcome, if_neg ht, h1, h2]⟩

/-- **C80.** A run: every line fails, the status is 0, and the CPU profile is written. -/
theorem main_sample : let out := mainRun mainEnv mainFactory bitsEnv 5 noConv (fun _ => none) someInput markWorld [lit "-p", lit "f", lit "-cpuprofile=c"] mainFiles
    out.status = 0 ∧ out.files (lit "c") = some (.profile true) ∧ ∃ s, out.cli = some s ∧ s.out = [] ∧ s.log.length = 2 := by
  intro out
  obtain ⟨hj, hi, hls, hlast⟩ := someInput_ok
  have hp : CliFlags.parse {} [lit "-p", lit "f", lit "-cpuprofile=c"] = .ok ({ pipeline := lit "f", cpuProfile := lit "c" }, []) := rfl
  have hc : Creatable mainEnv { pipeline := lit "f", cpuProfile := lit "c" } := ⟨.inr rfl, .inl rfl⟩
  have hw : Writable mainEnv { pipeline := lit "f", cpuProfile := lit "c" } := ⟨.inr rfl, .inl rfl⟩
  have hl := main_loads_sample { pipeline := lit "f", cpuProfile := lit "c" } rfl (by decide) (by decide)
  obtain ⟨e1, h1⟩ := main_line_fails 1 (lit "x") (fun h => by have := (trimSpace_blank_iff _).2 h; revert this; decide)
  obtain ⟨e3, h3⟩ := main_line_fails 3 (lit "<y") (fun h => by have := (trimSpace_blank_iff _).2 h; revert this; decide)
  have h2 : soloOutcome bitsEnv 5 noConv mainPipeline markWorld 2 (lit " ") = .blank := by
    have : trimSpace (lit " ") = [] := by decide
    simp [soloOutcome, this]
  have hos : soloOutcomes bitsEnv 5 noConv mainPipeline markWorld 1 (linesOf [lit "x", lit " "] (lit "<y")) = [(1, .failed e1), (2, .blank), (3, .failed e3)] := by
    show [(1, _), (2, _), (3, _)] = _
    rw [h1, h2, h3]
  obtain ⟨m1, m2⟩ := main_failing_lines mainEnv mainFactory bitsEnv 5 noConv someInput markWorld hp hc hl hw main_calls_sample hi rfl hj hls hlast (by rw [hos]; rfl)
  obtain ⟨k0, k1, _⟩ := main_loaded mainEnv mainFactory bitsEnv 5 noConv (fun _ => none) someInput markWorld hp hc hl
  obtain ⟨c1, c2, c3⟩ := cli_spec bitsEnv 5 noConv mainPipeline markWorld main_calls_sample hi hj hls hlast
  rw [hos] at c1 c2 c3
  refine ⟨m1, ?_, _, k0, c1, by rw [c2]; rfl⟩
  rw [(k1 c3 hw).2]
  rfl

/-- **C80.** Runs that go wrong: the pipeline file named as a profile, a null document, no `-p`, a profile that cannot be created, and one that cannot be written. -/
theorem main_sample_fails :
    (let out := mainRun mainEnv mainFactory bitsEnv 5 noConv (fun _ => none) someInput markWorld [lit "-p", lit "f", lit "-cpuprofile=f"] mainFiles
     out.status = 1 ∧ out.files (lit "f") = some (.profile false)) ∧
    (mainRun mainEnv mainFactory bitsEnv 5 noConv (fun _ => none) someInput markWorld [lit "-p", lit "n", lit "-memprofile", lit "m"] mainFiles).status = 2 ∧
    (mainRun mainEnv mainFactory bitsEnv 5 noConv (fun _ => none) someInput markWorld [] mainFiles).status = 1 ∧
    (mainRun mainEnv mainFactory bitsEnv 5 noConv (fun _ => none) someInput markWorld [lit "-p", lit "f", lit "-memprofile", lit "/"] mainFiles).status = 1 ∧
    (mainRun mainEnv mainFactory bitsEnv 5 noConv (fun _ => none) someInput markWorld [lit "-p", lit "n", lit "-memprofile", lit "full"] mainFiles).status = 1 :=
  ⟨⟨rfl, rfl⟩, rfl, rfl, rfl, rfl⟩

end Sawmill
